import Mathlib.Order.Defs.LinearOrder
import Mathlib.Data.List.Basic
/-!
# `switss/utils/treaps.pyx`

`α` are the (integer) tree keys.  Nodes are immutable here; the code updates them in place, but no
node is shared between two live treaps.  `free_treap` (90-95, see `Model/TreapMem`) and the unused `treap_from_arr`
(97-102, which does not terminate on non-empty arrays) are not modelled.
-/

namespace Verif.Model

/-- treaps.pxd:3-8 `TNode*`; `NULL` is `nil` -/
inductive Treap (α : Type)
  | nil
  | node (key : α) (heap : Int) (size : Nat) (left right : Treap α)
  deriving DecidableEq, Repr

namespace Treap
variable {α : Type} [LinearOrder α]

/-- the `size` field, 0 for `NULL` -/
def size : Treap α → Nat
  | nil => 0
  | node _ _ n _ _ => n

/-- treaps.pyx:11-22 `update_size_from_successors` on a node with the given fields -/
def mkNode (k : α) (h : Int) (l r : Treap α) : Treap α := node k h (r.size + l.size + 1) l r

/-- treaps.pyx:24-32 `in_treap` -/
def mem : Treap α → α → Bool
  | nil, _ => false
  | node k _ _ l r, x => if x = k then true else if x < k then l.mem x else r.mem x

/-- treaps.pyx:34-51 `split_treap` -/
def split : Treap α → α → Treap α × Treap α
  | nil, _ => (nil, nil)
  | node k h _ l r, x =>
    if x = k then (l, r)
    else if x < k then
      let (a, b) := l.split x
      (a, mkNode k h b r)
    else
      let (a, b) := r.split x
      (mkNode k h l a, b)

/-- treaps.pyx:53-78 `insert`; the new node is given by its key and heap key -/
def insert : Treap α → α → Int → Treap α
  | nil, x, hx => node x hx 1 nil nil
  | node k h n l r, x, hx =>
    if k = x then node k h n l r
    else if h > hx then
      if k > x then mkNode k h (l.insert x hx) r else mkNode k h l (r.insert x hx)
    else
      let (a, b) := split (node k h n l r) x
      mkNode x hx a b

/-- treaps.pyx:104-115 `fill_array`: preorder -/
def toList : Treap α → List α
  | nil => []
  | node k _ _ l r => k :: (l.toList ++ r.toList)

/-- successive `add_to_treap` calls (80-88) with the heap keys delivered by `rand()` -/
def addAll : Treap α → List (α × Int) → Treap α
  | t, [] => t
  | t, (x, h) :: xs => addAll (t.insert x h) xs

end Treap
end Verif.Model
