import Verif.Model.Graph
/-!
# Nested calls in `switss/utils/graph.pyx` and `treaps.pyx`

`Model/Graph` once more, with the largest number of calls that are active at the same time: the code is compiled to C
functions that call themselves, and each active call occupies a part of the C stack, whose size is limited.  Counted are
the functions that call themselves (`strongconnect`, `in_treap`, `split_treap`, `insert`, `free_treap`, `fill_array`); calls of
the other functions (`push`, `pop`, `add_to_treap`, `malloc`, …) add a constant number of calls and are left out.
-/
namespace Verif.Model

namespace Treap
variable {α : Type} [LinearOrder α]

/-- treaps.pyx:24-32: nested calls of `in_treap` -/
def memD : Treap α → α → Nat
  | nil, _ => 1
  | node k _ _ l r, x => if x = k then 1 else if x < k then l.memD x + 1 else r.memD x + 1

/-- treaps.pyx:34-51: nested calls of `split_treap` -/
def splitD : Treap α → α → Nat
  | nil, _ => 1
  | node k _ _ l r, x => if x = k then 1 else if x < k then l.splitD x + 1 else r.splitD x + 1

/-- treaps.pyx:53-78: nested calls of `insert` and `split_treap` -/
def insertD : Treap α → α → Int → Nat
  | nil, _, _ => 1
  | node k h n l r, x, hx =>
    if k = x then 1
    else if h > hx then
      if k > x then l.insertD x hx + 1 else r.insertD x hx + 1
    else splitD (node k h n l r) x + 1

/-- treaps.pyx:90-95 `free_treap` and 104-115 `fill_array`: both descend into both children -/
def walkD : Treap α → Nat
  | nil => 1
  | node _ _ _ l r => max l.walkD r.walkD + 1

/-- the largest number of nested calls during successive calls of `add_to_treap` -/
def addAllD : Treap α → List (α × Int) → Nat
  | _, [] => 0
  | t, (x, h) :: xs => max (t.insertD x h) (addAllD (t.insert x h) xs)

end Treap

namespace Graph
variable {K : Type}

/-- largest element of a list of numbers, 0 for the empty list -/
def maxD (xs : List Nat) : Nat := xs.foldr max 0

/-- `mkTreap` with the nested calls of its insertions -/
def mkTreapD {α : Type} [LinearOrder α] (h : Nat → Int) (xs : List α) : Nat :=
  Treap.addAllD Treap.nil (xs.zipIdx.map fun p => (p.1, h p.2))

/-- graph.pyx:101-113, 130: nested calls of the functions on treaps that one call of `strongconnect` makes: looking up the
successors in the subgraph, filling, asking and freeing the treap of bad actions -/
def localD (g : Graph K) (T : Treap Nat) (h : Nat → Int) (v : Nat) : Nat :=
  maxD [maxD ((g.succ v).map fun t => T.memD t.1),
    mkTreapD h (((g.succ v).filter fun t => !T.mem t.1).map fun t => t.2.1),
    maxD ((g.succ v).map fun t => (badActions (g.succ v) T h).memD t.2.1),
    (badActions (g.succ v) T h).walkD]

/-- graph.pyx:89-132: `strongconnect` together with the nested calls: one for the call itself, and the largest number needed
by the calls it makes.  `loc v` are those on treaps (`localD`). -/
def strongconnectD (adj : Nat → List Nat) (loc : Nat → Nat) : Nat → Nat → TState → TState × Nat
  | 0, _, st => (st, 0)
  | fuel + 1, v, st =>
    let r := (adj v).foldl (fun (q : TState × Nat) w =>
      match q.1.idx w with
      | none =>
        let r := strongconnectD adj loc fuel w q.1
        ({ r.1 with low := Function.update r.1.low v (min (r.1.low v) (r.1.low w)) }, max q.2 r.2)
      | some k =>
        (if q.1.on w then { q.1 with low := Function.update q.1.low v (min (q.1.low v) k) } else q.1, q.2))
      (openNode v st, loc v)
    (closeNode v r.1, r.2 + 1)

/-- graph.pyx:136-174: `sccOf` together with the nested calls (those of `treap_to_arr` included) -/
def sccOfD (g : Graph K) (T : Treap Nat) (h : Nat → Nat → Int) (low0 : Nat → Nat) (on0 : Nat → Bool) :
    ((Nat → Nat) × Nat) × Nat :=
  let q := T.toList.foldl (fun (q : TState × Nat) r =>
      match q.1.idx r with
      | none =>
        let s := strongconnectD (fun v => g.adj T (h v) v) (fun v => g.localD T (h v) v) (g.n + 1) r q.1
        (s.1, max q.2 s.2)
      | some _ => q)
    (⟨fun _ => none, low0, on0, [], 0, fun _ => 0, 1⟩, T.walkD)
  ((q.1.sccs, q.1.cnt - 1), q.2)

/-- graph.pyx:242-246: the nested calls when `component` is filled -/
def componentD (arr : List Nat) (sccs : Nat → Nat) (h : Nat → Int) (j : Nat) : Nat :=
  mkTreapD h (arr.filter fun v => sccs v - 1 = j)

/-- graph.pyx:207-255: `mecLoop` together with the nested calls.  The treap of single states is filled here one by one; its
calls are counted in `maximalEndComponentsD`. -/
def mecLoopD (g : Graph K) (ρ : Rnd) : Nat → MState → Nat → Option (MState × Nat)
  | _, ⟨[], ret, cnt, singles, tid⟩, d => some (⟨[], ret, cnt, singles, tid⟩, d)
  | 0, ⟨_ :: _, _, _, _, _⟩, _ => none
  | fuel + 1, ⟨T :: work, ret, cnt, singles, tid⟩, d =>
    let arr := T.toList
    let r := g.sccOfD T (ρ.bad tid) (ρ.low0 tid) (ρ.on0 tid)
    if r.1.2 = 1 then
      mecLoopD g ρ fuel
        ⟨work, arr.foldl (fun ret v => Function.update ret v cnt) ret, cnt + 1,
          (if T.size = 1 then singles ++ [cnt] else singles), tid + 1⟩ (maxD [d, T.walkD, r.2])
    else
      mecLoopD g ρ fuel
        ⟨((List.range r.1.2).map fun j => component arr r.1.1 (ρ.comp (tid + j)) j).reverse ++ work,
          ret, cnt, singles, tid + r.1.2 + 1⟩
        (maxD [d, T.walkD, r.2, maxD ((List.range r.1.2).map fun j => componentD arr r.1.1 (ρ.comp (tid + j)) j)])

/-- graph.pyx:276-290: the nested calls when the actions of a single state are collected and freed -/
def singletonD (g : Graph K) (ρ : Rnd) (v : Nat) : Nat :=
  let all := (g.succ v).map fun t => t.2.1
  let non := ((g.succ v).filter fun t => t.1 ≠ v).map fun t => t.2.1
  maxD [mkTreapD (ρ.act v) all, mkTreapD (ρ.act' v) non, (mkTreap (ρ.act v) all).walkD, (mkTreap (ρ.act' v) non).walkD]

/-- graph.pyx:180-296: `maximal_end_components` together with the largest number of calls active at the same time -/
def maximalEndComponentsD (g : Graph K) (ρ : Rnd) : Option (((Nat → Nat) × (Nat → Bool) × Nat) × Nat) :=
  (mecLoopD g ρ (2 * g.n)
    ⟨[mkTreap ρ.top (List.range g.n)], fun _ => 0, 0, [], 0⟩ (mkTreapD ρ.top (List.range g.n))).map fun q =>
    ((q.1.ret, g.properMecs ρ q.1, q.1.cnt),
      maxD [q.2, mkTreapD ρ.singles q.1.singles, (mkTreap ρ.singles q.1.singles).walkD,
        maxD ((List.range g.n).map fun v => maxD [(mkTreap ρ.singles q.1.singles).memD (q.1.ret v),
          if (mkTreap ρ.singles q.1.singles).mem (q.1.ret v) then g.singletonD ρ v else 0])])

end Graph
end Verif.Model
