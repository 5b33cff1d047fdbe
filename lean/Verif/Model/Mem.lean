import Mathlib.Logic.Function.Basic
import Mathlib.Data.List.Basic
/-!
# Memory used by the C parts of the code

`malloc`, `free` and pointer accesses as used by `switss/utils/graph.pyx`, `stack.pyx` and `treaps.pyx`.  `malloc` does
not fail and every address is used for one block only, so a block that was given back is never confused with a later
one.  An operation that has no defined result in C is an error.
-/

namespace Verif.Model.Mem

/-- a C pointer, `none` is `NULL` -/
abbrev Ptr := Option Nat

/-- operations without defined result; `fuel` ends a computation that took more steps than allowed -/
inductive MemErr
  | null | afterFree | outOfBounds | uninit | wrongType | fuel
  deriving DecidableEq

/-- graph.pyx:16-19 `Node` -/
structure NodeC where
  preds : Ptr
  succs : Ptr
  predcount : Nat
  succcount : Nat

/-- graph.pyx:21-23 `TarjanNode`; a field that was not written yet is `none`, the index `-1` is `some none` -/
structure TCell where
  index : Option (Option Nat)
  low : Option Nat
  on : Option Bool

/-- a block from `malloc`; the entries of an array that were not written yet are `none` -/
inductive Block (K : Type)
  /-- `int*` (no code stores a negative number there) -/
  | ints (l : List (Option Nat))
  /-- graph.pyx:14 `SAPPair*` -/
  | saps (l : List (Option (Nat × Nat × K)))
  /-- graph.pyx:30 `Node*` -/
  | nodes (l : List (Option NodeC))
  /-- graph.pyx:151 `TarjanNode*` -/
  | tarjan (l : List (Option TCell))
  /-- graph.pyx:203 `TNode**` -/
  | ptrs (l : List (Option Ptr))
  /-- stack.pyx:4-6 `IntStack` -/
  | cell (element : Nat) (btm : Ptr)
  /-- stack.pyx:8-10 `TreapStack` -/
  | tcell (element btm : Ptr)
  /-- treaps.pxd:3-8 `TNode` -/
  | tnode (key : Nat) (heap : Int) (size : Nat) (left right : Ptr)

/-- the blocks that are in use, and the next address -/
structure Heap (K : Type) where
  next : Nat
  live : Nat → Option (Block K)

/-- a computation on the memory -/
abbrev M (K α : Type) := StateT (Heap K) (Except MemErr) α

variable {K α : Type}

/-- an operation without defined result -/
def fail (e : MemErr) : M K α := fun _ => .error e

/-- `malloc`, followed by the first contents -/
def alloc (b : Block K) : M K Nat := fun h =>
  .ok (h.next, ⟨h.next + 1, Function.update h.live h.next (some b)⟩)

/-- the block of a pointer -/
def readB : Ptr → M K (Block K)
  | none => fail .null
  | some a => fun h =>
    match h.live a with
    | none => .error .afterFree
    | some b => .ok (b, h)

/-- new contents for a block -/
def writeB : Ptr → Block K → M K Unit
  | none, _ => fail .null
  | some a, b => fun h =>
    match h.live a with
    | none => .error .afterFree
    | some _ => .ok ((), ⟨h.next, Function.update h.live a (some b)⟩)

/-- `free(p)`; for `NULL` nothing happens -/
def free : Ptr → M K Unit
  | none => pure ()
  | some a => fun h =>
    match h.live a with
    | none => .error .afterFree
    | some _ => .ok ((), ⟨h.next, Function.update h.live a none⟩)

/-- the kinds of arrays -/
structure Arr (K α : Type) where
  get : Block K → Option (List (Option α))
  blk : List (Option α) → Block K
  get_blk : ∀ l, get (blk l) = some l

/-- `int*` -/
def intA : Arr K Nat := ⟨fun | .ints l => some l | _ => none, .ints, fun _ => rfl⟩
/-- `SAPPair*` -/
def sapA : Arr K (Nat × Nat × K) := ⟨fun | .saps l => some l | _ => none, .saps, fun _ => rfl⟩
/-- `Node*` -/
def nodeA : Arr K NodeC := ⟨fun | .nodes l => some l | _ => none, .nodes, fun _ => rfl⟩
/-- `TarjanNode*` -/
def tarjanA : Arr K TCell := ⟨fun | .tarjan l => some l | _ => none, .tarjan, fun _ => rfl⟩
/-- `TNode**` -/
def ptrA : Arr K Ptr := ⟨fun | .ptrs l => some l | _ => none, .ptrs, fun _ => rfl⟩

/-- `<T*> malloc(n * sizeof(T))` -/
def allocArr (A : Arr K α) (n : Nat) : M K Nat := alloc (A.blk (List.replicate n none))

/-- the contents of an array -/
def readArr (A : Arr K α) (p : Ptr) : M K (List (Option α)) := do
  let b ← readB p
  match A.get b with
  | none => fail .wrongType
  | some l => pure l

/-- `p[i]` -/
def load (A : Arr K α) (p : Ptr) (i : Nat) : M K α := do
  let l ← readArr A p
  match l[i]? with
  | none => fail .outOfBounds
  | some none => fail .uninit
  | some (some v) => pure v

/-- `p[i] = v` -/
def store (A : Arr K α) (p : Ptr) (i : Nat) (v : α) : M K Unit := do
  let l ← readArr A p
  if i < l.length then writeB p (A.blk (l.set i (some v))) else fail .outOfBounds

/-- a field that must have been written -/
def known : Option α → M K α
  | none => fail .uninit
  | some v => pure v

end Verif.Model.Mem
