import Verif.Model.TreeAlgo
/-!
# `switss/utils/tree_decomp.pyx`: the memory of the tree algorithm

The blocks that `min_witnesses_from_tree_decomp` and `handle_subsys` get from `malloc` and give back with `free`.
Numbers are left out: which combination of points is dropped at which test is a parameter (`Verdict`).  Every address
is used for one block only; `malloc` does not fail.  Writes to arrays of numbers whose index runs below the
length given to `malloc` in the same function are left out.
-/

namespace Verif.Model.TreeDecomp.Mem
open Verif.Model

/-- a C pointer, `none` is `NULL` -/
abbrev Ptr := Option Nat

/-- an entry of a block: a pointer, or a `Point` (tree_decomp.pyx:38-41) without its number of states -/
structure Cell where
  probs : Ptr
  no : Nat
  deriving DecidableEq

/-- an operation without defined result -/
inductive MemErr
  | null | afterFree | outOfBounds
  deriving DecidableEq

/-- the blocks that are in use, and the next address -/
structure Heap where
  next : Nat
  live : Nat → Option (List Cell)

/-- `malloc` of an array with `n` entries -/
def malloc (h : Heap) (n : Nat) : Heap × Nat :=
  (⟨h.next + 1, Function.update h.live h.next (some (List.replicate n ⟨none, 0⟩))⟩, h.next)

/-- the block of a pointer -/
def block (h : Heap) : Ptr → Except MemErr (List Cell)
  | none => .error .null
  | some a =>
    match h.live a with
    | none => .error .afterFree
    | some b => .ok b

/-- `p[i]` -/
def load (h : Heap) (p : Ptr) (i : Nat) : Except MemErr Cell := do
  let b ← block h p
  match b[i]? with
  | none => .error .outOfBounds
  | some c => .ok c

/-- `p[i] = c` -/
def store (h : Heap) (p : Ptr) (i : Nat) (c : Cell) : Except MemErr Heap := do
  let b ← block h p
  if i < b.length then .ok ⟨h.next, Function.update h.live (p.getD 0) (some (b.set i c))⟩ else .error .outOfBounds

/-- `free(p)`; for `NULL` nothing happens -/
def free (h : Heap) : Ptr → Except MemErr Heap
  | none => .ok h
  | some a => do
    let _ ← block h (some a)
    .ok ⟨h.next, Function.update h.live a none⟩

/-- tree_decomp.pyx:61-72 `py_to_c_probs` for a dictionary with `l` entries -/
def pyToCProbs (h : Heap) (l : Nat) : Heap × Ptr :=
  if l = 0 then (h, none) else ((malloc h l).1, some (malloc h l).2)

/-- tree_decomp.pyx:81-84: the loop; the list has the numbers of entries of `in_probs` -/
def fillPoints (a : Nat) : List Nat → Nat → Heap → Except MemErr Heap
  | [], _, h => .ok h
  | k :: ks, i, h => do
    let r := pyToCProbs h k
    let h ← store r.1 (some a) i ⟨r.2, k⟩
    fillPoints a ks (i + 1) h

/-- tree_decomp.pyx:74-85 `py_to_c_points` -/
def pyToCPoints (h : Heap) (pts : List Nat) : Except MemErr (Heap × Ptr) :=
  if pts.length = 0 then .ok (h, none) else do
    let r := malloc h pts.length
    let h ← fillPoints r.2 pts 0 r.1
    .ok (h, some r.2)

/-- tree_decomp.pyx:234-238: the loop -/
def fillSucs (a : Nat) : List (List Nat) → Nat → Heap → Except MemErr Heap
  | [], _, h => .ok h
  | pts :: l, i, h => do
    let r ← pyToCPoints h pts
    let h ← store r.1 (some a) i ⟨r.2, 0⟩
    fillSucs a l (i + 1) h

/-- tree_decomp.pyx:232-243: `suc_points_c`; `sucs` has one list of points for each successor -/
def allocSucs (h : Heap) (sucs : List (List Nat)) : Except MemErr (Heap × Nat) :=
  if sucs.length > 0 then do
    let r := malloc h sucs.length
    let h ← fillSucs r.2 sucs 0 r.1
    .ok (h, r.2)
  else do
    let r := malloc h 1
    let q ← pyToCPoints r.1 [0]
    let h ← store q.1 (some r.2) 0 ⟨q.2, 0⟩
    .ok (h, r.2)

/-- `memcpy` of `n` entries from `p`: they must be there (for `n = 0` nothing is read) -/
def readable (h : Heap) (p : Ptr) (n : Nat) : Except MemErr Unit :=
  if n = 0 then .ok () else do
    let b ← block h p
    if n ≤ b.length then .ok () else .error .outOfBounds

/-- tree_decomp.pyx:94-106 `add_points_c` -/
def addPoints (h : Heap) (p1 p2 : Cell) : Except MemErr (Heap × Cell) := do
  let r := malloc h (p1.no + p2.no)
  readable r.1 p1.probs p1.no
  readable r.1 p2.probs p2.no
  .ok (r.1, ⟨some r.2, p1.no + p2.no⟩)

/-- tree_decomp.pyx:87-92 `get_point`: the loop over the successors from number `i` on; `it` has the remaining
entries of the iterator -/
def getPointFrom (arr : Nat) : List Nat → Nat → Heap → Cell → Except MemErr (Heap × Cell)
  | [], _, h, cur => .ok (h, cur)
  | j :: it, i, h, cur => do
    let p ← load h (some arr) i
    let q ← load h p.probs j
    let r ← addPoints h cur q
    getPointFrom arr it (i + 1) r.1 r.2

/-- what happens to a combination of points: too many states (530-532), too small a probability (562-564), kept -/
inductive Verdict
  | tooMany | below | kept
  deriving DecidableEq

/-- tree_decomp.pyx:518-575: the loop over the combinations; `new` is `no_new_points`, `sp` the block
`subsys_points`.  (The array `points_iterator` is the list `it`, which has one entry for each successor.) -/
def rounds (arr sp inpDim : Nat) (sizes : List Nat) : List Verdict → List Nat → Nat → Heap → Except MemErr (Heap × Nat)
  | [], _, new, h => .ok (h, new)
  | v :: vs, it, new, h => do
    let r ← getPointFrom arr it 0 h ⟨none, 0⟩
    match v with
    | .tooMany => rounds arr sp inpDim sizes vs (increase sizes it) new r.1
    | .below => do
      let h ← free r.1 r.2.probs
      rounds arr sp inpDim sizes vs (increase sizes it) new h
    | .kept => do
      let h ← free r.1 r.2.probs
      let q := malloc h inpDim
      let h ← store q.1 (some sp) new ⟨some q.2, inpDim⟩
      rounds arr sp inpDim sizes vs (increase sizes it) (new + 1) h

/-- tree_decomp.pyx:463-582 `handle_subsys` for a subsystem with `n` states -/
def handleMem (arr sp inpDim : Nat) (sizes : List Nat) (n : Nat) (vs : List Verdict) (h : Heap) :
    Except MemErr (Heap × Nat) := do
  let iter := malloc h (max sizes.length 1)
  let reach := malloc iter.1 n
  let pArr := malloc reach.1 (n * n)
  let target := malloc pArr.1 n
  let ipiv := malloc target.1 n
  let r ← rounds arr sp inpDim sizes vs (List.replicate sizes.length 0) 0 ipiv.1
  let h ← free r.1 (some iter.2)
  let h ← free h (some pArr.2)
  let h ← free h (some ipiv.2)
  let h ← free h (some target.2)
  .ok (h, r.2)

/-- tree_decomp.pyx:54-57: the loop of `free_mem` from number `i` on -/
def freeProbs (p : Ptr) : Nat → Nat → Heap → Except MemErr Heap
  | 0, _, h => .ok h
  | n + 1, i, h => do
    let c ← load h p i
    let h ← free h c.probs
    freeProbs p n (i + 1) h

/-- tree_decomp.pyx:50-59 `free_mem` -/
def freeMem (h : Heap) (p : Ptr) (n : Nat) : Except MemErr Heap :=
  if p = none then .ok h else do
    let h ← freeProbs p n 0 h
    free h p

/-- a subsystem: its number of states, and what happens to the combination visited in round `i` -/
structure Subsys where
  states : Nat
  verdict : Nat → Verdict

/-- tree_decomp.pyx:264-313: the loop over the subsystems -/
def subsystems (arr inpDim : Nat) (sizes : List Nat) : List Subsys → Heap → Except MemErr Heap
  | [], h => .ok h
  | m :: ms, h => do
    let sp := malloc h sizes.prod
    let r ← handleMem arr sp.2 inpDim sizes m.states ((List.range sizes.prod).map m.verdict) sp.1
    let h ← freeMem r.1 (some sp.2) r.2
    subsystems arr inpDim sizes ms h

/-- tree_decomp.pyx:320-322: the loop that gives the points of the successors back; `suc_points_c` itself is freed in
every round -/
def freeSucs (arr : Nat) : List Nat → Nat → Heap → Except MemErr Heap
  | [], _, h => .ok h
  | n :: ns, i, h => do
    let p ← load h (some arr) i
    let h ← freeMem h p.probs n
    let h ← free h (some arr)
    freeSucs arr ns (i + 1) h

/-- tree_decomp.pyx:227-322: the memory of one part; `sucs` has for each successor the numbers of entries of its
points.  A timeout or an exception ends the loop earlier. -/
def partMem (sucs : List (List Nat)) (inpDim : Nat) (ms : List Subsys) (h : Heap) : Except MemErr Heap := do
  let sizes := sucs.map List.length
  let arr ← allocSucs h sucs
  let h ← subsystems arr.2 inpDim sizes ms arr.1
  if sucs.length = 0 then do
    let p ← load h (some arr.2) 0
    let h ← freeMem h p.probs 1
    free h (some arr.2)
  else freeSucs arr.2 sizes 0 h

/-- tree_decomp.pyx:218-322: all parts in the given order.  The points kept for a part (335-386) and its subsystems are
parameters. -/
def allMem {K : Type} [Field K] [LinearOrder K] (c : Chain K) (parts : List (List Nat)) (points : Nat → List Nat)
    (inpDim : Nat → Nat) (ms : Nat → List Subsys) : List Nat → Heap → Except MemErr Heap
  | [], h => .ok h
  | p :: ps, h => do
    let h ← partMem ((sucs c parts p).map points) (inpDim p) (ms p) h
    allMem c parts points inpDim ms ps h

end Verif.Model.TreeDecomp.Mem
