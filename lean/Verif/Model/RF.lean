import Verif.Model.System
import Verif.Model.Milp
/-!
# `switss/model/reachability_form.py`: the reachability form object, its constraint systems and LPs
-/

namespace Verif.Model

variable {K : Type} [Field K] [LinearOrder K]

namespace Sys

/-- reachability_form.py:222-227: the single state with label `l` -/
def uniqueState (M : Sys K) (l : String) : Except Err Nat :=
  match M.statesByLabel l with
  | .error e => .error e
  | .ok [s] => .ok s
  | .ok _ => .error .assertion

/-- reachability_form.py:230-237 for one of target (`off = 2`) and fail (`off = 1`): one successor,
itself, in row `C-off`, the state being number `N-off` -/
def checkAbsorbing (M : Sys K) (s off : Nat) : Except Err Unit :=
  match M.graph.successors s with
  | [(t, a, _)] =>
    if t = s then
      match M.idx.get? (t, a) with
      | none => .error .keyError
      | some r => if r + off = M.C ∧ s + off = M.N then .ok () else .error .assertion
    else .error .assertion
  | _ => .error .assertion

/-- reachability_form.py:201-247 `assert_consistency` -/
def assertConsistency (M : Sys K) (il tl fl : String) : Except Err Unit :=
  if il = tl ∨ il = fl ∨ tl = fl then .error .assertion else do
    let i ← M.uniqueState il
    let t ← M.uniqueState tl
    let f ← M.uniqueState fl
    M.checkAbsorbing t 2
    M.checkAbsorbing f 1
    let fwd ← M.reachableMask [i] true []
    if ∀ x < M.N, fwd.getD x false = true ∨ x = f then do
      let bwd ← M.reachableMask [t] false []
      if ∀ x < M.N, (bwd.getD x false = true ↔ x ≠ f) then .ok () else .error .assertion
    else .error .assertion

end Sys

/-- Attributes set in reachability_form.py:39-67.  `P`, `A`, `to_target` are views of `sys.P` (below);
`idx` is the index without the last two rows. -/
structure RF (K : Type) where
  sys : Sys K
  initial : Nat
  initL : String
  targetL : String
  failL : String
  idx : Dict (Nat × Nat) Nat
  mec : Nat → Nat
  proper : Nat → Bool
  nmec : Nat

/-- `del bidict.inv[v]` -/
def delInv {α β : Type} [DecidableEq α] [DecidableEq β] (d : Dict α β) (v : β) :
    Except Err (Dict α β) :=
  match invGet? d v with
  | none => .error .keyError
  | some k => .ok (d.del k)

namespace RF

/-- reachability_form.py:23-68 `__init__`.  `ρ` are the random numbers used by the end component
computation.  Building the identity matrix (562-571, called in line 52) needs a state `< N-2` for every
row.  The end component computation never runs out of fuel (C07). -/
def make (ρ : Graph.Rnd) (M : Sys K) (il tl fl : String) (ignore : Bool) : Except Err (RF K) := do
  if ignore then .ok () else M.assertConsistency il tl fl
  let is ← M.statesByLabel il
  let init ← match is with
    | [] => .error .stopIteration
    | s :: _ => .ok s
  let d1 ← delInv M.idx (M.C - 2)
  let d2 ← delInv d1 (M.C - 1)
  if ∀ i < M.C - 2, (invGet? d2 i).isSome then
    if ∀ i < M.C - 2, ∀ sa, invGet? d2 i = some sa → sa.1 < M.N - 2 then
      match M.graph.maximalEndComponents ρ with
      | none => .error .indexError
      | some (mec, proper, cnt) => .ok ⟨M, init, il, tl, fl, d2, mec, proper, cnt⟩
    else .error .indexError
  else .error .keyError

/-- `C,N = self.__P.shape` -/
def C (rf : RF K) : Nat := rf.sys.C - 2
def N (rf : RF K) : Nat := rf.sys.N - 2

/-- reachability_form.py:42 `P` -/
def P (rf : RF K) (i j : Nat) : K := rf.sys.P.get i j

/-- reachability_form.py:53 `to_target` -/
def b (rf : RF K) (i : Nat) : K := rf.sys.P.get i (rf.sys.N - 2)

/-- `index_by_state_action.inv[i][0]` -/
def rowState (rf : RF K) (i : Nat) : Option Nat := (invGet? rf.idx i).map Prod.fst

/-- reachability_form.py:52, 562-571: `A = I - P` -/
def A (rf : RF K) (i j : Nat) : K := (if rf.rowState i = some j then 1 else 0) - rf.P i j

/-- reachability_form.py:195-199 `in_proper_ec` -/
def inProperEC (rf : RF K) (s : Nat) : Bool := rf.proper (rf.mec s)

/-- reachability_form.py:176-186 `nr_of_proper_mecs`, `is_ec_free`: as many proper components as there are
absorbing states goal and fail -/
def isEcFree (rf : RF K) : Bool := ((List.range rf.nmec).filter rf.proper).length = 2

/-- unit vector of the initial state; assigning `delta[initial]` with `initial >= N` raises
`IndexError` (checked in `farkZ`, `farkY`) -/
def delta (rf : RF K) (j : Nat) : K := if j = rf.initial then 1 else 0

/-- reachability_form.py:495-526 `fark_z_constraints` on a fresh object: `[A; -δ]`, `[b; -t]` -/
def farkZ (rf : RF K) (t : K) : Except Err (Mat K × List K) :=
  if rf.initial < rf.N then
    .ok (⟨rf.C + 1, rf.N, fun i j => if i < rf.C then rf.A i j else -rf.delta j⟩,
      (List.range rf.C).map rf.b ++ [-t])
  else .error .indexError

/-- reachability_form.py:528-560 `fark_y_constraints` on a fresh object: `[A, -b]ᵀ`, `[δ; -t]`.
(With `initial = N` the assignment `rhs[initial]` would not raise; see `make`: an initial state that is
the target state only occurs for `N = 0`; the model raises in both cases.) -/
def farkY (rf : RF K) (t : K) : Except Err (Mat K × List K) :=
  if rf.initial < rf.N then
    .ok (⟨rf.N + 1, rf.C, fun i j => if i < rf.N then rf.A j i else -rf.b j⟩,
      (List.range rf.N).map rf.delta ++ [-t])
  else .error .indexError

/-- reachability_form.py:573-603 `max_z_state`: the LP that is handed to the solver -/
def maxZLP (rf : RF K) : Except Err (Milp K) := do
  let (m, rhs) ← rf.farkZ 0
  let lp ← Milp.lpFromCoefficients m rhs (List.replicate rf.N 1) .le true
  lp.addConstraints ((List.range rf.N).flatMap fun s =>
    if rf.inProperEC s then [([(s, 1)], .eq, 0)] else [([(s, 1)], .ge, 0), ([(s, 1)], .le, 1)])

/-- reachability_form.py:605-623 `max_z_state_action`, from the answer of `max_z_state` -/
def maxZStateAction (rf : RF K) (x : Nat → K) (i : Nat) : K :=
  ((List.range rf.N).map fun j => rf.P i j * x j).sum + rf.b i

/-- reachability_form.py:625-648 `max_y_state_action`: the LP -/
def maxYLP (rf : RF K) : Except Err (Milp K) := do
  let (m, rhs) ← rf.farkY 0
  let lp ← Milp.lpFromCoefficients m rhs ((List.range rf.C).map rf.b) .le true
  lp.addConstraints ((List.range rf.C).map fun i => ([(i, 1)], .ge, 0))

/-- reachability_form.py:666-673 `max_y_state`, from the answer of `max_y_state_action`: starts with 1 at
the initial state -/
def maxYState (rf : RF K) (y : Nat → K) : Nat → K :=
  (List.range rf.C).foldl (fun v i =>
    match rf.rowState i with
    | some s => Function.update v s (v s + y i)
    | none => v) rf.delta

/-- reachability_form.py:686-707 `pr_max`: the LP -/
def prMaxLP (rf : RF K) : Except Err (Milp K) := do
  let (m, rhs) ← rf.farkZ 1
  let lp ← Milp.lpFromCoefficients m rhs (List.replicate rf.N 1) .ge false
  lp.addConstraints ((List.range rf.N).flatMap fun s => [([(s, 1)], .ge, 0), ([(s, 1)], .le, 1)])

end RF

/-! ### the cached constraint systems -/

/-- caches `__fark_z_*`, `__fark_y_*` of an RF object: the right-hand sides are arrays on a heap (shared
with whoever received them), the matrices are never modified -/
structure Cache (K : Type) where
  z : Option (Mat K × Nat)
  y : Option (Mat K × Nat)
  heap : List (List K)

/-- a call of one of the constraint methods -/
inductive FarkCall (K : Type)
  | z (t : K)
  | y (t : K)

namespace Cache

/-- reachability_form.py:63-66 -/
def empty : Cache K := ⟨none, none, []⟩

/-- `rhs[i] = v` on a shared array -/
def write (c : Cache K) (r i : Nat) (v : K) : Cache K :=
  { c with heap := c.heap.modify r fun l => l.set i v }

/-- reachability_form.py:512-526, 544-560: a cached system gets the new threshold written into its
right-hand side; otherwise it is built -/
def call (rf : RF K) (c : Cache K) : FarkCall K → Except Err (Mat K × Nat) × Cache K
  | .z t =>
    match c.z with
    | some (m, r) => (.ok (m, r), c.write r rf.C (-t))
    | none =>
      match rf.farkZ t with
      | .error e => (.error e, c)
      | .ok (m, l) => (.ok (m, c.heap.length), { c with z := some (m, c.heap.length), heap := c.heap ++ [l] })
  | .y t =>
    match c.y with
    | some (m, r) => (.ok (m, r), c.write r rf.N (-t))
    | none =>
      match rf.farkY t with
      | .error e => (.error e, c)
      | .ok (m, l) => (.ok (m, c.heap.length), { c with y := some (m, c.heap.length), heap := c.heap ++ [l] })

def run (rf : RF K) : Cache K → List (FarkCall K) → Cache K
  | c, [] => c
  | c, o :: os => run rf (c.call rf o).2 os

end Cache
end Verif.Model
