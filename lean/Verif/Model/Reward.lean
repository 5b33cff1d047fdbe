import Verif.Model.Reduce
import Verif.Model.Problem
/-!
# `switss/model/reward_reachability_form.py`: `RewardReachabilityForm`

Printing (lines 91-93) is not modelled.  Reward vectors are numpy arrays.
-/

namespace Verif.Model

variable {K : Type} [Field K] [LinearOrder K]

/-- `sum(proper_mecs)` -/
def properCount (r : (Nat → Nat) × (Nat → Bool) × Nat) : Nat := ((List.range r.2.2).filter r.2.1).length

/-- attributes set in reward_reachability_form.py:12-26; `A`, `P`, `system`, the labels and `initial` are those
of the underlying form -/
structure RRF (K : Type) where
  rf : RF K
  rew : List K
  idx : Dict (Nat × Nat) Nat

namespace RRF

/-- reward_reachability_form.py:12-26 `__init__` -/
def make (rf : RF K) (rew : List K) : Except Err (RRF K) := do
  let d1 ← delInv rf.sys.idx (rf.sys.C - 2)
  let d2 ← delInv d1 (rf.sys.C - 1)
  .ok ⟨rf, rew, d2⟩

/-- reward_reachability_form.py:71-95 `assert_reachform_consistency` -/
def assertReachform (ρ : Graph.Rnd) (rf : RF K) : Except Err Unit :=
  match rf.sys.rew with
  | none => .error .assertion
  | some _ => do
    let bwd ← rf.sys.reachableMask [rf.sys.N - 1] false []
    if ∀ x < rf.sys.N, (bwd.getD x false = true ↔ x = rf.sys.N - 1) then
      match rf.sys.graph.maximalEndComponents ρ with
      | none => .error .indexError
      | some r => if properCount r = 2 then .ok () else .error .assertion
    else .error .assertion

/-- reward_reachability_form.py:98-142 `assert_system_consistency` -/
def assertSystem (ρ : Graph.Rnd) (M : Sys K) (il tl : String) : Except Err Unit :=
  match M.rew with
  | none => .error .assertion
  | some _ =>
    if il = tl then .error .assertion else do
      let i ← M.uniqueState il
      let t ← M.uniqueState tl
      M.checkAbsorbing t 1
      let fwd ← M.reachableMask [i] true []
      if ∀ x < M.N, fwd.getD x false = true then do
        let bwd ← M.reachableMask [t] false []
        if ∀ x < M.N, bwd.getD x false = true then
          match M.graph.maximalEndComponents ρ with
          | none => .error .indexError
          | some r => if properCount r = 1 ∧ r.2.1 (r.1 t) = true then .ok () else .error .assertion
        else .error .assertion
      else .error .assertion

/-- reward_reachability_form.py:45-59 `fromsystem`: line 51 reads `system.P.N`, an attribute that a
`dok_matrix` does not have; nothing after it is executed -/
def fromSystem (ρ : Graph.Rnd) (M : Sys K) (il tl : String) (ignore : Bool) : Except Err (RRF K) := do
  if ignore then .ok () else assertSystem ρ M il tl
  .error .attributeError

/-- the triple returned by `reduce` -/
structure Result (K : Type) where
  rrf : RRF K
  cols : Dict Nat Nat
  rows : Dict (Nat × Nat) (Nat × Nat)

/-- reward_reachability_form.py:62-68 `reduce`; the arguments `new_target_label`, `debug` and
`ignore_consistency_checks` are not used.  `ρ`, `ρ'` are the random numbers of the two end component
computations. -/
def reduce (ρ ρ' : Graph.Rnd) (M : Sys K) (il tl : String) : Except Err (Result K) := do
  let r ← M.reduce ρ il tl "rf_target" "rf_fail"
  assertReachform ρ' r.rf
  match r.rf.sys.rew with
  | none => .error .typeError
  | some v => do
    let x ← make r.rf (v.take (v.length - 2))
    .ok ⟨x, r.cols, r.rows⟩

/-- `C,N = self.__P.shape` -/
def C (x : RRF K) : Nat := x.rf.C
def N (x : RRF K) : Nat := x.rf.N

/-- reward_reachability_form.py:163-189 `fark_z_constraints`; `resize(C+1)` cuts or pads with zeros -/
def farkZ (x : RRF K) (t : K) : Except Err (Mat K × List K) :=
  if x.rf.initial < x.N then
    .ok (⟨x.C + 1, x.N, fun i j => if i < x.C then x.rf.A i j else -x.rf.delta j⟩,
      ((List.range x.C).map fun i => x.rew.getD i 0) ++ [-t])
  else .error .indexError

/-- reward_reachability_form.py:191-218 `fark_y_constraints`; `hstack` needs as many rewards as rows.  (See the
remark at `RF.farkY` about `initial`.) -/
def farkY (x : RRF K) (t : K) : Except Err (Mat K × List K) :=
  if x.rf.initial < x.N then
    if x.rew.length = x.C then
      .ok (⟨x.N + 1, x.C, fun i j => if i < x.N then x.rf.A j i else -x.rew.getD j 0⟩,
        (List.range x.N).map x.rf.delta ++ [-t])
    else .error .valueError
  else .error .indexError

/-- reward_reachability_form.py:144-161 `fark_constraints` -/
def farkConstraints (x : RRF K) (t : K) : Mode → Except Err (Mat K × List K)
  | .min => x.farkZ t
  | .max => x.farkY t

/-- reward_reachability_form.py:220-248 `max_z_state`, `rew_min`: the LP -/
def maxZLP (x : RRF K) : Except Err (Milp K) := do
  let (m, rhs) ← x.farkZ 0
  let lp ← Milp.lpFromCoefficients m rhs (List.replicate x.N 1) .le true
  lp.addConstraints ((List.range x.N).map fun s => ([(s, 1)], .ge, 0))

/-- reward_reachability_form.py:250-270 `max_z_state_action`, from the answer of `max_z_state` -/
def maxZStateAction (x : RRF K) (v : Nat → K) (i : Nat) : K :=
  ((List.range x.N).map fun j => x.rf.P i j * v j).sum + x.rew.getD i 0

/-- reward_reachability_form.py:272-297 `max_y_state_action`: the LP -/
def maxYLP (x : RRF K) : Except Err (Milp K) := do
  let (m, rhs) ← x.farkY 0
  let lp ← Milp.lpFromCoefficients m rhs x.rew .le true
  lp.addConstraints ((List.range x.C).map fun i => ([(i, 1)], .ge, 0))

/-- reward_reachability_form.py:299-323 `max_y_state`, from the answer of `max_y_state_action` -/
def maxYState (x : RRF K) (y : Nat → K) : Nat → K :=
  (List.range x.C).foldl (fun v i =>
    match (invGet? x.idx i).map Prod.fst with
    | some s => Function.update v s (v s + y i)
    | none => v) x.rf.delta

/-- reward_reachability_form.py:336-359 `rew_max`: the LP -/
def rewMaxLP (x : RRF K) : Except Err (Milp K) := do
  let lp ← Milp.lpFromCoefficients ⟨x.C, x.N, x.rf.A⟩ x.rew (List.replicate x.N 1) .ge false
  lp.addConstraints ((List.range x.N).map fun s => ([(s, 1)], .ge, 0))

/-- a `Subsystem` object made from a reward form (subsystem.py:17-46) -/
structure Sub (K : Type) where
  form : RRF K
  cert : List K
  mode : Mode

/-- subsystem.py:34-39 -/
def mkSub (x : RRF K) (c : List K) (m : Mode) : Except Err (Sub K) :=
  match m with
  | .max => if c.length = x.rf.sys.C - 2 then .ok ⟨x, c, m⟩ else .error .assertion
  | .min => if c.length = x.rf.sys.N - 2 then .ok ⟨x, c, m⟩ else .error .assertion

/-- a reward form as argument of the functions in `switss/problem`; the index is a private attribute (line 20)
for which there is no property -/
def form (x : RRF K) : Form (Sub K) K where
  sys := x.rf.sys
  idx := x.idx
  hasIdx := false
  fark := x.farkConstraints
  inProperEC _ := false
  isEcFree := true
  isRF := false
  mkSub := x.mkSub

end RRF
end Verif.Model
