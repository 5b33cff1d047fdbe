import Verif.Model.Subsystem
import Verif.Spec.Solver
/-!
# `switss/problem`: formulations.py, milpexact.py, qsheur.py, qsheurparams.py, problemform.py, tree_algo.py

Solver calls are parameters.  Sets are duplicate free lists in the order in which Python happens to iterate
them.  The computation of minimal witnesses from a tree decomposition is a parameter of `treeAlgo`.
-/

namespace Verif.Model

variable {K : Type} [Field K] [LinearOrder K] {σ : Type}

/-- what the functions below use of a reachability form `rf`: `rf.system`, `rf.index_by_state_action`,
`rf.fark_constraints`, `rf.in_proper_ec`, `rf.is_ec_free`, `isinstance(rf,ReachabilityForm)` and
`Subsystem(rf,cert,mode)`.  `hasIdx`: whether the object has an attribute `index_by_state_action`
(reachability_form.py:139-142 defines it; reward_reachability_form.py does not). -/
structure Form (σ K : Type) where
  sys : Sys K
  idx : Dict (Nat × Nat) Nat
  hasIdx : Bool
  fark : K → Mode → Except Err (Mat K × List K)
  inProperEC : Nat → Bool
  isEcFree : Bool
  isRF : Bool
  mkSub : List K → Mode → Except Err σ

/-- reachability_form.py:478-493 `fark_constraints` (a cached system is the same as a new one: C18) -/
def RF.farkConstraints (rf : RF K) (t : K) : Mode → Except Err (Mat K × List K)
  | .min => rf.farkZ t
  | .max => rf.farkY t

/-- a `ReachabilityForm` -/
def RF.form (rf : RF K) : Form (Subsystem K) K where
  sys := rf.sys
  idx := rf.idx
  hasIdx := true
  fark := rf.farkConstraints
  inProperEC := rf.inProperEC
  isEcFree := rf.isEcFree
  isRF := true
  mkSub c m := Subsystem.make rf c m false

namespace Form

/-- formulations.py:11-26 `certificate_size` -/
def certSize (f : Form σ K) : Mode → Nat
  | .min => f.sys.N - 2
  | .max => f.sys.C - 2

end Form

/-- formulations.py:48-53: the LP for the upper bounds -/
def upperBoundLP (m : Mat K) (rhs : List K) : Except Err (Milp K) := do
  let lp ← Milp.lpFromCoefficients m rhs (List.replicate m.cols 1) .le true
  lp.addConstraints ((List.range m.cols).map fun i => ([(i, 1)], .ge, 0))

/-- formulations.py:28-63 `compute_upper_bounds` -/
def computeUpperBounds (solver : Milp K → Answer K) (m : Mat K) (rhs : List K) : Except Err (Status × List K) := do
  let lp ← upperBoundLP m rhs
  let r := solver lp
  if r.status = .unbounded then .error .assertion
  else if m.cols + 1 = m.rows then .ok (r.status, r.vec)
  else .ok (r.status, List.replicate m.cols r.value)

/-- formulations.py:84-88 -/
def groupsByState (f : Form σ K) : Except Err (Dict Nat (List Nat)) :=
  (List.range (f.certSize .max)).foldlM (fun d i =>
    if f.hasIdx then
      match invGet? f.idx i with
      | none => .error .keyError
      | some (s, _) => .ok (IDict.addTo d s i)
    else .error .attributeError) []

/-- formulations.py:92-96 -/
def groupsMin (f : Form σ K) (labels : List String) : Except Err (Dict String (List Nat)) :=
  labels.foldlM (fun d l => do
    let ss ← f.sys.statesByLabel l
    .ok (d.set l ss)) []

/-- formulations.py:98-106 -/
def groupsMax (f : Form σ K) (labels : List String) : Except Err (Dict String (List Nat)) :=
  labels.foldlM (fun d l => do
    let ss ← f.sys.statesByLabel l
    ss.foldlM (fun d s => do
      let abs ← f.sys.actionsByState
      let as ← abs.getItem s
      as.foldlM (fun d a =>
        match f.sys.idx.get? (s, a) with
        | none => .error .keyError
        | some i => .ok (IDict.addTo d l i)) d) d) []

/-- formulations.py:66-106 `groups_from_labels`: the groups in the order of `.items()`; their names are not
used by the caller -/
def groupsFromLabels (f : Form σ K) (mode : Mode) (labels : Option (List String)) (groupActions : Bool) :
    Except Err (List (List Nat)) :=
  match labels, mode with
  | none, .max => if groupActions then (groupsByState f).map (·.map Prod.snd)
      else .ok ((List.range (f.certSize .max)).map fun i => [i])
  | none, .min => .ok ((List.range (f.certSize .min)).map fun i => [i])
  | some ls, .min => (groupsMin f ls).map (·.map Prod.snd)
  | some ls, .max => (groupsMax f ls).map (·.map Prod.snd)

/-- formulations.py:148-155, one variable of a group -/
def linkVar (ub : Option (List K)) (ind : Nat) (m : Milp K) (var : Nat) : Except Err (Milp K) := do
  let c ← match ub with
    | none => .ok 1
    | some u => match u[var]? with
      | none => .error .indexError
      | some c => .ok c
  let (_, m') ← m.addConstraint [(var, 1), (ind, -c)] .le 0
  .ok m'

/-- formulations.py:145-155, one group -/
def addIndicator (dom : Dom) (ub : Option (List K)) (st : Milp K × List (Nat × List Nat)) (g : List Nat) :
    Except Err (Milp K × List (Nat × List Nat)) :=
  match st.1.addVariablesWB [(dom, some 0, ub.map fun _ => 1)] with
  | (.many _, _) => .error .typeError
  | (.one v, m) => do
    let m' ← g.foldlM (linkVar ub v) m
    .ok (m', st.2 ++ [(v, g)])

/-- formulations.py:108-159 `add_indicator_constraints`.  With `use_real_indicator_constrs` line 136 calls the
method `isinstance`, which no model has. -/
def addIndicators (m : Milp K) (ub : Option (List K)) (groups : List (List Nat)) (real : Bool) (dom : Dom) :
    Except Err (Milp K × List (Nat × List Nat)) :=
  if real then .error .attributeError
  else groups.foldlM (addIndicator dom ub) (m, [])

/-- formulations.py:229-237, one variable -/
def varBound (f : Form σ K) (mode : Mode) (ub : Option (List K)) (j : Nat) : Except Err (Option K × Option K) :=
  if mode = .min ∧ f.inProperEC j = true then .ok (some 0, some 0)
  else match ub with
    | none => .ok (some 0, none)
    | some u => match u[j]? with
      | none => .error .indexError
      | some c => .ok (some 0, some c)

/-- formulations.py:201-213: `none` if the polytope is found to be empty -/
def chooseBounds (f : Form σ K) (lpSolver : Milp K → Answer K) (mode : Mode) (m : Mat K) (rhs : List K)
    (known : Option (List K)) : Except Err (Option (Option (List K))) :=
  if mode = .min ∧ f.isRF = true ∧ known = none then .ok (some (some (List.replicate (f.certSize mode) 1)))
  else if f.isEcFree then do
    let (status, u) ← computeUpperBounds lpSolver m rhs
    match status with
    | .infeasible => .ok none
    | .optimal => .ok (some (some u))
    | _ => .ok (some known)
  else .ok (some known)

/-- formulations.py:215-255: the model for given upper bounds -/
def buildMILP (f : Form σ K) (mode : Mode) (labels : Option (List String)) (relaxed : Bool) (be : Backend)
    (m : Mat K) (rhs : List K) (ub : Option (List K)) : Except Err (Milp K × List (Nat × List Nat)) := do
  let real := relaxed = false ∧ mode = .max ∧ ub = none
  if real ∧ be ≠ .gurobi then .error .assertion else .ok ()
  let groups ← groupsFromLabels f mode labels (decide (mode = .max ∧ relaxed = false))
  let n := f.certSize mode
  let bounds ← (List.range n).mapM (varBound f mode ub)
  let mo ← Milp.fromCoefficients be m rhs (List.replicate n 0) (List.replicate n .real) .le false (some bounds)
  let (mo, ind) ← addIndicators mo ub groups (decide real) (if relaxed then .real else .binary)
  let mo ← mo.setObjective (ind.map fun e => (e.1, 1))
  .ok (mo, ind)

/-- formulations.py:162-255 `construct_MILP`; `none` stands for `(None, None)`; lpSolver is used for the upper
bounds -/
def constructMILP (f : Form σ K) (lpSolver : Milp K → Answer K) (t : K) (mode : Mode) (labels : Option (List String))
    (relaxed : Bool) (known : Option (List K)) (be : Backend) : Except Err (Option (Milp K × List (Nat × List Nat))) := do
  let (m, rhs) ← f.fark t mode
  match ← chooseBounds f lpSolver mode m rhs known with
  | none => .ok none
  | some ub => do
    let r ← buildMILP f mode labels relaxed be m rhs ub
    .ok (some r)

/-! ### results -/

/-- status of a `ProblemResult`: "success" or the status of the solver -/
inductive PStatus
  | success
  | failed (s : Status)
  deriving DecidableEq, Repr

/-- problemresult.py -/
structure ProblemResult (σ K : Type) where
  status : PStatus
  subsystem : Option σ
  value : Option K
  cert : Option (List K)

/-- what a generator does: the results it yields and the exception with which it ends, if any -/
abbrev Run (σ K : Type) := List (ProblemResult σ K) × Option Err

/-- `ProblemResult(status, None, None, None)` -/
def failure (s : Status) : ProblemResult σ K := ⟨.failed s, none, none, none⟩

/-- milpexact.py:56-75 `MILPExact._solveiter`; `lpSolver` answers the LP for the upper bounds, `solver` the MILP -/
def milpExact (f : Form σ K) (lpSolver solver : Milp K → Answer K) (t : K) (mode : Mode) (labels : Option (List String))
    (be : Backend) : Run σ K :=
  match constructMILP f lpSolver t mode labels false none be with
  | .error e => ([], some e)
  | .ok none => ([failure .infeasible], none)
  | .ok (some (m, _)) =>
    let r := solver m
    if r.status = .optimal then
      let cert := r.vec.take (f.certSize mode)
      match f.mkSub cert mode with
      | .error e => ([], some e)
      | .ok w => ([⟨.success, some w, some r.value, some cert⟩], none)
    else ([failure r.status], none)

/-- qsheurparams.py:49-115 `Updater`: `update` and `constraints` applied to a result vector -/
structure Updater (K : Type) where
  update : List K → Except Err (List (Nat × K))
  constraints : List K → Except Err (List (List (Nat × K) × CSense × K))

/-- qsheur.py:104-122: the remaining iterations.  `solver k` answers the call that is `k` iterations from the
end. -/
def qsLoop (f : Form σ K) (solver : Nat → Milp K → Answer K) (mode : Mode) (upd : Updater K) :
    Nat → Milp K → List (Nat × K) → Run σ K
  | 0, _, _ => ([], none)
  | k + 1, m, obj =>
    match m.setObjective obj with
    | .error e => ([], some e)
    | .ok m =>
      let r := solver k m
      if r.status = .optimal then
        let cert := r.vec.take (f.certSize mode)
        match f.mkSub cert mode with
        | .error e => ([], some e)
        | .ok w =>
          let out := ⟨.success, some w, some (((r.vec.drop (f.certSize mode)).countP fun x => decide (0 < x) : Nat) : K), some cert⟩
          match (do
            let obj' ← upd.update r.vec
            let cs ← upd.constraints r.vec
            let m' ← m.addConstraints cs
            .ok (m', obj')) with
          | .error e => ([out], some e)
          | .ok (m', obj') =>
            let rest := qsLoop f solver mode upd k m' obj'
            (out :: rest.1, rest.2)
      else ([failure r.status], none)

/-- qsheur.py:80-122 `QSHeur._solveiter`; `ini`, `upd` make the initial objective and the updater from the
indicators -/
def qsHeur (f : Form σ K) (lpSolver : Milp K → Answer K) (solver : Nat → Milp K → Answer K) (iterations : Nat)
    (ini : List (Nat × List Nat) → Except Err (List (Nat × K))) (upd : List (Nat × List Nat) → Updater K)
    (t : K) (mode : Mode) (labels : Option (List String)) (be : Backend) : Run σ K :=
  match constructMILP f lpSolver t mode labels true none be with
  | .error e => ([], some e)
  | .ok none => ([failure .infeasible], none)
  | .ok (some (m, ind)) =>
    match ini ind with
    | .error e => ([], some e)
    | .ok obj => qsLoop f solver mode (upd ind) iterations m obj

/-- problemform.py:55-95 `solveiter`: the assertions, then the method -/
def solveIter (f : Form σ K) (t : K) (run : Run σ K) : Run σ K :=
  if 0 ≤ t then
    if f.isRF = true → t ≤ 1 then run else ([], some .assertion)
  else ([], some .assertion)

/-- problemform.py:18-53 `solve`: `deque(…, maxlen=1).pop()` -/
def solveLast (run : Run σ K) : Except Err (ProblemResult σ K) :=
  match run.2 with
  | some e => .error e
  | none =>
    match run.1.getLast? with
    | none => .error .indexError
    | some r => .ok r

/-! ### qsheurparams.py -/

/-- `last_result[group]` -/
def at! (v : List K) (i : Nat) : Except Err K :=
  match v[i]? with
  | none => .error .indexError
  | some x => .ok x

/-- qsheurparams.py:128-129 `AllOnesInitializer.initialize` with the default weights -/
def allOnes (ind : List (Nat × List Nat)) : Except Err (List (Nat × K)) := .ok (ind.map fun e => (e.1, 1))

/-- qsheurparams.py:147: `C` -/
def bigC (xs : List K) : K :=
  min (((xs.filter fun x => x ≠ 0).map fun x => 1 / x).foldl max (max 0 (10 ^ 8))) (10 ^ 9)

/-- qsheurparams.py:146-149 `InverseResultUpdater.update`; `w` are the weights (all 1 by default).  The weight is
not applied to removed groups. -/
def inverseUpdate (w : Nat → K) (ind : List (Nat × List Nat)) (v : List K) : Except Err (List (Nat × K)) := do
  let xs ← ind.mapM fun e => at! v e.1
  .ok (ind.zip xs |>.map fun e => (e.1.1, if 0 < e.2 then w e.1.1 * min (1 / e.2) (bigC xs) else bigC xs))

/-- qsheurparams.py:131-152 -/
def inverseResultUpdater (w : Nat → K) (ind : List (Nat × List Nat)) : Updater K :=
  ⟨inverseUpdate w ind, fun _ => .ok []⟩

/-- qsheurparams.py:156-157 -/
def fixedUpdate (w : Nat → K) (ind : List (Nat × List Nat)) (v : List K) : Except Err (List (Nat × K)) := do
  let xs ← ind.mapM fun e => at! v e.1
  .ok (ind.zip xs |>.map fun e => (e.1.1, if 0 < e.2 then w e.1.1 / e.2 else 0))

/-- qsheurparams.py:159-167 -/
def fixedConstraints (ind : List (Nat × List Nat)) (v : List K) : Except Err (List (List (Nat × K) × CSense × K)) := do
  let xs ← ind.mapM fun e => at! v e.1
  .ok ((ind.zip xs).filter (fun e => e.2 = 0) |>.map fun e => ([(e.1.1, 1)], .eq, 0))

/-- qsheurparams.py:154-167 -/
def fixedZerosUpdater (w : Nat → K) (ind : List (Nat × List Nat)) : Updater K :=
  ⟨fixedUpdate w ind, fixedConstraints ind⟩

/-- qsheurparams.py:215-224 `InverseReachabilityInitializer.initialize`; `pr` is the vector computed in the
constructor -/
def inverseReachability (w : Nat → K) (pr : List K) (ind : List (Nat × List Nat)) : Except Err (List (Nat × K)) :=
  ind.mapM fun e => do
    let ps ← e.2.mapM (at! pr)
    if e.2.length = 0 then .error .zeroDivision
    else
      let p := ps.sum / (e.2.length : K)
      .ok (e.1, w e.1 * min (10 ^ 9) (if 0 < p then 1 / p else 10 ^ 9))

/-- qsheurparams.py:244-252, 273-281 `InverseFrequencyInitializer.initialize`,
`InverseCombinedInitializer.initialize`; `ev` is the vector computed in the constructor -/
def inverseFrequency (w : Nat → K) (ev : List K) (ind : List (Nat × List Nat)) : Except Err (List (Nat × K)) :=
  ind.mapM fun e => do
    let ps ← e.2.mapM (at! ev)
    .ok (e.1, if 0 < ps.sum then w e.1 * min (10 ^ 9) (1 / ps.sum) else 10 ^ 8)

/-! ### tree_algo.py -/

/-- tree_algo.py:25-57 `TreeAlgo._solveiter`.  `qsMax`, `qsMin` are the results of the two `QSHeur.solve` calls
(made only if no upper bound is known); `tree` is `min_witnesses_from_tree_decomp` for the given upper bound,
which returns -1 after a timeout.  After reporting a failure the generator continues. -/
def treeAlgo (dtmc : Bool) (known : Option K) (qsMax qsMin : Except Err (ProblemResult σ K)) (tree : K → Except Err K) :
    Run σ K :=
  if dtmc then
    match (match known with
      | some u => (([], .ok u) : List (ProblemResult σ K) × Except Err K)
      | none =>
        match qsMax with
        | .error e => ([], .error e)
        | .ok rmax =>
          match qsMin with
          | .error e => ([], .error e)
          | .ok rmin =>
            let out := if rmin.status ≠ PStatus.success ∨ rmax.status ≠ PStatus.success then [failure .infeasible] else ([] : List (ProblemResult σ K))
            match rmax.value, rmin.value with
            | some a, some b => if min a b = 0 then (out, .error .assertion) else (out, .ok (min a b))
            | _, _ => (out, .error .typeError)) with
    | (out, .error e) => (out, some e)
    | (out, .ok u) =>
      match tree u with
      | .error e => (out, some e)
      | .ok r => (out ++ (if r = -1 then [failure .notsolved] else []) ++ [(⟨PStatus.success, none, some r, none⟩ : ProblemResult σ K)], none)
  else ([], some .assertion)

end Verif.Model
