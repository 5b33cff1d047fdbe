import Verif.Model.Reward
import Verif.Model.Digraph
/-!
# Subsystems of reward forms, and the texts of results (`__repr__`)

`Subsystem.subsys`, `Subsystem.digraph` for a `RewardReachabilityForm` as supersystem, and the `__repr__` methods that `print`
of a `ProblemResult` calls.
-/

namespace Verif.Model

variable {K : Type} [Field K] [LinearOrder K]

namespace RRF.Sub

/-- the attributes `certificate`, `certform` and `supersys.system` of the object, in the form in which the functions of
`Model/Subsystem` and `Model/Digraph` take them -/
def base (x : RRF.Sub K) : Subsystem K := ⟨x.form.rf, x.cert, x.mode, false⟩

/-- subsystem.py:60-74 `subsystem_mask`: only `supersys.system` is used -/
def mask (x : RRF.Sub K) : Except Err (List Bool) := x.base.mask

/-- subsystem.py:82-125 `subsys` for a reward form: the loops over states (104-109) and rows (112-119) and the two entries of
the index (121-123) are those of a reachability form; line 125 reads `reach_form.fail_label`, an attribute that
`RewardReachabilityForm` does not have (reward_reachability_form.py:10-43) -/
def subsys (x : RRF.Sub K) : Except Err (Subsystem.Result K) := do
  let m ← x.mask
  let M := x.form.rf.sys
  let _ ← (Subsystem.kept m).zipIdx.foldlM (Subsystem.labelStep M) []
  let st ← (List.range (M.C - 2)).foldlM (Subsystem.rowStep M m) ⟨[], [], 0⟩
  let n := (Subsystem.kept m).length
  let i1 ← bput st.index (n + 1, 0) (st.newC + 1)
  let _ ← bput i1 (n, 0) st.newC
  .error .attributeError

/-- subsystem.py:192 `show_state_weights` -/
def stateWeights (x : RRF.Sub K) (show_weights : Bool) : Except Err Bool :=
  if show_weights = false then .ok false
  else
    match x.mode with
    | .min => .ok true
    | .max =>
      match x.subsys with
      | .error e => .error e
      | .ok r => .ok r.rf.sys.dtmc

/-- subsystem.py:176-223 `digraph` of a subsystem of a reward form that is an MDP -/
def mdp (x : RRF.Sub K) (fmt : K → List Char) (show_weights : Bool) (v : Digraph.Maps K) : Except Err Digraph := do
  let m ← x.mask
  Digraph.mdp x.form.rf.sys ⟨Digraph.stateBy (x.stateWeights show_weights) x.cert m fmt v.state, v.trans,
    Digraph.subAction x.base m fmt show_weights v.action⟩

/-- the same for a DTMC, whose `digraph` ignores `action_map` -/
def dtmc (x : RRF.Sub K) (fmt : K → List Char) (show_weights : Bool) (v : Digraph.DTMCMaps K) : Except Err Digraph := do
  let m ← x.mask
  Digraph.dtmc x.form.rf.sys ⟨Digraph.stateBy (x.stateWeights show_weights) x.cert m fmt v.state, v.trans⟩

end RRF.Sub

namespace Repr
open Text

/-- `"%s (%d)" % (k, len(v))` (amdp.py:282) -/
def labelText (e : String × List Nat) : List Char := e.1.toList ++ " (".toList ++ fmtD e.2.length ++ ")".toList

/-- amdp.py:277-282 `AbstractMDP.__repr__` -/
def sys (M : Sys K) : List Char :=
  (if M.dtmc then "DTMC".toList else "MDP".toList) ++ "(C=".toList ++ fmtD M.C ++ ", N=".toList ++ fmtD M.N ++ ", labels={".toList ++
    List.intercalate ", ".toList (M.labS.d.map labelText) ++ "})".toList

/-- reachability_form.py:475-476 `ReachabilityForm.__repr__` -/
def rf (x : RF K) : List Char :=
  "ReachabilityForm(initial=".toList ++ x.initL.toList ++ ", target=".toList ++ x.targetL.toList ++ ", fail=".toList ++
    x.failL.toList ++ ", system=".toList ++ sys x.sys ++ ")".toList

/-- subsystem.py:225-226 `Subsystem.__repr__` -/
def sub (ρ : Graph.Rnd) (x : Subsystem K) : Except Err (List Char) := do
  let r ← x.subsys ρ
  .ok ("Subsystem(supersys=".toList ++ rf x.rf ++ ", subsys=".toList ++ rf r.rf ++ ")".toList)

/-- the same for a reward form.  `self.subsys` is evaluated before anything is formatted; `RewardReachabilityForm` has no
`__repr__` of its own, so its text (the parameter `form`) contains an address -/
def rewSub (form : RRF K → List Char) (x : RRF.Sub K) : Except Err (List Char) := do
  let r ← x.subsys
  .ok ("Subsystem(supersys=".toList ++ form x.form ++ ", subsys=".toList ++ rf r.rf ++ ")".toList)

/-- the values of `ProblemResult.status` (milp.py:90-94, milpexact.py:66, 75) -/
def status : PStatus → List Char
  | .success => "success".toList
  | .failed .optimal => "optimal".toList
  | .failed .infeasible => "infeasible".toList
  | .failed .unbounded => "unbounded".toList
  | .failed .undefined => "undefined".toList
  | .failed .notsolved => "notsolved".toList

/-- `%s` of the attribute `subsystem` -/
def subsystem {σ : Type} (sub : σ → Except Err (List Char)) : Option σ → Except Err (List Char)
  | none => .ok "None".toList
  | some x => sub x

/-- `%s` of the attribute `value`; `fmt` is `str` of a number -/
def value (fmt : K → List Char) : Option K → List Char
  | none => "None".toList
  | some v => fmt v

/-- problemresult.py:11-12 `ProblemResult.__repr__` -/
def result {σ : Type} (sub : σ → Except Err (List Char)) (fmt : K → List Char) (r : ProblemResult σ K) : Except Err (List Char) := do
  let s ← subsystem sub r.subsystem
  .ok ("ProblemResult(status=".toList ++ status r.status ++ ", subsystem=".toList ++ s ++ ", value=".toList ++ value fmt r.value ++ ")".toList)

end Repr
end Verif.Model
