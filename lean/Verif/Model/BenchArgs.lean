import Verif.Model.Bench
/-!
# `switss/benchmarks/benchmarks.py`: the arguments of `run`, and plots of times

`run` with the checks of `ProblemFormulation.solveiter` and with `method` and `mode` given as one value or as a list;
`render` in the modes `wall_time-thr` and `proc_time-thr`.
-/

namespace Verif.Model.Bench
variable {K : Type} [Field K] [LinearOrder K] [IsStrictOrderedRing K] [FloorRing K]

/-- a string or a list of strings -/
inductive ModeArg
  | one (m : String)
  | many (ms : List String)

/-- iterating over the argument: a string gives its characters -/
def ModeArg.items : ModeArg → List String
  | .one m => m.toList.map String.singleton
  | .many ms => ms

/-- problemform.py:87-90: the checks of `solveiter`, before anything is solved.  (`mode in ["min","max"]` is false for a
list.)  `reward` says whether the form is a `RewardReachabilityForm`. -/
def solveiter (reward : Bool) (solve : String → K → List (Res K)) (mode : ModeArg) (thr : K) :
    Except Err (List (Res K)) :=
  if 0 ≤ thr then
    if reward = true ∨ thr ≤ 1 then
      match mode with
      | .one m => if m ∈ ["min", "max"] then .ok (solve m thr) else .error .assertion
      | .many _ => .error .assertion
    else .error .assertion
  else .error .assertion

/-- benchmarks.py:106-138 with the checks: `outer` where the call of the method may raise -/
def outerChecked (stop : Bool) (method : K → Except Err (List (Res K))) : List K → List (Entry K) → Except Err (List (Entry K))
  | [], data => .ok data
  | thr :: ts, data => do
    let rs ← method thr
    match inner stop rs [] 0 with
    | .infeasible => .ok data
    | .stopped vs n => .ok (data ++ [⟨thr, vs, n⟩])
    | .finished vs n => outerChecked stop method ts (data ++ [⟨thr, vs, n⟩])

/-- benchmarks.py:89-138: `run` for one method -/
def runOne (stop reward : Bool) (solve : String → K → List (Res K)) (mode : ModeArg) (fromThr toThr step : K) :
    Except Err (List (Entry K)) :=
  outerChecked stop (solveiter reward solve mode) (thresholds fromThr toThr step) []

/-- benchmarks.py:73-87: `run` for a list of methods; the methods are given by what they compute -/
def runList (stop reward : Bool) (methods : List (String → K → List (Res K))) (mode : ModeArg) (fromThr toThr step : K) :
    Except Err (List (List (Entry K))) :=
  (methods.flatMap fun me => mode.items.map fun mo => (me, mo)).mapM fun x =>
    runOne stop reward x.1 (.one x.2) fromThr toThr step

/-- benchmarks.py:224-229: the height of a point; `cap` is `cap_times_below_onesec` -/
def shownTime (timeoutVal : Option K) (cap : Bool) (t : K) : K :=
  match (if t = -1 then timeoutVal else none) with
  | some v => v
  | none => if 0 ≤ t ∧ t ≤ 1 ∧ cap = true then 1 else t

/-- benchmarks.py:223-230 the point plotted for one threshold; `el[times][-1]` of an empty list is an `IndexError`. -/
def timePoint (timeoutVal : Option K) (cap : Bool) (e : K × List K) : Except Err (K × K) :=
  match e.2.getLast? with
  | none => .error .indexError
  | some t => .ok (e.1, shownTime timeoutVal cap t)

/-- benchmarks.py:215-233 `render` in the modes `wall_time-thr` and `proc_time-thr` with the default `sol_range`: the
points plotted, from the thresholds and recorded times.  `run["run"][0]` (line 193) is an `IndexError` without
entries. -/
def renderTimes (timeoutVal : Option K) (cap : Bool) (data : List (K × List K)) : Except Err (List (K × K)) :=
  if data.length = 0 then .error .indexError else
  data.mapM (timePoint timeoutVal cap)

end Verif.Model.Bench
