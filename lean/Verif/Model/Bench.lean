import Verif.Model.Py
import Mathlib.Algebra.Order.Floor.Defs
import Mathlib.Algebra.Order.Floor.Ring
import Mathlib.Algebra.Order.Field.Basic
/-!
# `switss/benchmarks/benchmarks.py`: `run`

Times are not modelled, only how many are recorded.  The method is a parameter: the results that
`method.solveiter(reachability_form, thr, mode, …)` yields for a threshold.
-/

namespace Verif.Model.Bench
variable {K : Type} [Field K] [LinearOrder K] [IsStrictOrderedRing K] [FloorRing K]

/-- `result.status`; `other` stands for every status but the two named ones (e.g. a timeout) -/
inductive Status
  | success | infeasible | other
  deriving DecidableEq

/-- a `ProblemResult`: status and value -/
structure Res (K : Type) where
  status : Status
  value : K

/-- numpy `arange(start, stop, step)` for a positive step, with exact arithmetic -/
def arange (start stop step : K) : List K := (List.range ⌈(stop - start) / step⌉₊).map fun (i : Nat) => start + i * step

/-- an entry of `data["run"]`; `times` is the number of recorded wall (and process) times -/
structure Entry (K : Type) where
  threshold : K
  value : List K
  times : Nat

/-- how the inner loop ends -/
inductive Out (K : Type)
  | finished (value : List K) (times : Nat)
  | infeasible
  | stopped (value : List K) (times : Nat)

/-- benchmarks.py:111-131: the loop over the results of one threshold; the state is `statecounts` and the
length of `wall_times` -/
def inner (stop : Bool) : List (Res K) → List K → Nat → Out K
  | [], vs, n => .finished vs n
  | r :: rs, vs, n =>
    if r.status ≠ .success then
      if r.status = .infeasible then .infeasible
      else if stop then .stopped (vs ++ [-1]) (n + 1)
      else inner stop rs (vs ++ [-1]) (n + 1)
    else inner stop rs (vs ++ [r.value]) (n + 1)

/-- benchmarks.py:106-136: the loop over the thresholds; the state is `data["run"]` -/
def outer (stop : Bool) (method : K → List (Res K)) : List K → List (Entry K) → List (Entry K)
  | [], data => data
  | thr :: ts, data =>
    match inner stop (method thr) [] 0 with
    | .infeasible => data
    | .stopped vs n => data ++ [⟨thr, vs, n⟩]
    | .finished vs n => outer stop method ts (data ++ [⟨thr, vs, n⟩])

/-- benchmarks.py:91: the thresholds -/
def thresholds (fromThr toThr step : K) : List K := arange fromThr (min 1 (toThr + step)) step

/-- benchmarks.py:14-138 `run` for a single method (without debug output and json files) -/
def run (stop : Bool) (method : K → List (Res K)) (fromThr toThr step : K) : List (Entry K) :=
  outer stop method (thresholds fromThr toThr step) []

/-- benchmarks.py:73-87: several methods and modes -/
def runMany {Me Mo : Type} (stop : Bool) (solve : Me → Mo → K → List (Res K)) (methods : List Me) (modes : List Mo)
    (fromThr toThr step : K) : List (List (Entry K)) :=
  (methods.flatMap fun me => modes.map fun mo => (me, mo)).map fun x => run stop (solve x.1 x.2) fromThr toThr step

/-! ## `render`

Only the plotted series are modelled (the arguments of `ax.plot`), for the default `sol_range` and `timeout_val`
given or not; axes, markers and labels are not. -/

/-- `l[i]` for a natural index: `IndexError` when out of range -/
def at? {α : Type} (l : List α) (i : Nat) : Except Err α :=
  match l[i]? with
  | some x => .ok x
  | none => .error .indexError

/-- benchmarks.py:211: `el["value"][idx] if el["value"][idx] != -1 or timeout_val is None else timeout_val` -/
def shown (timeoutVal : Option K) (x : K) : K :=
  if x ≠ -1 then x else
    match timeoutVal with
    | none => x
    | some t => t

/-- benchmarks.py:209-213: the points plotted for result number `idx` -/
def series (normalize : Bool) (timeoutVal : Option K) (data : List (Entry K)) (idx : Nat) :
    Except Err (List (K × K)) :=
  data.mapM fun e => do
    let x ← at? e.value idx
    let y := shown timeoutVal x
    .ok (e.threshold, if normalize then y / 1000 else y)

/-- benchmarks.py:193-214 `render` in the modes `states-thr` (`last = false`) and `laststates-thr` (`last = true`) with
the default `sol_range`: the list of plotted series.  `max([])` of an entry without values is a `ValueError`. -/
def renderStates (last normalize : Bool) (timeoutVal : Option K) (data : List (Entry K)) :
    Except Err (List (List (K × K))) := do
  let first ← at? data 0
  let resultcount := first.value.length
  if data.any (fun e => e.value.isEmpty) then .error .valueError else
  ((List.range resultcount).filter fun idx => !(last && idx != resultcount - 1)).mapM
    (series normalize timeoutVal data)

end Verif.Model.Bench
