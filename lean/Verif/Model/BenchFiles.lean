import Verif.Model.BenchArgs
import Verif.Model.Files
/-!
# `switss/benchmarks/benchmarks.py`: the recorded data and the files written by `run`

`Model/Bench.lean` follows the values of a run.  Here the whole dictionary that `run` returns is built, with the description of the
method and the measured times, and stored with `json.dump` if `json_dir` is given.  The methods are parameters, as there; what they
yield comes with the times measured when it is yielded.  Not modelled: the printed text, the encoding of the files.
-/

namespace Verif.Model.BenchFiles
open Text

variable {F P K : Type}

/-- the attributes of a method: qsheur.py:43-66, milpexact.py:38-46, tree_algo.py:10-14.  The classes given as `initializertype` and
`updatertype` are given by their names; the bound of `TreeAlgo` is an integer. -/
inductive Formulation (P K : Type)
  | qsHeur (iterations : Nat) (initializer updater solver : String)
  | milpExact (solver : String)
  | treeAlgo (partition : P) (bound : Option Nat) (tol : K) (solver : String)

/-- `str(x)` for an integer or `None` -/
def strBound : Option Nat → List Char
  | none => "None".toList
  | some n => fmtD n

/-- qsheur.py:68-78, milpexact.py:48-54, tree_algo.py:16-22 `details`; `fr` is `str` of a float -/
def details (fr : K → List Char) : Formulation P K → List (String × Json.Value K)
  | .qsHeur n i u s => [("type", .str "QSHeur"), ("solver", .str s), ("iterations", .int n), ("initializertype", .str i),
      ("updatertype", .str u)]
  | .milpExact s => [("type", .str "MILPExact"), ("solver", .str s)]
  | .treeAlgo _ b tol _ => [("type", .str "TreeAlgo"), ("known_upper_bound", .str (String.ofList (strBound b))),
      ("tol", .str (String.ofList (fr tol)))]

/-- `"%s" % v` for the values in `details`, which are strings and integers -/
def text : Json.Value K → List Char
  | .str s => s.toList
  | .int i => Json.dumpInt i
  | _ => []

/-- problemform.py:106-108 `__repr__`, which is also `str(method)` -/
def repr (fr : K → List Char) (m : Formulation P K) : List Char :=
  let params := ((details fr m).filter fun e => e.1 ≠ "type").map fun e => e.1.toList ++ '=' :: text e.2
  text ((Dict.get? (details fr m) "type").getD .null) ++ '(' :: List.intercalate [','] params ++ [')']

/-- benchmarks.py:101 -/
def fileName (fr : K → List Char) (m : Formulation P K) (mode : String) : List Char :=
  repr fr m ++ '-' :: mode.toList ++ ".json".toList

/-- a result that a method yields, with the times measured at this moment (benchmarks.py:112-113).  The value is an integer
(`QSHeur`, `TreeAlgo`), a float (`MILPExact`) or `None`. -/
structure Res (K : Type) where
  status : Bench.Status
  value : Json.Value K
  wall : K
  proc : K

/-- an element of `data["run"]` -/
structure Entry (K : Type) where
  threshold : K
  value : List (Json.Value K)
  wall : List K
  proc : List K

/-- how the inner loop ends -/
inductive Out (K : Type)
  | finished (e : Entry K)
  | infeasible
  | stopped (e : Entry K)

/-- benchmarks.py:111-131: the loop over the results for one threshold -/
def inner (stop : Bool) : List (Res K) → Entry K → Out K
  | [], e => .finished e
  | r :: rs, e =>
    let e := { e with wall := e.wall ++ [r.wall], proc := e.proc ++ [r.proc] }
    if r.status ≠ .success then
      if r.status = .infeasible then .infeasible
      else
        let e := { e with value := e.value ++ [.int (-1)] }
        if stop then .stopped e else inner stop rs e
    else inner stop rs { e with value := e.value ++ [r.value] }

/-- benchmarks.py:106-136: the loop over the thresholds.  `method thr` are the results of `solveiter`, or the exception that it raises.
With `debug` line 134 reads the last value. -/
def outer (stop debug : Bool) (method : K → Except Err (List (Res K))) : List K → List (Entry K) → Except Err (List (Entry K))
  | [], data => .ok data
  | thr :: ts, data => do
    let rs ← method thr
    match inner stop rs ⟨thr, [], [], []⟩ with
    | .infeasible => .ok data
    | .stopped e => .ok (data ++ [e])
    | .finished e =>
      if debug = true ∧ e.value = [] then .error .indexError else outer stop debug method ts (data ++ [e])

/-- benchmarks.py:123, 135 `els` -/
def entryJson (e : Entry K) : Json.Value K :=
  .obj [("threshold", .float e.threshold), ("value", .arr e.value), ("wall_times", .arr (e.wall.map .float)),
    ("proc_times", .arr (e.proc.map .float))]

/-- benchmarks.py:92, 124, 136 `data` -/
def dataJson (fr : K → List Char) (m : Formulation P K) (mode : String) (es : List (Entry K)) : Json.Value K :=
  .obj [("method", .obj (details fr m)), ("mode", .str mode), ("run", .arr (es.map entryJson))]

/-- the directory `json_dir` -/
structure Dir (F : Type) where
  /-- the file that the path `json_dir / name` denotes; two names may denote the same file -/
  loc : List Char → F
  /-- whether `open(json_dir / name, "w")` succeeds; otherwise it raises an `OSError` and changes nothing -/
  canWrite : List Char → Bool

/-- how a call fails -/
inductive Fail
  | err (e : Err)
  | osError
  deriving DecidableEq

/-- benchmarks.py:98-104 `print_json` -/
def printJson [DecidableEq F] (fr : K → List Char) (dir : Option (Dir F)) (m : Formulation P K) (mode : String) (v : Json.Value K)
    (d : Files.Disk F) : Files.Disk F × Except Fail (Json.Value K) :=
  match dir with
  | none => (d, .ok v)
  | some D =>
    if D.canWrite (fileName fr m mode) then
      (fun f => if f = D.loc (fileName fr m mode) then some (Json.dump fr v) else d f, .ok v)
    else (d, .error .osError)

/-- benchmarks.py:89-138: `run` for one method and one mode, on the thresholds of line 91 -/
def runOne [DecidableEq F] (fr : K → List Char) (dir : Option (Dir F)) (stop debug : Bool) (m : Formulation P K) (mode : String)
    (method : K → Except Err (List (Res K))) (thrs : List K) (d : Files.Disk F) : Files.Disk F × Except Fail (Json.Value K) :=
  match outer stop debug method thrs [] with
  | .error e => (d, .error (.err e))
  | .ok es => printJson fr dir m mode (dataJson fr m mode es) d

/-- benchmarks.py:73-87: the loop over the pairs of a method and a mode -/
def runPairs [DecidableEq F] (fr : K → List Char) (dir : Option (Dir F)) (stop debug : Bool)
    (solve : Formulation P K → String → K → Except Err (List (Res K))) (thrs : List K) :
    List (Formulation P K × String) → Files.Disk F → Files.Disk F × Except Fail (List (Json.Value K))
  | [], d => (d, .ok [])
  | x :: xs, d =>
    match runOne fr dir stop debug x.1 x.2 (solve x.1 x.2) thrs d with
    | (d', .error e) => (d', .error e)
    | (d', .ok v) =>
      match runPairs fr dir stop debug solve thrs xs d' with
      | (d'', .error e) => (d'', .error e)
      | (d'', .ok vs) => (d'', .ok (v :: vs))

/-- benchmarks.py:73-87 `run` for lists of methods and modes -/
def runMany [DecidableEq F] (fr : K → List Char) (dir : Option (Dir F)) (stop debug : Bool)
    (solve : Formulation P K → String → K → Except Err (List (Res K))) (methods : List (Formulation P K)) (modes : List String)
    (thrs : List K) (d : Files.Disk F) : Files.Disk F × Except Fail (List (Json.Value K)) :=
  runPairs fr dir stop debug solve thrs (methods.flatMap fun m => modes.map fun mo => (m, mo)) d

end Verif.Model.BenchFiles
