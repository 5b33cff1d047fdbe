import Verif.Model.IO
import Verif.Model.Reduce
import Verif.Model.QSInit
/-!
# `bin/switss`: the commands `rf`, `minimize`, `certify` and `subsystem`

Files are their contents; a missing file, paths and the text of messages are not modelled.  A `.json` file is
the object it stands for (its text is modelled in `Model/Json.lean`).  Parsing of the command line (`argparse`) is not modelled: the arguments below are the
fields of `args`.
-/

namespace Verif.Model.Cli
open Text

variable {K : Type} [Field K] [LinearOrder K]

/-- how the script ends: normally, with an exception, or by `parser.error("too few arguments")`, which is
`sys.exit(2)` -/
inductive Exit
  | done
  | raised (e : Err)
  | usage
  deriving DecidableEq, Repr

/-- bin/switss:330-333: every `AttributeError` is reported as "too few arguments" -/
def Exit.of : Err → Exit
  | .attributeError => .usage
  | e => .raised e

/-- `args.modeltype` -/
inductive Kind
  | mdp
  | dtmc
  deriving DecidableEq, Repr

/-- one element of the list `instances` of a certificate file (bin/switss:104-106, 127-129) -/
structure Instance (K : Type) where
  iteration : Nat
  threshold : K
  certificate : List K

/-- a certificate file: `{"method": …, "instances": […]}` (bin/switss:99).  Of the object under `method` only the
entry `mode` is read by the other commands; `none`: there is no such entry. -/
structure CertFile (K : Type) where
  mode : Option String
  instances : List (Instance K)

/-- the strings "min" and "max"; every other string fails an assertion in `check_farkas_certificate`, in
`Subsystem` and in `solveiter` -/
def modeOf (s : String) : Option Mode :=
  if s = "min" then some .min else if s = "max" then some .max else none

/-- bin/switss:18-19 `params_to_dict`: `param.split("=")` -/
def splitEq : List Char → List Char → List (List Char)
  | acc, [] => [acc]
  | acc, c :: cs => if c = '=' then acc :: splitEq [] cs else splitEq (acc ++ [c]) cs

/-- bin/switss:18-19 `params_to_dict`: `dict` of a list with an element that is not a pair raises `ValueError` -/
def paramsToDict : List (List Char) → Except Err (Dict String (List Char)) :=
  List.foldlM (fun d p =>
    match splitEq [] p with
    | [k, v] => .ok (d.set (String.ofList k) v)
    | _ => .error .valueError) []

/-- the constructed `QSHeur` or `MILPExact` object -/
inductive Method
  | qsHeur (iterations : Nat) (initializer updater solver : String)
  | milpExact (solver : String)
  deriving DecidableEq, Repr

/-- bin/switss:72-84: conversion of one method parameter -/
def methodValue (kv : String × List Char) : Except Err Unit :=
  if kv.1 = "iterations" then do
    let _ ← pyInt kv.2
    .ok ()
  else if kv.1 = "initializertype" then
    if String.ofList kv.2 ∈ ["AllOnesInitializer", "InverseFrequencyInitializer", "InverseReachabilityInitializer"] then .ok ()
    else .error .keyError
  else if kv.1 = "updatertype" then
    if String.ofList kv.2 ∈ ["InverseResultUpdater"] then .ok () else .error .keyError
  else .ok ()

/-- a string parameter with its default value -/
def strArg (d : Dict String (List Char)) (k dflt : String) : String :=
  match d.get? k with
  | some v => String.ofList v
  | none => dflt

/-- bin/switss:70, 85: `{ "QSHeur":QSHeur, "MILPExact":MILPExact }[name]` and `methodtype(**methodparams)`:
the parameters of qsheur.py:44-48 and of milpexact.py:39; any other keyword raises `TypeError`.  A negative
number of iterations acts like 0. -/
def construct (name : String) (d : Dict String (List Char)) : Except Err Method :=
  if name = "QSHeur" then
    if ∀ k ∈ d.keys, k ∈ ["iterations", "initializertype", "updatertype", "solver"] then
      match d.get? "iterations" with
      | none => .ok (.qsHeur 3 (strArg d "initializertype" "AllOnesInitializer")
          (strArg d "updatertype" "InverseResultUpdater") (strArg d "solver" "cbc"))
      | some v => do
        let n ← pyInt v
        .ok (.qsHeur n.toNat (strArg d "initializertype" "AllOnesInitializer")
          (strArg d "updatertype" "InverseResultUpdater") (strArg d "solver" "cbc"))
    else .error .typeError
  else if name = "MILPExact" then
    if ∀ k ∈ d.keys, k ∈ ["solver"] then .ok (.milpExact (strArg d "solver" "cbc")) else .error .typeError
  else .error .keyError

/-- the keyword arguments of the call of `solve` or `solveiter` -/
structure SolveArgs (K : Type) where
  threshold : K
  mode : String
  labels : Option (List String)

/-- bin/switss:93: `split(",")` -/
def splitComma : List Char → List Char → List (List Char)
  | acc, [] => [acc]
  | acc, c :: cs => if c = ',' then acc :: splitComma [] cs else splitComma (acc ++ [c]) cs

/-- bin/switss:88-95 and the call `method.solve(rf, **solveparams)`: conversion of `threshold` and `timeout`, then
the signature of problemform.py:18-23, 55-60: `threshold` and `mode` have no default, `labels` and `timeout` have;
any other keyword raises `TypeError` -/
def solveArgs (d : Dict String (List Char)) : Except Err (SolveArgs K) := do
  let t ← match d.get? "threshold" with
    | none => .ok none
    | some v => do
      let x ← pyFloat v
      .ok (some x)
  let _ ← match d.get? "timeout" with
    | none => .ok 0
    | some v => pyInt v
  if ∀ k ∈ d.keys, k ∈ ["threshold", "mode", "labels", "timeout"] then
    match t, d.get? "mode" with
    | some x, some m => .ok ⟨(x : K), String.ofList m, (d.get? "labels").map fun l => (splitComma [] l).map String.ofList⟩
    | _, _ => .error .typeError
  else .error .typeError

/-- what `minimize` depends on besides its arguments: the solver, and the classes of the initializers other than
`AllOnesInitializer` -/
structure Env (K : Type) where
  lpSolver : Milp K → Answer K
  solver : Nat → Milp K → Answer K
  init : String → RF K → Mode → List (Nat × List Nat) → Except Err (List (Nat × K))

/-- the generator `method.solveiter(rf, **solveparams)`: problemform.py:87-95 and the methods -/
def methodRun (env : Env K) (rf : RF K) (m : Method) (a : SolveArgs K) : Run (Subsystem K) K :=
  match modeOf a.mode with
  | none => ([], some .assertion)
  | some mode =>
    solveIter rf.form a.threshold <|
      match m with
      | .milpExact s => Model.milpExact rf.form env.lpSolver (env.solver 0) a.threshold mode a.labels
          (if s = "gurobi" then .gurobi else .pulp)
      | .qsHeur n i _ s => Model.qsHeur rf.form env.lpSolver env.solver n
          (fun ind => if i = "AllOnesInitializer" then allOnes ind else env.init i rf mode ind)
          (inverseResultUpdater fun _ => 1) a.threshold mode a.labels (if s = "gurobi" then .gurobi else .pulp)

/-- bin/switss:100-107 `process_result`: first `result.subsystem.subsystem_mask` (`None` has no such attribute),
then `methodparams["mode"]`, then the check, then the new instance -/
def processResult (rf : RF K) (mp : Dict String (List Char)) (t tol : K) (idx : Nat) (r : ProblemResult (Subsystem K) K) :
    Except Err (Instance K) :=
  match r.subsystem with
  | none => .error .attributeError
  | some w => do
    let _ ← w.mask
    match mp.get? "mode" with
    | none => .error .keyError
    | some m =>
      match modeOf (String.ofList m), r.cert with
      | some mode, some c => do
        let _ ← check rf mode .ge t c tol
        .ok ⟨idx, t, c⟩
      | _, _ => .error .assertion

/-- bin/switss:109-111: the loop over the results of `solveiter` -/
def processAll (rf : RF K) (mp : Dict String (List Char)) (t tol : K) (e : Option Err) :
    Nat → List (ProblemResult (Subsystem K) K) → Except Err (List (Instance K))
  | _, [] =>
    match e with
    | none => .ok []
    | some e => .error e
  | n, r :: rs => do
    let i ← processResult rf mp t tol n r
    let is ← processAll rf mp t tol e (n + 1) rs
    .ok (i :: is)

variable [IsStrictOrderedRing K] [FloorRing K]

/-- bin/switss:31-36 `load_model` -/
def loadModel (kind : Kind) (lab tra : List Char) : Except Err (Sys K) :=
  match kind with
  | .mdp => Sys.fromFileMDP lab tra
  | .dtmc => Sys.fromFileDTMC lab tra

/-- dtmc.py:99-119, mdp.py:117-137 `save` -/
def save (kind : Kind) (π : List Nat → List Nat) (π' : List String → List String) (M : Sys K) :
    Except Err (List Char × List Char) := do
  let tra ← match kind with
    | .mdp => M.saveTraMDP
    | .dtmc => M.saveTraDTMC
  let lab ← M.saveLab π π'
  .ok (lab, tra)

/-- the `-rf.mapping.json` file (bin/switss:51-58) -/
structure Mapping where
  states : List Nat
  actions : List Nat
  rfstates : List Nat
  rfactions : List Nat

/-- bin/switss:38-61 `switss rf`: the mapping file and the two files of the reachability form -/
def rfCmd (ρ : Graph.Rnd) (π : List Nat → List Nat) (π' : List String → List String) (kind : Kind) (lab tra : List Char)
    (il tl ntl nfl : String) : Except Err (Mapping × List Char × List Char) := do
  let M ← loadModel (K := K) kind lab tra
  let res ← M.reduce ρ il tl ntl nfl
  let files ← save kind π π' res.rf.sys
  .ok (⟨res.rows.map fun e => e.1.1, res.rows.map fun e => e.1.2, res.rows.map fun e => e.2.1,
    res.rows.map fun e => e.2.2⟩, files.1, files.2)

/-- bin/switss:63-119 `switss minimize`: the stored file.  `method`, `solve` and `solveIt` are the words given with
`-m`, `-s` and `-si`. -/
def minimize (ρ : Graph.Rnd) (env : Env K) (kind : Kind) (lab tra : List Char) (il tl fl : String)
    (method solve solveIt : List (List Char)) (tol : K) : Except Err (Method × CertFile K) := do
  let M ← loadModel kind lab tra
  match method with
  | [] => .error .assertion
  | name :: mps =>
    if solve = [] ∧ solveIt = [] then .error .assertion
    else do
      let rf ← RF.make ρ M il tl fl false
      if String.ofList name ∈ ["QSHeur", "MILPExact"] then do
        let mp ← paramsToDict mps
        mp.forM methodValue
        let m ← construct (String.ofList name) mp
        let s1 ← paramsToDict solve
        let s2 ← paramsToDict solveIt
        let a ← solveArgs (s2.foldl (fun d kv => d.set kv.1 kv.2) s1)
        let run := methodRun env rf m a
        if solveIt ≠ [] then do
          let is ← processAll rf mp a.threshold tol run.2 0 run.1
          .ok (m, ⟨none, is⟩)
        else do
          let r ← solveLast run
          let i ← processResult rf mp a.threshold tol 0 r
          .ok (m, ⟨none, [i]⟩)
      else .error .keyError

/-- bin/switss:121-129, 134-137: the loop of `certify`; the verdicts printed (`true` is "VALID") and the way it ends -/
def certifyLoop (rf : RF K) (mode : Option String) (tol : K) : List (Instance K) → List Bool × Exit
  | [] => ([], .done)
  | i :: is =>
    match mode with
    | none => ([], .raised .keyError)
    | some m =>
      match modeOf m with
      | none => ([], .raised .assertion)
      | some mode' =>
        match check rf mode' .ge i.threshold i.certificate tol with
        | .error e => ([], .of e)
        | .ok b =>
          let r := certifyLoop rf mode tol is
          (b :: r.1, r.2)

/-- bin/switss:131-137 `switss certify`; `cert` is the file given with `-c` -/
def certify (ρ : Graph.Rnd) (kind : Kind) (lab tra : List Char) (il tl fl : String) (cert : Option (CertFile K)) (tol : K) :
    List Bool × Exit :=
  match loadModel kind lab tra with
  | .error e => ([], .of e)
  | .ok M =>
    match RF.make ρ M il tl fl false with
    | .error e => ([], .of e)
    | .ok rf =>
      match cert with
      | none => ([], .raised .assertion)
      | some f => certifyLoop rf f.mode tol f.instances

/-- bin/switss:149-151: `sys.labels_by_state.add(s, label)` for the states of the mask -/
def addLabels (π : List Nat → List Nat) (label : String) (M : Sys K) (mask : List Bool) : Sys K :=
  { M with labS := mask.zipIdx.foldl (fun x e => if e.1 then (x.step π (.invAdd e.2 label)).2 else x) M.labS }

/-- bin/switss:144-153: one instance; `copy` is `copy.deepcopy`.  The system is not changed by the loop, because
labels are added to the copy. -/
def subsystemStep (copy : Sys K → Except Err (Sys K)) (π : List Nat → List Nat) (π' : List String → List String)
    (kind : Kind) (label : String) (rf : RF K) (mode : Option String) (i : Instance K) :
    Except Err (Nat × List Char × List Char) :=
  match mode with
  | none => .error .keyError
  | some m =>
    match modeOf m with
    | none => .error .assertion
    | some mode' => do
      let ss ← Subsystem.make rf i.certificate mode' false
      let M ← copy rf.sys
      let mask ← ss.mask
      let files ← save kind π π' (addLabels π label M mask)
      .ok (i.iteration, files)

/-- bin/switss:143-153: the loop; the files written and the way it ends -/
def subsystemLoop (copy : Sys K → Except Err (Sys K)) (π : List Nat → List Nat) (π' : List String → List String)
    (kind : Kind) (label : String) (rf : RF K) (mode : Option String) :
    List (Instance K) → List (Nat × List Char × List Char) × Exit
  | [] => ([], .done)
  | i :: is =>
    match subsystemStep copy π π' kind label rf mode i with
    | .error e => ([], .of e)
    | .ok f =>
      let r := subsystemLoop copy π π' kind label rf mode is
      (f :: r.1, r.2)

/-- bin/switss:139-153 `switss subsystem` -/
def subsystem (copy : Sys K → Except Err (Sys K)) (ρ : Graph.Rnd) (π : List Nat → List Nat)
    (π' : List String → List String) (kind : Kind) (lab tra : List Char) (il tl fl label : String)
    (cert : Option (CertFile K)) : List (Nat × List Char × List Char) × Exit :=
  match loadModel kind lab tra with
  | .error e => ([], .of e)
  | .ok M =>
    if label ∈ M.labS.d.keys then ([], .raised .assertion)
    else
      match RF.make ρ M il tl fl false with
      | .error e => ([], .of e)
      | .ok rf =>
        match cert with
        | none => ([], .raised .assertion)
        | some f => subsystemLoop copy π π' kind label rf f.mode f.instances

/-- `copy.deepcopy` of a system: an attribute of the system is a `Graph` (amdp.py:56), a Cython class with a
`__cinit__` and C pointers (utils/graph.pyx:29-45) and without a pickling method.  For such a class Cython generates a
`__reduce__` that raises `TypeError`, which `copy.deepcopy` calls. -/
def noCopy : Sys K → Except Err (Sys K) := fun _ => .error .typeError

end Verif.Model.Cli
