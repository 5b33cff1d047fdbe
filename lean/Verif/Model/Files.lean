import Verif.Model.Json
/-!
# `bin/switss`: the files that the commands read and write

`Model/Cli.lean` and `Model/Json.lean` describe the commands as functions from the texts of files to texts of files.  Here the
texts are put on a disk.  Every command reads all of its files before it writes the first one, so it is modelled as a plan made
from the disk — the texts to write, in order — followed by the execution of the plan.  The command `render` is in
`Model/Render.lean`.  Not modelled: the encoding of the files, the printed text except the verdicts of `certify`.
-/

namespace Verif.Model.Files
open Cli Text

variable {F K : Type}

/-- the text of every file that exists -/
abbrev Disk (F : Type) := F → Option (List Char)

/-- what a run depends on besides the arguments and the disk -/
structure World (F K : Type) where
  /-- the file that a path names; two paths may name the same file -/
  loc : String → F
  /-- whether `open(path, "w")` succeeds; otherwise it raises an `OSError` and changes nothing -/
  canWrite : String → Bool
  /-- what is left in a file when the text to write cannot be completed -/
  junk : List Char
  /-- `float.__repr__` -/
  fr : K → List Char
  /-- the rounding of a decimal number to a float -/
  rd : ℚ → K
  ρ : Graph.Rnd
  π : List Nat → List Nat
  π' : List String → List String
  copy : Sys K → Except Err (Sys K)
  env : Env K

/-- how a command ends: as in `Cli.Exit`, or with an `OSError`, for instance because a file does not exist -/
inductive Outcome
  | exit (e : Exit)
  | osError
  deriving DecidableEq, Repr

/-- bin/switss:284-325: a command with its arguments; `none` is the default value of `-o` and `-c` -/
inductive Command (K : Type)
  | rf (kind : Kind) (path il tl ntl nfl : String) (out : Option String)
  | info (kind : Kind) (path : String)
  | minimize (kind : Kind) (path il tl fl : String) (method solve solveIt : List (List Char)) (cert : Option String) (tol : K)
  | certify (kind : Kind) (path il tl fl : String) (cert : Option String) (tol : K)
  | subsystem (kind : Kind) (path il tl fl label : String) (cert : Option String) (out : Option String)

/-- the verdicts printed, the texts to write in order, and the way the command ends afterwards.  A text that cannot be completed
is an exception. -/
structure Plan where
  verdicts : List Bool
  writes : List (String × Except Err (List Char))
  outcome : Outcome

/-- the command ends without writing -/
def Plan.stop (o : Outcome) : Plan := ⟨[], [], o⟩

/-- an exception that ends the script -/
def Plan.err (e : Err) : Plan := .stop (.exit (.of e))

/-- bin/switss:34, amdp.py:213-215: the texts of `modelpath.lab` and `modelpath.tra`; the first is parsed before the second is
opened -/
def readModel (w : World F K) (d : Disk F) (path : String) : Except Outcome (List Char × List Char) :=
  match d (w.loc (path ++ ".lab")) with
  | none => .error .osError
  | some lab =>
    match d (w.loc (path ++ ".tra")) with
    | some tra => .ok (lab, tra)
    | none =>
      match parseLabelFile lab with
      | .error e => .error (.exit (.of e))
      | .ok _ => .error .osError

variable [Field K] [LinearOrder K] [IsStrictOrderedRing K] [FloorRing K]

/-- dtmc.py:105-109, mdp.py:122-127: the text of the `.tra` file -/
def saveTra (kind : Kind) (M : Sys K) : Except Err (List Char) :=
  match kind with
  | .mdp => M.saveTraMDP
  | .dtmc => M.saveTraDTMC

/-- dtmc.py:99-119, mdp.py:117-137 `save(filepath)`: first the `.tra` file, then the `.lab` file -/
def saveWrites (w : World F K) (kind : Kind) (path : String) (M : Sys K) : List (String × Except Err (List Char)) :=
  [(path ++ ".tra", saveTra kind M), (path ++ ".lab", M.saveLab w.π w.π')]

/-- bin/switss:38-61 `switss rf` -/
def rfPlan (w : World F K) (kind : Kind) (lab tra : List Char) (il tl ntl nfl out : String) : Plan :=
  match loadModel (K := K) kind lab tra with
  | .error e => .err e
  | .ok M =>
    match M.reduce w.ρ il tl ntl nfl with
    | .error e => .err e
    | .ok res =>
      let mp : Mapping := ⟨res.rows.map fun e => e.1.1, res.rows.map fun e => e.1.2, res.rows.map fun e => e.2.1,
        res.rows.map fun e => e.2.2⟩
      ⟨[], (out ++ ".mapping.json", .ok (Json.dump w.fr (Json.mappingJson mp))) :: saveWrites w kind out res.rf.sys, .exit .done⟩

/-- bin/switss:131-133, 139-142: what `certify` and `subsystem` do before the certificate file is opened.  `label` is the new
label of `subsystem`. -/
def prepare (w : World F K) (kind : Kind) (lab tra : List Char) (il tl fl : String) (label : Option String) : Except Err (RF K) := do
  let M ← loadModel kind lab tra
  if label.any fun l => decide (l ∈ M.labS.d.keys) then .error .assertion
  else RF.make w.ρ M il tl fl false

/-- bin/switss:147-151: the system stored for one instance -/
def subsystemModel (w : World F K) (label : String) (rf : RF K) (x : String × Instance K) : Except Err (Nat × Sys K) :=
  match modeOf x.1 with
  | none => .error .assertion
  | some mode => do
    let ss ← Subsystem.make rf x.2.certificate mode false
    let M ← w.copy rf.sys
    let mask ← ss.mask
    .ok (x.2.iteration, addLabels w.π label M mask)

/-- bin/switss:144-145: `"%s-%s" % (output, iteration)` -/
def instancePath (out : String) (n : Nat) : String := out ++ "-" ++ String.ofList (fmtD n)

/-- the plan of a command -/
def plan (w : World F K) (d : Disk F) : Command K → Plan
  | .rf kind path il tl ntl nfl out =>
    match readModel w d path with
    | .error o => .stop o
    | .ok (lab, tra) => rfPlan w kind lab tra il tl ntl nfl (out.getD (path ++ "-rf"))
  | .info kind path =>
    match readModel w d path with
    | .error o => .stop o
    | .ok (lab, tra) =>
      match loadModel (K := K) kind lab tra with
      | .error e => .err e
      | .ok _ => .stop (.exit .done)
  | .minimize kind path il tl fl method solve solveIt cert tol =>
    match readModel w d path with
    | .error o => .stop o
    | .ok (lab, tra) =>
      match Cli.minimize w.ρ w.env kind lab tra il tl fl method solve solveIt tol with
      | .error e => .err e
      | .ok (m, f) => ⟨[], [(cert.getD (path ++ ".certificates.json"),
          .ok (Json.dump w.fr (Json.infoJson (Json.methodJson m) f.instances)))], .exit .done⟩
  | .certify kind path il tl fl cert tol =>
    match readModel w d path with
    | .error o => .stop o
    | .ok (lab, tra) =>
      match prepare w kind lab tra il tl fl none with
      | .error e => .err e
      | .ok rf =>
        match cert.map fun p => d (w.loc p) with
        | some none => .stop .osError
        | t =>
          let r := Json.readFile w.rd t.join fun x =>
            match modeOf x.1 with
            | none => .error .assertion
            | some mode => check rf mode .ge x.2.threshold x.2.certificate tol
          ⟨r.1, [], .exit r.2⟩
  | .subsystem kind path il tl fl label cert out =>
    match readModel w d path with
    | .error o => .stop o
    | .ok (lab, tra) =>
      match prepare w kind lab tra il tl fl (some label) with
      | .error e => .err e
      | .ok rf =>
        match cert.map fun p => d (w.loc p) with
        | some none => .stop .osError
        | t =>
          let r := Json.readFile w.rd t.join (subsystemModel w label rf)
          ⟨[], r.1.flatMap fun x => saveWrites w kind (instancePath (out.getD (path ++ "-subsys")) x.1) x.2, .exit r.2⟩

/-- the disk after `open(path, "w")` and the writing of a text -/
def store (w : World F K) [DecidableEq F] (d : Disk F) (path : String) (t : List Char) : Disk F :=
  fun f => if f = w.loc path then some t else d f

/-- the execution of a plan -/
def exec (w : World F K) [DecidableEq F] (o : Outcome) : List (String × Except Err (List Char)) → Disk F → Disk F × Outcome
  | [], d => (d, o)
  | (p, t) :: ws, d =>
    if w.canWrite p then
      match t with
      | .ok t => exec w o ws (store w d p t)
      | .error e => (store w d p w.junk, .exit (.of e))
    else (d, .osError)

/-- the result of a command -/
structure Result (F : Type) where
  disk : Disk F
  verdicts : List Bool
  outcome : Outcome

/-- bin/switss:329-333: one run of the script -/
def run (w : World F K) [DecidableEq F] (c : Command K) (d : Disk F) : Result F :=
  let p := plan w d c
  let r := exec w p.outcome p.writes d
  ⟨r.1, p.verdicts, r.2⟩

/-- several runs, one after the other -/
def runAll (w : World F K) [DecidableEq F] (cs : List (Command K)) (d : Disk F) : Disk F :=
  cs.foldl (fun d c => (run w c d).disk) d

end Verif.Model.Files
