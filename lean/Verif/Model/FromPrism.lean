import Verif.Model.Prism
import Verif.Model.Files
/-!
# `AbstractMDP.from_prism_model` with its temporary files

`Model/Prism.lean` describes the call that `prism_to_tra` makes; here the call is made by a program that changes files.
-/

namespace Verif.Model.FromPrism
open Files (Disk)
open Prism (Call prismCall constStrings)
open Text

/-- what `from_prism_model` depends on besides its arguments and the files -/
structure Machine where
  /-- the name of the temporary file of prism.py:67 -/
  tmpFile : String
  /-- the name of the temporary directory of amdp.py:233 -/
  tmpDir : String
  /-- the program: exit status and the files afterwards; `none` if it is not installed.  It may write any file. -/
  prism : Option (Call → Disk String → Nat × Disk String)

/-- `ValueError`, … or an `OSError` (a missing file or program) -/
inductive Fail
  | err (e : Err)
  | osError
  deriving DecidableEq, Repr

/-- writing a file -/
def write (d : Disk String) (p : String) (t : List Char) : Disk String := fun q => if q = p then some t else d q

/-- removing a file -/
def remove (d : Disk String) (p : String) : Disk String := fun q => if q = p then none else d q

/-- the path lies in the directory -/
def Below (dir p : String) : Prop := (dir ++ "/").toList <+: p.toList

instance (dir p : String) : Decidable (Below dir p) := inferInstanceAs (Decidable (_ <+: _))

/-- removing a directory with its files -/
def removeDir (d : Disk String) (dir : String) : Disk String := fun q => if Below dir q then none else d q

/-- prism.py:65-90 `prism_to_tra`.  The temporary file exists until the end of the `with` block.  The text of the model file is
copied as characters instead of bytes; what is printed when prism fails is left out. -/
def prismToTra (w : Machine) (model dest : String) (consts extra : Dict String String) (d : Disk String) :
    Disk String × Except Fail Bool :=
  match constStrings consts with
  | .error e => (d, .error (.err e))
  | .ok _ =>
    let d0 := write d w.tmpFile []
    match d0 model with
    | none => (remove d0 w.tmpFile, .error .osError)
    | some text =>
      match prismCall (String.ofList text) w.tmpFile dest consts extra with
      | .error e => (remove d0 w.tmpFile, .error (.err e))
      | .ok c =>
        let d1 := write d w.tmpFile c.input.toList
        match w.prism with
        | none => (remove d1 w.tmpFile, .error .osError)
        | some run => (remove (run c d1).2 w.tmpFile, .ok (decide ((run c d1).1 = 0)))

/-- amdp.py:201-216 `from_file`: the label file is parsed before the transition file is opened; `load` is `Sys.fromFileMDP` or
`Sys.fromFileDTMC` -/
def fromFile {K : Type} (load : List Char → List Char → Except Err (Sys K)) (d : Disk String) (path : String) : Except Fail (Sys K) :=
  match d (path ++ ".lab") with
  | none => .error .osError
  | some lab =>
    match d (path ++ ".tra") with
    | none =>
      match parseLabelFile lab with
      | .error e => .error (.err e)
      | .ok _ => .error .osError
    | some tra =>
      match load lab tra with
      | .error e => .error (.err e)
      | .ok M => .ok M

/-- amdp.py:218-242 `from_prism_model` -/
def fromPrismModel {K : Type} (load : List Char → List Char → Except Err (Sys K)) (w : Machine) (model : String)
    (consts extra : Dict String String) (d : Disk String) : Disk String × Except Fail (Sys K) :=
  let dest := w.tmpDir ++ "/model"
  let r := prismToTra w model dest consts extra d
  let res := match r.2 with
    | .error e => .error e
    | .ok true => fromFile load r.1 dest
    | .ok false => .error (.err .assertion)
  (removeDir r.1 w.tmpDir, res)

end Verif.Model.FromPrism
