import Verif.Model.System
import Verif.Model.Text
/-!
# Saving and loading: `switss/prism/prism.py` (label files), `dtmc.py`, `mdp.py`, `amdp.py: from_file`

Every function maps the text of a file to a value or an exception.  The path handling and the two
`open` calls are not modelled.
-/

namespace Verif.Model
open Text

/-- prism.py:22-27: the header line `0="init" 1="goal" …`.  The numbers consist of digits, so they are not negative. -/
def parseHeader (line : List Char) : Except Err (Dict Nat String × Dict String (List Nat)) :=
  (marks (line.length + 1) line).foldlM (fun acc m => do
    let i ← pyInt m.1
    .ok (acc.1.set i.toNat (String.ofList m.2), acc.2.set (String.ofList m.2) [])) ([], [])

/-- state of the loop prism.py:29-37: `states_by_label`, `labels_by_state` -/
abbrev LabState := Dict String (List Nat) × Dict Nat (List String)

/-- prism.py:33-37: one label id of a state line.  `labels_by_state[stateidx]` and
`states_by_label[label]` exist at this point, so that the `KeyError`s for them do not occur.  No label has a negative
number. -/
def parseId (ids : Dict Nat String) (s : Nat) (acc : LabState) (w : List Char) : Except Err LabState := do
  let i ← pyInt w
  match if 0 ≤ i then ids.get? i.toNat else none with
  | none => .error .keyError
  | some l => .ok (acc.1.set l (sadd ((acc.1.get? l).getD []) s), acc.2.set s (sadd ((acc.2.get? s).getD []) l))

/-- prism.py:29-37: one line `3: 0 2`.  Without a match `regexp_res` is `None`, whose `group` raises
`AttributeError`.  The first group consists of digits. -/
def parseLine (ids : Dict Nat String) (acc : LabState) (line : List Char) : Except Err LabState :=
  match searchLine line with
  | none => .error .attributeError
  | some (g1, g2) => do
    let s ← pyInt g1
    (split g2).foldlM (parseId ids s.toNat) (acc.1, acc.2.set s.toNat [])

/-- prism.py:7-39 `parse_label_file`; the result is `states_by_label, labels_by_state,
labelid_to_label` -/
def parseLabelFile (text : List Char) : Except Err (LabState × Dict Nat String) :=
  match readLines text with
  | [] => .error .indexError
  | h :: ls => do
    let (ids, sbl) ← parseHeader h
    let r ← ls.foldlM (parseLine ids) (sbl, [])
    .ok (r, ids)

namespace Dok
variable {K : Type}

/-- scipy `dok_matrix.resize((r,c))`: entries outside the new shape are dropped -/
def resize (m : Dok K) (r c : Nat) : Dok K :=
  ⟨r, c, m.items.filter fun e => e.1.1 < r ∧ e.1.2 < c⟩

end Dok

namespace Sys
variable {K : Type} [Field K] [LinearOrder K]

/-- dtmc.py:112-119, mdp.py:130-137: the label file.  `π` and `π'` are the iteration orders of the sets
of states and of labels.  `unique_labels_list.index` raises `ValueError` for an unknown label. -/
def saveLab (π : List Nat → List Nat) (π' : List String → List String) (M : Sys K) :
    Except Err (List Char) := do
  let labs := M.labS.d.keys
  let header := joinSp (labs.zipIdx.map fun li => fmtD li.2 ++ '=' :: '"' :: li.1.toList ++ ['"'])
  let body ← ((M.labS.force π).flip.d.filter fun e => !e.2.isEmpty).mapM fun e => do
    let ids ← (π' e.2).mapM fun l => match labs.idxOf? l with
      | some i => Except.ok (fmtD i)
      | none => Except.error Err.valueError
    Except.ok (fmtD e.1 ++ ':' :: ' ' :: joinSp ids ++ ['\n'])
  .ok (header ++ '\n' :: body.flatten)

variable [IsStrictOrderedRing K] [FloorRing K]

/-- dtmc.py:105-109: the transition file of a DTMC; `.inv[rowidx]` raises `KeyError` -/
def saveTraDTMC (M : Sys K) : Except Err (List Char) := do
  let body ← M.P.items.mapM fun e => match invGet? M.idx e.1.1 with
    | none => Except.error Err.keyError
    | some (s, _) => Except.ok (fmtD s ++ ' ' :: fmtD e.1.2 ++ ' ' :: fmtF e.2 ++ ['\n'])
  .ok (fmtD M.N ++ ' ' :: fmtD M.P.items.length ++ '\n' :: body.flatten)

/-- mdp.py:122-127: the transition file of an MDP -/
def saveTraMDP (M : Sys K) : Except Err (List Char) := do
  let body ← (M.P.items.filter fun e => 0 < e.2).mapM fun e => match invGet? M.idx e.1.1 with
    | none => Except.error Err.keyError
    | some (s, a) =>
      Except.ok (fmtD s ++ ' ' :: fmtD a ++ ' ' :: fmtD e.1.2 ++ ' ' :: fmtF e.2 ++ ['\n'])
  .ok (fmtD M.N ++ ' ' :: fmtD M.C ++ ' ' :: fmtD M.P.items.length ++ '\n' :: body.flatten)

/-- the index scipy takes for `i` in a dimension of length `n`: negative numbers count from the end -/
def wrap (n : Nat) (i : Int) : Nat := if i < 0 then (i + n).toNat else i.toNat

/-- `P[i,j] = p` with the range check of scipy -/
def store (P : Dok K) (i j : Int) (p : ℚ) : Except Err (Dok K) :=
  if -P.rows ≤ i ∧ i < P.rows ∧ -P.cols ≤ j ∧ j < P.cols then .ok (P.set (wrap P.rows i) (wrap P.cols j) (p : K))
  else .error .indexError

/-- a number of rows or columns: scipy's `resize` raises `ValueError` for a negative one -/
def size (n : Int) : Except Err Nat := if 0 ≤ n then .ok n.toNat else .error .valueError

/-- dtmc.py:129-140: one line -/
def loadLineDTMC (P : Dok K) (line : List Char) : Except Err (Dok K) :=
  match split line with
  | [a, _] => do
    let n ← pyInt a
    let n ← size n
    .ok (P.resize n n)
  | a :: b :: c :: _ => do
    let s ← pyInt a
    let d ← pyInt b
    let p ← pyFloat c
    store P s d p
  | [a] => do
    let _ ← pyInt a
    .error .indexError
  | [] => .error .indexError

/-- dtmc.py:123-141 `DTMC._load_transition_matrix` -/
def loadDTMC (text : List Char) : Except Err (Dok K) :=
  (readLines text).foldlM loadLineDTMC (Dok.zero 1 1)

/-- the result of `MDP._load_transition_matrix` -/
structure Loaded (K : Type) where
  P : Dok K
  idx : Dict (Nat × Nat) Nat
  labA : Dict String (List (Nat × Nat))
  next : Nat

/-- mdp.py:164-179: one line `source action dest prob [label]`.  (`index_by_state_action[…] = max_index`
cannot raise: the value is new.)  A negative source or action is `outside`: with a negative source the graph is built with
accesses outside its array; negative actions are numbers like others to the code, but not in this model. -/
def loadLineMDP (x : Loaded K) (line : List Char) : Except Err (Loaded K) :=
  match split line with
  | a :: b :: c :: d :: r => do
    let s ← pyInt a
    let act ← pyInt b
    let t ← pyInt c
    let p ← pyFloat d
    if s < 0 ∨ act < 0 then .error .outside else
    let sa := (s.toNat, act.toNat)
    let labA := match r with
      | [l] => IDict.addTo x.labA (String.ofList l) sa
      | _ => x.labA
    match x.idx.get? sa with
    | some i => do
      let P ← store x.P i t p
      .ok { x with P := P, labA := labA }
    | none => do
      let P ← store x.P x.next t p
      .ok ⟨P, x.idx.set sa x.next, labA, x.next + 1⟩
  | [a] => do
    let _ ← pyInt a
    .error .indexError
  | [a, b] => do
    let _ ← pyInt a
    let _ ← pyInt b
    .error .indexError
  | [a, b, c] => do
    let _ ← pyInt a
    let _ ← pyInt b
    let _ ← pyInt c
    .error .indexError
  | [] => .error .indexError

/-- mdp.py:141-182 `MDP._load_transition_matrix` -/
def loadMDP (text : List Char) : Except Err (Loaded K) :=
  match readLines text with
  | [] => .error .indexError
  | h :: ls =>
    match split h with
    | a :: b :: _ => do
      let n ← pyInt a
      let c ← pyInt b
      let c ← size c
      let n ← size n
      ls.foldlM loadLineMDP ⟨(Dok.zero 1 1).resize c n, [], [], 0⟩
    | [a] => do
      let _ ← pyInt a
      .error .indexError
    | [] => .error .indexError

/-- amdp.py:202-216 `DTMC.from_file(label_file_path, tra_file_path)` -/
def fromFileDTMC (lab tra : List Char) : Except Err (Sys K) := do
  let r ← parseLabelFile lab
  let P ← loadDTMC tra
  makeDTMC P (IDict.mk' r.1.1 true) none none

/-- amdp.py:202-216 `MDP.from_file(label_file_path, tra_file_path)` -/
def fromFileMDP (lab tra : List Char) : Except Err (Sys K) := do
  let r ← parseLabelFile lab
  let x ← loadMDP tra
  makeMDP x.P x.idx (IDict.mk' x.labA true) (IDict.mk' r.1.1 true) none

end Sys
end Verif.Model
