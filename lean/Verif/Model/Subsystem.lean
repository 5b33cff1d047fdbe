import Verif.Model.RF
import Verif.Model.Cert
/-!
# `switss/problem/subsystem.py`: `Subsystem`

Subsystems of a `ReachabilityForm`; those of a `RewardReachabilityForm` and `__repr__` are in `Model/Repr`.  `digraph` is in
`Model/Digraph`.
-/

namespace Verif.Model

variable {K : Type} [Field K] [LinearOrder K]

/-- subsystem.py:17-46 `Subsystem.__init__` (the caches are in `mask`, `subsys`) -/
structure Subsystem (K : Type) where
  rf : RF K
  cert : List K
  mode : Mode
  ignore : Bool

namespace Subsystem

/-- subsystem.py:34-39: the assertions on the shape of the certificate -/
def make (rf : RF K) (cert : List K) (mode : Mode) (ignore : Bool) : Except Err (Subsystem K) :=
  match mode with
  | .max => if cert.length = rf.sys.C - 2 then .ok ⟨rf, cert, mode, ignore⟩ else .error .assertion
  | .min => if cert.length = rf.sys.N - 2 then .ok ⟨rf, cert, mode, ignore⟩ else .error .assertion

/-- subsystem.py:67-70, one iteration -/
def maskStep (M : Sys K) (cert : List K) (m : List Bool) (i : Nat) : Except Err (List Bool) :=
  if 0 < cert.getD i 0 then
    match invGet? M.idx i with
    | none => .error .keyError
    | some (s, _) => if s < m.length then .ok (m.set s true) else .error .indexError
  else .ok m

/-- subsystem.py:60-74 `subsystem_mask` -/
def mask (x : Subsystem K) : Except Err (List Bool) :=
  match x.mode with
  | .max => (List.range (x.rf.sys.C - 2)).foldlM (maskStep x.rf.sys x.cert)
      (List.replicate (x.rf.sys.N - 2) false)
  | .min => .ok (x.cert.map fun c => decide (0 < c))

/-- subsystem.py:104-109: the values of `new_to_old_states`, whose keys are `0, 1, …`.  (The bidict is
modelled by the list of its values.) -/
def kept (m : List Bool) : List Nat := (List.range m.length).filter fun s => m.getD s false

/-- `new_to_old_states.inv[s]` -/
def newState (m : List Bool) (s : Nat) : Option Nat := (kept m).idxOf? s

/-- subsystem.py:107-108: labels of a kept state, given with its new number -/
def labelStep (M : Sys K) (d : Dict String (List Nat)) (e : Nat × Nat) : Except Err (Dict String (List Nat)) := do
  let ls ← M.labelsByState e.1
  .ok (ls.foldl (fun d l => IDict.addTo d l e.2) d)

/-- the variables `new_index_by_state_action`, `new_label_to_actions`, `new_C` -/
structure RowState where
  index : Dict (Nat × Nat) Nat
  labT : Dict (Nat × Nat) (List String)
  newC : Nat

/-- subsystem.py:112-119, one iteration.  The action labels are stored the wrong way round: the keys of
`new_label_to_actions` are state-action pairs and the values are labels. -/
def rowStep (M : Sys K) (m : List Bool) (st : RowState) (i : Nat) : Except Err RowState :=
  match invGet? M.idx i with
  | none => .error .keyError
  | some (s, a) =>
    match m[s]? with
    | none => .error .indexError
    | some false => .ok st
    | some true => do
      let ls ← M.labelsByAction (s, a)
      match newState m s with
      | none => .error .keyError
      | some n => do
        let index ← bput st.index (n, a) st.newC
        .ok ⟨index, st.labT.set (n, a) ls, st.newC + 1⟩

/-- subsystem.py:131-148, one iteration -/
def entryStep (M : Sys K) (m : List Bool) (index : Dict (Nat × Nat) Nat) (P : Dok K) (e : (Nat × Nat) × K) :
    Except Err (Dok K) :=
  match invGet? M.idx e.1.1 with
  | none => .error .keyError
  | some (s, a) =>
    if M.N - 2 ≤ e.1.2 ∨ M.N - 2 ≤ s then .ok P
    else if m.getD s false = true ∧ m.getD e.1.2 false = true then
      match newState m s, newState m e.1.2 with
      | some n, some t =>
        match index.get? (n, a) with
        | none => .error .keyError
        | some k => .ok (P.set k t e.2)
      | _, _ => .error .keyError
    else .ok P

/-- subsystem.py:152-158, one iteration: row `i`; `inner` is the matrix before the loop, in which the stored
entries of a row add up to `not_to_fail` -/
def tailStep (rf : RF K) (m : List Bool) (index : Dict (Nat × Nat) Nat) (inner : Dok K) (P : Dok K) (i : Nat) :
    Except Err (Dok K) :=
  match invGet? rf.sys.idx i with
  | none => .error .keyError
  | some (s, a) =>
    match m[s]? with
    | none => .error .indexError
    | some false => .ok P
    | some true =>
      match newState m s with
      | none => .error .keyError
      | some n =>
        match index.get? (n, a) with
        | none => .error .keyError
        | some k => .ok ((P.set k (kept m).length (rf.b i)).set k ((kept m).length + 1) (1 - (rf.b i + inner.rowSum k)))

/-- subsystem.py:121-158: the new matrix; the first two assignments are lines 128-129 -/
def matrix (rf : RF K) (m : List Bool) (index : Dict (Nat × Nat) Nat) (newC : Nat) : Except Err (Dok K) := do
  let n := (kept m).length
  let P0 := ((Dok.zero (newC + 2) (n + 2)).set (newC + 1) (n + 1) 1).set newC n 1
  let inner ← rf.sys.P.items.foldlM (entryStep rf.sys m index) P0
  (List.range (rf.sys.C - 2)).foldlM (tailStep rf m index inner) inner

/-- `.subsys` together with the dictionary given to the constructor as action labels -/
structure Result (K : Type) where
  rf : RF K
  labT : Dict (Nat × Nat) (List String)

/-- subsystem.py:82-174 `subsys` (first call).  The dictionary `labT` of action labels has state-action pairs as
keys, so as a map from labels (strings) to state-action pairs it is empty, with `is_default=True`: this is
the `labA` of the new system. -/
def subsys (ρ : Graph.Rnd) (x : Subsystem K) : Except Err (Result K) := do
  let m ← x.mask
  let M := x.rf.sys
  let labS ← (kept m).zipIdx.foldlM (labelStep M) []
  let st ← (List.range (M.C - 2)).foldlM (rowStep M m) ⟨[], [], 0⟩
  let n := (kept m).length
  let i1 ← bput st.index (n + 1, 0) (st.newC + 1)
  let i2 ← bput i1 (n, 0) st.newC
  let labS := (labS.set x.rf.targetL [n]).set x.rf.failL [n + 1]
  let P ← matrix x.rf m i2 st.newC
  let M' ← Sys.remake M.dtmc P i2 (IDict.mk' [] true) (IDict.mk' labS true) none
  let rf' ← RF.make ρ M' x.rf.initL x.rf.targetL x.rf.failL x.ignore
  .ok ⟨rf', st.labT⟩

end Subsystem
end Verif.Model
