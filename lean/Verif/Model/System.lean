import Verif.Model.Graph
import Verif.Model.InvertibleDict
import Mathlib.Algebra.Order.Field.Basic
import Mathlib.Algebra.Order.AbsoluteValue.Basic
import Mathlib.Algebra.BigOperators.Group.Finset.Basic
import Mathlib.Data.Finset.Range
/-!
# `switss/model/amdp.py`, `dtmc.py`, `mdp.py`: system objects

Numbers are elements of an ordered field `K` (python floats without rounding).
-/

namespace Verif.Model
open Finset

variable {K : Type} [Field K] [LinearOrder K]

/-- scipy `dok_matrix`: shape and dictionary of stored entries -/
structure Dok (K : Type) where
  rows : Nat
  cols : Nat
  items : Dict (Nat × Nat) K

namespace Dok

/-- `dok_matrix((r,c))` -/
def zero (r c : Nat) : Dok K := ⟨r, c, []⟩

/-- `m[i,j]` -/
def get (m : Dok K) (i j : Nat) : K := (m.items.get? (i, j)).getD 0

/-- `m[i,j] = v`: a zero is not stored and deletes an existing entry.  (An index out of range raises
`IndexError`; all uses in the modelled code are in range.) -/
def set (m : Dok K) (i j : Nat) (v : K) : Dok K :=
  if v = 0 then { m with items := m.items.del (i, j) } else { m with items := m.items.set (i, j) v }

/-- `m.sum(axis=1)[i]` -/
def rowSum (m : Dok K) (i : Nat) : K := ((m.items.filter fun e => e.1.1 = i).map Prod.snd).sum

/-- `m.shape[0]`, `m.shape[1]` are fields; casting.py:4-18 for a dense 2d input: nonzero entries in
row-major order (a ragged input is rejected by numpy and is not modelled) -/
def ofDense (a : List (List K)) : Dok K :=
  ⟨a.length, (a.head?.map List.length).getD 0,
    a.zipIdx.flatMap fun r => (r.1.zipIdx.filter fun e => e.1 ≠ 0).map fun e => ((r.2, e.2), e.1)⟩

end Dok

/-- `bidict.__setitem__`: a value bound to another key raises `ValueDuplicationError` (a `ValueError`
here); an existing key is overwritten -/
def bput {α β : Type} [DecidableEq α] [DecidableEq β] (d : Dict α β) (k : α) (v : β) :
    Except Err (Dict α β) :=
  match invGet? d v with
  | none => .ok (d.set k v)
  | some k' => if k' = k then .ok d else .error .valueError

/-- `bidict(d)` for a dictionary `d` -/
def mkBidict {α β : Type} [DecidableEq α] [DecidableEq β] (d : Dict α β) : Except Err (Dict α β) :=
  d.foldlM (fun acc kv => bput acc kv.1 kv.2) []

/-- Attributes of an `AbstractMDP` (amdp.py:39-58); `dtmc` is the class of the object.  The csc/csr
copies and the visualisation are not modelled; the cache `__available_actions` is in
`actionsByState`. -/
structure Sys (K : Type) where
  dtmc : Bool
  P : Dok K
  idx : Dict (Nat × Nat) Nat
  labA : IDict String (Nat × Nat)
  labS : IDict String Nat
  rew : Option (List K)
  graph : Graph K

namespace Sys

/-- amdp.py:72-73 `np.round(s,9) == 1`: `10^9` is even, so both ties round to it -/
def roundsToOne (s : K) : Prop := |s - 1| ≤ 1 / (2 * 10 ^ 9)

instance (s : K) : Decidable (roundsToOne s) := by unfold roundsToOne; infer_instance

/-- amdp.py:78-81: rewards are read for `i in range(C)`; for a negative reward the assertion message
itself fails (`reward_vector` is not a name in scope), so `NameError` is raised -/
def checkRewards (rew : List K) : Nat → Except Err Unit
  | 0 => .ok ()
  | i + 1 => do
    checkRewards rew i
    match rew[i]? with
    | none => .error .indexError
    | some r => if 0 ≤ r then .ok () else .error .nameError

/-- amdp.py:60-81 `__check_correctness` -/
def checkCorrectness (P : Dok K) (rew : Option (List K)) : Except Err Unit :=
  if ∀ i < P.rows, roundsToOne (P.rowSum i) then
    if ∀ e ∈ P.items, 0 ≤ e.2 ∧ e.2 ≤ 1 then
      match rew with
      | none => .ok ()
      | some r => checkRewards r P.rows
    else .error .assertion
  else .error .assertion

/-- amdp.py:20-58 `AbstractMDP.__init__` (also mdp.py:11-33 `MDP.__init__`).  `P` has already been
cast to a `dok_matrix`.  Label arguments are given as `InvertibleDict`s (a plain dictionary is
wrapped with `is_default=True`, lines 46-53: use `IDict.mk' d true`). -/
def make (dtmc : Bool) (P : Dok K) (idx : Dict (Nat × Nat) Nat)
    (labA : IDict String (Nat × Nat)) (labS : IDict String Nat) (rew : Option (List K)) :
    Except Err (Sys K) := do
  let idx' ← mkBidict idx
  checkCorrectness P rew
  let g ← Graph.build P.cols (invGet? idx') P.items (Graph.empty P.cols)
  .ok ⟨dtmc, P, idx', labA, labS, rew, g⟩

/-- mdp.py:11-33 -/
def makeMDP (P : Dok K) (idx : Dict (Nat × Nat) Nat)
    (labA : IDict String (Nat × Nat)) (labS : IDict String Nat) (rew : Option (List K)) :
    Except Err (Sys K) := make false P idx labA labS rew

/-- dtmc.py:27-36: the default index -/
def dtmcIndex (n : Nat) : Dict (Nat × Nat) Nat := (List.range n).map fun i => ((i, 0), i)

/-- dtmc.py:10-40 `DTMC.__init__`.  For a non-square matrix the assertion message cannot be formatted
(two values for one `%s`), so `TypeError` is raised. -/
def makeDTMC (P : Dok K) (labS : IDict String Nat) (idx : Option (Dict (Nat × Nat) Nat))
    (rew : Option (List K)) : Except Err (Sys K) :=
  if P.rows = P.cols then
    match idx with
    | none => make true P (dtmcIndex P.rows) (IDict.mk' [] true) labS rew
    | some d =>
      if ∀ e ∈ d, e.1.2 = 0 then make true P d (IDict.mk' [] true) labS rew else .error .assertion
  else .error .typeError

/-- `type(system)(P=…, index_by_state_action=…, label_to_states=…, label_to_actions=…,
reward_vector=…)` as used by reachability_form.py:424-430 and subsystem.py; a DTMC ignores the action
labels -/
def remake (dtmc : Bool) (P : Dok K) (idx : Dict (Nat × Nat) Nat)
    (labA : IDict String (Nat × Nat)) (labS : IDict String Nat) (rew : Option (List K)) :
    Except Err (Sys K) :=
  if dtmc then makeDTMC P labS (some idx) rew else makeMDP P idx labA labS rew

def C (M : Sys K) : Nat := M.P.rows
def N (M : Sys K) : Nat := M.P.cols

/-- amdp.py:83-91 `states_by_label[l]` -/
def statesByLabel (M : Sys K) (l : String) : Except Err (List Nat) := M.labS.getItem l

/-- amdp.py:93-100 `labels_by_state[s]` -/
def labelsByState (M : Sys K) (s : Nat) : Except Err (List String) :=
  (M.labS.force id).flip.getItem s

/-- amdp.py:111-118 `labels_by_action[(s,a)]` -/
def labelsByAction (M : Sys K) (sa : Nat × Nat) : Except Err (List String) :=
  (M.labA.force id).flip.getItem sa

/-- amdp.py:120-131 `actions_by_state` -/
def actionsByState (M : Sys K) : Except Err (IDict Nat Nat) :=
  (List.range M.C).foldlM (fun d i =>
    match invGet? M.idx i with
    | none => .error .keyError
    | some (s, a) => .ok (d.add s a)) (IDict.mk' [] false)

end Sys
end Verif.Model

namespace Verif.Model.Sys
variable {K : Type} [Field K] [LinearOrder K]

/-- amdp.py:144-157 `reachable_mask`.  A state number outside the matrix makes the C code write outside
its array; the model stops with `indexError`.  The loop never runs out of fuel (C05). -/
def reachableMask (M : Sys K) (F : List Nat) (forward : Bool) (B : List Nat) :
    Except Err (List Bool) :=
  if ∀ x ∈ F, x < M.N then
    match M.graph.reachable F forward B with
    | .ok (some mask) => .ok mask
    | .ok none => .error .indexError
    | .error e => .error e
  else .error .indexError

end Verif.Model.Sys
