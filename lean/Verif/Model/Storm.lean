import Verif.Model.System
/-!
# Reading stormpy models: `mdp.py: from_stormpy_model, choice_model_from_stormpy`, `dtmc.py: from_stormpy_model`,
`amdp.py: from_stormpy`

A stormpy model is given by what the code reads from it.  `get_labels_of_choice(get_choice_index(sid,aid))` is a field of
the action.  Numbers are elements of an ordered field.
-/

namespace Verif.Model
variable {K : Type}

/-- an element of `state.actions`: `id`, the labels of its choice, `transitions` as pairs `column, value()` -/
structure StormAction (K : Type) where
  aid : Nat
  labels : List String
  trans : Dict Nat K

/-- an element of `stormpy_model.states`: `id`, the labels of the state, `actions` -/
structure StormState (K : Type) where
  sid : Nat
  labels : List String
  actions : List (StormAction K)

/-- a stormpy model: `nr_states`, `nr_choices`, `states` -/
structure Storm (K : Type) where
  n : Nat
  c : Nat
  states : List (StormState K)

/-- the local variables of `from_stormpy_model` -/
structure StormAcc (K : Type) where
  P : Dok K
  idx : Dict (Nat × Nat) Nat
  labA : Dict String (List (Nat × Nat))
  labS : Dict String (List Nat)
  next : Nat

namespace Storm
variable [Field K] [LinearOrder K]

/-- `P[i,j] = p` with the range check of scipy -/
def put (P : Dok K) (i j : Nat) (p : K) : Except Err (Dok K) :=
  if i < P.rows ∧ j < P.cols then .ok (P.set i j p) else .error .indexError

/-- mdp.py:224-225, 274-275, dtmc.py:157-158: `for transition in action.transitions: P[index,column] = value` -/
def writeRow (P : Dok K) (i : Nat) (trans : Dict Nat K) : Except Err (Dok K) :=
  trans.foldlM (fun P t => put P i t.1 t.2) P

/-- mdp.py:210-225: one action -/
def stepAction (sid : Nat) (x : StormAcc K) (a : StormAction K) : Except Err (StormAcc K) := do
  let (index, idx, next) ← match x.idx.get? (sid, a.aid) with
    | some i => Except.ok (i, x.idx, x.next)
    | none => do
      let idx ← bput x.idx (sid, a.aid) x.next
      Except.ok (x.next, idx, x.next + 1)
  let labA := a.labels.foldl (fun d l => IDict.addTo d l (sid, a.aid)) x.labA
  let P ← writeRow x.P index a.trans
  .ok ⟨P, idx, labA, x.labS, next⟩

/-- mdp.py:203-225: one state -/
def stepState (x : StormAcc K) (s : StormState K) : Except Err (StormAcc K) :=
  s.actions.foldlM (stepAction s.sid) { x with labS := s.labels.foldl (fun d l => IDict.addTo d l s.sid) x.labS }

/-- mdp.py:186-227 `MDP.from_stormpy_model` for `choice_model = False` -/
def fromModel (m : Storm K) : Except Err (StormAcc K) :=
  m.states.foldlM stepState ⟨Dok.zero m.c m.n, [], [], [], 0⟩

/-- mdp.py:257-277: one action of the choice model.  The labels are added to `N + max_index` after `max_index` has been
increased. -/
def stepActionC (n c sid : Nat) (x : StormAcc K) (a : StormAction K) : Except Err (StormAcc K) := do
  let (index, idx, next) ← match x.idx.get? (sid, a.aid) with
    | some i => Except.ok (i, x.idx, x.next)
    | none => do
      let idx ← bput x.idx (sid, a.aid) x.next
      let idx ← bput idx (n + x.next, c + x.next) (c + x.next)
      Except.ok (x.next, idx, x.next + 1)
  let labS := a.labels.foldl (fun d l => IDict.addTo d l (n + next)) x.labS
  let labS := IDict.addTo labS "choice" (n + next)
  let P ← writeRow x.P (c + index) a.trans
  let P ← put P index (n + index) 1
  .ok ⟨P, idx, x.labA, labS, next⟩

/-- mdp.py:249-277: one state of the choice model -/
def stepStateC (n c : Nat) (x : StormAcc K) (s : StormState K) : Except Err (StormAcc K) :=
  s.actions.foldlM (stepActionC n c s.sid)
    { x with labS := s.labels.foldl (fun d l => IDict.addTo d l s.sid) (IDict.addTo x.labS "state" s.sid) }

/-- mdp.py:230-279 `MDP.choice_model_from_stormpy` -/
def choiceModel (m : Storm K) : Except Err (StormAcc K) :=
  m.states.foldlM (stepStateC m.n m.c) ⟨Dok.zero (m.c + m.c) (m.n + m.c), [], [], [], 0⟩

/-- dtmc.py:144-160 `DTMC.from_stormpy_model`: the matrix -/
def fromModelDTMC (m : Storm K) : Except Err (Dok K) :=
  m.states.foldlM (fun P s => s.actions.foldlM (fun P a => writeRow P s.sid a.trans) P) (Dok.zero m.n m.n)

/-- amdp.py:243-255 `from_stormpy` of `MDP` (`dtmc = false`) and `DTMC`.  `DTMC.from_stormpy_model` takes one argument but is
called with two: `TypeError`. -/
def fromStormpy (dtmc : Bool) (m : Storm K) (choice : Bool) : Except Err (Sys K) :=
  if dtmc then .error .typeError else do
    let x ← if choice then choiceModel m else fromModel m
    Sys.makeMDP x.P x.idx (IDict.mk' x.labA true) (IDict.mk' x.labS true) none

end Storm
end Verif.Model
