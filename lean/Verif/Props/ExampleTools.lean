import Verif.Props.ExampleRF
/-! # Building small systems for examples and counterexamples -/
set_option linter.unusedSectionVars false

namespace Verif.Props
open Verif.Model Verif.Proofs

variable {K : Type} [Field K] [LinearOrder K] [IsStrictOrderedRing K]

/-- a system object without action labels; `graph` is built from the matrix -/
def mkSys (P : Dok K) (idx : Dict (Nat × Nat) Nat) (labS : IDict String Nat) : Sys K :=
  ⟨false, P, idx, IDict.mk' [] true, labS, none,
    match Graph.build P.cols (invGet? idx) P.items (Graph.empty P.cols) with
    | .ok g => g
    | .error _ => Graph.empty 0⟩

theorem mkSys_wf {P : Dok K} {idx : Dict (Nat × Nat) Nat} {labS : IDict String Nat}
    (h1 : (P.items.map Prod.fst).Nodup) (h2 : ∀ e ∈ P.items, (e.1.1 < P.rows ∧ e.1.2 < P.cols) ∧ 0 < e.2)
    (h3 : ∀ i < P.rows, ∑ j ∈ Finset.range P.cols, P.get i j = 1)
    (h4 : (idx.map Prod.fst).Nodup) (h5 : (idx.map Prod.snd).Nodup)
    (h6 : (Graph.build P.cols (invGet? idx) P.items (Graph.empty P.cols)).isOk = true) :
    (mkSys P idx labS).WF where
  nodup := h1
  range i j p h := (h2 _ h).1
  pos i j p h := (h2 _ h).2
  sum := h3
  keys := h4
  vals := h5
  graph := by
    show Graph.build P.cols (invGet? idx) P.items (Graph.empty P.cols) = .ok (mkSys P idx labS).graph
    unfold mkSys
    revert h6
    cases Graph.build P.cols (invGet? idx) P.items (Graph.empty P.cols) with
    | ok g => intro _; rfl
    | error e => intro h; cases h

theorem exists_of_ok {α : Type} {x : Except Err α} (h : x.isOk = true) : ∃ a, x = .ok a := by
  cases x with
  | ok a => exact ⟨a, rfl⟩
  | error e => cases h

theorem exists_of_ok_and {α : Type} {x : Except Err α} {p : α → Bool}
    (h : (match x with | .ok a => p a | .error _ => false) = true) : ∃ a, x = .ok a ∧ p a = true := by
  cases x with
  | ok a => exact ⟨a, rfl, h⟩
  | error e => cases h

/-- is the answer `True`? -/
def yes (x : Except Err Bool) : Bool := match x with | .ok true => true | _ => false

theorem yes_iff {x : Except Err Bool} : yes x = true ↔ x = .ok true := by
  cases x with
  | ok b => cases b <;> simp [yes]
  | error e => simp [yes]

/-! a state with a self-loop of probability `1-ε` -/
section
variable (K)
def loopP (ε : K) : Dok K := ⟨3, 3, [((0, 0), 1 - ε), ((0, 1), ε / 2), ((0, 2), ε / 2), ((1, 1), 1), ((2, 2), 1)]⟩
def loopI : Dict (Nat × Nat) Nat := [((0, 0), 0), ((1, 0), 1), ((2, 0), 2)]
def loopL : IDict String Nat := IDict.mk' [("init", [0]), ("goal", [1]), ("fail", [2])] true
end
end Verif.Props
