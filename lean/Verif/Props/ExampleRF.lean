import Verif.Proofs.CertSem
import Mathlib.Tactic.NormNum
import Mathlib.Tactic.IntervalCases
/-!
# A reachability form with a proper end component, used to show that hypotheses are met

State 0 goes to 1 and to goal with probability 1/2; state 1 may loop or go to goal and fail with
probability 1/2.  States 2 and 3 are goal and fail.  Works over every ordered field.
-/
set_option linter.unusedSectionVars false

namespace Verif.Props
open Verif.Model Verif.Proofs

section
variable (K : Type) [Field K] [LinearOrder K] [IsStrictOrderedRing K]

def exP : Dok K := ⟨5, 4, [((0, 1), 1/2), ((0, 2), 1/2), ((1, 1), 1), ((2, 2), 1/2), ((2, 3), 1/2),
  ((3, 2), 1), ((4, 3), 1)]⟩
def exI : Dict (Nat × Nat) Nat := [((0, 0), 0), ((1, 0), 1), ((1, 1), 2), ((2, 0), 3), ((3, 0), 4)]
def exG : Graph K :=
  match Graph.build 4 (invGet? exI) (exP K).items (Graph.empty 4) with
  | .ok g => g
  | .error _ => Graph.empty 0

/-- the system object -/
def exSys : Sys K := ⟨false, exP K, exI, IDict.mk' [] true,
  IDict.mk' [("init", [0]), ("goal", [2]), ("fail", [3])] true, none, exG K⟩

def exRnd : Graph.Rnd := ⟨fun n => n, fun _ n => n, fun _ _ n => n, fun n => n, fun _ _ => 0,
  fun _ _ => false, fun _ n => n, fun _ n => n⟩

theorem exSys_wf : (exSys K).WF where
  nodup := by simp [exSys, exP]
  range := by
    intro i j p h
    simp only [exSys, exP, List.mem_cons, Prod.mk.injEq, List.not_mem_nil, or_false] at h
    rcases h with ⟨⟨rfl, rfl⟩, -⟩ | ⟨⟨rfl, rfl⟩, -⟩ | ⟨⟨rfl, rfl⟩, -⟩ | ⟨⟨rfl, rfl⟩, -⟩ | ⟨⟨rfl, rfl⟩, -⟩ |
      ⟨⟨rfl, rfl⟩, -⟩ | ⟨⟨rfl, rfl⟩, -⟩ <;> exact ⟨Nat.le_of_ble_eq_true rfl, Nat.le_of_ble_eq_true rfl⟩
  pos := by
    intro i j p h
    simp only [exSys, exP, List.mem_cons, Prod.mk.injEq, List.not_mem_nil, or_false] at h
    rcases h with ⟨-, rfl⟩ | ⟨-, rfl⟩ | ⟨-, rfl⟩ | ⟨-, rfl⟩ | ⟨-, rfl⟩ | ⟨-, rfl⟩ | ⟨-, rfl⟩ <;> norm_num
  sum := by
    intro i hi
    have hi : i < 5 := hi
    show ∑ j ∈ Finset.range 4, _ = 1
    interval_cases i <;> simp [Finset.sum_range_succ, exSys, exP, Dok.get, Dict.get?] <;> norm_num
  keys := by simp [exSys, exI]
  vals := by simp [exSys, exI]
  graph := rfl

/-- its reachability form -/
def exRF : RF K :=
  match RF.make exRnd (exSys K) "init" "goal" "fail" false with
  | .ok rf => rf
  | .error _ => ⟨exSys K, 0, "", "", "", [], fun _ => 0, fun _ => false, 0⟩

theorem exRF_of_isOk (h : (RF.make exRnd (exSys K) "init" "goal" "fail" false).isOk = true) :
    RF.make exRnd (exSys K) "init" "goal" "fail" false = .ok (exRF K) := by
  unfold exRF
  revert h
  cases RF.make exRnd (exSys K) "init" "goal" "fail" false with
  | ok rf => intro _; rfl
  | error e => intro h; cases h

end

theorem exRF_rat : RF.make exRnd (exSys ℚ) "init" "goal" "fail" false = .ok (exRF ℚ) :=
  exRF_of_isOk ℚ (by decide +kernel)
theorem exRF_real : RF.make exRnd (exSys ℝ) "init" "goal" "fail" false = .ok (exRF ℝ) :=
  exRF_of_isOk ℝ (by decide +kernel)

end Verif.Props
