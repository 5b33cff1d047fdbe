import Verif.Theory.Bridge
import Verif.Theory.Transient
import Mathlib.Algebra.BigOperators.Fin
import Mathlib.Tactic.FinCases
/-! # C60: extremal reachability probabilities are attained by memoryless deterministic schedulers -/
namespace Verif.Props
open Verif.Spec Verif.Theory

variable {S R : Type} [Fintype S] [DecidableEq S] [Nonempty S] [DecidableEq R]

/-- a choice of available rows is a scheduler -/
theorem detSched_valid {M : MDP S R} {f : S → R} (hf : ∀ s, f s ∈ M.rows s) :
    M.IsSched (detSched f) where
  nonneg h s r _ := by unfold detSched; split <;> norm_num
  sum_one h s := by simp [detSched, hf s]

/-- **C60.** In every finite MDP and for every target set one memoryless deterministic scheduler
attains the minimal probability from all states simultaneously. -/
theorem C60_memoryless_min {M : MDP S R} (hM : M.Valid) (T : Finset S) :
    ∃ f : S → R, (∀ s, f s ∈ M.rows s) ∧ ∀ s, M.reach T (detSched f) s = M.PrMin T s := by
  obtain ⟨f, hf, h⟩ := Core.exists_det_tot_eq_Vmin (Bridge.ok hM T) (Bridge.bound hM T)
  refine ⟨f, hf, fun s => ?_⟩
  rw [Bridge.PrMin_eq hM T, ← h, Bridge.reach_eq hM T (detSched_valid hf)]

/-- **C60.** … and another one the maximal probability. -/
theorem C60_memoryless_max {M : MDP S R} (hM : M.Valid) (T : Finset S) :
    ∃ f : S → R, (∀ s, f s ∈ M.rows s) ∧ ∀ s, M.reach T (detSched f) s = M.PrMax T s := by
  obtain ⟨f, hf, h⟩ := Core.exists_det_tot_eq_Vmax (Bridge.sub hM T)
  refine ⟨f, hf, fun s => ?_⟩
  rw [Bridge.PrMax_eq hM T, ← h, Bridge.reach_eq hM T (detSched_valid hf)]

/-- the value of every scheduler, however it uses randomness and history, lies between the two -/
theorem C60_between {M : MDP S R} (hM : M.Valid) (T : Finset S) {σ : Sched S R} (hσ : M.IsSched σ)
    (s : S) : M.PrMin T s ≤ M.reach T σ s ∧ M.reach T σ s ≤ M.PrMax T s := by
  rw [Bridge.PrMin_eq hM T, Bridge.PrMax_eq hM T, Bridge.reach_eq hM T hσ]
  exact ⟨Core.Vmin_le_tot (Bridge.ok hM T) (Bridge.bound hM T) ((Bridge.isSched_iff hM T).2 hσ) s,
    Core.tot_le_Vmax (Bridge.ok hM T) (Bridge.bound hM T) ((Bridge.isSched_iff hM T).2 hσ) s⟩

/-- a valid MDP: state 0 may go to 1 surely (row 0) or stay (row 1); state 1 loops (row 2) -/
noncomputable def exMDP : MDP (Fin 2) (Fin 3) where
  rows s := if s = 0 then {0, 1} else {2}
  P r t := if r = 0 then (if t = 1 then 1 else 0) else if r = 1 then (if t = 0 then 1 else 0)
    else (if t = 1 then 1 else 0)

example : exMDP.Valid where
  rows_nonempty s := by fin_cases s <;> simp [exMDP]
  nonneg s r _ t := by unfold exMDP; dsimp only; split_ifs <;> norm_num
  sum_one s r _ := by fin_cases r <;> simp [exMDP, Fin.sum_univ_two]

end Verif.Props
