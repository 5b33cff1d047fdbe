import Verif.Proofs.RewWithin
import Verif.Theory.Within
/-! # Comparing the values of two cores over corresponding states -/
set_option linter.unusedSectionVars false

namespace Verif.Theory.Core
open Verif.Spec Finset

variable {S R S' R' : Type} [Fintype S] [Fintype S'] {A : Core S R} {B : Core S' R'} {e : S ≃ S'}

theorem Sub.step_le_one (h : A.Sub) {x : S → ℝ} (h1 : ∀ t, x t ≤ 1) {s : S} {r : R} (hr : r ∈ A.rows s) : A.step x s r ≤ 1 :=
  le_trans (step_mono h.toOK h1 hr) (by simpa [step] using h.sub s r hr)

/-- every row of `A` is matched by a better one of `B` -/
theorem vmax_compare {I : (S → ℝ) → Prop} (hI : ∀ n, I (A.vmax n))
    (h : ∀ s, ∀ r ∈ A.rows s, ∃ r' ∈ B.rows (e s), ∀ (x : S → ℝ) (y : S' → ℝ), I x → (∀ t, x t ≤ y (e t)) →
      A.step x s r ≤ B.step y (e s) r') (n : ℕ) (s : S) : A.vmax n s ≤ B.vmax n (e s) := by
  induction n generalizing s with
  | zero => exact le_rfl
  | succ n ih =>
    refine sup'_le _ _ fun r hr => ?_
    obtain ⟨r', hr', hs⟩ := h s r hr
    exact le_trans (hs _ _ (hI n) ih) (le_sup' (B.step (B.vmax n) (e s)) hr')

/-- every row of `B` is matched by a worse one of `A` -/
theorem vmin_compare {I : (S → ℝ) → Prop} (hI : ∀ n, I (A.vmin n))
    (h : ∀ s, ∀ r' ∈ B.rows (e s), ∃ r ∈ A.rows s, ∀ (x : S → ℝ) (y : S' → ℝ), I x → (∀ t, x t ≤ y (e t)) →
      A.step x s r ≤ B.step y (e s) r') (n : ℕ) (s : S) : A.vmin n s ≤ B.vmin n (e s) := by
  induction n generalizing s with
  | zero => exact le_rfl
  | succ n ih =>
    refine le_inf' _ _ fun r' hr' => ?_
    obtain ⟨r, hr, hs⟩ := h s r' hr'
    exact le_trans (inf'_le (A.step (A.vmin n) s) hr) (hs _ _ (hI n) ih)

end Verif.Theory.Core
