import Verif.Proofs.Groups
import Verif.Proofs.LP
import Verif.Proofs.RFSem
/-! the LP of `compute_upper_bounds` -/
set_option linter.unusedSectionVars false
namespace Verif.Proofs
open Verif.Model Verif.Model.Milp Finset

variable {K : Type} [Field K] [LinearOrder K] [IsStrictOrderedRing K]

theorem upperBoundLP_ok {A : Mat K} {b : List K} (hb : A.rows ≤ b.length) :
    ∃ lp, upperBoundLP A b = .ok lp ∧ lp.vars.length = A.cols ∧ lp.maximize = true ∧
      (∀ x, lp.objVal x = ∑ j ∈ range A.cols, x j) ∧
      ∀ x, lp.Feasible x ↔ (∀ i < A.rows, ∑ j ∈ range A.cols, A.at_ i j * x j ≤ b.getD i 0) ∧
        ∀ j < A.cols, 0 ≤ x j := by
  let cs : List (List (Nat × K) × CSense × K) := (List.range A.cols).map fun i => ([(i, 1)], .ge, 0)
  obtain ⟨lp, m, h1, h2, hk, hl, h3, h4, h5⟩ := lp_ok (A := A) (b := b) (opt := List.replicate A.cols 1)
    (s := .le) (mx := true) (cs := cs) hb (by simp) (by
      intro c hcc t ht
      obtain ⟨s, hs, rfl⟩ := List.mem_map.1 hcc
      simp only [List.mem_singleton] at ht
      subst ht
      exact List.mem_range.1 hs) (by
      intro c hcc
      obtain ⟨s, hs, rfl⟩ := List.mem_map.1 hcc
      simp) (by
      intro c hcc
      obtain ⟨s, hs, rfl⟩ := List.mem_map.1 hcc
      simp)
  refine ⟨m, ?_, hl, h3, fun x => ?_, fun x => ?_⟩
  · unfold upperBoundLP
    rw [h1]
    exact h2
  · rw [h4]
    refine sum_congr rfl fun j hj => ?_
    rw [List.getD_eq_getElem _ _ (by simpa using hj)]
    simp
  · rw [h5]
    refine and_congr Iff.rfl ?_
    constructor
    · intro g j hj
      have := g _ (List.mem_map.2 ⟨j, List.mem_range.2 hj, rfl⟩)
      simpa [CSense.holds, terms] using this
    · intro g c hcc
      obtain ⟨s, hs, rfl⟩ := List.mem_map.1 hcc
      simpa [CSense.holds, terms] using g s (List.mem_range.1 hs)

/-- rows with at most one positive coefficient are closed under maxima -/
theorem sum_max_le {n : Nat} {a x y : Nat → K} {c : K}
    (h1 : ∀ j < n, ∀ j' < n, 0 < a j → 0 < a j' → j = j')
    (hx : ∑ j ∈ range n, a j * x j ≤ c) (hy : ∑ j ∈ range n, a j * y j ≤ c) :
    ∑ j ∈ range n, a j * max (x j) (y j) ≤ c := by
  by_cases hp : ∃ k < n, 0 < a k
  · obtain ⟨k, hk, hpos⟩ := hp
    rcases le_total (y k) (x k) with g | g
    · refine le_trans (sum_le_sum fun j hj => ?_) hx
      rcases lt_or_ge 0 (a j) with h | h
      · have := h1 j (mem_range.1 hj) k hk h hpos
        subst this
        rw [max_eq_left g]
      · exact mul_le_mul_of_nonpos_left (le_max_left _ _) h
    · refine le_trans (sum_le_sum fun j hj => ?_) hy
      rcases lt_or_ge 0 (a j) with h | h
      · have := h1 j (mem_range.1 hj) k hk h hpos
        subst this
        rw [max_eq_right g]
      · exact mul_le_mul_of_nonpos_left (le_max_right _ _) h
  · push Not at hp
    exact le_trans (sum_le_sum fun j hj => mul_le_mul_of_nonpos_left (le_max_left _ _) (hp j (mem_range.1 hj))) hx

end Verif.Proofs
