import Verif.Theory.Transient
import Mathlib.Analysis.SpecificLimits.Basic
/-!
# Strategies read off vectors

A flow defines a memoryless randomised strategy whose value is the gain of the flow (`gain_eq_of_follows`), and strategies that
use only actions which are tight for a solution of the optimality equations have this solution as their value
(`tot_le_of_tight`, `tot_eq_of_tight`).
-/
set_option linter.unusedSectionVars false

namespace Verif.Theory.Core
open Verif.Spec Finset Filter Topology

variable {S R : Type} [Fintype S] {M : Core S R}

/-- the value of a memoryless strategy satisfies its linear equation -/
theorem tot_mem_eq {B : S → ℝ} (ok : M.OK) (b : M.Bound B) {σ : S → R → ℝ} (hσ : M.IsSched fun _ => σ) (s : S) :
    M.tot (fun _ => σ) s = ∑ r ∈ M.rows s, σ s r * M.step (M.tot fun _ => σ) s r := by
  have hh : ∀ n h h' s, M.val (fun _ => σ) n h s = M.val (fun _ => σ) n h' s := by
    intro n
    induction n with
    | zero => intros; rfl
    | succ n ih =>
      intro h h' s
      rw [val_step_eq, val_step_eq]
      refine Finset.sum_congr rfl fun r _ => ?_
      congr 2
      funext t
      exact ih _ _ t
  have hlim : ∀ t, Tendsto (fun n => M.val (fun _ => σ) n [] t) atTop (𝓝 (M.tot (fun _ => σ) t)) :=
    fun t => tendsto_atTop_ciSup (val_mono ok hσ [] t) (bdd_val ok b hσ [] t)
  have h1 := (hlim s).comp (tendsto_add_atTop_nat 1)
  have h2 : Tendsto (fun n => ∑ r ∈ M.rows s, σ s r * M.step (fun t => M.val (fun _ => σ) n [] t) s r) atTop
      (𝓝 (∑ r ∈ M.rows s, σ s r * M.step (M.tot fun _ => σ) s r)) :=
    tendsto_finsetSum _ fun r _ => (tendsto_step (M := M) hlim s r).const_mul _
  refine tendsto_nhds_unique h1 (h2.congr fun n => ?_)
  show _ = M.val (fun _ => σ) (n + 1) [] s
  rw [val_step_eq]
  refine Finset.sum_congr rfl fun r _ => ?_
  congr 2
  funext t
  exact hh n [] _ t

/-- a flow that the strategy follows: its gain is its balance weighted with the values of the strategy -/
theorem gain_eq_of_follows {y : S → R → ℝ} {Y x : S → ℝ} {σ : S → R → ℝ} (h1 : ∀ s, ∑ r ∈ M.rows s, σ s r = 1)
    (hy : ∀ s, ∀ r ∈ M.rows s, y s r = Y s * σ s r) (hx : ∀ s, Y s ≠ 0 → x s = ∑ r ∈ M.rows s, σ s r * M.step x s r) :
    M.gain y = ∑ t, x t * M.bal y t := by
  have h2 : ∑ s, ∑ r ∈ M.rows s, y s r * (x s - M.step x s r) = 0 := by
    refine Finset.sum_eq_zero fun s _ => ?_
    have e : ∑ r ∈ M.rows s, y s r * (x s - M.step x s r) =
        Y s * (x s - ∑ r ∈ M.rows s, σ s r * M.step x s r) := by
      calc ∑ r ∈ M.rows s, y s r * (x s - M.step x s r)
          = ∑ r ∈ M.rows s, (Y s * x s * σ s r - Y s * (σ s r * M.step x s r)) :=
            Finset.sum_congr rfl fun r hr => by rw [hy s r hr]; ring
        _ = _ := by rw [Finset.sum_sub_distrib, ← Finset.mul_sum, h1, ← Finset.mul_sum]; ring
    rw [e]
    by_cases h0 : Y s = 0
    · rw [h0, zero_mul]
    · rw [← hx s h0, sub_self, mul_zero]
  rw [duality] at h2
  linarith

/-- a strategy using only actions that do not exceed `x` has value at most `x` -/
theorem tot_le_of_tight (ok : M.OK) {σ : Sched S R} (hσ : M.IsSched σ) {x : S → ℝ} (h0 : ∀ s, 0 ≤ x s)
    (ht : ∀ h s, ∀ r ∈ M.rows s, σ h s r ≠ 0 → M.step x s r ≤ x s) (s : S) : M.tot σ s ≤ x s := by
  refine ciSup_le fun n => ?_
  suffices ∀ h s, M.val σ n h s ≤ x s from this [] s
  induction n with
  | zero => intro h s; exact h0 s
  | succ n ih =>
    intro h s
    rw [val_step_eq]
    calc ∑ r ∈ M.rows s, σ h s r * M.step (fun t => M.val σ n ((s, r) :: h) t) s r
        ≤ ∑ r ∈ M.rows s, σ h s r * x s := by
          refine Finset.sum_le_sum fun r hr => ?_
          by_cases hz : σ h s r = 0
          · rw [hz, zero_mul, zero_mul]
          · exact mul_le_mul_of_nonneg_left
              (le_trans (step_mono ok (fun t => ih ((s, r) :: h) t) hr) (ht h s r hr hz)) (hσ.nonneg h s r hr)
      _ = x s := by rw [← Finset.sum_mul, hσ.sum_one, one_mul]

/-- a strategy using only tight actions has value `x`, if what is left vanishes in the long run -/
theorem tot_eq_of_tight (ok : M.OK) {σ : Sched S R} (hσ : M.IsSched σ) {x w : S → ℝ} {q C : ℝ} (hq0 : 0 ≤ q) (hq1 : q < 1)
    (hC : 0 ≤ C) (hw : ∀ s, ∀ r ∈ M.rows s, ∑ t, M.Q s r t * w t ≤ q * w s) (hx : ∀ s, |x s| ≤ C * w s)
    (ht : ∀ h s, ∀ r ∈ M.rows s, σ h s r ≠ 0 → M.step x s r = x s) (s : S) : M.tot σ s = x s := by
  have key : ∀ n h s, |x s - M.val σ n h s| ≤ C * q ^ n * w s := by
    intro n
    induction n with
    | zero => intro h s; simpa [val] using hx s
    | succ n ih =>
      intro h s
      have e : x s - M.val σ (n + 1) h s = ∑ r ∈ M.rows s, σ h s r * ∑ t, M.Q s r t * (x t - M.val σ n ((s, r) :: h) t) := by
        rw [val_step_eq]
        have : x s = ∑ r ∈ M.rows s, σ h s r * x s := by rw [← Finset.sum_mul, hσ.sum_one, one_mul]
        conv_lhs => rw [this]
        rw [← Finset.sum_sub_distrib]
        refine Finset.sum_congr rfl fun r hr => ?_
        by_cases hz : σ h s r = 0
        · rw [hz]; ring
        · rw [← mul_sub]
          congr 1
          conv_lhs => rw [← ht h s r hr hz]
          unfold step
          rw [add_sub_add_left_eq_sub, ← Finset.sum_sub_distrib]
          exact Finset.sum_congr rfl fun t _ => by ring
      rw [e]
      calc |∑ r ∈ M.rows s, σ h s r * ∑ t, M.Q s r t * (x t - M.val σ n ((s, r) :: h) t)|
          ≤ ∑ r ∈ M.rows s, |σ h s r * ∑ t, M.Q s r t * (x t - M.val σ n ((s, r) :: h) t)| := Finset.abs_sum_le_sum_abs _ _
        _ ≤ ∑ r ∈ M.rows s, σ h s r * (C * q ^ (n + 1) * w s) := by
          refine Finset.sum_le_sum fun r hr => ?_
          rw [abs_mul, abs_of_nonneg (hσ.nonneg h s r hr)]
          refine mul_le_mul_of_nonneg_left ?_ (hσ.nonneg h s r hr)
          calc |∑ t, M.Q s r t * (x t - M.val σ n ((s, r) :: h) t)|
              ≤ ∑ t, |M.Q s r t * (x t - M.val σ n ((s, r) :: h) t)| := Finset.abs_sum_le_sum_abs _ _
            _ ≤ ∑ t, M.Q s r t * (C * q ^ n * w t) := by
              refine Finset.sum_le_sum fun t _ => ?_
              rw [abs_mul, abs_of_nonneg (ok.Q0 s r hr t)]
              exact mul_le_mul_of_nonneg_left (ih _ t) (ok.Q0 s r hr t)
            _ = C * q ^ n * ∑ t, M.Q s r t * w t := by
              rw [Finset.mul_sum]; exact Finset.sum_congr rfl fun t _ => by ring
            _ ≤ C * q ^ n * (q * w s) := mul_le_mul_of_nonneg_left (hw s r hr) (mul_nonneg hC (pow_nonneg hq0 n))
            _ = C * q ^ (n + 1) * w s := by ring
        _ = C * q ^ (n + 1) * w s := by rw [← Finset.sum_mul, hσ.sum_one, one_mul]
  have hlim : Tendsto (fun n => M.val σ n [] s) atTop (𝓝 (x s)) := by
    rw [tendsto_iff_dist_tendsto_zero]
    have h0 : Tendsto (fun n : ℕ => C * q ^ n * w s) atTop (𝓝 0) := by
      have := ((tendsto_pow_atTop_nhds_zero_of_lt_one hq0 hq1).const_mul C).mul_const (w s)
      simpa using this
    refine squeeze_zero (fun n => dist_nonneg) (fun n => ?_) h0
    rw [Real.dist_eq, abs_sub_comm]
    exact key n [] s
  exact tendsto_nhds_unique
    (tendsto_atTop_ciSup (val_mono ok hσ [] s) hlim.bddAbove_range) hlim

/-- a strategy using only tight actions has value `x`, if there are no end components -/
theorem tot_eq_of_tight_transient (h : M.QSub) (htr : M.Transient) {σ : Sched S R} (hσ : M.IsSched σ) {x : S → ℝ}
    (ht : ∀ h s, ∀ r ∈ M.rows s, σ h s r ≠ 0 → M.step x s r = x s) (s : S) : M.tot σ s = x s := by
  classical
  obtain ⟨w, w0, w1⟩ := exists_w h htr
  have hw1 : ∀ s, 1 ≤ w s := fun s => by
    obtain ⟨r, hr⟩ := M.ne s
    have h1 := w1 s r hr
    have : 0 ≤ ∑ t, M.Q s r t * w t := Finset.sum_nonneg fun t _ => mul_nonneg (h.Q0 s r hr t) (w0 t)
    linarith
  have hW : ∀ s, w s ≤ ∑ t, w t := fun s => Finset.single_le_sum (fun t _ => w0 t) (Finset.mem_univ s)
  have hX : ∀ s, |x s| ≤ ∑ t, |x t| := fun s => Finset.single_le_sum (f := fun t => |x t|) (fun t _ => abs_nonneg _) (Finset.mem_univ s)
  have hX0 : 0 ≤ ∑ t, |x t| := Finset.sum_nonneg fun t _ => abs_nonneg _
  have hWs : 1 ≤ ∑ t, w t := (hw1 s).trans (hW s)
  generalize ∑ t, w t = W at hW hWs
  have hW0 : 0 < W := by linarith
  have hi : 1 / W ≤ 1 := by rw [div_le_one hW0]; exact hWs
  have hp : 0 < 1 / W := by positivity
  refine tot_eq_of_tight h.toOK hσ (q := 1 - 1 / W) (w := w) (by linarith) (by linarith) hX0 (fun s r hr => ?_) (fun s => ?_) ht s
  · have h1 := w1 s r hr
    have h2 : 1 / W * w s ≤ 1 := by
      rw [one_div, inv_mul_le_iff₀ hW0, mul_one]
      exact hW s
    linarith
  · have h1 := hX s
    have h2 := hw1 s
    nlinarith

open Classical in
/-- where there is a closed set, the actions that attain the maximum can be chosen such that some state of it never gains anything -/
theorem exists_tight_zero [DecidableEq R] (h : M.Sub) {E : Set S} {A : S → Set R} (hne : E.Nonempty) (hact : ∀ s ∈ E, (A s).Nonempty)
    (hav : ∀ s ∈ E, ∀ r ∈ A s, r ∈ M.rows s) (hfull : ∀ s ∈ E, ∀ r ∈ A s, ∑ t, M.Q s r t = 1)
    (hcl : ∀ s ∈ E, ∀ r ∈ A s, ∀ t, 0 < M.Q s r t → t ∈ E) :
    ∃ f : S → R, (∀ s, f s ∈ M.rows s ∧ M.step M.Vmax s (f s) = M.Vmax s) ∧ ∃ s ∈ E, M.tot (detSched f) s = 0 := by
  have ok := h.toOK
  have b := h.bound
  obtain ⟨m, hm, hmin⟩ := Set.exists_min_image E M.Vmax (Set.toFinite _) hne
  -- the states of least value are closed under the rows that stay
  have hstay : ∀ s ∈ E, M.Vmax s = M.Vmax m → ∃ r ∈ M.rows s, M.g s r = 0 ∧ (∀ t, M.Q s r t ≠ 0 → t ∈ E ∧ M.Vmax t = M.Vmax m) ∧
      M.step M.Vmax s r = M.Vmax s := by
    intro s hs hv
    obtain ⟨r, hr⟩ := hact s hs
    have hr' := hav s hs r hr
    have h1 := hfull s hs r hr
    have hg : M.g s r = 0 := by
      have := h.sub s r hr'
      have := h.g0 s r hr'
      linarith
    have hle := step_Vmax_le ok b hr'
    unfold step at hle
    rw [hg, zero_add, hv] at hle
    have hz : ∑ t, M.Q s r t * (M.Vmax t - M.Vmax m) ≤ 0 := by
      simp only [mul_sub]
      rw [Finset.sum_sub_distrib, ← Finset.sum_mul, h1, one_mul]
      linarith
    have hnn : ∀ t ∈ Finset.univ, 0 ≤ M.Q s r t * (M.Vmax t - M.Vmax m) := fun t _ => by
      rcases (ok.Q0 s r hr' t).eq_or_lt with h0 | h0
      · rw [← h0, zero_mul]
      · exact mul_nonneg h0.le (sub_nonneg.2 (hmin t (hcl s hs r hr t h0)))
    have hall := (Finset.sum_eq_zero_iff_of_nonneg hnn).1 (le_antisymm hz (Finset.sum_nonneg hnn))
    refine ⟨r, hr', hg, fun t ht => ⟨hcl s hs r hr t (lt_of_le_of_ne (ok.Q0 s r hr' t) (Ne.symm ht)), ?_⟩, ?_⟩
    · exact sub_eq_zero.1 ((mul_eq_zero.1 (hall t (Finset.mem_univ t))).resolve_left ht)
    · have := Finset.sum_eq_zero hall
      simp only [mul_sub] at this
      rw [Finset.sum_sub_distrib, ← Finset.sum_mul, h1, one_mul] at this
      unfold step
      rw [hg, zero_add, hv]
      linarith
  have hch : ∀ s, ∃ r ∈ M.rows s, M.step M.Vmax s r = M.Vmax s ∧ (s ∈ E ∧ M.Vmax s = M.Vmax m →
      M.g s r = 0 ∧ ∀ t, M.Q s r t ≠ 0 → t ∈ E ∧ M.Vmax t = M.Vmax m) := by
    intro s
    by_cases hs : s ∈ E ∧ M.Vmax s = M.Vmax m
    · obtain ⟨r, h1, h2, h3, h4⟩ := hstay s hs.1 hs.2
      exact ⟨r, h1, h4, fun _ => ⟨h2, h3⟩⟩
    · obtain ⟨r, h1, h2⟩ := exists_step_Vmax ok b s
      exact ⟨r, h1, h2, fun hc => absurd hc hs⟩
  choose f f1 f2 f3 using hch
  have hσ : M.IsSched (detSched f) := ⟨fun _ s r _ => by unfold detSched; split <;> norm_num,
    fun _ s => by unfold detSched; rw [Finset.sum_ite_eq' _ (f s) (fun _ => (1 : ℝ)), if_pos (f1 s)]⟩
  refine ⟨f, fun s => ⟨f1 s, f2 s⟩, m, hm, ?_⟩
  refine le_antisymm ?_ ((Vmin_nonneg ok b m).trans (Vmin_le_tot ok b hσ m))
  have key := tot_le_of_tight ok hσ (x := fun s => if s ∈ E ∧ M.Vmax s = M.Vmax m then 0 else M.Vmax s)
    (fun s => by split; exacts [le_rfl, Vmax_nonneg ok b s]) (fun l s r hr hne => ?_) m
  · simpa [hm] using key
  · obtain rfl : r = f s := by
      by_contra hc
      exact hne (by unfold detSched; rw [if_neg hc])
    by_cases hs : s ∈ E ∧ M.Vmax s = M.Vmax m
    · rw [if_pos hs]
      obtain ⟨g1, g2⟩ := f3 s hs
      unfold step
      rw [g1, zero_add]
      refine (Finset.sum_eq_zero fun t _ => ?_).le
      by_cases ht : M.Q s (f s) t = 0
      · rw [ht, zero_mul]
      · dsimp only
        rw [if_pos (g2 t ht), mul_zero]
    · rw [if_neg hs]
      refine le_trans (step_mono ok (fun t => ?_) hr) (f2 s).le
      split
      · exact Vmax_nonneg ok b t
      · exact le_rfl

end Verif.Theory.Core
