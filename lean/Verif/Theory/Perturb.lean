import Verif.Theory.Tol
/-!
# Cores with nearly the same numbers

Two cores with the same transitions, whose numbers differ little, have nearly the same values.
-/
set_option linter.unusedSectionVars false

namespace Verif.Theory.Core
open Finset

variable {S R : Type} [Fintype S] [DecidableEq S] {M A B : Core S R}

/-- `exists_tol_max` for non-negative vectors, without liveness -/
theorem exists_tol_max_nonneg (h : M.Sub) {ε : ℝ} (h0 : 0 < ε) (h1 : ε ≤ 1)
    (hQ : ∀ s, ∀ r ∈ M.rows s, ∀ t, 0 < M.Q s r t → ε ≤ M.Q s r t)
    (hd : ∀ s, ∀ r ∈ M.rows s, ∑ t, M.Q s r t = 1 ∨ ∑ t, M.Q s r t ≤ 1 - ε) {n : ℕ} (hn : Fintype.card S < n) :
    ∃ w : S → ℝ, (∀ s, 0 ≤ w s) ∧ (∀ s, w s ≤ n / ε ^ n) ∧ ∀ (tol : ℝ) (z : S → ℝ), 0 ≤ tol → (∀ s, 0 ≤ z s) →
    (∀ s, ∀ r ∈ M.rows s, M.step z s r ≤ z s + tol) → ∀ s, M.Vmax s ≤ z s + tol * w s := by
  classical
  obtain ⟨f, hf, hfx, htr⟩ := exists_opt_max h
  let M' : Core S R :=
    { rows := fun s => {f s}, ne := fun s => ⟨f s, by simp⟩, g := fun _ _ => 0
      Q := fun s r t => if M.Vmax s = 0 then 0 else M.Q s r t }
  have hv0 : ∀ s, 0 ≤ M.Vmax s := Vmax_nonneg h.toOK h.bound
  have hq : M'.QSub :=
    { g0 := fun _ _ _ => le_rfl
      Q0 := fun s r hr t => by
        obtain rfl : r = f s := by simpa [M'] using hr
        simp only [M']; split
        · exact le_rfl
        · exact h.Q0 s _ (hf s) t
      sumQ := fun s r hr => by
        obtain rfl : r = f s := by simpa [M'] using hr
        simp only [M']
        by_cases hs : M.Vmax s = 0
        · simp [hs]
        · simp only [hs, if_false]; exact h.sumQ_le (hf s) }
  have ht : M'.Transient := by
    intro B hB hcl
    refine htr B hB (fun s hs => ?_) fun s hs => ?_
    · obtain ⟨r, hr, h1⟩ := hcl s hs
      refine lt_of_le_of_ne (hv0 s) fun h0 => ?_
      simp [M', ← h0] at h1
    · obtain ⟨r, hr, h1⟩ := hcl s hs
      obtain rfl : r = f s := by simpa [M'] using hr
      by_cases hv : M.Vmax s = 0
      · simp [M', hv] at h1
      · simpa [M', hv] using h1
  obtain ⟨w, hw0, hwn, hw⟩ := exists_w_eps hq ht h0 h1
    (fun s r hr t hp => by
      obtain rfl : r = f s := by simpa [M'] using hr
      by_cases hv : M.Vmax s = 0
      · simp [M', hv] at hp
      · simp only [M', hv, if_false] at hp ⊢
        exact hQ s _ (hf s) t hp)
    (fun s r hr => by
      obtain rfl : r = f s := by simpa [M'] using hr
      by_cases hv : M.Vmax s = 0
      · right; simp [M', hv]; exact h1
      · simp only [M', hv, if_false]
        exact hd s _ (hf s)) hn
  refine ⟨w, hw0, hwn, fun tol z htol hz0 hz => ?_⟩
  have hpos : ∀ s, z s + tol * w s < M.Vmax s → 0 < M.Vmax s := fun s hs =>
    (add_nonneg (hz0 s) (mul_nonneg htol (hw0 s))).trans_lt hs
  exact le_of_compare h.qsub hf (x := M.Vmax) (y := fun s => z s + tol * w s)
    (fun B hB hlt => htr B hB fun s hs => hpos s (hlt s hs)) (fun s _ => (hfx s).ge) (by
      intro s hs
      have hv := (hpos s hs).ne'
      have h1 := hz s (f s) (hf s)
      have h2 := hw s (f s) (by simp [M'])
      have h3 : ∑ t, M.Q s (f s) t * (z t + tol * w t) =
          ∑ t, M.Q s (f s) t * z t + tol * ∑ t, M.Q s (f s) t * w t := by
        rw [Finset.mul_sum, ← Finset.sum_add_distrib]
        exact Finset.sum_congr rfl fun t _ => by ring
      simp only [step] at h1 ⊢
      rw [h3]
      have h4 := mul_le_mul_of_nonneg_left h2 htol
      simp only [M', hv, if_false] at h4
      linarith)

/-- same transitions and gains -/
structure Alike (A B : Core S R) : Prop where
  rows : ∀ s, B.rows s = A.rows s
  gain : ∀ s, ∀ r ∈ A.rows s, B.g s r = A.g s r
  supp : ∀ s, ∀ r ∈ A.rows s, ∀ t, 0 < B.Q s r t ↔ 0 < A.Q s r t
  full : ∀ s, ∀ r ∈ A.rows s, ∑ t, B.Q s r t = 1 ↔ ∑ t, A.Q s r t = 1

/-- same transitions and gains, numbers at most `δ` apart per row -/
structure Near (δ : ℝ) (A B : Core S R) : Prop extends Alike A B where
  close : ∀ s, ∀ r ∈ A.rows s, ∑ t, |B.Q s r t - A.Q s r t| ≤ δ

theorem Alike.symm (h : Alike A B) : Alike B A where
  rows s := (h.rows s).symm
  gain s r hr := (h.gain s r (h.rows s ▸ hr)).symm
  supp s r hr t := (h.supp s r (h.rows s ▸ hr) t).symm
  full s r hr := (h.full s r (h.rows s ▸ hr)).symm

theorem Near.symm {δ : ℝ} (h : Near δ A B) : Near δ B A where
  toAlike := h.toAlike.symm
  close s r hr := by
    simp only [abs_sub_comm (A.Q s r _)]
    exact h.close s r (h.rows s ▸ hr)

theorem Alike.inEC (h : Alike A B) {s : S} (he : A.InEC s) : B.InEC s := by
  obtain ⟨E, F, k, hs⟩ := he
  refine ⟨E, F, ⟨k.nonempty, k.act, fun s hs r hr => by rw [h.rows]; exact k.avail s hs r hr,
    fun s hs r hr => (h.full s r (k.avail s hs r hr)).2 (k.full s hs r hr),
    fun s hs r hr t ht => k.closed s hs r hr t ((h.supp s r (k.avail s hs r hr) t).1 ht), fun s hs t ht => ?_⟩, hs⟩
  have hc := k.conn s hs t ht
  clear ht
  induction hc with
  | refl => exact .refl
  | tail _ he ih =>
    obtain ⟨hu, r, hr, hq⟩ := he
    exact ih.tail ⟨hu, r, hr, (h.supp _ r (k.avail _ hu r hr) _).2 hq⟩

/-- one-step lookaheads of a vector with entries in `[0,1]` -/
theorem Near.step_close {δ : ℝ} (h : Near δ A B) {z : S → ℝ} (h0 : ∀ s, 0 ≤ z s) (h1 : ∀ s, z s ≤ 1) {s : S} {r : R}
    (hr : r ∈ A.rows s) : |B.step z s r - A.step z s r| ≤ δ := by
  have e : B.step z s r - A.step z s r = ∑ t, (B.Q s r t - A.Q s r t) * z t := by
    simp only [step, h.gain s r hr, sub_mul, Finset.sum_sub_distrib]; ring
  rw [e]
  refine (Finset.abs_sum_le_sum_abs _ _).trans (le_trans (Finset.sum_le_sum fun t _ => ?_) (h.close s r hr))
  rw [abs_mul, abs_of_nonneg (h0 t)]
  exact mul_le_of_le_one_right (abs_nonneg _) (h1 t)

section
variable {δ ε : ℝ} (h : Near δ A B) (hA : A.Sub) (hB : B.Sub) (h0 : 0 < ε) (h1 : ε ≤ 1)
  (hQ : ∀ s, ∀ r ∈ A.rows s, ∀ t, 0 < A.Q s r t → ε ≤ A.Q s r t)
  (hd : ∀ s, ∀ r ∈ A.rows s, ∑ t, A.Q s r t = 1 ∨ ∑ t, A.Q s r t ≤ 1 - ε) {n : ℕ} (hn : Fintype.card S < n)
include h hA hB h0 h1 hQ hd hn

theorem Near.Vmax_le (s : S) : A.Vmax s ≤ B.Vmax s + δ * (n / ε ^ n) := by
  obtain ⟨w, hw0, hwn, hw⟩ := exists_tol_max_nonneg hA h0 h1 hQ hd hn
  have hz0 := Vmax_nonneg hB.toOK hB.bound
  have hδ : 0 ≤ δ := by
    obtain ⟨r, hr⟩ := A.ne s
    exact (Finset.sum_nonneg fun _ _ => abs_nonneg _).trans (h.close s r hr)
  refine (hw δ B.Vmax hδ hz0 (fun u r hr => ?_) s).trans
    (add_le_add le_rfl (mul_le_mul_of_nonneg_left (hwn s) hδ))
  have k1 := (abs_le.1 (h.step_close hz0 hB.Vmax_le_one hr)).1
  have k2 := step_Vmax_le hB.toOK hB.bound (s := u) (r := r) (by rw [h.rows]; exact hr)
  linarith

theorem Near.Vmin_le (s : S) : B.Vmin s ≤ A.Vmin s + δ * (n / ε ^ n) := by
  obtain ⟨w, hw0, hwn, hw⟩ := exists_tol_min hA h0 h1 hQ hd hn
  have hz0 := Vmin_nonneg hB.toOK hB.bound
  have hδ : 0 ≤ δ := by
    obtain ⟨r, hr⟩ := A.ne s
    exact (Finset.sum_nonneg fun _ _ => abs_nonneg _).trans (h.close s r hr)
  refine (hw δ B.Vmin hδ (fun u r hr => ?_) (fun u hu => (Vmin_eq_zero_of_InEC hB (h.inEC hu)).le) s).trans
    (add_le_add le_rfl (mul_le_mul_of_nonneg_left (hwn s) hδ))
  have k1 := (abs_le.1 (h.step_close hz0 hB.Vmin_le_one hr)).2
  have k2 := Vmin_le_step hB.toOK hB.bound (s := u) (r := r) (by rw [h.rows]; exact hr)
  linarith

end

/-! ### what does not depend on the numbers at all -/

/-- a row without gain that has value zero leads only to states of value zero -/
theorem zero_of_step (h : A.OK) {V : S → ℝ} (hV : ∀ s, 0 ≤ V s) {s : S} {r : R} (hr : r ∈ A.rows s)
    (h0 : A.step V s r ≤ 0) : A.g s r = 0 ∧ ∀ t, 0 < A.Q s r t → V t = 0 := by
  have hg := h.g0 s r hr
  have hs : 0 ≤ ∑ t, A.Q s r t * V t := Finset.sum_nonneg fun t _ => mul_nonneg (h.Q0 s r hr t) (hV t)
  simp only [step] at h0
  have e : ∑ t, A.Q s r t * V t = 0 := by linarith
  refine ⟨by linarith, fun t ht => ?_⟩
  have := (Finset.sum_eq_zero_iff_of_nonneg fun t _ => mul_nonneg (h.Q0 s r hr t) (hV t)).1 e t (Finset.mem_univ t)
  exact (mul_eq_zero.1 this).resolve_left ht.ne'

theorem Alike.step_zero (h : Alike A B) (hA : A.OK) (hB : B.OK) {V : S → ℝ} (hV : ∀ s, 0 ≤ V s) {s : S} {r : R}
    (hr : r ∈ A.rows s) (h0 : A.step V s r ≤ 0) : B.step (fun t => if V t = 0 then 0 else 1) s r = 0 := by
  obtain ⟨h1, h2⟩ := zero_of_step hA hV hr h0
  simp only [step, h.gain s r hr, h1, zero_add]
  refine Finset.sum_eq_zero fun t _ => ?_
  have hq := hB.Q0 s r (by rw [h.rows]; exact hr) t
  rcases hq.eq_or_lt with e | e
  · rw [← e, zero_mul]
  · rw [if_pos (h2 t ((h.supp s r hr t).1 e)), mul_zero]

theorem Alike.Vmax_zero (h : Alike A B) (hA : A.Sub) (hB : B.Sub) {s : S} (hs : A.Vmax s = 0) : B.Vmax s = 0 := by
  classical
  have hV := Vmax_nonneg hA.toOK hA.bound
  have := Vmax_le_pre hB.toOK (x := fun t => if A.Vmax t = 0 then 0 else 1) (fun t => by split <;> norm_num) (by
    intro u r hr
    by_cases hu : A.Vmax u = 0
    · rw [h.rows] at hr
      rw [if_pos hu, h.step_zero hA.toOK hB.toOK hV hr ((step_Vmax_le hA.toOK hA.bound hr).trans hu.le)]
    · rw [if_neg hu]
      refine (step_mono hB.toOK (y := fun _ => 1) (fun t => ?_) hr).trans (hB.bound.pre u r hr)
      split <;> norm_num) s
  rw [if_pos hs] at this
  exact le_antisymm this (Vmax_nonneg hB.toOK hB.bound s)

theorem Alike.Vmin_zero (h : Alike A B) (hA : A.Sub) (hB : B.Sub) {s : S} (hs : A.Vmin s = 0) : B.Vmin s = 0 := by
  classical
  have hV := Vmin_nonneg hA.toOK hA.bound
  have := Vmin_le_pre hB.toOK (x := fun t => if A.Vmin t = 0 then 0 else 1) (fun t => by split <;> norm_num) (by
    intro u
    obtain ⟨r, hr, he⟩ := exists_step_Vmin hA.toOK hA.bound u
    refine ⟨r, by rw [h.rows]; exact hr, ?_⟩
    by_cases hu : A.Vmin u = 0
    · rw [if_pos hu, h.step_zero hA.toOK hB.toOK hV hr (he.trans hu).le]
    · rw [if_neg hu]
      have hr' : r ∈ B.rows u := by rw [h.rows]; exact hr
      refine (step_mono hB.toOK (y := fun _ => 1) (fun t => ?_) hr').trans (hB.bound.pre u r hr')
      split <;> norm_num) s
  rw [if_pos hs] at this
  exact le_antisymm this (Vmin_nonneg hB.toOK hB.bound s)

/-- a row of value one leads only to states of value one -/
theorem one_of_step (h : A.Sub) {V : S → ℝ} (hV : ∀ s, V s ≤ 1) {s : S} {r : R} (hr : r ∈ A.rows s)
    (h1 : 1 ≤ A.step V s r) : ∀ t, 0 < A.Q s r t → V t = 1 := by
  have hs := h.sub s r hr
  have hnn : ∀ t ∈ (Finset.univ : Finset S), 0 ≤ A.Q s r t * (1 - V t) := fun t _ =>
    mul_nonneg (h.Q0 s r hr t) (sub_nonneg.2 (hV t))
  simp only [step] at h1
  have e : ∑ t, A.Q s r t * (1 - V t) = 0 := by
    refine le_antisymm ?_ (Finset.sum_nonneg hnn)
    simp only [mul_sub, mul_one, Finset.sum_sub_distrib]
    linarith
  intro t ht
  have := (Finset.sum_eq_zero_iff_of_nonneg hnn).1 e t (Finset.mem_univ t)
  linarith [(mul_eq_zero.1 this).resolve_left ht.ne']

theorem Alike.step_one (h : Alike A B) (hA : A.Sub) (hB : B.Sub)
    (hB1 : ∀ s, ∀ r ∈ B.rows s, B.g s r + ∑ t, B.Q s r t = 1) {V : S → ℝ} (hV : ∀ s, V s ≤ 1) {s : S} {r : R}
    (hr : r ∈ A.rows s) (h1 : 1 ≤ A.step V s r) : B.step (fun t => if V t = 1 then 1 else 0) s r = 1 := by
  have h2 := one_of_step hA hV hr h1
  have hr' : r ∈ B.rows s := by rw [h.rows]; exact hr
  refine Eq.trans ?_ (hB1 s r hr')
  simp only [step]
  congr 1
  refine Finset.sum_congr rfl fun t _ => ?_
  rcases (hB.Q0 s r hr' t).eq_or_lt with e | e
  · rw [← e, zero_mul]
  · rw [if_pos (h2 t ((h.supp s r hr t).1 e)), mul_one]

theorem Alike.Vmin_one (h : Alike A B) (hA : A.Sub) (hB : B.Sub)
    (hB1 : ∀ s, ∀ r ∈ B.rows s, B.g s r + ∑ t, B.Q s r t = 1) {s : S} (hs : A.Vmin s = 1) : B.Vmin s = 1 := by
  classical
  have := le_Vmin_of_cert hB (z := fun t => if A.Vmin t = 1 then 1 else 0) (by
    intro u r hr
    by_cases hu : A.Vmin u = 1
    · rw [h.rows] at hr
      rw [if_pos hu, h.step_one hA hB hB1 hA.Vmin_le_one hr (hu.symm.le.trans (Vmin_le_step hA.toOK hA.bound hr))]
    · rw [if_neg hu]
      refine add_nonneg (hB.g0 u r hr) (Finset.sum_nonneg fun t _ => mul_nonneg (hB.Q0 u r hr t) ?_)
      dsimp only; split <;> norm_num) (fun u hu => by
    have := Vmin_eq_zero_of_InEC hA (h.symm.inEC hu)
    rw [this, if_neg zero_ne_one]) s
  rw [if_pos hs] at this
  exact le_antisymm (hB.Vmin_le_one s) this

theorem Alike.Vmax_one (h : Alike A B) (hA : A.Sub) (hB : B.Sub)
    (hB1 : ∀ s, ∀ r ∈ B.rows s, B.g s r + ∑ t, B.Q s r t = 1) {s : S} (hs : A.Vmax s = 1) : B.Vmax s = 1 := by
  classical
  obtain ⟨f, hf, hfx, htr⟩ := exists_opt_max hA
  have hV0 := Vmax_nonneg hB.toOK hB.bound
  have hf' : ∀ s, f s ∈ B.rows s := fun s => by rw [h.rows]; exact hf s
  have hU : ∀ u, B.Vmax u < (if A.Vmax u = 1 then (1 : ℝ) else 0) → A.Vmax u = 1 := by
    intro u hu
    by_contra hne
    rw [if_neg hne] at hu
    exact absurd hu (not_lt.2 (hV0 u))
  have := le_of_compare hB.qsub hf' (x := fun t => if A.Vmax t = 1 then 1 else 0) (y := B.Vmax) (by
    intro D hD hlt hcl
    refine htr D hD (fun u hu => by rw [hU u (hlt u hu)]; exact one_pos) fun u hu => ?_
    obtain ⟨h1, h2⟩ := support_of_sum_eq_one (hB.Q0 u _ (hf' u)) (hB.sumQ_le (hf' u)) (hcl u hu)
    rw [← (h.full u _ (hf u)).1 h1]
    refine Finset.sum_subset (Finset.subset_univ D) fun t _ ht => ?_
    by_contra hne
    exact ht (h2 t ((h.supp u _ (hf u) t).2 (lt_of_le_of_ne (hA.Q0 u _ (hf u) t) (Ne.symm hne)))))
    (by
      intro u hu
      have := hU u hu
      rw [if_pos this, h.step_one hA hB hB1 hA.Vmax_le_one (hf u) (by rw [hfx, this])])
    (fun u _ => step_Vmax_le hB.toOK hB.bound (hf' u)) s
  rw [if_pos hs] at this
  exact le_antisymm (hB.Vmax_le_one s) this

end Verif.Theory.Core
