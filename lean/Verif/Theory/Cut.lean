import Verif.Theory.Transient
/-!
# Restricting a core to a set of states

All mass that leaves the kept states is lost.  Values of the restriction are what subsystems of a
reachability form attain.
-/
set_option linter.unusedSectionVars false

namespace Verif.Theory.Core
open Verif.Spec Finset

variable {S R : Type} [Fintype S]

open Classical in
/-- only the states of `U` remain -/
noncomputable def cut (A : Core S R) (U : Set S) : Core S R where
  rows := A.rows
  ne := A.ne
  g s r := if s ∈ U then A.g s r else 0
  Q s r t := if s ∈ U ∧ t ∈ U then A.Q s r t else 0

variable {A : Core S R} {U V : Set S}

theorem cut_Q_le (h : A.OK) {s : S} {r : R} (hr : r ∈ A.rows s) (t : S) : (A.cut U).Q s r t ≤ A.Q s r t := by
  classical
  unfold cut
  simp only
  split
  · exact le_rfl
  · exact h.Q0 s r hr t

theorem cut_g_le (h : A.OK) {s : S} {r : R} (hr : r ∈ A.rows s) : (A.cut U).g s r ≤ A.g s r := by
  classical
  unfold cut
  simp only
  split
  · exact le_rfl
  · exact h.g0 s r hr

theorem cut_mono_Q (h : A.OK) (huv : U ⊆ V) {s : S} {r : R} (hr : r ∈ A.rows s) (t : S) :
    (A.cut U).Q s r t ≤ (A.cut V).Q s r t := by
  classical
  unfold cut
  simp only
  by_cases hu : s ∈ U ∧ t ∈ U
  · rw [if_pos hu, if_pos ⟨huv hu.1, huv hu.2⟩]
  · rw [if_neg hu]
    split
    · exact h.Q0 s r hr t
    · exact le_rfl

theorem cut_mono_g (h : A.OK) (huv : U ⊆ V) {s : S} {r : R} (hr : r ∈ A.rows s) :
    (A.cut U).g s r ≤ (A.cut V).g s r := by
  classical
  unfold cut
  simp only
  by_cases hu : s ∈ U
  · rw [if_pos hu, if_pos (huv hu)]
  · rw [if_neg hu]
    split
    · exact h.g0 s r hr
    · exact le_rfl

theorem cut_ok (h : A.OK) : (A.cut U).OK where
  g0 s r hr := by
    classical
    unfold cut
    simp only
    split
    · exact h.g0 s r hr
    · exact le_rfl
  Q0 s r hr t := by
    classical
    unfold cut
    simp only
    split
    · exact h.Q0 s r hr t
    · exact le_rfl

theorem cut_sub (h : A.Sub) : (A.cut U).Sub where
  toOK := cut_ok h.toOK
  sub s r hr := le_trans (add_le_add (cut_g_le h.toOK hr) (Finset.sum_le_sum fun t _ => cut_Q_le h.toOK hr t))
    (h.sub s r hr)

theorem cut_step_le (h : A.OK) {x : S → ℝ} (hx : ∀ s, 0 ≤ x s) {s : S} {r : R} (hr : r ∈ A.rows s) :
    (A.cut U).step x s r ≤ A.step x s r :=
  add_le_add (cut_g_le h hr) (Finset.sum_le_sum fun t _ => mul_le_mul_of_nonneg_right (cut_Q_le h hr t) (hx t))

theorem cut_step_mono (h : A.OK) (huv : U ⊆ V) {x : S → ℝ} (hx : ∀ s, 0 ≤ x s) {s : S} {r : R} (hr : r ∈ A.rows s) :
    (A.cut U).step x s r ≤ (A.cut V).step x s r :=
  add_le_add (cut_mono_g h huv hr)
    (Finset.sum_le_sum fun t _ => mul_le_mul_of_nonneg_right (cut_mono_Q h huv hr t) (hx t))

theorem cut_Vmax_le (h : A.Sub) (s : S) : (A.cut U).Vmax s ≤ A.Vmax s :=
  Vmax_le_pre (cut_ok h.toOK) (Vmax_nonneg h.toOK h.bound) (fun _ _ hr =>
    le_trans (cut_step_le h.toOK (Vmax_nonneg h.toOK h.bound) hr) (step_Vmax_le h.toOK h.bound hr)) s

theorem cut_Vmin_le (h : A.Sub) (s : S) : (A.cut U).Vmin s ≤ A.Vmin s :=
  Vmin_le_pre (cut_ok h.toOK) (Vmin_nonneg h.toOK h.bound) (fun s => by
    obtain ⟨r, hr, e⟩ := exists_step_Vmin h.toOK h.bound s
    exact ⟨r, hr, le_trans (cut_step_le h.toOK (Vmin_nonneg h.toOK h.bound) hr) e.le⟩) s

theorem cut_Vmax_mono (h : A.Sub) (huv : U ⊆ V) (s : S) : (A.cut U).Vmax s ≤ (A.cut V).Vmax s :=
  Vmax_le_pre (cut_ok h.toOK) (Vmax_nonneg (cut_ok h.toOK) (cut_sub h).bound) (fun _ _ hr =>
    le_trans (cut_step_mono h.toOK huv (Vmax_nonneg (cut_ok h.toOK) (cut_sub h).bound) hr)
      (step_Vmax_le (cut_ok h.toOK) (cut_sub h).bound hr)) s

theorem cut_Vmin_mono (h : A.Sub) (huv : U ⊆ V) (s : S) : (A.cut U).Vmin s ≤ (A.cut V).Vmin s :=
  Vmin_le_pre (cut_ok h.toOK) (Vmin_nonneg (cut_ok h.toOK) (cut_sub h).bound) (fun s => by
    obtain ⟨r, hr, e⟩ := exists_step_Vmin (cut_ok h.toOK) (cut_sub (U := V) h).bound s
    exact ⟨r, hr, le_trans (cut_step_mono h.toOK huv (Vmin_nonneg (cut_ok h.toOK) (cut_sub h).bound) hr) e.le⟩) s

theorem cut_Vmax_out (h : A.Sub) {s : S} (hs : s ∉ U) : (A.cut U).Vmax s = 0 := by
  classical
  refine le_antisymm ?_ (Vmax_nonneg (cut_ok h.toOK) (cut_sub h).bound s)
  have := Vmax_le_pre (M := A.cut U) (cut_ok h.toOK) (x := fun t => if t ∈ U then 1 else 0)
    (fun t => by split <;> norm_num) ?_ s
  · simpa [hs] using this
  intro t r hr
  by_cases ht : t ∈ U
  · simp only [ht, if_true]
    refine le_trans (step_mono (cut_ok h.toOK) (y := fun _ => 1) (fun u => ?_) hr) ((cut_sub h).bound.pre t r hr)
    split <;> norm_num
  · simp [step, cut, ht]

theorem cut_Vmin_out (h : A.Sub) {s : S} (hs : s ∉ U) : (A.cut U).Vmin s = 0 :=
  le_antisymm (le_trans (Vmin_le_Vmax (cut_ok h.toOK) (cut_sub h).bound s) (cut_Vmax_out h hs).le)
    (Vmin_nonneg (cut_ok h.toOK) (cut_sub h).bound s)

/-- an end component of the restriction is one of the whole -/
theorem inEC_of_cut (h : A.Sub) {s : S} (he : (A.cut U).InEC s) : A.InEC s := by
  classical
  obtain ⟨E, act, hE, hs⟩ := he
  have key : ∀ s ∈ E, ∀ r ∈ act s, ∀ t, (A.cut U).Q s r t = A.Q s r t := by
    intro s hs r hr t
    have hrow := hE.avail s hs r hr
    have h1 := hE.full s hs r hr
    have h2 := h.sumQ_le hrow
    by_contra hne
    have hlt : (A.cut U).Q s r t < A.Q s r t := lt_of_le_of_ne (cut_Q_le h.toOK hrow t) hne
    have : ∑ t, (A.cut U).Q s r t < ∑ t, A.Q s r t :=
      Finset.sum_lt_sum (fun u _ => cut_Q_le h.toOK hrow u) ⟨t, Finset.mem_univ t, hlt⟩
    linarith
  refine ⟨E, act, ⟨hE.nonempty, hE.act, hE.avail, ?_, ?_, ?_⟩, hs⟩
  · intro s hs r hr
    rw [← hE.full s hs r hr]
    exact Finset.sum_congr rfl fun t _ => (key s hs r hr t).symm
  · intro s hs r hr t ht
    rw [← key s hs r hr t] at ht
    exact hE.closed s hs r hr t ht
  · intro x hx y hy
    have := hE.conn x hx y hy
    refine Relation.ReflTransGen.mono ?_ _ _ this
    rintro a b ⟨ha, r, hr, hb⟩
    exact ⟨ha, r, hr, lt_of_lt_of_le hb (cut_Q_le h.toOK (hE.avail a ha r hr) b)⟩

/-- **min**: a certificate witnesses its value in the restriction to its support -/
theorem cert_le_cut_Vmin (h : A.Sub) {z : S → ℝ} (h0 : ∀ s, 0 ≤ z s)
    (hz : ∀ s, ∀ r ∈ A.rows s, z s ≤ A.step z s r) (hec : ∀ s, A.InEC s → z s ≤ 0) (s : S) :
    z s ≤ (A.cut {s | 0 < z s}).Vmin s := by
  classical
  refine le_Vmin_of_cert (cut_sub h) ?_ (fun s hs => hec s (inEC_of_cut h hs)) s
  intro s r hr
  by_cases hs : 0 < z s
  · refine le_trans (hz s r hr) (le_of_eq ?_)
    unfold step cut
    simp only [Set.mem_ofPred_eq, hs, if_true, true_and]
    congr 1
    refine Finset.sum_congr rfl fun t _ => ?_
    by_cases ht : 0 < z t
    · rw [if_pos ht]
    · rw [le_antisymm (not_lt.1 ht) (h0 t), mul_zero, mul_zero]
  · exact le_trans (not_lt.1 hs) (step_nonneg (cut_ok h.toOK) h0 hr)

/-- the minimal values of a restriction form a certificate -/
theorem cut_Vmin_cert (h : A.Sub) (U : Set S) :
    (∀ s, 0 ≤ (A.cut U).Vmin s) ∧ (∀ s, (A.cut U).Vmin s ≤ 1) ∧ (∀ s, s ∉ U → (A.cut U).Vmin s = 0) ∧
    (∀ s, ∀ r ∈ A.rows s, (A.cut U).Vmin s ≤ A.step (A.cut U).Vmin s r) ∧
    (∀ s, A.InEC s → (A.cut U).Vmin s = 0) := by
  have h0 : ∀ s, 0 ≤ (A.cut U).Vmin s := Vmin_nonneg (cut_ok h.toOK) (cut_sub h).bound
  refine ⟨h0, (cut_sub h).Vmin_le_one, fun s hs => cut_Vmin_out h hs, fun s r hr => ?_, fun s hs => ?_⟩
  · exact le_trans (Vmin_le_step (cut_ok h.toOK) (cut_sub h).bound hr) (cut_step_le h.toOK h0 hr)
  · exact le_antisymm (le_trans (cut_Vmin_le h s) (Vmin_eq_zero_of_InEC h hs).le) (h0 s)

theorem cut_gain (y : S → R → ℝ) (hU : ∀ s, ∀ r ∈ A.rows s, y s r ≠ 0 → s ∈ U) : (A.cut U).gain y = A.gain y := by
  classical
  refine Finset.sum_congr rfl fun s _ => Finset.sum_congr rfl fun r hr => ?_
  by_cases hy : y s r = 0
  · rw [hy, zero_mul, zero_mul]
  · show y s r * (if s ∈ U then A.g s r else 0) = _
    rw [if_pos (hU s r hr hy)]

/-- **max**: a dual certificate witnesses its gain in the restriction to its support -/
theorem gain_le_cut_Vmax (h : A.Sub) {y : S → R → ℝ} (hy : ∀ s, ∀ r ∈ A.rows s, 0 ≤ y s r) {i : S}
    [DecidableEq S]
    (hbal : ∀ t, A.bal y t ≤ if t = i then 1 else 0) :
    A.gain y ≤ (A.cut {s | ∃ r ∈ A.rows s, 0 < y s r}).Vmax i := by
  classical
  have hU : ∀ s, ∀ r ∈ A.rows s, y s r ≠ 0 → s ∈ {s | ∃ r ∈ A.rows s, 0 < y s r} := fun s r hr hne =>
    ⟨r, hr, lt_of_le_of_ne (hy s r hr) (Ne.symm hne)⟩
  rw [← cut_gain y hU]
  refine gain_le_Vmax (cut_ok h.toOK) (cut_sub h).bound hy fun t => ?_
  by_cases ht : t ∈ {s | ∃ r ∈ A.rows s, 0 < y s r}
  · refine le_trans (le_of_eq ?_) (hbal t)
    unfold bal
    congr 1
    refine Finset.sum_congr rfl fun s _ => Finset.sum_congr rfl fun r hr => ?_
    by_cases hys : y s r = 0
    · rw [hys, zero_mul, zero_mul]
    · congr 1
      exact if_pos ⟨hU s r hr hys, ht⟩
  · have e1 : ∑ r ∈ A.rows t, y t r = 0 := Finset.sum_eq_zero fun r hr => by
      by_contra hne
      exact ht (hU t r hr hne)
    have e2 : 0 ≤ ∑ s, ∑ r ∈ (A.cut {s | ∃ r ∈ A.rows s, 0 < y s r}).rows s, y s r * (A.cut {s | ∃ r ∈ A.rows s, 0 < y s r}).Q s r t :=
      Finset.sum_nonneg fun s _ => Finset.sum_nonneg fun r hr => mul_nonneg (hy s r hr) ((cut_ok h.toOK).Q0 s r hr t)
    have : (0 : ℝ) ≤ if t = i then 1 else 0 := by split <;> norm_num
    refine le_trans ?_ this
    unfold bal
    show ∑ r ∈ A.rows t, y t r - _ ≤ 0
    linarith

/-- the maximal value of a restriction has a dual certificate of the whole supported in it -/
theorem exists_dual_cut (h : A.Sub) [DecidableEq S] [DecidableEq R] (U : Set S) (i : S) :
    ∃ y : S → R → ℝ, (∀ s r, 0 ≤ y s r) ∧ (∀ t, A.bal y t ≤ if t = i then 1 else 0) ∧
      A.gain y = (A.cut U).Vmax i ∧ (∀ s r, y s r ≠ 0 → s ∈ U) := by
  obtain ⟨y, h0, hb, hg, hs⟩ := exists_dual_max (cut_sub (U := U) h) i
  have hU : ∀ s r, y s r ≠ 0 → s ∈ U := by
    intro s r hne
    by_contra hn
    have := hs s r hne
    rw [cut_Vmax_out h hn] at this
    exact lt_irrefl _ this
  refine ⟨y, h0, fun t => le_trans ?_ (hb t), ?_, hU⟩
  · unfold bal
    refine sub_le_sub_left (Finset.sum_le_sum fun s _ => Finset.sum_le_sum fun r hr => ?_) _
    exact mul_le_mul_of_nonneg_left (cut_Q_le h.toOK hr t) (h0 s r)
  · rw [← hg, cut_gain y fun s r _ => hU s r]

end Verif.Theory.Core
