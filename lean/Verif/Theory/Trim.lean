import Verif.Theory.Cut
/-!
# States that do not matter

States that are not reached from `i`, and states that cannot reach a gain, can be removed without a change of the values at `i`.
-/
set_option linter.unusedSectionVars false

namespace Verif.Theory.Core
open Verif.Spec Finset

variable {S R : Type} [Fintype S] {A : Core S R}

/-- there is a transition -/
def Arc (A : Core S R) (s t : S) : Prop := ∃ r ∈ A.rows s, A.Q s r t ≠ 0

/-- a gain can be reached -/
def Hits (A : Core S R) (s : S) : Prop := ∃ t, Relation.ReflTransGen A.Arc s t ∧ ∃ r ∈ A.rows t, A.g t r ≠ 0

theorem Vmax_eq_zero (h : A.Sub) {s : S} (hs : ¬ A.Hits s) : A.Vmax s = 0 := by
  classical
  refine le_antisymm ?_ (Vmax_nonneg h.toOK h.bound s)
  have := Vmax_le_pre h.toOK (x := fun s => if A.Hits s then A.Vmax s else 0)
    (fun s => by split_ifs; exacts [Vmax_nonneg h.toOK h.bound s, le_rfl]) (fun s r hr => ?_) s
  · simpa [hs] using this
  · by_cases hh : A.Hits s
    · simp only [if_pos hh]
      refine (step_mono h.toOK (fun t => ?_) hr).trans (step_Vmax_le h.toOK h.bound hr)
      split_ifs
      exacts [le_rfl, Vmax_nonneg h.toOK h.bound t]
    · simp only [if_neg hh]
      unfold step
      have h1 : A.g s r = 0 := by
        by_contra hne
        exact hh ⟨s, .refl, r, hr, hne⟩
      rw [h1, zero_add]
      refine le_of_eq (sum_eq_zero fun t _ => ?_)
      by_cases hq : A.Q s r t = 0
      · rw [hq, zero_mul]
      · have : ¬ A.Hits t := by
          rintro ⟨u, hu, hg⟩
          exact hh ⟨u, .head ⟨r, hr, hq⟩ hu, hg⟩
        simp only [if_neg this, mul_zero]

/-- the states that matter for `i` -/
def Trim (A : Core S R) (i : S) : Set S := {s | Relation.ReflTransGen A.Arc i s ∧ A.Hits s}

/-- one step of a value for the trimmed process, continued on the states that are not reached -/
theorem trim_step {i : S} {v : S → ℝ} (hv : ∀ s ∉ A.Trim i, v s = 0) {y : S → ℝ} {s : S} {r : R} (hr : r ∈ A.rows s)
    (hs : Relation.ReflTransGen A.Arc i s) (hy : ∀ t, Relation.ReflTransGen A.Arc i t → y t = v t) (hpos : 0 ≤ v s)
    (hstep : (A.cut (A.Trim i)).step v s r ≤ v s) : A.step y s r ≤ v s := by
  classical
  by_cases hh : A.Hits s
  · refine le_of_eq_of_le ?_ hstep
    have hm : s ∈ A.Trim i := ⟨hs, hh⟩
    unfold step cut
    simp only [hm, true_and, if_true]
    congr 1
    refine sum_congr rfl fun t _ => ?_
    by_cases hq : A.Q s r t = 0
    · simp [hq]
    · have ht : Relation.ReflTransGen A.Arc i t := hs.tail ⟨r, hr, hq⟩
      rw [hy t ht]
      by_cases hm' : t ∈ A.Trim i
      · rw [if_pos hm']
      · rw [if_neg hm', hv t hm', mul_zero, mul_zero]
  · refine le_trans (le_of_eq ?_) hpos
    unfold step
    have h1 : A.g s r = 0 := by
      by_contra hne
      exact hh ⟨s, .refl, r, hr, hne⟩
    rw [h1, zero_add]
    refine sum_eq_zero fun t _ => ?_
    by_cases hq : A.Q s r t = 0
    · rw [hq, zero_mul]
    · rw [hy t (hs.tail ⟨r, hr, hq⟩), hv t, mul_zero]
      rintro ⟨-, u, hu, hg⟩
      exact hh ⟨u, .head ⟨r, hr, hq⟩ hu, hg⟩

theorem cut_step_out {U : Set S} {s : S} (hs : s ∉ U) (x : S → ℝ) (r : R) : (A.cut U).step x s r = 0 := by
  classical
  unfold step cut
  simp [hs]

theorem trim_Vmax_out (h : A.Sub) {U : Set S} {s : S} (hs : s ∉ U) : (A.cut U).Vmax s = 0 := by
  have h' := Core.cut_sub (U := U) h
  obtain ⟨r, -, e⟩ := exists_step_Vmax h'.toOK h'.bound s
  rw [← e, cut_step_out hs]

theorem trim_Vmin_out (h : A.Sub) {U : Set S} {s : S} (hs : s ∉ U) : (A.cut U).Vmin s = 0 := by
  have h' := Core.cut_sub (U := U) h
  obtain ⟨r, -, e⟩ := exists_step_Vmin h'.toOK h'.bound s
  rw [← e, cut_step_out hs]

theorem trim_Vmax (h : A.Sub) (i : S) : (A.cut (A.Trim i)).Vmax i = A.Vmax i := by
  classical
  have h' := Core.cut_sub (U := A.Trim i) h
  refine le_antisymm (cut_Vmax_le h i) ?_
  have := Vmax_le_pre h.toOK (x := fun s => if Relation.ReflTransGen A.Arc i s then (A.cut (A.Trim i)).Vmax s else A.Vmax s)
    (fun s => by split_ifs; exacts [Vmax_nonneg h'.toOK h'.bound s, Vmax_nonneg h.toOK h.bound s]) (fun s r hr => ?_) i
  · rwa [if_pos Relation.ReflTransGen.refl] at this
  · by_cases hs : Relation.ReflTransGen A.Arc i s
    · simp only [if_pos hs]
      exact trim_step (fun s hs => trim_Vmax_out h hs) hr hs (fun t ht => if_pos ht) (Vmax_nonneg h'.toOK h'.bound s)
        (step_Vmax_le h'.toOK h'.bound hr)
    · simp only [if_neg hs]
      refine (step_mono h.toOK (fun t => ?_) hr).trans (step_Vmax_le h.toOK h.bound hr)
      split_ifs
      exacts [cut_Vmax_le h t, le_rfl]

theorem trim_Vmin (h : A.Sub) (i : S) : (A.cut (A.Trim i)).Vmin i = A.Vmin i := by
  classical
  have h' := Core.cut_sub (U := A.Trim i) h
  refine le_antisymm (cut_Vmin_le h i) ?_
  have := Vmin_le_pre h.toOK (x := fun s => if Relation.ReflTransGen A.Arc i s then (A.cut (A.Trim i)).Vmin s else A.Vmin s)
    (fun s => by split_ifs; exacts [Vmin_nonneg h'.toOK h'.bound s, Vmin_nonneg h.toOK h.bound s]) (fun s => ?_) i
  · rwa [if_pos Relation.ReflTransGen.refl] at this
  · by_cases hs : Relation.ReflTransGen A.Arc i s
    · obtain ⟨r, hr, e⟩ := exists_step_Vmin h'.toOK h'.bound s
      refine ⟨r, hr, ?_⟩
      simp only [if_pos hs]
      exact trim_step (fun s hs => trim_Vmin_out h hs) hr hs (fun t ht => if_pos ht) (Vmin_nonneg h'.toOK h'.bound s) e.le
    · obtain ⟨r, hr, e⟩ := exists_step_Vmin h.toOK h.bound s
      refine ⟨r, hr, ?_⟩
      simp only [if_neg hs]
      refine (step_mono h.toOK (fun t => ?_) hr).trans e.le
      split_ifs
      exacts [cut_Vmin_le h t, le_rfl]

theorem cut_cut {U W : Set S} : (A.cut U).cut W = A.cut (U ∩ W) := by
  classical
  unfold cut
  congr 1
  · funext s r
    by_cases h1 : s ∈ U <;> by_cases h2 : s ∈ W <;> simp [h1, h2]
  · funext s r t
    by_cases h1 : s ∈ U <;> by_cases h2 : s ∈ W <;> by_cases h3 : t ∈ U <;> by_cases h4 : t ∈ W <;> simp [h1, h2, h3, h4]

theorem cut_arc {U : Set S} {s t : S} : (A.cut U).Arc s t ↔ s ∈ U ∧ t ∈ U ∧ A.Arc s t := by
  classical
  unfold Arc cut
  constructor
  · rintro ⟨r, hr, hq⟩
    simp only at hr hq
    split_ifs at hq with hc
    · exact ⟨hc.1, hc.2, r, hr, hq⟩
    · exact absurd rfl hq
  · rintro ⟨h1, h2, r, hr, hq⟩
    exact ⟨r, hr, by simpa only [h1, h2, and_self, if_true] using hq⟩

theorem cut_hits_mem {U : Set S} {s : S} (h : (A.cut U).Hits s) : s ∈ U := by
  classical
  obtain ⟨t, ht, r, hr, hg⟩ := h
  rcases Relation.ReflTransGen.cases_head ht with rfl | ⟨u, hu, -⟩
  · by_contra hn
    simp only [cut, if_neg hn, ne_eq, not_true_eq_false] at hg
  · exact (cut_arc.1 hu).1

/-- a lower bound restricted to the states reached from `i` through its support -/
theorem trim_cert (h : A.OK) {z z' : S → ℝ} (h0 : ∀ s, 0 ≤ z s) (hz : ∀ s, ∀ r ∈ A.rows s, z s ≤ A.step z s r) {i : S}
    (hin : ∀ s, Relation.ReflTransGen (A.cut {s | 0 < z s}).Arc i s → z' s = z s)
    (hout : ∀ s, ¬ Relation.ReflTransGen (A.cut {s | 0 < z s}).Arc i s → z' s = 0) :
    ∀ s, ∀ r ∈ A.rows s, z' s ≤ A.step z' s r := by
  classical
  have h0' : ∀ s, 0 ≤ z' s := fun s => by
    by_cases hs : Relation.ReflTransGen (A.cut {s | 0 < z s}).Arc i s
    · rw [hin s hs]; exact h0 s
    · rw [hout s hs]
  intro s r hr
  by_cases hs : Relation.ReflTransGen (A.cut {s | 0 < z s}).Arc i s
  · rcases (h0 s).lt_or_eq with hp | hp
    swap
    · rw [hin s hs, ← hp]
      exact step_nonneg h h0' hr
    rw [hin s hs]
    refine (hz s r hr).trans (le_of_eq ?_)
    unfold step
    congr 1
    refine sum_congr rfl fun t _ => ?_
    by_cases ht : Relation.ReflTransGen (A.cut {s | 0 < z s}).Arc i t
    · rw [hin t ht]
    · rw [hout t ht]
      by_cases hq : A.Q s r t = 0
      · rw [hq, zero_mul, zero_mul]
      · have : z t = 0 := by
          by_contra hne
          exact ht (hs.tail (cut_arc.2 ⟨hp, lt_of_le_of_ne (h0 t) (Ne.symm hne), r, hr, hq⟩))
        rw [this]
  · rw [hout s hs]
    exact step_nonneg h h0' hr

/-- A flow out of `i`, restricted to the states that matter for `i` within its support.  What is not reached from `i` only flows in circles. -/
theorem trim_flow [DecidableEq S] (h : A.Sub) {y y' : S → R → ℝ} (h0 : ∀ s, ∀ r ∈ A.rows s, 0 ≤ y s r) {i : S}
    (hb : ∀ t, A.bal y t ≤ if t = i then 1 else 0)
    (hin : ∀ s ∈ (A.cut {s | ∃ r ∈ A.rows s, 0 < y s r}).Trim i, ∀ r ∈ A.rows s, y' s r = y s r)
    (hout : ∀ s ∉ (A.cut {s | ∃ r ∈ A.rows s, 0 < y s r}).Trim i, ∀ r ∈ A.rows s, y' s r = 0) :
    (∀ t, A.bal y' t ≤ if t = i then 1 else 0) ∧ A.gain y' = A.gain y := by
  classical
  set U : Set S := {s | ∃ r ∈ A.rows s, 0 < y s r} with hU
  let D : Finset S := univ.filter fun s => s ∈ U ∧ ¬ Relation.ReflTransGen (A.cut U).Arc i s
  have hD : ∀ s, s ∈ D ↔ s ∈ U ∧ ¬ Relation.ReflTransGen (A.cut U).Arc i s := fun s => by simp [D]
  -- nothing flows into `D` from outside
  have hinto : ∀ s ∉ D, ∀ r ∈ A.rows s, ∀ t ∈ D, y s r * A.Q s r t = 0 := by
    intro s hs r hr t ht
    by_contra hne
    have hy : y s r ≠ 0 := fun e => hne (by rw [e, zero_mul])
    have hq : A.Q s r t ≠ 0 := fun e => hne (by rw [e, mul_zero])
    have hsU : s ∈ U := ⟨r, hr, lt_of_le_of_ne (h0 s r hr) hy.symm⟩
    obtain ⟨htU, htn⟩ := (hD t).1 ht
    by_cases hsr : Relation.ReflTransGen (A.cut U).Arc i s
    · exact htn (hsr.tail (cut_arc.2 ⟨hsU, htU, r, hr, hq⟩))
    · exact hs ((hD s).2 ⟨hsU, hsr⟩)
  -- so nothing leaves it
  have hsum : ∑ s ∈ D, ∑ r ∈ A.rows s, y s r * (1 - ∑ t ∈ D, A.Q s r t) ≤ 0 := by
    have h1 : ∑ t ∈ D, A.bal y t ≤ 0 := sum_nonpos fun t ht => by
      have := hb t
      rwa [if_neg (show t ≠ i from fun e => ((hD t).1 ht).2 (by rw [e]))] at this
    have h2 : ∑ t ∈ D, A.bal y t = ∑ s ∈ D, ∑ r ∈ A.rows s, y s r * (1 - ∑ t ∈ D, A.Q s r t) := by
      unfold bal
      rw [sum_sub_distrib, sum_comm (s := D) (t := univ)]
      rw [← sum_subset (subset_univ D) (fun s _ hs => sum_eq_zero fun t ht => sum_eq_zero fun r hr => hinto s hs r hr t ht), ← sum_sub_distrib]
      refine sum_congr rfl fun s _ => ?_
      rw [sum_comm, ← sum_sub_distrib]
      refine sum_congr rfl fun r _ => ?_
      rw [mul_sub, mul_one, mul_sum]
    rw [← h2]; exact h1
  have hDle : ∀ s, ∀ r ∈ A.rows s, A.g s r + ∑ t ∈ Dᶜ, A.Q s r t ≤ 1 - ∑ t ∈ D, A.Q s r t := by
    intro s r hr
    have h1 := h.sub s r hr
    have h2 := sum_add_sum_compl D (fun t => A.Q s r t)
    linarith
  have hnn : ∀ s, ∀ r ∈ A.rows s, 0 ≤ A.g s r + ∑ t ∈ Dᶜ, A.Q s r t := fun s r hr =>
    add_nonneg (h.g0 s r hr) (sum_nonneg fun t _ => h.Q0 s r hr t)
  have hterm : ∀ s ∈ D, ∀ r ∈ A.rows s, y s r * (1 - ∑ t ∈ D, A.Q s r t) = 0 := by
    intro s hs r hr
    have hpos : ∀ s, ∀ r ∈ A.rows s, 0 ≤ y s r * (1 - ∑ t ∈ D, A.Q s r t) := fun s r hr =>
      mul_nonneg (h0 s r hr) ((hnn s r hr).trans (hDle s r hr))
    have h1 := (sum_eq_zero_iff_of_nonneg (fun s _ => sum_nonneg fun r hr => hpos s r hr)).1
      (le_antisymm hsum (sum_nonneg fun s _ => sum_nonneg fun r hr => hpos s r hr)) s hs
    exact (sum_eq_zero_iff_of_nonneg (fun r hr => hpos s r hr)).1 h1 r hr
  have hleave : ∀ s ∈ D, ∀ r ∈ A.rows s, y s r ≠ 0 → A.g s r = 0 ∧ ∀ t ∉ D, A.Q s r t = 0 := by
    intro s hs r hr hy
    have h1 : 1 - ∑ t ∈ D, A.Q s r t = 0 := (mul_eq_zero.1 (hterm s hs r hr)).resolve_left hy
    have h2 := hDle s r hr
    have h3 := h.g0 s r hr
    have h4 : 0 ≤ ∑ t ∈ Dᶜ, A.Q s r t := sum_nonneg fun t _ => h.Q0 s r hr t
    refine ⟨by linarith, fun t ht => ?_⟩
    exact (sum_eq_zero_iff_of_nonneg (fun t _ => h.Q0 s r hr t)).1 (by linarith) t (mem_compl.2 ht)
  constructor
  · intro t
    by_cases ht : t ∈ (A.cut U).Trim i
    · refine le_of_eq_of_le ?_ (hb t)
      unfold bal
      congr 1
      · exact sum_congr rfl fun r hr => hin t ht r hr
      · refine sum_congr rfl fun s _ => sum_congr rfl fun r hr => ?_
        by_cases hs : s ∈ (A.cut U).Trim i
        · rw [hin s hs r hr]
        · rw [hout s hs r hr, zero_mul]
          by_contra hne
          have hy : y s r ≠ 0 := fun e => hne (by rw [e, zero_mul])
          have hq : A.Q s r t ≠ 0 := fun e => hne (by rw [e, mul_zero])
          have hsU : s ∈ U := ⟨r, hr, lt_of_le_of_ne (h0 s r hr) hy.symm⟩
          have harc : (A.cut U).Arc s t := cut_arc.2 ⟨hsU, cut_hits_mem ht.2, r, hr, hq⟩
          by_cases hsr : Relation.ReflTransGen (A.cut U).Arc i s
          · obtain ⟨u, hu, hg⟩ := ht.2
            exact hs ⟨hsr, u, .head harc hu, hg⟩
          · exact hq ((hleave s ((hD s).2 ⟨hsU, hsr⟩) r hr hy).2 t fun hm => ((hD t).1 hm).2 ht.1)
    · have h1 : ∑ r ∈ A.rows t, y' t r = 0 := sum_eq_zero fun r hr => hout t ht r hr
      have h2 : 0 ≤ ∑ s, ∑ r ∈ A.rows s, y' s r * A.Q s r t := sum_nonneg fun s _ => sum_nonneg fun r hr => by
        refine mul_nonneg ?_ (h.Q0 s r hr t)
        by_cases hs : s ∈ (A.cut U).Trim i
        · rw [hin s hs r hr]; exact h0 s r hr
        · rw [hout s hs r hr]
      unfold bal
      rw [h1]
      split_ifs <;> linarith
  · unfold gain
    refine sum_congr rfl fun s _ => sum_congr rfl fun r hr => ?_
    by_cases hs : s ∈ (A.cut U).Trim i
    · rw [hin s hs r hr]
    · rw [hout s hs r hr, zero_mul]
      by_contra hne
      have hy : y s r ≠ 0 := fun e => hne (by rw [e, zero_mul])
      have hg : A.g s r ≠ 0 := fun e => hne (by rw [e, mul_zero])
      have hsU : s ∈ U := ⟨r, hr, lt_of_le_of_ne (h0 s r hr) hy.symm⟩
      by_cases hsr : Relation.ReflTransGen (A.cut U).Arc i s
      · refine hs ⟨hsr, s, .refl, r, hr, ?_⟩
        simpa only [cut, hsU, if_true] using hg
      · exact hg (hleave s ((hD s).2 ⟨hsU, hsr⟩) r hr hy).1

end Verif.Theory.Core
