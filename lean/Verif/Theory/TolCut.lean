import Verif.Theory.Tol
import Verif.Theory.Cut
/-!
# Approximate certificates and restrictions

A vector that satisfies the certificate inequalities up to `e`, and is at most `e` outside a set `U`, bounds the
value of the restriction to `U` up to `e` times a constant.
-/
set_option linter.unusedSectionVars false

namespace Verif.Theory.Core
open Finset

variable {S R : Type} [Fintype S] [DecidableEq S] {A : Core S R} {U : Set S}

theorem cut_min_Q {p : ℝ} (hQ : ∀ s, ∀ r ∈ A.rows s, ∀ t, 0 < A.Q s r t → p ≤ A.Q s r t) :
    ∀ s, ∀ r ∈ (A.cut U).rows s, ∀ t, 0 < (A.cut U).Q s r t → p ≤ (A.cut U).Q s r t := by
  classical
  intro s r hr t hq
  simp only [cut] at hq ⊢
  split at hq
  · rename_i hc; rw [if_pos hc]; exact hQ s r hr t hq
  · exact absurd hq (lt_irrefl _)

theorem cut_min_sum (h : A.Sub) {p : ℝ} (hQ : ∀ s, ∀ r ∈ A.rows s, ∀ t, 0 < A.Q s r t → p ≤ A.Q s r t)
    (hd : ∀ s, ∀ r ∈ A.rows s, ∑ t, A.Q s r t = 1 ∨ ∑ t, A.Q s r t ≤ 1 - p) :
    ∀ s, ∀ r ∈ (A.cut U).rows s, ∑ t, (A.cut U).Q s r t = 1 ∨ ∑ t, (A.cut U).Q s r t ≤ 1 - p := by
  classical
  intro s r hr
  by_cases hc : ∀ t, (A.cut U).Q s r t = A.Q s r t
  · simp only [hc]; exact hd s r hr
  · push Not at hc
    obtain ⟨t, ht⟩ := hc
    right
    have h0 : (A.cut U).Q s r t = 0 ∧ 0 < A.Q s r t := by
      simp only [cut] at ht ⊢
      split at ht
      · exact absurd rfl ht
      · rename_i hn
        exact ⟨if_neg hn, lt_of_le_of_ne (h.Q0 s r hr t) ht⟩
    have h1 := hQ s r hr t h0.2
    have h2 : ∑ u, (A.cut U).Q s r u + p ≤ ∑ u, A.Q s r u := by
      rw [← add_sum_erase _ _ (mem_univ t), ← add_sum_erase univ (fun u => A.Q s r u) (mem_univ t), h0.1]
      have := sum_le_sum fun u (_ : u ∈ univ.erase t) => cut_Q_le (U := U) h.toOK hr u
      linarith
    have := h.sumQ_le hr
    linarith

/-- **min**: constraints up to `e`, values at most `e` outside `U` and on end components -/
theorem cert_le_cut_Vmin_tol (h : A.Sub) {p : ℝ} (h0 : 0 < p) (h1 : p ≤ 1)
    (hQ : ∀ s, ∀ r ∈ A.rows s, ∀ t, 0 < A.Q s r t → p ≤ A.Q s r t)
    (hd : ∀ s, ∀ r ∈ A.rows s, ∑ t, A.Q s r t = 1 ∨ ∑ t, A.Q s r t ≤ 1 - p) {n : ℕ} (hn : Fintype.card S < n)
    {z : S → ℝ} {e : ℝ} (he : 0 ≤ e) (hz : ∀ s, ∀ r ∈ A.rows s, z s ≤ A.step z s r + e)
    (hec : ∀ s, A.InEC s → z s ≤ e) (hU : ∀ s, s ∉ U → z s ≤ e) (s : S) :
    z s ≤ (A.cut U).Vmin s + e * (1 + n / p ^ n) := by
  classical
  obtain ⟨w, hw0, hwn, hw⟩ := exists_tol_min (cut_sub (U := U) h) h0 h1 (cut_min_Q hQ) (cut_min_sum h hQ hd) hn
  let z' : S → ℝ := fun s => if s ∈ U then z s - e else 0
  have key := hw e z' he (by
    intro s r hr
    by_cases hs : s ∈ U
    · have g1 := hz s r hr
      have g2 := h.sumQ_le hr
      have g3 : ∑ t, A.Q s r t * z t ≤ ∑ t, (A.cut U).Q s r t * z' t + e * ∑ t, A.Q s r t := by
        rw [mul_sum, ← sum_add_distrib]
        refine sum_le_sum fun t _ => ?_
        have q0 := h.Q0 s r hr t
        by_cases ht : t ∈ U
        · simp only [cut, z', hs, ht, and_self, if_true]
          linarith
        · simp only [cut, z', ht, and_false, if_false, zero_mul, zero_add]
          rw [mul_comm]
          exact mul_le_mul_of_nonneg_right (hU t ht) q0
      have g4 : e * ∑ t, A.Q s r t ≤ e := mul_le_of_le_one_right he g2
      have g5 : (A.cut U).g s r = A.g s r := by simp [cut, hs]
      simp only [step, g5] at g1 ⊢
      have e1 : z' s = z s - e := if_pos hs
      rw [e1]
      linarith
    · have e1 : z' s = 0 := if_neg hs
      have : (A.cut U).step z' s r = 0 := by simp [step, cut, hs]
      rw [e1, this]
      linarith) (by
    intro s hs
    have g := hec s (inEC_of_cut h hs)
    simp only [z']
    split
    · linarith
    · exact le_rfl) s
  have hn0 : 0 ≤ e * (n / p ^ n) := mul_nonneg he (by positivity)
  have g6 : e * w s ≤ e * (n / p ^ n) := mul_le_mul_of_nonneg_left (hwn s) he
  have g7 := Vmin_nonneg (cut_ok (U := U) h.toOK) (cut_sub h).bound s
  by_cases hs : s ∈ U
  · have e1 : z' s = z s - e := if_pos hs
    rw [e1] at key
    linarith
  · have := hU s hs
    linarith

/-- **max**: flow balance up to a slack per state -/
theorem gain_le_slack (h : A.Sub) {y : S → R → ℝ} (hy : ∀ s, ∀ r ∈ A.rows s, 0 ≤ y s r) {i : S} {d : S → ℝ}
    (hd : ∀ t, 0 ≤ d t) (hbal : ∀ t, A.bal y t ≤ (if t = i then 1 else 0) + d t) :
    A.gain y ≤ A.Vmax i + ∑ t, d t := by
  have h1 : 0 ≤ ∑ s, ∑ r ∈ A.rows s, y s r * (A.Vmax s - A.step A.Vmax s r) :=
    Finset.sum_nonneg fun s _ => Finset.sum_nonneg fun r hr =>
      mul_nonneg (hy s r hr) (sub_nonneg.2 (step_Vmax_le h.toOK h.bound hr))
  rw [duality] at h1
  have h2 : ∑ t, A.Vmax t * A.bal y t ≤ ∑ t, (A.Vmax t * (if t = i then 1 else 0) + d t) :=
    Finset.sum_le_sum fun t _ => by
      have h3 := mul_le_mul_of_nonneg_left (hbal t) (Vmax_nonneg h.toOK h.bound t)
      have h4 := mul_le_mul_of_nonneg_right (h.Vmax_le_one t) (hd t)
      linarith
  rw [Finset.sum_add_distrib] at h2
  simp at h2
  linarith

/-- **max**: balance up to `e`, flow at least `-e`, and at most `e` outside `U` -/
theorem gain_le_cut_Vmax_tol (h : A.Sub) {y : S → R → ℝ} {e : ℝ} (he : 0 ≤ e) (hy : ∀ s, ∀ r ∈ A.rows s, -e ≤ y s r)
    (hU : ∀ s, ∀ r ∈ A.rows s, s ∉ U → y s r ≤ e) {i : S} (hbal : ∀ t, A.bal y t ≤ (if t = i then 1 else 0) + e) :
    A.gain y ≤ (A.cut U).Vmax i + e * (Fintype.card S + 2 * ∑ s, ((A.rows s).card : ℝ)) := by
  classical
  let y' : S → R → ℝ := fun s r => if s ∈ U then max (y s r) 0 else 0
  have hle : ∀ s, ∀ r ∈ A.rows s, y s r ≤ y' s r + e := by
    intro s r hr
    by_cases hs : s ∈ U
    · simp only [y', hs, if_true]; linarith [le_max_left (y s r) 0]
    · simp only [y', hs, if_false]; linarith [hU s r hr hs]
  have hge : ∀ s, ∀ r ∈ A.rows s, s ∈ U → y' s r ≤ y s r + e := by
    intro s r hr hs
    simp only [y', hs, if_true]
    exact max_le (by linarith) (by linarith [hy s r hr])
  have h0 : ∀ s r, 0 ≤ y' s r := by
    intro s r
    simp only [y']
    split
    · exact le_max_right _ _
    · exact le_rfl
  let d : S → ℝ := fun t => e * (1 + (A.rows t).card + ∑ s, ∑ r ∈ A.rows s, A.Q s r t)
  have hQ0 : ∀ t, 0 ≤ ∑ s, ∑ r ∈ A.rows s, A.Q s r t := fun t =>
    sum_nonneg fun s _ => sum_nonneg fun r hr => h.Q0 s r hr t
  have hd0 : ∀ t, 0 ≤ d t := fun t => mul_nonneg he (by have := hQ0 t; positivity)
  have key := gain_le_slack (cut_sub (U := U) h) (y := y') (fun s r _ => h0 s r) (i := i) hd0 (by
    intro t
    have hδ : (0 : ℝ) ≤ if t = i then 1 else 0 := by split <;> norm_num
    by_cases ht : t ∈ U
    · have g1 : ∑ r ∈ A.rows t, y' t r ≤ ∑ r ∈ A.rows t, y t r + e * (A.rows t).card := by
        calc _ ≤ ∑ r ∈ A.rows t, (y t r + e) := sum_le_sum fun r hr => hge t r hr ht
          _ = _ := by rw [sum_add_distrib, sum_const, nsmul_eq_mul]; ring
      have g2 : ∑ s, ∑ r ∈ A.rows s, y s r * A.Q s r t ≤
          ∑ s, ∑ r ∈ A.rows s, y' s r * (A.cut U).Q s r t + e * ∑ s, ∑ r ∈ A.rows s, A.Q s r t := by
        rw [mul_sum, ← sum_add_distrib]
        refine sum_le_sum fun s _ => ?_
        rw [mul_sum, ← sum_add_distrib]
        refine sum_le_sum fun r hr => ?_
        have q0 := h.Q0 s r hr t
        have g3 := mul_le_mul_of_nonneg_right (hle s r hr) q0
        by_cases hs : s ∈ U
        · simp only [cut, hs, ht, and_self, if_true]
          linarith
        · have e1 : y' s r = 0 := if_neg hs
          rw [e1] at g3 ⊢
          linarith
      have g4 := hbal t
      simp only [bal] at g4 ⊢
      simp only [d]
      have e2 : (A.cut U).rows = A.rows := rfl
      rw [e2]
      have : e * (1 + ↑(A.rows t).card + ∑ s, ∑ r ∈ A.rows s, A.Q s r t) =
        e + e * ↑(A.rows t).card + e * ∑ s, ∑ r ∈ A.rows s, A.Q s r t := by ring
      linarith
    · have e1 : ∑ r ∈ A.rows t, y' t r = 0 := sum_eq_zero fun r _ => if_neg ht
      have e2 : 0 ≤ ∑ s, ∑ r ∈ A.rows s, y' s r * (A.cut U).Q s r t :=
        sum_nonneg fun s _ => sum_nonneg fun r hr => mul_nonneg (h0 s r) ((cut_ok h.toOK).Q0 s r hr t)
      have := hd0 t
      simp only [bal]
      show ∑ r ∈ A.rows t, y' t r - ∑ s, ∑ r ∈ A.rows s, y' s r * (A.cut U).Q s r t ≤ _
      linarith)
  have hg : A.gain y ≤ (A.cut U).gain y' + e * ∑ s, ∑ r ∈ A.rows s, A.g s r := by
    unfold gain
    rw [mul_sum, ← sum_add_distrib]
    refine sum_le_sum fun s _ => ?_
    rw [mul_sum]
    show _ ≤ ∑ r ∈ A.rows s, y' s r * (A.cut U).g s r + _
    rw [← sum_add_distrib]
    refine sum_le_sum fun r hr => ?_
    have g3 := mul_le_mul_of_nonneg_right (hle s r hr) (h.g0 s r hr)
    by_cases hs : s ∈ U
    · simp only [cut, hs, if_true]
      linarith
    · have e1 : y' s r = 0 := if_neg hs
      rw [e1] at g3 ⊢
      linarith
  have hsum : ∑ t, d t + e * ∑ s, ∑ r ∈ A.rows s, A.g s r ≤ e * (Fintype.card S + 2 * ∑ s, ((A.rows s).card : ℝ)) := by
    have e1 : ∑ t, d t = e * (Fintype.card S + ∑ s, ((A.rows s).card : ℝ) + ∑ s, ∑ r ∈ A.rows s, ∑ t, A.Q s r t) := by
      simp only [d, ← mul_sum, sum_add_distrib, sum_const, card_univ, nsmul_eq_mul, mul_one]
      congr 2
      rw [sum_comm]
      exact sum_congr rfl fun s _ => sum_comm
    rw [e1, ← mul_add]
    refine mul_le_mul_of_nonneg_left ?_ he
    have e2 : ∑ s, ∑ r ∈ A.rows s, ∑ t, A.Q s r t + ∑ s, ∑ r ∈ A.rows s, A.g s r ≤ ∑ s, ((A.rows s).card : ℝ) := by
      rw [← sum_add_distrib]
      refine sum_le_sum fun s _ => ?_
      rw [← sum_add_distrib]
      calc _ ≤ ∑ r ∈ A.rows s, (1 : ℝ) := sum_le_sum fun r hr => by have := h.sub s r hr; linarith
        _ = _ := by simp
    linarith
  linarith

/-- **max**: without end components no flow is longer than `n / p ^ n` -/
theorem flow_le (h : A.Sub) (ht : A.Transient) {p : ℝ} (h0 : 0 < p) (h1 : p ≤ 1)
    (hQ : ∀ s, ∀ r ∈ A.rows s, ∀ t, 0 < A.Q s r t → p ≤ A.Q s r t)
    (hd : ∀ s, ∀ r ∈ A.rows s, ∑ t, A.Q s r t = 1 ∨ ∑ t, A.Q s r t ≤ 1 - p) {n : ℕ} (hn : Fintype.card S < n)
    {y : S → R → ℝ} (hy : ∀ s, ∀ r ∈ A.rows s, 0 ≤ y s r) {i : S} (hbal : ∀ t, A.bal y t ≤ if t = i then 1 else 0) :
    ∑ s, ∑ r ∈ A.rows s, y s r ≤ n / p ^ n := by
  obtain ⟨w, hw0, hwn, hw⟩ := exists_w_eps h.qsub ht h0 h1 hQ hd hn
  -- the core with gain 1 in every state
  let B : Core S R := { A with g := fun _ _ => 1 }
  have e1 := duality B y w
  have e2 : B.gain y = ∑ s, ∑ r ∈ A.rows s, y s r := by
    unfold gain
    exact sum_congr rfl fun s _ => sum_congr rfl fun r _ => mul_one _
  have e3 : 0 ≤ ∑ s, ∑ r ∈ B.rows s, y s r * (w s - B.step w s r) :=
    sum_nonneg fun s _ => sum_nonneg fun r hr => mul_nonneg (hy s r hr) (by
      have := hw s r hr
      simp only [step, B]
      linarith)
  have e4 : ∑ t, w t * B.bal y t ≤ ∑ t, w t * (if t = i then 1 else 0) :=
    sum_le_sum fun t _ => mul_le_mul_of_nonneg_left (hbal t) (hw0 t)
  simp at e4
  rw [← e2]
  linarith [hwn i]

end Verif.Theory.Core
