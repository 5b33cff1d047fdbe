import Verif.Theory.Transient
/-!
# Approximate certificates

A vector that satisfies the certificate inequalities up to `tol` bounds the value up to `tol` times a
constant that depends on the system only.
-/
set_option linter.unusedSectionVars false

namespace Verif.Theory.Core
open Finset

variable {S R : Type} [Fintype S] [DecidableEq S] {M : Core S R}

theorem Live.Vmax_pos (h : M.Sub) (hl : M.Live) (s : S) : 0 < M.Vmax s := by
  by_contra hc
  have hs : M.Vmax s = 0 := le_antisymm (not_lt.1 hc) (Vmax_nonneg h.toOK h.bound s)
  obtain ⟨t, ht, r, hr, hg⟩ := hl (univ.filter fun t => M.Vmax t = 0) ⟨s, by simpa using hs⟩ (by
    intro t ht r hr u hq
    have ht : M.Vmax t = 0 := by simpa using ht
    have h1 := step_Vmax_le h.toOK h.bound hr
    rw [ht] at h1
    have h2 := h.g0 t r hr
    have h3 : M.Q t r u * M.Vmax u ≤ ∑ u, M.Q t r u * M.Vmax u :=
      Finset.single_le_sum (f := fun u => M.Q t r u * M.Vmax u)
        (fun v _ => mul_nonneg (h.Q0 t r hr v) (Vmax_nonneg h.toOK h.bound v)) (Finset.mem_univ u)
    simp only [step] at h1
    have h4 : M.Q t r u * M.Vmax u ≤ 0 := by linarith
    have h5 : M.Vmax u ≤ 0 := by
      by_contra hc
      push Not at hc
      have := mul_pos hq hc
      linarith
    simpa using le_antisymm h5 (Vmax_nonneg h.toOK h.bound u))
  have ht : M.Vmax t = 0 := by simpa using ht
  have h1 := step_Vmax_le h.toOK h.bound hr
  have h2 : 0 ≤ ∑ u, M.Q t r u * M.Vmax u := Finset.sum_nonneg fun v _ =>
    mul_nonneg (h.Q0 t r hr v) (Vmax_nonneg h.toOK h.bound v)
  simp only [step] at h1
  linarith

theorem exists_tol_min (h : M.Sub) {ε : ℝ} (h0 : 0 < ε) (h1 : ε ≤ 1)
    (hQ : ∀ s, ∀ r ∈ M.rows s, ∀ t, 0 < M.Q s r t → ε ≤ M.Q s r t)
    (hd : ∀ s, ∀ r ∈ M.rows s, ∑ t, M.Q s r t = 1 ∨ ∑ t, M.Q s r t ≤ 1 - ε) {n : ℕ} (hn : Fintype.card S < n) :
    ∃ w : S → ℝ, (∀ s, 0 ≤ w s) ∧ (∀ s, w s ≤ n / ε ^ n) ∧ ∀ (tol : ℝ) (z : S → ℝ), 0 ≤ tol →
    (∀ s, ∀ r ∈ M.rows s, z s ≤ M.step z s r + tol) → (∀ s, M.InEC s → z s ≤ 0) →
    ∀ s, z s ≤ M.Vmin s + tol * w s := by
  classical
  let M' : Core S R :=
    { rows := M.rows, ne := M.ne, g := fun _ _ => 0, Q := fun s r t => if M.InEC s then 0 else M.Q s r t }
  have hq : M'.QSub :=
    { g0 := fun _ _ _ => le_rfl
      Q0 := fun s r hr t => by
        simp only [M']; split
        · exact le_rfl
        · exact h.Q0 s r hr t
      sumQ := fun s r hr => by
        simp only [M']
        by_cases hs : M.InEC s
        · simp [hs]
        · simpa [hs] using h.sumQ_le hr }
  have ht : M'.Transient := by
    intro B hB hcl
    have hne : ∀ s ∈ B, ¬ M.InEC s := by
      intro s hs he
      obtain ⟨r, hr, h1⟩ := hcl s hs
      simp [M', he] at h1
    have : ∀ s, ∃ r, s ∈ B → r ∈ M.rows s ∧ ∑ t ∈ B, M.Q s r t = 1 := by
      intro s
      by_cases hs : s ∈ B
      · obtain ⟨r, hr, h1⟩ := hcl s hs
        refine ⟨r, fun _ => ⟨hr, ?_⟩⟩
        simpa [M', hne s hs] using h1
      · obtain ⟨r, _⟩ := M.ne s; exact ⟨r, fun h => absurd h hs⟩
    choose f hf using this
    obtain ⟨e, he, hE⟩ := exists_EC_of_closed h f B hB fun s hs => hf s hs
    exact hne e he hE
  obtain ⟨w, hw0, hwn, hw⟩ := exists_w_eps hq ht h0 h1
    (fun s r hr t => by
      by_cases hs : M.InEC s
      · simp [M', hs]
      · simpa [M', hs] using hQ s r hr t)
    (fun s r hr => by
      by_cases hs : M.InEC s
      · right; simpa [M', hs] using h1
      · simpa [M', hs] using hd s r hr) hn
  refine ⟨w, hw0, hwn, fun tol z htol hz hec => ?_⟩
  choose f hf hfx using exists_step_Vmin h.toOK h.bound
  have hnot : ∀ s, M.Vmin s < z s - tol * w s → ¬ M.InEC s := by
    intro s hs he
    have h1 := hec s he
    have h2 := Vmin_nonneg h.toOK h.bound s
    have h3 := mul_nonneg htol (hw0 s)
    linarith
  have key := le_of_compare h.qsub hf (x := fun s => z s - tol * w s) (y := M.Vmin)
    (by
      intro B hB hlt hcl
      obtain ⟨e, he, hE⟩ := exists_EC_of_closed h f B hB fun s hs => ⟨hf s, hcl s hs⟩
      exact hnot e (hlt e he) hE)
    (by
      intro s hs
      have hn := hnot s hs
      have h1 := hz s (f s) (hf s)
      have h2 := hw s (f s) (hf s)
      simp only [M', hn, if_false] at h2
      have h3 : ∑ t, M.Q s (f s) t * (z t - tol * w t) =
          ∑ t, M.Q s (f s) t * z t - tol * ∑ t, M.Q s (f s) t * w t := by
        rw [Finset.mul_sum, ← Finset.sum_sub_distrib]
        exact Finset.sum_congr rfl fun t _ => by ring
      simp only [step] at h1 ⊢
      rw [h3]
      have h4 := mul_le_mul_of_nonneg_left h2 htol
      linarith)
    (fun s _ => (hfx s).le)
  intro s
  have := key s
  linarith

theorem exists_tol_max (h : M.Sub) {ε : ℝ} (h0 : 0 < ε) (h1 : ε ≤ 1)
    (hQ : ∀ s, ∀ r ∈ M.rows s, ∀ t, 0 < M.Q s r t → ε ≤ M.Q s r t)
    (hd : ∀ s, ∀ r ∈ M.rows s, ∑ t, M.Q s r t = 1 ∨ ∑ t, M.Q s r t ≤ 1 - ε) {n : ℕ} (hn : Fintype.card S < n)
    (hl : M.Live) : ∃ w : S → ℝ, (∀ s, 0 ≤ w s) ∧ (∀ s, w s ≤ n / ε ^ n) ∧ ∀ (tol : ℝ) (z : S → ℝ),
    0 ≤ tol → (∀ s, ∀ r ∈ M.rows s, M.step z s r ≤ z s + tol) → ∀ s, M.Vmax s ≤ z s + tol * w s := by
  classical
  obtain ⟨f, hf, hfx, htr⟩ := exists_opt_max h
  let M' : Core S R :=
    { rows := fun s => {f s}, ne := fun s => ⟨f s, by simp⟩, g := fun _ _ => 0, Q := M.Q }
  have hq : M'.QSub :=
    { g0 := fun _ _ _ => le_rfl
      Q0 := fun s r hr t => by
        obtain rfl : r = f s := by simpa [M'] using hr
        exact h.Q0 s _ (hf s) t
      sumQ := fun s r hr => by
        obtain rfl : r = f s := by simpa [M'] using hr
        exact h.sumQ_le (hf s) }
  have htr' : ∀ B : Finset S, B.Nonempty → ¬ ∀ s ∈ B, ∑ t ∈ B, M.Q s (f s) t = 1 := fun B hB =>
    htr B hB fun s _ => Live.Vmax_pos h hl s
  have ht : M'.Transient := by
    intro B hB hcl
    refine htr' B hB fun s hs => ?_
    obtain ⟨r, hr, h1⟩ := hcl s hs
    obtain rfl : r = f s := by simpa [M'] using hr
    exact h1
  obtain ⟨w, hw0, hwn, hw⟩ := exists_w_eps hq ht h0 h1
    (fun s r hr t => by
      obtain rfl : r = f s := by simpa [M'] using hr
      exact hQ s _ (hf s) t)
    (fun s r hr => by
      obtain rfl : r = f s := by simpa [M'] using hr
      exact hd s _ (hf s)) hn
  refine ⟨w, hw0, hwn, fun tol z htol hz => ?_⟩
  exact le_of_compare h.qsub hf (x := M.Vmax) (y := fun s => z s + tol * w s)
    (fun B hB _ => htr' B hB) (fun s _ => (hfx s).ge) (by
      intro s _
      have h1 := hz s (f s) (hf s)
      have h2 := hw s (f s) (by simp [M'])
      have h3 : ∑ t, M.Q s (f s) t * (z t + tol * w t) =
          ∑ t, M.Q s (f s) t * z t + tol * ∑ t, M.Q s (f s) t * w t := by
        rw [Finset.mul_sum, ← Finset.sum_add_distrib]
        exact Finset.sum_congr rfl fun t _ => by ring
      simp only [step] at h1 ⊢
      rw [h3]
      have h4 := mul_le_mul_of_nonneg_left h2 htol
      simp only [M'] at h4
      linarith)

/-- **max, ≥** up to `tol` -/
theorem gain_le_tol (h : M.Sub) {y : S → R → ℝ} (hy : ∀ s, ∀ r ∈ M.rows s, 0 ≤ y s r) {i : S} {tol : ℝ}
    (htol : 0 ≤ tol) (hbal : ∀ t, M.bal y t ≤ (if t = i then 1 else 0) + tol) :
    M.gain y ≤ M.Vmax i + tol * Fintype.card S := by
  have h1 : 0 ≤ ∑ s, ∑ r ∈ M.rows s, y s r * (M.Vmax s - M.step M.Vmax s r) :=
    Finset.sum_nonneg fun s _ => Finset.sum_nonneg fun r hr =>
      mul_nonneg (hy s r hr) (sub_nonneg.2 (step_Vmax_le h.toOK h.bound hr))
  rw [duality] at h1
  have h2 : ∑ t, M.Vmax t * M.bal y t ≤ ∑ t, (M.Vmax t * (if t = i then 1 else 0) + tol) :=
    Finset.sum_le_sum fun t _ => by
      have h3 := mul_le_mul_of_nonneg_left (hbal t) (Vmax_nonneg h.toOK h.bound t)
      have h4 := mul_le_mul_of_nonneg_right (h.Vmax_le_one t) htol
      linarith
  rw [Finset.sum_add_distrib] at h2
  simp at h2
  linarith

/-- **min, ≤** up to `tol` -/
theorem Vmin_le_tol (h : M.Sub) {y : S → R → ℝ} (hy : ∀ s, ∀ r ∈ M.rows s, 0 ≤ y s r) {i : S} {tol : ℝ}
    (htol : 0 ≤ tol) (hbal : ∀ t, (if t = i then 1 else 0) ≤ M.bal y t + tol) :
    M.Vmin i ≤ M.gain y + tol * Fintype.card S := by
  have h1 : ∑ s, ∑ r ∈ M.rows s, y s r * (M.Vmin s - M.step M.Vmin s r) ≤ 0 :=
    Finset.sum_nonpos fun s _ => Finset.sum_nonpos fun r hr =>
      mul_nonpos_of_nonneg_of_nonpos (hy s r hr) (sub_nonpos.2 (Vmin_le_step h.toOK h.bound hr))
  rw [duality] at h1
  have h2 : ∑ t, M.Vmin t * (if t = i then 1 else 0) ≤ ∑ t, (M.Vmin t * M.bal y t + tol) :=
    Finset.sum_le_sum fun t _ => by
      have h3 := mul_le_mul_of_nonneg_left (hbal t) (Vmin_nonneg h.toOK h.bound t)
      have h4 := mul_le_mul_of_nonneg_right (h.Vmin_le_one t) htol
      linarith
  rw [Finset.sum_add_distrib] at h2
  simp at h2
  linarith

end Verif.Theory.Core
