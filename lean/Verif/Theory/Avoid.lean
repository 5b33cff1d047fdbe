import Verif.Theory.Rational
/-!
# Flows that avoid end components

A flow that leaves out the end components corresponds to a scheduler that never enters them.
-/
set_option linter.unusedSectionVars false

namespace Verif.Theory.Core
open Verif.Spec Finset

variable {S R : Type} [Fintype S] [DecidableEq S] {M : Core S R}

/-- from a flow to a choice that stays in the support of the flow -/
theorem exists_choice_of_flow (h : M.Sub) {y : S → R → ℝ} (hy : ∀ s, ∀ r ∈ M.rows s, 0 ≤ y s r) {i : S}
    (hbal : ∀ t, (if t = i then 1 else 0) ≤ M.bal y t) :
    ∃ (f : S → R) (U : Set S) (x : S → ℝ), (∀ s, f s ∈ M.rows s) ∧ i ∈ U ∧ (∀ s ∈ U, ∃ r ∈ M.rows s, y s r ≠ 0) ∧
      (∀ s ∈ U, ∀ t, 0 < M.Q s (f s) t → t ∈ U) ∧ (∀ s, 0 ≤ x s) ∧ (∀ s, M.step x s (f s) ≤ x s) ∧ x i ≤ M.gain y := by
  classical
  let U : Set S := {s | ∃ r ∈ M.rows s, y s r ≠ 0}
  let M' : Core S R :=
    { rows := fun s => if s ∈ U then (M.rows s).filter fun r => y s r ≠ 0 else M.rows s
      ne := fun s => by
        by_cases hs : s ∈ U
        · obtain ⟨r, hr, hn⟩ := id hs
          exact ⟨r, by simp [hs, hr, hn]⟩
        · simpa [hs] using M.ne s
      g := M.g, Q := M.Q }
  have hsub : ∀ s, ∀ r ∈ M'.rows s, r ∈ M.rows s := by
    intro s r hr
    by_cases hs : s ∈ U
    · simp only [M', hs, if_true, Finset.mem_filter] at hr; exact hr.1
    · simpa [M', hs] using hr
  have h' : M'.Sub := ⟨⟨fun s r hr => h.g0 s r (hsub s r hr), fun s r hr t => h.Q0 s r (hsub s r hr) t⟩,
    fun s r hr => h.sub s r (hsub s r hr)⟩
  have hsum : ∀ s (F : R → ℝ), ∑ r ∈ M'.rows s, y s r * F r = ∑ r ∈ M.rows s, y s r * F r := by
    intro s F
    by_cases hs : s ∈ U
    · simp only [M', hs, if_true]
      refine Finset.sum_subset (Finset.filter_subset _ _) fun r hr hn => ?_
      have : y s r = 0 := by
        by_contra hne
        exact hn (Finset.mem_filter.2 ⟨hr, hne⟩)
      rw [this, zero_mul]
    · simp [M', hs]
  have hb : ∀ t, M'.bal y t = M.bal y t := by
    intro t
    unfold bal
    congr 1
    · simpa using hsum t fun _ => 1
    · exact Finset.sum_congr rfl fun s _ => hsum s fun r => M.Q s r t
  have hg : M'.gain y = M.gain y := Finset.sum_congr rfl fun s _ => hsum s fun r => M.g s r
  choose f hf hfx using exists_step_Vmin h'.toOK h'.bound
  have hin : ∀ t, 0 < ∑ r ∈ M.rows t, y t r → t ∈ U := by
    intro t ht
    by_contra hn
    have : ∑ r ∈ M.rows t, y t r = 0 := Finset.sum_eq_zero fun r hr => by
      by_contra hne
      exact hn ⟨r, hr, hne⟩
    rw [this] at ht
    exact lt_irrefl _ ht
  have hnn : ∀ t, ∀ s, 0 ≤ ∑ r ∈ M.rows s, y s r * M.Q s r t := fun t s =>
    Finset.sum_nonneg fun r hr => mul_nonneg (hy s r hr) (h.Q0 s r hr t)
  refine ⟨f, U, M'.Vmin, fun s => hsub s _ (hf s), hin i ?_, fun s hs => hs, ?_, Vmin_nonneg h'.toOK h'.bound,
    fun s => (hfx s).le, ?_⟩
  · have h1 := hbal i
    have h2 := Finset.sum_nonneg fun s (_ : s ∈ univ) => hnn i s
    simp only [if_true, bal] at h1
    linarith
  · intro s hs t hq
    refine hin t ?_
    have hfs := hf s
    simp only [M', hs, if_true, Finset.mem_filter] at hfs
    have hpos : 0 < y s (f s) * M.Q s (f s) t :=
      mul_pos (lt_of_le_of_ne (hy s _ hfs.1) (Ne.symm hfs.2)) hq
    have h1 : y s (f s) * M.Q s (f s) t ≤ ∑ r ∈ M.rows s, y s r * M.Q s r t :=
      Finset.single_le_sum (f := fun r => y s r * M.Q s r t)
        (fun r hr => mul_nonneg (hy s r hr) (h.Q0 s r hr t)) hfs.1
    have h2 : ∑ r ∈ M.rows s, y s r * M.Q s r t ≤ ∑ s, ∑ r ∈ M.rows s, y s r * M.Q s r t :=
      Finset.single_le_sum (f := fun s => ∑ r ∈ M.rows s, y s r * M.Q s r t) (fun s _ => hnn t s) (Finset.mem_univ s)
    have h3 := hbal t
    have h4 : (0 : ℝ) ≤ if t = i then 1 else 0 := by split <;> norm_num
    simp only [bal] at h3
    linarith
  · rw [← hg]
    refine Vmin_le_gain h'.toOK h'.bound (fun s r hr => hy s r (hsub s r hr)) fun t => ?_
    rw [hb]
    exact hbal t

open Classical in
/-- only the states of `G` and the rows `W` -/
noncomputable def inside (M : Core S R) (G : Set S) (W : S → Finset R) (hW : ∀ s ∈ G, (W s).Nonempty) : Core S R where
  rows s := if s ∈ G then W s else M.rows s
  ne s := by
    by_cases hs : s ∈ G
    · simpa [hs] using hW s hs
    · simpa [hs] using M.ne s
  g s r := if s ∈ G then M.g s r else 0
  Q s r t := if s ∈ G then M.Q s r t else 0

variable {G : Set S} {W : S → Finset R}

/-- from a part without end components to a flow -/
theorem exists_flow_inside [DecidableEq R] (h : M.Sub) (hW : ∀ s ∈ G, (W s).Nonempty) (hsub : ∀ s ∈ G, ∀ r ∈ W s, r ∈ M.rows s)
    (hcl : ∀ s ∈ G, ∀ r ∈ W s, ∀ t, 0 < M.Q s r t → t ∈ G) (hec : ∀ s ∈ G, ¬ M.InEC s) {i : S} (hi : i ∈ G)
    {K : Type} [Field K] [LinearOrder K] [IsStrictOrderedRing K] {φ : K →+*o ℝ} (o : M.Over φ) :
    ∃ y : S → R → ℝ, (∀ s r, 0 ≤ y s r) ∧ (∀ t, M.bal y t = if t = i then 1 else 0) ∧ (∀ s r, y s r ≠ 0 → s ∈ G) ∧
      M.gain y = (M.inside G W hW).Vmin i ∧ M.gain y ∈ Set.range φ := by
  classical
  set A := M.inside G W hW with hA
  have rin : ∀ s ∈ G, A.rows s = W s := fun s hs => by simp [hA, inside, hs]
  have hs' : A.Sub :=
    { g0 := fun s r hr => by
        by_cases hs : s ∈ G
        · rw [rin s hs] at hr
          simpa [hA, inside, hs] using h.g0 s r (hsub s hs r hr)
        · simp [hA, inside, hs]
      Q0 := fun s r hr t => by
        by_cases hs : s ∈ G
        · rw [rin s hs] at hr
          simpa [hA, inside, hs] using h.Q0 s r (hsub s hs r hr) t
        · simp [hA, inside, hs]
      sub := fun s r hr => by
        by_cases hs : s ∈ G
        · rw [rin s hs] at hr
          simpa [hA, inside, hs] using h.sub s r (hsub s hs r hr)
        · simp [hA, inside, hs] }
  have ht : A.Transient := by
    intro B hB hc
    have hBG : ∀ s ∈ B, s ∈ G := by
      intro s hs
      by_contra hn
      obtain ⟨r, -, h1⟩ := hc s hs
      simp [hA, inside, hn] at h1
    have : ∀ s, ∃ r, s ∈ B → r ∈ M.rows s ∧ ∑ t ∈ B, M.Q s r t = 1 := by
      intro s
      by_cases hs : s ∈ B
      · obtain ⟨r, hr, h1⟩ := hc s hs
        rw [rin s (hBG s hs)] at hr
        exact ⟨r, fun _ => ⟨hsub s (hBG s hs) r hr, by simpa [hA, inside, hBG s hs] using h1⟩⟩
      · obtain ⟨r, _⟩ := M.ne s; exact ⟨r, fun h => absurd h hs⟩
    choose f hf using this
    obtain ⟨e, he, hE⟩ := exists_EC_of_closed h f B hB fun s hs => hf s hs
    exact hec e (hBG e he) hE
  have oA : A.Over φ := by
    have z : (0 : ℝ) ∈ Set.range φ := ⟨0, map_zero φ⟩
    refine ⟨fun s r => ?_, fun s r t => ?_⟩
    · simp only [hA, inside]; split
      · exact o.g s r
      · exact z
    · simp only [hA, inside]; split
      · exact o.Q s r t
      · exact z
  obtain ⟨y, hy0, hyb, hyg⟩ := exists_dual_min hs'.qsub ht hs'.bound i
  -- nothing flows outside
  have hout : ∀ t, t ∉ G → ∀ r ∈ A.rows t, y t r = 0 := by
    intro t htG
    have h1 := hyb t
    have hne : t ≠ i := fun hh => htG (hh ▸ hi)
    have h2 : ∑ s, ∑ r ∈ A.rows s, y s r * A.Q s r t = 0 := by
      refine Finset.sum_eq_zero fun s _ => Finset.sum_eq_zero fun r hr => ?_
      by_cases hs : s ∈ G
      · rw [rin s hs] at hr
        have : A.Q s r t = 0 := by
          have e : A.Q s r t = M.Q s r t := by simp [hA, inside, hs]
          rw [e]
          by_contra hq
          exact htG (hcl s hs r hr t (lt_of_le_of_ne (h.Q0 s r (hsub s hs r hr) t) (Ne.symm hq)))
        rw [this, mul_zero]
      · simp [hA, inside, hs]
    simp only [bal, h2, sub_zero, hne, if_false] at h1
    exact (Finset.sum_eq_zero_iff_of_nonneg fun r _ => hy0 t r).1 h1
  let x : S → R → ℝ := fun s r => if s ∈ G ∧ r ∈ W s then y s r else 0
  have hx : ∀ s (F F' : R → ℝ), (s ∈ G → ∀ r, F r = F' r) →
      ∑ r ∈ M.rows s, x s r * F r = ∑ r ∈ A.rows s, y s r * F' r := by
    intro s F F' hF
    by_cases hs : s ∈ G
    · rw [rin s hs]
      symm
      calc ∑ r ∈ W s, y s r * F' r = ∑ r ∈ W s, x s r * F r := Finset.sum_congr rfl fun r hr => by
              simp [x, hs, hr, hF hs r]
        _ = _ := Finset.sum_subset (fun r hr => hsub s hs r hr) fun r _ hn => by simp [x, hn]
    · have e1 : ∑ r ∈ M.rows s, x s r * F r = 0 := Finset.sum_eq_zero fun r _ => by simp [x, hs]
      have e2 : ∑ r ∈ A.rows s, y s r * F' r = 0 := Finset.sum_eq_zero fun r hr => by rw [hout s hs r hr, zero_mul]
      rw [e1, e2]
  have hb : ∀ t, M.bal x t = A.bal y t := by
    intro t
    unfold bal
    congr 1
    · simpa using hx t (fun _ => 1) (fun _ => 1) fun _ _ => rfl
    · exact Finset.sum_congr rfl fun s _ => hx s _ _ fun hs r => by simp [hA, inside, hs]
  have hg : M.gain x = A.gain y := Finset.sum_congr rfl fun s _ => hx s _ _ fun hs r => by simp [hA, inside, hs]
  refine ⟨x, fun s r => ?_, fun t => by rw [hb, hyb], fun s r hn => ?_, by rw [hg, hyg], ?_⟩
  · simp only [x]; split
    exacts [hy0 s r, le_rfl]
  · by_contra hs
    exact hn (by simp [x, hs])
  · rw [hg, hyg]
    exact Vmin_mem_transient hs'.qsub ht hs'.bound oA i

end Verif.Theory.Core
