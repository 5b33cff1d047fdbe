import Verif.Props.Cert
import Verif.Props.ExampleTools
import Verif.Theory.Rational
/-! # C22, C23, C25, C26: counterexamples; C24, C25: certificates exist; examples for C20–C26 -/
set_option linter.unusedSectionVars false

namespace Verif.Props
open Verif.Model Verif.Proofs Verif.Theory Finset

/-! ### negative entries make wrong claims acceptable -/

/-- state 0 with an action to goal/fail and one to fail; states 1, 2 are goal and fail -/
def cxMax : Sys ℚ := mkSys ⟨4, 3, [((0, 1), 1/2), ((0, 2), 1/2), ((1, 2), 1), ((2, 1), 1), ((3, 2), 1)]⟩
  [((0, 0), 0), ((0, 1), 1), ((1, 0), 2), ((2, 0), 3)]
  (IDict.mk' [("init", [0]), ("goal", [1]), ("fail", [2])] true)

/-- state 0 with an action to goal/fail and one to goal -/
def cxMin : Sys ℚ := mkSys ⟨4, 3, [((0, 1), 1/2), ((0, 2), 1/2), ((1, 1), 1), ((2, 1), 1), ((3, 2), 1)]⟩
  [((0, 0), 0), ((0, 1), 1), ((1, 0), 2), ((2, 0), 3)]
  (IDict.mk' [("init", [0]), ("goal", [1]), ("fail", [2])] true)

theorem cxMax_wf : cxMax.WF := mkSys_wf (by decide +kernel) (by decide +kernel) (by decide +kernel)
  (by decide) (by decide) (by decide +kernel)
theorem cxMin_wf : cxMin.WF := mkSys_wf (by decide +kernel) (by decide +kernel) (by decide +kernel)
  (by decide) (by decide) (by decide +kernel)

/-- **C22 is false without non-negativity.** A vector with a negative entry is accepted as a certificate for
`Pr_max >= 1`, but the maximal probability is at most 1/2. -/
theorem C22_false : ∃ (M : Sys ℚ) (rf : RF ℚ) (y : List ℚ), M.WF ∧
    RF.make exRnd M "init" "goal" "fail" false = .ok rf ∧ check rf .max .ge 1 y 0 = .ok true ∧
    0 ∈ M.labelled "init" ∧ ∀ φ : ℚ →+*o ℝ, M.prMax φ (M.labelled "goal") 0 ≤ 1 / 2 := by
  obtain ⟨rf, h1, h2⟩ := exists_of_ok_and (x := RF.make exRnd cxMax "init" "goal" "fail" false)
    (p := fun rf => yes (check rf .max .ge 1 [2, -1] 0) && yes (check rf .max .le (1/2) [1/2] 0))
    (by decide +kernel)
  simp only [Bool.and_eq_true, yes_iff] at h2
  have hi : 0 ∈ cxMax.labelled "init" := ⟨[0], rfl, by simp⟩
  refine ⟨cxMax, rf, [2, -1], cxMax_wf, h1, h2.1, hi, fun φ => ?_⟩
  have := C21_max_le_sound cxMax_wf h1 φ h2.2 hi
  simpa using this

/-- **C23 is false without non-negativity.** A vector with a negative entry is accepted as a certificate for
`Pr_min <= 0`, but the minimal probability is at least 1/2. -/
theorem C23_false : ∃ (M : Sys ℚ) (rf : RF ℚ) (y : List ℚ), M.WF ∧
    RF.make exRnd M "init" "goal" "fail" false = .ok rf ∧ check rf .min .le 0 y 0 = .ok true ∧
    0 ∈ M.labelled "init" ∧ ∀ φ : ℚ →+*o ℝ, 1 / 2 ≤ M.prMin φ (M.labelled "goal") 0 := by
  obtain ⟨rf, h1, h2⟩ := exists_of_ok_and (x := RF.make exRnd cxMin "init" "goal" "fail" false)
    (p := fun rf => yes (check rf .min .le 0 [2, -1] 0) && yes (check rf .min .ge (1/2) [1/2] 0))
    (by decide +kernel)
  simp only [Bool.and_eq_true, yes_iff] at h2
  have hi : 0 ∈ cxMin.labelled "init" := ⟨[0], rfl, by simp⟩
  refine ⟨cxMin, rf, [2, -1], cxMin_wf, h1, h2.1, hi, fun φ => ?_⟩
  have := C20_min_ge_sound cxMin_wf h1 φ h2.2 hi
  simpa using this

/-! ### the tolerance is not a bound on the probability -/

/-- **C26 is false as a uniform claim.** With the default tolerance `1e-8` the certificate for `Pr_min >= 1`
of a system with a self-loop of probability `1 - 2e-8` is accepted, but the minimal probability is 1/2. -/
theorem C26_false : ∃ (M : Sys ℚ) (rf : RF ℚ) (z : List ℚ), M.WF ∧
    RF.make exRnd M "init" "goal" "fail" false = .ok rf ∧ check rf .min .ge 1 z (1 / 10 ^ 8) = .ok true ∧
    0 ∈ M.labelled "init" ∧ ∀ φ : ℚ →+*o ℝ, M.prMax φ (M.labelled "goal") 0 ≤ 1 / 2 := by
  have hwf : (mkSys (loopP ℚ (2 / 10 ^ 8)) loopI loopL).WF := mkSys_wf (by decide +kernel) (by decide +kernel)
    (by decide +kernel) (by decide) (by decide) (by decide +kernel)
  obtain ⟨rf, h1, h2⟩ := exists_of_ok_and
    (x := RF.make exRnd (mkSys (loopP ℚ (2 / 10 ^ 8)) loopI loopL) "init" "goal" "fail" false)
    (p := fun rf => yes (check rf .min .ge 1 [1] (1 / 10 ^ 8)) && yes (check rf .max .le (1/2) [1/2] 0))
    (by decide +kernel)
  simp only [Bool.and_eq_true, yes_iff] at h2
  have hi : 0 ∈ (mkSys (loopP ℚ (2 / 10 ^ 8)) loopI loopL).labelled "init" := ⟨[0], rfl, by simp⟩
  refine ⟨_, rf, [1], hwf, h1, h2.1, hi, fun φ => ?_⟩
  have := C21_max_le_sound hwf h1 φ h2.2 hi
  simpa using this

/-! ### existence -/

section
variable {K : Type} [Field K] [LinearOrder K] [IsStrictOrderedRing K]
variable {ρ : Graph.Rnd} {M : Sys K} {il tl fl : String} {rf : RF K}

theorem core_over (h : RFOK rf) (φ : K →+*o ℝ) : (h.core φ).Over φ := ⟨fun _ _ => ⟨_, rfl⟩, fun _ _ _ => ⟨_, rfl⟩⟩

theorem getD_listOf {n : Nat} (f : Fin n → K) (s : Fin n) :
    ((List.finRange n).map f).getD s.1 0 = f s := by
  rw [List.getD_eq_getElem _ _ (by simp)]
  simp

/-- values in the field of the code as a vector of the code -/
theorem exists_zvec (φ : K →+*o ℝ) {n : Nat} {V : Fin n → ℝ} (hV : ∀ s, V s ∈ Set.range φ) :
    ∃ z : List K, z.length = n ∧ (∀ s : Fin n, φ (z.getD s.1 0) = V s) ∧ ((∀ s, 0 ≤ V s) → ∀ x ∈ z, 0 ≤ x) := by
  choose v hv using hV
  refine ⟨(List.finRange n).map v, by simp, fun s => by rw [getD_listOf, hv], fun h0 x hx => ?_⟩
  obtain ⟨s, -, rfl⟩ := List.mem_map.1 hx
  rw [← (phi_strict φ).le_iff_le, map_zero, hv]
  exact h0 s

/-- **C24 (min).** If `Pr_min >= t` there is a non-negative accepted certificate; likewise for `>`. -/
theorem C24_min_complete (hM : M.WF) (hrf : RF.make ρ M il tl fl false = .ok rf) (φ : K →+*o ℝ) {t : K} (h0 : 0 ≤ t)
    (h1 : t ≤ 1) {i : Nat} (hi : i ∈ M.labelled il) (hit : i ∉ M.labelled tl) :
    (φ t ≤ M.prMin φ (M.labelled tl) i → ∃ z, (∀ x ∈ z, 0 ≤ x) ∧ check rf .min .ge t z 0 = .ok true) ∧
    (φ t < M.prMin φ (M.labelled tl) i → ∃ z, (∀ x ∈ z, 0 ≤ x) ∧ check rf .min .gt t z 0 = .ok true) := by
  have h := rfok_built hM hrf
  have hin := initial_lt hM hrf hi hit
  have e := prMin_core hM hrf φ ⟨rf.initial, hin⟩
  simp only at e
  rw [initial_eq hM hrf hi, e]
  obtain ⟨z, hl, hz, hz0⟩ := exists_zvec φ (V := (h.core φ).Vmin) (Core.Vmin_mem (h.sub φ) (core_over h φ))
  have hvec : RFOK.vec φ (fun j => z.getD j 0) = (h.core φ).Vmin := funext hz
  have key : ∀ strict : Bool, φ t ≤ (h.core φ).Vmin ⟨rf.initial, hin⟩ → (strict = true → φ t < (h.core φ).Vmin ⟨rf.initial, hin⟩) →
      check rf .min (if strict then .gt else .ge) t z 0 = .ok true := by
    intro strict ht hst
    rw [← hz, (phi_strict φ).le_iff_le, (phi_strict φ).lt_iff_lt] at *
    refine check_min_ge.2 ⟨⟨h0, h1⟩, hin, hl, fun s hs hp => ?_, ?_, ?_, fun hs => ?_⟩
    · refine (phi_strict φ).injective ?_
      rw [hz ⟨s, hs⟩, map_zero]
      exact Core.Vmin_eq_zero_of_InEC (h.sub φ) ((h.inEC_iff φ ⟨s, hs⟩).2 hp)
    · refine (RFOK.zrow_le_iff h φ _ _).2 fun s r hr => ?_
      rw [hvec, map_zero, add_zero]
      exact Core.Vmin_le_step (h.sub φ).toOK (h.sub φ).bound hr
    · rw [sub_zero]; exact ht
    · rw [sub_zero]; exact hst hs
  have hz0 := hz0 (Core.Vmin_nonneg (h.sub φ).toOK (h.sub φ).bound)
  exact ⟨fun ht => ⟨z, hz0, key false ht (by simp)⟩, fun ht => ⟨z, hz0, key true ht.le fun _ => ht⟩⟩

/-- **C24 (max).** If `Pr_max <= t` there is a non-negative accepted certificate; likewise for `<`. -/
theorem C24_max_complete (hM : M.WF) (hrf : RF.make ρ M il tl fl false = .ok rf) (φ : K →+*o ℝ) {t : K} (h0 : 0 ≤ t)
    (h1 : t ≤ 1) {i : Nat} (hi : i ∈ M.labelled il) (hit : i ∉ M.labelled tl) :
    (M.prMax φ (M.labelled tl) i ≤ φ t → ∃ z, (∀ x ∈ z, 0 ≤ x) ∧ check rf .max .le t z 0 = .ok true) ∧
    (M.prMax φ (M.labelled tl) i < φ t → ∃ z, (∀ x ∈ z, 0 ≤ x) ∧ check rf .max .lt t z 0 = .ok true) := by
  have h := rfok_built hM hrf
  have hin := initial_lt hM hrf hi hit
  have e := prMax_core hM hrf φ ⟨rf.initial, hin⟩
  simp only at e
  rw [initial_eq hM hrf hi, e]
  obtain ⟨z, hl, hz, hz0⟩ := exists_zvec φ (V := (h.core φ).Vmax) (Core.Vmax_mem (h.sub φ).toOK (h.sub φ).bound (core_over h φ))
  have hvec : RFOK.vec φ (fun j => z.getD j 0) = (h.core φ).Vmax := funext hz
  have key : ∀ strict : Bool, (h.core φ).Vmax ⟨rf.initial, hin⟩ ≤ φ t → (strict = true → (h.core φ).Vmax ⟨rf.initial, hin⟩ < φ t) →
      check rf .max (if strict then .lt else .le) t z 0 = .ok true := by
    intro strict ht hst
    rw [← hz, (phi_strict φ).le_iff_le, (phi_strict φ).lt_iff_lt] at *
    refine check_max_le.2 ⟨⟨h0, h1⟩, hin, hl, ?_, ?_, fun hs => ?_⟩
    · refine (RFOK.zrow_ge_iff h φ _ _).2 fun s r hr => ?_
      rw [hvec, map_zero, add_zero]
      exact Core.step_Vmax_le (h.sub φ).toOK (h.sub φ).bound hr
    · rw [add_zero]; exact ht
    · rw [add_zero]; exact hst hs
  have hz0 := hz0 (Core.Vmax_nonneg (h.sub φ).toOK (h.sub φ).bound)
  exact ⟨fun ht => ⟨z, hz0, key false ht (by simp)⟩, fun ht => ⟨z, hz0, key true ht.le fun _ => ht⟩⟩

/-- a flow as a vector of the code -/
theorem exists_vec (h : RFOK rf) (φ : K →+*o ℝ) {y : Fin rf.N → Fin rf.C → K} (hy : ∀ s r, 0 ≤ y s r) :
    ∃ v : List K, v.length = rf.C ∧ (∀ x ∈ v, 0 ≤ x) ∧
      (∀ s, ∀ r ∈ (h.core φ).rows s, v.getD r.1 0 = y s r) ∧
      (∀ t, (h.core φ).bal (RFOK.vecY φ fun j => v.getD j 0) t = (h.core φ).bal (fun s r => φ (y s r)) t) ∧
      (h.core φ).gain (RFOK.vecY φ fun j => v.getD j 0) = (h.core φ).gain fun s r => φ (y s r) := by
  have hex : ∀ r : Fin rf.C, ∃ s : Fin rf.N, r ∈ (h.core φ).rows s := fun r => by
    obtain ⟨s, hs, e⟩ := h.exists_rowState r.2
    exact ⟨⟨s, hs⟩, (h.mem_rows φ).2 e⟩
  choose st hst using hex
  have huniq : ∀ s, ∀ r ∈ (h.core φ).rows s, st r = s := fun s r hr => by
    have h1 := (h.mem_rows φ).1 hr
    have h2 := (h.mem_rows φ).1 (hst r)
    rw [h1] at h2
    exact Fin.ext (Option.some.inj h2).symm
  have hv : ∀ s, ∀ r ∈ (h.core φ).rows s,
      ((List.finRange rf.C).map fun r => y (st r) r).getD r.1 0 = y s r := fun s r hr => by
    rw [getD_listOf (fun r => y (st r) r) r, huniq s r hr]
  have hv' : ∀ s, ∀ r ∈ (h.core φ).rows s,
      φ (((List.finRange rf.C).map fun r => y (st r) r).getD r.1 0) = φ (y s r) := fun s r hr => congrArg φ (hv s r hr)
  refine ⟨(List.finRange rf.C).map fun r => y (st r) r, by simp, ?_, hv, fun t => ?_, ?_⟩
  · intro x hx
    obtain ⟨r, -, rfl⟩ := List.mem_map.1 hx
    exact hy _ _
  · unfold Core.bal
    congr 1
    · exact Finset.sum_congr rfl fun r hr => hv' t r hr
    · exact Finset.sum_congr rfl fun s _ => Finset.sum_congr rfl fun r hr => congrArg (· * _) (hv' s r hr)
  · unfold Core.gain
    exact Finset.sum_congr rfl fun s _ => Finset.sum_congr rfl fun r hr => congrArg (· * _) (hv' s r hr)

theorem ite_mem (φ : K →+*o ℝ) (P : Prop) [Decidable P] : (if P then (1 : ℝ) else 0) ∈ Set.range φ := by
  split
  · exact ⟨1, map_one φ⟩
  · exact ⟨0, map_zero φ⟩

/-- a flow of maximal gain as a vector of the code -/
theorem exists_max_vec (h : RFOK rf) (φ : K →+*o ℝ) (i : Fin rf.N) :
    ∃ v : List K, v.length = rf.C ∧ (∀ x ∈ v, 0 ≤ x) ∧
      (∀ t, (h.core φ).bal (RFOK.vecY φ fun j => v.getD j 0) t ≤ if t = i then 1 else 0) ∧
      (h.core φ).gain (RFOK.vecY φ fun j => v.getD j 0) = (h.core φ).Vmax i := by
  obtain ⟨y, hy0, hybal, hyg, -⟩ := Core.exists_dual_max (h.sub φ) i
  obtain ⟨x, hx0, hxg, hxb, -⟩ := Core.exists_flow_mem (core_over h φ) hy0 (d := fun t => if t = i then 1 else 0)
    (fun t => ite_mem φ _) (by rw [hyg]; exact Core.Vmax_mem (h.sub φ).toOK (h.sub φ).bound (core_over h φ) i)
  obtain ⟨v, hl, hv0, -, hb, hg⟩ := exists_vec h φ hx0
  exact ⟨v, hl, hv0, fun t => by rw [hb]; exact hxb t (hybal t), by rw [hg, hxg, hyg]⟩

/-- **C25 (max).** If `Pr_max >= t` there is a non-negative accepted certificate; likewise for `>`. -/
theorem C25_max_complete (hM : M.WF) (hrf : RF.make ρ M il tl fl false = .ok rf) (φ : K →+*o ℝ) {t : K} (h0 : 0 ≤ t)
    (h1 : t ≤ 1) {i : Nat} (hi : i ∈ M.labelled il) (hit : i ∉ M.labelled tl) :
    (φ t ≤ M.prMax φ (M.labelled tl) i → ∃ y, (∀ x ∈ y, 0 ≤ x) ∧ check rf .max .ge t y 0 = .ok true) ∧
    (φ t < M.prMax φ (M.labelled tl) i → ∃ y, (∀ x ∈ y, 0 ≤ x) ∧ check rf .max .gt t y 0 = .ok true) := by
  have h := rfok_built hM hrf
  have hin := initial_lt hM hrf hi hit
  have e := prMax_core hM hrf φ ⟨rf.initial, hin⟩
  simp only at e
  rw [initial_eq hM hrf hi, e]
  obtain ⟨v, hl, hv0, hb, hg⟩ := exists_max_vec h φ ⟨rf.initial, hin⟩
  have key : ∀ strict : Bool, φ t ≤ (h.core φ).Vmax ⟨rf.initial, hin⟩ →
      (strict = true → φ t < (h.core φ).Vmax ⟨rf.initial, hin⟩) →
      check rf .max (if strict then .gt else .ge) t v 0 = .ok true := by
    intro strict ht hst
    rw [← hg, ← RFOK.ygain_eq, (phi_strict φ).le_iff_le, (phi_strict φ).lt_iff_lt] at *
    refine check_max_ge.2 ⟨⟨h0, h1⟩, hin, hl, ?_, ?_, fun hs => ?_⟩
    · refine (RFOK.yrow_le_iff h φ hin _ _).2 fun s => ?_
      rw [map_zero, add_zero]
      exact hb s
    · rw [sub_zero]; exact ht
    · rw [sub_zero]; exact hst hs
  exact ⟨fun ht => ⟨v, hv0, key false ht (by simp)⟩, fun ht => ⟨v, hv0, key true ht.le fun _ => ht⟩⟩

/-- **C25 (min; partial: no proper end components).** If `Pr_min <= t` there is a non-negative accepted
certificate.  With proper end components there need not be any, see `C25_min_false`. -/
theorem C25_min_complete_partial (hM : M.WF) (hrf : RF.make ρ M il tl fl false = .ok rf)
    (hec : ∀ s < rf.N, rf.inProperEC s = false) (φ : K →+*o ℝ) {t : K} (h0 : 0 ≤ t)
    (h1 : t ≤ 1) {i : Nat} (hi : i ∈ M.labelled il) (hit : i ∉ M.labelled tl) :
    (M.prMin φ (M.labelled tl) i ≤ φ t → ∃ y, (∀ x ∈ y, 0 ≤ x) ∧ check rf .min .le t y 0 = .ok true) ∧
    (M.prMin φ (M.labelled tl) i < φ t → ∃ y, (∀ x ∈ y, 0 ≤ x) ∧ check rf .min .lt t y 0 = .ok true) := by
  have h := rfok_built hM hrf
  have hin := initial_lt hM hrf hi hit
  have e := prMin_core hM hrf φ ⟨rf.initial, hin⟩
  simp only at e
  rw [initial_eq hM hrf hi, e]
  have htr : (h.core φ).Transient := Core.transient_of_no_EC (h.sub φ) fun s hs => by
    have h1 := (h.inEC_iff φ s).1 hs
    rw [hec s.1 s.2] at h1
    cases h1
  obtain ⟨y, hy0, hybal, hyg⟩ := Core.exists_dual_min (h.sub φ).qsub htr (h.sub φ).bound ⟨rf.initial, hin⟩
  obtain ⟨x, hx0, hxg, -, hxb, -⟩ := Core.exists_flow_mem (core_over h φ) hy0
    (d := fun t => if t = (⟨rf.initial, hin⟩ : Fin rf.N) then 1 else 0)
    (fun t => ite_mem φ _) (by rw [hyg]; exact Core.Vmin_mem (h.sub φ) (core_over h φ) _)
  obtain ⟨v, hl, hv0, -, hb, hg⟩ := exists_vec h φ hx0
  rw [hxg, hyg] at hg
  have key : ∀ strict : Bool, (h.core φ).Vmin ⟨rf.initial, hin⟩ ≤ φ t →
      (strict = true → (h.core φ).Vmin ⟨rf.initial, hin⟩ < φ t) →
      check rf .min (if strict then .lt else .le) t v 0 = .ok true := by
    intro strict ht hst
    rw [← hg, ← RFOK.ygain_eq, (phi_strict φ).le_iff_le, (phi_strict φ).lt_iff_lt] at *
    refine (check_min_le fun i hi => h.isSome_rowState hi).2 ⟨⟨h0, h1⟩, hin, hl, ?_, ?_, ?_, fun hs => ?_⟩
    · intro r hr s hs hp
      obtain ⟨s', hs', e'⟩ := h.exists_rowState hr
      rw [e'] at hs
      cases hs
      rw [hec _ hs'] at hp
      cases hp
    · refine (RFOK.yrow_ge_iff h φ hin _ _).2 fun s => ?_
      rw [hb, map_zero, add_zero]
      exact hxb s (hybal s).ge
    · rw [add_zero]; exact ht
    · rw [add_zero]; exact hst hs
  exact ⟨fun ht => ⟨v, hv0, key false ht (by simp)⟩, fun ht => ⟨v, hv0, key true ht.le fun _ => ht⟩⟩
end

/-- **C25 (min) is false with end components.** In the example system no vector whatsoever is accepted for
the (true) claim `Pr_min <= 1`. -/
theorem C25_min_false : (exSys ℚ).WF ∧ RF.make exRnd (exSys ℚ) "init" "goal" "fail" false = .ok (exRF ℚ) ∧
    (∀ φ : ℚ →+*o ℝ, (exSys ℚ).prMin φ ((exSys ℚ).labelled "goal") 0 ≤ φ 1) ∧
    ∀ y, check (exRF ℚ) .min .le 1 y 0 ≠ .ok true := by
  refine ⟨exSys_wf ℚ, exRF_rat, fun φ => ?_, fun y hc => ?_⟩
  · have h := rfok_built (exSys_wf ℚ) exRF_rat
    have hin : 0 < (exRF ℚ).N := by decide +kernel
    have e := prMin_core (exSys_wf ℚ) exRF_rat φ ⟨0, hin⟩
    simp only at e
    rw [e, map_one]
    exact (h.sub φ).Vmin_le_one _
  · have h := rfok_built (exSys_wf ℚ) exRF_rat
    obtain ⟨-, -, -, hec, hrow, -, -⟩ :=
      (check_min_le (strict := false) fun i hi => h.isSome_rowState hi).1 hc
    have hC : (exRF ℚ).C = 3 := by decide +kernel
    have hN : (exRF ℚ).N = 2 := by decide +kernel
    have r1 := hec 1 (by rw [hC]; decide) 1 (by decide +kernel) (by decide +kernel)
    have r2 := hec 2 (by rw [hC]; decide) 1 (by decide +kernel) (by decide +kernel)
    have c0 := hrow 0 (by rw [hN]; decide)
    have c1 := hrow 1 (by rw [hN]; decide)
    simp only [yrow, hC, Finset.sum_range_succ, Finset.sum_range_zero] at c0 c1
    have a1 : (exRF ℚ).A 0 1 = -(1/2) := by decide +kernel
    have a2 : (exRF ℚ).A 0 0 = 1 := by decide +kernel
    have d0 : (exRF ℚ).delta 0 = 1 := by decide +kernel
    have d1 : (exRF ℚ).delta 1 = 0 := by decide +kernel
    rw [r1, r2, a1, d1] at c1
    rw [r1, r2, a2, d0] at c0
    linarith

/-! ### the hypotheses are met -/

theorem exInit : 0 ∈ (exSys ℚ).labelled "init" := ⟨[0], rfl, by simp⟩

example : check (exRF ℚ) .min .ge (1/2) [1/2, 0] 0 = .ok true := yes_iff.1 (by decide +kernel)
example : check (exRF ℚ) .min .gt (1/3) [1/2, 0] 0 = .ok true := yes_iff.1 (by decide +kernel)
example : check (exRF ℚ) .max .le (3/4) [3/4, 1/2] 0 = .ok true := yes_iff.1 (by decide +kernel)
example : check (exRF ℚ) .max .lt (4/5) [3/4, 1/2] 0 = .ok true := yes_iff.1 (by decide +kernel)
example : check (exRF ℚ) .max .ge (3/4) [1, 0, 1/2] 0 = .ok true := yes_iff.1 (by decide +kernel)
example : check (exRF ℚ) .max .gt (2/3) [1, 0, 1/2] 0 = .ok true := yes_iff.1 (by decide +kernel)
example : check (exRF ℚ) .max .ge (4/5) [1, 0, 1/2] 0 = .ok false ∧
    check (exRF ℚ) .min .ge (1/2) [1/2, 1/4] 0 = .ok false := by decide +kernel
example : ∃ rf, RF.make exRnd cxMin "init" "goal" "fail" false = .ok rf ∧
    yes (check rf .min .le (1/2) [1, 0] 0) && yes (check rf .min .lt (3/5) [1, 0] 0) :=
  exists_of_ok_and (p := fun rf => yes (check rf .min .le (1/2) [1, 0] 0) && yes (check rf .min .lt (3/5) [1, 0] 0))
    (by decide +kernel)

/-- an accepted certificate for a slightly wrong bound, and a bound for the probabilities -/
example : check (exRF ℚ) .min .ge (51/100) [1/2, 0] (1/100) = .ok true ∧
    ∀ i < (exSys ℚ).C, ∀ j < (exSys ℚ).N, 0 < (exSys ℚ).P.get i j → (1/4 : ℚ) ≤ (exSys ℚ).P.get i j :=
  ⟨yes_iff.1 (by decide +kernel), by decide +kernel⟩

/-- so in the example the probabilities are what one expects -/
example (φ : ℚ →+*o ℝ) : (exSys ℚ).prMax φ ((exSys ℚ).labelled "goal") 0 = φ (3/4) :=
  le_antisymm (C21_max_le_sound (exSys_wf ℚ) exRF_rat φ (z := [3/4, 1/2]) (yes_iff.1 (by decide +kernel)) exInit)
    (C22_max_ge_sound_partial (exSys_wf ℚ) exRF_rat φ (y := [1, 0, 1/2]) (by decide +kernel)
      (yes_iff.1 (by decide +kernel)) exInit)

/-- the rationals in the reals -/
noncomputable def ratR : ℚ →+*o ℝ := ⟨Rat.castHom ℝ, fun _ _ h => by simpa using h⟩

theorem exInit_not : 0 ∉ (exSys ℚ).labelled "goal" := by
  rintro ⟨ss, h1, h2⟩
  have : (exSys ℚ).statesByLabel "goal" = .ok [2] := rfl
  rw [this] at h1
  cases h1
  simp at h2

/-- the completeness theorems apply to the example over the rationals -/
example : ratR (1/4) ≤ (exSys ℚ).prMin ratR ((exSys ℚ).labelled "goal") 0 →
    ∃ z, (∀ x ∈ z, 0 ≤ x) ∧ check (exRF ℚ) .min .ge (1/4) z 0 = .ok true :=
  (C24_min_complete (exSys_wf ℚ) exRF_rat ratR (by norm_num) (by norm_num) exInit exInit_not).1

/-- a form without proper end components -/
example : ∃ rf, RF.make exRnd (mkSys (loopP ℚ (1/2)) loopI loopL) "init" "goal" "fail" false = .ok rf ∧
    0 < rf.N ∧ ∀ s < rf.N, rf.inProperEC s = false := by
  obtain ⟨rf, h1, h2⟩ := exists_of_ok_and
    (x := RF.make exRnd (mkSys (loopP ℚ (1/2)) loopI loopL) "init" "goal" "fail" false)
    (p := fun rf => decide (0 < rf.N ∧ ∀ s < rf.N, rf.inProperEC s = false)) (by decide +kernel)
  exact ⟨rf, h1, of_decide_eq_true h2⟩

end Verif.Props
