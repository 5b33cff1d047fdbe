import Verif.Props.ExampleRF
import Mathlib.Algebra.Order.Archimedean.Basic
import Mathlib.Data.Rat.Cast.Order
/-!
# C20–C26: Farkas certificates

`M` is the system handed to the constructor of the reachability form, `i` its initial state and
`M.prMin φ (M.labelled tl) i` the infimum over all schedulers of the probability of reaching a state
labelled `tl`.  `φ` embeds the number type into the reals.
-/
set_option linter.unusedSectionVars false

namespace Verif.Props
open Verif.Model Verif.Proofs Verif.Theory Finset

variable {K : Type} [Field K] [LinearOrder K] [IsStrictOrderedRing K]
variable {ρ : Graph.Rnd} {M : Sys K} {il tl fl : String} {rf : RF K}

/-! ### the reachability form and its system -/

theorem rfok_built (hM : M.WF) (hrf : RF.make ρ M il tl fl false = .ok rf) : RFOK rf :=
  rfok_of_make hM ((make_fields hrf).2.2.2.2 rfl) hrf

theorem rflive_built (hM : M.WF) (hrf : RF.make ρ M il tl fl false = .ok rf) : RFLive rf :=
  rflive_of_make hM ((make_fields hrf).2.2.2.2 rfl) hrf

theorem initial_eq (hM : M.WF) (hrf : RF.make ρ M il tl fl false = .ok rf) {i : Nat}
    (hi : i ∈ M.labelled il) : i = rf.initial := by
  obtain ⟨e, eil, -, -, -⟩ := make_fields hrf
  have h := (rflive_built hM hrf).initLab
  rw [e, eil] at h
  obtain ⟨ss, h1, h2⟩ := hi
  rw [h] at h1
  cases h1
  simpa using h2

theorem prMin_core (hM : M.WF) (hrf : RF.make ρ M il tl fl false = .ok rf) (φ : K →+*o ℝ) (s : Fin rf.N) :
    M.prMin φ (M.labelled tl) s.1 = ((rfok_built hM hrf).core φ).Vmin s := by
  obtain ⟨e, -, etl, -, -⟩ := make_fields hrf
  rw [← RFOK.prMin_eq]
  unfold RF.prMin
  rw [e, etl]

theorem prMax_core (hM : M.WF) (hrf : RF.make ρ M il tl fl false = .ok rf) (φ : K →+*o ℝ) (s : Fin rf.N) :
    M.prMax φ (M.labelled tl) s.1 = ((rfok_built hM hrf).core φ).Vmax s := by
  obtain ⟨e, -, etl, -, -⟩ := make_fields hrf
  rw [← RFOK.prMax_eq]
  unfold RF.prMax
  rw [e, etl]

/-- the initial state is a column of the constraint systems unless it is the goal -/
theorem initial_lt (hM : M.WF) (hrf : RF.make ρ M il tl fl false = .ok rf) {i : Nat}
    (hi : i ∈ M.labelled il) (ht : i ∉ M.labelled tl) : rf.initial < rf.N := by
  obtain ⟨e, -, etl, -, -⟩ := make_fields hrf
  have h := rflive_built hM hrf
  have h1 := h.init
  have h2 := h.target
  rw [etl] at h2
  rw [initial_eq hM hrf hi, ← e, h2] at ht
  have : rf.initial ≠ rf.sys.N - 2 := ht
  unfold RF.N
  omega

/-! ### soundness -/

private theorem min_ge (hM : M.WF) (hrf : RF.make ρ M il tl fl false = .ok rf) (φ : K →+*o ℝ)
    {strict : Bool} {t : K} {v : List K} (hc : check rf .min (if strict then .gt else .ge) t v 0 = .ok true)
    {i : Nat} (hi : i ∈ M.labelled il) :
    φ t ≤ M.prMin φ (M.labelled tl) i ∧ (strict = true → φ t < M.prMin φ (M.labelled tl) i) := by
  obtain ⟨-, hin, -, hec, hrow, h1, h2⟩ := check_min_ge.1 hc
  have h := rfok_built hM hrf
  rw [initial_eq hM hrf hi]
  have hz := (RFOK.zrow_le_iff h φ _ _).1 hrow
  rw [map_zero] at hz
  have := Core.le_Vmin_of_cert (h.sub φ) (z := RFOK.vec φ fun j => v.getD j 0) (fun s r hr => by
    have := hz s r hr; linarith) (fun s hs => by
      have := hec s.1 s.2 ((h.inEC_iff φ s).1 hs)
      rw [RFOK.vec, this, map_zero]) ⟨rf.initial, hin⟩
  have e := prMin_core hM hrf φ ⟨rf.initial, hin⟩
  simp only at e
  rw [e]
  rw [sub_zero] at h1 h2
  exact ⟨le_trans (OrderHomClass.mono φ h1) this, fun hs => lt_of_lt_of_le (phi_strict φ (h2 hs)) this⟩

/-- **C20.** An accepted certificate for `Pr_min >= t` is right. -/
theorem C20_min_ge_sound (hM : M.WF) (hrf : RF.make ρ M il tl fl false = .ok rf) (φ : K →+*o ℝ)
    {t : K} {z : List K} (hc : check rf .min .ge t z 0 = .ok true) {i : Nat} (hi : i ∈ M.labelled il) :
    φ t ≤ M.prMin φ (M.labelled tl) i := (min_ge hM hrf φ (strict := false) hc hi).1

/-- **C20**, strict form. -/
theorem C20_min_gt_sound (hM : M.WF) (hrf : RF.make ρ M il tl fl false = .ok rf) (φ : K →+*o ℝ)
    {t : K} {z : List K} (hc : check rf .min .gt t z 0 = .ok true) {i : Nat} (hi : i ∈ M.labelled il) :
    φ t < M.prMin φ (M.labelled tl) i := (min_ge hM hrf φ (strict := true) hc hi).2 rfl

private theorem max_le (hM : M.WF) (hrf : RF.make ρ M il tl fl false = .ok rf) (φ : K →+*o ℝ)
    {strict : Bool} {t : K} {v : List K} (hc : check rf .max (if strict then .lt else .le) t v 0 = .ok true)
    {i : Nat} (hi : i ∈ M.labelled il) :
    M.prMax φ (M.labelled tl) i ≤ φ t ∧ (strict = true → M.prMax φ (M.labelled tl) i < φ t) := by
  obtain ⟨-, hin, -, hrow, h1, h2⟩ := check_max_le.1 hc
  have h := rfok_built hM hrf
  rw [initial_eq hM hrf hi]
  have hz := (RFOK.zrow_ge_iff h φ _ _).1 hrow
  rw [map_zero] at hz
  have := Core.Vmax_le_of_cert (h.sub φ) (RFOK.live' φ (rflive_built hM hrf)) (z := RFOK.vec φ fun j => v.getD j 0) (fun s r hr => by
    have := hz s r hr; linarith) ⟨rf.initial, hin⟩
  have e := prMax_core hM hrf φ ⟨rf.initial, hin⟩
  simp only at e
  rw [e]
  rw [add_zero] at h1 h2
  exact ⟨le_trans this (OrderHomClass.mono φ h1), fun hs => lt_of_le_of_lt this (phi_strict φ (h2 hs))⟩

/-- **C21.** An accepted certificate for `Pr_max <= t` is right. -/
theorem C21_max_le_sound (hM : M.WF) (hrf : RF.make ρ M il tl fl false = .ok rf) (φ : K →+*o ℝ)
    {t : K} {z : List K} (hc : check rf .max .le t z 0 = .ok true) {i : Nat} (hi : i ∈ M.labelled il) :
    M.prMax φ (M.labelled tl) i ≤ φ t := (max_le hM hrf φ (strict := false) hc hi).1

/-- **C21**, strict form. -/
theorem C21_max_lt_sound (hM : M.WF) (hrf : RF.make ρ M il tl fl false = .ok rf) (φ : K →+*o ℝ)
    {t : K} {z : List K} (hc : check rf .max .lt t z 0 = .ok true) {i : Nat} (hi : i ∈ M.labelled il) :
    M.prMax φ (M.labelled tl) i < φ t := (max_le hM hrf φ (strict := true) hc hi).2 rfl

theorem vecY_nonneg (φ : K →+*o ℝ) {v : List K} (hv : ∀ x ∈ v, 0 ≤ x) (s : Fin rf.N) (r : Fin rf.C) :
    0 ≤ RFOK.vecY φ (fun j => v.getD j 0) s r := by
  rw [RFOK.vecY, phi_nonneg]
  by_cases hr : r.1 < v.length
  · rw [List.getD_eq_getElem _ _ hr]; exact hv _ (List.getElem_mem hr)
  · rw [List.getD_eq_default _ _ (by omega)]

private theorem max_ge (hM : M.WF) (hrf : RF.make ρ M il tl fl false = .ok rf) (φ : K →+*o ℝ)
    {strict : Bool} {t : K} {v : List K} (hv : ∀ x ∈ v, 0 ≤ x)
    (hc : check rf .max (if strict then .gt else .ge) t v 0 = .ok true)
    {i : Nat} (hi : i ∈ M.labelled il) :
    φ t ≤ M.prMax φ (M.labelled tl) i ∧ (strict = true → φ t < M.prMax φ (M.labelled tl) i) := by
  obtain ⟨-, hin, -, hrow, h1, h2⟩ := check_max_ge.1 hc
  have h := rfok_built hM hrf
  rw [initial_eq hM hrf hi]
  have hz := (RFOK.yrow_le_iff h φ hin _ _).1 hrow
  simp only [map_zero, add_zero] at hz
  have := Core.gain_le_Vmax (h.sub φ).toOK (h.sub φ).bound (fun s r _ => vecY_nonneg φ hv s r) hz
  rw [← RFOK.ygain_eq] at this
  have e := prMax_core hM hrf φ ⟨rf.initial, hin⟩
  simp only at e
  rw [e]
  rw [sub_zero] at h1 h2
  exact ⟨le_trans (OrderHomClass.mono φ h1) this, fun hs => lt_of_lt_of_le (phi_strict φ (h2 hs)) this⟩

/-- **C22 (partial: for non-negative vectors).** An accepted *non-negative* certificate for `Pr_max >= t`
is right.  The check itself does not test non-negativity, see `C22_false`. -/
theorem C22_max_ge_sound_partial (hM : M.WF) (hrf : RF.make ρ M il tl fl false = .ok rf) (φ : K →+*o ℝ)
    {t : K} {y : List K} (hy : ∀ x ∈ y, 0 ≤ x) (hc : check rf .max .ge t y 0 = .ok true)
    {i : Nat} (hi : i ∈ M.labelled il) :
    φ t ≤ M.prMax φ (M.labelled tl) i := (max_ge hM hrf φ (strict := false) hy hc hi).1

theorem C22_max_gt_sound_partial (hM : M.WF) (hrf : RF.make ρ M il tl fl false = .ok rf) (φ : K →+*o ℝ)
    {t : K} {y : List K} (hy : ∀ x ∈ y, 0 ≤ x) (hc : check rf .max .gt t y 0 = .ok true)
    {i : Nat} (hi : i ∈ M.labelled il) :
    φ t < M.prMax φ (M.labelled tl) i := (max_ge hM hrf φ (strict := true) hy hc hi).2 rfl

private theorem min_le (hM : M.WF) (hrf : RF.make ρ M il tl fl false = .ok rf) (φ : K →+*o ℝ)
    {strict : Bool} {t : K} {v : List K} (hv : ∀ x ∈ v, 0 ≤ x)
    (hc : check rf .min (if strict then .lt else .le) t v 0 = .ok true)
    {i : Nat} (hi : i ∈ M.labelled il) :
    M.prMin φ (M.labelled tl) i ≤ φ t ∧ (strict = true → M.prMin φ (M.labelled tl) i < φ t) := by
  have h := rfok_built hM hrf
  obtain ⟨-, hin, -, -, hrow, h1, h2⟩ := (check_min_le fun i hi => h.isSome_rowState hi).1 hc
  rw [initial_eq hM hrf hi]
  have hz := (RFOK.yrow_ge_iff h φ hin _ _).1 hrow
  simp only [map_zero, add_zero] at hz
  have := Core.Vmin_le_gain (h.sub φ).toOK (h.sub φ).bound (fun s r _ => vecY_nonneg φ hv s r) hz
  rw [← RFOK.ygain_eq] at this
  have e := prMin_core hM hrf φ ⟨rf.initial, hin⟩
  simp only at e
  rw [e]
  rw [add_zero] at h1 h2
  exact ⟨le_trans this (OrderHomClass.mono φ h1), fun hs => lt_of_le_of_lt this (phi_strict φ (h2 hs))⟩

/-- **C23 (partial: for non-negative vectors).** -/
theorem C23_min_le_sound_partial (hM : M.WF) (hrf : RF.make ρ M il tl fl false = .ok rf) (φ : K →+*o ℝ)
    {t : K} {y : List K} (hy : ∀ x ∈ y, 0 ≤ x) (hc : check rf .min .le t y 0 = .ok true)
    {i : Nat} (hi : i ∈ M.labelled il) :
    M.prMin φ (M.labelled tl) i ≤ φ t := (min_le hM hrf φ (strict := false) hy hc hi).1

theorem C23_min_lt_sound_partial (hM : M.WF) (hrf : RF.make ρ M il tl fl false = .ok rf) (φ : K →+*o ℝ)
    {t : K} {y : List K} (hy : ∀ x ∈ y, 0 ≤ x) (hc : check rf .min .lt t y 0 = .ok true)
    {i : Nat} (hi : i ∈ M.labelled il) :
    M.prMin φ (M.labelled tl) i < φ t := (min_le hM hrf φ (strict := true) hy hc hi).2 rfl

/-! ### the tolerance -/

/-- **C26 (z-form).** If no positive probability of the system is below `ε`, everything accepted with tolerance `tol`
holds up to an error of at most `tol * (1 + N / ε ^ N)`, where `N` is the number of states. -/
theorem C26_tolerance_z_partial (hM : M.WF) (hrf : RF.make ρ M il tl fl false = .ok rf) (φ : K →+*o ℝ) {ε : K} (hε : 0 < ε)
    (hmin : ∀ i < M.C, ∀ j < M.N, 0 < M.P.get i j → ε ≤ M.P.get i j) {tol t : K} {z : List K} (htol : 0 ≤ tol)
    {i : Nat} (hi : i ∈ M.labelled il) :
      (check rf .min .ge t z tol = .ok true → φ t ≤ M.prMin φ (M.labelled tl) i + φ (tol * (1 + M.N / ε ^ M.N))) ∧
      (check rf .min .gt t z tol = .ok true → φ t < M.prMin φ (M.labelled tl) i + φ (tol * (1 + M.N / ε ^ M.N))) ∧
      (check rf .max .le t z tol = .ok true → M.prMax φ (M.labelled tl) i ≤ φ t + φ (tol * (1 + M.N / ε ^ M.N))) ∧
      (check rf .max .lt t z tol = .ok true → M.prMax φ (M.labelled tl) i < φ t + φ (tol * (1 + M.N / ε ^ M.N))) := by
  have h := rfok_built hM hrf
  obtain rfl := (make_fields hrf).1
  have hN := h.hN
  have hC := h.hC
  have hε' : 0 < φ ε := by simpa using phi_strict φ hε
  have hε1 : φ ε ≤ 1 := by
    have := hmin (rf.sys.C - 2) (by omega) (rf.sys.N - 2) (by omega) (by rw [h.goalP]; exact one_pos)
    rw [h.goalP] at this
    simpa using OrderHomClass.mono φ this
  have hQ : ∀ s, ∀ r ∈ (h.core φ).rows s, ∀ u, 0 < (h.core φ).Q s r u → φ ε ≤ (h.core φ).Q s r u := by
    intro s r _ u hq
    have hq : 0 < φ (rf.P r.1 u.1) := hq
    have hq' : 0 < rf.P r.1 u.1 := (phi_strict φ).lt_iff_lt.1 (by rwa [map_zero])
    exact OrderHomClass.mono φ (hmin _ (RFOK.lt_C r.2) _ (by have := u.2; unfold RF.N at this; omega) hq')
  have hd : ∀ s, ∀ r ∈ (h.core φ).rows s, ∑ u, (h.core φ).Q s r u = 1 ∨ ∑ u, (h.core φ).Q s r u ≤ 1 - φ ε := by
    intro s r _
    have e := RFOK.row_sum h φ (RFOK.lt_C r.2)
    have g0 : 0 ≤ rf.b r.1 := RFOK.b_nonneg h _
    have f0 := WF.get_nonneg h.wf r.1 (rf.sys.N - 1)
    have g0' := (phi_nonneg φ).2 g0
    have f0' := (phi_nonneg φ).2 f0
    show ∑ u : Fin rf.N, φ (rf.P r.1 u.1) = 1 ∨ ∑ u : Fin rf.N, φ (rf.P r.1 u.1) ≤ 1 - φ ε
    rcases g0.eq_or_lt with hg | hg
    · rcases f0.eq_or_lt with hf | hf
      · left
        rw [← hg, ← hf, map_zero] at e
        linarith
      · right
        have := OrderHomClass.mono φ (hmin _ (RFOK.lt_C r.2) _ (by omega) hf)
        linarith
    · right
      have := OrderHomClass.mono φ (hmin r.1 (RFOK.lt_C r.2) (rf.sys.N - 2) (by omega) hg)
      have e' : φ (rf.b r.1) = φ (rf.sys.P.get r.1 (rf.sys.N - 2)) := rfl
      linarith
  have hcard : Fintype.card (Fin rf.N) < rf.sys.N := by rw [Fintype.card_fin]; unfold RF.N; omega
  obtain ⟨w1, hw1, hn1, h1⟩ := Core.exists_tol_min (h.sub φ) hε' hε1 hQ hd hcard
  obtain ⟨w2, hw2, hn2, h2⟩ := Core.exists_tol_max (h.sub φ) hε' hε1 hQ hd hcard (RFOK.live' φ (rflive_built hM hrf))
  by_cases hin : rf.initial < rf.N
  swap
  · refine ⟨fun hc => ?_, fun hc => ?_, fun hc => ?_, fun hc => ?_⟩
    · exact absurd (check_min_ge (strict := false).1 hc).2.1 hin
    · exact absurd (check_min_ge (strict := true).1 hc).2.1 hin
    · exact absurd (check_max_le (strict := false).1 hc).2.1 hin
    · exact absurd (check_max_le (strict := true).1 hc).2.1 hin
  have e1 := prMin_core hM hrf φ ⟨rf.initial, hin⟩
  have e2 := prMax_core hM hrf φ ⟨rf.initial, hin⟩
  simp only at e1 e2
  have htol' : 0 ≤ φ tol := (phi_nonneg φ).2 htol
  rw [initial_eq hM hrf hi, e1, e2]
  have eW : φ (tol * (1 + rf.sys.N / ε ^ rf.sys.N)) = φ tol + φ tol * (rf.sys.N / φ ε ^ rf.sys.N) := by
    rw [map_mul, map_add, map_one, map_div₀, map_pow, map_natCast, mul_add, mul_one]
  rw [eW]
  set a := (rf.sys.N / φ ε ^ rf.sys.N : ℝ) with ha
  have m1 := mul_le_mul_of_nonneg_left (hn1 ⟨rf.initial, hin⟩) htol'
  have m2 := mul_le_mul_of_nonneg_left (hn2 ⟨rf.initial, hin⟩) htol'
  have kmin : ∀ strict : Bool, check rf .min (if strict then .gt else .ge) t z tol = .ok true →
      φ (z.getD rf.initial 0) ≤ (h.core φ).Vmin ⟨rf.initial, hin⟩ + φ tol * a := by
    intro strict hc
    obtain ⟨-, -, -, hec, hrow, -, -⟩ := check_min_ge.1 hc
    refine le_trans (h1 _ _ htol' ((RFOK.zrow_le_iff h φ _ _).1 hrow) (fun s hs => by
      have := hec s.1 s.2 ((h.inEC_iff φ s).1 hs)
      rw [RFOK.vec, this, map_zero]) ⟨rf.initial, hin⟩) (by linarith)
  have kmax : ∀ strict : Bool, check rf .max (if strict then .lt else .le) t z tol = .ok true →
      (h.core φ).Vmax ⟨rf.initial, hin⟩ ≤ φ (z.getD rf.initial 0) + φ tol * a := by
    intro strict hc
    obtain ⟨-, -, -, hrow, -, -⟩ := check_max_le.1 hc
    exact le_trans (h2 _ _ htol' ((RFOK.zrow_ge_iff h φ _ _).1 hrow) ⟨rf.initial, hin⟩)
      (add_le_add (le_refl (φ (z.getD rf.initial 0))) m2)
  refine ⟨fun hc => ?_, fun hc => ?_, fun hc => ?_, fun hc => ?_⟩
  · have k := kmin false hc
    have l := OrderHomClass.mono φ (check_min_ge (strict := false).1 hc).2.2.2.2.2.1
    rw [map_sub] at l
    nlinarith
  · have k := kmin true hc
    have l := phi_strict φ ((check_min_ge (strict := true).1 hc).2.2.2.2.2.2 rfl)
    rw [map_sub] at l
    nlinarith
  · have k := kmax false hc
    have l := OrderHomClass.mono φ (check_max_le (strict := false).1 hc).2.2.2.2.1
    rw [map_add] at l
    nlinarith
  · have k := kmax true hc
    have l := phi_strict φ ((check_max_le (strict := true).1 hc).2.2.2.2.2 rfl)
    rw [map_add] at l
    nlinarith

/-- **C26 (y-form).** For non-negative vectors the error is at most `tol` times the number of states. -/
theorem C26_tolerance_y_partial (hM : M.WF) (hrf : RF.make ρ M il tl fl false = .ok rf) (φ : K →+*o ℝ)
    {tol t : K} {y : List K} (htol : 0 ≤ tol) (hy : ∀ x ∈ y, 0 ≤ x) {i : Nat} (hi : i ∈ M.labelled il) :
      (check rf .max .ge t y tol = .ok true → φ t ≤ M.prMax φ (M.labelled tl) i + φ tol * M.N) ∧
      (check rf .max .gt t y tol = .ok true → φ t < M.prMax φ (M.labelled tl) i + φ tol * M.N) ∧
      (check rf .min .le t y tol = .ok true → M.prMin φ (M.labelled tl) i ≤ φ t + φ tol * M.N) ∧
      (check rf .min .lt t y tol = .ok true → M.prMin φ (M.labelled tl) i < φ t + φ tol * M.N) := by
  have h := rfok_built hM hrf
  have htol' : 0 ≤ φ tol := (phi_nonneg φ).2 htol
  have hN : (M.N : ℝ) = rf.N + 2 := by
    have := h.hN
    rw [← (make_fields hrf).1]
    have e : rf.sys.N = rf.N + 2 := by unfold RF.N; omega
    rw [e]; push_cast; ring
  have kmax : ∀ strict : Bool, check rf .max (if strict then .gt else .ge) t y tol = .ok true →
      φ (ygain rf fun i => y.getD i 0) ≤ M.prMax φ (M.labelled tl) i + φ tol * rf.N := by
    intro strict hc
    obtain ⟨-, hin, -, hrow, -, -⟩ := check_max_ge.1 hc
    have := Core.gain_le_tol (h.sub φ) (fun s r _ => vecY_nonneg φ hy s r) htol' ((RFOK.yrow_le_iff h φ hin _ _).1 hrow)
    rw [← RFOK.ygain_eq, Fintype.card_fin] at this
    rw [initial_eq hM hrf hi]
    have e2 := prMax_core hM hrf φ ⟨rf.initial, hin⟩
    simp only at e2
    rw [e2]; exact this
  have kmin : ∀ strict : Bool, check rf .min (if strict then .lt else .le) t y tol = .ok true →
      M.prMin φ (M.labelled tl) i ≤ φ (ygain rf fun i => y.getD i 0) + φ tol * rf.N := by
    intro strict hc
    obtain ⟨-, hin, -, -, hrow, -, -⟩ := (check_min_le fun i hi => h.isSome_rowState hi).1 hc
    have := Core.Vmin_le_tol (h.sub φ) (fun s r _ => vecY_nonneg φ hy s r) htol' ((RFOK.yrow_ge_iff h φ hin _ _).1 hrow)
    rw [← RFOK.ygain_eq, Fintype.card_fin] at this
    rw [initial_eq hM hrf hi]
    have e2 := prMin_core hM hrf φ ⟨rf.initial, hin⟩
    simp only at e2
    rw [e2]; exact this
  rw [hN]
  refine ⟨fun hc => ?_, fun hc => ?_, fun hc => ?_, fun hc => ?_⟩
  · have k := kmax false hc
    have l := OrderHomClass.mono φ (check_max_ge (strict := false).1 hc).2.2.2.2.1
    rw [map_sub] at l
    nlinarith
  · have k := kmax true hc
    have l := phi_strict φ ((check_max_ge (strict := true).1 hc).2.2.2.2.2 rfl)
    rw [map_sub] at l
    nlinarith
  · have k := kmin false hc
    have l := OrderHomClass.mono φ ((check_min_le (strict := false) fun i hi => h.isSome_rowState hi).1 hc).2.2.2.2.2.1
    rw [map_add] at l
    nlinarith
  · have k := kmin true hc
    have l := phi_strict φ (((check_min_le (strict := true) fun i hi => h.isSome_rowState hi).1 hc).2.2.2.2.2.2 rfl)
    rw [map_add] at l
    nlinarith

end Verif.Props
