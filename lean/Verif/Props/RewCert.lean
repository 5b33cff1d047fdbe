import Verif.Proofs.RewCert
import Verif.Props.RewardProblem
/-!
# C69: Farkas certificates for expected rewards; C31: `max_y_state` of a reward form
-/
set_option linter.unusedSectionVars false

namespace Verif.Props
open Verif.Model Verif.Spec Verif.Proofs Verif.Theory Finset Verif.Proofs.IDict

section
variable {K : Type} [Field K] [LinearOrder K] [IsStrictOrderedRing K]
variable {M : Sys K} {ρ ρ' : Graph.Rnd} {il tl : String} {res : RRF.Result K}

/-- the initial state of a reward form is the image of the initial state -/
theorem rew_init_col (hM : RewardInput M) (h : RRF.reduce ρ ρ' M il tl = .ok res) {i : Nat}
    (hi : M.statesByLabel il = .ok [i]) : res.cols.get? i = some res.rrf.rf.initial := by
  have bt := rew_built hM h
  obtain ⟨T, j, mask, v, v', hR, hrf, -⟩ := rrf_reduce hM.wf hM.total hM.labS.inv hM.labA.inv hM.rew' h
  have hj : j = i := by
    have := hR.hi
    rw [hi] at this
    cases this; rfl
  subst hj
  have hil : Has M.labS.d il j := (has_of_statesByLabel hR.hi j).1 (by simp)
  have := (has_of_statesByLabel bt.initL res.rrf.rf.initial).1 (by simp)
  rcases (hR.red.labS _ _).1 this with ⟨s, h3, h4⟩ | h3 | h3
  · have : s = j := by simpa using (has_of_statesByLabel hR.hi s).2 h4
    subst this
    exact Dict.get?_of_mem hR.red.maps.nd h3
  · exact absurd (h3.1 ▸ hil) (hR.newT _)
  · exact absurd (h3.1 ▸ hil) (hR.newF _)

/-- the values of the form in terms of the given system -/
theorem rew_orig (hM : RewardInput M) (h : RRF.reduce ρ ρ' M il tl = .ok res) (φ : K →+*o ℝ) {i : Nat}
    (hi : M.statesByLabel il = .ok [i]) :
    M.rewInMin φ (M.labelled tl) i = ((rew_built hM h).ok.core φ).Vmin ⟨_, (rew_built hM h).init⟩ ∧
    M.rewInMax φ (M.labelled tl) i = ((rew_built hM h).ok.core φ).Vmax ⟨_, (rew_built hM h).init⟩ := by
  obtain ⟨e1, e2⟩ := C51_inclusive hM h φ (rew_init_col hM h hi)
  have e3 := (rew_built hM h).rewMin_eq φ ⟨_, (rew_built hM h).init⟩
  have e4 := (rew_built hM h).rewMax_eq φ ⟨_, (rew_built hM h).init⟩
  exact ⟨e2.symm.trans e3, e1.symm.trans e4⟩

/-- **C69.** If `check_farkas_certificate` on a reward form accepts a vector for `min` and `>=` (`>`), then the minimal
expected reward of the given system is at least (more than) the threshold.  As in C51 the reward of the action taken
in the first target state is counted. -/
theorem C69_min_ge_sound (hM : RewardInput M) (h : RRF.reduce ρ ρ' M il tl = .ok res) (φ : K →+*o ℝ) {i : Nat}
    (hi : M.statesByLabel il = .ok [i]) {t : K} {z : List K} :
    (res.rrf.check .min .ge t z 0 = .ok true → φ t ≤ M.rewInMin φ (M.labelled tl) i) ∧
    (res.rrf.check .min .gt t z 0 = .ok true → φ t < M.rewInMin φ (M.labelled tl) i) := by
  have b := rew_built hM h
  rw [(rew_orig hM h φ hi).1]
  obtain ⟨B, hB⟩ := b.ok.exists_bound φ
  have key : ∀ strict : Bool, res.rrf.check .min (if strict then .gt else .ge) t z 0 = .ok true →
      φ t ≤ (b.ok.core φ).Vmin ⟨_, b.init⟩ ∧ (strict = true → φ t < (b.ok.core φ).Vmin ⟨_, b.init⟩) := by
    intro strict hc
    obtain ⟨-, hin, -, hrow, h1, h2⟩ := rcheck_min_ge.1 hc
    simp only [sub_zero] at hrow h1 h2
    have := Core.le_Vmin_of_transient (b.ok.qsub φ) (b.ok.transient φ) hB ((b.ok.zrow_le_iff φ _).1 hrow) ⟨_, b.init⟩
    exact ⟨le_trans (OrderHomClass.mono φ h1) this, fun hs => lt_of_lt_of_le (phi_strict φ (h2 hs)) this⟩
  exact ⟨fun hc => (key false hc).1, fun hc => (key true hc).2 rfl⟩

/-- **C69.** Likewise for `max` and `<=` (`<`). -/
theorem C69_max_le_sound (hM : RewardInput M) (h : RRF.reduce ρ ρ' M il tl = .ok res) (φ : K →+*o ℝ) {i : Nat}
    (hi : M.statesByLabel il = .ok [i]) {t : K} {z : List K} :
    (res.rrf.check .max .le t z 0 = .ok true → M.rewInMax φ (M.labelled tl) i ≤ φ t) ∧
    (res.rrf.check .max .lt t z 0 = .ok true → M.rewInMax φ (M.labelled tl) i < φ t) := by
  have b := rew_built hM h
  rw [(rew_orig hM h φ hi).2]
  obtain ⟨B, hB⟩ := b.ok.exists_bound φ
  have key : ∀ strict : Bool, res.rrf.check .max (if strict then .lt else .le) t z 0 = .ok true →
      (b.ok.core φ).Vmax ⟨_, b.init⟩ ≤ φ t ∧ (strict = true → (b.ok.core φ).Vmax ⟨_, b.init⟩ < φ t) := by
    intro strict hc
    obtain ⟨-, hin, -, hrow, h1, h2⟩ := rcheck_max_le.1 hc
    simp only [add_zero] at hrow h1 h2
    have := Core.Vmax_le_of_transient (b.ok.qsub φ) (b.ok.transient φ) hB ((b.ok.zrow_ge_iff φ _).1 hrow) ⟨_, b.init⟩
    exact ⟨le_trans this (OrderHomClass.mono φ h1), fun hs => lt_of_le_of_lt this (phi_strict φ (h2 hs))⟩
  exact ⟨fun hc => (key false hc).1, fun hc => (key true hc).2 rfl⟩

/-- **C69 (partial: for non-negative vectors).** Likewise for `max` and `>=` (`>`); as for probabilities, the check
does not test the signs. -/
theorem C69_max_ge_sound_partial (hM : RewardInput M) (h : RRF.reduce ρ ρ' M il tl = .ok res) (φ : K →+*o ℝ) {i : Nat}
    (hi : M.statesByLabel il = .ok [i]) {t : K} {y : List K} (hy : ∀ x ∈ y, 0 ≤ x) :
    (res.rrf.check .max .ge t y 0 = .ok true → φ t ≤ M.rewInMax φ (M.labelled tl) i) ∧
    (res.rrf.check .max .gt t y 0 = .ok true → φ t < M.rewInMax φ (M.labelled tl) i) := by
  have b := rew_built hM h
  rw [(rew_orig hM h φ hi).2]
  obtain ⟨B, hB⟩ := b.ok.exists_bound φ
  have key : ∀ strict : Bool, res.rrf.check .max (if strict then .gt else .ge) t y 0 = .ok true →
      φ t ≤ (b.ok.core φ).Vmax ⟨_, b.init⟩ ∧ (strict = true → φ t < (b.ok.core φ).Vmax ⟨_, b.init⟩) := by
    intro strict hc
    obtain ⟨-, hin, -, hrow, h1, h2⟩ := (rcheck_max_ge b.ok.len).1 hc
    have hz := (RFOK.yrow_le_iff b.ok.ok φ b.init _ _).1 hrow
    simp only [map_zero, add_zero] at hz
    simp only [sub_zero] at h1 h2
    have := Core.gain_le_Vmax (M := b.ok.core φ) (b.ok.qsub φ).toOK hB (fun s r _ => vecY_nonneg φ hy s r) hz
    rw [← b.ok.rgain_eq] at this
    exact ⟨le_trans (OrderHomClass.mono φ h1) this, fun hs => lt_of_lt_of_le (phi_strict φ (h2 hs)) this⟩
  exact ⟨fun hc => (key false hc).1, fun hc => (key true hc).2 rfl⟩

/-- **C69 (partial: what is raised).** A threshold above one is rejected with `AssertionError`, whatever the vector;
and for `min` with `<=` or `<` the call raises `AttributeError` for every vector of the right length. -/
theorem C69_raises_partial (hM : RewardInput M) (h : RRF.reduce ρ ρ' M il tl = .ok res) (t tol : K) (v : List K) :
    (1 < t → ∀ mode sense, res.rrf.check mode sense t v tol = .error .assertion ∧
      ∀ solver, RRF.generate solver res.rrf mode sense t tol = .error .assertion) ∧
    (0 ≤ t → t ≤ 1 → ∀ strict : Bool, (v.length = res.rrf.rf.sys.C - 2 →
      res.rrf.check .min (if strict then .lt else .le) t v tol = .error .attributeError) ∧
      ∀ solver, RRF.generate solver res.rrf .min (if strict then .lt else .le) t tol = .error .attributeError) := by
  have b := rew_built hM h
  constructor
  · intro ht mode sense
    have hn : ¬ (0 ≤ t ∧ t ≤ 1) := fun hh => not_lt.2 hh.2 ht
    refine ⟨by unfold RRF.check; rw [if_neg hn], fun solver => ?_⟩
    simp only [RRF.generate, RRF.generateLP, if_neg hn, bind, Except.bind]
  · intro h0 h1 strict
    obtain ⟨m, rhs, hy⟩ := rfarkY_some t b.init b.ok.len
    obtain ⟨-, -, e2, -⟩ := rfarkY_rows hy
    have hset : res.rrf.constraintSet .min (if strict then .lt else .le) t = .ok (m, rhs) := by
      rw [← hy]; cases strict <;> rfl
    have hC : 0 < m.cols := by
      obtain ⟨a, r, -, hr⟩ := b.ok.ok.exists_row b.init
      rw [e2]
      exact lt_of_le_of_lt (Nat.zero_le _) hr
    have hec : RRF.ecLoop .min (if strict then Sense.lt else .le) m.cols = .error .attributeError := by
      unfold RRF.ecLoop
      rw [if_pos ⟨rfl, by cases strict <;> rfl, hC⟩]
    refine ⟨fun hl => ?_, fun solver => ?_⟩
    · unfold RRF.check
      rw [if_pos ⟨h0, h1⟩]
      simp only [hset, bind, Except.bind, hec]
      rw [if_pos (by rw [hl, e2]; rfl)]
    · simp only [RRF.generate, RRF.generateLP, if_pos (And.intro h0 h1), bind, Except.bind, hset, hec]

open Classical in
/-- **C31 (partial), reward forms.** For every solver answer `y`, `max_y_state()[s]` of a reward form is the sum of `y`
over the actions of `s` -- except at the initial state, where it is that sum plus one. -/
theorem C31_reward_max_y_state_partial (hM : RewardInput M) (h : RRF.reduce ρ ρ' M il tl = .ok res) (y : Nat → K)
    (s : Nat) :
    ∃ i, res.rrf.rf.sys.statesByLabel il = .ok [i] ∧
      res.rrf.maxYState y s = (if s = i then 1 else 0) +
        ∑ k ∈ (range (res.rrf.rf.sys.C - 2)).filter (fun k => ∃ a, ((s, a), k) ∈ res.rrf.rf.sys.idx), y k := by
  have b := rew_built hM h
  refine ⟨_, b.initL, ?_⟩
  have h := b.ok.ok
  have hrow : ∀ k < res.rrf.rf.C, (invGet? res.rrf.idx k).map Prod.fst = res.rrf.rf.rowState k := fun k hk => by
    unfold RF.rowState
    rw [b.ok.idx k hk, h.inv k hk]
  unfold RRF.maxYState
  have key : ∀ n ≤ res.rrf.rf.C, ∀ s, (List.range n).foldl (fun v i =>
      match (invGet? res.rrf.idx i).map Prod.fst with
      | some s => Function.update v s (v s + y i)
      | none => v) res.rrf.rf.delta s =
      res.rrf.rf.delta s + ∑ k ∈ (range n).filter (fun k => ∃ a, ((s, a), k) ∈ res.rrf.rf.sys.idx), y k := by
    intro n
    induction n with
    | zero => intro _ s; simp
    | succ n ih =>
      intro hn s
      have ih := ih (by omega)
      rw [List.range_succ, List.foldl_append]
      simp only [List.foldl_cons, List.foldl_nil]
      obtain ⟨u, -, eu⟩ := h.exists_rowState (show n < res.rrf.rf.C by omega)
      rw [hrow n (by omega), eu]
      simp only
      rw [Finset.range_add_one, Finset.filter_insert]
      by_cases hsu : s = u
      · subst hsu
        rw [if_pos ((h.rowState_iff (by omega)).1 eu), Function.update_self, ih,
          Finset.sum_insert (by simp)]
        ring
      · rw [if_neg, Function.update_of_ne hsu, ih]
        intro hc
        have := (h.rowState_iff (show n < res.rrf.rf.C by omega)).2 hc
        rw [eu] at this
        exact hsu (Option.some.inj this).symm
  exact key res.rrf.rf.C le_rfl s
/-- **C69 (partial: thresholds up to one, and not for `min <=`).** If the bound on the expected reward holds, there is
a vector that is accepted. -/
theorem C69_complete_partial (hM : RewardInput M) (h : RRF.reduce ρ ρ' M il tl = .ok res) (φ : K →+*o ℝ) {i : Nat}
    (hi : M.statesByLabel il = .ok [i]) {t : K} (h0 : 0 ≤ t) (h1 : t ≤ 1) :
    (φ t ≤ M.rewInMin φ (M.labelled tl) i → ∃ z, (∀ x ∈ z, 0 ≤ x) ∧ res.rrf.check .min .ge t z 0 = .ok true) ∧
    (φ t < M.rewInMin φ (M.labelled tl) i → ∃ z, (∀ x ∈ z, 0 ≤ x) ∧ res.rrf.check .min .gt t z 0 = .ok true) ∧
    (M.rewInMax φ (M.labelled tl) i ≤ φ t → ∃ z, (∀ x ∈ z, 0 ≤ x) ∧ res.rrf.check .max .le t z 0 = .ok true) ∧
    (M.rewInMax φ (M.labelled tl) i < φ t → ∃ z, (∀ x ∈ z, 0 ≤ x) ∧ res.rrf.check .max .lt t z 0 = .ok true) ∧
    (φ t ≤ M.rewInMax φ (M.labelled tl) i → ∃ y, (∀ x ∈ y, 0 ≤ x) ∧ res.rrf.check .max .ge t y 0 = .ok true) ∧
    (φ t < M.rewInMax φ (M.labelled tl) i → ∃ y, (∀ x ∈ y, 0 ≤ x) ∧ res.rrf.check .max .gt t y 0 = .ok true) := by
  have b := rew_built hM h
  rw [(rew_orig hM h φ hi).1, (rew_orig hM h φ hi).2]
  obtain ⟨B, hB⟩ := b.ok.exists_bound φ
  have hq := b.ok.qsub φ
  have kmin : ∀ strict : Bool, φ t ≤ (b.ok.core φ).Vmin ⟨_, b.init⟩ → (strict = true → φ t < (b.ok.core φ).Vmin ⟨_, b.init⟩) →
      ∃ z, (∀ x ∈ z, 0 ≤ x) ∧ res.rrf.check .min (if strict then .gt else .ge) t z 0 = .ok true := by
    intro strict ht hst
    obtain ⟨z, hl, hz, hz0⟩ := exists_rewMin b.ok φ
    refine ⟨z, hz0, rcheck_min_ge.2 ⟨⟨h0, h1⟩, b.init, hl, ?_, ?_, fun hs => ?_⟩⟩
    · simp only [sub_zero]
      refine (b.ok.zrow_le_iff φ _).2 fun s r hr => ?_
      rw [show RFOK.vec φ (fun j => z.getD j 0) = (b.ok.core φ).Vmin from funext hz]
      exact Core.Vmin_le_step hq.toOK hB hr
    · rw [sub_zero, ← (phi_strict φ).le_iff_le, hz ⟨_, b.init⟩]; exact ht
    · rw [sub_zero, ← (phi_strict φ).lt_iff_lt, hz ⟨_, b.init⟩]; exact hst hs
  have kmax : ∀ strict : Bool, (b.ok.core φ).Vmax ⟨_, b.init⟩ ≤ φ t → (strict = true → (b.ok.core φ).Vmax ⟨_, b.init⟩ < φ t) →
      ∃ z, (∀ x ∈ z, 0 ≤ x) ∧ res.rrf.check .max (if strict then .lt else .le) t z 0 = .ok true := by
    intro strict ht hst
    obtain ⟨z, hl, hz, hz0⟩ := exists_rewMax b.ok φ
    refine ⟨z, hz0, rcheck_max_le.2 ⟨⟨h0, h1⟩, b.init, hl, ?_, ?_, fun hs => ?_⟩⟩
    · simp only [add_zero]
      refine (b.ok.zrow_ge_iff φ _).2 fun s r hr => ?_
      rw [show RFOK.vec φ (fun j => z.getD j 0) = (b.ok.core φ).Vmax from funext hz]
      exact Core.step_Vmax_le hq.toOK hB hr
    · rw [add_zero, ← (phi_strict φ).le_iff_le, hz ⟨_, b.init⟩]; exact ht
    · rw [add_zero, ← (phi_strict φ).lt_iff_lt, hz ⟨_, b.init⟩]; exact hst hs
  have ky : ∀ strict : Bool, φ t ≤ (b.ok.core φ).Vmax ⟨_, b.init⟩ → (strict = true → φ t < (b.ok.core φ).Vmax ⟨_, b.init⟩) →
      ∃ y, (∀ x ∈ y, 0 ≤ x) ∧ res.rrf.check .max (if strict then .gt else .ge) t y 0 = .ok true := by
    intro strict ht hst
    obtain ⟨v, hl, hv0, hb, hgv⟩ := exists_rflow b.ok φ ⟨_, b.init⟩
    refine ⟨v, hv0, (rcheck_max_ge b.ok.len).2 ⟨⟨h0, h1⟩, b.init, hl, ?_, ?_, fun hs => ?_⟩⟩
    · refine (RFOK.yrow_le_iff b.ok.ok φ b.init _ _).2 fun s => ?_
      rw [map_zero, add_zero]
      exact hb s
    · rw [sub_zero, ← (phi_strict φ).le_iff_le, hgv]; exact ht
    · rw [sub_zero, ← (phi_strict φ).lt_iff_lt, hgv]; exact hst hs
  exact ⟨fun ht => kmin false ht (by simp), fun ht => kmin true ht.le fun _ => ht,
    fun ht => kmax false ht (by simp), fun ht => kmax true ht.le fun _ => ht,
    fun ht => ky false ht (by simp), fun ht => ky true ht.le fun _ => ht⟩
end

section

/-- **C69 is false** for thresholds above one: there is a system whose minimal expected reward is at least two, but
every call of `check_farkas_certificate` for the threshold two raises, and so does `generate_farkas_certificate`. -/
theorem C69_threshold_false : ∃ (M : Sys ℚ) (res : RRF.Result ℚ), RewardInput M ∧
    RRF.reduce exRnd exRnd M "start" "goal" = .ok res ∧ M.statesByLabel "start" = .ok [0] ∧
    2 ≤ M.rewInMin ratR (M.labelled "goal") 0 ∧
    (∀ z tol, res.rrf.check .min .ge 2 z tol = .error .assertion) ∧
    ∀ solver tol, RRF.generate solver res.rrf .min .ge 2 tol = .error .assertion := by
  have h2 : (0 : ℚ) ≤ 2 := by norm_num
  have hM := rwSys_input h2
  obtain ⟨res, h⟩ := rwSys_ok h2 exRnd exRnd
  obtain ⟨i, hi1, hi2, -⟩ := rwSys_init h2 h
  have hcol := rew_init_col hM h (rwSys_start 2)
  have e := (C51_inclusive hM h ratR hcol).2
  refine ⟨rwSys 2, res, hM, h, rwSys_start 2, ?_, fun z tol => ?_, fun solver tol => ?_⟩
  · have hinit := (rew_built hM h).initL
    rw [hi1] at hinit
    cases hinit
    rw [← e]
    refine le_trans hi2 (le_of_eq ?_)
    unfold Inside Sys.rewOpt; simp
  · exact ((C69_raises_partial hM h 2 tol z).1 (by norm_num) _ _).1
  · exact ((C69_raises_partial hM h 2 tol []).1 (by norm_num) _ _).2 _

/-- without rewards the expected rewards are zero -/
theorem rewInMin_zero {K : Type} [Field K] [LinearOrder K] [IsStrictOrderedRing K] {M : Sys K} {φ : K →+*o ℝ} (hr : ∀ i, M.rewardAt φ i = 0)
    (T : Set Nat) (s : Nat) : M.rewInMin φ T s = 0 := by
  unfold Sys.rewInMin
  split
  swap
  · rfl
  have key : ∀ σ n h s, (M.toMDP φ).rewInN (fun r => M.rewardAt φ r.1) (M.stateSet T) σ n h s = 0 := by
    intro σ n
    induction n with
    | zero => intro h s; rfl
    | succ n ih =>
      intro h s
      unfold MDP.rewInN
      refine sum_eq_zero fun r _ => ?_
      rw [hr]
      split
      · simp
      · simp only [ih, mul_zero, sum_const_zero, add_zero]
  unfold MDP.RewInMin MDP.rewIn
  simp only [key, ciSup_const, Real.iInf_const_zero]

/-- the example system without rewards -/
noncomputable def rzSys : Sys ℚ := { rwSys 0 with rew := some [0, 0, 0, 0] }

theorem rzSys_input : RewardInput rzSys where
  wf := have w := rwSys_wf 0; ⟨w.nodup, w.range, w.pos, w.sum, w.keys, w.vals, w.graph⟩
  total := (rwSys_input le_rfl).total
  labS := (rwSys_input le_rfl).labS
  labA := (rwSys_input le_rfl).labA
  rew r hr := by
    have hr : some [0, 0, 0, 0] = some r := hr
    cases hr
    refine ⟨rfl, fun x hx => ?_⟩
    simp only [List.mem_cons, List.not_mem_nil, or_false, or_self] at hx
    exact hx.ge

theorem rzSys_ok (ρ ρ' : Graph.Rnd) : ∃ res, RRF.reduce ρ ρ' rzSys "start" "goal" = .ok res := by
  have w := rwSys_wf 0
  refine (C51_returns_iff rzSys_input (rwSys_start 0) ⟨2, (rwSys_goal 0 2).2 rfl, ?_⟩ ?_ ?_ ?_ (Or.inl rfl) rfl rfl
    (fun g => by cases g) ratR).2 (rwSys_one le_rfl)
  · refine Relation.ReflTransGen.single ⟨0, 0, by simp [rzSys, rwSys, mkSys, rwI], (by decide : (0 : Nat) < 4), ?_⟩
    exact (WF.get_pos_iff w).2 ⟨1/2, by simp [rwSys, mkSys, rwP]⟩
  · intro t ht
    have ht := (rwSys_goal 0 t).1 ht
    subst ht
    exact (by decide : (2 : Nat) < 3)
  · show "rf_target" ∉ ((IDict.mk' [("start", [0]), ("goal", [2])] true : IDict String Nat).d.keys)
    decide +kernel
  · show "rf_fail" ∉ ((IDict.mk' [("start", [0]), ("goal", [2])] true : IDict String Nat).d.keys)
    decide +kernel

/-- **C69 is false** for `min <=`: there is a system whose minimal expected reward is at most one, but no vector is
accepted and nothing is generated: the calls raise. -/
theorem C69_min_le_false : ∃ (M : Sys ℚ) (res : RRF.Result ℚ), RewardInput M ∧
    RRF.reduce exRnd exRnd M "start" "goal" = .ok res ∧ M.statesByLabel "start" = .ok [0] ∧
    M.rewInMin ratR (M.labelled "goal") 0 ≤ 1 ∧
    (∀ z tol, res.rrf.check .min .le 1 z tol = .error (if z.length = res.rrf.rf.sys.C - 2 then .attributeError else .assertion)) ∧
    ∀ solver tol, RRF.generate solver res.rrf .min .le 1 tol = .error .attributeError := by
  obtain ⟨res, h⟩ := rzSys_ok exRnd exRnd
  have b := rew_built rzSys_input h
  refine ⟨rzSys, res, rzSys_input, h, rwSys_start 0, ?_, fun z tol => ?_, fun solver tol => ?_⟩
  · rw [rewInMin_zero]
    · norm_num
    · intro i
      show ratR (([0, 0, 0, 0] : List ℚ).getD i 0) = 0
      rcases i with _ | _ | _ | _ | i <;> exact map_zero ratR
  · by_cases hl : z.length = res.rrf.rf.sys.C - 2
    · rw [if_pos hl]
      exact (((C69_raises_partial rzSys_input h 1 tol z).2 zero_le_one le_rfl) false).1 hl
    · rw [if_neg hl]
      obtain ⟨m, rhs, hy⟩ := rfarkY_some 1 b.init b.ok.len
      obtain ⟨-, -, e2, -⟩ := rfarkY_rows hy
      have hset : res.rrf.constraintSet .min .le 1 = .ok (m, rhs) := hy
      unfold RRF.check
      rw [if_pos ⟨zero_le_one, le_rfl⟩]
      simp only [hset, bind, Except.bind]
      rw [if_neg (by rw [e2]; exact hl)]
  · exact (((C69_raises_partial rzSys_input h 1 tol []).2 zero_le_one le_rfl) false).2 _

/-- the hypotheses of the soundness and completeness theorems are met: here one is certified as a lower bound -/
example : ∃ (res : RRF.Result ℚ) (z : List ℚ), RewardInput (rwSys 1) ∧ RRF.reduce exRnd exRnd (rwSys 1) "start" "goal" = .ok res ∧
    (rwSys 1).statesByLabel "start" = .ok [0] ∧ (∀ x ∈ z, 0 ≤ x) ∧ res.rrf.check .min .ge 1 z 0 = .ok true := by
  have hM := rwSys_input (c := 1) zero_le_one
  obtain ⟨res, h⟩ := rwSys_ok (c := 1) zero_le_one exRnd exRnd
  obtain ⟨i, hi1, hi2, -⟩ := rwSys_init zero_le_one h
  have e := (C51_inclusive hM h ratR (rew_init_col hM h (rwSys_start 1))).2
  have hinit := (rew_built hM h).initL
  rw [hi1] at hinit
  cases hinit
  obtain ⟨z, hz0, hz⟩ := (C69_complete_partial hM h ratR (rwSys_start 1) zero_le_one le_rfl).1 (by
    rw [← e]
    refine le_trans hi2 (le_of_eq ?_)
    unfold Inside Sys.rewOpt; simp)
  exact ⟨res, z, hM, h, rwSys_start 1, hz0, hz⟩
end
end Verif.Props
