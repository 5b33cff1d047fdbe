import Verif.Theory.Payoff
import Verif.Props.LP
import Verif.Props.Memoryless
import Verif.Props.RewOriginal
/-!
# C115: the probabilities and expected rewards are those of the runs of the model

`Spec/MDP`, `Spec/Within` and `Spec/Rew` define the probabilities and expected rewards by recursion over the number of steps.
Here they are the probabilities of sets of infinite runs, and the expectations of functions of infinite runs, in the
usual sense: with respect to the measure that gives the runs with a finite beginning the product of the probabilities along it.
-/
set_option linter.unusedSectionVars false

namespace Verif.Props
open Verif.Model Verif.Spec Verif.Proofs Verif.Theory MeasureTheory

/-- the probabilities of the set `E` of runs from `s`, under all schedulers -/
def RunProbs {K : Type} [Field K] [LinearOrder K] (φ : K →+*o ℝ) (M : Sys K) (s : Nat) (E : Set (ℕ → Fin M.N × Fin M.C)) : Set ℝ :=
  {p | ∃ (h : s < M.N) (σ : Sched (Fin M.N) (Fin M.C)) (μ : Measure (ℕ → Fin M.N × Fin M.C)),
    (M.toMDP φ).IsSched σ ∧ (M.toMDP φ).IsRuns σ ⟨s, h⟩ μ ∧ p = μ.real E}

/-- the expectations of a function of runs from `s`, under all schedulers -/
def RunMeans {K : Type} [Field K] [LinearOrder K] (φ : K →+*o ℝ) (M : Sys K) (s : Nat) (f : (ℕ → Fin M.N × Fin M.C) → ENNReal) : Set ENNReal :=
  {e | ∃ (h : s < M.N) (σ : Sched (Fin M.N) (Fin M.C)) (μ : Measure (ℕ → Fin M.N × Fin M.C)),
    (M.toMDP φ).IsSched σ ∧ (M.toMDP φ).IsRuns σ ⟨s, h⟩ μ ∧ e = ∫⁻ ω, f ω ∂μ}

variable {K : Type} [Field K] [LinearOrder K] [IsStrictOrderedRing K]
variable {ρ ρ' : Graph.Rnd} {M : Sys K} {il tl fl ntl nfl : String} {rf : RF K} {mode : Mode} {t : K}
  {lpSolver solver : Milp K → Answer K} {labels : Option (List String)} {be : Backend}

/-- **C115.** From every state and under every scheduler there is exactly one measure of the runs of a model, and it is a
probability measure. -/
theorem C115_exists_unique (hM : M.WF) (ht : M.Total) (φ : K →+*o ℝ) {σ : Sched (Fin M.N) (Fin M.C)} (hσ : (M.toMDP φ).IsSched σ)
    (s : Fin M.N) : ∃ μ : Measure (ℕ → Fin M.N × Fin M.C), (M.toMDP φ).IsRuns σ s μ ∧ IsProbabilityMeasure μ ∧
      ∀ ν, (M.toMDP φ).IsRuns σ s ν → ν = μ := by
  obtain ⟨μ, hμ⟩ := exists_isRuns (WF.valid hM φ ht) hσ s
  exact ⟨μ, hμ, hμ.prob, fun ν hν => hν.unique hμ⟩

/-- The probability of reaching `T` in the sense of the specification is the probability of the runs that visit `T`. -/
theorem C115_reach (hM : M.WF) (ht : M.Total) (φ : K →+*o ℝ) {σ : Sched (Fin M.N) (Fin M.C)} (hσ : (M.toMDP φ).IsSched σ)
    {s : Fin M.N} {μ : Measure (ℕ → Fin M.N × Fin M.C)} (hμ : (M.toMDP φ).IsRuns σ s μ) (T : Finset (Fin M.N)) :
    μ.real (runsTo T) = (M.toMDP φ).reach T σ s := real_runsTo (WF.valid hM φ ht) hσ hμ T

private theorem sched_nonempty (hM : M.WF) (ht : M.Total) (φ : K →+*o ℝ) {s : Nat} (hs : s < M.N) :
    Nonempty {σ : Sched (Fin M.N) (Fin M.C) // (M.toMDP φ).IsSched σ} := by
  have : Nonempty (Fin M.N) := ⟨⟨s, hs⟩⟩
  choose f hf using (WF.valid hM φ ht).rows_nonempty
  exact ⟨⟨_, detSched_valid hf⟩⟩

/-- **C115.** The minimal (maximal) probability of the specification is the least (greatest) probability that the runs from
`s` visit `T`, over all schedulers, and one memoryless deterministic scheduler has it from all states. -/
theorem C115_extremal (hM : M.WF) (ht : M.Total) (φ : K →+*o ℝ) (T : Set Nat) {s : Nat} (hs : s < M.N) :
    IsLeast (RunProbs φ M s (runsTo (M.stateSet T))) (M.prMin φ T s) ∧
    IsGreatest (RunProbs φ M s (runsTo (M.stateSet T))) (M.prMax φ T s) := by
  have hv := WF.valid hM φ ht
  have : Nonempty (Fin M.N) := ⟨⟨s, hs⟩⟩
  have e1 : M.prMin φ T s = (M.toMDP φ).PrMin (M.stateSet T) ⟨s, hs⟩ := by
    unfold Sys.prMin Sys.stateSet; rw [dif_pos hs]
  have e2 : M.prMax φ T s = (M.toMDP φ).PrMax (M.stateSet T) ⟨s, hs⟩ := by
    unfold Sys.prMax Sys.stateSet; rw [dif_pos hs]
  obtain ⟨f, hf, hf'⟩ := C60_memoryless_min hv (M.stateSet T)
  obtain ⟨g, hg, hg'⟩ := C60_memoryless_max hv (M.stateSet T)
  obtain ⟨μ, hμ⟩ := exists_isRuns hv (detSched_valid hf) ⟨s, hs⟩
  obtain ⟨ν, hν⟩ := exists_isRuns hv (detSched_valid hg) ⟨s, hs⟩
  rw [e1, e2]
  refine ⟨⟨⟨hs, _, μ, detSched_valid hf, hμ, ?_⟩, ?_⟩, ⟨⟨hs, _, ν, detSched_valid hg, hν, ?_⟩, ?_⟩⟩
  · rw [real_runsTo hv (detSched_valid hf) hμ, hf']
  · rintro _ ⟨_, σ, μ, hσ, hμ, rfl⟩
    rw [real_runsTo hv hσ hμ]
    exact (C60_between hv _ hσ _).1
  · rw [real_runsTo hv (detSched_valid hg) hν, hg']
  · rintro _ ⟨_, σ, μ, hσ, hμ, rfl⟩
    rw [real_runsTo hv hσ hμ]
    exact (C60_between hv _ hσ _).2

/-- **C115.** The same for reaching `T` through the states of `A` only. -/
theorem C115_within (hM : M.WF) (ht : M.Total) (φ : K →+*o ℝ) (A T : Set Nat) {s : Nat} (hs : s < M.N) :
    IsLeast (RunProbs φ M s (runsWithin (M.stateSet A) (M.stateSet T))) (M.prWithin φ .min A T s) ∧
    IsGreatest (RunProbs φ M s (runsWithin (M.stateSet A) (M.stateSet T))) (M.prWithin φ .max A T s) := by
  classical
  have hv := WF.valid hM φ ht
  have : Nonempty (Fin M.N) := ⟨⟨s, hs⟩⟩
  have e1 : M.prWithin φ .min A T s = (M.toMDP φ).WithinMin (M.stateSet A) (M.stateSet T) ⟨s, hs⟩ := by
    unfold Sys.prWithin Sys.stateSet; rw [dif_pos hs]
  have e2 : M.prWithin φ .max A T s = (M.toMDP φ).WithinMax (M.stateSet A) (M.stateSet T) ⟨s, hs⟩ := by
    unfold Sys.prWithin Sys.stateSet; rw [dif_pos hs]
  have hsub := Core.cut_sub (U := (M.stateSet A : Set (Fin M.N))) (Bridge.sub hv (M.stateSet T))
  obtain ⟨f, hf, hf'⟩ := Core.exists_det_tot_eq_Vmin hsub.toOK hsub.bound
  obtain ⟨g, hg, hg'⟩ := Core.exists_det_tot_eq_Vmax hsub
  have sf : (M.toMDP φ).IsSched (detSched f) := detSched_valid hf
  have sg : (M.toMDP φ).IsSched (detSched g) := detSched_valid hg
  obtain ⟨μ, hμ⟩ := exists_isRuns hv sf ⟨s, hs⟩
  obtain ⟨ν, hν⟩ := exists_isRuns hv sg ⟨s, hs⟩
  rw [e1, e2, Within.min_eq hv, Within.max_eq hv]
  refine ⟨⟨⟨hs, _, μ, sf, hμ, ?_⟩, ?_⟩, ⟨⟨hs, _, ν, sg, hν, ?_⟩, ?_⟩⟩
  · rw [real_runsWithin hv sf hμ, Within.reach_eq hv _ _ sf, hf']
  · rintro _ ⟨_, σ, μ, hσ, hμ, rfl⟩
    rw [real_runsWithin hv hσ hμ, Within.reach_eq hv _ _ hσ]
    exact Core.Vmin_le_tot hsub.toOK hsub.bound ⟨hσ.nonneg, hσ.sum_one⟩ _
  · rw [real_runsWithin hv sg hν, Within.reach_eq hv _ _ sg, hg']
  · rintro _ ⟨_, σ, μ, hσ, hμ, rfl⟩
    rw [real_runsWithin hv hσ hμ, Within.reach_eq hv _ _ hσ]
    exact Core.tot_le_Vmax hsub.toOK hsub.bound ⟨hσ.nonneg, hσ.sum_one⟩ _

/-! ### what the library computes -/

/-- **C115.** An accepted certificate for `Pr_min >= t` (`Pr_max <= t`) bounds the probability that the runs from the initial
state visit a target state, under every scheduler; an accepted non-negative certificate for `Pr_max >= t` (`Pr_min <= t`) means
that this probability is at least (at most) `t` under some scheduler. -/
theorem C115_certificate (hM : M.WF) (hrf : RF.make ρ M il tl fl false = .ok rf) (φ : K →+*o ℝ) {v : List K}
    {i : Nat} (hi : i ∈ M.labelled il) (hN : i < M.N) :
    (check rf .min .ge t v 0 = .ok true → ∀ p ∈ RunProbs φ M i (runsTo (M.stateSet (M.labelled tl))), φ t ≤ p) ∧
    (check rf .max .le t v 0 = .ok true → ∀ p ∈ RunProbs φ M i (runsTo (M.stateSet (M.labelled tl))), p ≤ φ t) ∧
    ((∀ x ∈ v, 0 ≤ x) → check rf .max .ge t v 0 = .ok true →
      ∃ p ∈ RunProbs φ M i (runsTo (M.stateSet (M.labelled tl))), φ t ≤ p) ∧
    ((∀ x ∈ v, 0 ≤ x) → check rf .min .le t v 0 = .ok true →
      ∃ p ∈ RunProbs φ M i (runsTo (M.stateSet (M.labelled tl))), p ≤ φ t) := by
  have ht : M.Total := (make_fields hrf).1 ▸ (rfok_built hM hrf).total
  obtain ⟨h1, h2⟩ := C115_extremal hM ht φ (M.labelled tl) hN
  exact ⟨fun hc p hp => (C20_min_ge_sound hM hrf φ hc hi).trans (h1.2 hp),
    fun hc p hp => (h2.2 hp).trans (C21_max_le_sound hM hrf φ hc hi),
    fun hv hc => ⟨_, h2.1, C22_max_ge_sound_partial hM hrf φ hv hc hi⟩,
    fun hv hc => ⟨_, h1.1, C23_min_le_sound_partial hM hrf φ hv hc hi⟩⟩

/-- **C115.** `pr_min` (`pr_max`) returns the least (greatest) probability, over all schedulers, that the runs from a state
visit a target state. -/
theorem C115_pr (hM : M.WF) (hrf : RF.make ρ M il tl fl false = .ok rf) (φ : K →+*o ℝ) {i : Nat}
    (hi : i ∈ M.labelled il) (hit : i ∉ M.labelled tl) :
    (∃ lp, rf.maxZLP = .ok lp ∧ (∃ x, lp.Optimal x) ∧ ∀ x, lp.Optimal x → ∀ s < M.N - 2,
      IsLeast (RunProbs φ M s (runsTo (M.stateSet (M.labelled tl)))) (φ (x s))) ∧
    (∃ lp, rf.prMaxLP = .ok lp ∧ (∃ x, lp.Optimal x) ∧ ∀ x, lp.Optimal x → ∀ s < M.N - 2,
      IsGreatest (RunProbs φ M s (runsTo (M.stateSet (M.labelled tl)))) (φ (x s))) := by
  have ht : M.Total := (make_fields hrf).1 ▸ (rfok_built hM hrf).total
  obtain ⟨lp, h1, h2, h3⟩ := C28_pr_min hM hrf φ hi hit
  obtain ⟨lp', g1, g2, g3⟩ := C29_pr_max hM hrf φ hi hit
  refine ⟨⟨lp, h1, h2, fun x hx s hs => ?_⟩, ⟨lp', g1, g2, fun x hx s hs => ?_⟩⟩
  · rw [h3 x hx s hs]; exact (C115_extremal hM ht φ _ (by omega)).1
  · rw [g3 x hx s hs]; exact (C115_extremal hM ht φ _ (by omega)).2

/-- the probabilities of all schedulers (`min`), or of some scheduler (`max`), are at least `b` -/
def Guaranteed (mode : Mode) (P : Set ℝ) (b : ℝ) : Prop :=
  (mode = .min → ∀ p ∈ P, b ≤ p) ∧ (mode = .max → ∃ p ∈ P, b ≤ p)

theorem guaranteed_within (hM : M.WF) (ht : M.Total) (φ : K →+*o ℝ) (A T : Set Nat) {s : Nat} (hs : s < M.N) (b : ℝ) :
    Guaranteed mode (RunProbs φ M s (runsWithin (M.stateSet A) (M.stateSet T))) b ↔ b ≤ M.prWithin φ mode A T s := by
  obtain ⟨h1, h2⟩ := C115_within hM ht φ A T hs
  cases mode with
  | min => exact ⟨fun h => h.1 rfl _ h1.1, fun h => ⟨fun _ p hp => h.trans (h1.2 hp), fun e => by cases e⟩⟩
  | max =>
    refine ⟨fun h => (h.2 rfl).elim fun p hp => hp.2.trans (h2.2 hp.1), fun h => ⟨fun e => ?_, fun _ => ⟨_, h2.1, h⟩⟩⟩
    cases e

/-- **C115.** A certificate accepted for the reduced model selects states of the original model such that the runs from the
initial state visit a target state, without leaving the selected states before, with probability at least `t`. -/
theorem C115_subsystem {res : Reduce.Result K} (hM : Input M) (hne : ntl ≠ nfl) (h : M.reduce ρ il tl ntl nfl = .ok res)
    (φ : K →+*o ℝ) {v : List K} {i : Nat} (hi : i ∈ M.labelled il) (hN : i < M.N) (hv : mode = .max → ∀ x ∈ v, 0 ≤ x)
    (hc : check res.rf mode .ge t v 0 = .ok true) :
    Guaranteed mode (RunProbs φ M i (runsWithin (M.stateSet (Origin res (Selected res.rf.sys mode v))) (M.stateSet (M.labelled tl))))
      (φ t) :=
  (guaranteed_within hM.wf hM.total φ _ _ hN _).2 ((C86_certificate hM hne h φ hi hv).1 hc)

/-- **C115.** A success of `MILPExact` on the reduced model gives a smallest set of states (a set with the fewest labels) of the
original model such that the runs from the initial state visit a target state, without leaving the set before, with probability
at least `t`; "infeasible" means that there is no such set. -/
theorem C115_exact {res : Reduce.Result K} {r : ProblemResult (Subsystem K) K} (hM : Input M) (hne : ntl ≠ nfl)
    (h : M.reduce ρ il tl ntl nfl = .ok res) (φ : K →+*o ℝ)
    (hlp : ∀ lp, (lpSolver lp).Sound lp) (hs : ∀ m, (solver m).Sound m) {i : Nat} (hi : i ∈ M.labelled il) (hN : i < M.N)
    (hr : r ∈ (solveIter res.rf.form t (milpExact res.rf.form lpSolver solver t mode labels be)).1) :
    (r.status = .success → ∃ (cert : List K) (k : Nat) (A : Finset Nat), r.cert = some cert ∧ r.value = some (k : K) ∧
      (∀ s, s ∈ A ↔ ∃ s', res.cols.get? s = some s' ∧ Selected res.rf.sys mode cert s') ∧ size M labels A = k ∧
      Guaranteed mode (RunProbs φ M i (runsWithin (M.stateSet A) (M.stateSet (M.labelled tl)))) (φ t) ∧
      ∀ A' : Finset Nat, Guaranteed mode (RunProbs φ M i (runsWithin (M.stateSet A') (M.stateSet (M.labelled tl)))) (φ t) →
        k ≤ size M labels A') ∧
    (r.status = .failed .infeasible → ∀ A : Set Nat,
      ¬ Guaranteed mode (RunProbs φ M i (runsWithin (M.stateSet A) (M.stateSet (M.labelled tl)))) (φ t)) := by
  simp only [guaranteed_within hM.wf hM.total φ _ _ hN, not_le]
  exact C86_exact hM hne h φ hlp hs hi hr

/-! ### expected rewards -/

private theorem isLUB_ofReal {ι : Type} [Nonempty ι] {f : ι → ℝ} {b : ℝ} (hb : ∀ i, f i ≤ b) :
    IsLUB (Set.range fun i => ENNReal.ofReal (f i)) (ENNReal.ofReal (⨆ i, f i)) := by
  have hB : BddAbove (Set.range f) := ⟨b, by rintro _ ⟨i, rfl⟩; exact hb i⟩
  have := Monotone.map_ciSup_of_continuousAt (f := ENNReal.ofReal) (g := f) ENNReal.continuous_ofReal.continuousAt
    (fun a b h => ENNReal.ofReal_le_ofReal h) hB
  rw [this]
  exact isLUB_iSup

private theorem isGLB_ofReal {ι : Type} [Nonempty ι] {f : ι → ℝ} (hb : ∀ i, 0 ≤ f i) :
    IsGLB (Set.range fun i => ENNReal.ofReal (f i)) (ENNReal.ofReal (⨅ i, f i)) := by
  have hB : BddBelow (Set.range f) := ⟨0, by rintro _ ⟨i, rfl⟩; exact hb i⟩
  have := Monotone.map_ciInf_of_continuousAt (f := ENNReal.ofReal) (g := f) ENNReal.continuous_ofReal.continuousAt
    (fun a b h => ENNReal.ofReal_le_ofReal h) hB
  rw [this]
  exact isGLB_iInf

/-- **C115.** For every state kept by the reduction of a reward model and every set `A` of states, the minimal (maximal) expected
reward of the specification is the infimum (supremum), over all schedulers, of the expectation of the reward that a run of the
original model collects while it stays in `A`, up to and including the action in its first target state. -/
theorem C115_reward {res : RRF.Result K} (hM : RewardInput M) (h : RRF.reduce ρ ρ' M il tl = .ok res) (φ : K →+*o ℝ) (A : Set Nat)
    {s s' : Nat} (hs : res.cols.get? s = some s') (hN : s < M.N) :
    IsGLB (RunMeans φ M s (collectedWithin (fun r => M.rewardAt φ r.1) (M.stateSet A) (M.stateSet (M.labelled tl))))
      (ENNReal.ofReal (M.rewWithin φ .min A (M.labelled tl) s)) ∧
    IsLUB (RunMeans φ M s (collectedWithin (fun r => M.rewardAt φ r.1) (M.stateSet A) (M.stateSet (M.labelled tl))))
      (ENNReal.ofReal (M.rewWithin φ .max A (M.labelled tl) s)) := by
  have hv := WF.valid hM.wf φ hM.total
  have h0 : ∀ t, ∀ r ∈ (M.toMDP φ).rows t, 0 ≤ M.rewardAt φ r.1 :=
    fun _ r _ => rewardAt_nonneg φ (fun r e => (hM.rew r e).2) _
  have := sched_nonempty hM.wf hM.total φ hN
  have hfin := fun (σ : {σ // (M.toMDP φ).IsSched σ}) n => C106_finite hM h φ A hs hN σ.2 n
  have hset : RunMeans φ M s (collectedWithin (fun r => M.rewardAt φ r.1) (M.stateSet A) (M.stateSet (M.labelled tl)))
      = Set.range fun σ : {σ // (M.toMDP φ).IsSched σ} =>
        ENNReal.ofReal ((M.toMDP φ).rewWithin (fun r => M.rewardAt φ r.1) (M.stateSet A) (M.stateSet (M.labelled tl)) σ.1 ⟨s, hN⟩) := by
    ext e
    constructor
    · rintro ⟨_, σ, μ, hσ, hμ, rfl⟩
      exact ⟨⟨σ, hσ⟩, (lintegral_collectedWithin hv hσ hμ h0 _ _ (hfin ⟨σ, hσ⟩)).symm⟩
    · rintro ⟨⟨σ, hσ⟩, rfl⟩
      obtain ⟨μ, hμ⟩ := exists_isRuns hv hσ ⟨s, hN⟩
      exact ⟨hN, σ, μ, hσ, hμ, (lintegral_collectedWithin hv hσ hμ h0 _ _ (hfin ⟨σ, hσ⟩)).symm⟩
  have e1 : M.rewWithin φ .min A (M.labelled tl) s
      = (M.toMDP φ).RewWithinMin (fun r => M.rewardAt φ r.1) (M.stateSet A) (M.stateSet (M.labelled tl)) ⟨s, hN⟩ := by
    unfold Sys.rewWithin; rw [dif_pos hN]
  have e2 : M.rewWithin φ .max A (M.labelled tl) s
      = (M.toMDP φ).RewWithinMax (fun r => M.rewardAt φ r.1) (M.stateSet A) (M.stateSet (M.labelled tl)) ⟨s, hN⟩ := by
    unfold Sys.rewWithin; rw [dif_pos hN]
  rw [hset, e1, e2]
  refine ⟨isGLB_ofReal fun σ => ?_, isLUB_ofReal (b := M.rewWithin φ .max A (M.labelled tl) s) fun σ => ciSup_le (hfin σ)⟩
  exact le_ciSup_of_le ⟨_, by rintro _ ⟨n, rfl⟩; exact hfin σ n⟩ 0 le_rfl

/-- **C115.** `rew_min` (`rew_max`) of a reduced reward model returns the infimum (supremum), over all schedulers, of the expectation
of the reward that a run from a state collects before it visits the target. -/
theorem C115_rew {res : RRF.Result K} (hM : RewardInput M) (h : RRF.reduce ρ ρ' M il tl = .ok res) (φ : K →+*o ℝ) :
    (∃ lp, res.rrf.maxZLP = .ok lp ∧ (∃ x, lp.Optimal x) ∧ ∀ x, lp.Optimal x → ∀ s < res.rrf.rf.sys.N - 2,
      IsGLB (RunMeans φ res.rrf.rf.sys s (collected (fun r => res.rrf.rf.sys.rewardAt φ r.1)
        (res.rrf.rf.sys.stateSet (res.rrf.rf.sys.labelled "rf_target")))) (ENNReal.ofReal (φ (x s)))) ∧
    (∃ lp, res.rrf.rewMaxLP = .ok lp ∧ (∃ x, lp.Optimal x) ∧ ∀ x, lp.Optimal x → ∀ s < res.rrf.rf.sys.N - 2,
      IsLUB (RunMeans φ res.rrf.rf.sys s (collected (fun r => res.rrf.rf.sys.rewardAt φ r.1)
        (res.rrf.rf.sys.stateSet (res.rrf.rf.sys.labelled "rf_target")))) (ENNReal.ofReal (φ (x s)))) := by
  obtain ⟨lp, h1, h2, h3⟩ := C50_rew_min hM h φ
  obtain ⟨lp', g1, g2, g3⟩ := C50_rew_max hM h φ
  obtain ⟨hI, -⟩ := C13_reduce_again hM.toInput (by decide) (rew_reduce hM h)
  obtain ⟨v, w1, w2, w3⟩ := (rew_built hM h).rew
  have hfin := C50_finite hM h φ
  simp only at hI
  generalize res.rrf.rf.sys = M' at *
  have hv := WF.valid hI.wf φ hI.total
  have h0 : ∀ t, ∀ r ∈ (M'.toMDP φ).rows t, 0 ≤ M'.rewardAt φ r.1 :=
    fun _ r _ => rewardAt_nonneg φ (fun r e => by rw [w1] at e; cases e; exact w3) _
  have hset : ∀ s (hs : s < M'.N - 2), RunMeans φ M' s (collected (fun r => M'.rewardAt φ r.1) (M'.stateSet (M'.labelled "rf_target")))
      = Set.range fun σ : {σ // (M'.toMDP φ).IsSched σ} =>
        ENNReal.ofReal ((M'.toMDP φ).rew (fun r => M'.rewardAt φ r.1) (M'.stateSet (M'.labelled "rf_target")) σ.1 ⟨s, by omega⟩) := by
    intro s hs
    ext e
    constructor
    · rintro ⟨hN, σ, μ, hσ, hμ, rfl⟩
      exact ⟨⟨σ, hσ⟩, (lintegral_collected hv hσ hμ h0 _ ((hfin s hs).1 hN σ hσ)).symm⟩
    · rintro ⟨⟨σ, hσ⟩, rfl⟩
      have hN : s < M'.N := by omega
      obtain ⟨μ, hμ⟩ := exists_isRuns hv hσ ⟨s, hN⟩
      exact ⟨hN, σ, μ, hσ, hμ, (lintegral_collected hv hσ hμ h0 _ ((hfin s hs).1 hN σ hσ)).symm⟩
  refine ⟨⟨lp, h1, h2, fun x hx s hs => ?_⟩, ⟨lp', g1, g2, fun x hx s hs => ?_⟩⟩
  · rw [h3 x hx s hs, hset s hs]
    unfold Sys.rewMin
    rw [dif_pos (by omega)]
    have := sched_nonempty hI.wf hI.total φ (s := s) (by omega)
    refine isGLB_ofReal fun σ => ?_
    exact le_ciSup_of_le ⟨_, by rintro _ ⟨n, rfl⟩; exact (hfin s hs).1 (by omega) σ.1 σ.2 n⟩ 0 le_rfl
  · rw [g3 x hx s hs, hset s hs]
    have hN : s < M'.N := by omega
    have := sched_nonempty hI.wf hI.total φ hN
    have := (hfin s hs).1 hN
    unfold Sys.rewMax at this ⊢
    rw [dif_pos hN] at this ⊢
    exact isLUB_ofReal fun σ => ciSup_le (this σ.1 σ.2)

/-! ### the hypotheses are met -/

/-- the runs of `redSys` from 0: under some scheduler they visit the target 3, staying in selected states, with probability 1/2,
and there is a measure of the runs for every scheduler -/
example (φ : ℚ →+*o ℝ) : ∃ A : Set Nat, ∃ p ∈ RunProbs φ redSys 0 (runsWithin (redSys.stateSet A) (redSys.stateSet (redSys.labelled "goal"))),
    φ (1/2) ≤ p := by
  obtain ⟨res, h, h2⟩ : ∃ res, redSys.reduce exRnd "start" "goal" "target" "fail" = .ok res ∧
      check res.rf .max .ge (1/2) [1, 0, 0, 0, 1/2] 0 = .ok true := by
    obtain ⟨r, h1, h2⟩ := exists_of_ok_and (x := redSys.reduce exRnd "start" "goal" "target" "fail")
      (p := fun res => yes (check res.rf .max .ge (1/2) [1, 0, 0, 0, 1/2] 0)) (by decide +kernel)
    exact ⟨r, h1, yes_iff.1 h2⟩
  exact ⟨_, (C115_subsystem redSys_input (by decide) h φ (i := 0) ⟨[0], by decide +kernel, by decide⟩ (by decide) (mode := .max)
    (t := 1/2) (v := [1, 0, 0, 0, 1/2]) (fun _ => by decide +kernel) h2).2 rfl⟩

/-- the set of probabilities is not empty: there are schedulers and measures -/
example (φ : ℚ →+*o ℝ) (E : Set _) : (RunProbs φ redSys 0 E).Nonempty := by
  obtain ⟨σ, hσ⟩ := sched_nonempty redSys_input.wf redSys_input.total φ (s := 0) (by decide)
  obtain ⟨μ, hμ, -⟩ := C115_exists_unique redSys_input.wf redSys_input.total φ hσ ⟨0, by decide⟩
  exact ⟨_, _, σ, μ, hσ, hμ, rfl⟩

/-- a reward model with a kept state -/
example : ∃ (res : RRF.Result ℚ) (s' : Nat), RRF.reduce exRnd exRnd (rwSys 2) "start" "goal" = .ok res ∧ res.cols.get? 0 = some s' ∧
    IsLUB (RunMeans ratR (rwSys 2) 0 (collectedWithin (fun r => (rwSys 2).rewardAt ratR r.1) ((rwSys 2).stateSet Set.univ)
      ((rwSys 2).stateSet ((rwSys 2).labelled "goal"))))
      (ENNReal.ofReal ((rwSys 2).rewWithin ratR .max Set.univ ((rwSys 2).labelled "goal") 0)) := by
  obtain ⟨res, h⟩ := rwSys_ok (c := 2) zero_le_two exRnd exRnd
  obtain ⟨s', hs⟩ := rwSys_kept zero_le_two h
  exact ⟨res, s', h, hs, (C115_reward (rwSys_input zero_le_two) h ratR _ hs (by decide)).2⟩

end Verif.Props
