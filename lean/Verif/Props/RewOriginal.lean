import Verif.Proofs.RewWithin
import Verif.Props.Original
import Verif.Props.RewardProblem
/-!
# C106: what results computed for a reduced reward model say about the original model

`M` is a model with rewards, `res` the answer of `RewardReachabilityForm.reduce`.  `M.rewWithin φ mode A T i` is the
minimal (maximal) expected reward, in the original model, that a run from `i` collects as long as it stays in `A`, up to
and including the action in its first state of `T`.
-/
set_option linter.unusedSectionVars false

namespace Verif.Props
open Verif.Model Verif.Spec Verif.Proofs Verif.Theory Verif.Proofs.IDict Finset

variable {K : Type} [Field K] [LinearOrder K] [IsStrictOrderedRing K]
variable {ρ ρ' : Graph.Rnd} {M : Sys K} {il tl : String} {res : RRF.Result K} {mode : Mode} {t : K}
  {lpSolver solver : Milp K → Answer K} {labels : Option (List String)} {be : Backend} {r : ProblemResult (RRF.Sub K) K}

/-- the underlying reduction -/
theorem rew_reduce (hM : RewardInput M) (h : RRF.reduce ρ ρ' M il tl = .ok res) :
    M.reduce ρ il tl "rf_target" "rf_fail" = .ok ⟨res.rrf.rf, res.cols, res.rows⟩ := by
  obtain ⟨T, i, mask, v, v', hR, hrf, hr, -⟩ := rrf_reduce hM.wf hM.total hM.labS.inv hM.labA.inv hM.rew' h
  exact hr

/-- **C106.** The extremal expected reward that is collected inside a set of states of the reduced model, before its target,
is the extremal expected reward that is collected inside the corresponding set of states of the original model. -/
theorem C106_inside (hM : RewardInput M) (h : RRF.reduce ρ ρ' M il tl = .ok res) (φ : K →+*o ℝ)
    {A : Set Nat} {U : Nat → Prop} (hU : ∀ d d', res.cols.get? d = some d' → (U d' ↔ d ∈ A))
    {s s' : Nat} (hs : res.cols.get? s = some s') :
    Inside φ res.rrf.rf.sys mode U s' = M.rewWithin φ mode A (M.labelled tl) s := by
  obtain ⟨T, i, mask, hx, hR, b, h0, -, ⟨e, he, hE⟩, -⟩ := c51 hM h φ
  have hm := Dict.mem_of_get? hs
  have hs' : s' < res.rrf.rf.N := by
    have := hR.red.maps.col_lt hm
    have := hR.red.hN
    unfold RF.N; omega
  have hes : (e ⟨s', hs'⟩).1 = s := hR.red.maps.col_inj (he ⟨s', hs'⟩) hm
  obtain ⟨B, hB⟩ := hx.exists_bound φ
  have hq := hx.qsub φ
  obtain ⟨v1, v2⟩ := sys_rewWithin_eq (A := A) (U := {u : Fin res.rrf.rf.N | U u.1}) h0 hE hq.toOK
    (fun u => hU _ _ (Dict.get?_of_mem hR.red.maps.nd (he u))) (Core.restrict_bound hq.toOK hB) ⟨s', hs'⟩
  have e1 := b.inside_min φ U ⟨s', hs'⟩
  have e2 := b.inside_max φ U ⟨s', hs'⟩
  simp only at e1 e2
  rw [← hes]
  cases mode with
  | min => rw [e1, v1]
  | max => rw [e2, v2]

/-- **C106.** From every state that the reduction keeps, and for every set of states of the original model, the expected
rewards of all schedulers and all numbers of steps are bounded by the maximal one: the extremal values are finite. -/
theorem C106_finite (hM : RewardInput M) (h : RRF.reduce ρ ρ' M il tl = .ok res) (φ : K →+*o ℝ) (A : Set Nat)
    {s s' : Nat} (hs : res.cols.get? s = some s') (hN : s < M.N) {σ : Sched (Fin M.N) (Fin M.C)}
    (hσ : (M.toMDP φ).IsSched σ) (n : ℕ) :
    (M.toMDP φ).rewWithinN (fun r => M.rewardAt φ r.1) (M.stateSet A) (M.stateSet (M.labelled tl)) σ n [] ⟨s, hN⟩ ≤
      M.rewWithin φ .max A (M.labelled tl) s := by
  obtain ⟨T, i, mask, hx, hR, b, h0, -, ⟨e, he, hE⟩, -⟩ := c51 hM h φ
  have hm := Dict.mem_of_get? hs
  have hs' : s' < res.rrf.rf.N := by
    have := hR.red.maps.col_lt hm
    have := hR.red.hN
    unfold RF.N; omega
  have hes : (e ⟨s', hs'⟩).1 = s := hR.red.maps.col_inj (he ⟨s', hs'⟩) hm
  obtain ⟨B, hB⟩ := hx.exists_bound φ
  have hq := hx.qsub φ
  obtain ⟨-, v2⟩ := sys_rewWithin_eq (A := A) (U := {u : Fin res.rrf.rf.N | (e u).1 ∈ A}) h0 hE hq.toOK
    (fun u => Iff.rfl) (Core.restrict_bound hq.toOK hB) ⟨s', hs'⟩
  have ok := ofGain_ok (T := M.stateSet (M.labelled tl)) (WF.valid hM.wf φ hM.total) (g := fun _ r => M.rewardAt φ r.1) fun s r _ => h0 r.1
  have h' := hE.restrict ok (U := (M.stateSet A : Set (Fin M.N))) (U' := {u : Fin res.rrf.rf.N | (e u).1 ∈ A}) fun s' => by
    rw [mem_coe, mem_stateSet]; rfl
  have := h'.val_le (Core.restrict_ok ok) (Core.restrict_ok hq.toOK) (Core.restrict_bound hq.toOK hB) (σ := σ) ⟨hσ.nonneg, hσ.sum_one⟩ n ⟨s', hs'⟩
  rw [rewWithin_val] at this
  subst hes
  rw [v2]
  exact this

/-- collecting in all states is collecting; more states, more reward -/
theorem rewWithin_facts (hM : RewardInput M) (h : RRF.reduce ρ ρ' M il tl = .ok res) (φ : K →+*o ℝ)
    {s s' : Nat} (hs : res.cols.get? s = some s') :
    M.rewWithin φ mode Set.univ (M.labelled tl) s = M.rewIn φ mode (M.labelled tl) s ∧
    ∀ A : Set Nat, M.rewWithin φ mode A (M.labelled tl) s ≤ M.rewIn φ mode (M.labelled tl) s := by
  have hr := rew_reduce hM h
  have e1 := C106_inside (mode := mode) hM h φ (A := Set.univ) (U := fun _ => True) (fun _ _ _ => by simp) hs
  have e2 : Inside φ res.rrf.rf.sys mode (fun _ => True) s' = M.rewIn φ mode (M.labelled tl) s := by
    obtain ⟨c1, c2⟩ := C51_inclusive hM h φ hs
    unfold Inside Sys.rewIn Sys.rewOpt
    cases mode with
    | min => simpa using c2
    | max => simpa using c1
  refine ⟨e1.symm.trans e2, fun A => ?_⟩
  rw [← e2, ← C106_inside (mode := mode) hM h φ (image_iff hM.toInput hr A) hs]
  have bt := rew_built hM h
  have hs' : s' < res.rrf.rf.N := ((C16_reduce_maps hM.toInput hr).2.1 s').2 ⟨s, hs⟩
  obtain ⟨B, hB⟩ := bt.ok.exists_bound φ
  have hq := bt.ok.qsub φ
  set U : Nat → Prop := fun d' => ∃ s ∈ A, res.cols.get? s = some d'
  have hsub : {u : Fin res.rrf.rf.N | U u.1} ⊆ {u : Fin res.rrf.rf.N | True} := fun _ _ => trivial
  have i1 := bt.inside_min φ U ⟨s', hs'⟩
  have i2 := bt.inside_max φ U ⟨s', hs'⟩
  have i3 := bt.inside_min φ (fun _ => True) ⟨s', hs'⟩
  have i4 := bt.inside_max φ (fun _ => True) ⟨s', hs'⟩
  simp only at i1 i2 i3 i4
  cases mode with
  | min =>
    refine i1.le.trans (le_trans ?_ i3.ge)
    exact ciSup_le fun n => le_trans (Core.restrict_vmin_le hq.toOK hsub n _)
      (Core.vmin_le_Vmin (Core.restrict_ok hq.toOK) (Core.restrict_bound hq.toOK hB) n _)
  | max =>
    refine i2.le.trans (le_trans ?_ i4.ge)
    exact ciSup_le fun n => le_trans (Core.restrict_vmax_le hq.toOK hsub n _)
      (Core.vmax_le_Vmax (Core.restrict_ok hq.toOK) (Core.restrict_bound hq.toOK hB) n _)

theorem rew_initial (hM : RewardInput M) (h : RRF.reduce ρ ρ' M il tl = .ok res) {i j : Nat} (hi : i ∈ M.labelled il)
    (hj : res.rrf.rf.sys.statesByLabel il = .ok [j]) : res.cols.get? i = some j := by
  have bt := rew_built hM h
  rw [bt.initL] at hj
  cases hj
  exact (reduced_initial hM.toInput (by decide) (rew_reduce hM h) hi).1

/-- **C106.** A success of `MILPExact` on the reduced reward model - in minimal mode or with labels - gives a smallest set of
states (a set with the fewest labels) of the original model inside of which at least `t` is collected; "infeasible"
means that `t` is not collected inside any set of states. -/
theorem C106_exact (hM : RewardInput M) (h : RRF.reduce ρ ρ' M il tl = .ok res) (φ : K →+*o ℝ)
    (hlp : Decides res.rrf t mode lpSolver) (hs : ∀ m, (solver m).Sound m) {i : Nat} (hi : i ∈ M.labelled il)
    (hr : r ∈ (solveIter res.rrf.form t (milpExact res.rrf.form lpSolver solver t mode labels be)).1) :
    (r.status = .success → ∃ (cert : List K) (k : Nat) (A : Finset Nat), r.cert = some cert ∧ r.value = some (k : K) ∧
      (∀ s, s ∈ A ↔ ∃ s', res.cols.get? s = some s' ∧ Selected res.rrf.rf.sys mode cert s') ∧ size M labels A = k ∧
      φ t ≤ M.rewWithin φ mode A (M.labelled tl) i ∧
      ∀ A' : Finset Nat, φ t ≤ M.rewWithin φ mode A' (M.labelled tl) i → k ≤ size M labels A') ∧
    (r.status = .failed .infeasible → ∀ A : Set Nat, M.rewWithin φ mode A (M.labelled tl) i < φ t) := by
  have hred := rew_reduce hM h
  have bt := rew_built hM h
  have hi' := rew_initial hM h hi bt.initL
  obtain ⟨m1, m2⟩ := C61_exact hM h φ hlp hs hr
  refine ⟨fun hst => ?_, fun hst A => ?_⟩
  · obtain ⟨-, cert, k, j, rfl, g1, g2, g3, g4, g5⟩ := m1 hst
    rw [bt.initL] at g3
    cases g3
    have hall : ∀ A' : Finset Nat, φ t ≤ M.rewWithin φ mode A' (M.labelled tl) i → k ≤ size M labels A' := fun A' hA' =>
      le_trans (g5 _ ⟨fun s' => ∃ s ∈ (A' : Set Nat), res.cols.get? s = some s', _, bt.initL, rfl, by
        rw [C106_inside hM h φ (image_iff hM.toInput hred A') hi']; exact hA'⟩) (cost_image_le hM.toInput (by decide) hred labels A')
    have hb := g4
    rw [C106_inside hM h φ (origin_iff ⟨res.rrf.rf, res.cols, res.rows⟩ (Selected res.rrf.rf.sys mode cert)) hi', ← coe_originF hM.toInput hred] at hb
    refine ⟨cert, k, originF M ⟨res.rrf.rf, res.cols, res.rows⟩ (Selected res.rrf.rf.sys mode cert), rfl, rfl, fun s => ?_, ?_, hb, hall⟩
    · rw [← mem_coe, coe_originF hM.toInput hred]; rfl
    · exact le_antisymm (by rw [g2]; exact size_origin_le hM.toInput (by decide) hred labels _) (hall _ hb)
  · by_contra hn
    exact m2 hst _ ⟨fun s' => ∃ s ∈ A, res.cols.get? s = some s', _, bt.initL, rfl, by
      rw [C106_inside hM h φ (image_iff hM.toInput hred A) hi']; exact not_lt.1 hn⟩

/-- **C106.** A success of `QSHeur` on the reduced reward model gives a set of states of the original model inside of which at
least `t` is collected, and whose size is at most the reported value. -/
theorem C106_heuristic {solver : Nat → Milp K → Answer K} {n : Nat} {ini : List (Nat × List Nat) → Except Err (List (Nat × K))}
    {upd : List (Nat × List Nat) → Updater K}
    (hM : RewardInput M) (h : RRF.reduce ρ ρ' M il tl = .ok res) (φ : K →+*o ℝ)
    (hlp : ∀ lp, (lpSolver lp).Sound lp) (hs : ∀ k m, (solver k m).Sound m) {i : Nat} (hi : i ∈ M.labelled il)
    (hl : ∀ ls, labels = some ls → "rf_target" ∉ ls ∧ "rf_fail" ∉ ls)
    (hr : r ∈ (solveIter res.rrf.form t (qsHeur res.rrf.form lpSolver solver n ini upd t mode labels be)).1)
    (hst : r.status = .success) :
    ∃ (cert : List K) (k : Nat) (A : Finset Nat), r.cert = some cert ∧ r.value = some (k : K) ∧
      (∀ s, s ∈ A ↔ ∃ s', res.cols.get? s = some s' ∧ Selected res.rrf.rf.sys mode cert s') ∧ size M labels A ≤ k ∧
      φ t ≤ M.rewWithin φ mode A (M.labelled tl) i := by
  have hred := rew_reduce hM h
  have bt := rew_built hM h
  have hi' := rew_initial hM h hi bt.initL
  obtain ⟨cert, k, j, rfl, g1, g3, g4, g5⟩ := C62_sound hM h φ hlp hs hr hst
  rw [bt.initL] at g3
  cases g3
  have hb := g4
  rw [C106_inside hM h φ (origin_iff ⟨res.rrf.rf, res.cols, res.rows⟩ (Selected res.rrf.rf.sys mode cert)) hi', ← coe_originF hM.toInput hred] at hb
  refine ⟨cert, k, originF M ⟨res.rrf.rf, res.cols, res.rows⟩ (Selected res.rrf.rf.sys mode cert), rfl, rfl, fun s => ?_, ?_, hb⟩
  · rw [← mem_coe, coe_originF hM.toInput hred]; rfl
  · exact le_trans (size_origin_le hM.toInput (by decide) hred labels _) (g5 (labelsOK_reduced hM.toInput (by decide) hred hl))

theorem rewOpt_initial (hM : RewardInput M) (h : RRF.reduce ρ ρ' M il tl = .ok res) (φ : K →+*o ℝ) {i j : Nat} (hi : i ∈ M.labelled il)
    (hj : res.rrf.rf.sys.statesByLabel il = .ok [j]) :
    res.rrf.rf.sys.rewOpt φ mode (res.rrf.rf.sys.labelled "rf_target") j = M.rewIn φ mode (M.labelled tl) i := by
  obtain ⟨c1, c2⟩ := C51_inclusive hM h φ (rew_initial hM h hi hj)
  unfold Sys.rewIn Sys.rewOpt
  cases mode with
  | min => exact c2
  | max => exact c1

/-- **C106.** With solvers that solve every problem `MILPExact` on the reduced reward model gives one answer, and it is a
success exactly if the minimal (maximal) expected reward of the original model is at least `t`. -/
theorem C106_decides (hM : RewardInput M) (h : RRF.reduce ρ ρ' M il tl = .ok res) (φ : K →+*o ℝ)
    (hlp : ∀ lp, (lpSolver lp).Exact lp) (hs : ∀ m, (solver m).Exact m) (ht : 0 ≤ t) (hG : mode = .min ∨ labels ≠ none)
    {i : Nat} (hi : i ∈ M.labelled il) (hl : ∀ ls, labels = some ls → "rf_target" ∉ ls ∧ "rf_fail" ∉ ls) :
    ∃ r, solveIter res.rrf.form t (milpExact res.rrf.form lpSolver solver t mode labels .pulp) = ([r], none) ∧
      (r.status = .success ↔ φ t ≤ M.rewIn φ mode (M.labelled tl) i) ∧
      (r.status = .failed .infeasible ↔ M.rewIn φ mode (M.labelled tl) i < φ t) := by
  have hl' := labelsOK_reduced hM.toInput (by decide) (rew_reduce hM h) hl
  obtain ⟨r, j, hr, hj, hst⟩ := C61_feasible_iff (labels := labels) hM h φ hlp hs ht hG hl'
  obtain ⟨r', hr', hst'⟩ := C61_returns (labels := labels) hM h φ hlp hs ht hG hl'
  rw [hr] at hr'
  simp only [Prod.mk.injEq, List.cons.injEq, and_true] at hr'
  subst hr'
  rw [rewOpt_initial hM h φ hi hj] at hst
  refine ⟨r, hr, hst, fun g => ?_, fun g => ?_⟩
  · by_contra hn
    rw [hst.2 (not_lt.1 hn)] at g
    cases g
  · exact hst'.resolve_left fun g' => absurd (hst.1 g') (not_le.2 g)

/-- **C106.** With solvers that solve every problem `QSHeur` with its own initial objectives and updaters on the reduced reward
model answers: `n` successes if the minimal (maximal) expected reward of the original model is at least `t`, otherwise
the single answer "infeasible". -/
theorem C106_heuristic_decides {solver : Nat → Milp K → Answer K} {n : Nat} {ini : List (Nat × List Nat) → Except Err (List (Nat × K))}
    {upd : List (Nat × List Nat) → Updater K}
    (hM : RewardInput M) (h : RRF.reduce ρ ρ' M il tl = .ok res) (φ : K →+*o ℝ)
    (hlp : ∀ lp, (lpSolver lp).Exact lp) (hs : ∀ k m, (solver k m).Exact m) (ht : 0 ≤ t) (hn : 1 ≤ n)
    (hl : ∀ ls, labels = some ls → "rf_target" ∉ ls ∧ "rf_fail" ∉ ls) {w : Nat → K} (hw : ∀ i, 0 < w i)
    (hini : InitOK res.rrf.form mode labels w ini) (hu : LibUpdater w upd) {i : Nat} (hi : i ∈ M.labelled il) :
    let run := solveIter res.rrf.form t (qsHeur res.rrf.form lpSolver solver n ini upd t mode labels .pulp)
    run.2 = none ∧
    (φ t ≤ M.rewIn φ mode (M.labelled tl) i → run.1.length = n ∧ ∀ r ∈ run.1, r.status = .success) ∧
    (M.rewIn φ mode (M.labelled tl) i < φ t → ∃ r, run.1 = [r] ∧ r.status = .failed .infeasible) := by
  have hl' := labelsOK_reduced hM.toInput (by decide) (rew_reduce hM h) hl
  have bt := rew_built hM h
  have := C62_returns hM h φ hlp hs ht hn hl' hw hini hu bt.initL
  rw [rewOpt_initial hM h φ hi bt.initL] at this
  exact this

/-! ### the hypotheses are met

`rwSys 2`: from 0 the targets 2 is reached at once or over 1; rewards 1, 2 (in 0), 3 (in 1) and 2 (in 2). -/

/-- the exact method finds a smallest set of states of the model itself inside of which at least 2 is collected -/
example : ∃ (res : RRF.Result ℚ) (solver : Milp ℚ → Answer ℚ) (r : ProblemResult (RRF.Sub ℚ) ℚ) (k : Nat) (A : Finset Nat),
    RRF.reduce exRnd exRnd (rwSys 2) "start" "goal" = .ok res ∧ (∀ m, (solver m).Exact m) ∧
    r ∈ (solveIter res.rrf.form 2 (milpExact res.rrf.form solver solver 2 .min none .pulp)).1 ∧ r.value = some (k : ℚ) ∧ A.card = k ∧
    2 ≤ (rwSys 2).rewWithin ratR .min A ((rwSys 2).labelled "goal") 0 ∧
    ∀ A' : Finset Nat, 2 ≤ (rwSys 2).rewWithin ratR .min A' ((rwSys 2).labelled "goal") 0 → k ≤ A'.card := by
  obtain ⟨res, h⟩ := rwSys_ok (c := 2) zero_le_two exRnd exRnd
  have hM := rwSys_input zero_le_two
  obtain ⟨j, hj, hU, -⟩ := rwSys_init zero_le_two h
  obtain ⟨solver, hs⟩ := exists_exact ℚ
  have hi : (0 : Nat) ∈ (rwSys 2).labelled "start" := ⟨[0], rwSys_start 2, by simp⟩
  obtain ⟨r, hr, hst, -⟩ := C106_decides (mode := .min) (t := 2) (labels := none) hM h ratR hs hs zero_le_two (Or.inl rfl) hi (fun _ g => nomatch g)
  have h2 : ratR 2 = 2 := map_ofNat ratR 2
  have hsuc : r.status = .success := by
    refine hst.2 ?_
    rw [← rewOpt_initial hM h ratR hi hj, h2]
    unfold Inside at hU
    simpa using hU
  have hm : r ∈ (solveIter res.rrf.form 2 (milpExact res.rrf.form solver solver 2 .min none .pulp)).1 := by rw [hr]; simp
  obtain ⟨cert, k, A, -, g1, -, g2, g3, g4⟩ := (C106_exact hM h ratR (decides_of_exact (rew_built hM h) ratR hs) (fun m => (hs m).toSound) hi hm).1 hsuc
  rw [h2] at g3
  refine ⟨res, solver, r, k, A, h, hs, hm, g1, g2, g3, fun A' hA' => g4 A' (by rw [h2]; exact hA')⟩

/-- all states that are kept have finite rewards: here the initial one -/
example : ∃ (res : RRF.Result ℚ) (s' : Nat), RRF.reduce exRnd exRnd (rwSys 2) "start" "goal" = .ok res ∧ res.cols.get? 0 = some s' := by
  obtain ⟨res, h⟩ := rwSys_ok (c := 2) zero_le_two exRnd exRnd
  obtain ⟨s', hs⟩ := rwSys_kept zero_le_two h
  exact ⟨res, s', h, hs⟩

end Verif.Props
