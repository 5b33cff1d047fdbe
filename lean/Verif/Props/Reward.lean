import Verif.Proofs.RewardLP
import Verif.Proofs.RewardRet
import Verif.Props.LP
import Verif.Props.Reduce
/-!
# C50–C52: reward reachability forms

`Sys.rewMax/rewMin φ M T s` (`Spec/Rew.lean`) is the supremum / infimum over all schedulers of the expected reward
that is collected before a state of `T` is reached; `rewInMax/rewInMin` also count the action taken in the first
state of `T`.
-/
set_option linter.unusedSectionVars false

namespace Verif.Props
open Verif.Model Verif.Spec Verif.Proofs Verif.Theory Finset

/-- what `RewardReachabilityForm.reduce` may be applied to; `rew` is what the constructor of a system checks -/
structure RewardInput {K : Type} [Field K] [LinearOrder K] (M : Sys K) : Prop extends Input M where
  rew : ∀ r, M.rew = some r → r.length = M.C ∧ ∀ x ∈ r, 0 ≤ x

section
variable {K : Type} [Field K] [LinearOrder K] [IsStrictOrderedRing K]
variable {M : Sys K} {ρ ρ' : Graph.Rnd} {il tl : String} {res : RRF.Result K}

theorem RewardInput.rew' (hM : RewardInput M) (r) (h : M.rew = some r) : ∀ i < M.C, ∃ x, r[i]? = some x ∧ 0 ≤ x := by
  obtain ⟨hl, h0⟩ := hM.rew r h
  exact fun i hi => ⟨r[i], List.getElem?_eq_getElem (by omega), h0 _ (List.getElem_mem _)⟩

/-- everything known about a reward form returned by `reduce` -/
structure RewBuilt (M : Sys K) (il tl : String) (res : RRF.Result K) : Prop where
  ok : RRFOK res.rrf
  init : res.rrf.rf.initial < res.rrf.rf.N
  initL : res.rrf.rf.sys.statesByLabel il = .ok [res.rrf.rf.initial]
  target : res.rrf.rf.targetL = "rf_target"
  rew : ∃ v, res.rrf.rf.sys.rew = some v ∧ (∀ i < res.rrf.rf.C, res.rrf.rew.getD i 0 = v.getD i 0) ∧ ∀ y ∈ v, 0 ≤ y

theorem rew_built (hM : RewardInput M) (h : RRF.reduce ρ ρ' M il tl = .ok res) : RewBuilt M il tl res := by
  obtain ⟨T, i, mask, v, v', hR, hrf, hr, hv, hv', hget, h0, -, hx⟩ :=
    rrf_reduce hM.wf hM.total hM.labS.inv hM.labA.inv hM.rew' h
  obtain ⟨e1, e2, e3, e4, -⟩ := make_fields hrf
  obtain ⟨hc, i, hi, hlt, -⟩ := C13_reduce_consistent hM.toInput (by decide) hr
  have hl := (rflive_of_make hR.red.wf hc hrf).initLab
  rw [e2] at hl
  rw [hi] at hl
  cases hl
  exact ⟨hx, hlt, hi, e3, v', hv', hget, h0⟩

section
variable (b : RewBuilt M il tl res) (φ : K →+*o ℝ)
include b

theorem RewBuilt.rewMax_eq (s : Fin res.rrf.rf.N) :
    res.rrf.rf.sys.rewMax φ (res.rrf.rf.sys.labelled "rf_target") s.1 = (b.ok.core φ).Vmax s := by
  obtain ⟨v, h1, h2, h3⟩ := b.rew
  rw [← b.target]
  exact b.ok.rewMax_eq φ h1 h2 h3 s

theorem RewBuilt.rewMin_eq (s : Fin res.rrf.rf.N) :
    res.rrf.rf.sys.rewMin φ (res.rrf.rf.sys.labelled "rf_target") s.1 = (b.ok.core φ).Vmin s := by
  obtain ⟨v, h1, h2, h3⟩ := b.rew
  rw [← b.target]
  exact b.ok.rewMin_eq φ h1 h2 h3 s

theorem RewBuilt.rew_at {k : Nat} (hk : k < res.rrf.rf.C) : φ (res.rrf.rew.getD k 0) = res.rrf.rf.sys.rewardAt φ k := by
  obtain ⟨v, h1, h2, h3⟩ := b.rew
  rw [h2 k hk, Sys.rewardAt, h1]
  rfl
end

/-- **C50.** The expected rewards of a reward form are finite, whatever the scheduler: they are bounded by
`rewMax`; and the target is reached with probability one by every scheduler. -/
theorem C50_finite (hM : RewardInput M) (h : RRF.reduce ρ ρ' M il tl = .ok res) (φ : K →+*o ℝ) :
    ∀ s < res.rrf.rf.sys.N - 2,
      res.rrf.rf.sys.RewBounded φ (res.rrf.rf.sys.labelled "rf_target") s
        (res.rrf.rf.sys.rewMax φ (res.rrf.rf.sys.labelled "rf_target") s) ∧
      res.rrf.rf.sys.prMin φ (res.rrf.rf.sys.labelled "rf_target") s = 1 := by
  intro s hs
  have b := rew_built hM h
  obtain ⟨v, h1, h2, h3⟩ := b.rew
  have e := b.rewMax_eq φ ⟨s, hs⟩
  simp only at e
  rw [e, ← b.target]
  refine ⟨b.ok.rewBounded φ h1 h2 h3 ⟨s, hs⟩, ?_⟩
  have := b.ok.ok.prMin_eq φ ⟨s, hs⟩
  exact Eq.trans this (b.ok.prMin_one φ _)

theorem rcore_over {x : RRF K} (h : RRFOK x) (φ : K →+*o ℝ) : (h.core φ).Over φ := ⟨fun _ _ => ⟨_, rfl⟩, fun _ _ _ => ⟨_, rfl⟩⟩

/-- the minimal expected rewards are numbers of the code -/
theorem exists_rewMin {x : RRF K} (h : RRFOK x) (φ : K →+*o ℝ) :
    ∃ z : List K, z.length = x.rf.N ∧ (∀ s : Fin x.rf.N, φ (z.getD s.1 0) = (h.core φ).Vmin s) ∧ ∀ y ∈ z, 0 ≤ y := by
  obtain ⟨B, hB⟩ := h.exists_bound φ
  obtain ⟨z, h1, h2, h3⟩ := exists_zvec φ (Core.Vmin_mem_transient (h.qsub φ) (h.transient φ) hB (rcore_over h φ))
  exact ⟨z, h1, h2, h3 (Core.Vmin_nonneg (h.qsub φ).toOK hB)⟩

/-- the maximal expected rewards are numbers of the code -/
theorem exists_rewMax {x : RRF K} (h : RRFOK x) (φ : K →+*o ℝ) :
    ∃ z : List K, z.length = x.rf.N ∧ (∀ s : Fin x.rf.N, φ (z.getD s.1 0) = (h.core φ).Vmax s) ∧ ∀ y ∈ z, 0 ≤ y := by
  obtain ⟨B, hB⟩ := h.exists_bound φ
  obtain ⟨z, h1, h2, h3⟩ := exists_zvec φ (Core.Vmax_mem (h.qsub φ).toOK hB (rcore_over h φ))
  exact ⟨z, h1, h2, h3 (Core.Vmax_nonneg (h.qsub φ).toOK hB)⟩

/-- so is a flow that collects the maximal expected reward -/
theorem exists_rflow {x : RRF K} (h : RRFOK x) (φ : K →+*o ℝ) (i : Fin x.rf.N) :
    ∃ v : List K, v.length = x.rf.C ∧ (∀ y ∈ v, 0 ≤ y) ∧
      (∀ t, (h.ok.core φ).bal (RFOK.vecY φ fun j => v.getD j 0) t ≤ if t = i then 1 else 0) ∧
      φ (rgain x fun j => v.getD j 0) = (h.core φ).Vmax i := by
  obtain ⟨B, hB⟩ := h.exists_bound φ
  obtain ⟨y, hy0, hybal, hyg⟩ := Core.exists_dual_max_transient (h.qsub φ) (h.transient φ) hB i
  obtain ⟨y', p1, p2, p3, -, -⟩ := Core.exists_flow_mem (rcore_over h φ) hy0 (d := fun t => if t = i then 1 else 0)
    (fun t => ite_mem φ (t = i)) (by rw [hyg]; exact Core.Vmax_mem (h.qsub φ).toOK hB (rcore_over h φ) i)
  obtain ⟨v, hl, hv0, hvr, hb, -⟩ := exists_vec h.ok φ p1
  refine ⟨v, hl, hv0, fun t => ?_, ?_⟩
  · rw [hb]; exact p3 t (hybal t).le
  · rw [h.rgain_eq, ← hyg, ← p2]
    unfold Core.gain
    exact Finset.sum_congr rfl fun s _ => Finset.sum_congr rfl fun r hr => congrArg (· * _) (congrArg φ (hvr s r hr))

/-- **C50.** `rew_min` (and `max_z_state`): the program is built, has an optimal solution, and every optimal
solution is the vector of minimal expected rewards until the target is reached. -/
theorem C50_rew_min (hM : RewardInput M) (h : RRF.reduce ρ ρ' M il tl = .ok res) (φ : K →+*o ℝ) :
    ∃ lp, res.rrf.maxZLP = .ok lp ∧ (∃ x, lp.Optimal x) ∧ ∀ x, lp.Optimal x → ∀ s < res.rrf.rf.sys.N - 2,
      φ (x s) = res.rrf.rf.sys.rewMin φ (res.rrf.rf.sys.labelled "rf_target") s := by
  have b := rew_built hM h
  obtain ⟨lp, h1, h2, h3, h4⟩ := rmaxZLP_ok b.init
  obtain ⟨B, hB⟩ := b.ok.exists_bound φ
  have hq := b.ok.qsub φ
  obtain ⟨z, hl, hz, hz0⟩ := exists_rewMin b.ok φ
  have hvec : RFOK.vec φ (fun j => z.getD j 0) = (b.ok.core φ).Vmin := funext hz
  have hfeas : lp.Feasible fun j => z.getD j 0 := by
    refine (h4 _).2 ⟨(b.ok.zrow_le_iff φ _).2 fun s r hr => ?_, fun s hs => ?_⟩
    · rw [hvec]; exact Core.Vmin_le_step hq.toOK hB hr
    · rw [List.getD_eq_getElem _ _ (by omega)]; exact hz0 _ (List.getElem_mem _)
  have hle : ∀ x, lp.Feasible x → ∀ s < res.rrf.rf.N, x s ≤ z.getD s 0 := fun x hx s hs => by
    rw [← (phi_strict φ).le_iff_le, hz ⟨s, hs⟩]
    exact Core.le_Vmin_of_transient hq (b.ok.transient φ) hB (z := RFOK.vec φ x)
      ((b.ok.zrow_le_iff φ x).1 ((h4 x).1 hx).1) ⟨s, hs⟩
  refine ⟨lp, h1, ⟨_, hfeas, fun x hx => ?_⟩, fun x hx s hs => ?_⟩
  · rw [h2, if_pos rfl, h3, h3]
    exact Finset.sum_le_sum fun s hs => hle x hx s (Finset.mem_range.1 hs)
  · have e := b.rewMin_eq φ ⟨s, hs⟩
    simp only at e
    have hopt := hx.2 _ hfeas
    rw [h2, if_pos rfl, h3, h3] at hopt
    rw [e, eq_of_sum_ge (hle x hx.1) hopt s hs, hz ⟨s, hs⟩]

/-- **C50.** `rew_max`: the program is built, has an optimal solution, and every optimal solution is the vector of
maximal expected rewards until the target is reached. -/
theorem C50_rew_max (hM : RewardInput M) (h : RRF.reduce ρ ρ' M il tl = .ok res) (φ : K →+*o ℝ) :
    ∃ lp, res.rrf.rewMaxLP = .ok lp ∧ (∃ x, lp.Optimal x) ∧ ∀ x, lp.Optimal x → ∀ s < res.rrf.rf.sys.N - 2,
      φ (x s) = res.rrf.rf.sys.rewMax φ (res.rrf.rf.sys.labelled "rf_target") s := by
  have b := rew_built hM h
  obtain ⟨lp, h1, h2, h3, h4⟩ := rewMaxLP_ok b.ok.len
  obtain ⟨B, hB⟩ := b.ok.exists_bound φ
  have hq := b.ok.qsub φ
  obtain ⟨z, hl, hz, hz0⟩ := exists_rewMax b.ok φ
  have hvec : RFOK.vec φ (fun j => z.getD j 0) = (b.ok.core φ).Vmax := funext hz
  have hfeas : lp.Feasible fun j => z.getD j 0 := by
    refine (h4 _).2 ⟨(b.ok.zrow_ge_iff φ _).2 fun s r hr => ?_, fun s hs => ?_⟩
    · rw [hvec]; exact Core.step_Vmax_le hq.toOK hB hr
    · rw [List.getD_eq_getElem _ _ (by omega)]; exact hz0 _ (List.getElem_mem _)
  have hle : ∀ x, lp.Feasible x → ∀ s < res.rrf.rf.N, z.getD s 0 ≤ x s := fun x hx s hs => by
    rw [← (phi_strict φ).le_iff_le, hz ⟨s, hs⟩]
    exact Core.Vmax_le_of_transient hq (b.ok.transient φ) hB (z := RFOK.vec φ x)
      ((b.ok.zrow_ge_iff φ x).1 ((h4 x).1 hx).1) ⟨s, hs⟩
  refine ⟨lp, h1, ⟨_, hfeas, fun x hx => ?_⟩, fun x hx s hs => ?_⟩
  · rw [h2, if_neg (by simp), h3, h3]
    exact Finset.sum_le_sum fun s hs => hle x hx s (Finset.mem_range.1 hs)
  · have e := b.rewMax_eq φ ⟨s, hs⟩
    simp only at e
    have hopt := hx.2 _ hfeas
    rw [h2, if_neg (by simp), h3, h3] at hopt
    rw [e, ← eq_of_sum_ge (hle x hx.1) hopt s hs, hz ⟨s, hs⟩]

/-- **C50.** `max_y_state_action` of a reward form: the program is built, has an optimal solution, and every optimal
solution is a non-negative flow that collects the maximal expected reward of the initial state. -/
theorem C50_max_y (hM : RewardInput M) (h : RRF.reduce ρ ρ' M il tl = .ok res) (φ : K →+*o ℝ) :
    ∃ i lp, res.rrf.rf.sys.statesByLabel il = .ok [i] ∧ res.rrf.maxYLP = .ok lp ∧ (∃ y, lp.Optimal y) ∧
      ∀ y, lp.Optimal y → (∀ k < res.rrf.rf.sys.C - 2, 0 ≤ y k) ∧
        ∑ k ∈ range (res.rrf.rf.sys.C - 2), res.rrf.rf.sys.rewardAt φ k * φ (y k) =
          res.rrf.rf.sys.rewMax φ (res.rrf.rf.sys.labelled "rf_target") i := by
  have b := rew_built hM h
  refine ⟨res.rrf.rf.initial, ?_⟩
  obtain ⟨lp, h1, h2, h3, h4⟩ := rmaxYLP_ok b.init b.ok.len
  obtain ⟨B, hB⟩ := b.ok.exists_bound φ
  have hq := b.ok.qsub φ
  obtain ⟨v, hl, hv0, hb, hgv⟩ := exists_rflow b.ok φ ⟨_, b.init⟩
  have e := b.rewMax_eq φ ⟨_, b.init⟩
  simp only at e
  have hfeas : lp.Feasible fun j => v.getD j 0 := by
    refine (h4 _).2 ⟨fun j hj => ?_, ?_, fun k hk => ?_⟩
    · have := (RFOK.yrow_le_iff b.ok.ok φ b.init (fun j => v.getD j 0) 0).2 (fun s => by
        rw [map_zero, add_zero]
        exact hb s) j hj
      rwa [sub_zero] at this
    · rw [← (phi_strict φ).le_iff_le, map_zero, hgv]; exact Core.Vmax_nonneg hq.toOK hB _
    · rw [List.getD_eq_getElem _ _ (by omega)]; exact hv0 _ (List.getElem_mem _)
  have hle : ∀ x, lp.Feasible x → rgain res.rrf x ≤ rgain res.rrf fun j => v.getD j 0 := by
    intro x hx
    obtain ⟨a, -, c⟩ := (h4 x).1 hx
    have := Core.gain_le_Vmax (M := b.ok.core φ) hq.toOK hB (y := RFOK.vecY φ x)
      (fun s r _ => by rw [RFOK.vecY, ← map_zero φ, (phi_strict φ).le_iff_le]; exact c r.1 r.2)
      (i := ⟨res.rrf.rf.initial, b.init⟩) (fun t => by
        have := (RFOK.yrow_le_iff b.ok.ok φ b.init x 0).1 (fun j hj => by rw [sub_zero]; exact a j hj) t
        rwa [map_zero, add_zero] at this)
    rw [← b.ok.rgain_eq, ← hgv, (phi_strict φ).le_iff_le] at this
    exact this
  refine ⟨lp, b.initL, h1, ⟨_, hfeas, fun x hx => ?_⟩, fun x hx => ?_⟩
  · rw [h2, if_pos rfl, h3, h3]
    exact hle x hx
  · obtain ⟨-, -, c⟩ := (h4 x).1 hx.1
    refine ⟨c, ?_⟩
    have hopt := hx.2 _ hfeas
    rw [h2, if_pos rfl, h3, h3] at hopt
    rw [e, ← hgv, ← le_antisymm (hle x hx.1) hopt]
    unfold rgain
    rw [map_sum]
    exact Finset.sum_congr rfl fun k hk => by rw [map_mul, b.rew_at φ (Finset.mem_range.1 hk)]

/-- **C50.** `max_z_state_action` of a reward form is the one-step lookahead of the minimal expected rewards; its
minimum over the actions of `s` is the minimal expected reward of `s`. -/
theorem C50_max_z_state_action (hM : RewardInput M) (h : RRF.reduce ρ ρ' M il tl = .ok res) (φ : K →+*o ℝ) {lp : Milp K}
    (hlp : res.rrf.maxZLP = .ok lp) {x : Nat → K} (hx : lp.Optimal x) :
    (∀ k < res.rrf.rf.sys.C - 2, φ (res.rrf.maxZStateAction x k) = res.rrf.rf.sys.rewardAt φ k +
      ∑ d ∈ range (res.rrf.rf.sys.N - 2), φ (res.rrf.rf.sys.P.get k d) *
        res.rrf.rf.sys.rewMin φ (res.rrf.rf.sys.labelled "rf_target") d) ∧
    ∀ s < res.rrf.rf.sys.N - 2,
      (∀ a k, ((s, a), k) ∈ res.rrf.rf.sys.idx → k < res.rrf.rf.sys.C - 2 →
        res.rrf.rf.sys.rewMin φ (res.rrf.rf.sys.labelled "rf_target") s ≤ φ (res.rrf.maxZStateAction x k)) ∧
      ∃ a k, ((s, a), k) ∈ res.rrf.rf.sys.idx ∧ k < res.rrf.rf.sys.C - 2 ∧
        res.rrf.rf.sys.rewMin φ (res.rrf.rf.sys.labelled "rf_target") s = φ (res.rrf.maxZStateAction x k) := by
  have b := rew_built hM h
  obtain ⟨lp', h1, -, h2⟩ := C50_rew_min hM h φ
  rw [hlp] at h1
  cases h1
  have hxs := h2 x hx
  obtain ⟨B, hB⟩ := b.ok.exists_bound φ
  have hq := b.ok.qsub φ
  have hstep : ∀ (s : Fin res.rrf.rf.N) (k : Fin res.rrf.rf.C),
      φ (res.rrf.maxZStateAction x k.1) = (b.ok.core φ).step (b.ok.core φ).Vmin s k := by
    intro s k
    unfold RRF.maxZStateAction
    rw [list_sum_range, add_comm]
    unfold Core.step
    show _ = φ (res.rrf.rew.getD k.1 0) + ∑ t : Fin res.rrf.rf.N, φ (res.rrf.rf.P k.1 t.1) * (b.ok.core φ).Vmin t
    rw [show res.rrf.N = res.rrf.rf.N from rfl, sum_fin_range, map_add, map_sum]
    congr 1
    refine Finset.sum_congr rfl fun t _ => ?_
    rw [map_mul, hxs t.1 t.2, b.rewMin_eq φ t]
  refine ⟨fun k hk => ?_, fun s hs => ?_⟩
  · unfold RRF.maxZStateAction
    rw [list_sum_range, add_comm, ← b.rew_at φ hk, map_add, map_sum]
    refine congrArg₂ (· + ·) rfl (Finset.sum_congr rfl fun d hd => ?_)
    rw [map_mul, hxs d (Finset.mem_range.1 hd)]
    rfl
  have e := b.rewMin_eq φ ⟨s, hs⟩
  simp only at e
  rw [e]
  constructor
  · intro a k hmem hkC
    rw [hstep ⟨s, hs⟩ ⟨k, hkC⟩]
    exact Core.Vmin_le_step hq.toOK hB ((b.ok.ok.mem_rows φ).2 ((b.ok.ok.rowState_iff hkC).2 ⟨a, hmem⟩))
  · obtain ⟨r, hr, hr2⟩ := Core.exists_step_Vmin hq.toOK hB ⟨s, hs⟩
    obtain ⟨a, ha⟩ := (b.ok.ok.rowState_iff r.2).1 ((b.ok.ok.mem_rows φ).1 hr)
    exact ⟨a, r.1, ha, r.2, by rw [hstep ⟨s, hs⟩ r, hr2]⟩

end

/-! ### C51 -/

section
variable {K : Type} [Field K] [LinearOrder K] [IsStrictOrderedRing K]
variable {M : Sys K} {ρ ρ' : Graph.Rnd} {il tl : String} {res : RRF.Result K}

/-- the form with the rewards of target states left out -/
def noTarget (T : List Nat) (res : RRF.Result K) : RRF K :=
  { res.rrf with
    rew := (List.range res.rrf.rf.C).map fun k =>
      match res.rows[k]? with
      | some ((s, _), _) => if s ∈ T then 0 else res.rrf.rew.getD k 0
      | none => 0 }

theorem noTarget_getD (T : List Nat) (res : RRF.Result K) {k : Nat} (hk : k < res.rrf.rf.C) {p q} (h : res.rows[k]? = some (p, q)) :
    (noTarget T res).rew.getD k 0 = if p.1 ∈ T then 0 else res.rrf.rew.getD k 0 := by
  unfold noTarget
  rw [getD_map_range hk, h]

theorem noTarget_ok (T : List Nat) {res : RRF.Result K} (h : RRFOK res.rrf) : RRFOK (noTarget T res) where
  ok := h.ok
  len := by simp [noTarget]
  nonneg k := by
    by_cases hk : k < res.rrf.rf.C
    · unfold noTarget
      rw [getD_map_range hk]
      split
      · split
        exacts [le_rfl, h.nonneg _]
      · exact le_rfl
    · rw [List.getD_eq_default]
      simp [noTarget]; omega
  noFail := h.noFail
  noEC := h.noEC
  idx := h.idx

/-- the facts used below -/
theorem c51 (hM : RewardInput M) (h : RRF.reduce ρ ρ' M il tl = .ok res) (φ : K →+*o ℝ) :
    ∃ (T : List Nat) (i : Nat) (mask : List Bool) (hx : RRFOK res.rrf),
      Reduced M il tl "rf_target" "rf_fail" res.rrf.rf.sys res.cols res.rows T i mask ∧ RewBuilt M il tl res ∧
      (∀ i, 0 ≤ M.rewardAt φ i) ∧
      (∀ (k : Nat) (sa sa' : Nat × Nat) (j : Nat), res.rows[k]? = some (sa, sa') → (sa, j) ∈ M.idx →
        φ (res.rrf.rew.getD k 0) = M.rewardAt φ j) ∧
      (∃ e : Fin res.rrf.rf.N → Fin M.N, (∀ s', ((e s').1, s'.1) ∈ res.cols) ∧
        Core.Embeds0 (Core.ofGain (M.toMDP φ) (WF.valid hM.wf φ hM.total) (fun _ r => M.rewardAt φ r.1)
          (M.stateSet (M.labelled tl))) (hx.core φ) e) ∧
      (∃ e : Fin res.rrf.rf.N → Fin M.N, (∀ s', ((e s').1, s'.1) ∈ res.cols) ∧
        Core.Embeds0 (Core.ofGain (M.toMDP φ) (WF.valid hM.wf φ hM.total)
          (fun s r => if s ∈ M.stateSet (M.labelled tl) then 0 else M.rewardAt φ r.1)
          (M.stateSet (M.labelled tl))) ((noTarget_ok T hx).core φ) e) := by
  obtain ⟨T, i, mask, v, v', hR, hrf, hr, hv, hv', hget, h0, hrow, hx⟩ :=
    rrf_reduce hM.wf hM.total hM.labS.inv hM.labA.inv hM.rew' h
  have eC : res.rrf.rf.C = res.rows.length := by
    have := hR.red.hC
    unfold RF.C; omega
  have hlt : ∀ {k e}, res.rows[k]? = some e → k < res.rrf.rf.C := fun {k e} hk => by
    rw [eC]; exact (List.getElem?_eq_some_iff.1 hk).1
  have hg : ∀ (k : Nat) (sa sa' : Nat × Nat) (j : Nat), res.rows[k]? = some (sa, sa') → (sa, j) ∈ M.idx →
      φ (res.rrf.rew.getD k 0) = M.rewardAt φ j := by
    intro k sa sa' j hk hj
    rw [hget k (hlt hk), List.getD_eq_getElem?_getD, hrow k sa sa' j hk hj, Sys.rewardAt, hv,
      ← List.getD_eq_getElem?_getD]
    rfl
  refine ⟨T, i, mask, hx, hR, rew_built hM h, rewardAt_nonneg φ fun r hr => (hM.rew r hr).2, hg, ?_, ?_⟩
  · exact hR.embeds0 hM.wf hM.total hx φ _ fun k s a n j hs hj hk hm => hg k _ _ j hk hm
  · refine Reduced.embeds0 (x := noTarget T res) hR hM.wf hM.total (noTarget_ok T hx) φ _ fun k s a n j hs hj hk hm => ?_
    rw [noTarget_getD T res (hlt hk) hk]
    have : (⟨s, hs⟩ : Fin M.N) ∈ M.stateSet (M.labelled tl) ↔ s ∈ T := by
      rw [mem_stateSet, mem_T hR.hT]
    by_cases hT : s ∈ T
    · rw [if_pos hT, if_pos (this.2 hT), map_zero]
    · rw [if_neg hT, if_neg (fun hc => hT (this.1 hc))]
      exact hg k _ _ j hk hm

/-- **C51, what holds.** The expected rewards of a reduced form are those of the given system where the reward of
the action taken in the first target state is counted as well. -/
theorem C51_inclusive (hM : RewardInput M) (h : RRF.reduce ρ ρ' M il tl = .ok res) (φ : K →+*o ℝ)
    {s s' : Nat} (hs : res.cols.get? s = some s') :
    res.rrf.rf.sys.rewMax φ (res.rrf.rf.sys.labelled "rf_target") s' = M.rewInMax φ (M.labelled tl) s ∧
    res.rrf.rf.sys.rewMin φ (res.rrf.rf.sys.labelled "rf_target") s' = M.rewInMin φ (M.labelled tl) s := by
  obtain ⟨T, i, mask, hx, hR, b, h0, -, ⟨e, he, hE⟩, -⟩ := c51 hM h φ
  have hm := Dict.mem_of_get? hs
  have hs' : s' < res.rrf.rf.N := by
    have := hR.red.maps.col_lt hm
    have := hR.red.hN
    unfold RF.N; omega
  have hes : (e ⟨s', hs'⟩).1 = s := hR.red.maps.col_inj (he ⟨s', hs'⟩) hm
  obtain ⟨B, hB⟩ := hx.exists_bound φ
  have e1 := b.rewMax_eq φ ⟨s', hs'⟩
  have e2 := b.rewMin_eq φ ⟨s', hs'⟩
  simp only at e1 e2
  rw [e1, e2, ← hes]
  exact ⟨(sys_rewInMax_eq h0 hE (hx.qsub φ).toOK hB _).symm, (sys_rewInMin_eq h0 hE (hx.qsub φ).toOK hB _).symm⟩

/-- **C51 (partial, and how it fails).** If all actions of target states have the same reward `c`, the reduction
raises the expected reward of every kept state, minimal and maximal, by exactly `c`. -/
theorem C51_shift_partial (hM : RewardInput M) (h : RRF.reduce ρ ρ' M il tl = .ok res) (φ : K →+*o ℝ) {c : ℝ}
    (hc : ∀ t ∈ M.labelled tl, ∀ a i, ((t, a), i) ∈ M.idx → M.rewardAt φ i = c)
    {s s' : Nat} (hs : res.cols.get? s = some s') :
    res.rrf.rf.sys.rewMax φ (res.rrf.rf.sys.labelled "rf_target") s' = M.rewMax φ (M.labelled tl) s + c ∧
    res.rrf.rf.sys.rewMin φ (res.rrf.rf.sys.labelled "rf_target") s' = M.rewMin φ (M.labelled tl) s + c := by
  obtain ⟨T, i, mask, hx, hR, b, h0, hg, -, e, he, hE⟩ := c51 hM h φ
  have hm := Dict.mem_of_get? hs
  have eC : res.rrf.rf.C = res.rows.length := by
    have := hR.red.hC
    unfold RF.C; omega
  have eN : res.rrf.rf.N = res.cols.length := by
    have := hR.red.hN
    unfold RF.N; omega
  have hs' : s' < res.rrf.rf.N := by
    have := hR.red.maps.col_lt hm
    omega
  have hes : (e ⟨s', hs'⟩).1 = s := hR.red.maps.col_inj (he ⟨s', hs'⟩) hm
  have hy := noTarget_ok T hx
  obtain ⟨B, hB⟩ := hx.exists_bound φ
  obtain ⟨B', hB'⟩ := hy.exists_bound φ
  have hq := hx.qsub φ
  have hq' := hy.qsub φ
  have e1 := b.rewMax_eq φ ⟨s', hs'⟩
  have e2 := b.rewMin_eq φ ⟨s', hs'⟩
  simp only at e1 e2
  have f1 : M.rewMax φ (M.labelled tl) (e ⟨s', hs'⟩).1 = (hy.core φ).Vmax ⟨s', hs'⟩ :=
    sys_rewMax_eq h0 hE hq'.toOK hB' _
  have f2 : M.rewMin φ (M.labelled tl) (e ⟨s', hs'⟩).1 = (hy.core φ).Vmin ⟨s', hs'⟩ :=
    sys_rewMin_eq h0 hE hq'.toOK hB' _
  rw [e1, e2, ← hes, f1, f2]
  -- rows of target states and of other states
  have key : ∀ (u : Fin res.rrf.rf.N) (r : Fin res.rrf.rf.C), r ∈ (hx.core φ).rows u →
      ((hx.core φ).g u r = c ∧ (hy.core φ).g u r = 0 ∧ ∀ t, (hx.core φ).Q u r t = 0) ∨
      ((hx.core φ).g u r = (hy.core φ).g u r ∧ ∑ t, (hx.core φ).Q u r t = 1) := by
    intro u r hr
    obtain ⟨⟨⟨x, a⟩, q⟩, hk⟩ : ∃ p, res.rows[r.1]? = some p :=
      ⟨_, List.getElem?_eq_getElem (by have := r.2; omega)⟩
    obtain ⟨n, a'⟩ := q
    obtain ⟨rfl, h1, -, ⟨j, hj, hjC⟩, -⟩ := hR.red.maps.row_spec hk
    have hgk := hg _ _ _ j hk hj
    by_cases hT : x ∈ T
    · refine Or.inl ⟨?_, ?_, fun t => ?_⟩
      · show φ (res.rrf.rew.getD r.1 0) = c
        rw [hgk]
        exact hc x ((mem_T hR.hT x).1 hT) _ _ hj
      · show φ ((noTarget T res).rew.getD r.1 0) = 0
        rw [noTarget_getD T res r.2 hk, if_pos hT, map_zero]
      · show φ (res.rrf.rf.P r.1 t.1) = 0
        unfold RF.P
        rw [hR.red.keptT _ _ _ _ _ hk hT (by have := t.2; omega), map_zero]
    · refine Or.inr ⟨?_, ?_⟩
      · show φ (res.rrf.rew.getD r.1 0) = φ ((noTarget T res).rew.getD r.1 0)
        rw [noTarget_getD T res r.2 hk, if_neg hT]
      · have hb : res.rrf.rf.b r.1 = 0 := by
          unfold RF.b
          have := hR.red.hN
          rw [show res.rrf.rf.sys.N - 2 = res.cols.length by omega, hR.red.goal _ _ _ _ hk, if_neg hT]
        have h1 := hx.ok.row_sum φ (RFOK.lt_C r.2)
        rw [hb, hx.noFail _ r.2, map_zero, add_zero, add_zero] at h1
        exact h1
  exact Core.shift (A := hx.core φ) (A' := hy.core φ) hq (hx.transient φ) hB hq' (hy.transient φ) hB'
    (fun _ => rfl) (fun _ _ _ => rfl) key ⟨s', hs'⟩

/-- **C51 (partial).** If the actions of target states have reward zero, the reduction keeps the expected rewards. -/
theorem C51_zero_partial (hM : RewardInput M) (h : RRF.reduce ρ ρ' M il tl = .ok res) (φ : K →+*o ℝ)
    (hc : ∀ t ∈ M.labelled tl, ∀ a i, ((t, a), i) ∈ M.idx → M.rewardAt φ i = 0)
    {s s' : Nat} (hs : res.cols.get? s = some s') :
    res.rrf.rf.sys.rewMax φ (res.rrf.rf.sys.labelled "rf_target") s' = M.rewMax φ (M.labelled tl) s ∧
    res.rrf.rf.sys.rewMin φ (res.rrf.rf.sys.labelled "rf_target") s' = M.rewMin φ (M.labelled tl) s := by
  obtain ⟨h1, h2⟩ := C51_shift_partial hM h φ hc hs
  rw [add_zero] at h1 h2
  exact ⟨h1, h2⟩

/-- The expected rewards of the given system, from every kept state, are finite. -/
theorem C51_finite (hM : RewardInput M) (h : RRF.reduce ρ ρ' M il tl = .ok res) (φ : K →+*o ℝ)
    {s s' : Nat} (hs : res.cols.get? s = some s') :
    M.RewBounded φ (M.labelled tl) s (M.rewMax φ (M.labelled tl) s) := by
  obtain ⟨T, i, mask, hx, hR, b, h0, hg, -, e, he, hE⟩ := c51 hM h φ
  have hm := Dict.mem_of_get? hs
  have hs' : s' < res.rrf.rf.N := by
    have := hR.red.maps.col_lt hm
    have := hR.red.hN
    unfold RF.N; omega
  have hes : (e ⟨s', hs'⟩).1 = s := hR.red.maps.col_inj (he ⟨s', hs'⟩) hm
  have hy := noTarget_ok T hx
  obtain ⟨B', hB'⟩ := hy.exists_bound φ
  have f1 : M.rewMax φ (M.labelled tl) (e ⟨s', hs'⟩).1 = (hy.core φ).Vmax ⟨s', hs'⟩ :=
    sys_rewMax_eq h0 hE (hy.qsub φ).toOK hB' _
  rw [← hes, f1]
  exact sys_rewBounded h0 hE (hy.qsub φ).toOK hB' ⟨s', hs'⟩

/-- **C51**, existence: on a system with a reward vector that satisfies the conditions under which the
reachability form exists, `reduce` returns exactly if the target is reached from the initial state with
probability one under every scheduler. -/
theorem C51_returns_iff (hM : RewardInput M) {i : Nat} (hi : M.statesByLabel il = .ok [i])
    (hreach : ∃ t ∈ M.labelled tl, Relation.ReflTransGen (Step M) i t) (hTN : ∀ t ∈ M.labelled tl, t < M.N)
    (h1 : "rf_target" ∉ M.labS.d.keys) (h2 : "rf_fail" ∉ M.labS.d.keys)
    (hlS : M.labS.dflt = true ∨ ∀ s < M.N, ∃ l, s ∈ M.labelled l)
    (hlA : M.labA.dflt = true) {r : List K} (hr : M.rew = some r)
    (hd : M.dtmc = true → ∀ s a i, ((s, a), i) ∈ M.idx → a = 0) (φ : K →+*o ℝ) :
    (∃ res, RRF.reduce ρ ρ' M il tl = .ok res) ↔ M.prMin φ (M.labelled tl) i = 1 := by
  constructor
  · rintro ⟨res, h⟩
    obtain ⟨T, j, mask, v, v', hR, hrf, hr', -⟩ := rrf_reduce hM.wf hM.total hM.labS.inv hM.labA.inv hM.rew' h
    obtain ⟨i', hi'⟩ := hR.init_kept hrf
    have hij : j = i := by
      have := hR.hi
      rw [hi] at this
      cases this; rfl
    subst hij
    have hg := Dict.get?_of_mem hR.red.maps.nd hi'
    have hp := (C14_reduce_probabilities hM.toInput (by decide) hr' φ hg).1
    have hlt := hR.red.maps.col_lt hi'
    have eN := hR.red.hN
    exact hp.symm.trans (C50_finite hM h φ i' (by omega)).2
  · intro hp
    obtain ⟨rr, hrr⟩ := C13_reduce_returns (ρ := ρ) (ntl := "rf_target") (nfl := "rf_fail") hM.toInput (by decide) hi hreach
      hTN h1 h2 hlS hlA hM.rew' hd
    obtain ⟨T, j, mask, hR, hrf⟩ := reduce_spec hM.wf hM.labS.inv hM.labA.inv hrr
    obtain ⟨i', hi'⟩ := hR.init_kept hrf
    have hij : j = i := by
      have := hR.hi
      rw [hi] at this
      cases this; rfl
    subst hij
    have hc := hR.consistent hM.wf hM.total (by decide) hi'
    have hL := rflive_of_make hR.red.wf hc hrf
    obtain ⟨e1, e2, e3, e4, -⟩ := make_fields hrf
    have hin : rr.rf.initial = i' := by
      have a := hL.initLab
      rw [e2, (hR.labels (by decide)).2.2.2.2 i' hi'] at a
      cases a; rfl
    have hlt := hR.red.maps.col_lt hi'
    have eN := hR.red.hN
    have hin' : rr.rf.initial < rr.rf.N := by
      rw [hin]; unfold RF.N; omega
    have hone := one_all hL φ hin' (by
      rw [← RFOK.prMin_eq hL.toRFOK φ ⟨_, hin'⟩]
      have := hR.prMin_eq hM.wf hM.total hL.toRFOK φ hi'
      simp only
      rw [hin, this, hp])
    obtain ⟨nr, n1, -⟩ := hR.red.rewS r hr
    have ha := assertReachform_returns hL φ hone n1 ρ'
    obtain ⟨d1, d2, m1, m2⟩ := make_delInv hrf
    refine ⟨⟨⟨rr.rf, nr.take (nr.length - 2), d2⟩, rr.cols, rr.rows⟩, ?_⟩
    simp only [RRF.reduce, RRF.make, bind, Except.bind, hrr, ha, n1, m1, m2]

/-! ### C52 -/

/-- **C52 is false.** `fromsystem` raises an exception on every system, with or without consistency checks. -/
theorem C52_never_returns (ρ : Graph.Rnd) (M : Sys K) (il tl : String) (ignore : Bool) (x : RRF K) :
    RRF.fromSystem ρ M il tl ignore ≠ .ok x := by
  unfold RRF.fromSystem
  simp only [bind, Except.bind]
  cases ignore
  · simp only [Bool.false_eq_true, if_false]
    split <;> simp
  · simp

/-! ### Examples

State 0 has an action leading to 1 and to the goal 2 with probability one half each (reward 1) and one leading to 1
(reward 2), state 1 goes to the goal (reward 3), the goal loops (reward `c`). -/

theorem _root_.Verif.Theory.Core.ofMDP_g {S R : Type} [Fintype S] [DecidableEq S] {M : MDP S R} {hM : M.Valid} {T : Finset S}
    {s : S} {r : R} : (Core.ofMDP M hM T).g s r = if s ∈ T then 1 else 0 := rfl
theorem _root_.Verif.Theory.Core.ofMDP_Q {S R : Type} [Fintype S] [DecidableEq S] {M : MDP S R} {hM : M.Valid} {T : Finset S}
    {s t : S} {r : R} : (Core.ofMDP M hM T).Q s r t = if s ∈ T then 0 else M.P r t := rfl

theorem one_of_target (hw : M.WF) (ht : M.Total) (φ : K →+*o ℝ) {T : Set Nat} {s : Nat} (hs : s < M.N) (hT : s ∈ T) :
    M.prMin φ T s = 1 := by
  classical
  have hv := WF.valid hw φ ht
  have e := sys_prMin_eq φ hv (T := T) (F := univ.filter fun t => t.1 ∈ T) (fun t => by simp) ⟨s, hs⟩
  simp only at e
  rw [e]
  obtain ⟨r, hr, h1⟩ := Core.exists_step_Vmin (Bridge.ok hv _) (Bridge.bound hv (univ.filter fun t : Fin M.N => t.1 ∈ T)) ⟨s, hs⟩
  rw [← h1]
  simp [Core.step, Core.ofMDP, hT]

theorem one_of_step (hw : M.WF) (ht : M.Total) (φ : K →+*o ℝ) {T : Set Nat} {s : Nat} (hs : s < M.N)
    (h : ∀ a i, ((s, a), i) ∈ M.idx → i < M.C → ∀ d, 0 < M.P.get i d → M.prMin φ T d = 1) : M.prMin φ T s = 1 := by
  classical
  by_cases hT : s ∈ T
  · exact one_of_target hw ht φ hs hT
  have hv := WF.valid hw φ ht
  have e := fun s => sys_prMin_eq φ hv (T := T) (F := univ.filter fun t => t.1 ∈ T) (fun t => by simp) s
  have e' := e ⟨s, hs⟩
  simp only at e'
  rw [e']
  obtain ⟨r, hr, h1⟩ := Core.exists_step_Vmin (Bridge.ok hv _) (Bridge.bound hv (univ.filter fun t : Fin M.N => t.1 ∈ T)) ⟨s, hs⟩
  rw [← h1]
  obtain ⟨a, ha⟩ := (mem_filter.1 hr).2
  have h2 : ∀ t : Fin M.N, φ (M.P.get r.1 t.1) * M.prMin φ T t.1 = φ (M.P.get r.1 t.1) := by
    intro t
    rcases (WF.get_nonneg hw r.1 t.1).eq_or_lt with h0 | h0
    · rw [← h0, map_zero, zero_mul]
    · rw [h a r.1 ha r.2 t.1 h0, mul_one]
  have h3 : ∑ t : Fin M.N, φ (M.P.get r.1 t.1) = 1 := hv.sum_one ⟨s, hs⟩ r hr
  have h4 : (⟨s, hs⟩ : Fin M.N) ∉ (univ.filter fun t : Fin M.N => t.1 ∈ T) := by simp [hT]
  unfold Core.step
  simp only [Core.ofMDP_g, Core.ofMDP_Q, if_neg h4, zero_add]
  rw [← h3]
  refine sum_congr rfl fun t _ => ?_
  rw [← e t]
  exact h2 t

end

noncomputable def rwP : Dok ℚ := ⟨4, 3, [((0, 1), 1/2), ((0, 2), 1/2), ((1, 1), 1), ((2, 2), 1), ((3, 2), 1)]⟩
def rwI : Dict (Nat × Nat) Nat := [((0, 0), 0), ((0, 1), 1), ((1, 0), 2), ((2, 0), 3)]
noncomputable def rwSys (c : ℚ) : Sys ℚ :=
  { mkSys rwP rwI (IDict.mk' [("start", [0]), ("goal", [2])] true) with rew := some [1, 2, 3, c] }

theorem rwSys_wf (c : ℚ) : (rwSys c).WF :=
  have w : (mkSys rwP rwI (IDict.mk' [("start", [0]), ("goal", [2])] true)).WF := by
    refine mkSys_wf (by simp [rwP]) ?_ ?_ (by simp [rwI]) (by simp [rwI]) (by decide +kernel)
    · intro e he
      simp only [rwP, List.mem_cons, List.not_mem_nil, or_false] at he
      rcases he with rfl | rfl | rfl | rfl | rfl <;> norm_num [rwP]
    · intro i hi
      have hi : i < 4 := hi
      show ∑ j ∈ Finset.range 3, _ = 1
      interval_cases i <;> simp [Finset.sum_range_succ, rwP, Dok.get, Dict.get?]; norm_num
  ⟨w.nodup, w.range, w.pos, w.sum, w.keys, w.vals, w.graph⟩

theorem rwSys_input {c : ℚ} (hc : 0 ≤ c) : RewardInput (rwSys c) where
  wf := rwSys_wf c
  total := by
    intro s hs
    have hs : s < 3 := hs
    have : ∀ s < 3, ∃ e ∈ rwI, e.1.1 = s ∧ e.2 < 4 := by decide +kernel
    obtain ⟨⟨⟨s', a⟩, i⟩, h1, rfl, h2⟩ := this s hs
    exact ⟨a, i, h1, h2⟩
  labS := ⟨id, [("start", [0]), ("goal", [2])], true, [], fun _ => List.Perm.refl _,
    isPyDict_of (by decide +kernel) (by decide +kernel), rfl⟩
  labA := ⟨id, [], true, [], fun _ => List.Perm.refl _, isPyDict_of (by decide +kernel) (by decide +kernel), rfl⟩
  rew r hr := by
    have hr : some [1, 2, 3, c] = some r := hr
    cases hr
    refine ⟨rfl, ?_⟩
    intro x hx
    simp only [List.mem_cons, List.not_mem_nil, or_false] at hx
    rcases hx with rfl | rfl | rfl | rfl
    exacts [by norm_num, by norm_num, by norm_num, hc]

theorem rwSys_start (c : ℚ) : (rwSys c).statesByLabel "start" = .ok [0] := by
  show (mkSys rwP rwI (IDict.mk' [("start", [0]), ("goal", [2])] true)).statesByLabel "start" = .ok [0]
  decide +kernel

theorem rwSys_goal (c : ℚ) (t : Nat) : t ∈ (rwSys c).labelled "goal" ↔ t = 2 := by
  have : (rwSys c).statesByLabel "goal" = .ok [2] := by
    show (mkSys rwP rwI (IDict.mk' [("start", [0]), ("goal", [2])] true)).statesByLabel "goal" = .ok [2]
    decide +kernel
  rw [← mem_T this]; simp

theorem rwSys_get {i d : Nat} {c : ℚ} (hi : i < 4) (h : 0 < (rwSys c).P.get i d) :
    d = 2 ∨ (d = 1 ∧ i < 2) := by
  obtain ⟨p, hp⟩ := (WF.get_pos_iff (rwSys_wf c)).1 h
  have hp : ((i, d), p) ∈ rwP.items := hp
  simp only [rwP, List.mem_cons, List.not_mem_nil, or_false, Prod.mk.injEq] at hp
  omega

theorem rwSys_one {c : ℚ} (hc : 0 ≤ c) : (rwSys c).prMin ratR ((rwSys c).labelled "goal") 0 = 1 := by
  have hM := rwSys_input hc
  have h2 : (rwSys c).prMin ratR ((rwSys c).labelled "goal") 2 = 1 :=
    one_of_target hM.wf hM.total ratR (by decide : (2 : Nat) < 3) ((rwSys_goal c 2).2 rfl)
  have hI : ∀ a i, ((1, a), i) ∈ rwI → i = 2 := by
    intro a i h
    simp only [rwI, List.mem_cons, List.not_mem_nil, or_false, Prod.mk.injEq] at h
    omega
  have h1 : (rwSys c).prMin ratR ((rwSys c).labelled "goal") 1 = 1 := by
    refine one_of_step hM.wf hM.total ratR (by decide : (1 : Nat) < 3) fun a i hi hC d hd => ?_
    have := hI a i hi
    rcases rwSys_get hC hd with rfl | ⟨rfl, hlt⟩
    · exact h2
    · omega
  refine one_of_step hM.wf hM.total ratR (by decide : (0 : Nat) < 3) fun a i hi hC d hd => ?_
  rcases rwSys_get hC hd with rfl | ⟨rfl, -⟩
  exacts [h2, h1]

/-- the hypotheses of the theorems above are met: `reduce` returns on this system -/
theorem rwSys_ok {c : ℚ} (hc : 0 ≤ c) (ρ ρ' : Graph.Rnd) : ∃ res, RRF.reduce ρ ρ' (rwSys c) "start" "goal" = .ok res := by
  refine (C51_returns_iff (rwSys_input hc) (rwSys_start c) ⟨2, (rwSys_goal c 2).2 rfl, ?_⟩ ?_ ?_ ?_ (Or.inl rfl) rfl rfl
    (fun g => by cases g) ratR).2 (rwSys_one hc)
  · refine Relation.ReflTransGen.single ⟨0, 0, by simp [rwSys, mkSys, rwI], (by decide : (0 : Nat) < 4), ?_⟩
    rw [WF.get_pos_iff (rwSys_wf c)]
    exact ⟨1/2, by simp [rwSys, mkSys, rwP]⟩
  · intro t ht
    rw [rwSys_goal] at ht
    subst ht
    exact (by decide : (2 : Nat) < 3)
  · show "rf_target" ∉ ((IDict.mk' [("start", [0]), ("goal", [2])] true : IDict String Nat).d.keys)
    decide +kernel
  · show "rf_fail" ∉ ((IDict.mk' [("start", [0]), ("goal", [2])] true : IDict String Nat).d.keys)
    decide +kernel

/-- the initial state is kept -/
theorem rwSys_kept {c : ℚ} (hc : 0 ≤ c) {ρ ρ' : Graph.Rnd} {res : RRF.Result ℚ}
    (h : RRF.reduce ρ ρ' (rwSys c) "start" "goal" = .ok res) : ∃ s', res.cols.get? 0 = some s' := by
  have hM := rwSys_input hc
  obtain ⟨T, j, mask, v, v', hR, hrf, -⟩ := rrf_reduce hM.wf hM.total hM.labS.inv hM.labA.inv hM.rew' h
  obtain ⟨i', hi'⟩ := hR.init_kept hrf
  have hij : j = 0 := by
    have := hR.hi
    rw [rwSys_start] at this
    cases this; rfl
  subst hij
  exact ⟨i', Dict.get?_of_mem hR.red.maps.nd hi'⟩

/-- **C51 is false** as stated: there is a system on which `reduce` returns and both expected rewards of the initial
state change (by the reward one of the self loop in the target state). -/
theorem C51_false : ∃ (M : Sys ℚ) (res : RRF.Result ℚ) (s' : Nat), RewardInput M ∧
    RRF.reduce exRnd exRnd M "start" "goal" = .ok res ∧ res.cols.get? 0 = some s' ∧
    res.rrf.rf.sys.rewMax ratR (res.rrf.rf.sys.labelled "rf_target") s' ≠ M.rewMax ratR (M.labelled "goal") 0 ∧
    res.rrf.rf.sys.rewMin ratR (res.rrf.rf.sys.labelled "rf_target") s' ≠ M.rewMin ratR (M.labelled "goal") 0 := by
  have hM := rwSys_input (c := 1) zero_le_one
  obtain ⟨res, h⟩ := rwSys_ok (c := 1) zero_le_one exRnd exRnd
  obtain ⟨s', hs⟩ := rwSys_kept zero_le_one h
  obtain ⟨h1, h2⟩ := C51_shift_partial hM h ratR (c := 1) (fun t ht a i hi => by
    rw [rwSys_goal] at ht
    subst ht
    have hi : ((2, a), i) ∈ rwI := hi
    simp only [rwI, List.mem_cons, List.not_mem_nil, or_false, Prod.mk.injEq] at hi
    obtain rfl : i = 3 := by omega
    exact map_one ratR) hs
  refine ⟨rwSys 1, res, s', hM, h, hs, ?_, ?_⟩
  · rw [h1]; intro hc; linarith
  · rw [h2]; intro hc; linarith

/-- the hypotheses of `C51_zero_partial` are met -/
example : ∃ (res : RRF.Result ℚ) (s' : Nat), RewardInput (rwSys 0) ∧
    RRF.reduce exRnd exRnd (rwSys 0) "start" "goal" = .ok res ∧ res.cols.get? 0 = some s' ∧
    ∀ t ∈ (rwSys 0).labelled "goal", ∀ a i, ((t, a), i) ∈ (rwSys 0).idx → (rwSys 0).rewardAt ratR i = 0 := by
  obtain ⟨res, h⟩ := rwSys_ok (c := 0) le_rfl exRnd exRnd
  obtain ⟨s', hs⟩ := rwSys_kept le_rfl h
  refine ⟨res, s', rwSys_input le_rfl, h, hs, fun t ht a i hi => ?_⟩
  rw [rwSys_goal] at ht
  subst ht
  have hi : ((2, a), i) ∈ rwI := hi
  simp only [rwI, List.mem_cons, List.not_mem_nil, or_false, Prod.mk.injEq] at hi
  obtain rfl : i = 3 := by omega
  exact map_zero ratR

/-- C52: a system that passes the consistency checks of `fromsystem`, on which it nevertheless raises -/
example : RRF.assertSystem exRnd (rwSys 0) "start" "goal" = .ok () ∧
    ∀ x, RRF.fromSystem exRnd (rwSys 0) "start" "goal" false ≠ .ok x :=
  ⟨by decide +kernel, C52_never_returns _ _ _ _ _⟩

end Verif.Props
