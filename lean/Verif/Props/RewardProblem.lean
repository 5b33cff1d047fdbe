import Verif.Proofs.RewardProblem
import Verif.Props.Reward
import Verif.Props.QSHeur
/-!
# C37, C61: upper bounds and exact minimisation for reward forms

For a set `U` of states of a reward form, `Inside x mode U s` is the optimal expected reward that is collected from
`s` before the target is reached or `U` is left.
-/
set_option linter.unusedSectionVars false

namespace Verif.Props
open Verif.Model Verif.Spec Verif.Proofs Verif.Theory Finset

variable {K : Type} [Field K] [LinearOrder K] [IsStrictOrderedRing K] {M : Sys K} {ρ ρ' : Graph.Rnd} {il tl : String} {res : RRF.Result K} {t : K} {mode : Mode}
  {A : Mat K} {b : List K} {lpSolver solver : Milp K → Answer K} {labels : Option (List String)} {be : Backend}

/-- optimal expected reward collected before reaching `T` -/
noncomputable def _root_.Verif.Model.Sys.rewOpt (φ : K →+*o ℝ) (M : Sys K) (mode : Mode) (T : Set Nat) (s : Nat) : ℝ :=
  match mode with
  | .min => M.rewMin φ T s
  | .max => M.rewMax φ T s

/-- optimal expected reward collected before reaching the target or leaving `U` -/
noncomputable def Inside (φ : K →+*o ℝ) (M : Sys K) (mode : Mode) (U : Nat → Prop) (s : Nat) : ℝ :=
  M.rewOpt φ mode (M.labelled "rf_target" ∪ {s | ¬ U s}) s

theorem RewBuilt.inside_min (bt : RewBuilt M il tl res) (φ : K →+*o ℝ) (U : Nat → Prop) (s : Fin res.rrf.rf.N) :
    Inside φ res.rrf.rf.sys .min U s.1 = ((bt.ok.core φ).restrict {s | U s.1}).Vmin s := by
  obtain ⟨v, h1, h2, h3⟩ := bt.rew
  have := bt.ok.rewMin_inside φ h1 h2 h3 U s
  rw [bt.target] at this
  exact this

theorem RewBuilt.inside_max (bt : RewBuilt M il tl res) (φ : K →+*o ℝ) (U : Nat → Prop) (s : Fin res.rrf.rf.N) :
    Inside φ res.rrf.rf.sys .max U s.1 = ((bt.ok.core φ).restrict {s | U s.1}).Vmax s := by
  obtain ⟨v, h1, h2, h3⟩ := bt.rew
  have := bt.ok.rewMax_inside φ h1 h2 h3 U s
  rw [bt.target] at this
  exact this

/-! ### C37 -/

theorem rfark_bounded (bt : RewBuilt M il tl res) (φ : K →+*o ℝ) (hA : res.rrf.form.fark t mode = .ok (A, b)) :
    ∃ B, ∀ x, InFark A b x → ∑ j ∈ range A.cols, x j ≤ B := by
  have hc := (rrf_fark bt.ok hA).1
  cases mode with
  | max =>
    obtain ⟨B, hB⟩ := bt.ok.ok.flow_bounded φ bt.ok.ecFree bt.init
    obtain ⟨n, hn⟩ := exists_nat_ge B
    refine ⟨n, fun x hx => ?_⟩
    obtain ⟨h1, h2, -⟩ := (rfark_y hA x).1 hx
    rw [hc, ← (phi_strict φ).le_iff_le, map_natCast]
    exact le_trans (hB x h1 h2) hn
  | min =>
    obtain ⟨B, hB⟩ := bt.ok.exists_bound φ
    obtain ⟨z, -, hz, -⟩ := exists_rewMin bt.ok φ
    refine ⟨∑ s ∈ range res.rrf.rf.N, z.getD s 0, fun x hx => ?_⟩
    obtain ⟨-, h2, -⟩ := (rfark_z hA x).1 hx
    rw [hc]
    refine sum_le_sum fun s hs => ?_
    rw [← (phi_strict φ).le_iff_le, hz ⟨s, mem_range.1 hs⟩]
    exact Core.le_Vmin_of_transient (bt.ok.qsub φ) (bt.ok.transient φ) hB (z := RFOK.vec φ x)
      ((bt.ok.zrow_le_iff φ x).1 h2) ⟨s, mem_range.1 hs⟩

/-- **C37 for reward forms**: if bounds are computed, they bound all certificates. -/
theorem C37_reward (hM : RewardInput M) (h : RRF.reduce ρ ρ' M il tl = .ok res)
    (hA : res.rrf.farkConstraints t mode = .ok (A, b)) (hs : ∀ lp, (solver lp).Sound lp) {u : List K}
    (hu : computeUpperBounds solver A b = .ok (.optimal, u)) :
    u.length = A.cols ∧ (∃ x, InFark A b x) ∧ ∀ x, InFark A b x → ∀ j < A.cols, x j ≤ u.getD j 0 := by
  obtain ⟨-, h2, h3⟩ := rrf_fark (rew_built hM h).ok hA
  exact C37_bounds h2 h3 hs hu

/-- **C37 for reward forms**: a solver that finds optima yields bounds unless there is no certificate. -/
theorem C37_reward_computed (hM : RewardInput M) (h : RRF.reduce ρ ρ' M il tl = .ok res) (φ : K →+*o ℝ)
    (hA : res.rrf.farkConstraints t mode = .ok (A, b)) (hs : ∀ lp, (solver lp).Exact lp) :
    ((∃ x, InFark A b x) ∧ ∃ u, computeUpperBounds solver A b = .ok (.optimal, u)) ∨
    ((∀ x, ¬ InFark A b x) ∧ ∃ u, computeUpperBounds solver A b = .ok (.infeasible, u)) := by
  obtain ⟨B, hB⟩ := rfark_bounded (rew_built hM h) φ hA
  exact computed_of_bounded (rrf_fark (rew_built hM h).ok hA).2.1 hB hs

/-! ### C61 -/

theorem inside_of_fark (bt : RewBuilt M il tl res) (φ : K →+*o ℝ) (hA : res.rrf.form.fark t mode = .ok (A, b)) {x : Nat → K}
    (hx : InFark A b x) {U : Nat → Prop} (hU : ∀ s, selF res.rrf.rf mode x s → U s) :
    φ t ≤ Inside φ res.rrf.rf.sys mode U res.rrf.rf.initial := by
  obtain ⟨B, hB⟩ := bt.ok.exists_bound φ
  cases mode with
  | min =>
    obtain ⟨h1, h2, h3⟩ := (rfark_z hA x).1 hx
    have := bt.inside_min φ U ⟨_, bt.init⟩
    simp only at this
    rw [this]
    refine le_trans ((phi_strict φ).monotone h3) (Core.primal_restrict (bt.ok.qsub φ) (bt.ok.transient φ) hB (z := RFOK.vec φ x)
      ((bt.ok.zrow_le_iff φ x).1 h2) (fun s hs => ?_) ⟨res.rrf.rf.initial, bt.init⟩)
    by_contra hn
    rw [not_le, RFOK.vec, ← map_zero φ, (phi_strict φ).lt_iff_lt] at hn
    exact hs (hU _ ⟨s.2, hn⟩)
  | max =>
    obtain ⟨h1, h2, h3⟩ := (rfark_y hA x).1 hx
    have := bt.inside_max φ U ⟨_, bt.init⟩
    simp only at this
    rw [this]
    have hb := (bt.ok.ok.yrow_le_iff φ bt.init x 0).1 (by simpa using h2)
    simp only [map_zero, add_zero] at hb
    have h3 := (phi_strict φ).monotone h3
    rw [bt.ok.rgain_eq φ x] at h3
    refine le_trans h3 (Core.dual_restrict (bt.ok.qsub φ).toOK hB
      (fun s r _ => by rw [RFOK.vecY, ← map_zero φ, (phi_strict φ).le_iff_le]; exact h1 r.1 r.2) hb fun s r hr hne => ?_)
    exact hU _ ⟨r.1, r.2, (bt.ok.ok.mem_rows φ).1 hr, lt_of_le_of_ne (h1 r.1 r.2) fun h0 => hne (by rw [RFOK.vecY, ← h0, map_zero])⟩

theorem restrict_over {S R : Type} [Fintype S] {C : Core S R} {φ : K →+*o ℝ} (h : C.Over φ) (U : Set S) : (C.restrict U).Over φ := by
  classical
  refine ⟨fun s r => ?_, fun s r t => ?_⟩
  · unfold Core.restrict
    simp only
    split
    exacts [h.1 s r, ⟨0, map_zero φ⟩]
  · unfold Core.restrict
    simp only
    split
    exacts [h.2 s r t, ⟨0, map_zero φ⟩]

theorem fark_of_inside (bt : RewBuilt M il tl res) (φ : K →+*o ℝ) (hA : res.rrf.form.fark t mode = .ok (A, b)) {U : Nat → Prop}
    (hU : φ t ≤ Inside φ res.rrf.rf.sys mode U res.rrf.rf.initial) :
    ∃ x, InFark A b x ∧ ∀ s, selF res.rrf.rf mode x s → U s := by
  obtain ⟨B, hB⟩ := bt.ok.exists_bound φ
  have hq := bt.ok.qsub φ
  cases mode with
  | min =>
    have := bt.inside_min φ U ⟨_, bt.init⟩
    simp only at this
    rw [this] at hU
    obtain ⟨c1, c2, c3⟩ := Core.restrict_Vmin_cert (U := {s : Fin res.rrf.rf.N | U s.1}) hq hB
    obtain ⟨z, hl, hz, hz0⟩ := exists_zvec φ (Core.Vmin_mem_transient (Core.restrict_qsub (U := {s : Fin res.rrf.rf.N | U s.1}) hq)
      (Core.restrict_transient hq (bt.ok.transient φ)) (Core.restrict_bound hq.toOK hB) (restrict_over (rcore_over bt.ok φ) _))
    have hvec : RFOK.vec φ (fun j => z.getD j 0) = ((bt.ok.core φ).restrict {s | U s.1}).Vmin := funext hz
    refine ⟨fun j => z.getD j 0, (rfark_z hA _).2 ⟨fun s hs => ?_, (bt.ok.zrow_le_iff φ _).2 fun s r hr => ?_, ?_⟩, fun s hs => ?_⟩
    · rw [List.getD_eq_getElem _ _ (by omega)]; exact hz0 c1 _ (List.getElem_mem _)
    · rw [hvec]; exact c3 s r hr
    · rw [← (phi_strict φ).le_iff_le, hz ⟨_, bt.init⟩]; exact hU
    · obtain ⟨h1, h2⟩ := hs
      by_contra hn
      rw [← (phi_strict φ).lt_iff_lt, map_zero, hz ⟨s, h1⟩, c2 ⟨s, h1⟩ hn] at h2
      exact lt_irrefl _ h2
  | max =>
    have := bt.inside_max φ U ⟨_, bt.init⟩
    simp only at this
    rw [this] at hU
    obtain ⟨y, y0, yb, yg, yU⟩ := Core.exists_dual_restrict hq (bt.ok.transient φ) hB {s | U s.1} ⟨_, bt.init⟩
    obtain ⟨y', p1, p2, p3, -, p5⟩ := Core.exists_flow_mem (rcore_over bt.ok φ) y0 (d := fun t => if t = ⟨_, bt.init⟩ then 1 else 0)
      (fun t => ite_mem φ (t = ⟨_, bt.init⟩)) (by
        rw [yg]
        exact Core.Vmax_mem (Core.restrict_ok hq.toOK) (Core.restrict_bound hq.toOK hB) (restrict_over (rcore_over bt.ok φ) _) _)
    obtain ⟨v, hl, hv0, hve, hb, -⟩ := exists_vec bt.ok.ok φ p1
    have hgain : φ (rgain res.rrf (fun j => v.getD j 0)) = (bt.ok.core φ).gain y := by
      rw [bt.ok.rgain_eq φ, ← p2]
      exact sum_congr rfl fun s _ => sum_congr rfl fun r hr => congrArg (· * _) (congrArg φ (hve s r hr))
    refine ⟨fun j => v.getD j 0, (rfark_y hA _).2 ⟨fun i hi => ?_, fun j hj => ?_, ?_⟩, ?_⟩
    · rw [List.getD_eq_getElem _ _ (by rw [hl]; exact hi)]
      exact hv0 _ (List.getElem_mem _)
    · have := (bt.ok.ok.yrow_le_iff φ bt.init (fun j => v.getD j 0) 0).2 (fun s => by
        rw [hb, map_zero, add_zero]; exact p3 s (yb s)) j hj
      linarith
    · rw [← (phi_strict φ).le_iff_le, hgain, yg]; exact hU
    · rintro s ⟨i, hi, hr, hp⟩
      obtain ⟨a, ha⟩ := (bt.ok.ok.rowState_iff hi).1 hr
      have hs := bt.ok.ok.state_lt hi ha
      have := hve ⟨s, hs⟩ ⟨i, hi⟩ ((bt.ok.ok.mem_rows φ).2 hr)
      simp only at this hp
      rw [this] at hp
      exact yU ⟨s, hs⟩ ⟨i, hi⟩ fun h0 => hp.ne' (p5 _ _ h0)

/-- the solver is correct and answers definitely when asked for the upper bounds -/
def Decides (x : RRF K) (t : K) (mode : Mode) (lpSolver : Milp K → Answer K) : Prop :=
  (∀ lp, (lpSolver lp).Sound lp) ∧ ∀ A b lp, x.farkConstraints t mode = .ok (A, b) → upperBoundLP A b = .ok lp →
    (lpSolver lp).status ≠ .undefined ∧ (lpSolver lp).status ≠ .notsolved

/-- a solver that finds optima and notices infeasibility does -/
theorem decides_of_exact (bt : RewBuilt M il tl res) (φ : K →+*o ℝ) (hs : ∀ lp, (lpSolver lp).Exact lp) : Decides res.rrf t mode lpSolver := by
  refine ⟨fun lp => (hs lp).toSound, fun A b lp hA hlp => ?_⟩
  obtain ⟨B, hB⟩ := rfark_bounded bt φ hA
  have h0 : ∀ st u, computeUpperBounds lpSolver A b = .ok (st, u) → (lpSolver lp).status = st := by
    intro st u h
    unfold computeUpperBounds at h
    rw [hlp] at h
    simp only [bind, Except.bind] at h
    split at h
    · cases h
    · split at h <;>
      · simp only [Except.ok.injEq, Prod.mk.injEq] at h
        exact h.1
  rcases computed_of_bounded (rrf_fark bt.ok hA).2.1 hB hs with ⟨-, u, hu⟩ | ⟨-, u, hu⟩
  · rw [h0 _ _ hu]; decide
  · rw [h0 _ _ hu]; decide

/-- in this situation the groups can be built -/
def Grouped (mode : Mode) (labels : Option (List String)) : Prop := mode = .min ∨ labels ≠ none

theorem groups_same (hg : Grouped mode labels) (g : Bool) :
    groupsFromLabels res.rrf.form mode labels g = groupsFromLabels res.rrf.rf.form mode labels g := by
  cases mode with
  | min => cases labels <;> rfl
  | max =>
    cases labels with
    | none => rcases hg with hg | hg <;> simp at hg
    | some ls => rfl

theorem rew_exact_built (bt : RewBuilt M il tl res) (hlp : Decides res.rrf t mode lpSolver) {m : Milp K} {ind : List (Nat × List Nat)}
    (hc : constructMILP res.rrf.form lpSolver t mode labels false none be = .ok (some (m, ind))) :
    ∃ A b u groups, res.rrf.form.fark t mode = .ok (A, b) ∧ A.cols = res.rrf.form.certSize mode ∧
      groupsFromLabels res.rrf.form mode labels (decide (mode = .max ∧ false = false)) = .ok groups ∧
      Proofs.Built res.rrf.form mode false A b (some u) groups m ind ∧
      (∀ g ∈ groups, ∀ w ∈ g, w < res.rrf.form.certSize mode) ∧
      ∀ x, InFark A b x → ∀ j < res.rrf.form.certSize mode, x j ≤ u.getD j 0 := by
  obtain ⟨A, b, ub, groups, h1, h2, h3, h4, h5, h6⟩ :=
    construct_inv (fun A b hA => rrf_fark bt.ok hA) hlp.1 hc
  have hub : ∃ u, ub = some u := by
    unfold chooseBounds at h2
    rw [if_neg (by rintro ⟨-, g, -⟩; cases g), if_pos (by rfl)] at h2
    simp only [bind, Except.bind] at h2
    split at h2
    · cases h2
    rename_i p hp
    obtain ⟨st, u'⟩ := p
    unfold computeUpperBounds at hp
    simp only [bind, Except.bind] at hp
    split at hp
    · cases hp
    rename_i lp hlp'
    obtain ⟨n1, n2⟩ := hlp.2 A b lp h1 hlp'
    have hst : (lpSolver lp).status = st ∧ st ≠ .unbounded := by
      split at hp
      · cases hp
      · rename_i hun
        split at hp <;>
        · simp only [Except.ok.injEq, Prod.mk.injEq] at hp
          exact ⟨hp.1, by rw [← hp.1]; exact hun⟩
    rw [hst.1] at n1 n2
    cases st with
    | optimal => cases h2; exact ⟨_, rfl⟩
    | infeasible => cases h2
    | unbounded => exact absurd rfl hst.2
    | undefined => exact absurd rfl n1
    | notsolved => exact absurd rfl n2
  obtain ⟨u, rfl⟩ := hub
  obtain ⟨h7, h8⟩ := h6 u rfl
  refine ⟨A, b, u, groups, h1, (rrf_fark bt.ok h1).1, h3, h5, fun g hg w hw => ?_, ?_⟩
  · have := h5.bound u rfl g hg w hw
    omega
  · rcases h8 with ⟨-, g, -⟩ | h8
    · cases g
    · exact h8

theorem rew_poly (hA : A.cols = res.rrf.form.certSize mode) {u : List K}
    (hu : ∀ x, InFark A b x → ∀ j < res.rrf.form.certSize mode, x j ≤ u.getD j 0) {x : Nat → K} (hx : InFark A b x) :
    InPoly res.rrf.form mode A b (some u) x :=
  ⟨fun j hj => hx.nonneg j (by omega), by rintro u' ⟨⟩; exact hu x hx, (fun _ _ _ g => nomatch g), hx.rows⟩

/-- `k` is the cost of a set of states inside of which the threshold is met -/
def RewWitness (φ : K →+*o ℝ) (M : Sys K) (il : String) (mode : Mode) (t : K) (labels : Option (List String)) (k : Nat) : Prop :=
  ∃ (U : Nat → Prop) (i : Nat), M.statesByLabel il = .ok [i] ∧ cost M labels U = k ∧ φ t ≤ Inside φ M mode U i

/-- **C61.** Exact minimisation on a reward form, in minimal mode or with labels, with correct solvers of which the one
for the upper bounds answers definitely.  A success carries a certificate; the states it selects collect at least
the threshold; the value is their number (the number of their labels), and no set of states inside of which the
threshold is met has a smaller one.  `infeasible` is answered only if there is no such set. -/
theorem C61_exact (hM : RewardInput M) (h : RRF.reduce ρ ρ' M il tl = .ok res) (φ : K →+*o ℝ)
    (hlp : Decides res.rrf t mode lpSolver) (hs : ∀ m, (solver m).Sound m) {r : ProblemResult (RRF.Sub K) K}
    (hr : r ∈ (solveIter res.rrf.form t (milpExact res.rrf.form lpSolver solver t mode labels be)).1) :
    (r.status = .success → Grouped mode labels ∧
      ∃ (cert : List K) (k i : Nat), r = ⟨.success, some ⟨res.rrf, cert, mode⟩, some (k : K), some cert⟩ ∧
        (∀ c ∈ cert, 0 ≤ c) ∧ k = cost res.rrf.rf.sys labels (Selected res.rrf.rf.sys mode cert) ∧
        res.rrf.rf.sys.statesByLabel il = .ok [i] ∧
        φ t ≤ Inside φ res.rrf.rf.sys mode (Selected res.rrf.rf.sys mode cert) i ∧
        ∀ k', RewWitness φ res.rrf.rf.sys il mode t labels k' → k ≤ k') ∧
    (r.status = .failed .infeasible → ∀ k', ¬ RewWitness φ res.rrf.rf.sys il mode t labels k') := by
  obtain ⟨hr, h0, -⟩ := solveIter_mem hr
  have bt := rew_built hM h
  refine ⟨fun hst => ?_, fun hst k' hw => ?_⟩
  · obtain ⟨m, ind, w, hc, ho, hw, rfl⟩ := exact_success hr hst
    obtain ⟨A, b, u, groups, g1, g2, g3, g4, g5, g6⟩ := rew_exact_built bt hlp hc
    have hG : Grouped mode labels := by
      cases mode with
      | min => exact Or.inl rfl
      | max =>
        refine Or.inr fun hl => ?_
        subst hl
        obtain ⟨a, r0, q1, q2⟩ := bt.ok.ok.exists_row bt.init
        have : (groupsByState res.rrf.form) = .error .attributeError := by
          unfold groupsByState
          have hpos : 0 < res.rrf.form.certSize .max := lt_of_le_of_lt (Nat.zero_le _) q2
          obtain ⟨n, hn⟩ : ∃ n, res.rrf.form.certSize .max = n + 1 := ⟨_, (Nat.succ_pred_eq_of_pos hpos).symm⟩
          rw [hn, List.range_succ_eq_map, List.foldlM_cons]
          rfl
        simp only [groupsFromLabels, this] at g3
        cases g3
    have hlen : ((solver m).vec.take (res.rrf.form.certSize mode)).length = res.rrf.form.certSize mode := by
      rw [List.length_take, ((hs m).optimal ho).2.1, g4.vars]; omega
    obtain ⟨o1, o2, o3⟩ := (hs m).optimal ho
    obtain ⟨p1, p2, p3⟩ := opt_groups g2 g4 g5 o1
    have etake : ∀ j < res.rrf.form.certSize mode,
        ((solver m).vec.take (res.rrf.form.certSize mode)).getD j 0 = (solver m).vec.getD j 0 := by
      intro j hj
      rw [List.getD_eq_getElem?_getD, List.getElem?_take_of_lt hj, List.getD_eq_getElem?_getD]
    set cert := (solver m).vec.take (res.rrf.form.certSize mode) with hcert
    have q1 := p1.congr g2 etake
    have hF : InFark A b (fun j => cert.getD j 0) := ⟨fun j hj => q1.nonneg j (by omega), q1.rows⟩
    have hsel : selF res.rrf.rf mode (fun j => cert.getD j 0) = Selected res.rrf.rf.sys mode cert :=
      funext fun s => propext (selF_iff bt.ok.ok hlen s)
    rw [groups_same hG] at g3
    have ek : usedGroups groups (fun j => (solver m).vec.getD j 0) =
        cost res.rrf.rf.sys labels (Selected res.rrf.rf.sys mode cert) := by
      rw [← usedGroups_congr g5 etake, used_eq_cost bt.ok.ok g3 g5, hsel]
    have hsub : w = ⟨res.rrf, cert, mode⟩ := by
      have hw : res.rrf.mkSub cert mode = .ok w := hw
      unfold RRF.mkSub at hw
      cases mode <;>
      · simp only at hw
        split at hw <;> cases hw
        rfl
    refine ⟨hG, cert, usedGroups groups (fun j => (solver m).vec.getD j 0), res.rrf.rf.initial, ?_, fun c hcm => ?_, ek,
      bt.initL, ?_, ?_⟩
    · rw [o3, p2, hsub]
    · obtain ⟨j, hj, rfl⟩ := List.mem_iff_getElem.1 hcm
      have := hF.nonneg j (by omega)
      rwa [List.getD_eq_getElem _ _ hj] at this
    · rw [← hsel]
      exact inside_of_fark bt φ g1 hF fun _ hs => hs
    · rintro k' ⟨U, i, hi, rfl, hU⟩
      rw [bt.initL] at hi
      cases hi
      obtain ⟨x, hx, hxU⟩ := fark_of_inside bt φ g1 hU
      refine le_trans (p3 x (rew_poly g2 g6 hx)) ?_
      rw [used_eq_cost bt.ok.ok g3 g5]
      exact cost_mono _ _ hxU
  · obtain ⟨U, i, hi, -, hU⟩ := hw
    rw [bt.initL] at hi
    cases hi
    rcases exact_infeasible hr hst with hc | ⟨m, ind, hc, hinf⟩
    · obtain ⟨A, b, g1, -, -, g2⟩ := construct_none (fun A b hA => (rrf_fark bt.ok hA).2.1) hlp.1 hc
      obtain ⟨x, hx, -⟩ := fark_of_inside bt φ g1 hU
      exact g2 x hx
    · obtain ⟨A, b, u, groups, g1, g2, g3, g4, g5, g6⟩ := rew_exact_built bt hlp hc
      obtain ⟨x, hx, -⟩ := fark_of_inside bt φ g1 hU
      exact (hs m).infeasible hinf _ (complete_feasible g2 g4 g5 (rew_poly g2 g6 hx))

theorem max_unlabelled_groups (bt : RewBuilt M il tl res) : groupsByState res.rrf.form = .error .attributeError := by
  obtain ⟨a, r0, q1, q2⟩ := bt.ok.ok.exists_row bt.init
  unfold groupsByState
  have hpos : 0 < res.rrf.form.certSize .max := lt_of_le_of_lt (Nat.zero_le _) q2
  obtain ⟨n, hn⟩ : ∃ n, res.rrf.form.certSize .max = n + 1 := ⟨_, (Nat.succ_pred_eq_of_pos hpos).symm⟩
  rw [hn, List.range_succ_eq_map, List.foldlM_cons]
  rfl

theorem rew_fark_ok (bt : RewBuilt M il tl res) (t : K) (mode : Mode) :
    ∃ A b, res.rrf.form.fark t mode = .ok (A, b) := by
  cases mode with
  | min =>
    show ∃ A b, res.rrf.farkZ t = .ok (A, b)
    unfold RRF.farkZ
    rw [if_pos (show res.rrf.rf.initial < res.rrf.N from bt.init)]
    exact ⟨_, _, rfl⟩
  | max =>
    show ∃ A b, res.rrf.farkY t = .ok (A, b)
    unfold RRF.farkY
    rw [if_pos (show res.rrf.rf.initial < res.rrf.N from bt.init), if_pos (show res.rrf.rew.length = res.rrf.C from bt.ok.len)]
    exact ⟨_, _, rfl⟩

/-- **C61.** With solvers that solve every problem there is exactly one result: a success or `infeasible`. -/
theorem C61_returns (hM : RewardInput M) (h : RRF.reduce ρ ρ' M il tl = .ok res) (φ : K →+*o ℝ)
    (hlp : ∀ lp, (lpSolver lp).Exact lp) (hs : ∀ m, (solver m).Exact m) (ht : 0 ≤ t) (hG : mode = .min ∨ labels ≠ none)
    (hl : ∀ ls, labels = some ls → ∀ l ∈ ls, (∃ ss, res.rrf.rf.sys.statesByLabel l = .ok ss) ∧
      ∀ s ∈ res.rrf.rf.sys.labelled l, s < res.rrf.rf.sys.N - 2) :
    ∃ r, solveIter res.rrf.form t (milpExact res.rrf.form lpSolver solver t mode labels .pulp) = ([r], none) ∧
      (r.status = .success ∨ r.status = .failed .infeasible) := by
  have bt := rew_built hM h
  have hG : Grouped mode labels := hG
  obtain ⟨A, b, hA⟩ := rew_fark_ok bt t mode
  obtain ⟨f1, f2, f3⟩ := rrf_fark bt.ok hA
  obtain ⟨groups, hg, hlt⟩ := groups_ok bt.ok.ok mode (labels := labels) hl (decide (mode = .max ∧ false = false))
  rw [← groups_same hG] at hg
  have hrun : solveIter res.rrf.form t (milpExact res.rrf.form lpSolver solver t mode labels .pulp) =
      milpExact res.rrf.form lpSolver solver t mode labels .pulp := by
    unfold solveIter
    rw [if_pos ht, if_pos (fun g => nomatch g)]
  rw [hrun]
  have hbd : chooseBounds res.rrf.form lpSolver mode A b none = .ok none ∨
      ∃ u, chooseBounds res.rrf.form lpSolver mode A b none = .ok (some (some u)) ∧ u.length = res.rrf.form.certSize mode := by
    unfold chooseBounds
    rw [if_neg (by rintro ⟨-, g, -⟩; cases g), if_pos (by rfl)]
    rcases C37_reward_computed hM h φ hA hlp with ⟨-, u, hu⟩ | ⟨-, u, hu⟩
    · refine Or.inr ⟨u, by rw [hu]; rfl, ?_⟩
      rw [(C37_reward hM h hA (fun lp => (hlp lp).toSound) hu).1, f1]
    · exact Or.inl (by rw [hu]; rfl)
  rcases hbd with hbd | ⟨u, hbd, hul⟩
  · have : constructMILP res.rrf.form lpSolver t mode labels false none .pulp = .ok none := by
      unfold constructMILP
      rw [hA]
      simp only [bind, Except.bind, hbd]
    refine ⟨failure .infeasible, ?_, Or.inr rfl⟩
    unfold milpExact
    rw [this]
  · obtain ⟨m, ind, hb⟩ := buildMILP_ok (f := res.rrf.form) (be := .pulp) (ub := some u) (relaxed := false) f1 f2
      (fun g => nomatch g) (fun g => nomatch g.2.2) hg (by rintro u' ⟨⟩; exact hul.ge) hlt
    have hc : constructMILP res.rrf.form lpSolver t mode labels false none .pulp = .ok (some (m, ind)) := by
      unfold constructMILP
      rw [hA]
      simp only [bind, Except.bind, hbd, hb]
    obtain ⟨A', b', u', groups', g1, g2, g3, g4, g5, -⟩ := rew_exact_built bt (decides_of_exact bt φ hlp) hc
    unfold milpExact
    rw [hc]
    simp only
    by_cases hne : ∃ y, InPoly res.rrf.form mode A' b' (some u') y
    · have hst := (hs m).optimal' ((exists_opt g2 g4 g5).2 hne)
      rw [if_pos hst]
      have hlen : ((solver m).vec.take (res.rrf.form.certSize mode)).length = res.rrf.form.certSize mode := by
        rw [List.length_take, ((hs m).optimal hst).2.1, g4.vars]; omega
      have : ∃ w, res.rrf.form.mkSub ((solver m).vec.take (res.rrf.form.certSize mode)) mode = .ok w := by
        cases mode with
        | min => exact ⟨_, if_pos hlen⟩
        | max => exact ⟨_, if_pos hlen⟩
      obtain ⟨w, hw⟩ := this
      rw [hw]
      exact ⟨_, rfl, Or.inl rfl⟩
    · have hst := (hs m).infeasible' fun x hx => hne ((feasible_iff g2 g4 g5).1 ⟨x, hx⟩)
      rw [if_neg (by rw [hst]; decide), hst]
      exact ⟨_, rfl, Or.inr rfl⟩

/-- **C61.** ... and it is a success exactly if the whole form meets the threshold. -/
theorem C61_feasible_iff (hM : RewardInput M) (h : RRF.reduce ρ ρ' M il tl = .ok res) (φ : K →+*o ℝ)
    (hlp : ∀ lp, (lpSolver lp).Exact lp) (hs : ∀ m, (solver m).Exact m) (ht : 0 ≤ t) (hG : mode = .min ∨ labels ≠ none)
    (hl : ∀ ls, labels = some ls → ∀ l ∈ ls, (∃ ss, res.rrf.rf.sys.statesByLabel l = .ok ss) ∧
      ∀ s ∈ res.rrf.rf.sys.labelled l, s < res.rrf.rf.sys.N - 2) :
    ∃ r i, solveIter res.rrf.form t (milpExact res.rrf.form lpSolver solver t mode labels .pulp) = ([r], none) ∧
      res.rrf.rf.sys.statesByLabel il = .ok [i] ∧
      (r.status = .success ↔ φ t ≤ res.rrf.rf.sys.rewOpt φ mode (res.rrf.rf.sys.labelled "rf_target") i) := by
  have bt := rew_built hM h
  obtain ⟨r, hr, hst⟩ := C61_returns hM h φ hlp hs ht hG hl
  have hm : r ∈ (solveIter res.rrf.form t (milpExact res.rrf.form lpSolver solver t mode labels .pulp)).1 := by rw [hr]; simp
  obtain ⟨k1, k2⟩ := C61_exact hM h φ (decides_of_exact bt φ hlp) (fun m => (hs m).toSound) hm
  have eall : Inside φ res.rrf.rf.sys mode (fun _ => True) res.rrf.rf.initial =
      res.rrf.rf.sys.rewOpt φ mode (res.rrf.rf.sys.labelled "rf_target") res.rrf.rf.initial := by
    unfold Inside
    simp
  refine ⟨r, res.rrf.rf.initial, hr, bt.initL, ?_⟩
  rw [← eall]
  constructor
  · intro hsuc
    obtain ⟨-, cert, k, i, -, -, -, hi, hU, -⟩ := k1 hsuc
    rw [bt.initL] at hi
    cases hi
    obtain ⟨A, b, hA⟩ := rew_fark_ok bt t mode
    obtain ⟨x, hx, -⟩ := fark_of_inside bt φ hA hU
    exact inside_of_fark bt φ hA hx fun _ _ => trivial
  · intro hU
    exact hst.resolve_right fun hinf => k2 hinf _ ⟨fun _ => True, _, bt.initL, rfl, hU⟩

/-- **C61 is false for the maximal reward without labels**: no call ever succeeds. -/
theorem C61_max_unlabelled (hM : RewardInput M) (h : RRF.reduce ρ ρ' M il tl = .ok res)
    {r : ProblemResult (RRF.Sub K) K}
    (hr : r ∈ (solveIter res.rrf.form t (milpExact res.rrf.form lpSolver solver t .max none be)).1) :
    r = failure .infeasible := by
  have bt := rew_built hM h
  have key : ∀ p, constructMILP res.rrf.form lpSolver t .max none false none be ≠ .ok (some p) := by
    intro p hp
    unfold constructMILP at hp
    simp only [bind, Except.bind] at hp
    split at hp
    · cases hp
    split at hp
    · cases hp
    split at hp
    · cases hp
    split at hp
    · cases hp
    rename_i q hq
    unfold buildMILP at hq
    simp only [bind, Except.bind] at hq
    split at hq
    · cases hq
    split at hq
    · cases hq
    rename_i g hg
    simp only [groupsFromLabels, and_self, decide_true, if_true, max_unlabelled_groups bt] at hg
    cases hg
  obtain ⟨hr, -⟩ := solveIter_mem hr
  unfold milpExact at hr
  split at hr
  · simp at hr
  · simpa using hr
  · rename_i e
    exact absurd e (key _)

/-- ... and if the threshold can be met, the call raises (with solvers that solve their problems). -/
theorem C61_max_raises (hM : RewardInput M) (h : RRF.reduce ρ ρ' M il tl = .ok res) (φ : K →+*o ℝ)
    (hlp : ∀ lp, (lpSolver lp).Exact lp) (ht : 0 ≤ t) {i : Nat} (hi : res.rrf.rf.sys.statesByLabel il = .ok [i])
    (hr : φ t ≤ res.rrf.rf.sys.rewMax φ (res.rrf.rf.sys.labelled "rf_target") i) :
    solveIter res.rrf.form t (milpExact res.rrf.form lpSolver solver t .max none be) = ([], some .attributeError) := by
  have bt := rew_built hM h
  rw [bt.initL] at hi
  cases hi
  obtain ⟨A, b, hA⟩ := rew_fark_ok bt t .max
  have hU : φ t ≤ Inside φ res.rrf.rf.sys .max (fun _ => True) res.rrf.rf.initial := by
    unfold Inside; simpa [Sys.rewOpt] using hr
  obtain ⟨x, hx, -⟩ := fark_of_inside bt φ hA hU
  obtain ⟨u, hu⟩ : ∃ u, computeUpperBounds lpSolver A b = .ok (.optimal, u) := by
    rcases C37_reward_computed (mode := .max) hM h φ hA hlp with ⟨-, g⟩ | ⟨g, -⟩
    · exact g
    · exact absurd hx (g x)
  have hc : constructMILP res.rrf.form lpSolver t .max none false none be = .error .attributeError := by
    unfold constructMILP
    rw [hA]
    have hb : chooseBounds res.rrf.form lpSolver .max A b none = .ok (some (some u)) := by
      unfold chooseBounds
      rw [if_neg (by rintro ⟨-, g, -⟩; cases g), if_pos (by rfl), hu]
      rfl
    simp only [bind, Except.bind, hb]
    have : buildMILP res.rrf.form .max none false be A b (some u) = .error .attributeError := by
      unfold buildMILP
      simp only [bind, Except.bind, groupsFromLabels, and_self, decide_true, if_true, max_unlabelled_groups bt,
        reduceCtorEq, and_false, false_and, if_false, Except.map]
    rw [this]
  unfold solveIter
  rw [if_pos ht, if_pos (fun g => nomatch g)]
  unfold milpExact
  rw [hc]

/-- **C61 needs the answer about the bounds**: if that solver gives up, the exact minimisation of the minimal reward
answers `infeasible` for every threshold above one. -/
theorem C61_timeout (hM : RewardInput M) (h : RRF.reduce ρ ρ' M il tl = .ok res)
    (hlp : ∀ lp, (lpSolver lp).status = .notsolved) (hs : ∀ m, (solver m).Exact m) (ht : 1 < t) :
    solveIter res.rrf.form t (milpExact res.rrf.form lpSolver solver t .min none .pulp) = ([failure .infeasible], none) := by
  have bt := rew_built hM h
  obtain ⟨A, b, hA⟩ := rew_fark_ok bt t .min
  obtain ⟨f1, f2, f3⟩ := rrf_fark bt.ok hA
  have hsd : ∀ lp, (lpSolver lp).Sound lp := fun lp =>
    ⟨fun g => (by rw [hlp] at g; cases g), fun g => (by rw [hlp] at g; cases g), fun g => (by rw [hlp] at g; cases g)⟩
  obtain ⟨groups, hg, hlt⟩ := groups_ok bt.ok.ok .min (labels := none) (fun _ g => nomatch g) (decide (Mode.min = .max ∧ false = false))
  rw [← groups_same (Or.inl rfl)] at hg
  have hbd : chooseBounds res.rrf.form lpSolver .min A b none = .ok (some none) := by
    unfold chooseBounds
    rw [if_neg (by rintro ⟨-, g, -⟩; cases g), if_pos (by rfl)]
    obtain ⟨lp, h1, -⟩ := upperBoundLP_ok f2
    unfold computeUpperBounds
    rw [h1]
    simp only [bind, Except.bind, hlp]
    rw [if_neg (by simp)]
    by_cases hsq : A.cols + 1 = A.rows
    · rw [if_pos hsq]
    · rw [if_neg hsq]
  obtain ⟨m, ind, hb⟩ := buildMILP_ok (f := res.rrf.form) (be := .pulp) (ub := none) (relaxed := false) f1 f2
      (fun g => nomatch g) (fun g => nomatch g.2.1) hg (fun _ g => nomatch g) hlt
  have hc : constructMILP res.rrf.form lpSolver t .min none false none .pulp = .ok (some (m, ind)) := by
    unfold constructMILP
    rw [hA]
    simp only [bind, Except.bind, hbd, hb]
  obtain ⟨A', b', ub, groups', g1, g2, g3, -, g4, -⟩ := construct_inv (fun A b hA => rrf_fark bt.ok hA) hsd hc
  rw [hA] at g1
  cases g1
  rw [hbd] at g2
  cases g2
  cases g3
  cases hg
  have hinf : ∀ x, ¬ m.Feasible x := by
    intro x hx
    obtain ⟨p1, p2, p3⟩ := (g4.feasible hlt x).1 hx
    have hF : InFark A b x := ⟨fun j hj => p1.nonneg j (by omega), p1.rows⟩
    obtain ⟨-, -, q⟩ := (rfark_z hA x).1 hF
    have hi : res.rrf.rf.initial < res.rrf.form.certSize .min := bt.init
    have := p3 res.rrf.rf.initial [res.rrf.rf.initial]
      (by rw [List.getElem?_map, List.getElem?_range hi]; rfl) res.rrf.rf.initial (by simp)
    have h1 := (p2 res.rrf.rf.initial (by rw [List.length_map, List.length_range]; exact hi)).2.1 rfl
    have h2 : ubAt (none : Option (List K)) res.rrf.rf.initial = 1 := rfl
    rw [h2, one_mul] at this
    rcases h1 with h1 | h1 <;> linarith
  have hst := (hs m).infeasible' hinf
  unfold solveIter
  rw [if_pos (by linarith), if_pos (fun g => nomatch g)]
  unfold milpExact
  rw [hc]
  simp only
  rw [if_neg (by rw [hst]; decide), hst]

theorem rewMin_nonneg {M : Sys K} (hM : M.WF) (φ : K →+*o ℝ) (hr : ∀ i, 0 ≤ M.rewardAt φ i) (T : Set Nat) (s : Nat) : 0 ≤ M.rewMin φ T s := by
  unfold Sys.rewMin
  split
  swap
  · exact le_rfl
  refine Real.iInf_nonneg fun σ => Real.iSup_nonneg fun n => ?_
  suffices ∀ n h s, 0 ≤ (M.toMDP φ).rewN (fun r => M.rewardAt φ r.1) (M.stateSet T) σ.1 n h s from this n [] _
  intro n
  induction n with
  | zero => intro h s; exact le_rfl
  | succ n ih =>
    intro h s
    unfold MDP.rewN
    split
    · exact le_rfl
    · refine sum_nonneg fun r hr' => mul_nonneg (σ.2.nonneg _ _ _ hr') (add_nonneg (hr _) (sum_nonneg fun t _ => mul_nonneg ?_ (ih _ _)))
      have : φ 0 ≤ φ (M.P.get r.1 t.1) := (phi_strict φ).monotone (WF.get_nonneg hM r.1 t.1)
      rw [map_zero] at this
      exact this

theorem rwSys_init {c : ℚ} (hc : 0 ≤ c) {ρ ρ' : Graph.Rnd} {res : RRF.Result ℚ}
    (h : RRF.reduce ρ ρ' (rwSys c) "start" "goal" = .ok res) :
    ∃ i, res.rrf.rf.sys.statesByLabel "start" = .ok [i] ∧ ratR c ≤ Inside ratR res.rrf.rf.sys .min (fun _ => True) i ∧
      ratR c ≤ res.rrf.rf.sys.rewMax ratR (res.rrf.rf.sys.labelled "rf_target") i := by
  have hM := rwSys_input hc
  have bt := rew_built hM h
  obtain ⟨T, j, mask, v, v', hR, hrf, -⟩ := rrf_reduce hM.wf hM.total hM.labS.inv hM.labA.inv hM.rew' h
  have hj : j = 0 := by
    have := hR.hi
    rw [rwSys_start] at this
    cases this; rfl
  subst hj
  have hcol : res.cols.get? 0 = some res.rrf.rf.initial := by
    have := (has_of_statesByLabel bt.initL res.rrf.rf.initial).1 (by simp)
    rcases (hR.red.labS _ _).1 this with ⟨s, h3, h4⟩ | h3 | h3
    · have : s = 0 := by simpa using (has_of_statesByLabel hR.hi s).2 h4
      subst this
      exact Dict.get?_of_mem hR.red.maps.nd h3
    · exact absurd h3.1 (by decide)
    · exact absurd h3.1 (by decide)
  have hnn : ∀ i, 0 ≤ (rwSys c).rewardAt ratR i :=
    rewardAt_nonneg ratR fun r hr => (hM.rew r hr).2
  obtain ⟨-, h2⟩ := C51_shift_partial hM h ratR (c := ratR c) (fun t ht a i hi => by
    rw [rwSys_goal] at ht
    subst ht
    have hi : ((2, a), i) ∈ rwI := hi
    simp only [rwI, List.mem_cons, List.not_mem_nil, or_false, Prod.mk.injEq] at hi
    obtain rfl : i = 3 := by omega
    rfl) hcol
  have h0 := rewMin_nonneg (rwSys_wf c) ratR hnn ((rwSys c).labelled "goal") 0
  have e1 := bt.rewMin_eq ratR ⟨_, bt.init⟩
  have e2 := bt.rewMax_eq ratR ⟨_, bt.init⟩
  simp only at e1 e2
  obtain ⟨B, hB⟩ := bt.ok.exists_bound ratR
  have hle := Core.Vmin_le_Vmax (bt.ok.qsub ratR).toOK hB ⟨_, bt.init⟩
  refine ⟨_, bt.initL, ?_, ?_⟩
  · have : Inside ratR res.rrf.rf.sys .min (fun _ => True) res.rrf.rf.initial =
        res.rrf.rf.sys.rewMin ratR (res.rrf.rf.sys.labelled "rf_target") res.rrf.rf.initial := by
      unfold Inside Sys.rewOpt; simp
    rw [this, h2]; linarith
  · rw [e2]
    rw [h2] at e1
    linarith

/-- **C61 is false if the solver of the bounds may give up**: both solvers are correct, the second even solves every
problem, the threshold is met, and the answer is `infeasible`. -/
theorem C61_timeout_false : ∃ (M : Sys ℚ) (res : RRF.Result ℚ) (lpSolver solver : Milp ℚ → Answer ℚ) (k : Nat),
    RewardInput M ∧ RRF.reduce exRnd exRnd M "start" "goal" = .ok res ∧ (∀ lp, (lpSolver lp).Sound lp) ∧
    (∀ m, (solver m).Exact m) ∧ RewWitness ratR res.rrf.rf.sys "start" .min 2 none k ∧
    solveIter res.rrf.form 2 (milpExact res.rrf.form lpSolver solver 2 .min none .pulp) = ([failure .infeasible], none) := by
  obtain ⟨res, h⟩ := rwSys_ok (c := 2) zero_le_two exRnd exRnd
  obtain ⟨i, hi, hU, -⟩ := rwSys_init zero_le_two h
  obtain ⟨solver, hs⟩ := exists_exact ℚ
  refine ⟨rwSys 2, res, fun _ => ⟨.notsolved, [], 0⟩, solver, _, rwSys_input zero_le_two, h, fun lp =>
    ⟨fun g => (by cases g), fun g => (by cases g), fun g => (by cases g)⟩, hs, ⟨fun _ => True, i, hi, rfl, hU⟩,
    C61_timeout (rwSys_input zero_le_two) h (fun _ => rfl) hs one_lt_two⟩

/-- the hypotheses of `C61_exact` are met, with a success -/
example : ∃ (res : RRF.Result ℚ) (lpSolver solver : Milp ℚ → Answer ℚ) (r : ProblemResult (RRF.Sub ℚ) ℚ),
    RewardInput (rwSys 2) ∧ RRF.reduce exRnd exRnd (rwSys 2) "start" "goal" = .ok res ∧
    Decides res.rrf 2 .min lpSolver ∧ (∀ m, (solver m).Sound m) ∧
    r ∈ (solveIter res.rrf.form 2 (milpExact res.rrf.form lpSolver solver 2 .min none .pulp)).1 ∧ r.status = .success := by
  obtain ⟨res, h⟩ := rwSys_ok (c := 2) zero_le_two exRnd exRnd
  have hM := rwSys_input zero_le_two
  obtain ⟨i, hi, hU, -⟩ := rwSys_init zero_le_two h
  obtain ⟨solver, hs⟩ := exists_exact ℚ
  obtain ⟨r, i', hr, hi', hst⟩ := C61_feasible_iff (t := 2) (labels := none) hM h ratR hs hs zero_le_two (Or.inl rfl) (fun _ g => nomatch g)
  rw [hi] at hi'
  cases hi'
  refine ⟨res, solver, solver, r, hM, h, decides_of_exact (rew_built hM h) ratR hs, fun m => (hs m).toSound, by rw [hr]; simp, hst.2 ?_⟩
  unfold Inside at hU
  simpa using hU

/-- the hypotheses of `C61_max_raises` are met -/
example : ∃ (res : RRF.Result ℚ) (lpSolver : Milp ℚ → Answer ℚ) (i : Nat),
    RewardInput (rwSys 2) ∧ RRF.reduce exRnd exRnd (rwSys 2) "start" "goal" = .ok res ∧ (∀ lp, (lpSolver lp).Exact lp) ∧
    res.rrf.rf.sys.statesByLabel "start" = .ok [i] ∧
    2 ≤ res.rrf.rf.sys.rewMax ratR (res.rrf.rf.sys.labelled "rf_target") i := by
  obtain ⟨res, h⟩ := rwSys_ok (c := 2) zero_le_two exRnd exRnd
  obtain ⟨i, hi, -, hU⟩ := rwSys_init zero_le_two h
  obtain ⟨solver, hs⟩ := exists_exact ℚ
  exact ⟨res, solver, i, rwSys_input zero_le_two, h, hs, hi, hU⟩

/-! ### C62 -/

section
variable {solver : Nat → Milp K → Answer K} {n : Nat} {ini : List (Nat × List Nat) → Except Err (List (Nat × K))}
  {upd : List (Nat × List Nat) → Updater K} {r : ProblemResult (RRF.Sub K) K}

theorem groups_same' : groupsFromLabels res.rrf.form mode labels (decide (mode = .max ∧ true = false)) =
    groupsFromLabels res.rrf.rf.form mode labels (decide (mode = .max ∧ true = false)) := by
  cases mode <;> cases labels <;> rfl

/-- soundness of the heuristic on reward forms for solvers that may have been stopped -/
theorem rew_heur_sound (hM : RewardInput M) (h : RRF.reduce ρ ρ' M il tl = .ok res) (φ : K →+*o ℝ)
    (hlp : ∀ lp, (lpSolver lp).Sound lp) (hs : ∀ k m, (solver k m).Right m)
    (hr : r ∈ (solveIter res.rrf.form t (qsHeur res.rrf.form lpSolver solver n ini upd t mode labels be)).1)
    (hst : r.status = .success) :
    ∃ (cert : List K) (k i : Nat), r = ⟨.success, some ⟨res.rrf, cert, mode⟩, some (k : K), some cert⟩ ∧
      (∀ c ∈ cert, 0 ≤ c) ∧ res.rrf.rf.sys.statesByLabel il = .ok [i] ∧
      φ t ≤ Inside φ res.rrf.rf.sys mode (Selected res.rrf.rf.sys mode cert) i ∧
      (LabelsOK res.rrf.rf.sys labels → cost res.rrf.rf.sys labels (Selected res.rrf.rf.sys mode cert) ≤ k) := by
  have bt := rew_built hM h
  obtain ⟨hr, -, -⟩ := solveIter_mem hr
  unfold qsHeur at hr
  split at hr
  · simp at hr
  · rw [List.mem_singleton] at hr
    subst hr
    cases hst
  rename_i m ind hc
  split at hr
  · simp at hr
  rename_i obj ho
  obtain ⟨A, b, ub, groups, g1, -, g3, -, g4, g5⟩ := construct_inv (fun A b hA => rrf_fark bt.ok hA) hlp hc
  obtain ⟨v, v1, v2, w, hw, rfl⟩ := qsLoop_sound hs n m obj g4.keys rfl (fun x hx => hx) r hr hst
  have g2 := (rrf_fark bt.ok g1).1
  have p1 := (g4.poly _ v2).1
  have hlen : (v.take (res.rrf.form.certSize mode)).length = res.rrf.form.certSize mode := by
    rw [List.length_take, v1, g4.vars]; omega
  have p1' := p1.congr g2 (fun j hj => take_getD (v := v) j hj)
  set cert := v.take (res.rrf.form.certSize mode) with hcert
  have hF : InFark A b (fun j => cert.getD j 0) := ⟨fun j hj => p1'.nonneg j (by omega), p1'.rows⟩
  have hsel : selF res.rrf.rf mode (fun j => cert.getD j 0) = Selected res.rrf.rf.sys mode cert :=
    funext fun s => propext (selF_iff bt.ok.ok hlen s)
  have hsub : w = ⟨res.rrf, cert, mode⟩ := by
    have hw : res.rrf.mkSub cert mode = .ok w := hw
    unfold RRF.mkSub at hw
    cases mode <;>
    · simp only at hw
      split at hw <;> cases hw
      rfl
  subst hsub
  refine ⟨cert, _, res.rrf.rf.initial, rfl, fun c hcm => ?_, bt.initL, ?_, fun hl => ?_⟩
  · obtain ⟨j, hj, rfl⟩ := List.mem_iff_getElem.1 hcm
    have := hF.nonneg j (by omega)
    rwa [List.getD_eq_getElem _ _ hj] at this
  · rw [← hsel]
    exact inside_of_fark bt φ g1 hF fun _ hs => hs
  · obtain ⟨groups', q1, hlt⟩ := groups_ok bt.ok.ok mode (labels := labels) hl (decide (mode = .max ∧ true = false))
    rw [groups_same'] at g3
    rw [g3] at q1
    cases q1
    refine le_trans ?_ (used_le_countP g4 hlt v1 v2)
    have e : usedGroups groups (fun j => v.getD j 0) = usedGroups groups (fun j => cert.getD j 0) :=
      (usedGroups_congr hlt (fun j hj => take_getD (v := v) j hj)).symm
    rw [e, used_eq_qsCost bt.ok.ok g3 hlt hlen]
    exact cost_le_qsCost bt.ok.ok hlen

/-- **C62.** Every success that `QSHeur` reports on a reward form, for any initial objective, updater, number of
iterations, back end, mode and labels and any solvers that do not lie: the vector is non-negative, the states that it
selects collect at least the threshold, and the value is at least their number (for labels that can be read and are
not on the target or fail state: the number of labels that occur on them). -/
theorem C62_sound (hM : RewardInput M) (h : RRF.reduce ρ ρ' M il tl = .ok res) (φ : K →+*o ℝ)
    (hlp : ∀ lp, (lpSolver lp).Sound lp) (hs : ∀ k m, (solver k m).Sound m)
    (hr : r ∈ (solveIter res.rrf.form t (qsHeur res.rrf.form lpSolver solver n ini upd t mode labels be)).1)
    (hst : r.status = .success) :
    ∃ (cert : List K) (k i : Nat), r = ⟨.success, some ⟨res.rrf, cert, mode⟩, some (k : K), some cert⟩ ∧
      (∀ c ∈ cert, 0 ≤ c) ∧ res.rrf.rf.sys.statesByLabel il = .ok [i] ∧
      φ t ≤ Inside φ res.rrf.rf.sys mode (Selected res.rrf.rf.sys mode cert) i ∧
      (LabelsOK res.rrf.rf.sys labels → cost res.rrf.rf.sys labels (Selected res.rrf.rf.sys mode cert) ≤ k) :=
  rew_heur_sound hM h φ hlp (fun k m => (hs k m).right) hr hst

/-- **C62.** With solvers that solve every problem, the initial objectives and updaters of the library and at least one
iteration: no exception; if the threshold can be met in the form there are `n` successes, otherwise the single
answer `infeasible`. -/
theorem C62_returns (hM : RewardInput M) (h : RRF.reduce ρ ρ' M il tl = .ok res) (φ : K →+*o ℝ)
    (hlp : ∀ lp, (lpSolver lp).Exact lp) (hs : ∀ k m, (solver k m).Exact m) (ht : 0 ≤ t) (hn : 1 ≤ n)
    (hl : LabelsOK res.rrf.rf.sys labels) {w : Nat → K} (hw : ∀ i, 0 < w i)
    (hini : InitOK res.rrf.form mode labels w ini) (hu : LibUpdater w upd) {i : Nat}
    (hi : res.rrf.rf.sys.statesByLabel il = .ok [i]) :
    let run := solveIter res.rrf.form t (qsHeur res.rrf.form lpSolver solver n ini upd t mode labels .pulp)
    run.2 = none ∧
    (φ t ≤ res.rrf.rf.sys.rewOpt φ mode (res.rrf.rf.sys.labelled "rf_target") i →
      run.1.length = n ∧ ∀ r ∈ run.1, r.status = .success) ∧
    (res.rrf.rf.sys.rewOpt φ mode (res.rrf.rf.sys.labelled "rf_target") i < φ t →
      ∃ r, run.1 = [r] ∧ r.status = .failed .infeasible) := by
  intro run
  have bt := rew_built hM h
  rw [bt.initL] at hi
  cases hi
  have eall : Inside φ res.rrf.rf.sys mode (fun _ => True) res.rrf.rf.initial =
      res.rrf.rf.sys.rewOpt φ mode (res.rrf.rf.sys.labelled "rf_target") res.rrf.rf.initial := by
    unfold Inside
    simp
  obtain ⟨A, b, hA⟩ := rew_fark_ok bt t mode
  obtain ⟨f1, f2, f3⟩ := rrf_fark bt.ok hA
  obtain ⟨groups, hg, hlt⟩ := groups_ok bt.ok.ok mode (labels := labels) hl (decide (mode = .max ∧ true = false))
  rw [← groups_same'] at hg
  have hbd : chooseBounds res.rrf.form lpSolver mode A b none = .ok none ∨
      ∃ u, chooseBounds res.rrf.form lpSolver mode A b none = .ok (some (some u)) ∧ u.length = res.rrf.form.certSize mode ∧
        ∀ x, InFark A b x → ∀ j < A.cols, x j ≤ u.getD j 0 := by
    unfold chooseBounds
    rw [if_neg (by rintro ⟨-, g, -⟩; cases g), if_pos (by rfl)]
    rcases C37_reward_computed hM h φ hA hlp with ⟨-, u, hu⟩ | ⟨-, u, hu⟩
    · obtain ⟨q1, -, q2⟩ := C37_reward hM h hA (fun lp => (hlp lp).toSound) hu
      exact Or.inr ⟨u, by rw [hu]; rfl, by rw [q1, f1], q2⟩
    · exact Or.inl (by rw [hu]; rfl)
  have hc : ∃ o, constructMILP res.rrf.form lpSolver t mode labels true none .pulp = .ok o := by
    unfold constructMILP
    rw [hA]
    rcases hbd with hbd | ⟨u, hbd, hul, -⟩
    · simp only [bind, Except.bind, hbd]
      exact ⟨_, rfl⟩
    · obtain ⟨m, ind, hb⟩ := buildMILP_ok (f := res.rrf.form) (be := .pulp) (ub := some u) (relaxed := true) f1 f2
        (fun g => nomatch g) (fun g => nomatch g.1) hg (by rintro u' ⟨⟩; exact hul.ge) hlt
      simp only [bind, Except.bind, hbd, hb]
      exact ⟨_, rfl⟩
  obtain ⟨o, hc⟩ := hc
  obtain ⟨h1, h2⟩ := qs_returns (f := res.rrf.form) (n := n) (mode := mode) (fun A b hA => rrf_fark bt.ok hA) (fun groups' hg' => by
      rw [hg] at hg'
      cases hg'
      exact hlt) (fun v hv => by
      cases mode with
      | min => exact ⟨_, if_pos hv⟩
      | max => exact ⟨_, if_pos hv⟩) (fun lp => (hlp lp).toSound) hs ht (fun g => nomatch g) hn hc hw hini hu
  refine ⟨h1, fun hle => ?_, fun hlt => ?_⟩
  · refine h2.resolve_left ?_
    rintro ⟨r, -, -, A', b', hA', hno⟩
    rw [hA] at hA'
    cases hA'
    obtain ⟨x, hx, -⟩ := fark_of_inside (U := fun _ => True) bt φ hA (by rw [eall]; exact hle)
    rcases hno with hno | ⟨u, hcb, hno⟩
    · exact hno x hx
    · rcases hbd with hbd | ⟨u', hbd, hul, hub⟩
      · rw [hbd] at hcb; cases hcb
      · rw [hbd] at hcb
        cases hcb
        exact hno x (rew_poly f1 (fun x hx j hj => hub x hx j (by omega)) hx)
  · rcases h2 with ⟨r, g1, g2, -⟩ | ⟨g1, g2⟩
    · exact ⟨r, g1, g2⟩
    · exfalso
      obtain ⟨r, hr⟩ : ∃ r, r ∈ run.1 := List.exists_mem_of_length_pos (by show 0 < run.1.length; rw [g1]; omega)
      obtain ⟨cert, k, i, -, -, hi, hU, -⟩ := C62_sound hM h φ (fun lp => (hlp lp).toSound) (fun k m => (hs k m).toSound) hr (g2 r hr)
      rw [bt.initL] at hi
      cases hi
      obtain ⟨x, hx, -⟩ := fark_of_inside bt φ hA hU
      have := inside_of_fark bt φ hA hx (U := fun _ => True) fun _ _ => trivial
      rw [eall] at this
      exact absurd this (not_le.2 hlt)

end

/-- the hypotheses of C62 are met, with successes -/
example : ∃ (res : RRF.Result ℚ) (solver : Milp ℚ → Answer ℚ),
    RewardInput (rwSys 2) ∧ RRF.reduce exRnd exRnd (rwSys 2) "start" "goal" = .ok res ∧ (∀ lp, (solver lp).Exact lp) ∧
    let run := solveIter res.rrf.form 2 (qsHeur res.rrf.form solver (fun _ => solver) 3 allOnes (inverseResultUpdater fun _ => 1) 2 .max none .pulp)
    run.1.length = 3 ∧ ∀ r ∈ run.1, r.status = .success := by
  obtain ⟨res, h⟩ := rwSys_ok (c := 2) zero_le_two exRnd exRnd
  obtain ⟨i, hi, -, hU⟩ := rwSys_init zero_le_two h
  obtain ⟨solver, hs⟩ := exists_exact ℚ
  exact ⟨res, solver, rwSys_input zero_le_two, h, hs, (C62_returns (n := 3) (mode := .max) (labels := none) (rwSys_input zero_le_two) h ratR hs (fun _ => hs)
    zero_le_two (by omega) (fun _ g => nomatch g) (w := fun _ => 1) (fun _ => one_pos) (Or.inl rfl) (Or.inl rfl) hi).2.1 hU⟩

end Verif.Props
