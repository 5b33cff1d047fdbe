import Verif.Proofs.RewardLP
/-! # When a reward form is built -/
set_option linter.unusedSectionVars false

namespace Verif.Proofs
open Verif.Model Verif.Spec Verif.Props Verif.Theory Finset Reduce Verif.Proofs.IDict

variable {K : Type} [Field K] [LinearOrder K] [IsStrictOrderedRing K] {rf : RF K}

/-- almost sure reachability is inherited by successors -/
theorem one_succ (h : RFOK rf) (φ : K →+*o ℝ) {s : Fin rf.N} (h1 : (h.core φ).Vmin s = 1) {r : Fin rf.C}
    (hr : r ∈ (h.core φ).rows s) :
    rf.sys.P.get r.1 (rf.sys.N - 1) = 0 ∧ ∀ t : Fin rf.N, 0 < rf.P r.1 t.1 → (h.core φ).Vmin t = 1 := by
  have hs := h.sub φ
  have h2 := Core.Vmin_le_step hs.toOK hs.bound hr
  rw [h1] at h2
  have h3 := h.row_sum φ (RFOK.lt_C r.2)
  have e : (h.core φ).step (h.core φ).Vmin s r = φ (rf.b r.1) + ∑ t : Fin rf.N, φ (rf.P r.1 t.1) * (h.core φ).Vmin t := rfl
  rw [e] at h2
  have hnn : ∀ t : Fin rf.N, 0 ≤ φ (rf.P r.1 t.1) := fun t => (phi_nonneg φ).2 (WF.get_nonneg h.wf _ _)
  have hf0 : 0 ≤ φ (rf.sys.P.get r.1 (rf.sys.N - 1)) := (phi_nonneg φ).2 (WF.get_nonneg h.wf _ _)
  have h4 : ∑ t : Fin rf.N, φ (rf.P r.1 t.1) * (h.core φ).Vmin t =
      ∑ t : Fin rf.N, φ (rf.P r.1 t.1) - ∑ t : Fin rf.N, φ (rf.P r.1 t.1) * (1 - (h.core φ).Vmin t) := by
    rw [← Finset.sum_sub_distrib]
    exact Finset.sum_congr rfl fun t _ => by ring
  have h5 : ∀ t : Fin rf.N, 0 ≤ φ (rf.P r.1 t.1) * (1 - (h.core φ).Vmin t) := fun t =>
    mul_nonneg (hnn t) (sub_nonneg.2 (hs.Vmin_le_one t))
  have h6 : 0 ≤ ∑ t : Fin rf.N, φ (rf.P r.1 t.1) * (1 - (h.core φ).Vmin t) := Finset.sum_nonneg fun t _ => h5 t
  rw [h4] at h2
  constructor
  · have : φ (rf.sys.P.get r.1 (rf.sys.N - 1)) = 0 := by linarith
    rw [← map_zero φ] at this
    exact (phi_strict φ).injective this
  · intro t ht
    have h7 : ∑ t : Fin rf.N, φ (rf.P r.1 t.1) * (1 - (h.core φ).Vmin t) = 0 := by linarith
    have h8 := (Finset.sum_eq_zero_iff_of_nonneg fun t _ => h5 t).1 h7 t (Finset.mem_univ t)
    have h9 : 0 < φ (rf.P r.1 t.1) := by
      rw [← map_zero φ]; exact phi_strict φ ht
    rcases mul_eq_zero.1 h8 with h | h <;> linarith

theorem one_all (h : RFLive rf) (φ : K →+*o ℝ) (hin : rf.initial < rf.N) (h1 : (h.toRFOK.core φ).Vmin ⟨_, hin⟩ = 1) :
    ∀ s, (h.toRFOK.core φ).Vmin s = 1 := by
  have hN := h.hN
  have key : ∀ s, Relation.ReflTransGen (Edge rf.sys) rf.initial s → ∀ hs : s < rf.N,
      (h.toRFOK.core φ).Vmin ⟨s, hs⟩ = 1 := by
    intro s hs
    induction hs with
    | refl => exact fun _ => h1
    | @tail u v _ huv ih =>
      intro hv
      obtain ⟨a, i, hm, hi, hp⟩ := huv
      have hu : u < rf.N := by
        by_contra hc
        have : u = rf.sys.N - 2 ∨ u = rf.sys.N - 1 := by
          have : u < rf.sys.N := WF.state_lt h.wf hm hi
          unfold RF.N at hc; omega
        unfold RF.N at hv
        rcases this with rfl | rfl
        · have e := h.goalOnly a i hm hi
          subst e
          rw [WF.other_zero h.wf hi (by omega) h.goalP (by omega)] at hp
          exact lt_irrefl _ hp
        · have e := h.failOnly a i hm hi
          subst e
          rw [WF.other_zero h.wf hi (by omega) h.failP (by omega)] at hp
          exact lt_irrefl _ hp
      have hiC : i < rf.C := by
        by_contra hc
        have : i = rf.sys.C - 2 ∨ i = rf.sys.C - 1 := by unfold RF.C at hc; omega
        unfold RF.N at hu
        rcases this with rfl | rfl
        · obtain ⟨a', hg⟩ := h.goalRow
          have := WF.idx_inj h.wf hm hg
          simp at this; omega
        · obtain ⟨a', hg⟩ := h.failRow
          have := WF.idx_inj h.wf hm hg
          simp at this; omega
      have hr : (⟨i, hiC⟩ : Fin rf.C) ∈ (h.toRFOK.core φ).rows ⟨u, hu⟩ :=
        (h.toRFOK.mem_rows φ).2 ((h.toRFOK.rowState_iff hiC).2 ⟨a, hm⟩)
      exact (one_succ h.toRFOK φ (ih hu) hr).2 ⟨v, hv⟩ hp
  intro s
  refine key s.1 (h.reach s.1 (RFOK.lt_N s.2) ?_) s.2
  have := s.2
  unfold RF.N at this
  omega

theorem make_delInv {ρ : Graph.Rnd} {M : Sys K} {il tl fl : String} (h : RF.make ρ M il tl fl true = .ok rf) :
    ∃ d1 d2, delInv rf.sys.idx (rf.sys.C - 2) = .ok d1 ∧ delInv d1 (rf.sys.C - 1) = .ok d2 := by
  obtain ⟨e, -⟩ := make_fields h
  rw [e]
  simp only [RF.make, if_true, bind, Except.bind] at h
  split at h
  · cases h
  split at h
  · cases h
  split at h
  · cases h
  rename_i d1 h1
  split at h
  · cases h
  rename_i d2 h2
  exact ⟨d1, d2, h1, h2⟩

/-- the checks of a reward form succeed where the target is reached almost surely -/
theorem assertReachform_returns (h : RFLive rf) (φ : K →+*o ℝ) (hone : ∀ s, (h.toRFOK.core φ).Vmin s = 1) {v : List K}
    (hv : rf.sys.rew = some v) (ρ : Graph.Rnd) : RRF.assertReachform ρ rf = .ok () := by
  have hN := h.hN
  have hfail : ∀ u, Edge rf.sys u (rf.sys.N - 1) → u = rf.sys.N - 1 := by
    rintro u ⟨a, i, hm, hi, hp⟩
    have hu := WF.state_lt h.wf hm hi
    rcases h.toRFOK.cases_state ⟨u, hu⟩ with ⟨s, hs⟩ | hs | hs
    · have hus : u = s.1 := congrArg Fin.val hs
      subst hus
      have hiC : i < rf.C := by
        by_contra hc
        have : i = rf.sys.C - 2 ∨ i = rf.sys.C - 1 := by unfold RF.C at hc; omega
        have hsN := s.2
        unfold RF.N at hsN
        rcases this with rfl | rfl
        · obtain ⟨a', hg⟩ := h.goalRow
          have := WF.idx_inj h.wf hm hg
          simp at this; omega
        · obtain ⟨a', hg⟩ := h.failRow
          have := WF.idx_inj h.wf hm hg
          simp at this; omega
      have hr : (⟨i, hiC⟩ : Fin rf.C) ∈ (h.toRFOK.core φ).rows s :=
        (h.toRFOK.mem_rows φ).2 ((h.toRFOK.rowState_iff hiC).2 ⟨a, hm⟩)
      rw [(one_succ h.toRFOK φ (hone s) hr).1] at hp
      exact absurd hp (lt_irrefl _)
    · have hus : u = rf.sys.N - 2 := congrArg Fin.val hs
      subst hus
      have e := h.goalOnly a i hm hi
      subst e
      rw [WF.other_zero h.wf hi (by omega) h.goalP (by omega)] at hp
      exact absurd hp (lt_irrefl _)
    · exact congrArg Fin.val hs
  have hreach : ∀ s, Relation.ReflTransGen (Edge rf.sys) s (rf.sys.N - 1) → s = rf.sys.N - 1 := by
    intro s hs
    induction hs using Relation.ReflTransGen.head_induction_on with
    | refl => rfl
    | head h1 _ ih => subst ih; exact hfail _ h1
  obtain ⟨bwd, hb, -, hbs⟩ := WF.mask_bwd h.wf (F := [rf.sys.N - 1]) (B := []) (by simp) (by simp) (by simp; omega)
  unfold RRF.assertReachform
  rw [hv]
  simp only [bind, Except.bind, hb]
  rw [if_pos]
  swap
  · intro x _
    rw [hbs, reachAvoid_nil]
    constructor
    · exact fun hx => hreach x (Relation.reflTransGen_swap.1 hx)
    · rintro rfl; exact Relation.ReflTransGen.refl
  obtain ⟨mec, proper, cnt, hmec, q1, q2, q3⟩ := C07_mec h.wf.graph (by omega) ρ
  rw [hmec]
  simp only
  have h2 : RFOK { rf with mec := mec, proper := proper, nmec := cnt } :=
    { wf := h.wf, total := h.total, hN := h.hN, hC := h.hC, goalRow := h.goalRow, failRow := h.failRow,
      goalOnly := h.goalOnly, failOnly := h.failOnly, goalP := h.goalP, failP := h.failP, inv := h.inv,
      target := h.target, fail := h.fail,
      ec := fun s hs => C08_proper h.wf.graph ρ (wf_act h.wf h.total) hmec hs,
      mecSame := q1, mecLt := q2, mecSurj := q3 }
  have h3 : RF.isEcFree { rf with mec := mec, proper := proper, nmec := cnt } = true := by
    refine h2.ecFree_iff.2 fun s hs => ?_
    rw [Bool.eq_false_iff]
    intro hc
    have hs' : s < rf.N := hs
    have h5 : rf.inProperEC s = true := (h.ec s (RFOK.lt_N hs')).2 ((h2.ec s (RFOK.lt_N hs')).1 hc)
    have := Core.Vmin_eq_zero_of_InEC (h.toRFOK.sub φ) ((h.toRFOK.inEC_iff φ ⟨s, hs'⟩).2 h5)
    rw [hone] at this
    exact one_ne_zero this
  unfold RF.isEcFree at h3
  rw [decide_eq_true_eq] at h3
  exact if_pos h3

end Verif.Proofs
