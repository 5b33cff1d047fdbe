import Verif.Proofs.Reward
/-! # Expected rewards of a reward form and of the system it was made from -/
set_option linter.unusedSectionVars false

namespace Verif.Proofs
open Verif.Model Verif.Spec Verif.Props Verif.Theory Finset Reduce Verif.Proofs.IDict

variable {K : Type} [Field K] [LinearOrder K] [IsStrictOrderedRing K]

section
variable {M : Sys K} {φ : K →+*o ℝ} {hv : (M.toMDP φ).Valid} {T : Set Nat} {S' R' : Type} [Fintype S']
  {B : Core S' R'} {e : S' → Fin M.N} {b : S' → ℝ}

theorem sys_rewMax_eq (hr : ∀ i, 0 ≤ M.rewardAt φ i)
    (h : Core.Embeds0 (Core.ofGain (M.toMDP φ) hv (fun s r => if s ∈ M.stateSet T then 0 else M.rewardAt φ r.1) (M.stateSet T)) B e)
    (okB : B.OK) (hb : B.Bound b) (s' : S') : M.rewMax φ T (e s').1 = B.Vmax s' := by
  unfold Sys.rewMax
  rw [dif_pos (e s').2, RewMax_ofGain (hM := hv)]
  exact h.iSup_tot (ofGain_ok hv fun s r _ => by split; exacts [le_rfl, hr _]) okB hb s'

theorem sys_rewMin_eq (hr : ∀ i, 0 ≤ M.rewardAt φ i)
    (h : Core.Embeds0 (Core.ofGain (M.toMDP φ) hv (fun s r => if s ∈ M.stateSet T then 0 else M.rewardAt φ r.1) (M.stateSet T)) B e)
    (okB : B.OK) (hb : B.Bound b) (s' : S') : M.rewMin φ T (e s').1 = B.Vmin s' := by
  unfold Sys.rewMin
  rw [dif_pos (e s').2, RewMin_ofGain (hM := hv)]
  exact h.iInf_tot (ofGain_ok hv fun s r _ => by split; exacts [le_rfl, hr _]) okB hb s'

theorem sys_rewBounded (hr : ∀ i, 0 ≤ M.rewardAt φ i)
    (h : Core.Embeds0 (Core.ofGain (M.toMDP φ) hv (fun s r => if s ∈ M.stateSet T then 0 else M.rewardAt φ r.1) (M.stateSet T)) B e)
    (okB : B.OK) (hb : B.Bound b) (s' : S') : M.RewBounded φ T (e s').1 (B.Vmax s') := by
  intro _ σ hσ n
  rw [← ofGain_val (hM := hv)]
  exact h.val_le (ofGain_ok hv fun s r _ => by split; exacts [le_rfl, hr _]) okB hb (ofGain_isSched.2 hσ) n s'

theorem sys_rewInMax_eq (hr : ∀ i, 0 ≤ M.rewardAt φ i)
    (h : Core.Embeds0 (Core.ofGain (M.toMDP φ) hv (fun _ r => M.rewardAt φ r.1) (M.stateSet T)) B e)
    (okB : B.OK) (hb : B.Bound b) (s' : S') : M.rewInMax φ T (e s').1 = B.Vmax s' := by
  unfold Sys.rewInMax
  rw [dif_pos (e s').2, RewInMax_ofGain (hM := hv)]
  exact h.iSup_tot (ofGain_ok hv fun s r _ => hr _) okB hb s'

theorem sys_rewInMin_eq (hr : ∀ i, 0 ≤ M.rewardAt φ i)
    (h : Core.Embeds0 (Core.ofGain (M.toMDP φ) hv (fun _ r => M.rewardAt φ r.1) (M.stateSet T)) B e)
    (okB : B.OK) (hb : B.Bound b) (s' : S') : M.rewInMin φ T (e s').1 = B.Vmin s' := by
  unfold Sys.rewInMin
  rw [dif_pos (e s').2, RewInMin_ofGain (hM := hv)]
  exact h.iInf_tot (ofGain_ok hv fun s r _ => hr _) okB hb s'
end

theorem mem_stateSet {M : Sys K} {T : Set Nat} {t : Fin M.N} : t ∈ M.stateSet T ↔ t.1 ∈ T := by
  simp [Sys.stateSet]

theorem rewardAt_nonneg {M : Sys K} (φ : K →+*o ℝ) (hrew : ∀ r, M.rew = some r → ∀ x ∈ r, 0 ≤ x) (i : Nat) :
    0 ≤ M.rewardAt φ i := by
  unfold Sys.rewardAt
  refine (phi_nonneg φ).2 ?_
  cases e : M.rew with
  | none => simp
  | some r =>
    simp only [Option.getD_some]
    by_cases hi : i < r.length
    · rw [List.getD_eq_getElem _ _ hi]; exact hrew r e _ (List.getElem_mem _)
    · rw [List.getD_eq_default _ _ (by omega)]

section
variable {x : RRF K} (h : RRFOK x) (φ : K →+*o ℝ) {v : List K}

/-- rewards of the form's own system -/
theorem RRFOK.sys_embeds (hv : x.rf.sys.rew = some v) (hr : ∀ i < x.rf.C, x.rew.getD i 0 = v.getD i 0) :
    Core.Embeds0 (Core.ofGain (x.rf.sys.toMDP φ) (WF.valid h.ok.wf φ h.ok.total)
      (fun s r => if s ∈ x.rf.sys.stateSet (x.rf.sys.labelled x.rf.targetL) then 0 else x.rf.sys.rewardAt φ r.1)
      (x.rf.sys.stateSet (x.rf.sys.labelled x.rf.targetL))) (h.core φ) RFOK.emb := by
  refine h.embeds φ v hv hr fun t => ?_
  rw [mem_stateSet, h.ok.target, Set.mem_singleton_iff]
  exact ⟨fun e => Fin.ext e, fun e => by rw [e]; rfl⟩

theorem RRFOK.rewMax_eq (hv : x.rf.sys.rew = some v) (hr : ∀ i < x.rf.C, x.rew.getD i 0 = v.getD i 0)
    (h0 : ∀ y ∈ v, 0 ≤ y) (s : Fin x.rf.N) :
    x.rf.sys.rewMax φ (x.rf.sys.labelled x.rf.targetL) s.1 = (h.core φ).Vmax s := by
  obtain ⟨b, hb⟩ := h.exists_bound φ
  exact sys_rewMax_eq (rewardAt_nonneg φ fun r e => by rw [hv] at e; cases e; exact h0) (h.sys_embeds φ hv hr)
    (h.qsub φ).toOK hb s

theorem RRFOK.rewMin_eq (hv : x.rf.sys.rew = some v) (hr : ∀ i < x.rf.C, x.rew.getD i 0 = v.getD i 0)
    (h0 : ∀ y ∈ v, 0 ≤ y) (s : Fin x.rf.N) :
    x.rf.sys.rewMin φ (x.rf.sys.labelled x.rf.targetL) s.1 = (h.core φ).Vmin s := by
  obtain ⟨b, hb⟩ := h.exists_bound φ
  exact sys_rewMin_eq (rewardAt_nonneg φ fun r e => by rw [hv] at e; cases e; exact h0) (h.sys_embeds φ hv hr)
    (h.qsub φ).toOK hb s

theorem RRFOK.rewBounded (hv : x.rf.sys.rew = some v) (hr : ∀ i < x.rf.C, x.rew.getD i 0 = v.getD i 0)
    (h0 : ∀ y ∈ v, 0 ≤ y) (s : Fin x.rf.N) :
    x.rf.sys.RewBounded φ (x.rf.sys.labelled x.rf.targetL) s.1 ((h.core φ).Vmax s) := by
  obtain ⟨b, hb⟩ := h.exists_bound φ
  exact sys_rewBounded (rewardAt_nonneg φ fun r e => by rw [hv] at e; cases e; exact h0) (h.sys_embeds φ hv hr)
    (h.qsub φ).toOK hb s
end

namespace Reduced
variable {M : Sys K} {il tl ntl nfl : String} {cols : Dict Nat Nat} {rows : Dict (Nat × Nat) (Nat × Nat)}
  {T : List Nat} {i : Nat} {mask : List Bool} {x : RRF K}

/-- the form inside the system it was made from, for any gains that agree with the rewards of the form -/
theorem embeds0 (h : Reduced M il tl ntl nfl x.rf.sys cols rows T i mask) (hM : M.WF) (ht : M.Total) (hx : RRFOK x)
    (φ : K →+*o ℝ) (g : Fin M.N → Fin M.C → ℝ)
    (hg : ∀ (k s a n j : Nat) (hs : s < M.N) (hj : j < M.C), rows[k]? = some ((s, a), (n, a)) → ((s, a), j) ∈ M.idx →
      φ (x.rew.getD k 0) = g ⟨s, hs⟩ ⟨j, hj⟩) :
    ∃ e : Fin x.rf.N → Fin M.N, (∀ s', ((e s').1, s'.1) ∈ cols) ∧
      Core.Embeds0 (Core.ofGain (M.toMDP φ) (WF.valid hM φ ht) g (M.stateSet (M.labelled tl))) (hx.core φ) e := by
  have ho := hx.ok
  have hN := h.red.hN
  have hC := h.red.hC
  have eN : x.rf.N = cols.length := by unfold RF.N; omega
  have eC : x.rf.C = rows.length := by unfold RF.C; omega
  have hmemT : ∀ s : Fin M.N, s ∈ M.stateSet (M.labelled tl) ↔ s.1 ∈ T := by
    intro s
    rw [mem_stateSet, labelled_iff, has_of_statesByLabel h.hT]
  have hst : ∀ s' : Fin x.rf.N, ∃ s : Fin M.N, (s.1, s'.1) ∈ cols := by
    intro s'
    obtain ⟨s, hs⟩ := h.red.maps.col_of_lt (nd := s'.1) (by have := s'.2; omega)
    exact ⟨⟨s, h.red.maps.col_state_lt hM hs⟩, hs⟩
  choose e he using hst
  have einj : Function.Injective e := by
    intro s1 s2 hs
    have h1 := he s1
    rw [hs] at h1
    exact Fin.ext (h.red.maps.col_fun h1 (he s2))
  refine ⟨e, he, ?_⟩
  have key : ∀ (s' : Fin x.rf.N) (r' : Fin x.rf.C) (r : Fin M.C) (a n : Nat),
      rows[r'.1]? = some (((e s').1, a), (n, a)) → (((e s').1, a), r.1) ∈ M.idx →
      Core.SameRow0 (Core.ofGain (M.toMDP φ) (WF.valid hM φ ht) g (M.stateSet (M.labelled tl))) (hx.core φ) e s' r' r := by
    intro s' r' r a n hk hr
    refine ⟨?_, ?_, ?_⟩
    · exact hg _ _ _ _ _ (e s').2 r.2 hk hr
    · intro t'
      simp only [Core.ofGain, hmemT]
      show φ (x.rf.P r'.1 t'.1) = _
      simp only [RF.P]
      split
      · rename_i hs
        rw [h.red.keptT _ _ _ _ _ hk hs (by have := t'.2; omega), map_zero]
      · rename_i hs
        rw [h.red.kept _ _ _ _ _ _ _ hk hs hr (he t')]
        rfl
    · intro t htr hq
      simp only [Core.ofGain, hmemT] at hq
      split at hq
      · exact absurd rfl hq
      rename_i hs
      refine absurd ?_ hq
      have hb : x.rf.b r'.1 = 0 := by
        unfold RF.b
        rw [show x.rf.sys.N - 2 = cols.length by omega, h.red.goal _ _ _ _ hk, if_neg hs]
      have h1 := ho.row_sum φ (RFOK.lt_C r'.2)
      rw [hb, hx.noFail _ r'.2, map_zero, add_zero, add_zero] at h1
      have h2 : ∑ t' : Fin x.rf.N, φ (M.P.get r.1 (e t').1) = 1 := by
        rw [← h1]
        refine Finset.sum_congr rfl fun t' _ => ?_
        unfold RF.P
        rw [h.red.kept _ _ _ _ _ _ _ hk hs hr (he t')]
      have h3 : ∑ u : Fin M.N, φ (M.P.get r.1 u.1) = 1 := by
        rw [Fin.sum_univ_eq_sum_range (fun u => φ (M.P.get r.1 u)), ← map_sum, hM.sum _ r.2, map_one]
      have hnn : ∀ u : Fin M.N, 0 ≤ φ (M.P.get r.1 u.1) := fun u => (phi_nonneg φ).2 (WF.get_nonneg hM _ _)
      have h4 : ∑ t' : Fin x.rf.N, φ (M.P.get r.1 (e t').1) = ∑ u ∈ univ.map ⟨e, einj⟩, φ (M.P.get r.1 u.1) := by
        rw [Finset.sum_map]; rfl
      have h5 : t ∉ univ.map ⟨e, einj⟩ := by
        simp only [Finset.mem_map, Finset.mem_univ, true_and, Function.Embedding.coeFn_mk]
        exact htr
      have h6 : ∑ u ∈ insert t (univ.map ⟨e, einj⟩), φ (M.P.get r.1 u.1) ≤ 1 := by
        rw [← h3]
        exact Finset.sum_le_sum_of_subset_of_nonneg (Finset.subset_univ _) fun u _ _ => hnn u
      rw [Finset.sum_insert h5, ← h4, h2] at h6
      have := hnn t
      show φ (M.P.get r.1 t.1) = 0
      linarith
  refine ⟨einj, ?_, ?_⟩
  · intro s' r' hr'
    rw [hx.rows_eq, RFOK.mem_rows, RFOK.rowState_iff ho r'.2] at hr'
    obtain ⟨a, ha⟩ := hr'
    have hlt := r'.2
    have hlt' := s'.2
    rcases (h.red.idx _ _ _).1 ha with ⟨⟨s, b⟩, hk⟩ | h1 | h1
    · obtain ⟨rfl, h1, -, ⟨j, hj, hjC⟩, -⟩ := h.red.maps.row_spec hk
      have hse : s = (e s').1 := h.red.maps.col_inj h1 (he s')
      subst hse
      exact ⟨⟨j, hjC⟩, (WF.mem_rows (φ := φ) hM).2 ⟨_, hj⟩, key s' r' ⟨j, hjC⟩ _ _ hk hj⟩
    · omega
    · omega
  · intro s' r hr
    obtain ⟨a, ha⟩ := (WF.mem_rows (φ := φ) hM).1 hr
    obtain ⟨hm, -⟩ := (h.red.maps.memS _).1 (List.mem_map_of_mem (f := Prod.fst) (he s'))
    obtain ⟨k, n, hk⟩ := h.red.maps.row_exists hm ha r.2
    obtain ⟨-, h1, -, -, hkl⟩ := h.red.maps.row_spec hk
    have hn : n = s'.1 := h.red.maps.col_fun h1 (he s')
    have hkC : k < x.rf.C := by omega
    refine ⟨⟨k, hkC⟩, ?_, key s' ⟨k, hkC⟩ r a n hk ha⟩
    rw [hx.rows_eq, RFOK.mem_rows, RFOK.rowState_iff ho hkC]
    exact ⟨a, (h.red.idx _ _ _).2 (Or.inl ⟨_, by rw [hn] at hk; exact hk⟩)⟩

end Reduced
end Verif.Proofs
