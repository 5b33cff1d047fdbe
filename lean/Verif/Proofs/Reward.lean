import Verif.Model.Reward
import Verif.Spec.Rew
import Verif.Theory.Reward
import Verif.Proofs.EcFree
import Verif.Proofs.ReduceSem
/-! # Reward forms: expected rewards are values of the core with the rewards as gains -/
set_option linter.unusedSectionVars false

namespace Verif.Theory
open Verif.Spec Finset

variable {S R : Type} [Fintype S] [DecidableEq S]

/-- gains `g`, stopping in `T` -/
noncomputable def Core.ofGain (M : MDP S R) (hM : M.Valid) (g : S → R → ℝ) (T : Finset S) : Core S R where
  rows := M.rows
  ne := hM.rows_nonempty
  g := g
  Q s r t := if s ∈ T then 0 else M.P r t

theorem ofGain_ok {M : MDP S R} (hM : M.Valid) {g : S → R → ℝ} {T : Finset S} (hg : ∀ s, ∀ r ∈ M.rows s, 0 ≤ g s r) :
    (Core.ofGain M hM g T).OK where
  g0 := hg
  Q0 s r hr t := by
    simp only [Core.ofGain]; split
    · exact le_rfl
    · exact hM.nonneg s r hr t

theorem ofGain_isSched {M : MDP S R} {hM : M.Valid} {g : S → R → ℝ} {T : Finset S} {σ : Sched S R} :
    (Core.ofGain M hM g T).IsSched σ ↔ M.IsSched σ :=
  ⟨fun h => ⟨h.nonneg, h.sum_one⟩, fun h => ⟨h.nonneg, h.sum_one⟩⟩

theorem ofGain_val {M : MDP S R} {hM : M.Valid} {ρ : R → ℝ} {T : Finset S} {σ : Sched S R} (n : ℕ) (h : List (S × R)) (s : S) :
    (Core.ofGain M hM (fun s r => if s ∈ T then 0 else ρ r) T).val σ n h s = M.rewN ρ T σ n h s :=
  BridgeRew.val_eq hM T n h s

theorem ofGain_valIn {M : MDP S R} {hM : M.Valid} {ρ : R → ℝ} {T : Finset S} {σ : Sched S R} (n : ℕ) (h : List (S × R)) (s : S) :
    (Core.ofGain M hM (fun _ r => ρ r) T).val σ n h s = M.rewInN ρ T σ n h s := by
  induction n generalizing h s with
  | zero => rfl
  | succ n ih =>
    simp only [Core.val, MDP.rewInN, ih]
    simp only [Core.ofGain]
    refine Finset.sum_congr rfl fun r _ => ?_
    split <;> simp

theorem ofGain_step_stop {M : MDP S R} {hM : M.Valid} {g : S → R → ℝ} {T : Finset S} {t : S} (ht : t ∈ T) (x : S → ℝ) (r : R) :
    (Core.ofGain M hM g T).step x t r = g t r := by
  simp [Core.step, Core.ofGain, ht]

theorem ofGain_zero {M : MDP S R} {hM : M.Valid} {g : S → R → ℝ} {T : Finset S} {t : S} (ht : t ∈ T) (hg : ∀ r, g t r = 0)
    (n : ℕ) : (Core.ofGain M hM g T).vmax n t = 0 := by
  cases n with
  | zero => rfl
  | succ n =>
    obtain ⟨r0, hr0⟩ := hM.rows_nonempty t
    refine le_antisymm (Finset.sup'_le _ _ fun r _ => ?_) (le_trans ?_ (Finset.le_sup' _ hr0))
    · rw [ofGain_step_stop ht, hg]
    · rw [ofGain_step_stop ht, hg]

section
variable {M : MDP S R} {hM : M.Valid} {ρ : R → ℝ} {T : Finset S} (s : S)

theorem RewMax_ofGain : M.RewMax ρ T s =
    ⨆ σ : {σ : Sched S R // (Core.ofGain M hM (fun s r => if s ∈ T then 0 else ρ r) T).IsSched σ},
      (Core.ofGain M hM (fun s r => if s ∈ T then 0 else ρ r) T).tot σ s := by
  refine Equiv.iSup_congr (Equiv.subtypeEquivRight fun σ => ofGain_isSched.symm) ?_
  rintro ⟨σ, hσ⟩
  show Core.tot _ σ s = M.rew ρ T σ s
  unfold MDP.rew Core.tot
  simp only [ofGain_val]

theorem RewMin_ofGain : M.RewMin ρ T s =
    ⨅ σ : {σ : Sched S R // (Core.ofGain M hM (fun s r => if s ∈ T then 0 else ρ r) T).IsSched σ},
      (Core.ofGain M hM (fun s r => if s ∈ T then 0 else ρ r) T).tot σ s := by
  refine Equiv.iInf_congr (Equiv.subtypeEquivRight fun σ => ofGain_isSched.symm) ?_
  rintro ⟨σ, hσ⟩
  show Core.tot _ σ s = M.rew ρ T σ s
  unfold MDP.rew Core.tot
  simp only [ofGain_val]

theorem RewInMax_ofGain : M.RewInMax ρ T s =
    ⨆ σ : {σ : Sched S R // (Core.ofGain M hM (fun _ r => ρ r) T).IsSched σ}, (Core.ofGain M hM (fun _ r => ρ r) T).tot σ s := by
  refine Equiv.iSup_congr (Equiv.subtypeEquivRight fun σ => ofGain_isSched.symm) ?_
  rintro ⟨σ, hσ⟩
  show Core.tot _ σ s = M.rewIn ρ T σ s
  unfold MDP.rewIn Core.tot
  simp only [ofGain_valIn]

theorem RewInMin_ofGain : M.RewInMin ρ T s =
    ⨅ σ : {σ : Sched S R // (Core.ofGain M hM (fun _ r => ρ r) T).IsSched σ}, (Core.ofGain M hM (fun _ r => ρ r) T).tot σ s := by
  refine Equiv.iInf_congr (Equiv.subtypeEquivRight fun σ => ofGain_isSched.symm) ?_
  rintro ⟨σ, hσ⟩
  show Core.tot _ σ s = M.rewIn ρ T σ s
  unfold MDP.rewIn Core.tot
  simp only [ofGain_valIn]

end
end Verif.Theory

namespace Verif.Proofs
open Verif.Model Verif.Spec Verif.Props Verif.Theory Finset Reduce Verif.Proofs.IDict

variable {K : Type} [Field K] [LinearOrder K] [IsStrictOrderedRing K]

/-- What a reward form is after its checks -/
structure RRFOK (x : RRF K) : Prop where
  ok : RFOK x.rf
  len : x.rew.length = x.rf.C
  nonneg : ∀ i, 0 ≤ x.rew.getD i 0
  noFail : ∀ i < x.rf.C, x.rf.sys.P.get i (x.rf.sys.N - 1) = 0
  noEC : ∀ s < x.rf.N, x.rf.inProperEC s = false
  idx : ∀ i < x.rf.sys.C - 2, invGet? x.idx i = invGet? x.rf.sys.idx i

namespace RRFOK
variable {x : RRF K} (h : RRFOK x) (φ : K →+*o ℝ)

theorem ecFree (h : RRFOK x) : x.rf.isEcFree = true := h.ok.ecFree_iff.2 h.noEC

/-- the core of the form, with the rewards as gains -/
noncomputable def core (h : RRFOK x) (φ : K →+*o ℝ) : Core (Fin x.rf.N) (Fin x.rf.C) :=
  { h.ok.core φ with g := fun _ i => φ (x.rew.getD i.1 0) }

include h

theorem rows_eq (s) : (h.core φ).rows s = (h.ok.core φ).rows s := rfl

theorem qsub : (h.core φ).QSub where
  g0 _ _ _ := (phi_nonneg φ).2 (h.nonneg _)
  Q0 s r hr t := (h.ok.sub φ).Q0 s r hr t
  sumQ _ _ hr := (h.ok.sub φ).sumQ_le hr

theorem transient : (h.core φ).Transient := h.ok.transient_of_ecFree φ h.ecFree

theorem exists_bound : ∃ b, (h.core φ).Bound b := by
  refine Core.exists_bound (h.qsub φ) (h.transient φ) (∑ i : Fin x.rf.C, φ (x.rew.getD i.1 0)) fun s r _ => ?_
  exact Finset.single_le_sum (f := fun i : Fin x.rf.C => φ (x.rew.getD i.1 0))
    (fun i _ => (phi_nonneg φ).2 (h.nonneg _)) (Finset.mem_univ r)

/-- without a way to fail, the target is reached almost surely -/
theorem prMin_one (s : Fin x.rf.N) : (h.ok.core φ).Vmin s = 1 := by
  refine le_antisymm ((h.ok.sub φ).Vmin_le_one s) ?_
  refine Core.le_Vmin_of_transient (h.ok.sub φ).qsub (h.ok.transient_of_ecFree φ h.ecFree) (h.ok.sub φ).bound
    (z := fun _ => 1) (fun s r _ => ?_) s
  have h1 := h.ok.row_sum φ (RFOK.lt_C r.2)
  rw [h.noFail r.1 r.2, map_zero, add_zero] at h1
  simp only [Core.step, mul_one]
  show 1 ≤ φ (x.rf.b r.1) + ∑ t : Fin x.rf.N, φ (x.rf.P r.1 t.1)
  linarith

/-- the form inside its own system -/
theorem embeds (v : List K) (hv : x.rf.sys.rew = some v) (hr : ∀ i < x.rf.C, x.rew.getD i 0 = v.getD i 0)
    {F : Finset (Fin x.rf.sys.N)} (hF : ∀ t, t ∈ F ↔ t = h.ok.goal) :
    Core.Embeds0 (Core.ofGain (x.rf.sys.toMDP φ) (WF.valid h.ok.wf φ h.ok.total)
      (fun s r => if s ∈ F then 0 else x.rf.sys.rewardAt φ r.1) F) (h.core φ) RFOK.emb := by
  have key : ∀ (s : Fin x.rf.N) (r : Fin x.rf.C), Core.SameRow0 (Core.ofGain (x.rf.sys.toMDP φ) (WF.valid h.ok.wf φ h.ok.total)
      (fun s r => if s ∈ F then 0 else x.rf.sys.rewardAt φ r.1) F) (h.core φ) RFOK.emb s r (RFOK.rowEmb r) := by
    intro s r
    have hs : RFOK.emb s ∉ F := by rw [hF]; exact h.ok.emb_ne_goal s
    refine ⟨?_, fun t' => ?_, fun t ht hq n => ?_⟩
    · simp only [Core.ofGain, hs, if_false, Sys.rewardAt, hv, Option.getD_some]
      show φ (x.rew.getD r.1 0) = φ (v.getD r.1 0)
      rw [hr r.1 r.2]
    · simp only [Core.ofGain, hs, if_false]
      rfl
    · rcases h.ok.cases_state t with ⟨s', rfl⟩ | rfl | rfl
      · exact absurd ⟨s', rfl⟩ ht
      · have hg : h.ok.goal ∈ F := by rw [hF]
        exact ofGain_zero hg (fun r => if_pos hg) n
      · refine absurd ?_ hq
        simp only [Core.ofGain, hs, if_false]
        show φ (x.rf.sys.P.get r.1 (x.rf.sys.N - 1)) = 0
        rw [h.noFail r.1 r.2, map_zero]
  refine ⟨fun a b hab => Fin.ext (by simpa [RFOK.emb] using hab), fun s r hr => ?_, fun s r hr => ?_⟩
  · exact ⟨_, (h.ok.rows_emb φ).2 ⟨r, hr, rfl⟩, key s r⟩
  · obtain ⟨r', hr', rfl⟩ := (h.ok.rows_emb φ).1 hr
    exact ⟨r', hr', key s r'⟩

end RRFOK

/-! ### `reduce` -/

theorem wf_act {M : Sys K} (h : M.WF) (ht : M.Total) : ∀ x < M.N, ∃ a d, MatTr (invGet? M.idx) M.P.items x a d := by
  intro x hx
  obtain ⟨a, i, e1, e2⟩ := ht x hx
  obtain ⟨j, _, hp⟩ := WF.exists_pos h e2
  exact ⟨a, j, (WF.matTr_iff h).2 ⟨i, e1, e2, hp⟩⟩

/-- `assert_reachform_consistency` -/
theorem assertReachform_ok {ρ : Graph.Rnd} {rf : RF K} (h : RFOK rf) (ha : RRF.assertReachform ρ rf = .ok ()) :
    (∃ v, rf.sys.rew = some v) ∧ (∀ s < rf.sys.N, Relation.ReflTransGen (Edge rf.sys) s (rf.sys.N - 1) → s = rf.sys.N - 1) ∧
      ∀ s < rf.N, rf.inProperEC s = false := by
  have hN := h.hN
  unfold RRF.assertReachform at ha
  split at ha
  · cases ha
  rename_i v hv
  obtain ⟨bwd, hb, -, hbs⟩ := WF.mask_bwd h.wf (F := [rf.sys.N - 1]) (B := []) (by simp) (by simp) (by simp; omega)
  simp only [bind, Except.bind, hb] at ha
  split at ha
  swap
  · cases ha
  rename_i hmask
  split at ha
  · cases ha
  rename_i r hr
  split at ha
  swap
  · cases ha
  rename_i hcount
  obtain ⟨mec, proper, cnt⟩ := r
  refine ⟨⟨v, hv⟩, fun s hs hreach => ?_, ?_⟩
  · refine (hmask s hs).1 ?_
    rw [hbs, reachAvoid_nil]
    exact Relation.reflTransGen_swap.2 hreach
  · obtain ⟨mec', proper', cnt', hmec', q1, q2, q3⟩ := C07_mec h.wf.graph (by omega) ρ
    rw [hr] at hmec'
    cases hmec'
    have h2 : RFOK { rf with mec := mec, proper := proper, nmec := cnt } :=
      { wf := h.wf, total := h.total, hN := h.hN, hC := h.hC, goalRow := h.goalRow, failRow := h.failRow,
        goalOnly := h.goalOnly, failOnly := h.failOnly, goalP := h.goalP, failP := h.failP, inv := h.inv,
        target := h.target, fail := h.fail,
        ec := fun s hs => C08_proper h.wf.graph ρ (wf_act h.wf h.total) hr hs,
        mecSame := q1, mecLt := q2, mecSurj := q3 }
    have h3 : RF.isEcFree { rf with mec := mec, proper := proper, nmec := cnt } = true := by
      unfold RF.isEcFree
      rw [decide_eq_true_eq]
      exact hcount
    have h4 := h2.ecFree_iff.1 h3
    intro s hs
    have hsN : s < rf.sys.N := RFOK.lt_N hs
    have h5 := h4 s hs
    rw [Bool.eq_false_iff] at h5 ⊢
    intro hc
    exact h5 ((h2.ec s hsN).2 ((h.ec s hsN).1 hc))

theorem rrf_reduce {ρ ρ' : Graph.Rnd} {M : Sys K} (hM : M.WF) (ht : M.Total) (hS : Inv M.labS) (hA : Inv M.labA)
    (hrew : ∀ r, M.rew = some r → ∀ i < M.C, ∃ x, r[i]? = some x ∧ 0 ≤ x) {il tl : String} {res : RRF.Result K}
    (h : RRF.reduce ρ ρ' M il tl = .ok res) :
    ∃ T i mask v v', Reduced M il tl "rf_target" "rf_fail" res.rrf.rf.sys res.cols res.rows T i mask ∧
      RF.make ρ res.rrf.rf.sys il "rf_target" "rf_fail" true = .ok res.rrf.rf ∧
      M.reduce ρ il tl "rf_target" "rf_fail" = .ok ⟨res.rrf.rf, res.cols, res.rows⟩ ∧
      M.rew = some v ∧ res.rrf.rf.sys.rew = some v' ∧ (∀ i < res.rrf.rf.C, res.rrf.rew.getD i 0 = v'.getD i 0) ∧
      (∀ y ∈ v', 0 ≤ y) ∧
      (∀ (k : Nat) (sa sa' : Nat × Nat) (i : Nat), res.rows[k]? = some (sa, sa') → (sa, i) ∈ M.idx → v'[k]? = v[i]?) ∧
      RRFOK res.rrf := by
  unfold RRF.reduce at h
  simp only [bind, Except.bind] at h
  split at h
  · cases h
  rename_i r hr
  split at h
  · cases h
  rename_i u ha
  split at h
  · cases h
  rename_i v hv
  simp only [RRF.make, bind, Except.bind] at h
  split at h
  · cases h
  rename_i x hx
  cases h
  split at hx
  · cases hx
  rename_i d1 hd1
  split at hx
  · cases hx
  rename_i d2 hd2
  cases hx
  obtain ⟨T, i, mask, hR, hrf⟩ := reduce_spec hM hS hA hr
  obtain ⟨i', hi'⟩ := hR.init_kept hrf
  have hc := hR.consistent hM ht (by decide) hi'
  have ho := rfok_of_make hR.red.wf hc hrf
  obtain ⟨-, hnf, hec⟩ := assertReachform_ok ho ha
  obtain ⟨rv, hrv⟩ : ∃ rv, M.rew = some rv := by
    cases e : M.rew with
    | none => rw [hR.red.rewN e] at hv; cases hv
    | some rv => exact ⟨rv, rfl⟩
  obtain ⟨nr, n1, n2, n3, n4, n5⟩ := hR.red.rewS rv hrv
  rw [hv] at n1
  cases n1
  have eC := hR.red.hC
  have eN := hR.red.hN
  have hlen : (v.take (v.length - 2)).length = r.rf.C := by
    rw [List.length_take]; unfold RF.C; omega
  have hget : ∀ i < r.rf.C, (v.take (v.length - 2)).getD i 0 = v.getD i 0 := by
    intro i hi
    unfold RF.C at hi
    simp only [List.getD_eq_getElem?_getD]
    rw [List.getElem?_take_of_lt (by omega)]
  have hnn : ∀ k < r.rf.C, 0 ≤ v.getD k 0 := by
    intro k hk
    have hkr : k < r.rows.length := by unfold RF.C at hk; omega
    obtain ⟨⟨⟨s, a⟩, sa'⟩, hrow⟩ : ∃ e, r.rows[k]? = some e := ⟨_, List.getElem?_eq_getElem hkr⟩
    obtain ⟨s', a'⟩ := sa'
    obtain ⟨-, -, -, ⟨j, hj, hjC⟩, -⟩ := hR.red.maps.row_spec hrow
    obtain ⟨y, hy, hy0⟩ := hrew rv hrv j hjC
    rw [List.getD_eq_getElem?_getD, n3 k (s, a) (s', a') j hrow hj, hy]
    exact hy0
  refine ⟨T, i, mask, rv, v, hR, hrf, hr, hrv, hv, hget, ?_, n3, ho, hlen, ?_, ?_, hec, ?_⟩
  · intro y hy
    obtain ⟨k, hk, rfl⟩ := List.mem_iff_getElem.1 hy
    by_cases hkC : k < r.rf.C
    · have := hnn k hkC
      rwa [List.getD_eq_getElem _ _ hk] at this
    · have : k = r.rows.length ∨ k = r.rows.length + 1 := by unfold RF.C at hkC; omega
      rcases this with rfl | rfl
      · rw [List.getElem?_eq_getElem hk] at n4
        exact (Option.some.inj n4).ge
      · rw [List.getElem?_eq_getElem hk] at n5
        exact (Option.some.inj n5).ge
  · intro k
    by_cases hk : k < r.rf.C
    · show 0 ≤ (v.take (v.length - 2)).getD k 0
      rw [hget k hk]
      exact hnn k hk
    · show 0 ≤ (v.take (v.length - 2)).getD k 0
      rw [List.getD_eq_default _ _ (by omega)]
  · intro k hk
    obtain ⟨s, a, hm, hs⟩ := ho.exists_state hk
    have hnn := WF.get_nonneg ho.wf k (r.rf.sys.N - 1)
    by_contra hne
    have hpos : 0 < r.rf.sys.P.get k (r.rf.sys.N - 1) := lt_of_le_of_ne hnn (Ne.symm hne)
    have := hnf s (RFOK.lt_N hs) (Relation.ReflTransGen.single ⟨a, k, hm, RFOK.lt_C hk, hpos⟩)
    unfold RF.N at hs
    omega
  · intro j hj
    obtain ⟨k1, v1, -, m1⟩ := delInv_ok ho.wf.keys ho.wf.vals hd1
    obtain ⟨k2, v2, -, m2⟩ := delInv_ok k1 v1 hd2
    show invGet? d2 j = invGet? r.rf.sys.idx j
    have hj : j < r.rf.sys.C - 2 := hj
    cases hg : invGet? r.rf.sys.idx j with
    | none =>
      rw [invGet?_eq_none] at hg ⊢
      intro hmem
      obtain ⟨e, he, rfl⟩ := List.mem_map.1 hmem
      exact hg (List.mem_map_of_mem ((m1 _).1 ((m2 _).1 he).1).1)
    | some k =>
      rw [invGet?_iff v2, m2, m1]
      exact ⟨⟨mem_of_invGet? hg, by simp only; omega⟩, by simp only; omega⟩

end Verif.Proofs
