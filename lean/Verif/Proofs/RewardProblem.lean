import Verif.Proofs.RewardLP
import Verif.Props.MILPExact
/-! # Reward forms: rewards collected inside a set of states; the Farkas systems of reward forms -/
set_option linter.unusedSectionVars false

namespace Verif.Theory.Core
open Verif.Spec Finset

variable {S R : Type} [Fintype S] [DecidableEq S] [DecidableEq R] {A : Core S R} {U : Set S}

theorem restrict_Q_le (h : A.OK) {s : S} {r : R} (hr : r ∈ A.rows s) (t : S) : (A.restrict U).Q s r t ≤ A.Q s r t := by
  simp only [restrict]
  split
  · exact le_rfl
  · exact h.Q0 s r hr t

theorem restrict_g_le (h : A.OK) {s : S} {r : R} (hr : r ∈ A.rows s) : (A.restrict U).g s r ≤ A.g s r := by
  simp only [restrict]
  split
  · exact le_rfl
  · exact h.g0 s r hr

theorem restrict_qsub (h : A.QSub) : (A.restrict U).QSub where
  toOK := restrict_ok h.toOK
  sumQ s r hr := le_trans (sum_le_sum fun t _ => restrict_Q_le h.toOK hr t) (h.sumQ s r hr)

theorem restrict_transient (h : A.QSub) (ht : A.Transient) : (A.restrict U).Transient := by
  intro B hB hcl
  refine ht B hB fun s hs => ?_
  obtain ⟨r, hr, e⟩ := hcl s hs
  refine ⟨r, hr, le_antisymm ?_ ?_⟩
  · exact le_trans (sum_le_sum_of_subset_of_nonneg (subset_univ B) fun t _ _ => h.Q0 s r hr t) (h.sumQ s r hr)
  · rw [← e]
    exact sum_le_sum fun t _ => restrict_Q_le h.toOK hr t

theorem restrict_step_le (h : A.OK) {x : S → ℝ} (hx : ∀ s, 0 ≤ x s) {s : S} {r : R} (hr : r ∈ A.rows s) :
    (A.restrict U).step x s r ≤ A.step x s r :=
  add_le_add (restrict_g_le h hr) (sum_le_sum fun t _ => mul_le_mul_of_nonneg_right (restrict_Q_le h hr t) (hx t))

theorem restrict_bound (h : A.OK) {B : S → ℝ} (hB : A.Bound B) : (A.restrict U).Bound B :=
  ⟨hB.nonneg, fun s r hr => le_trans (restrict_step_le h hB.nonneg hr) (hB.pre s r hr)⟩

theorem restrict_step_out {s : S} (hs : s ∉ U) (x : S → ℝ) (r : R) : (A.restrict U).step x s r = 0 := by
  simp [step, restrict, hs]

theorem restrict_Vmin_out (h : A.OK) {B : S → ℝ} (hB : A.Bound B) {s : S} (hs : s ∉ U) : (A.restrict U).Vmin s = 0 := by
  obtain ⟨r, -, e⟩ := exists_step_Vmin (restrict_ok h) (restrict_bound (U := U) h hB) s
  rw [← e, restrict_step_out hs]

/-- a primal certificate bounds what is collected inside its support -/
theorem primal_restrict (h : A.QSub) (ht : A.Transient) {B : S → ℝ} (hB : A.Bound B) {z : S → ℝ}
    (hz : ∀ s, ∀ r ∈ A.rows s, z s ≤ A.step z s r) (hU : ∀ s, s ∉ U → z s ≤ 0) (s : S) :
    z s ≤ (A.restrict U).Vmin s := by
  refine le_Vmin_of_transient (restrict_qsub h) (restrict_transient h ht) (restrict_bound h.toOK hB) (fun s r hr => ?_) s
  by_cases hs : s ∈ U
  · rw [restrict_step hs]; exact hz s r hr
  · rw [restrict_step_out hs]; exact hU s hs

/-- every set of states has a primal certificate -/
theorem restrict_Vmin_cert (h : A.QSub) {B : S → ℝ} (hB : A.Bound B) :
    (∀ s, 0 ≤ (A.restrict U).Vmin s) ∧ (∀ s, s ∉ U → (A.restrict U).Vmin s = 0) ∧
    ∀ s, ∀ r ∈ A.rows s, (A.restrict U).Vmin s ≤ A.step (A.restrict U).Vmin s r := by
  have h0 := Vmin_nonneg (restrict_ok (U := U) h.toOK) (restrict_bound h.toOK hB)
  exact ⟨h0, fun s hs => restrict_Vmin_out h.toOK hB hs, fun s r hr =>
    le_trans (Vmin_le_step (restrict_ok h.toOK) (restrict_bound h.toOK hB) hr) (restrict_step_le h.toOK h0 hr)⟩

theorem restrict_bal {y : S → R → ℝ} (hU : ∀ s, ∀ r ∈ A.rows s, y s r ≠ 0 → s ∈ U) (t : S) :
    (A.restrict U).bal y t = A.bal y t := by
  unfold bal
  congr 1
  refine sum_congr rfl fun s _ => sum_congr rfl fun r hr => ?_
  by_cases hy : y s r = 0
  · rw [hy, zero_mul, zero_mul]
  · simp [restrict, hU s r hr hy]

theorem restrict_gain {y : S → R → ℝ} (hU : ∀ s, ∀ r ∈ A.rows s, y s r ≠ 0 → s ∈ U) :
    (A.restrict U).gain y = A.gain y := by
  unfold gain
  refine sum_congr rfl fun s _ => sum_congr rfl fun r hr => ?_
  by_cases hy : y s r = 0
  · rw [hy, zero_mul, zero_mul]
  · simp [restrict, hU s r hr hy]

/-- a dual certificate bounds what is collected inside its support -/
theorem dual_restrict (h : A.OK) {B : S → ℝ} (hB : A.Bound B) {y : S → R → ℝ}
    (hy : ∀ s, ∀ r ∈ A.rows s, 0 ≤ y s r) {i : S} (hbal : ∀ t, A.bal y t ≤ if t = i then 1 else 0)
    (hU : ∀ s, ∀ r ∈ A.rows s, y s r ≠ 0 → s ∈ U) : A.gain y ≤ (A.restrict U).Vmax i := by
  rw [← restrict_gain hU]
  exact gain_le_Vmax (restrict_ok h) (restrict_bound h hB) hy fun t => by rw [restrict_bal hU]; exact hbal t

/-- every set of states has a dual certificate -/
theorem exists_dual_restrict (h : A.QSub) (ht : A.Transient) {B : S → ℝ} (hB : A.Bound B) (U : Set S) (i : S) :
    ∃ y : S → R → ℝ, (∀ s r, 0 ≤ y s r) ∧ (∀ t, A.bal y t ≤ if t = i then 1 else 0) ∧
      A.gain y = (A.restrict U).Vmax i ∧ ∀ s r, y s r ≠ 0 → s ∈ U := by
  classical
  obtain ⟨y, h0, hb, hg⟩ := exists_dual_max_transient (restrict_qsub (U := U) h) (restrict_transient h ht)
    (restrict_bound h.toOK hB) i
  have key : ∀ s r, (if s ∈ U then y s r else 0) ≠ 0 → s ∈ U := fun s r hne => by
    by_contra hs
    exact hne (if_neg hs)
  refine ⟨fun s r => if s ∈ U then y s r else 0, fun s r => ?_, fun t => ?_, ?_, key⟩
  · beta_reduce
    split
    · exact h0 s r
    · exact le_rfl
  · have e : ∑ s, ∑ r ∈ A.rows s, (if s ∈ U then y s r else 0) * A.Q s r t =
        ∑ s, ∑ r ∈ (A.restrict U).rows s, y s r * (A.restrict U).Q s r t := by
      refine sum_congr rfl fun s _ => sum_congr rfl fun r _ => ?_
      by_cases hs : s ∈ U <;> simp [restrict, hs]
    have hn : 0 ≤ ∑ s, ∑ r ∈ (A.restrict U).rows s, y s r * (A.restrict U).Q s r t :=
      sum_nonneg fun s _ => sum_nonneg fun r hr => mul_nonneg (h0 s r) ((restrict_ok h.toOK).Q0 s r hr t)
    have hbt := hb t
    unfold bal at hbt ⊢
    rw [e]
    by_cases hs : t ∈ U
    · simp only [hs, if_true]
      exact hbt.le
    · simp only [hs, if_false, sum_const_zero]
      have : (0 : ℝ) ≤ if t = i then 1 else 0 := by split <;> norm_num
      linarith
  · rw [← hg]
    unfold gain
    refine sum_congr rfl fun s _ => sum_congr rfl fun r _ => ?_
    by_cases hs : s ∈ U <;> simp [restrict, hs]

end Verif.Theory.Core

namespace Verif.Proofs
open Verif.Model Verif.Spec Verif.Props Verif.Theory Finset

variable {K : Type} [Field K] [LinearOrder K] [IsStrictOrderedRing K] {x : RRF K}

/-- stopping at the target or outside `U` -/
theorem RRFOK.restrict_embeds (h : RRFOK x) (φ : K →+*o ℝ) {v : List K} (hv : x.rf.sys.rew = some v)
    (hr : ∀ i < x.rf.C, x.rew.getD i 0 = v.getD i 0) (U : Nat → Prop) :
    Core.Embeds0 (Core.ofGain (x.rf.sys.toMDP φ) (WF.valid h.ok.wf φ h.ok.total)
      (fun s r => if s ∈ x.rf.sys.stateSet (x.rf.sys.labelled x.rf.targetL ∪ {s | ¬ U s}) then 0 else x.rf.sys.rewardAt φ r.1)
      (x.rf.sys.stateSet (x.rf.sys.labelled x.rf.targetL ∪ {s | ¬ U s})))
      ((h.core φ).restrict {s | U s.1}) RFOK.emb := by
  set F := x.rf.sys.stateSet (x.rf.sys.labelled x.rf.targetL ∪ {s | ¬ U s}) with hF
  have hg : h.ok.goal ∈ F := by
    rw [hF, mem_stateSet, h.ok.target]
    exact Or.inl rfl
  have hmem : ∀ s : Fin x.rf.N, RFOK.emb s ∈ F ↔ ¬ U s.1 := by
    intro s
    rw [hF, mem_stateSet, h.ok.target]
    constructor
    · rintro (e | e)
      · exact absurd (Fin.ext (Set.mem_singleton_iff.1 e)) (h.ok.emb_ne_goal s)
      · exact e
    · exact fun e => Or.inr e
  have key : ∀ (s : Fin x.rf.N) (r : Fin x.rf.C), Core.SameRow0 (Core.ofGain (x.rf.sys.toMDP φ) (WF.valid h.ok.wf φ h.ok.total)
      (fun s r => if s ∈ F then 0 else x.rf.sys.rewardAt φ r.1) F) ((h.core φ).restrict {s | U s.1}) RFOK.emb s r (RFOK.rowEmb r) := by
    intro s r
    by_cases hs : U s.1
    · have hs' : RFOK.emb s ∉ F := by rw [hmem]; exact not_not.2 hs
      refine ⟨?_, fun t' => ?_, fun t ht hq n => ?_⟩
      · simp only [Core.ofGain, hs', if_false, Sys.rewardAt, hv, Option.getD_some, Core.restrict, Set.mem_ofPred_eq, hs, if_true]
        show φ (x.rew.getD r.1 0) = φ (v.getD r.1 0)
        rw [hr r.1 r.2]
      · simp only [Core.ofGain, hs', if_false, Core.restrict, Set.mem_ofPred_eq, hs, if_true]
        rfl
      · rcases h.ok.cases_state t with ⟨s', rfl⟩ | rfl | rfl
        · exact absurd ⟨s', rfl⟩ ht
        · exact ofGain_zero hg (fun r => if_pos hg) n
        · refine absurd ?_ hq
          simp only [Core.ofGain, hs', if_false]
          show φ (x.rf.sys.P.get r.1 (x.rf.sys.N - 1)) = 0
          rw [h.noFail r.1 r.2, map_zero]
    · have hs' : RFOK.emb s ∈ F := by rw [hmem]; exact hs
      refine ⟨?_, fun t' => ?_, fun t ht hq n => ?_⟩
      · simp only [Core.ofGain, hs', if_true, Core.restrict, Set.mem_ofPred_eq, hs, if_false]
      · simp only [Core.ofGain, hs', if_true, Core.restrict, Set.mem_ofPred_eq, hs, if_false]
      · refine absurd ?_ hq
        simp only [Core.ofGain, hs', if_true]
  refine ⟨fun a b hab => Fin.ext (by simpa [RFOK.emb] using hab), fun s r hr => ?_, fun s r hr => ?_⟩
  · exact ⟨_, (h.ok.rows_emb φ).2 ⟨r, hr, rfl⟩, key s r⟩
  · obtain ⟨r', hr', rfl⟩ := (h.ok.rows_emb φ).1 hr
    exact ⟨r', hr', key s r'⟩

theorem RRFOK.rewMin_inside (h : RRFOK x) (φ : K →+*o ℝ) {v : List K} (hv : x.rf.sys.rew = some v)
    (hr : ∀ i < x.rf.C, x.rew.getD i 0 = v.getD i 0) (h0 : ∀ y ∈ v, 0 ≤ y) (U : Nat → Prop) (s : Fin x.rf.N) :
    x.rf.sys.rewMin φ (x.rf.sys.labelled x.rf.targetL ∪ {s | ¬ U s}) s.1 = ((h.core φ).restrict {s | U s.1}).Vmin s := by
  obtain ⟨b, hb⟩ := h.exists_bound φ
  exact sys_rewMin_eq (rewardAt_nonneg φ fun r e => by rw [hv] at e; cases e; exact h0) (h.restrict_embeds φ hv hr U)
    (Core.restrict_ok (h.qsub φ).toOK) (Core.restrict_bound (h.qsub φ).toOK hb) s

theorem RRFOK.rewMax_inside (h : RRFOK x) (φ : K →+*o ℝ) {v : List K} (hv : x.rf.sys.rew = some v)
    (hr : ∀ i < x.rf.C, x.rew.getD i 0 = v.getD i 0) (h0 : ∀ y ∈ v, 0 ≤ y) (U : Nat → Prop) (s : Fin x.rf.N) :
    x.rf.sys.rewMax φ (x.rf.sys.labelled x.rf.targetL ∪ {s | ¬ U s}) s.1 = ((h.core φ).restrict {s | U s.1}).Vmax s := by
  obtain ⟨b, hb⟩ := h.exists_bound φ
  exact sys_rewMax_eq (rewardAt_nonneg φ fun r e => by rw [hv] at e; cases e; exact h0) (h.restrict_embeds φ hv hr U)
    (Core.restrict_ok (h.qsub φ).toOK) (Core.restrict_bound (h.qsub φ).toOK hb) s

/-! ### the Farkas systems -/

variable {t : K} {mode : Mode} {A : Mat K} {b : List K}

theorem rrf_fark (h : RRFOK x) (hA : x.form.fark t mode = .ok (A, b)) :
    A.cols = x.form.certSize mode ∧ A.rows ≤ b.length ∧ (A.cols + 1 = A.rows → OnePos A) := by
  have hA' : x.farkConstraints t mode = .ok (A, b) := hA
  have hstate : ∀ r k, 0 < x.rf.A r k → x.rf.rowState r = some k := by
    intro r k hk
    unfold RF.A at hk
    by_contra hn
    rw [if_neg hn] at hk
    have := h.ok.P_nonneg r k
    linarith
  cases mode with
  | min =>
    have hA' : x.farkZ t = .ok (A, b) := hA'
    obtain ⟨-, e1, e2, e3, -⟩ := rfarkZ_rows hA'
    refine ⟨e2, by omega, fun _ i hi j hj j' hj' p p' => ?_⟩
    unfold RRF.farkZ at hA'
    split at hA'
    swap
    · cases hA'
    cases hA'
    simp only at hi hj hj' p p'
    split at p
    · rename_i hic
      rw [if_pos hic] at p'
      have := hstate _ _ p
      rw [hstate _ _ p'] at this
      exact (Option.some.inj this).symm
    · exfalso
      unfold RF.delta at p
      split at p <;> norm_num at p
  | max =>
    have hA' : x.farkY t = .ok (A, b) := hA'
    obtain ⟨-, e1, e2, e3, -⟩ := rfarkY_rows hA'
    refine ⟨e2, by omega, fun hq i hi j hj j' hj' p p' => ?_⟩
    have hCN : x.rf.C = x.rf.N := by omega
    unfold RRF.farkY at hA'
    split at hA'
    swap
    · cases hA'
    split at hA'
    swap
    · cases hA'
    cases hA'
    simp only at hi hj hj' p p'
    split at p
    · rename_i hic
      rw [if_pos hic] at p'
      have hex : ∀ r : Fin x.rf.C, ∃ s : Fin x.rf.N, x.rf.rowState r.1 = some s.1 := fun r => by
        obtain ⟨s, hs, e⟩ := h.ok.exists_rowState r.2
        exact ⟨⟨s, hs⟩, e⟩
      choose f hf using hex
      have hsurj : Function.Surjective f := by
        intro s
        obtain ⟨a, r, h1, h2⟩ := h.ok.exists_row s.2
        refine ⟨⟨r, h2⟩, Fin.ext (Option.some.inj ?_)⟩
        rw [← hf, (h.ok.rowState_iff h2).2 ⟨a, h1⟩]
      have hinj := ((Fintype.bijective_iff_surjective_and_card f).2 ⟨hsurj, by simp [hCN]⟩).1
      have : (⟨j, hj⟩ : Fin x.rf.C) = ⟨j', hj'⟩ := hinj (Fin.ext (Option.some.inj (by
        rw [← hf, ← hf]; exact (hstate _ _ p).trans (hstate _ _ p').symm)))
      exact congrArg Fin.val this
    · exfalso
      have := h.nonneg j
      linarith

/-- membership in the z-system -/
theorem rfark_z (hA : x.form.fark t .min = .ok (A, b)) (z : Nat → K) :
    InFark A b z ↔ (∀ s < x.rf.N, 0 ≤ z s) ∧ (∀ i < x.rf.C, zrow x.rf z i ≤ x.rew.getD i 0) ∧ t ≤ z x.rf.initial := by
  have hA' : x.farkZ t = .ok (A, b) := hA
  obtain ⟨e0, e1, e2, e3, e4⟩ := rfarkZ_rows hA'
  obtain ⟨g1, g2, g3⟩ := e4 z
  constructor
  · intro hz
    refine ⟨fun s hs => hz.nonneg s (by omega), fun i hi => ?_, ?_⟩
    · have := hz.rows i (by omega)
      rwa [(g1 i hi).1, (g1 i hi).2] at this
    · have := hz.rows x.rf.C (by omega)
      rw [g2, g3] at this
      linarith
  · rintro ⟨h1, h2, h3⟩
    refine ⟨fun s hs => h1 s (by omega), fun i hi => ?_⟩
    rw [e1] at hi
    rcases Nat.lt_succ_iff_lt_or_eq.1 hi with hi | rfl
    · rw [(g1 i hi).1, (g1 i hi).2]; exact h2 i hi
    · rw [g2, g3]; linarith

/-- membership in the y-system -/
theorem rfark_y (hA : x.form.fark t .max = .ok (A, b)) (y : Nat → K) :
    InFark A b y ↔ (∀ i < x.rf.C, 0 ≤ y i) ∧ (∀ j < x.rf.N, yrow x.rf y j ≤ x.rf.delta j) ∧ t ≤ rgain x y := by
  have hA' : x.farkY t = .ok (A, b) := hA
  obtain ⟨e0, e1, e2, e3, e4⟩ := rfarkY_rows hA'
  obtain ⟨g1, g2, g3⟩ := e4 y
  constructor
  · intro hz
    refine ⟨fun s hs => hz.nonneg s (by omega), fun i hi => ?_, ?_⟩
    · have := hz.rows i (by omega)
      rwa [(g1 i hi).1, (g1 i hi).2] at this
    · have := hz.rows x.rf.N (by omega)
      rw [g2, g3] at this
      linarith
  · rintro ⟨h1, h2, h3⟩
    refine ⟨fun s hs => h1 s (by omega), fun i hi => ?_⟩
    rw [e1] at hi
    rcases Nat.lt_succ_iff_lt_or_eq.1 hi with hi | rfl
    · rw [(g1 i hi).1, (g1 i hi).2]; exact h2 i hi
    · rw [g2, g3]; linarith

end Verif.Proofs
