import Verif.Proofs.EC
import Verif.Proofs.CertSem
import Verif.Theory.Transient
/-! `is_ec_free` -/
set_option linter.unusedSectionVars false
namespace Verif.Proofs.RFOK
open Verif.Model Verif.Spec Verif.Props Verif.Theory Finset

variable {K : Type} [Field K] [LinearOrder K] [IsStrictOrderedRing K]
variable {rf : RF K} (h : RFOK rf)
include h

theorem reach_of_ec {E : Set Nat} {act : Nat → Set Nat}
    (hE : GraphEC (MatTr (invGet? rf.sys.idx) rf.sys.P.items) E act) {u v : Nat} (hu : u ∈ E) (hv : v ∈ E) :
    Relation.ReflTransGen (Edge rf.sys) u v := by
  refine Relation.ReflTransGen.mono ?_ _ _ (hE.conn u hu v hv)
  rintro x y ⟨_, a, _, ht⟩
  obtain ⟨i, e1, e2, e3⟩ := (WF.matTr_iff h.wf).1 ht
  exact ⟨a, i, e1, e2, e3⟩

theorem proper_goal : rf.inProperEC (rf.sys.N - 2) = true := by
  have hN := h.hN
  have hC := h.hC
  obtain ⟨a, ha⟩ := h.goalRow
  refine (h.ec _ (by omega)).2 ⟨{rf.sys.N - 2}, fun _ => {a}, ⟨⟨_, rfl⟩, fun _ _ => ⟨a, rfl⟩, ?_, ?_, ?_⟩, rfl⟩
  · rintro s rfl b rfl
    exact ⟨_, (WF.matTr_iff h.wf).2 ⟨_, ha, by omega, by rw [h.goalP]; exact one_pos⟩⟩
  · rintro s rfl b rfl d hd
    obtain ⟨i, e1, e2, e3⟩ := (WF.matTr_iff h.wf).1 hd
    exact goal_stuck h (Relation.ReflTransGen.single ⟨b, i, e1, e2, e3⟩)
  · rintro s rfl t rfl
    exact Relation.ReflTransGen.refl

theorem proper_fail : rf.inProperEC (rf.sys.N - 1) = true := by
  have hN := h.hN
  have hC := h.hC
  obtain ⟨a, ha⟩ := h.failRow
  refine (h.ec _ (by omega)).2 ⟨{rf.sys.N - 1}, fun _ => {a}, ⟨⟨_, rfl⟩, fun _ _ => ⟨a, rfl⟩, ?_, ?_, ?_⟩, rfl⟩
  · rintro s rfl b rfl
    exact ⟨_, (WF.matTr_iff h.wf).2 ⟨_, ha, by omega, by rw [h.failP]; exact one_pos⟩⟩
  · rintro s rfl b rfl d hd
    obtain ⟨i, e1, e2, e3⟩ := (WF.matTr_iff h.wf).1 hd
    exact fail_stuck h (Relation.ReflTransGen.single ⟨b, i, e1, e2, e3⟩)
  · rintro s rfl t rfl
    exact Relation.ReflTransGen.refl

theorem mec_goal_ne {s : Nat} (hs : s < rf.sys.N) (hne : s ≠ rf.sys.N - 2) : rf.mec s ≠ rf.mec (rf.sys.N - 2) := by
  have hN := h.hN
  intro he
  obtain ⟨E, act, hE, h1, h2⟩ := (h.mecSame s hs (rf.sys.N - 2) (by omega) hne).1 he
  exact hne (goal_stuck h (h.reach_of_ec hE h2 h1))

theorem mec_fail_ne {s : Nat} (hs : s < rf.sys.N) (hne : s ≠ rf.sys.N - 1) : rf.mec s ≠ rf.mec (rf.sys.N - 1) := by
  have hN := h.hN
  intro he
  obtain ⟨E, act, hE, h1, h2⟩ := (h.mecSame s hs (rf.sys.N - 1) (by omega) hne).1 he
  exact hne (fail_stuck h (h.reach_of_ec hE h2 h1))

/-- no state besides goal and fail lies in a proper end component -/
theorem ecFree_iff : rf.isEcFree = true ↔ ∀ s < rf.N, rf.inProperEC s = false := by
  have hN := h.hN
  have hgf : rf.mec (rf.sys.N - 2) ≠ rf.mec (rf.sys.N - 1) := h.mec_fail_ne (by omega) (by omega)
  have hnd : ((List.range rf.nmec).filter rf.proper).Nodup := List.nodup_range.filter _
  have hmem : ∀ c, c ∈ (List.range rf.nmec).filter rf.proper ↔ c < rf.nmec ∧ rf.proper c = true := by
    intro c; simp
  have hsub : ({rf.mec (rf.sys.N - 2), rf.mec (rf.sys.N - 1)} : Finset Nat) ⊆ ((List.range rf.nmec).filter rf.proper).toFinset := by
    intro c hc
    rw [List.mem_toFinset, hmem]
    simp only [mem_insert, mem_singleton] at hc
    rcases hc with rfl | rfl
    · exact ⟨h.mecLt _ (by omega), h.proper_goal⟩
    · exact ⟨h.mecLt _ (by omega), h.proper_fail⟩
  have hcard : ({rf.mec (rf.sys.N - 2), rf.mec (rf.sys.N - 1)} : Finset Nat).card = 2 := card_pair hgf
  unfold RF.isEcFree
  rw [decide_eq_true_eq, ← List.toFinset_card_of_nodup hnd]
  constructor
  · intro hc s hs
    unfold RF.N at hs
    by_contra hp
    rw [Bool.not_eq_false] at hp
    have heq := eq_of_subset_of_card_le hsub (by rw [hc, hcard])
    have : rf.mec s ∈ ((List.range rf.nmec).filter rf.proper).toFinset := by
      rw [List.mem_toFinset, hmem]
      exact ⟨h.mecLt _ (by omega), hp⟩
    rw [← heq] at this
    simp only [mem_insert, mem_singleton] at this
    rcases this with g | g
    · exact h.mec_goal_ne (by omega) (by omega) g
    · exact h.mec_fail_ne (by omega) (by omega) g
  · intro hs
    rw [← hcard]
    refine congrArg _ (Subset.antisymm ?_ hsub)
    intro c hc
    rw [List.mem_toFinset, hmem] at hc
    obtain ⟨x, hx, rfl⟩ := h.mecSurj c hc.1
    simp only [mem_insert, mem_singleton]
    by_cases h1 : x = rf.sys.N - 2
    · exact Or.inl (by rw [h1])
    by_cases h2 : x = rf.sys.N - 1
    · exact Or.inr (by rw [h2])
    have := hs x (by unfold RF.N; omega)
    unfold RF.inProperEC at this
    rw [hc.2] at this
    cases this

theorem transient_of_ecFree (φ : K →+*o ℝ) (he : rf.isEcFree = true) : (core h φ).Transient := by
  refine Core.transient_of_no_EC (h.sub φ) fun s hs => ?_
  have := h.ecFree_iff.1 he s.1 s.2
  rw [(h.inEC_iff φ s).1 hs] at this
  cases this

/-- flows of a form without proper end components are bounded -/
theorem flow_bounded (φ : K →+*o ℝ) (he : rf.isEcFree = true) (hi : rf.initial < rf.N) :
    ∃ B : ℝ, ∀ y : Nat → K, (∀ i < rf.C, 0 ≤ y i) → (∀ j < rf.N, yrow rf y j ≤ rf.delta j) →
      φ (∑ i ∈ range rf.C, y i) ≤ B := by
  obtain ⟨w, hw0, hw⟩ := Core.exists_w (h.sub φ).qsub (h.transient_of_ecFree φ he)
  refine ⟨w ⟨rf.initial, hi⟩, fun y hy hb => ?_⟩
  have hb' := (h.yrow_le_iff φ hi y 0).1 (by simpa using hb)
  simp only [map_zero, add_zero] at hb'
  have hy' : ∀ s r, 0 ≤ vecY (rf := rf) φ y s r := fun s r => (phi_nonneg φ).2 (hy r.1 r.2)
  have e1 : φ (∑ i ∈ range rf.C, y i) = ∑ s, ∑ r ∈ (core h φ).rows s, vecY φ y s r := by
    rw [map_sum, Finset.sum_range]
    exact (h.sum_rows φ fun r => φ (y r.1)).symm
  have e2 : ∑ s, (core h φ).bal (vecY φ y) s * w s ≤ w ⟨rf.initial, hi⟩ := by
    refine le_trans (sum_le_sum fun s _ => mul_le_mul_of_nonneg_right (hb' s) (hw0 s)) ?_
    simp
  have e3 : ∑ s, (core h φ).bal (vecY φ y) s * w s =
      ∑ s, ∑ r ∈ (core h φ).rows s, vecY φ y s r * (w s - ∑ t, (core h φ).Q s r t * w t) := by
    unfold Core.bal
    simp only [sub_mul, sum_sub_distrib, mul_sub, sum_mul]
    congr 1
    rw [sum_comm]
    refine sum_congr rfl fun s _ => ?_
    rw [sum_comm]
    refine sum_congr rfl fun r _ => ?_
    rw [mul_sum]
    exact sum_congr rfl fun t _ => by ring
  rw [e1]
  refine le_trans ?_ (e3 ▸ e2)
  refine sum_le_sum fun s _ => sum_le_sum fun r hr => ?_
  have := hw s r hr
  have h1 : 1 ≤ w s - ∑ t, (core h φ).Q s r t * w t := by linarith
  calc vecY φ y s r = vecY φ y s r * 1 := (mul_one _).symm
    _ ≤ _ := mul_le_mul_of_nonneg_left h1 (hy' s r)

/-- z-vectors of a form without proper end components are at most 1 -/
theorem z_le_one (φ : K →+*o ℝ) (he : rf.isEcFree = true) {z : Nat → K} (hz : ∀ i < rf.C, zrow rf z i ≤ rf.b i)
    {s : Nat} (hs : s < rf.N) : z s ≤ 1 := by
  have hz' := (h.zrow_le_iff φ z 0).1 (by simpa using hz)
  simp only [map_zero, add_zero] at hz'
  have := Core.le_Vmin_of_transient (h.sub φ).qsub (h.transient_of_ecFree φ he) (h.sub φ).bound hz' ⟨s, hs⟩
  have h2 := (h.sub φ).Vmin_le_one ⟨s, hs⟩
  have h3 : φ (z s) ≤ φ 1 := by rw [map_one]; exact le_trans this h2
  exact (phi_strict φ).le_iff_le.1 h3

end Verif.Proofs.RFOK
