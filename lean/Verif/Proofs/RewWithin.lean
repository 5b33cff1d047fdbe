import Verif.Proofs.RewardSem
import Verif.Spec.RewWithin
/-! # Collecting rewards inside a set of states is collecting them in the restriction of the core -/
set_option linter.unusedSectionVars false

namespace Verif.Theory
open Verif.Spec Finset

variable {S R S' R' : Type} [Fintype S] [Fintype S']

namespace Core
variable {A : Core S R} {B : Core S' R'} {e : S' → S}

theorem restrict_vmax_le (ok : A.OK) {U V : Set S} (hUV : U ⊆ V) (n : ℕ) (s : S) :
    (A.restrict U).vmax n s ≤ (A.restrict V).vmax n s := by
  induction n generalizing s with
  | zero => exact le_rfl
  | succ n ih =>
    simp only [vmax]
    by_cases hs : s ∈ U
    · refine Finset.sup'_le _ _ fun r hr => ?_
      have hr : r ∈ A.rows s := hr
      refine le_trans ?_ (Finset.le_sup' ((A.restrict V).step ((A.restrict V).vmax n) s) (b := r) hr)
      rw [restrict_step hs, restrict_step (hUV hs)]
      unfold step
      gcongr with t _
      · exact ok.Q0 s r hr t
      · exact ih t
    · refine Finset.sup'_le _ _ fun r hr => ?_
      have : (A.restrict U).step ((A.restrict U).vmax n) s r = 0 := by simp [step, restrict, hs]
      rw [this]
      exact vmax_nonneg (restrict_ok ok) (n + 1) s

theorem restrict_vmin_le (ok : A.OK) {U V : Set S} (hUV : U ⊆ V) (n : ℕ) (s : S) :
    (A.restrict U).vmin n s ≤ (A.restrict V).vmin n s := by
  induction n generalizing s with
  | zero => exact le_rfl
  | succ n ih =>
    simp only [vmin]
    refine Finset.le_inf' _ _ fun r hr => ?_
    have hr : r ∈ A.rows s := hr
    refine le_trans (Finset.inf'_le ((A.restrict U).step ((A.restrict U).vmin n) s) (b := r) hr) ?_
    by_cases hs : s ∈ U
    · rw [restrict_step hs, restrict_step (hUV hs)]
      unfold step
      gcongr with t _
      · exact ok.Q0 s r hr t
      · exact ih t
    · have : (A.restrict U).step ((A.restrict U).vmin n) s r = 0 := by simp [step, restrict, hs]
      rw [this]
      unfold step
      refine add_nonneg ((restrict_ok ok).g0 s r hr) (Finset.sum_nonneg fun t _ => mul_nonneg ((restrict_ok ok).Q0 s r hr t) ?_)
      exact vmin_nonneg (restrict_ok ok) n t

theorem restrict_univ : A.restrict Set.univ = A := by
  obtain ⟨r, n, g, Q⟩ := A
  simp [restrict]

/-- a part, restricted on both sides -/
theorem Embeds0.restrict (h : Embeds0 A B e) (ok : A.OK) {U : Set S} {U' : Set S'} (hU : ∀ s', s' ∈ U' ↔ e s' ∈ U) :
    Embeds0 (A.restrict U) (B.restrict U') e := by
  have key : ∀ s' r' r, SameRow0 A B e s' r' r → SameRow0 (A.restrict U) (B.restrict U') e s' r' r := by
    intro s' r' r hs
    refine ⟨?_, fun t' => ?_, fun t ht hq n => ?_⟩
    · by_cases hm : e s' ∈ U
      · simp only [Core.restrict, if_pos hm, if_pos ((hU s').2 hm), hs.g]
      · simp only [Core.restrict, if_neg hm, if_neg fun g => hm ((hU s').1 g)]
    · by_cases hm : e s' ∈ U
      · simp only [Core.restrict, if_pos hm, if_pos ((hU s').2 hm), hs.Q]
      · simp only [Core.restrict, if_neg hm, if_neg fun g => hm ((hU s').1 g)]
    · have hq' : A.Q (e s') r t ≠ 0 := by
        intro h0
        refine hq ?_
        simp only [Core.restrict, h0, ite_self]
      refine le_antisymm ?_ (vmax_nonneg (restrict_ok ok) n t)
      rw [← hs.out t ht hq' n]
      have := restrict_vmax_le ok (Set.subset_univ U) n t
      rwa [restrict_univ] at this
  refine ⟨h.inj, fun s' r' hr' => ?_, fun s' r hr => ?_⟩
  · obtain ⟨r, hr, hs⟩ := h.left s' r' hr'
    exact ⟨r, hr, key _ _ _ hs⟩
  · obtain ⟨r', hr', hs⟩ := h.right s' r hr
    exact ⟨r', hr', key _ _ _ hs⟩
end Core

section
variable [DecidableEq S] {M : MDP S R} {hM : M.Valid} {ρ : R → ℝ} {A T : Finset S}

theorem rewWithin_val {σ : Sched S R} (n : ℕ) (h : List (S × R)) (s : S) :
    ((Core.ofGain M hM (fun _ r => ρ r) T).restrict (A : Set S)).val σ n h s = M.rewWithinN ρ A T σ n h s := by
  induction n generalizing h s with
  | zero => rfl
  | succ n ih =>
    simp only [Core.val, MDP.rewWithinN, ih]
    simp only [Core.ofGain, Core.restrict]
    by_cases hA : s ∈ A
    · simp only [mem_coe, hA, if_true, not_true, if_false]
      refine Finset.sum_congr rfl fun r _ => ?_
      split <;> simp
    · simp [hA]

theorem RewWithinMax_ofGain (s : S) : M.RewWithinMax ρ A T s =
    ⨆ σ : {σ : Sched S R // ((Core.ofGain M hM (fun _ r => ρ r) T).restrict (A : Set S)).IsSched σ},
      ((Core.ofGain M hM (fun _ r => ρ r) T).restrict (A : Set S)).tot σ s := by
  refine Equiv.iSup_congr (Equiv.subtypeEquivRight fun σ => ⟨fun h => ⟨h.nonneg, h.sum_one⟩, fun h => ⟨h.nonneg, h.sum_one⟩⟩) ?_
  rintro ⟨σ, hσ⟩
  show Core.tot _ σ s = M.rewWithin ρ A T σ s
  unfold MDP.rewWithin Core.tot
  simp only [rewWithin_val]

theorem RewWithinMin_ofGain (s : S) : M.RewWithinMin ρ A T s =
    ⨅ σ : {σ : Sched S R // ((Core.ofGain M hM (fun _ r => ρ r) T).restrict (A : Set S)).IsSched σ},
      ((Core.ofGain M hM (fun _ r => ρ r) T).restrict (A : Set S)).tot σ s := by
  refine Equiv.iInf_congr (Equiv.subtypeEquivRight fun σ => ⟨fun h => ⟨h.nonneg, h.sum_one⟩, fun h => ⟨h.nonneg, h.sum_one⟩⟩) ?_
  rintro ⟨σ, hσ⟩
  show Core.tot _ σ s = M.rewWithin ρ A T σ s
  unfold MDP.rewWithin Core.tot
  simp only [rewWithin_val]
end
end Verif.Theory

namespace Verif.Proofs
open Verif.Model Verif.Spec Verif.Props Verif.Theory Finset

variable {K : Type} [Field K] [LinearOrder K] [IsStrictOrderedRing K]
variable {M : Sys K} {φ : K →+*o ℝ} {hv : (M.toMDP φ).Valid} {A T : Set Nat} {S' R' : Type} [Fintype S']
  {B : Core S' R'} {e : S' → Fin M.N} {b : S' → ℝ}

theorem sys_rewWithin_eq (hr : ∀ i, 0 ≤ M.rewardAt φ i)
    (h : Core.Embeds0 (Core.ofGain (M.toMDP φ) hv (fun _ r => M.rewardAt φ r.1) (M.stateSet T)) B e)
    (okB : B.OK) {U : Set S'} (hU : ∀ s', s' ∈ U ↔ (e s').1 ∈ A) (hb : (B.restrict U).Bound b) (s' : S') :
    M.rewWithin φ .min A T (e s').1 = (B.restrict U).Vmin s' ∧ M.rewWithin φ .max A T (e s').1 = (B.restrict U).Vmax s' := by
  have ok := ofGain_ok (T := M.stateSet T) hv (g := fun _ r => M.rewardAt φ r.1) fun s r _ => hr r.1
  have h' := h.restrict ok (U := (M.stateSet A : Set (Fin M.N))) (U' := U) fun s' => by rw [hU, mem_coe, mem_stateSet]
  unfold Sys.rewWithin
  rw [dif_pos (e s').2]
  simp only
  rw [dif_pos (e s').2, RewWithinMin_ofGain (hM := hv), RewWithinMax_ofGain (hM := hv)]
  exact ⟨h'.iInf_tot (Core.restrict_ok ok) (Core.restrict_ok okB) hb s', h'.iSup_tot (Core.restrict_ok ok) (Core.restrict_ok okB) hb s'⟩

end Verif.Proofs
