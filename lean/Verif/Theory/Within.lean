import Verif.Theory.Bridge
import Verif.Theory.Cut
import Verif.Theory.Embed
import Verif.Spec.Within
/-! # Reaching a target inside a set of states is reaching it in the restriction of the core -/
set_option linter.unusedSectionVars false

namespace Verif.Theory
open Verif.Spec Finset

variable {S R : Type} [Fintype S] [DecidableEq S]

namespace Within
variable {M : MDP S R} (hM : M.Valid) (A T : Finset S)

theorem out {σ : Sched S R} (n : ℕ) (h : List (S × R)) {s : S} (hs : s ∉ A) : M.withinN A T σ n h s = 0 := by
  cases n with
  | zero => rw [MDP.withinN, if_neg fun g => hs g.1]
  | succ n => rw [MDP.withinN, if_pos hs]

theorem val_eq {σ : Sched S R} (hσ : M.IsSched σ) (n : ℕ) (h : List (S × R)) (s : S) :
    ((Core.ofMDP M hM T).cut (A : Set S)).val σ (n + 1) h s = M.withinN A T σ n h s := by
  induction n generalizing h s with
  | zero =>
    simp only [Core.val, MDP.withinN, Core.ofMDP, Core.cut]
    by_cases hA : s ∈ A <;> by_cases hT : s ∈ T <;> simp [hA, hT]
    simpa using hσ.sum_one h s
  | succ n ih =>
    rw [Core.val, MDP.withinN]
    simp only [ih]
    simp only [Core.ofMDP, Core.cut]
    by_cases hA : s ∈ A
    · by_cases hT : s ∈ T
      · simp [hA, hT]
        simpa using hσ.sum_one h s
      · simp only [mem_coe, hA, hT, if_true, if_false, true_and, zero_add, not_true]
        refine Finset.sum_congr rfl fun r _ => ?_
        congr 1
        refine Finset.sum_congr rfl fun t _ => ?_
        by_cases ht : t ∈ A
        · rw [if_pos ht]
        · rw [out A T n _ ht, mul_zero, mul_zero]
    · simp [hA]

theorem reach_eq {σ : Sched S R} (hσ : M.IsSched σ) (s : S) :
    M.within A T σ s = ((Core.ofMDP M hM T).cut (A : Set S)).tot σ s := by
  have hsub := Core.cut_sub (U := (A : Set S)) (Bridge.sub hM T)
  have hσ' : ((Core.ofMDP M hM T).cut (A : Set S)).IsSched σ := ⟨hσ.nonneg, hσ.sum_one⟩
  have hb := Core.bdd_val hsub.toOK hsub.bound hσ' [] s
  have hb' : BddAbove (Set.range fun n => M.withinN A T σ n [] s) := by
    obtain ⟨c, hc⟩ := hb
    refine ⟨c, ?_⟩
    rintro _ ⟨n, rfl⟩
    exact hc ⟨n + 1, val_eq hM A T hσ n [] s⟩
  apply le_antisymm
  · refine ciSup_le fun n => ?_
    rw [← val_eq hM A T hσ]
    exact le_ciSup hb (n + 1)
  · refine ciSup_le fun n => ?_
    refine le_trans (Core.val_le_succ hsub.toOK hσ' n [] s) ?_
    rw [val_eq hM A T hσ]
    exact le_ciSup hb' n

variable [DecidableEq R]

theorem min_eq (s : S) : M.WithinMin A T s = ((Core.ofMDP M hM T).cut (A : Set S)).Vmin s := by
  have hsub := Core.cut_sub (U := (A : Set S)) (Bridge.sub hM T)
  rw [← Core.iInf_tot hsub.toOK hsub.bound s]
  have e : ∀ σ, ((Core.ofMDP M hM T).cut (A : Set S)).IsSched σ ↔ M.IsSched σ :=
    fun σ => ⟨fun h => ⟨h.nonneg, h.sum_one⟩, fun h => ⟨h.nonneg, h.sum_one⟩⟩
  unfold MDP.WithinMin
  refine Equiv.iInf_congr (Equiv.subtypeEquivRight fun σ => (e σ).symm) ?_
  rintro ⟨σ, hσ⟩
  exact (reach_eq hM A T hσ s).symm

theorem max_eq (s : S) : M.WithinMax A T s = ((Core.ofMDP M hM T).cut (A : Set S)).Vmax s := by
  have hsub := Core.cut_sub (U := (A : Set S)) (Bridge.sub hM T)
  rw [← Core.iSup_tot hsub.toOK hsub.bound s]
  have e : ∀ σ, ((Core.ofMDP M hM T).cut (A : Set S)).IsSched σ ↔ M.IsSched σ :=
    fun σ => ⟨fun h => ⟨h.nonneg, h.sum_one⟩, fun h => ⟨h.nonneg, h.sum_one⟩⟩
  unfold MDP.WithinMax
  refine Equiv.iSup_congr (Equiv.subtypeEquivRight fun σ => (e σ).symm) ?_
  rintro ⟨σ, hσ⟩
  exact (reach_eq hM A T hσ s).symm

end Within

namespace Core
variable {S' R' : Type} [Fintype S'] {A : Core S R} {B : Core S' R'} {e : S' → S}

theorem SameRow.cut (h : A.Sub) {s' : S'} {r' : R'} {r : R} (hr : r ∈ A.rows (e s')) (hs : SameRow A B e s' r' r) (U : Set S) :
    SameRow (A.cut U) (B.cut {s | e s ∈ U}) e s' r' r := by
  classical
  refine ⟨?_, fun t' => ?_, fun t ht hq => ?_⟩
  · simp only [Core.cut, Set.mem_ofPred_eq, hs.g]
  · simp only [Core.cut, Set.mem_ofPred_eq, hs.Q]
  · refine le_antisymm ?_ (Vmax_nonneg (cut_ok h.toOK) (cut_sub h).bound t)
    rw [← hs.out t ht fun h0 => hq ?_]
    · exact cut_Vmax_le h t
    · exact le_antisymm (le_trans (cut_Q_le h.toOK hr t) h0.le) ((cut_ok h.toOK).Q0 _ _ hr t)

theorem Embeds.cut (h : A.Sub) (hE : Embeds A B e) (U : Set S) : Embeds (A.cut U) (B.cut {s | e s ∈ U}) e := by
  refine ⟨hE.inj, fun s' r' hr' => ?_, fun s' r hr => ?_⟩
  · obtain ⟨r, hr, hs⟩ := hE.left s' r' hr'
    exact ⟨r, hr, hs.cut h hr U⟩
  · obtain ⟨r', hr', hs⟩ := hE.right s' r hr
    exact ⟨r', hr', hs.cut h hr U⟩

end Core
end Verif.Theory
