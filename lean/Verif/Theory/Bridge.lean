import Verif.Theory.Farkas
/-!
# From the scheduler semantics to value iteration

`ofMDP M T` is the core whose values are the reachability probabilities of `T`.
-/
set_option linter.unusedSectionVars false

namespace Verif.Theory
open Verif.Spec Finset Filter Topology

variable {S R : Type} [Fintype S] [DecidableEq S]

/-- core of the reachability problem for `T`: states of `T` gain 1 and stop. -/
noncomputable def Core.ofMDP (M : MDP S R) (hM : M.Valid) (T : Finset S) : Core S R where
  rows := M.rows
  ne := hM.rows_nonempty
  g s _ := if s ∈ T then 1 else 0
  Q s r t := if s ∈ T then 0 else M.P r t

/-- core of the expected reward problem -/
noncomputable def Core.ofRew (M : MDP S R) (hM : M.Valid) (ρ : R → ℝ) (T : Finset S) : Core S R where
  rows := M.rows
  ne := hM.rows_nonempty
  g s r := if s ∈ T then 0 else ρ r
  Q s r t := if s ∈ T then 0 else M.P r t

namespace Bridge
variable {M : MDP S R} (hM : M.Valid) (T : Finset S)

theorem sub : (Core.ofMDP M hM T).Sub where
  g0 s r _ := by simp only [Core.ofMDP]; split <;> norm_num
  Q0 s r hr t := by
    simp only [Core.ofMDP]; split
    · exact le_rfl
    · exact hM.nonneg s r hr t
  sub s r hr := by
    simp only [Core.ofMDP]; split
    · simp
    · simp [hM.sum_one s r hr]

theorem ok : (Core.ofMDP M hM T).OK := (sub hM T).toOK
theorem bound : (Core.ofMDP M hM T).Bound (fun _ => 1) := (sub hM T).bound

theorem isSched_iff {σ : Sched S R} : (Core.ofMDP M hM T).IsSched σ ↔ M.IsSched σ :=
  ⟨fun h => ⟨h.nonneg, h.sum_one⟩, fun h => ⟨h.nonneg, h.sum_one⟩⟩

theorem val_eq {σ : Sched S R} (hσ : M.IsSched σ) (n : ℕ) (h : List (S × R)) (s : S) :
    (Core.ofMDP M hM T).val σ (n + 1) h s = M.reachN T σ n h s := by
  induction n generalizing h s with
  | zero =>
    simp only [Core.val, MDP.reachN, Core.ofMDP]
    split
    · simpa using hσ.sum_one h s
    · simp
  | succ n ih =>
    rw [Core.val, MDP.reachN]
    simp only [ih]
    simp only [Core.ofMDP]
    split
    · simpa using hσ.sum_one h s
    · simp

theorem reach_eq {σ : Sched S R} (hσ : M.IsSched σ) (s : S) :
    M.reach T σ s = (Core.ofMDP M hM T).tot σ s := by
  have hb := Core.bdd_val (ok hM T) (bound hM T) ((isSched_iff hM T).2 hσ) [] s
  have hb' : BddAbove (Set.range fun n => M.reachN T σ n [] s) := by
    obtain ⟨c, hc⟩ := hb
    refine ⟨c, ?_⟩
    rintro _ ⟨n, rfl⟩
    exact hc ⟨n + 1, val_eq hM T hσ n [] s⟩
  apply le_antisymm
  · refine ciSup_le fun n => ?_
    rw [← val_eq hM T hσ]
    exact le_ciSup hb (n + 1)
  · refine ciSup_le fun n => ?_
    refine le_trans (Core.val_le_succ (ok hM T) ((isSched_iff hM T).2 hσ) n [] s) ?_
    rw [val_eq hM T hσ]
    exact le_ciSup hb' n

variable [DecidableEq R]

theorem PrMin_eq (s : S) : M.PrMin T s = (Core.ofMDP M hM T).Vmin s := by
  rw [← Core.iInf_tot (ok hM T) (bound hM T) s]
  have e : ∀ σ, (Core.ofMDP M hM T).IsSched σ ↔ M.IsSched σ := fun σ => isSched_iff hM T
  unfold MDP.PrMin
  refine Equiv.iInf_congr (Equiv.subtypeEquivRight fun σ => (e σ).symm) ?_
  rintro ⟨σ, hσ⟩
  exact (reach_eq hM T hσ s).symm

theorem PrMax_eq (s : S) : M.PrMax T s = (Core.ofMDP M hM T).Vmax s := by
  rw [← Core.iSup_tot (ok hM T) (bound hM T) s]
  have e : ∀ σ, (Core.ofMDP M hM T).IsSched σ ↔ M.IsSched σ := fun σ => isSched_iff hM T
  unfold MDP.PrMax
  refine Equiv.iSup_congr (Equiv.subtypeEquivRight fun σ => (e σ).symm) ?_
  rintro ⟨σ, hσ⟩
  exact (reach_eq hM T hσ s).symm

end Bridge

namespace BridgeRew
variable {M : MDP S R} (hM : M.Valid) {ρ : R → ℝ} (hρ : ∀ s, ∀ r ∈ M.rows s, 0 ≤ ρ r) (T : Finset S)
include hρ

theorem ok : (Core.ofRew M hM ρ T).OK where
  g0 s r hr := by
    simp only [Core.ofRew]; split
    · exact le_rfl
    · exact hρ s r hr
  Q0 s r hr t := by
    simp only [Core.ofRew]; split
    · exact le_rfl
    · exact hM.nonneg s r hr t

omit hρ in
theorem isSched_iff {σ : Sched S R} : (Core.ofRew M hM ρ T).IsSched σ ↔ M.IsSched σ :=
  ⟨fun h => ⟨h.nonneg, h.sum_one⟩, fun h => ⟨h.nonneg, h.sum_one⟩⟩

omit hρ in
theorem val_eq {σ : Sched S R} (n : ℕ) (h : List (S × R)) (s : S) :
    (Core.ofRew M hM ρ T).val σ n h s = M.rewN ρ T σ n h s := by
  induction n generalizing h s with
  | zero => simp only [Core.val, MDP.rewN]
  | succ n ih =>
    rw [Core.val, MDP.rewN]
    simp only [ih]
    simp only [Core.ofRew]
    split
    · simp
    · rfl

omit hρ in
theorem rew_eq {σ : Sched S R} (s : S) :
    M.rew ρ T σ s = (Core.ofRew M hM ρ T).tot σ s := by
  unfold MDP.rew Core.tot
  simp only [val_eq]

variable [DecidableEq R] {B : S → ℝ}

theorem RewMin_eq (b : (Core.ofRew M hM ρ T).Bound B) (s : S) :
    M.RewMin ρ T s = (Core.ofRew M hM ρ T).Vmin s := by
  rw [← Core.iInf_tot (ok hM hρ T) b s]
  unfold MDP.RewMin
  refine Equiv.iInf_congr
    (Equiv.subtypeEquivRight fun σ => (isSched_iff (ρ := ρ) hM T).symm) ?_
  rintro ⟨σ, hσ⟩
  exact (rew_eq hM T s).symm

theorem RewMax_eq (b : (Core.ofRew M hM ρ T).Bound B) (s : S) :
    M.RewMax ρ T s = (Core.ofRew M hM ρ T).Vmax s := by
  rw [← Core.iSup_tot (ok hM hρ T) b s]
  unfold MDP.RewMax
  refine Equiv.iSup_congr
    (Equiv.subtypeEquivRight fun σ => (isSched_iff (ρ := ρ) hM T).symm) ?_
  rintro ⟨σ, hσ⟩
  exact (rew_eq hM T s).symm

end BridgeRew
end Verif.Theory
