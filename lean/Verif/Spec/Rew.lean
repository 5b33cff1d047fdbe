import Verif.Spec.Sem
/-!
# Expected rewards of a system object
-/

namespace Verif.Spec

variable {S R : Type} [Fintype S] [DecidableEq S]

/-- As `MDP.rewN`, but the reward of the action taken in the first state of `T` is collected too. -/
noncomputable def MDP.rewInN (M : MDP S R) (ρ : R → ℝ) (T : Finset S) (σ : Sched S R) :
    ℕ → List (S × R) → S → ℝ
  | 0, _, _ => 0
  | n + 1, h, s =>
    ∑ r ∈ M.rows s, σ h s r * (ρ r + if s ∈ T then 0 else ∑ t, M.P r t * MDP.rewInN M ρ T σ n ((s, r) :: h) t)

noncomputable def MDP.rewIn (M : MDP S R) (ρ : R → ℝ) (T : Finset S) (σ : Sched S R) (s : S) : ℝ :=
  ⨆ n, M.rewInN ρ T σ n [] s

noncomputable def MDP.RewInMax (M : MDP S R) (ρ : R → ℝ) (T : Finset S) (s : S) : ℝ :=
  ⨆ σ : {σ : Sched S R // M.IsSched σ}, M.rewIn ρ T σ.1 s

noncomputable def MDP.RewInMin (M : MDP S R) (ρ : R → ℝ) (T : Finset S) (s : S) : ℝ :=
  ⨅ σ : {σ : Sched S R // M.IsSched σ}, M.rewIn ρ T σ.1 s

end Verif.Spec

namespace Verif.Model
open Verif.Spec

variable {K : Type} [Field K] [LinearOrder K]

/-- reward of row `r` of a system -/
def Sys.rewardAt (φ : K → ℝ) (M : Sys K) (r : Nat) : ℝ := φ ((M.rew.getD []).getD r 0)

/-- the states of `T` -/
noncomputable def Sys.stateSet (M : Sys K) (T : Set Nat) : Finset (Fin M.N) :=
  open Classical in Finset.univ.filter fun t => t.1 ∈ T

/-- largest expected reward collected before the state set `T` is reached -/
noncomputable def Sys.rewMax (φ : K →+*o ℝ) (M : Sys K) (T : Set Nat) (s : Nat) : ℝ :=
  if h : s < M.N then (M.toMDP φ).RewMax (fun r => M.rewardAt φ r.1) (M.stateSet T) ⟨s, h⟩ else 0

/-- smallest expected reward collected before the state set `T` is reached -/
noncomputable def Sys.rewMin (φ : K →+*o ℝ) (M : Sys K) (T : Set Nat) (s : Nat) : ℝ :=
  if h : s < M.N then (M.toMDP φ).RewMin (fun r => M.rewardAt φ r.1) (M.stateSet T) ⟨s, h⟩ else 0

/-- largest expected reward collected up to and including the first action taken in `T` -/
noncomputable def Sys.rewInMax (φ : K →+*o ℝ) (M : Sys K) (T : Set Nat) (s : Nat) : ℝ :=
  if h : s < M.N then (M.toMDP φ).RewInMax (fun r => M.rewardAt φ r.1) (M.stateSet T) ⟨s, h⟩ else 0

/-- smallest expected reward collected up to and including the first action taken in `T` -/
noncomputable def Sys.rewInMin (φ : K →+*o ℝ) (M : Sys K) (T : Set Nat) (s : Nat) : ℝ :=
  if h : s < M.N then (M.toMDP φ).RewInMin (fun r => M.rewardAt φ r.1) (M.stateSet T) ⟨s, h⟩ else 0

/-- all expected rewards collected before `T` is reached from `s`, in any number of steps and with any
scheduler, are at most `b`: the suprema above are those of bounded sets -/
def Sys.RewBounded (φ : K →+*o ℝ) (M : Sys K) (T : Set Nat) (s : Nat) (b : ℝ) : Prop :=
  ∀ h : s < M.N, ∀ σ, (M.toMDP φ).IsSched σ → ∀ n,
    (M.toMDP φ).rewN (fun r => M.rewardAt φ r.1) (M.stateSet T) σ n [] ⟨s, h⟩ ≤ b

end Verif.Model
