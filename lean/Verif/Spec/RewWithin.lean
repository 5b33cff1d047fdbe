import Verif.Spec.Rew
import Verif.Model.Cert
/-!
# Rewards collected inside a set of states

Independent of the reductions and subsystems of the code: the reward that a run collects as long as it stays in a
given set, up to and including the action that it takes in its first target state.
-/

namespace Verif.Spec

variable {S R : Type} [Fintype S] [DecidableEq S]

/-- Expected reward, under `σ` after history `h`, collected from `s` in at most `n` steps: a run stops collecting when
it is outside of `A`, and after the action in the first state of `T`. -/
noncomputable def MDP.rewWithinN (M : MDP S R) (ρ : R → ℝ) (A T : Finset S) (σ : Sched S R) : ℕ → List (S × R) → S → ℝ
  | 0, _, _ => 0
  | n + 1, h, s =>
    if s ∉ A then 0
    else ∑ r ∈ M.rows s, σ h s r *
      (ρ r + if s ∈ T then 0 else ∑ t, M.P r t * MDP.rewWithinN M ρ A T σ n ((s, r) :: h) t)

noncomputable def MDP.rewWithin (M : MDP S R) (ρ : R → ℝ) (A T : Finset S) (σ : Sched S R) (s : S) : ℝ :=
  ⨆ n, M.rewWithinN ρ A T σ n [] s

/-- its maximum over all schedulers -/
noncomputable def MDP.RewWithinMax (M : MDP S R) (ρ : R → ℝ) (A T : Finset S) (s : S) : ℝ :=
  ⨆ σ : {σ : Sched S R // M.IsSched σ}, M.rewWithin ρ A T σ.1 s

/-- its minimum over all schedulers -/
noncomputable def MDP.RewWithinMin (M : MDP S R) (ρ : R → ℝ) (A T : Finset S) (s : S) : ℝ :=
  ⨅ σ : {σ : Sched S R // M.IsSched σ}, M.rewWithin ρ A T σ.1 s

end Verif.Spec

namespace Verif.Model
open Verif.Spec

variable {K : Type} [Field K] [LinearOrder K]

/-- minimal (maximal) expected reward collected from `s` inside of `A`, up to and including the first action in `T` -/
noncomputable def Sys.rewWithin (φ : K →+*o ℝ) (M : Sys K) (mode : Mode) (A T : Set Nat) (s : Nat) : ℝ :=
  if h : s < M.N then
    match mode with
    | .min => (M.toMDP φ).RewWithinMin (fun r => M.rewardAt φ r.1) (M.stateSet A) (M.stateSet T) ⟨s, h⟩
    | .max => (M.toMDP φ).RewWithinMax (fun r => M.rewardAt φ r.1) (M.stateSet A) (M.stateSet T) ⟨s, h⟩
  else 0

/-- minimal (maximal) expected reward collected up to and including the first action in `T` -/
noncomputable def Sys.rewIn (φ : K →+*o ℝ) (M : Sys K) (mode : Mode) (T : Set Nat) (s : Nat) : ℝ :=
  match mode with
  | .min => M.rewInMin φ T s
  | .max => M.rewInMax φ T s

end Verif.Model
