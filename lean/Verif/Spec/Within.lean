import Verif.Spec.Sem
import Verif.Model.Cert
/-!
# Reaching a target inside a set of states

Independent of the reductions and subsystems of the code: the probability that a run reaches the target and that
all its states up to then lie in a given set.
-/

namespace Verif.Spec

variable {S R : Type} [Fintype S] [DecidableEq S]

/-- Probability, under `σ` after history `h`, of reaching `T` from `s` in at most `n` steps through states of `A`
only (the reached state of `T` included). -/
noncomputable def MDP.withinN (M : MDP S R) (A T : Finset S) (σ : Sched S R) : ℕ → List (S × R) → S → ℝ
  | 0, _, s => if s ∈ A ∧ s ∈ T then 1 else 0
  | n + 1, h, s =>
    if s ∉ A then 0
    else if s ∈ T then 1
    else ∑ r ∈ M.rows s, σ h s r * ∑ t, M.P r t * MDP.withinN M A T σ n ((s, r) :: h) t

/-- Probability of eventually reaching `T` from `s` through states of `A` under `σ`. -/
noncomputable def MDP.within (M : MDP S R) (A T : Finset S) (σ : Sched S R) (s : S) : ℝ :=
  ⨆ n, M.withinN A T σ n [] s

/-- its maximum over all schedulers -/
noncomputable def MDP.WithinMax (M : MDP S R) (A T : Finset S) (s : S) : ℝ :=
  ⨆ σ : {σ : Sched S R // M.IsSched σ}, M.within A T σ.1 s

/-- its minimum over all schedulers -/
noncomputable def MDP.WithinMin (M : MDP S R) (A T : Finset S) (s : S) : ℝ :=
  ⨅ σ : {σ : Sched S R // M.IsSched σ}, M.within A T σ.1 s

end Verif.Spec

namespace Verif.Model
open Verif.Spec

variable {K : Type} [Field K] [LinearOrder K]

open Classical in
/-- minimal (maximal) probability of reaching the states `T` from `s` through states of `A` only -/
noncomputable def Sys.prWithin (φ : K →+*o ℝ) (M : Sys K) (mode : Mode) (A T : Set Nat) (s : Nat) : ℝ :=
  if h : s < M.N then
    match mode with
    | .min => (M.toMDP φ).WithinMin (Finset.univ.filter fun t => t.1 ∈ A) (Finset.univ.filter fun t => t.1 ∈ T) ⟨s, h⟩
    | .max => (M.toMDP φ).WithinMax (Finset.univ.filter fun t => t.1 ∈ A) (Finset.univ.filter fun t => t.1 ∈ T) ⟨s, h⟩
  else 0

end Verif.Model
