import Verif.Spec.MDP
import Mathlib.MeasureTheory.Constructions.BorelSpace.Real
/-!
# The runs of a Markov decision process

A run is an infinite sequence of steps; a step is a state and the row taken there.  The probabilities of sets of runs are given
by a measure on the product σ-algebra, determined by the probabilities of the finite beginnings of runs.  Nothing in this file
refers to the model of the code.
-/

namespace Verif.Spec
open MeasureTheory

variable {S R : Type}

/-- the first `k` steps of a run, most recent first -/
def pre (ω : ℕ → S × R) : ℕ → List (S × R)
  | 0 => []
  | k + 1 => ω k :: pre ω k

open Classical in
/-- the probability that `t` is the state after the steps `h`, for runs that begin in `s` -/
noncomputable def MDP.next (M : MDP S R) (s : S) : List (S × R) → S → ℝ
  | [], t => if t = s then 1 else 0
  | (_, r) :: _, t => M.P r t

open Classical in
/-- the probability that a run from `s` under `σ` begins with the steps `h` (most recent first): the product of the
probabilities of the states and of the choices -/
noncomputable def MDP.weight (M : MDP S R) (σ : Sched S R) (s : S) : List (S × R) → ℝ
  | [] => 1
  | (t, r) :: h => M.weight σ s h * M.next s h t * if r ∈ M.rows t then σ h t r else 0

/-- `μ` measures the sets of runs from `s` under `σ` -/
def MDP.IsRuns [MeasurableSpace S] [MeasurableSpace R] (M : MDP S R) (σ : Sched S R) (s : S) (μ : Measure (ℕ → S × R)) : Prop :=
  ∀ h, μ {ω | pre ω h.length = h} = ENNReal.ofReal (M.weight σ s h)

/-- the runs that visit `T` -/
def runsTo (T : Finset S) : Set (ℕ → S × R) := {ω | ∃ n, (ω n).1 ∈ T}

open Classical in
/-- the reward collected on a run before the first visit of `T` -/
noncomputable def collected (ρ : R → ℝ) (T : Finset S) (ω : ℕ → S × R) : ENNReal :=
  ∑' n, if ∃ i ≤ n, (ω i).1 ∈ T then 0 else ENNReal.ofReal (ρ (ω n).2)

/-- the runs that reach `T` and do not leave `A` before that -/
def runsWithin (A T : Finset S) : Set (ℕ → S × R) := {ω | ∃ n, (ω n).1 ∈ T ∧ ∀ i ≤ n, (ω i).1 ∈ A}

open Classical in
/-- the reward collected on a run while it stays in `A`, up to and including the first step in `T` -/
noncomputable def collectedWithin (ρ : R → ℝ) (A T : Finset S) (ω : ℕ → S × R) : ENNReal :=
  ∑' n, if (∃ i < n, (ω i).1 ∈ T) ∨ (∃ i ≤ n, (ω i).1 ∉ A) then 0 else ENNReal.ofReal (ρ (ω n).2)

end Verif.Spec
