import Mathlib.Data.Real.Basic
import Mathlib.Data.Fintype.Basic
import Mathlib.Algebra.Order.Archimedean.Real.Basic
import Mathlib.Algebra.BigOperators.Group.Finset.Basic
/-!
# Independent specification: Markov decision processes and their schedulers

Nothing in this file refers to the model of the code.  `S` are states, `R` are state-action pairs
("rows" of the transition matrix).  A DTMC is an MDP in which every state has one row.
-/

namespace Verif.Spec

/-- A finite Markov decision process: available rows per state, and transition probabilities. -/
structure MDP (S R : Type) where
  rows : S → Finset R
  P : R → S → ℝ

variable {S R : Type} [Fintype S]

/-- Every state has an available row and available rows are probability distributions. -/
structure MDP.Valid (M : MDP S R) : Prop where
  rows_nonempty : ∀ s, (M.rows s).Nonempty
  nonneg : ∀ s, ∀ r ∈ M.rows s, ∀ t, 0 ≤ M.P r t
  sum_one : ∀ s, ∀ r ∈ M.rows s, ∑ t, M.P r t = 1

/-- History-dependent randomised schedulers: given the history (most recent step first) and the
current state, a weight for every row. -/
abbrev Sched (S R : Type) := List (S × R) → S → R → ℝ

/-- After every history the weights form a distribution over the available rows. -/
structure MDP.IsSched (M : MDP S R) (σ : Sched S R) : Prop where
  nonneg : ∀ h s, ∀ r ∈ M.rows s, 0 ≤ σ h s r
  sum_one : ∀ h s, ∑ r ∈ M.rows s, σ h s r = 1

/-- Memoryless deterministic schedulers are given by one available row per state. -/
def detSched [DecidableEq R] (f : S → R) : Sched S R := fun _ s r => if r = f s then 1 else 0

variable [DecidableEq S]

/-- Probability, under `σ` after history `h`, of reaching `T` from `s` in at most `n` steps. -/
noncomputable def MDP.reachN (M : MDP S R) (T : Finset S) (σ : Sched S R) :
    ℕ → List (S × R) → S → ℝ
  | 0, _, s => if s ∈ T then 1 else 0
  | n + 1, h, s =>
    if s ∈ T then 1
    else ∑ r ∈ M.rows s, σ h s r * ∑ t, M.P r t * MDP.reachN M T σ n ((s, r) :: h) t

/-- Probability of eventually reaching `T` from `s` under `σ`. -/
noncomputable def MDP.reach (M : MDP S R) (T : Finset S) (σ : Sched S R) (s : S) : ℝ :=
  ⨆ n, M.reachN T σ n [] s

/-- Maximal probability over all schedulers of reaching `T` from `s`. -/
noncomputable def MDP.PrMax (M : MDP S R) (T : Finset S) (s : S) : ℝ :=
  ⨆ σ : {σ : Sched S R // M.IsSched σ}, M.reach T σ.1 s

/-- Minimal probability over all schedulers of reaching `T` from `s`. -/
noncomputable def MDP.PrMin (M : MDP S R) (T : Finset S) (s : S) : ℝ :=
  ⨅ σ : {σ : Sched S R // M.IsSched σ}, M.reach T σ.1 s

/-- Expected reward collected in at most `n` steps before reaching `T` (`ρ r` is collected whenever
row `r` is taken in a state outside `T`). -/
noncomputable def MDP.rewN (M : MDP S R) (ρ : R → ℝ) (T : Finset S) (σ : Sched S R) :
    ℕ → List (S × R) → S → ℝ
  | 0, _, _ => 0
  | n + 1, h, s =>
    if s ∈ T then 0
    else ∑ r ∈ M.rows s, σ h s r * (ρ r + ∑ t, M.P r t * MDP.rewN M ρ T σ n ((s, r) :: h) t)

/-- Expected total reward before reaching `T` (for non-negative rewards and bounded partial sums). -/
noncomputable def MDP.rew (M : MDP S R) (ρ : R → ℝ) (T : Finset S) (σ : Sched S R) (s : S) : ℝ :=
  ⨆ n, M.rewN ρ T σ n [] s

noncomputable def MDP.RewMax (M : MDP S R) (ρ : R → ℝ) (T : Finset S) (s : S) : ℝ :=
  ⨆ σ : {σ : Sched S R // M.IsSched σ}, M.rew ρ T σ.1 s

noncomputable def MDP.RewMin (M : MDP S R) (ρ : R → ℝ) (T : Finset S) (s : S) : ℝ :=
  ⨅ σ : {σ : Sched S R // M.IsSched σ}, M.rew ρ T σ.1 s

omit [DecidableEq S] [Fintype S] in
/-- End component: a nonempty state set `E` with a nonempty set `A s` of available rows for each of
its states, closed under the positive-probability successors of these rows, and strongly connected
through them. -/
structure MDP.IsEC (M : MDP S R) (E : Set S) (A : S → Set R) : Prop where
  nonempty : E.Nonempty
  act : ∀ s ∈ E, (A s).Nonempty
  avail : ∀ s ∈ E, ∀ r ∈ A s, r ∈ M.rows s
  closed : ∀ s ∈ E, ∀ r ∈ A s, ∀ t, 0 < M.P r t → t ∈ E
  conn : ∀ s ∈ E, ∀ t ∈ E,
    Relation.ReflTransGen (fun u v => u ∈ E ∧ ∃ r ∈ A u, 0 < M.P r v) s t

omit [DecidableEq S] [Fintype S] in
/-- `s` belongs to some end component. -/
def MDP.InEC (M : MDP S R) (s : S) : Prop := ∃ E A, M.IsEC E A ∧ s ∈ E

end Verif.Spec
