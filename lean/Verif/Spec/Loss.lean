import Verif.Spec.Near
import Mathlib.Algebra.BigOperators.Group.Finset.Basic
/-!
# A system whose rows sum to less than one, with a state for the missing probability
-/

namespace Verif.Spec
open Verif.Model Finset

variable {K : Type} [Field K] [LinearOrder K]

/-- probability that row `i` does not account for -/
def _root_.Verif.Model.Sys.missing (M : Sys K) (i : Nat) : K := 1 - ∑ j ∈ range M.N, M.P.get i j

/-- the transitions of `Sys.withLoss` that `M` does not have -/
def _root_.Verif.Model.Sys.lossItems (M : Sys K) : List ((Nat × Nat) × K) :=
  ((List.range M.C).filter fun i => decide (0 < M.missing i)).map (fun i => ((i, M.N), M.missing i)) ++ [((M.C, M.N), 1)]

/-- `M` with one more state, numbered `M.N`, that is never left.  Every row whose sum is below one leads to it with
the missing probability; it has no label and its row has reward 0. -/
def _root_.Verif.Model.Sys.withLoss (M : Sys K) : Sys K where
  dtmc := M.dtmc
  P := ⟨M.C + 1, M.N + 1, M.P.items ++ M.lossItems⟩
  idx := M.idx ++ [((M.N, 0), M.C)]
  labA := M.labA
  labS := M.labS
  rew := M.rew.map (· ++ [0])
  graph := match Graph.build (M.N + 1) (invGet? (M.idx ++ [((M.N, 0), M.C)])) (M.P.items ++ M.lossItems) (Graph.empty (M.N + 1)) with
    | .ok g => g
    | .error _ => Graph.empty (M.N + 1)

/-- a system whose rows sum to a positive number that is at most one, with a complete index and rewards for all rows -/
structure _root_.Verif.Model.Sys.Substochastic (M : Sys K) : Prop where
  stored : M.Stored
  sum : ∀ i < M.C, 0 < ∑ j ∈ range M.N, M.P.get i j ∧ ∑ j ∈ range M.N, M.P.get i j ≤ 1
  index : ∀ e ∈ M.idx, e.2 < M.C
  rew : ∀ r, M.rew = some r → r.length = M.C

end Verif.Spec
