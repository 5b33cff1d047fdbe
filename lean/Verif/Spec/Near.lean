import Verif.Spec.Sem
import Mathlib.Algebra.Order.Group.Abs
/-!
# Systems that differ only in the numbers
-/

namespace Verif.Spec
open Verif.Model

variable {K : Type} [Field K] [LinearOrder K]

/-- What every constructed system without stored zeros has: one positive number per stored position, a
one-to-one index, and the graph of the stored positions.  Nothing is said about row sums. -/
structure _root_.Verif.Model.Sys.Stored (M : Sys K) : Prop where
  nodup : (M.P.items.map Prod.fst).Nodup
  range : ∀ i j p, ((i, j), p) ∈ M.P.items → i < M.C ∧ j < M.N
  pos : ∀ i j p, ((i, j), p) ∈ M.P.items → 0 < p
  keys : (M.idx.map Prod.fst).Nodup
  vals : (M.idx.map Prod.snd).Nodup
  graph : Graph.build M.N (invGet? M.idx) M.P.items (Graph.empty M.N) = .ok M.graph

/-- `M'` is `M` with other probabilities, each at most `η` away: same numbers of states and rows, same
index, same state labels, same transitions. -/
structure _root_.Verif.Model.Sys.Near (η : K) (M M' : Sys K) : Prop where
  rows : M'.C = M.C
  cols : M'.N = M.N
  idx : M'.idx = M.idx
  labS : M'.labS = M.labS
  supp : ∀ i j, 0 < M'.P.get i j ↔ 0 < M.P.get i j
  close : ∀ i j, |M'.P.get i j - M.P.get i j| ≤ η

end Verif.Spec
