import Verif.Model.Py
import Mathlib.Algebra.BigOperators.Group.List.Basic
/-!
# `switss/utils/tree_decomp.pyx`: the enumeration of combinations of points

Only the iterator over the points of the successor partitions is modelled (lines 87-92, 109-121 and the
loop of `handle_subsys`, 508-520), not the convex hulls, the decision diagrams and the linear algebra.
-/

namespace Verif.Model.TreeDecomp

/-- the loop of tree_decomp.pyx:112-121 at position `i`; `sizes` is `points_per_suc` -/
def incAt (sizes : List Nat) : Nat → List Nat → List Nat
  | 0, it => if it.getD 0 0 = sizes.getD 0 0 then it.set 0 0 else it.set 0 (it.getD 0 0 + 1)
  | i + 1, it =>
    if it.getD (i + 1) 0 = sizes.getD (i + 1) 0 then incAt sizes i (it.set (i + 1) 0)
    else it.set (i + 1) (it.getD (i + 1) 0 + 1)

/-- tree_decomp.pyx:109-121 `increase_iterator` -/
def increase (sizes it : List Nat) : List Nat :=
  if sizes.length = 0 then it else incAt sizes (sizes.length - 1) it

/-- the values of `points_iterator` used by `get_point` in `n` rounds of the loop of `handle_subsys` -/
def visit (sizes : List Nat) : Nat → List Nat → List (List Nat)
  | 0, _ => []
  | n + 1, it => it :: visit sizes n (increase sizes it)

/-- `handle_subsys`: the iterator starts with zeros; `tot_no_points` is the product of the sizes.
(Without successors the array is not read; it is the empty combination here.) -/
def visited (sizes : List Nat) : List (List Nat) := visit sizes sizes.prod (List.replicate sizes.length 0)

end Verif.Model.TreeDecomp
