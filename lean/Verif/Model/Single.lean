import Verif.Model.Float
import Verif.Model.TreeAlgo
/-!
# Conversions to single precision

Two places of the code convert a python `float` (double precision) to a C `float`: the probabilities that the class
`Graph` stores (graph.pyx:13, 46) and the threshold of the tree algorithm (tree_decomp.pyx:472).  The other modules keep
the exact number.  The conversion back to double precision is exact.
-/

namespace Verif.Model

variable {K : Type} [Field K] [LinearOrder K] [IsStrictOrderedRing K] [FloorRing K]

/-- distance of the numbers with 24 significant bits around `x`, at least `2^-149` -/
def ulp32 (x : K) : K := 2 ^ (max (Int.log 2 |x|) (-126) - 23)

/-- the C conversion `(float) x`: IEEE 754 binary32, round to nearest, ties to even.  Overflow is not modelled;
probabilities and thresholds are far from it. -/
def single (x : K) : K :=
  (if x < 0 then -1 else 1) * (Text.roundEven (|x| / ulp32 x) * ulp32 x)

/-- graph.pyx:33-41 with the declared types: the argument `prob` of `add_successor` is a `float` (line 46), and so is the
third component of a `SAPPair` (line 13) -/
def Graph.build32 (n : Nat) (inv : Nat → Option (Nat × Nat)) (items : List ((Nat × Nat) × K)) : Except Err (Graph K) :=
  Graph.build n inv (items.map fun e => (e.1, single e.2)) (Graph.empty n)

/-- amdp.py:56, 170-179 `successors` of a system, with the graph as it is stored -/
def Sys.successors32 (M : Sys K) (s : Nat) : Except Err (List (Nat × Nat × K)) := do
  let g ← Graph.build32 M.N (invGet? M.idx) M.P.items
  .ok (g.successors s)

/-- amdp.py:56, 159-168 `predecessors` -/
def Sys.predecessors32 (M : Sys K) (s : Nat) : Except Err (List (Nat × Nat × K)) := do
  let g ← Graph.build32 M.N (invGet? M.idx) M.P.items
  .ok (g.predecessors s)

/-- tree_decomp.pyx:184-391 with the declared type of the threshold (line 472); it is used in line 562 only -/
def TreeDecomp.minWitnesses32 (lin : Nat → (Nat → K) → (Nat → K) → Nat → K) (c : TreeDecomp.Chain K)
    (parts : List (List Nat)) (hull : Nat → Dict Nat (List (List K)) → List (Nat × List K)) (order : List Nat) (thr : K)
    (ub : Nat) : Except Err Nat :=
  TreeDecomp.minWitnesses lin c parts hull order (single thr) ub

end Verif.Model
