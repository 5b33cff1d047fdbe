import Verif.Model.Cert
import Verif.Model.Text
import Mathlib.Data.Int.Log
/-!
# The same computations with rounding

The other modules compute with exact numbers.  Here the operations that lead to the verdict of
`check_farkas_certificate` are rounded: `fl x` is the machine number used for the exact result `x` of one addition,
subtraction or multiplication.  Overflow is not modelled (`fl x` is a number), and neither is `nan`.
-/

namespace Verif.Model

/-- how the machine computes: rounding, and whether a product is rounded before it is added (`fma = false`) or not -/
structure Arith (K : Type) where
  fl : K → K
  fma : Bool

namespace Arith

variable {K : Type} [Field K] [LinearOrder K]

/-- one step `sum += a * x` of the loops in scipy's `csr_matvec` and `coo_matvec` -/
def step (ar : Arith K) (s : K) (e : K × K) : K :=
  if ar.fma then ar.fl (s + e.1 * e.2) else ar.fl (s + ar.fl (e.1 * e.2))

/-- the loop over the stored entries of a row, each given with the entry of the vector it is multiplied with -/
def sumProd (ar : Arith K) (l : List (K × K)) : K := l.foldl ar.step 0

/-- `matr.dot(vec)`; `ord i` are the columns of the stored entries of row `i` in the order of storing -/
def dot (ar : Arith K) (m : Mat K) (ord : Nat → List Nat) (v : List K) : List K :=
  (List.range m.rows).map fun i => ar.sumProd ((ord i).map fun j => (m.at_ i j, v.getD j 0))

/-- reachability_form.py:52, 562-571: `A = I - P` for sparse matrices; the difference is computed where both have an
entry -/
def A (ar : Arith K) (rf : RF K) (i j : Nat) : K :=
  if rf.rowState i = some j then (if rf.P i j = 0 then 1 else ar.fl (1 - rf.P i j)) else -rf.P i j

/-- reachability_form.py:495-526 `fark_z_constraints`; a negation is exact -/
def farkZ (ar : Arith K) (rf : RF K) (t : K) : Except Err (Mat K × List K) :=
  if rf.initial < rf.N then
    .ok (⟨rf.C + 1, rf.N, fun i j => if i < rf.C then ar.A rf i j else -rf.delta j⟩,
      (List.range rf.C).map rf.b ++ [-t])
  else .error .indexError

/-- reachability_form.py:528-560 `fark_y_constraints` -/
def farkY (ar : Arith K) (rf : RF K) (t : K) : Except Err (Mat K × List K) :=
  if rf.initial < rf.N then
    .ok (⟨rf.N + 1, rf.C, fun i j => if i < rf.N then ar.A rf j i else -rf.b j⟩,
      (List.range rf.N).map rf.delta ++ [-t])
  else .error .indexError

/-- certificates.py:51-68 `__get_right_constraint_set` -/
def constraintSet (ar : Arith K) (rf : RF K) (mode : Mode) (sense : Sense) (t : K) : Except Err (Mat K × List K) :=
  match mode, sense.isLe with
  | .min, true => ar.farkY rf t
  | .max, false => ar.farkY rf t
  | .min, false => ar.farkZ rf t
  | .max, true => ar.farkZ rf t

/-- certificates.py:70-124 `check_farkas_certificate` -/
def check (ar : Arith K) (ord : Nat → List Nat) (rf : RF K) (mode : Mode) (sense : Sense) (t : K) (v : List K) (tol : K) :
    Except Err Bool :=
  if 0 ≤ t ∧ t ≤ 1 then do
    let (m, rhs) ← ar.constraintSet rf mode sense t
    if v.length = m.cols then
      match ← ecCheck rf mode sense v (List.range m.cols) with
      | false => .ok false
      | true =>
        let res := ar.dot m ord v
        let n := m.rows
        match sense with
        | .le => .ok (decide (∀ i < n, rhs.getD i 0 ≤ ar.fl (res.getD i 0 + tol)))
        | .lt => .ok (decide ((∀ i < n, rhs.getD i 0 ≤ ar.fl (res.getD i 0 + tol)) ∧
            rhs.getD (n - 1) 0 < ar.fl (res.getD (n - 1) 0 + tol)))
        | .ge => .ok (decide (∀ i < n, ar.fl (res.getD i 0 - tol) ≤ rhs.getD i 0))
        | .gt => .ok (decide ((∀ i < n, ar.fl (res.getD i 0 - tol) ≤ rhs.getD i 0) ∧
            ar.fl (res.getD (n - 1) 0 - tol) < rhs.getD (n - 1) 0))
    else .error .assertion
  else .error .assertion

/-- amdp.py:71-73 the check of one row: `P.sum(axis=1)` multiplies with a vector of ones (`es` are the stored entries of
the row), and `np.round(s, 9)` is `np.rint(s * 1e9) / 1e9`, which is 1 exactly if the rounded product is `10^9` (an
even number, so that both ties round to it) -/
def rowOk (ar : Arith K) (es : List K) : Prop :=
  |ar.fl (ar.sumProd (es.map fun p => (p, 1)) * 10 ^ 9) - 10 ^ 9| ≤ 1 / 2

end Arith

variable {K : Type} [Field K] [LinearOrder K] [IsStrictOrderedRing K] [FloorRing K]

/-- distance of the numbers with 53 significant bits around `x`, at least `2^-1074` -/
def ulp (x : K) : K := 2 ^ (max (Int.log 2 |x|) (-1022) - 52)

/-- IEEE 754 binary64, round to nearest, ties to even; the range of the exponent is not bounded from above -/
def double (x : K) : K :=
  (if x < 0 then -1 else 1) * (Text.roundEven (|x| / ulp x) * ulp x)

end Verif.Model
