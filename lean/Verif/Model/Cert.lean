import Verif.Model.RF
/-!
# `switss/certification/certificates.py`
-/

namespace Verif.Model

variable {K : Type} [Field K] [LinearOrder K]

/-- the strings "min", "max" (any other string fails an assertion) -/
inductive Mode | min | max
  deriving DecidableEq, Repr

/-- the strings "<=", "<", ">=", ">" (any other string fails an assertion) -/
inductive Sense | le | lt | ge | gt
  deriving DecidableEq, Repr

/-- `sense in ["<=","<"]` -/
def Sense.isLe : Sense → Bool
  | .le | .lt => true
  | .ge | .gt => false

/-- certificates.py:51-68 `__get_right_constraint_set` -/
def constraintSet (rf : RF K) (mode : Mode) (sense : Sense) (t : K) : Except Err (Mat K × List K) :=
  match mode, sense.isLe with
  | .min, true => rf.farkY t
  | .max, false => rf.farkY t
  | .min, false => rf.farkZ t
  | .max, true => rf.farkZ t

/-- `matr.dot(vec)` -/
def Mat.dot (m : Mat K) (v : List K) : List K :=
  (List.range m.rows).map fun i => ((List.range m.cols).map fun j => m.at_ i j * v.getD j 0).sum

/-- certificates.py:100-111: in mode "min" the vector has to vanish on proper end components; for `<=`
the columns are state-action pairs.  `ok false` is the early `return False`. -/
def ecCheck (rf : RF K) (mode : Mode) (sense : Sense) (v : List K) : List Nat → Except Err Bool
  | [] => .ok true
  | i :: is =>
    match mode with
    | .max => .ok true
    | .min =>
      match (if sense.isLe then rf.rowState i else some i) with
      | none => .error .keyError
      | some s =>
        if rf.inProperEC s = true ∧ v.getD i 0 ≠ 0 then .ok false else ecCheck rf mode sense v is

/-- certificates.py:70-124 `check_farkas_certificate` -/
def check (rf : RF K) (mode : Mode) (sense : Sense) (t : K) (v : List K) (tol : K) : Except Err Bool :=
  if 0 ≤ t ∧ t ≤ 1 then do
    let (m, rhs) ← constraintSet rf mode sense t
    if v.length = m.cols then
      match ← ecCheck rf mode sense v (List.range m.cols) with
      | false => .ok false
      | true =>
        let res := m.dot v
        let n := m.rows
        match sense with
        | .le => .ok (decide (∀ i < n, rhs.getD i 0 ≤ res.getD i 0 + tol))
        | .lt => .ok (decide ((∀ i < n, rhs.getD i 0 ≤ res.getD i 0 + tol) ∧
            rhs.getD (n - 1) 0 < res.getD (n - 1) 0 + tol))
        | .ge => .ok (decide (∀ i < n, res.getD i 0 - tol ≤ rhs.getD i 0))
        | .gt => .ok (decide ((∀ i < n, res.getD i 0 - tol ≤ rhs.getD i 0) ∧
            res.getD (n - 1) 0 - tol < rhs.getD (n - 1) 0))
    else .error .assertion
  else .error .assertion

/-- certificates.py:5-49 `find_interior_point`: the LP `min s, A x - s <= b, x_i + s >= 0, x_z = 0` -/
def interiorLP (A : Mat K) (b : List K) (xgeq0 : Bool) (zero : List Nat) : Except Err (Milp K) := do
  let A' : Mat K := ⟨A.rows, A.cols + 1, fun i j => if j = A.cols then -1 else A.at_ i j⟩
  let lp ← Milp.lpFromCoefficients A' b (List.replicate A.cols 0 ++ [1]) .le false
  let lp ← lp.addConstraints (if xgeq0 then
    (List.range A.cols).map fun i => ([(i, 1), (A.cols, 1)], .ge, 0) else [])
  lp.addConstraints (zero.map fun i => ([(i, 1)], .eq, 0))

/-- certificates.py:153-165: variables forced to zero; in the y-case the *state* number is used as a
column number -/
def zeroVars (rf : RF K) (mode : Mode) (sense : Sense) (cols : Nat) : Except Err (List Nat) :=
  match mode with
  | .max => .ok []
  | .min =>
    if sense.isLe then
      (List.range cols).foldlM (fun acc i =>
        match rf.rowState i with
        | none => .error .keyError
        | some s => .ok (if rf.inProperEC s = true then acc ++ [s] else acc)) []
    else .ok ((List.range cols).filter fun s => rf.inProperEC s)

/-- certificates.py:147-151: the constraint system, negated for `<=` and `<` -/
def generateMatrix (sense : Sense) (m : Mat K × List K) : Mat K × List K :=
  if sense.isLe then (⟨m.1.rows, m.1.cols, fun i j => -m.1.at_ i j⟩, m.2.map fun x => -x) else m

/-- the LP solved by certificates.py:126-170 -/
def generateLP (rf : RF K) (mode : Mode) (sense : Sense) (t : K) : Except Err (Milp K) :=
  if 0 ≤ t ∧ t ≤ 1 then do
    let m ← constraintSet rf mode sense t
    let zs ← zeroVars rf mode sense m.1.cols
    interiorLP (generateMatrix sense m).1 (generateMatrix sense m).2 true zs
  else .error .assertion

/-- certificates.py:126-170 `generate_farkas_certificate`; `solver` is the LP solver: an answer vector
for the variables, or an exception -/
def generate (solver : Milp K → Except Err (List K)) (rf : RF K) (mode : Mode) (sense : Sense) (t tol : K) :
    Except Err (Option (List K)) := do
  let lp ← generateLP rf mode sense t
  let ans ← solver lp
  let v := ans.dropLast
  match ← check rf mode sense t v tol with
  | true => .ok (some v)
  | false => .ok none

end Verif.Model
