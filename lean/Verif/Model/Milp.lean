import Verif.Model.Py
import Mathlib.Algebra.Order.Field.Basic
import Mathlib.Algebra.BigOperators.Group.Finset.Basic
import Mathlib.Data.Finset.Range
/-!
# `switss/solver/milp.py`: MILP / LP / GurobiMILP

The problem object is data; solving is left to the outside: `Feasible`, `Optimal` say what a correct
solver may answer.
-/

namespace Verif.Model

/-- dense view of a matrix; the sparse storage (coo/csr/dok) is not modelled -/
structure Mat (K : Type) where
  rows : Nat
  cols : Nat
  at_ : Nat → Nat → K

/-- which library is behind the object: `MILP` (pulp) or `GurobiMILP` -/
inductive Backend | pulp | gurobi
  deriving DecidableEq, Repr

inductive Dom | real | integer | binary
  deriving DecidableEq, Repr

inductive CSense | le | eq | ge
  deriving DecidableEq, Repr

/-- a variable with its effective bounds -/
structure Var (K : Type) where
  dom : Dom
  lb : Option K
  ub : Option K

structure Constr (K : Type) where
  lhs : Dict Nat K
  sense : CSense
  rhs : K

/-- milp.py:47-55 and 344-364.  `obj = none`: no objective set yet (flag `__set_objective_function`).
`cons` are the constraints present in the problem, by index; `ncon = len(__constraints)`. -/
structure Milp (K : Type) where
  be : Backend
  maximize : Bool
  vars : List (Var K)
  obj : Option (Dict Nat K)
  cons : Dict Nat (Constr K)
  ncon : Nat

/-- milp.py:202, 502: a single new variable is returned as a number, several as a list -/
inductive Handle
  | one (v : Nat)
  | many (vs : List Nat)
  deriving DecidableEq, Repr

namespace Milp
variable {K : Type} [Field K] [LinearOrder K]

/-- milp.py:47-55 / 344-364 -/
def new (be : Backend) (maximize : Bool) : Milp K := ⟨be, maximize, [], none, [], 0⟩

/-- pulp `LpVariable` (milp.py:196): a binary variable gets bounds 0, 1 whatever was given; gurobi
`addVar` (milp.py:491-500): the default lower bound is 0 -/
def mkVar (be : Backend) (d : Dom) (lb ub : Option K) : Var K :=
  match be with
  | .pulp => if d = .binary then ⟨d, some 0, some 1⟩ else ⟨d, lb, ub⟩
  | .gurobi => ⟨d, some (lb.getD 0), ub⟩

/-- milp.py:183-202, 478-507 `add_variables_w_bounds`.  With exactly one description the loop returns
inside its first iteration. -/
def addVariablesWB (m : Milp K) (ds : List (Dom × Option K × Option K)) : Handle × Milp K :=
  let m' := { m with vars := m.vars ++ ds.map fun d => mkVar m.be d.1 d.2.1 d.2.2 }
  if ds.length = 1 then (.one m.vars.length, m')
  else (.many ((List.range ds.length).map (m.vars.length + ·)), m')

/-- milp.py:174-181, 509-516 `add_variables` -/
def addVariables (m : Milp K) (ds : List Dom) : Handle × Milp K :=
  m.addVariablesWB (ds.map fun d => (d, none, none))

/-- milp.py:332-340 `LP.add_variables(count)` calls `MILP.add_variables(self, *["real"]*count)`: with
`count = 1` the single string "real" is taken as the list of domains 'r','e','a','l' (assertion
error); with any other count the number of arguments is wrong (`TypeError`) -/
def lpAddVariables (_m : Milp K) (count : Nat) : Except Err (Handle × Milp K) :=
  if count = 1 then .error .assertion else .error .typeError

/-- milp.py:97-100: all variables of the expression exist (coefficients are numbers by typing) -/
def assertExpr (m : Milp K) (e : List (Nat × K)) : Except Err Unit :=
  if ∀ t ∈ e, t.1 < m.vars.length then .ok () else .error .assertion

/-- pulp `LpAffineExpression(pairs)` is a dictionary: the last coefficient of a variable wins;
gurobi (milp.py:399-400) adds up the terms -/
def expr (be : Backend) (e : List (Nat × K)) : Dict Nat K :=
  e.foldl (fun d t => match be with
    | .pulp => d.set t.1 t.2
    | .gurobi => d.set t.1 ((d.get? t.1).getD 0 + t.2)) []

/-- milp.py:109-128 (pulp: a second call only overwrites the coefficients it mentions), 402-418
(gurobi: replaces) -/
def setObjective (m : Milp K) (e : List (Nat × K)) : Except Err (Milp K) := do
  m.assertExpr e
  match m.be, m.obj with
  | .pulp, some o => .ok { m with obj := some (e.foldl (fun d t => d.set t.1 t.2) o) }
  | be, _ => .ok { m with obj := some (expr be e) }

/-- milp.py:130-164, 420-456 `add_constraint`.  With gurobi an empty left side is the number 0, so the
comparison is a plain boolean which `addConstr` rejects. -/
def addConstraint (m : Milp K) (lhs : List (Nat × K)) (sense : CSense) (rhs : K) :
    Except Err (Nat × Milp K) := do
  m.assertExpr lhs
  if m.be = .gurobi ∧ lhs = [] then .error .typeError
  else .ok (m.ncon, { m with cons := m.cons.set m.ncon ⟨expr m.be lhs, sense, rhs⟩, ncon := m.ncon + 1 })

/-- milp.py:166-172: the constraints of a pulp problem are keyed by name ("c3"), so popping a number
raises `KeyError`; 478-485 for gurobi (removing twice passes `None` to `Model.remove`) -/
def removeConstraint (m : Milp K) (i : Nat) : Except Err (Milp K) :=
  match m.be with
  | .pulp => .error .keyError
  | .gurobi =>
    if m.ncon ≤ i then .error .indexError
    else if m.cons.has i then .ok { m with cons := m.cons.del i } else .error .typeError

/-! ### what the problem means -/

/-- value of a linear expression -/
def evalE (e : Dict Nat K) (x : Nat → K) : K := (e.map fun t => t.2 * x t.1).sum

def Var.ok (v : Var K) (a : K) : Prop :=
  (∀ l, v.lb = some l → l ≤ a) ∧ (∀ u, v.ub = some u → a ≤ u) ∧
  match v.dom with
  | .real => True
  | .integer => ∃ z : ℤ, a = z
  | .binary => a = 0 ∨ a = 1

def CSense.holds (s : CSense) (a b : K) : Prop :=
  match s with
  | .le => a ≤ b
  | .eq => a = b
  | .ge => b ≤ a

def Constr.sat (c : Constr K) (x : Nat → K) : Prop := CSense.holds c.sense (evalE c.lhs x) c.rhs

/-- an assignment within bounds and domains satisfying all constraints -/
def Feasible (m : Milp K) (x : Nat → K) : Prop :=
  (∀ i v, m.vars[i]? = some v → Var.ok v (x i)) ∧ ∀ e ∈ m.cons, Constr.sat e.2 x

def objVal (m : Milp K) (x : Nat → K) : K := evalE (m.obj.getD []) x

/-- an answer a correct solver may give with status "optimal" -/
def Optimal (m : Milp K) (x : Nat → K) : Prop :=
  m.Feasible x ∧ ∀ x', m.Feasible x' →
    if m.maximize then m.objVal x' ≤ m.objVal x else m.objVal x ≤ m.objVal x'

/-! ### from_coefficients -/

/-- nonzero entries of row `i`, by column -/
def rowTerms (A : Mat K) (i : Nat) : List (Nat × K) :=
  ((List.range A.cols).filter fun j => A.at_ i j ≠ 0).map fun j => (j, A.at_ i j)

/-- loop of milp.py:252-264 / 581-593 over the rows -/
def addRows (A : Mat K) (b : List K) (sense : CSense) : List Nat → Milp K → Except Err (Milp K)
  | [], m => .ok m
  | i :: is, m => do
    let r ← match b[i]? with
      | none => .error .indexError
      | some r => .ok r
    let (_, m') ← m.addConstraint (rowTerms A i) sense r
    addRows A b sense is m'

/-- description of column `j`: `domains[j]`, `bounds[j][0]`, `bounds[j][1]` -/
def descr (doms : List Dom) (bounds : Option (List (Option K × Option K))) (j : Nat) :
    Except Err (Dom × Option K × Option K) :=
  match doms[j]? with
  | none => .error .indexError
  | some d =>
    match bounds with
    | none => .ok (d, none, none)
    | some l =>
      match l[j]? with
      | none => .error .indexError
      | some lu => .ok (d, lu.1, lu.2)

/-- objective term of column `j`: `(j, opt[j,0])` -/
def objTerm (opt : List K) (j : Nat) : Except Err (Nat × K) :=
  match opt[j]? with
  | none => .error .indexError
  | some c => .ok (j, c)

/-- milp.py:205-266, 519-593 `from_coefficients`; `bounds = none` means no bounds.  Too short vectors
raise `IndexError`. -/
def fromCoefficients (be : Backend) (A : Mat K) (b opt : List K) (doms : List Dom) (sense : CSense)
    (maximize : Bool) (bounds : Option (List (Option K × Option K))) : Except Err (Milp K) := do
  let ds ← (List.range A.cols).mapM (descr doms bounds)
  let o ← (List.range A.cols).mapM (objTerm opt)
  let m ← ((new be maximize).addVariablesWB ds).2.setObjective o
  addRows A b sense (List.range A.rows) m

/-- milp.py:300-330 `LP.from_coefficients` -/
def lpFromCoefficients (A : Mat K) (b opt : List K) (sense : CSense) (maximize : Bool) :
    Except Err (Milp K) :=
  fromCoefficients .pulp A b opt (List.replicate A.cols .real) sense maximize none

/-- several `add_constraint` calls in a row (used by callers) -/
def addConstraints (m : Milp K) (cs : List (List (Nat × K) × CSense × K)) : Except Err (Milp K) :=
  cs.foldlM (fun m c => do let (_, m') ← m.addConstraint c.1 c.2.1 c.2.2; .ok m') m

end Milp
end Verif.Model

namespace Verif.Model.Milp
variable {K : Type} [Field K] [LinearOrder K]

/-- calls on a MILP object -/
inductive Op (K : Type)
  | addVars (ds : List (Dom × Option K × Option K))
  | setObj (e : List (Nat × K))
  | addCon (lhs : List (Nat × K)) (s : CSense) (r : K)
  | remCon (i : Nat)

/-- what a call hands back -/
inductive Out
  | vars (h : Handle)
  | con (i : Nat)
  | unit
  | fail (e : Err)

/-- one call; a failing call leaves the object unchanged -/
def stepOp (m : Milp K) : Op K → Out × Milp K
  | .addVars ds => let r := m.addVariablesWB ds; (.vars r.1, r.2)
  | .setObj e => match m.setObjective e with
    | .ok m' => (.unit, m')
    | .error x => (.fail x, m)
  | .addCon l s r => match m.addConstraint l s r with
    | .ok (i, m') => (.con i, m')
    | .error x => (.fail x, m)
  | .remCon i => match m.removeConstraint i with
    | .ok m' => (.unit, m')
    | .error x => (.fail x, m)

def runOps : Milp K → List (Op K) → List Out × Milp K
  | m, [] => ([], m)
  | m, o :: os =>
    let r := m.stepOp o
    let rs := runOps r.2 os
    (r.1 :: rs.1, rs.2)

/-- the variable numbers contained in an answer -/
def Out.newVars : Out → List Nat
  | .vars (.one v) => [v]
  | .vars (.many vs) => vs
  | _ => []

end Verif.Model.Milp
