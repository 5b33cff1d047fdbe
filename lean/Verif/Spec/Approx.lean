import Verif.Spec.Solver
import Mathlib.Algebra.Order.Group.Abs
/-!
# What a solver with tolerances may answer

milp.py:71-80 and 357-363 hand tolerances to the solvers (gurobi: `FeasibilityTol`, `IntFeasTol` 1e-9, `MIPGap` 0;
cbc: `gapRel` 1e-9 and its own feasibility tolerance).  `Answer.Approx ε` is what is then known about an answer:
bounds, constraints and integrality are met up to `ε`, and no exactly feasible point is better by more than `ε`.
For `ε = 0` this is `Answer.Sound` (`approx_zero`).
-/
namespace Verif.Model

variable {K : Type} [Field K] [LinearOrder K]

namespace Milp

/-- the value `a` respects bounds and domain of the variable up to `ε` -/
def Var.okTol (ε : K) (v : Var K) (a : K) : Prop :=
  (∀ l, v.lb = some l → l - ε ≤ a) ∧ (∀ u, v.ub = some u → a ≤ u + ε) ∧
  match v.dom with
  | .real => True
  | .integer => ∃ z : ℤ, |a - z| ≤ ε
  | .binary => |a| ≤ ε ∨ |a - 1| ≤ ε

def CSense.holdsTol (ε : K) (s : CSense) (a b : K) : Prop :=
  match s with
  | .le => a ≤ b + ε
  | .eq => |a - b| ≤ ε
  | .ge => b ≤ a + ε

/-- the constraint is violated by at most `ε` -/
def Constr.satTol (ε : K) (c : Constr K) (x : Nat → K) : Prop := CSense.holdsTol ε c.sense (evalE c.lhs x) c.rhs

/-- an assignment that meets bounds, domains and constraints up to `ε` -/
def FeasibleTol (ε : K) (m : Milp K) (x : Nat → K) : Prop :=
  (∀ i v, m.vars[i]? = some v → Var.okTol ε v (x i)) ∧ ∀ e ∈ m.cons, Constr.satTol ε e.2 x

end Milp

open Milp

/-- an answer for the problem `m` that is correct up to `ε` -/
structure Answer.Approx (ε : K) (a : Answer K) (m : Milp K) : Prop where
  feasible : a.status = .optimal → m.FeasibleTol ε (fun j => a.vec.getD j 0)
  length : a.status = .optimal → a.vec.length = m.vars.length
  value : a.status = .optimal → a.value = m.objVal (fun j => a.vec.getD j 0)
  best : a.status = .optimal → ∀ x, m.Feasible x →
    if m.maximize then m.objVal x ≤ a.value + ε else a.value ≤ m.objVal x + ε
  infeasible : a.status = .infeasible → ∀ x, ¬ m.Feasible x
  unbounded : a.status = .unbounded → ∀ B, ∃ x, m.Feasible x ∧ if m.maximize then B ≤ m.objVal x else m.objVal x ≤ B

variable [IsStrictOrderedRing K]

theorem Milp.feasibleTol_zero {m : Milp K} {x : Nat → K} : m.FeasibleTol 0 x ↔ m.Feasible x := by
  unfold FeasibleTol Feasible
  refine and_congr (forall_congr' fun i => forall_congr' fun v => imp_congr_right fun _ => ?_)
    (forall_congr' fun e => imp_congr_right fun _ => ?_)
  · unfold Var.okTol Var.ok
    rcases v with ⟨d, l, u⟩
    cases d <;> simp [sub_eq_zero]
  · unfold Constr.satTol Constr.sat CSense.holdsTol CSense.holds
    rcases e with ⟨_, _, s, _⟩
    cases s <;> simp [sub_eq_zero]

theorem Milp.FeasibleTol.of_feasible {ε : K} (hε : 0 ≤ ε) {m : Milp K} {x : Nat → K} (h : m.Feasible x) : m.FeasibleTol ε x := by
  refine ⟨fun i v hi => ?_, fun e he => ?_⟩
  · obtain ⟨h1, h2, h3⟩ := h.1 i v hi
    refine ⟨fun l hl => (sub_le_self _ hε).trans (h1 l hl), fun u hu => (h2 u hu).trans (le_add_of_nonneg_right hε), ?_⟩
    rcases v with ⟨d, l, u⟩
    cases d with
    | real => trivial
    | integer => obtain ⟨z, hz⟩ := h3; exact ⟨z, by simpa [hz] using hε⟩
    | binary => rcases h3 with h3 | h3 <;> simp [h3, hε]
  · have := h.2 e he
    unfold Constr.sat CSense.holds at this
    unfold Constr.satTol CSense.holdsTol
    rcases e with ⟨_, _, s, _⟩
    cases s with
    | le => exact this.trans (le_add_of_nonneg_right hε)
    | ge => exact this.trans (le_add_of_nonneg_right hε)
    | eq => simp only at this ⊢; rw [this, sub_self, abs_zero]; exact hε

/-- a correct answer is correct up to every tolerance -/
theorem Answer.Sound.approx {ε : K} (hε : 0 ≤ ε) {a : Answer K} {m : Milp K} (h : a.Sound m) : a.Approx ε m where
  feasible ho := .of_feasible hε (h.optimal ho).1.1
  length ho := (h.optimal ho).2.1
  value ho := (h.optimal ho).2.2
  best ho x hx := by
    have := (h.optimal ho).1.2 x hx
    rw [(h.optimal ho).2.2]
    split
    · rename_i hm; rw [if_pos hm] at this; exact this.trans (le_add_of_nonneg_right hε)
    · rename_i hm; rw [if_neg hm] at this; exact this.trans (le_add_of_nonneg_right hε)
  infeasible := h.infeasible
  unbounded := h.unbounded

/-- without tolerance the two notions agree -/
theorem Answer.approx_zero {a : Answer K} {m : Milp K} : a.Approx 0 m ↔ a.Sound m := by
  refine ⟨fun h => ⟨fun ho => ⟨⟨feasibleTol_zero.1 (h.feasible ho), fun x hx => ?_⟩, h.length ho, h.value ho⟩, h.infeasible,
    h.unbounded⟩, fun h => h.approx le_rfl⟩
  have := h.best ho x hx
  rw [h.value ho] at this
  simpa using this

end Verif.Model
