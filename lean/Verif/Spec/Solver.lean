import Verif.Model.Milp
/-!
# What a solver may answer

Solvers are outside the model.  `Answer.Sound` is what is assumed of an answer wherever a theorem speaks of
a correct solver; answers `undefined` and `notsolved` (timeouts) carry no information.
-/
namespace Verif.Model

/-- solverresult.py:16, milp.py:90-95, 374-381 -/
inductive Status | optimal | infeasible | unbounded | undefined | notsolved
  deriving DecidableEq, Repr

/-- solverresult.py: `SolverResult`.  For a status other than "optimal" vector and value have no meaning (pulp
fills in whatever the solver left behind, gurobi `None`); the code only looks at them after "optimal", apart
from `compute_upper_bounds`, whose caller then ignores them. -/
structure Answer (K : Type) where
  status : Status
  vec : List K
  value : K

variable {K : Type} [Field K] [LinearOrder K]

/-- a correct answer for the problem `m` -/
structure Answer.Sound (a : Answer K) (m : Milp K) : Prop where
  optimal : a.status = .optimal → m.Optimal (fun j => a.vec.getD j 0) ∧ a.vec.length = m.vars.length ∧
    a.value = m.objVal (fun j => a.vec.getD j 0)
  infeasible : a.status = .infeasible → ∀ x, ¬ m.Feasible x
  unbounded : a.status = .unbounded → ∀ B, ∃ x, m.Feasible x ∧ if m.maximize then B ≤ m.objVal x else m.objVal x ≤ B

/-- an answer of a solver that may have been stopped before it was done: with "optimal" it reports a feasible point, not
necessarily a best one (what pulp makes of a run of CBC that is stopped by a time limit and has found a solution) -/
structure Answer.Right (a : Answer K) (m : Milp K) : Prop where
  optimal : a.status = .optimal → m.Feasible (fun j => a.vec.getD j 0) ∧ a.vec.length = m.vars.length ∧
    a.value = m.objVal (fun j => a.vec.getD j 0)
  infeasible : a.status = .infeasible → ∀ x, ¬ m.Feasible x

theorem Answer.Sound.right {a : Answer K} {m : Milp K} (h : a.Sound m) : a.Right m :=
  ⟨fun ho => ⟨(h.optimal ho).1.1, (h.optimal ho).2⟩, h.infeasible⟩

/-- a correct answer that is as informative as possible: an optimum (written with 0 beyond the variables of the
problem) is found if there is one, and infeasibility is noticed -/
structure Answer.Exact (a : Answer K) (m : Milp K) : Prop extends Answer.Sound a m where
  optimal' : (∃ x, m.Optimal x ∧ ∀ j, m.vars.length ≤ j → x j = 0) → a.status = .optimal
  infeasible' : (∀ x, ¬ m.Feasible x) → a.status = .infeasible

/-- such answers exist for all problems, so assuming a solver that gives them is not contradictory -/
theorem exists_exact (K : Type) [Field K] [LinearOrder K] : ∃ solver : Milp K → Answer K, ∀ m, (solver m).Exact m := by
  classical
  refine ⟨fun m => if h : ∃ x, m.Optimal x ∧ ∀ j, m.vars.length ≤ j → x j = 0 then
      ⟨.optimal, (List.range m.vars.length).map h.choose, m.objVal h.choose⟩
    else if ∀ x, ¬ m.Feasible x then ⟨.infeasible, [], 0⟩ else ⟨.notsolved, [], 0⟩, fun m => ?_⟩
  by_cases h : ∃ x, m.Optimal x ∧ ∀ j, m.vars.length ≤ j → x j = 0
  · beta_reduce; rw [dif_pos h]
    have e : (fun j => ((List.range m.vars.length).map h.choose).getD j 0) = h.choose := by
      funext j
      rcases Nat.lt_or_ge j m.vars.length with hj | hj
      · simp [List.getD, hj]
      · rw [h.choose_spec.2 j hj]
        simp [List.getD, Nat.not_lt.2 hj]
    refine ⟨⟨fun _ => ?_, fun g => (by cases g), fun g => (by cases g)⟩, fun _ => rfl, fun g => absurd h.choose_spec.1.1 (g _)⟩
    simp only [e]
    exact ⟨h.choose_spec.1, by simp, trivial⟩
  · beta_reduce; rw [dif_neg h]
    split
    · rename_i g
      exact ⟨⟨fun h => (by cases h), fun _ => g, fun h => by cases h⟩, fun g => absurd g h, fun _ => rfl⟩
    · rename_i g
      exact ⟨⟨fun h => (by cases h), fun h => (by cases h), fun h => by cases h⟩, fun g => absurd g h, fun g' => absurd g' g⟩

end Verif.Model
