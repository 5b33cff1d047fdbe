import Verif.Props.QSHeur
/-!
# C49: `solve`

`ProblemFormulation.solve` returns the last result of `solveiter`.  For `TreeAlgo`, whose generator goes on after it
has reported a failure, this makes the reported result wrong.
-/
set_option linter.unusedSectionVars false

namespace Verif.Props
open Verif.Model Verif.Model.Milp Verif.Spec Verif.Proofs

variable {K : Type} [Field K] [LinearOrder K] [IsStrictOrderedRing K] {σ : Type}

/-- **C49**, for methods that report at most one failure and then stop (`MILPExact`, `QSHeur`): `solve` returns the last
result, and a failure occurs among the results only if it is the one returned.  (Missing: this is false of `TreeAlgo`, see
below.) -/
theorem C49_last_partial {t : K} {mode : Mode} {labels : Option (List String)} {be : Backend} (f : Form σ K)
    {lpSolver solver : Milp K → Answer K} {solvers : Nat → Milp K → Answer K} {n : Nat}
    {ini : List (Nat × List Nat) → Except Err (List (Nat × K))} {upd : List (Nat × List Nat) → Updater K} {run : Run σ K}
    (hrun : run = solveIter f t (milpExact f lpSolver solver t mode labels be) ∨
      run = solveIter f t (qsHeur f lpSolver solvers n ini upd t mode labels be))
    {r : ProblemResult σ K} (hr : solveLast run = .ok r) :
    run.2 = none ∧ (∃ rs, run.1 = rs ++ [r]) ∧ ∀ r' ∈ run.1, r'.status ≠ .success → r' = r := by
  have h1 : run.2 = none ∧ run.1.getLast? = some r := by
    unfold solveLast at hr
    split at hr
    · cases hr
    · rename_i h
      split at hr
      · cases hr
      · rename_i h'
        cases hr
        exact ⟨h, h'⟩
  obtain ⟨rs, hrs⟩ := List.getLast?_eq_some_iff.1 h1.2
  refine ⟨h1.1, ⟨rs, hrs⟩, fun r' hr' hst => ?_⟩
  -- at most one result that is not a success, and only at the end
  have key : ∃ as tail : List (ProblemResult σ K), run.1 = as ++ tail ∧ (∀ a ∈ as, a.status = .success) ∧ tail.length ≤ 1 := by
    rcases hrun with rfl | rfl
    · refine ⟨[], _, rfl, by simp, ?_⟩
      unfold solveIter
      split
      · split
        · unfold milpExact
          split
          · simp
          · simp
          · simp only
            split
            · split <;> simp
            · simp
        · simp
      · simp
    · obtain ⟨-, -, as, tail, h2, h3, h4⟩ := C42_protocol (t := t) (lpSolver := lpSolver) (solver := solvers) (n := n) (ini := ini)
        (upd := upd) (mode := mode) (labels := labels) (be := be) f
      refine ⟨as, tail, h2, h3, ?_⟩
      rcases h4 with ⟨rfl, -⟩ | ⟨s, -, rfl, -⟩ <;> simp
  obtain ⟨as, tail, h2, h3, h4⟩ := key
  rw [h2] at hr'
  rcases List.mem_append.1 hr' with hr' | hr'
  · exact absurd (h3 r' hr') hst
  · match tail, h4, hr', h2 with
    | [x], _, hx, h2 =>
      rw [List.mem_singleton] at hx
      subst hx
      rw [hrs] at h2
      have := (List.append_inj' h2 rfl).2
      simpa using this.symm

/-- **C49 is false for `TreeAlgo` after a timeout**: for every Markov chain and known bound, if the enumeration runs out
of time, `solve` returns a success with the value -1. -/
theorem C49_tree_timeout_false (u : K) (qsMax qsMin : Except Err (ProblemResult σ K)) (tree : K → Except Err K) (ht : tree u = .ok (-1)) :
    ∃ r, solveLast (treeAlgo true (some u) qsMax qsMin tree) = .ok r ∧ r.status = .success ∧ r.value = some (-1) ∧ r.cert = none := by
  refine ⟨⟨.success, none, some (-1), none⟩, ?_, rfl, rfl, rfl⟩
  simp [treeAlgo, ht, solveLast]

/-- **C49 is false for `TreeAlgo` on infeasible problems**: if one of the two heuristic calls that compute the bound
reports a failure, the failure is yielded, but `solve` ends in a type error (`min` of `None` and something). -/
theorem C49_tree_infeasible_false (rmax rmin : ProblemResult σ K) (s : Status) (tree : K → Except Err K)
    (h : rmax = failure s ∨ rmin = failure s) :
    (treeAlgo true none (.ok rmax) (.ok rmin) tree).1 = [failure .infeasible] ∧
    solveLast (treeAlgo true none (.ok rmax) (.ok rmin) tree) = .error .typeError := by
  have hst : rmin.status ≠ PStatus.success ∨ rmax.status ≠ PStatus.success := by
    rcases h with rfl | rfl
    · exact Or.inr fun g => nomatch (g : PStatus.failed s = .success)
    · exact Or.inl fun g => nomatch (g : PStatus.failed s = .success)
  have : treeAlgo true none (.ok rmax) (.ok rmin) tree = ([failure .infeasible], some .typeError) := by
    simp only [treeAlgo, if_true, if_pos hst]
    rcases h with rfl | rfl
    · have e : (failure s : ProblemResult σ K).value = none := rfl
      rw [e]
    · have e : (failure s : ProblemResult σ K).value = none := rfl
      rw [e]
      cases rmax.value <;> rfl
  rw [this]
  exact ⟨rfl, rfl⟩

/-- **C49** for `TreeAlgo`, what remains: if the enumeration finishes, its result is returned. (Missing: timeouts and
infeasible problems.) -/
theorem C49_tree_partial (u v : K) (qsMax qsMin : Except Err (ProblemResult σ K)) (tree : K → Except Err K)
    (ht : tree u = .ok v) (hv : v ≠ -1) :
    treeAlgo true (some u) qsMax qsMin tree = ([⟨.success, none, some v, none⟩], none) ∧
    solveLast (treeAlgo true (some u) qsMax qsMin tree) = .ok ⟨.success, none, some v, none⟩ := by
  simp [treeAlgo, ht, hv, solveLast]

/-- ... also if the bound is computed first: the smaller of the two heuristic values is passed on -/
theorem C49_tree_bound_partial (a b v : K) (rmax rmin : ProblemResult σ K) (tree : K → Except Err K)
    (h1 : rmax.status = .success) (h2 : rmin.status = .success) (ha : rmax.value = some a) (hb : rmin.value = some b)
    (h0 : min a b ≠ 0) (ht : tree (min a b) = .ok v) (hv : v ≠ -1) :
    solveLast (treeAlgo true none (.ok rmax) (.ok rmin) tree) = .ok ⟨.success, none, some v, none⟩ := by
  simp [treeAlgo, h1, h2, ha, hb, h0, ht, hv, solveLast]

/-- `solve` with an infeasible problem and `MILPExact`: the hypotheses of `C49_last_partial` -/
example : ∃ rf solver r, RF.make exRnd exactEx "init" "goal" "fail" false = .ok rf ∧ (∀ m, (solver m : Answer ℚ).Exact m) ∧
    solveLast (solveIter rf.form (1/4) (milpExact rf.form solver solver (1/4) .min none .pulp)) = .ok r := by
  obtain ⟨rf, hrf, he⟩ := exactEx_ok
  obtain ⟨solver, hs⟩ := exists_exact ℚ
  obtain ⟨r, hr, -⟩ := C38_returns (t := 1/4) exactEx_wf hrf hs hs (by norm_num) exactEx_init
  exact ⟨rf, solver, r, hrf, hs, by rw [hr]; rfl⟩

end Verif.Props
