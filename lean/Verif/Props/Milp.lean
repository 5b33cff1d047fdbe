import Verif.Proofs.Milp
import Mathlib.Algebra.Order.Ring.Rat
import Mathlib.Algebra.Field.Rat
import Mathlib.Tactic.NormNum
import Mathlib.Tactic.Linarith
/-! # C33–C36: MILP objects -/
set_option linter.unusedSectionVars false
namespace Verif.Props
open Verif.Model Verif.Model.Milp Verif.Proofs Finset

variable {K : Type} [Field K] [LinearOrder K] [IsStrictOrderedRing K]

/-- **C33.** `from_coefficients` succeeds when the vectors are long enough (with gurobi: and no row of
`A` is zero); the feasible assignments of the program it builds are exactly the `x` with
`A x (<=|=|>=) b` and every variable in its domain and bounds (as the back end understands them,
`DomOK`), and its objective is `opt * x`. -/
theorem C33_from_coefficients {be : Backend} {A : Mat K} {b opt : List K} {doms : List Dom} {s : CSense}
    {mx : Bool} {bounds : Option (List (Option K × Option K))}
    (hb : A.rows ≤ b.length) (ho : A.cols ≤ opt.length) (hd : A.cols ≤ doms.length)
    (hbd : ∀ l, bounds = some l → A.cols ≤ l.length)
    (hg : be = .gurobi → ∀ i < A.rows, ∃ j < A.cols, A.at_ i j ≠ 0) :
    ∃ m, fromCoefficients be A b opt doms s mx bounds = .ok m ∧ m.maximize = mx ∧
      (∀ x, m.objVal x = ∑ j ∈ range A.cols, opt.getD j 0 * x j) ∧
      ∀ x, m.Feasible x ↔
        (∀ j < A.cols, DomOK be (doms.getD j .real) ((bounds.bind (·[j]?)).bind Prod.fst)
          ((bounds.bind (·[j]?)).bind Prod.snd) (x j)) ∧
        ∀ i < A.rows, CSense.holds s (∑ j ∈ range A.cols, A.at_ i j * x j) (b.getD i 0) := by
  obtain ⟨m, h1, _, _, _, h2, h3, h4⟩ := fromCoefficients_ok hb ho hd hbd hg
  exact ⟨m, h1, h2, h3, h4⟩

/-- Real variables with pulp: exactly `A x (<=|>=) b` within the given bounds. -/
theorem C33_real_exact {A : Mat K} {b opt : List K} {s : CSense} {mx : Bool}
    {bounds : List (Option K × Option K)}
    (hb : A.rows ≤ b.length) (ho : A.cols ≤ opt.length) (hbd : A.cols ≤ bounds.length) :
    ∃ m, fromCoefficients .pulp A b opt (List.replicate A.cols .real) s mx (some bounds) = .ok m ∧
      ∀ x, m.Feasible x ↔
        (∀ j (hj : j < bounds.length), j < A.cols →
          (∀ l, bounds[j].1 = some l → l ≤ x j) ∧ ∀ u, bounds[j].2 = some u → x j ≤ u) ∧
        ∀ i < A.rows, CSense.holds s (∑ j ∈ range A.cols, A.at_ i j * x j) (b.getD i 0) := by
  obtain ⟨m, h1, _, _, h4⟩ := C33_from_coefficients (be := .pulp) (A := A) (b := b) (opt := opt)
    (doms := List.replicate A.cols .real) (s := s) (mx := mx) (bounds := some bounds) hb ho (by simp)
    (by rintro l ⟨⟩; exact hbd) (by simp)
  refine ⟨m, h1, fun x => ?_⟩
  rw [h4 x]
  refine and_congr ?_ Iff.rfl
  constructor
  · intro h j hj hj'
    have := (h j hj').2.1 rfl
    simp only [List.getD, List.getElem?_replicate, hj', if_true, Option.getD_some, Option.bind_some,
      List.getElem?_eq_getElem hj] at this
    exact this (by simp)
  · intro h j hj
    have hj' : j < bounds.length := by omega
    have := h j hj' hj
    refine ⟨?_, fun _ _ => ?_, by simp⟩
    · simp [List.getD, List.getElem?_replicate, hj]
    · simpa [List.getElem?_eq_getElem hj'] using this

/-- The claim fails for binary variables with bounds: pulp ignores the bounds. -/
theorem C33_binary_bounds_false :
    ∃ m : Milp ℚ, fromCoefficients .pulp ⟨0, 1, fun _ _ => 0⟩ [] [1] [.binary] .le false
      (some [(some 0, some 0)]) = .ok m ∧ m.Feasible (fun _ => 1) := by
  obtain ⟨m, h1, _, _, h4⟩ := C33_from_coefficients (K := ℚ) (be := .pulp)
    (A := ⟨0, 1, fun _ _ => 0⟩) (b := []) (opt := [1]) (doms := [.binary]) (s := .le) (mx := false)
    (bounds := some [(some 0, some 0)]) (by simp) (by simp) (by simp) (by rintro l ⟨⟩; simp) (by simp)
  refine ⟨m, h1, (h4 _).2 ⟨?_, by simp⟩⟩
  intro j hj
  simp only [Nat.lt_one_iff] at hj
  subst hj
  simp [DomOK]

/-- a program with two constraints and a binary variable -/
example : ∃ m : Milp ℚ, fromCoefficients .gurobi ⟨2, 2, fun i j => if i = j then 2 else 1⟩ [3, 4] [1, 1]
    [.real, .binary] .le true none = .ok m ∧ m.Feasible (fun j => if j = 0 then 1 else 1) := by
  obtain ⟨m, h1, _, _, h4⟩ := C33_from_coefficients (K := ℚ) (be := .gurobi)
    (A := ⟨2, 2, fun i j => if i = j then 2 else 1⟩) (b := [3, 4]) (opt := [1, 1])
    (doms := [.real, .binary]) (s := .le) (mx := true) (bounds := none) (by simp) (by simp) (by simp)
    (by simp) (by intro _ i _; exact ⟨0, by simp, by simp; split <;> norm_num⟩)
  refine ⟨m, h1, (h4 _).2 ⟨?_, ?_⟩⟩
  · intro j hj
    have : j = 0 ∨ j = 1 := by simp only at hj; omega
    rcases this with rfl | rfl <;> simp [DomOK]
  · intro i hi
    have : i = 0 ∨ i = 1 := by simp only at hi; omega
    rcases this with rfl | rfl <;> simp [CSense.holds, sum_range_succ] <;> norm_num

/-! ### C34 -/

/-- **C34 (gurobi).** Whatever was set before, the objective after `set_objective_function(e)` is the
sum of the terms of `e`. -/
theorem C34_gurobi {m m' : Milp K} (hb : m.be = .gurobi) {e : List (Nat × K)}
    (h : m.setObjective e = .ok m') (x : Nat → K) :
    m'.objVal x = (e.map fun t => t.2 * x t.1).sum := by
  obtain ⟨be, mx, vars, obj, cons, n⟩ := m
  simp only at hb; subst hb
  simp only [setObjective, bind, Except.bind] at h
  split at h
  · cases h
  · cases obj <;> simp only [Except.ok.injEq] at h <;> subst h <;>
      exact evalE_expr_gurobi e x

/-- **C34 (pulp, first call).** -/
theorem C34_pulp_first_partial {m m' : Milp K} (hb : m.be = .pulp) (ho : m.obj = none)
    {e : List (Nat × K)} (he : (e.map Prod.fst).Nodup) (h : m.setObjective e = .ok m') (x : Nat → K) :
    m'.objVal x = (e.map fun t => t.2 * x t.1).sum := by
  obtain ⟨be, mx, vars, obj, cons, n⟩ := m
  simp only at hb ho; subst hb ho
  simp only [setObjective, bind, Except.bind] at h
  split at h
  · cases h
  · simp only [Except.ok.injEq] at h; subst h
    exact evalE_expr .pulp e (fun _ => he) x

/-- With pulp a later call keeps the old coefficients of all variables it does not mention. -/
theorem C34_pulp_later {m m' : Milp K} (hb : m.be = .pulp) {o : Dict Nat K} (ho : m.obj = some o)
    (hk : (o.map Prod.fst).Nodup) {e : List (Nat × K)} (he : (e.map Prod.fst).Nodup)
    (h : m.setObjective e = .ok m') (x : Nat → K) :
    m'.objVal x = m.objVal x + (e.map fun t => t.2 * x t.1).sum
      - (e.map fun t => (o.get? t.1).getD 0 * x t.1).sum := by
  obtain ⟨be, mx, vars, obj, cons, n⟩ := m
  simp only at hb ho; subst hb ho
  simp only [setObjective, bind, Except.bind] at h
  split at h
  · cases h
  · simp only [Except.ok.injEq] at h; subst h
    exact evalE_foldl_pulp e he x o hk

/-- So the claim is false for pulp: after setting `x0` and then `x1` the objective is `x0 + x1`. -/
theorem C34_pulp_false :
    let r := runOps (new .pulp false : Milp ℚ)
      [.addVars [(.real, none, none), (.real, none, none)], .setObj [(0, 1)], .setObj [(1, 1)]]
    r.2.objVal (fun i => if i = 0 then 5 else 7) = 12 := by
  decide +kernel

/-! ### C35 -/

theorem runOps_keysLt (ops : List (Op K)) (m : Milp K) (h : KeysLt m) : KeysLt (runOps m ops).2 := by
  induction ops generalizing m with
  | nil => exact h
  | cons o os ih =>
    refine ih _ ?_
    cases o with
    | addVars ds =>
      simp only [stepOp, addVariablesWB]
      split <;> exact h
    | setObj e =>
      simp only [stepOp]
      split
      · rename_i m' hm
        have : m'.cons = m.cons ∧ m'.ncon = m.ncon := by
          simp only [setObjective, bind, Except.bind] at hm
          split at hm
          · cases hm
          · split at hm <;> simp only [Except.ok.injEq] at hm <;> subst hm <;> exact ⟨rfl, rfl⟩
        intro e he; rw [this.1] at he; rw [this.2]; exact h e he
      · exact h
    | addCon l s r =>
      simp only [stepOp]
      split
      · rename_i i m' hm
        simp only [addConstraint, bind, Except.bind] at hm
        split at hm
        · cases hm
        · split at hm
          · cases hm
          · simp only [Except.ok.injEq, Prod.mk.injEq] at hm
            obtain ⟨-, rfl⟩ := hm
            intro e he
            simp only [Dict.set_of_not_mem h.not_mem, List.mem_append, List.mem_singleton] at he
            rcases he with he | rfl
            · exact Nat.lt_succ_of_lt (h e he)
            · exact Nat.lt_succ_self _
      · exact h
    | remCon i =>
      simp only [stepOp]
      split
      · rename_i m' hm
        simp only [removeConstraint] at hm
        split at hm
        · cases hm
        · split at hm
          · cases hm
          · split at hm
            · simp only [Except.ok.injEq] at hm
              subst hm
              intro e he
              refine h e ?_
              revert he
              have : ∀ (d : Dict Nat (Constr K)), e ∈ d.del i → e ∈ d := by
                intro d
                induction d with
                | nil => simp [Dict.del]
                | cons p d ih =>
                  obtain ⟨a, b⟩ := p
                  simp only [Dict.del]
                  split
                  · intro h; exact List.mem_cons_of_mem _ h
                  · intro h
                    rcases List.mem_cons.1 h with rfl | h
                    · simp
                    · exact List.mem_cons_of_mem _ (ih h)
              exact this _
            · cases hm
      · exact h

theorem del_append_last {α β : Type} [DecidableEq α] (d : Dict α β) (k : α) (v : β) (h : k ∉ Dict.keys d) :
    Dict.del (d ++ [(k, v)]) k = d := by
  induction d with
  | nil => simp [Dict.del]
  | cons p d ih =>
    obtain ⟨a, b⟩ := p
    simp only [Dict.keys, List.map_cons, List.mem_cons, not_or] at h
    simp only [List.cons_append, Dict.del, if_neg (Ne.symm h.1)]
    rw [ih h.2]

/-- the back end never changes -/
theorem runOps_be (ops : List (Op K)) (m : Milp K) : (runOps m ops).2.be = m.be := by
  induction ops generalizing m with
  | nil => rfl
  | cons o os ih =>
    refine (ih _).trans ?_
    cases o with
    | addVars ds => simp only [stepOp, addVariablesWB]; split <;> rfl
    | setObj e =>
      simp only [stepOp]
      split
      · rename_i m' hm
        simp only [setObjective, bind, Except.bind] at hm
        split at hm
        · cases hm
        · split at hm <;> simp only [Except.ok.injEq] at hm <;> subst hm <;> rfl
      · rfl
    | addCon l s r =>
      simp only [stepOp]
      split
      · rename_i i m' hm
        simp only [addConstraint, bind, Except.bind] at hm
        split at hm
        · cases hm
        · split at hm
          · cases hm
          · simp only [Except.ok.injEq, Prod.mk.injEq] at hm
            obtain ⟨-, rfl⟩ := hm; rfl
      · rfl
    | remCon i =>
      simp only [stepOp]
      split
      · rename_i m' hm
        simp only [removeConstraint] at hm
        split at hm
        · cases hm
        · split at hm
          · cases hm
          · split at hm
            · simp only [Except.ok.injEq] at hm; subst hm; rfl
            · cases hm
      · rfl

/-- **C35 (gurobi).** After any history: a constraint just added can be removed by its handle, and the
program is then the same as before (same constraints, variables, objective), so the feasible set is
restored. -/
theorem C35_gurobi (mx : Bool) (ops : List (Op K)) {lhs : List (Nat × K)} {s : CSense} {r : K} {i : Nat}
    {m' : Milp K}
    (h : (runOps (new .gurobi mx) ops).2.addConstraint lhs s r = .ok (i, m')) :
    ∃ m'', m'.removeConstraint i = .ok m'' ∧
      m''.cons = (runOps (new .gurobi mx) ops).2.cons ∧ m''.vars = (runOps (new .gurobi mx) ops).2.vars ∧
      m''.obj = (runOps (new .gurobi mx) ops).2.obj ∧
      ∀ x, m''.Feasible x ↔ (runOps (new .gurobi mx) ops).2.Feasible x := by
  have hk := runOps_keysLt ops (new .gurobi mx : Milp K) (by intro e he; simp [new] at he)
  have hb : (runOps (new .gurobi mx : Milp K) ops).2.be = .gurobi := runOps_be ops _
  generalize (runOps (new .gurobi mx) ops).2 = m at h hk hb ⊢
  simp only [addConstraint, bind, Except.bind] at h
  split at h
  · cases h
  · split at h
    · cases h
    · simp only [Except.ok.injEq, Prod.mk.injEq] at h
      obtain ⟨rfl, rfl⟩ := h
      have hh : Dict.has (m.cons ++ [(m.ncon, ⟨expr m.be lhs, s, r⟩)]) m.ncon = true := by
        unfold Dict.has
        rw [Dict.get?_isSome]
        simp [Dict.keys]
      refine ⟨{ m with ncon := m.ncon + 1 }, ?_, rfl, rfl, rfl, fun x => Iff.rfl⟩
      simp only [removeConstraint, hb, Dict.set_of_not_mem hk.not_mem]
      rw [if_neg (by omega)]
      rw [hb] at hh
      rw [if_pos hh]
      simp [del_append_last _ _ _ hk.not_mem]

/-- **C35 is false for pulp**: `remove_constraint` raises `KeyError` for every handle. -/
theorem C35_pulp_false (m : Milp K) (hb : m.be = .pulp) (i : Nat) :
    m.removeConstraint i = .error .keyError := by
  simp only [removeConstraint, hb]

/-- The same for both back ends: adding a constraint never changes what the other constraints say, and
the new feasible set is the old one intersected with the new constraint (pulp: no variable twice). -/
theorem C35_add (be : Backend) (mx : Bool) (ops : List (Op K)) {lhs : List (Nat × K)} {s : CSense} {r : K}
    {i : Nat} {m' : Milp K} (hn : be = .pulp → (lhs.map Prod.fst).Nodup)
    (h : (runOps (new be mx) ops).2.addConstraint lhs s r = .ok (i, m')) (x : Nat → K) :
    m'.Feasible x ↔ (runOps (new be mx) ops).2.Feasible x ∧
      CSense.holds s (lhs.map fun t => t.2 * x t.1).sum r := by
  have hk := runOps_keysLt ops (new be mx : Milp K) (by intro e he; simp [new] at he)
  have hbe : (runOps (new be mx : Milp K) ops).2.be = be := runOps_be ops _
  generalize (runOps (new be mx) ops).2 = m at h hk hbe ⊢
  simp only [addConstraint, bind, Except.bind] at h
  split at h
  · cases h
  · split at h
    · cases h
    · simp only [Except.ok.injEq, Prod.mk.injEq] at h
      obtain ⟨rfl, rfl⟩ := h
      have he := evalE_expr be lhs hn x
      have := feasible_append (m := m)
        (m' := { m with cons := m.cons.set m.ncon ⟨expr m.be lhs, s, r⟩, ncon := m.ncon + 1 }) rfl
        (Dict.set_of_not_mem hk.not_mem) x
      rw [this, hbe]
      simp only [Constr.sat, he]
      rfl

example : ∃ i m', (runOps (new .gurobi true : Milp ℚ) [.addVars [(.real, none, none)],
    .addCon [(0, 1)] .le 3]).2.addConstraint [(0, 2)] .ge 1 = .ok (i, m') :=
  ⟨_, _, rfl⟩

/-! ### C36 -/

/-- **C36 (fresh handles).** Over any history the variable numbers handed out are `0,1,2,…` without
repetition, one per variable of the program. -/
theorem C36_fresh (be : Backend) (mx : Bool) (ops : List (Op K)) :
    let r := runOps (new be mx : Milp K) ops
    r.1.flatMap Out.newVars = List.range r.2.vars.length := by
  have key : ∀ (ops : List (Op K)) (m : Milp K),
      List.range m.vars.length ++ (runOps m ops).1.flatMap Out.newVars =
        List.range (runOps m ops).2.vars.length := by
    intro ops
    induction ops with
    | nil => intro m; simp [runOps]
    | cons o os ih =>
      intro m
      simp only [runOps, List.flatMap_cons]
      rw [← ih, ← List.append_assoc]
      congr 1
      cases o with
      | addVars ds =>
        simp only [stepOp, addVariablesWB]
        split
        · rename_i h1
          simp [Out.newVars, h1, List.range_succ]
        · simp [Out.newVars, List.range_add]
      | setObj e =>
        simp only [stepOp]
        split
        · rename_i m' hm
          have : m'.vars = m.vars := by
            simp only [setObjective, bind, Except.bind] at hm
            split at hm
            · cases hm
            · split at hm <;> simp only [Except.ok.injEq] at hm <;> subst hm <;> rfl
          simp [Out.newVars, this]
        · simp [Out.newVars]
      | addCon l s r =>
        simp only [stepOp]
        split
        · rename_i i m' hm
          have : m'.vars = m.vars := by
            simp only [addConstraint, bind, Except.bind] at hm
            split at hm
            · cases hm
            · split at hm
              · cases hm
              · simp only [Except.ok.injEq, Prod.mk.injEq] at hm
                obtain ⟨-, rfl⟩ := hm; rfl
          simp [Out.newVars, this]
        · simp [Out.newVars]
      | remCon i =>
        simp only [stepOp]
        split
        · rename_i m' hm
          have : m'.vars = m.vars := by
            simp only [removeConstraint] at hm
            split at hm
            · cases hm
            · split at hm
              · cases hm
              · split at hm
                · simp only [Except.ok.injEq] at hm; subst hm; rfl
                · cases hm
          simp [Out.newVars, this]
        · simp [Out.newVars]
  simpa [new] using key ops (new be mx)

/-- the handles denote the new variables: number `j` of the new ones has description `ds[j]`, and the
old variables are unchanged -/
theorem C36_denote (m : Milp K) (ds : List (Dom × Option K × Option K)) :
    let r := m.addVariablesWB ds
    (∀ j (hj : j < ds.length), ∃ v, r.2.vars[m.vars.length + j]? = some v ∧
      ∀ a, Var.ok v a ↔ DomOK m.be ds[j].1 ds[j].2.1 ds[j].2.2 a) ∧
    ∀ i < m.vars.length, r.2.vars[i]? = m.vars[i]? := by
  have e : (m.addVariablesWB ds).2.vars = m.vars ++ ds.map fun d => mkVar m.be d.1 d.2.1 d.2.2 := by
    simp only [addVariablesWB]; split <;> rfl
  refine ⟨fun j hj => ⟨_, ?_, fun a => mkVar_ok _ _ _ _ a⟩, fun i hi => ?_⟩
  · simp only [e]
    rw [List.getElem?_append_right (by omega)]
    simp [hj]
  · simp only [e]; rw [List.getElem?_append_left hi]

/-- **The back ends disagree**: a real variable without bounds ranges over all numbers with pulp but
only over the non-negative ones with gurobi. -/
theorem C36_backends_differ_false (a : K) :
    (Var.ok (mkVar .pulp .real none none : Var K) a) ∧
    (Var.ok (mkVar .gurobi .real none none : Var K) a ↔ 0 ≤ a) := by
  rw [mkVar_ok, mkVar_ok]; simp [DomOK]

/-- **`LP.add_variables` always fails**: with `AssertionError` for one variable, with `TypeError` otherwise. -/
theorem C36_lp_add_variables_false (m : Milp K) (count : Nat) :
    (count = 1 → m.lpAddVariables count = .error .assertion) ∧ (count ≠ 1 → m.lpAddVariables count = .error .typeError) :=
  ⟨fun h => if_pos h, fun h => if_neg h⟩

end Verif.Props
