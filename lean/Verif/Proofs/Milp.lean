import Verif.Model.Milp
import Mathlib.Algebra.BigOperators.Group.List.Basic
import Mathlib.Algebra.BigOperators.Ring.Finset
import Mathlib.Algebra.BigOperators.Group.Finset.Basic
import Mathlib.Tactic.Ring
/-! lemmas about MILP objects -/
set_option linter.unusedSectionVars false
namespace Verif.Proofs
open Verif.Model Verif.Model.Milp Finset

variable {K : Type} [Field K] [LinearOrder K] [IsStrictOrderedRing K]

/-- sum of the terms of an expression -/
def terms (e : List (Nat × K)) (x : Nat → K) : K := (e.map fun t => t.2 * x t.1).sum

theorem evalE_eq (e : Dict Nat K) (x : Nat → K) : evalE e x = terms e x := rfl

theorem evalE_set (d : Dict Nat K) (hd : (Dict.keys d).Nodup) (k : Nat) (v : K) (x : Nat → K) :
    evalE (d.set k v) x = evalE d x + (v - (d.get? k).getD 0) * x k := by
  induction d with
  | nil => simp [Dict.set, Dict.get?, evalE]
  | cons p d ih =>
    obtain ⟨a, b⟩ := p
    simp only [Dict.keys, List.map_cons, List.nodup_cons] at hd
    by_cases h : a = k
    · subst h
      simp [Dict.set, Dict.get?, evalE]; ring
    · have := ih hd.2
      simp only [evalE] at this
      simp [Dict.set, Dict.get?, evalE, h, this]; ring

theorem expr_keys (be : Backend) (e : List (Nat × K)) (d : Dict Nat K) (hd : (Dict.keys d).Nodup) :
    (Dict.keys (e.foldl (fun d t => match be with
    | .pulp => d.set t.1 t.2
    | .gurobi => d.set t.1 ((d.get? t.1).getD 0 + t.2)) d)).Nodup := by
  induction e generalizing d with
  | nil => exact hd
  | cons t e ih => cases be <;> exact ih _ (Dict.nodup_set hd _ _)

/-- gurobi expressions are the sum of their terms -/
theorem evalE_expr_gurobi (e : List (Nat × K)) (x : Nat → K) :
    evalE (expr .gurobi e) x = terms e x := by
  have key : ∀ (e : List (Nat × K)) (d : Dict Nat K), (Dict.keys d).Nodup →
      evalE (e.foldl (fun d t => d.set t.1 ((d.get? t.1).getD 0 + t.2)) d) x = evalE d x + terms e x := by
    intro e
    induction e with
    | nil => intro d _; simp [terms]
    | cons t e ih =>
      intro d hd
      rw [List.foldl_cons, ih _ (Dict.nodup_set hd _ _), evalE_set d hd]
      simp only [terms, List.map_cons, List.sum_cons]; ring
  have := key e [] (by simp [Dict.keys])
  simpa [expr, evalE] using this

/-- pulp expressions are the sum of their terms if no variable is repeated -/
theorem evalE_foldl_pulp (e : List (Nat × K)) (he : (e.map Prod.fst).Nodup) (x : Nat → K)
    (d : Dict Nat K) (hd : (Dict.keys d).Nodup) :
    evalE (e.foldl (fun d t => d.set t.1 t.2) d) x =
      evalE d x + terms e x - (e.map fun t => (d.get? t.1).getD 0 * x t.1).sum := by
  induction e generalizing d with
  | nil => simp [terms]
  | cons t e ih =>
    simp only [List.map_cons, List.nodup_cons] at he
    rw [List.foldl_cons, ih he.2 _ (Dict.nodup_set hd _ _), evalE_set d hd]
    have : (e.map fun u => ((d.set t.1 t.2).get? u.1).getD 0 * x u.1) =
        e.map fun u => (d.get? u.1).getD 0 * x u.1 := by
      refine List.map_congr_left fun u hu => ?_
      rw [Dict.get?_set, if_neg]
      intro h
      exact he.1 (List.mem_map.2 ⟨u, hu, h.symm⟩)
    rw [this]
    simp only [terms, List.map_cons, List.sum_cons]; ring

theorem evalE_expr (be : Backend) (e : List (Nat × K)) (he : be = .pulp → (e.map Prod.fst).Nodup)
    (x : Nat → K) : evalE (expr be e) x = terms e x := by
  cases be with
  | gurobi => exact evalE_expr_gurobi e x
  | pulp =>
    have := evalE_foldl_pulp e (he rfl) x [] (by simp [Dict.keys])
    have h0 : (e.map fun t => (Dict.get? ([] : Dict Nat K) t.1).getD 0 * x t.1).sum = 0 := by
      simp [Dict.get?]
    rw [h0] at this
    simpa [expr, evalE] using this

theorem rowTerms_nodup (A : Mat K) (i : Nat) : ((rowTerms A i).map Prod.fst).Nodup := by
  simp only [rowTerms, List.map_map, Function.comp_def, List.map_id']
  exact List.nodup_range.filter _

theorem terms_rowTerms (A : Mat K) (i : Nat) (x : Nat → K) :
    terms (rowTerms A i) x = ∑ j ∈ range A.cols, A.at_ i j * x j := by
  simp only [terms, rowTerms, List.map_map, Function.comp_def]
  induction A.cols with
  | zero => simp
  | succ n ih =>
    rw [List.range_succ, List.filter_append, List.map_append, List.sum_append, ih, sum_range_succ]
    congr 1
    by_cases h : A.at_ i n = 0 <;> simp [h]

/-- indices of constraints are below the counter -/
def KeysLt (m : Milp K) : Prop := ∀ e ∈ m.cons, e.1 < m.ncon

theorem KeysLt.not_mem {m : Milp K} (h : KeysLt m) : m.ncon ∉ Dict.keys m.cons := by
  intro hm
  obtain ⟨e, he, h2⟩ := List.mem_map.1 hm
  have := h e he
  omega

theorem addConstraint_ok {m : Milp K} (hk : KeysLt m) {lhs : List (Nat × K)} {s : CSense} {r : K}
    (hv : ∀ t ∈ lhs, t.1 < m.vars.length) (hg : m.be = .gurobi → lhs ≠ []) :
    ∃ m', m.addConstraint lhs s r = .ok (m.ncon, m') ∧ KeysLt m' ∧ m'.be = m.be ∧ m'.vars = m.vars ∧
      m'.obj = m.obj ∧ m'.maximize = m.maximize ∧ m'.ncon = m.ncon + 1 ∧
      m'.cons = m.cons ++ [(m.ncon, ⟨expr m.be lhs, s, r⟩)] := by
  have hc : ¬ (m.be = .gurobi ∧ lhs = []) := fun h => hg h.1 h.2
  refine ⟨{ m with cons := m.cons.set m.ncon ⟨expr m.be lhs, s, r⟩, ncon := m.ncon + 1 },
    ?_, ?_, rfl, rfl, rfl, rfl, rfl, ?_⟩
  · simp only [addConstraint, assertExpr, if_pos hv, bind, Except.bind, if_neg hc]
  · intro e he
    simp only [Dict.set_of_not_mem hk.not_mem, List.mem_append, List.mem_singleton] at he
    rcases he with he | rfl
    · exact Nat.lt_succ_of_lt (hk e he)
    · exact Nat.lt_succ_self _
  · simp only [Dict.set_of_not_mem hk.not_mem]

theorem feasible_append {m m' : Milp K} (hv : m'.vars = m.vars) {n : Nat} {c : Constr K}
    (hc : m'.cons = m.cons ++ [(n, c)]) (x : Nat → K) :
    m'.Feasible x ↔ m.Feasible x ∧ Constr.sat c x := by
  simp only [Feasible, hv, hc, List.mem_append, List.mem_singleton]
  constructor
  · rintro ⟨h1, h2⟩
    exact ⟨⟨h1, fun e he => h2 e (Or.inl he)⟩, h2 _ (Or.inr rfl)⟩
  · rintro ⟨⟨h1, h2⟩, h3⟩
    refine ⟨h1, ?_⟩
    rintro e (he | rfl)
    · exact h2 e he
    · exact h3

theorem addRows_ok {A : Mat K} {b : List K} {s : CSense} (is : List Nat) (m : Milp K) (hk : KeysLt m)
    (hA : A.cols ≤ m.vars.length) (hb : ∀ i ∈ is, i < b.length)
    (hg : m.be = .gurobi → ∀ i ∈ is, rowTerms A i ≠ []) :
    ∃ m', addRows A b s is m = .ok m' ∧ KeysLt m' ∧ m'.be = m.be ∧ m'.vars = m.vars ∧ m'.obj = m.obj ∧
      m'.maximize = m.maximize ∧
      ∀ x, m'.Feasible x ↔ m.Feasible x ∧
        ∀ i ∈ is, CSense.holds s (∑ j ∈ range A.cols, A.at_ i j * x j) (b.getD i 0) := by
  induction is generalizing m with
  | nil => exact ⟨m, rfl, hk, rfl, rfl, rfl, rfl, fun x => by simp⟩
  | cons i is ih =>
    have hi := hb i (by simp)
    obtain ⟨m1, h1, h2, h3, h4, h5, h6, h7, h8⟩ := addConstraint_ok (s := s) (r := b[i]) hk
      (lhs := rowTerms A i) (by
        intro t ht
        simp only [rowTerms, List.mem_map, List.mem_filter, List.mem_range] at ht
        obtain ⟨j, hj, rfl⟩ := ht
        exact lt_of_lt_of_le hj.1 hA) (fun h => hg h i (by simp))
    obtain ⟨m', g1, g2, g3, g4, g5, g6, g7⟩ := ih m1 h2 (by rw [h4]; exact hA)
      (fun j hj => hb j (by simp [hj])) (fun h j hj => hg (h3 ▸ h) j (by simp [hj]))
    refine ⟨m', ?_, g2, g3.trans h3, g4.trans h4, g5.trans h5, g6.trans h6, fun x => ?_⟩
    · have hbi : b[i]? = some b[i] := List.getElem?_eq_getElem hi
      simp only [addRows, hbi, bind, Except.bind, h1, g1]
    · rw [g7, feasible_append h4 h8]
      have hb' : b.getD i 0 = b[i] := by simp [List.getD, List.getElem?_eq_getElem hi]
      simp only [Constr.sat, evalE_expr _ _ (fun _ => rowTerms_nodup A i), terms_rowTerms,
        List.forall_mem_cons, hb']
      tauto

theorem mapM_ok {α β : Type} (f : α → Except Err β) (g : α → β) (l : List α)
    (h : ∀ a ∈ l, f a = .ok (g a)) : l.mapM f = .ok (l.map g) := by
  induction l with
  | nil => rfl
  | cons a l ih =>
    rw [List.mapM_cons, h a (by simp), ih fun b hb => h b (by simp [hb])]
    rfl

/-- the domain and bound condition of one variable as the two libraries understand it -/
def DomOK (be : Backend) (d : Dom) (lb ub : Option K) (a : K) : Prop :=
  (match d with
    | .real => True
    | .integer => ∃ z : ℤ, a = z
    | .binary => a = 0 ∨ a = 1) ∧
  (be = .pulp → d ≠ .binary → (∀ l, lb = some l → l ≤ a) ∧ ∀ u, ub = some u → a ≤ u) ∧
  (be = .gurobi → (∀ l, lb = some l → l ≤ a) ∧ (lb = none → 0 ≤ a) ∧ ∀ u, ub = some u → a ≤ u)

theorem mkVar_ok (be : Backend) (d : Dom) (lb ub : Option K) (a : K) :
    Var.ok (mkVar be d lb ub) a ↔ DomOK be d lb ub a := by
  cases be
  · cases d
    · simp [mkVar, Var.ok, DomOK]
    · simp [mkVar, Var.ok, DomOK]; tauto
    · simp only [mkVar, Var.ok, DomOK]
      constructor
      · intro h; simp_all
      · rintro ⟨h, -, -⟩
        rcases h with rfl | rfl <;> simp
  · cases lb <;> cases d <;> simp [mkVar, Var.ok, DomOK] <;> tauto

theorem fromCoefficients_ok {be : Backend} {A : Mat K} {b opt : List K} {doms : List Dom} {s : CSense}
    {mx : Bool} {bounds : Option (List (Option K × Option K))}
    (hb : A.rows ≤ b.length) (ho : A.cols ≤ opt.length) (hd : A.cols ≤ doms.length)
    (hbd : ∀ l, bounds = some l → A.cols ≤ l.length)
    (hg : be = .gurobi → ∀ i < A.rows, ∃ j < A.cols, A.at_ i j ≠ 0) :
    ∃ m, fromCoefficients be A b opt doms s mx bounds = .ok m ∧ KeysLt m ∧ m.be = be ∧
      m.vars.length = A.cols ∧ m.maximize = mx ∧
      (∀ x, m.objVal x = ∑ j ∈ range A.cols, opt.getD j 0 * x j) ∧
      ∀ x, m.Feasible x ↔
        (∀ j < A.cols, DomOK be (doms.getD j .real) ((bounds.bind (·[j]?)).bind Prod.fst)
          ((bounds.bind (·[j]?)).bind Prod.snd) (x j)) ∧
        ∀ i < A.rows, CSense.holds s (∑ j ∈ range A.cols, A.at_ i j * x j) (b.getD i 0) := by
  let gd : Nat → Dom × Option K × Option K := fun j =>
    (doms.getD j .real, (bounds.bind (·[j]?)).bind Prod.fst, (bounds.bind (·[j]?)).bind Prod.snd)
  have h1 : (List.range A.cols).mapM (descr doms bounds) = .ok ((List.range A.cols).map gd) := by
    refine mapM_ok _ gd _ fun j hj => ?_
    have hj' : j < doms.length := lt_of_lt_of_le (List.mem_range.1 hj) hd
    have e1 : doms[j]? = some doms[j] := List.getElem?_eq_getElem hj'
    simp only [gd, descr, e1, List.getD]
    cases hbb : bounds with
    | none => simp
    | some l =>
      have hl : j < l.length := lt_of_lt_of_le (List.mem_range.1 hj) (hbd l hbb)
      have e2 : l[j]? = some l[j] := List.getElem?_eq_getElem hl
      simp [e2]
  have h2 : (List.range A.cols).mapM (objTerm opt) =
      .ok ((List.range A.cols).map fun j => (j, opt.getD j 0)) := by
    refine mapM_ok _ _ _ fun j hj => ?_
    have hj' : j < opt.length := lt_of_lt_of_le (List.mem_range.1 hj) ho
    have e1 : opt[j]? = some opt[j] := List.getElem?_eq_getElem hj'
    simp [objTerm, e1, List.getD]
  let o := (List.range A.cols).map fun j => (j, opt.getD j 0)
  let m0 : Milp K := { (new be mx : Milp K) with
    vars := ((List.range A.cols).map gd).map fun d => mkVar be d.1 d.2.1 d.2.2 }
  have h3 : ((new be mx : Milp K).addVariablesWB ((List.range A.cols).map gd)).2 = m0 := by
    unfold addVariablesWB
    dsimp only
    split <;> simp [m0, new]
  let m1 : Milp K := { m0 with obj := some (expr be o) }
  have h4 : m0.setObjective o = .ok m1 := by
    have : ∀ t ∈ o, t.1 < m0.vars.length := by
      simp [o, m0]
    simp only [setObjective, assertExpr, if_pos this, bind, Except.bind]
    cases be <;> rfl
  obtain ⟨m, g1, g2, g3, g4, g5, g6, g7⟩ := addRows_ok (A := A) (b := b) (s := s) (List.range A.rows) m1
    (by intro e he; simp [m1, m0, new] at he) (by simp [m1, m0])
    (fun i hi => lt_of_lt_of_le (List.mem_range.1 hi) hb) (by
      intro hbe i hi
      obtain ⟨j, hj, hne⟩ := hg hbe i (List.mem_range.1 hi)
      intro hnil
      have : (j, A.at_ i j) ∈ rowTerms A i :=
        List.mem_map.2 ⟨j, List.mem_filter.2 ⟨List.mem_range.2 hj, by simpa using hne⟩, rfl⟩
      rw [hnil] at this; simp at this)
  refine ⟨m, ?_, g2, g3, ?_, g6, ?_, ?_⟩
  · unfold fromCoefficients
    rw [h1, h2]
    simp only [bind, Except.bind]
    rw [h3, h4]
    exact g1
  · rw [g4]; simp [m1, m0]
  · intro x
    simp only [objVal, g5]
    show evalE (expr be o) x = _
    rw [evalE_expr be o (fun _ => by simp [o, Function.comp_def, List.nodup_range])]
    simp only [terms, o, List.map_map, Function.comp_def]
    induction A.cols with
    | zero => simp
    | succ n ih => rw [List.range_succ, List.map_append, List.sum_append, ih, sum_range_succ]; simp
  · intro x
    rw [g7]
    refine and_congr ?_ (by simp)
    simp only [Feasible]
    have hno : ∀ e ∈ m1.cons, Constr.sat e.2 x := by intro e he; simp [m1, m0, new] at he
    refine (and_iff_left hno).trans ?_
    constructor
    · intro h j hj
      have := h j (mkVar be (gd j).1 (gd j).2.1 (gd j).2.2) (by simp [m1, m0, hj])
      exact (mkVar_ok _ _ _ _ _).1 this
    · intro h i v hv
      simp only [m1, m0, List.map_map, List.getElem?_map, List.getElem?_range, Option.map_eq_some_iff] at hv
      obtain ⟨j, hj, rfl⟩ := hv
      have hj' := List.getElem?_eq_some_iff.1 hj
      obtain ⟨h1, h2⟩ := hj'
      simp only [List.length_range] at h1
      simp only [List.getElem_range] at h2
      subst h2
      exact (mkVar_ok _ _ _ _ _).2 (h i h1)

/-- constraints on single variables added one after the other -/
theorem addConstraints_ok {m : Milp K} (hk : KeysLt m)
    (cs : List (List (Nat × K) × CSense × K)) (hv : ∀ c ∈ cs, ∀ t ∈ c.1, t.1 < m.vars.length)
    (hg : ∀ c ∈ cs, c.1 ≠ []) (hn : ∀ c ∈ cs, (c.1.map Prod.fst).Nodup) :
    ∃ m', m.addConstraints cs = .ok m' ∧ KeysLt m' ∧ m'.be = m.be ∧ m'.vars = m.vars ∧ m'.obj = m.obj ∧
      m'.maximize = m.maximize ∧
      ∀ x, m'.Feasible x ↔ m.Feasible x ∧ ∀ c ∈ cs, CSense.holds c.2.1 (terms c.1 x) c.2.2 := by
  induction cs generalizing m with
  | nil => exact ⟨m, rfl, hk, rfl, rfl, rfl, rfl, fun x => by simp⟩
  | cons c cs ih =>
    obtain ⟨m1, h1, h2, h3, h4, h5, h6, h7, h8⟩ := addConstraint_ok (s := c.2.1) (r := c.2.2) hk
      (lhs := c.1) (hv c (by simp)) (fun _ => hg c (by simp))
    obtain ⟨m', g1, g2, g3, g4, g5, g6, g7⟩ := ih h2 (by rw [h4]; exact fun c hc => hv c (by simp [hc]))
      (fun c hc => hg c (by simp [hc])) (fun c hc => hn c (by simp [hc]))
    refine ⟨m', ?_, g2, g3.trans h3, g4.trans h4, g5.trans h5, g6.trans h6, fun x => ?_⟩
    · simp only [addConstraints] at g1 ⊢
      rw [List.foldlM_cons]
      simp only [bind, Except.bind, h1]
      simpa [bind, Except.bind] using g1
    · rw [g7, feasible_append h4 h8]
      simp only [Constr.sat, evalE_expr _ _ (fun _ => hn c (by simp)), List.forall_mem_cons]
      tauto

end Verif.Proofs
