import Verif.Proofs.QS
import Verif.Spec.Approx
/-!
# The constraints and variables that `construct_MILP` creates, and what they mean up to a tolerance
-/
set_option linter.unusedSectionVars false
namespace Verif.Proofs
open Verif.Model Verif.Model.Milp Finset

variable {K : Type} [Field K] [LinearOrder K] [IsStrictOrderedRing K] {σ : Type}

/-- `m'` has all variables and constraints of `m` -/
structure Ext (m m' : Milp K) : Prop where
  be : m'.be = m.be
  vars : ∃ l, m'.vars = m.vars ++ l
  cons : ∀ e ∈ m.cons, e ∈ m'.cons

theorem Ext.refl (m : Milp K) : Ext m m := ⟨rfl, ⟨[], by simp⟩, fun _ h => h⟩

theorem Ext.trans {m m' m'' : Milp K} (h : Ext m m') (h' : Ext m' m'') : Ext m m'' := by
  obtain ⟨l, hl⟩ := h.vars
  obtain ⟨l', hl'⟩ := h'.vars
  exact ⟨h'.be.trans h.be, ⟨l ++ l', by rw [hl', hl, List.append_assoc]⟩, fun e he => h'.cons e (h.cons e he)⟩

theorem Ext.var {m m' : Milp K} (h : Ext m m') {i : Nat} {v : Var K} (hi : m.vars[i]? = some v) : m'.vars[i]? = some v := by
  obtain ⟨l, hl⟩ := h.vars
  rw [hl, List.getElem?_append_left (List.getElem?_eq_some_iff.1 hi).1, hi]

theorem Ext.feasibleTol {m m' : Milp K} (h : Ext m m') {ε : K} {x : Nat → K} (hx : m'.FeasibleTol ε x) : m.FeasibleTol ε x :=
  ⟨fun i v hi => hx.1 i v (h.var hi), fun e he => hx.2 e (h.cons e he)⟩

/-- the problem has this constraint -/
def HasCon (m : Milp K) (lhs : List (Nat × K)) (s : CSense) (r : K) : Prop := ∃ k, (k, ⟨expr m.be lhs, s, r⟩) ∈ m.cons

theorem HasCon.ext {m m' : Milp K} (h : Ext m m') {lhs : List (Nat × K)} {s : CSense} {r : K} (hc : HasCon m lhs s r) :
    HasCon m' lhs s r := by
  obtain ⟨k, hk⟩ := hc
  exact ⟨k, by rw [h.be]; exact h.cons _ hk⟩

theorem HasCon.sat {m : Milp K} {lhs : List (Nat × K)} {s : CSense} {r : K} (hc : HasCon m lhs s r) {ε : K} {x : Nat → K}
    (hx : m.FeasibleTol ε x) : CSense.holdsTol ε s (evalE (expr m.be lhs) x) r := by
  obtain ⟨k, hk⟩ := hc
  exact hx.2 _ hk

theorem addConstraint_ext {m m' : Milp K} (hk : KeysLt m) {lhs : List (Nat × K)} {s : CSense} {r : K} {i : Nat}
    (h : m.addConstraint lhs s r = .ok (i, m')) : Ext m m' ∧ m'.vars = m.vars ∧ HasCon m' lhs s r := by
  have hv : ∀ t ∈ lhs, t.1 < m.vars.length := by
    by_contra hn
    simp only [addConstraint, assertExpr, if_neg hn, bind, Except.bind] at h
    cases h
  have hg : m.be = .gurobi → lhs ≠ [] := by
    intro hb hl
    simp only [addConstraint, assertExpr, if_pos hv, bind, Except.bind, if_pos (And.intro hb hl)] at h
    cases h
  obtain ⟨m1, h1, -, h3, h4, -, -, -, h8⟩ := addConstraint_ok (s := s) (r := r) hk hv hg
  rw [h1] at h
  cases h
  exact ⟨⟨h3, ⟨[], by rw [h4]; simp⟩, fun e he => by rw [h8]; simp [he]⟩, h4, m.ncon, by rw [h8, h3]; simp⟩

theorem addRows_ext {A : Mat K} {b : List K} {s : CSense} (is : List Nat) {m m' : Milp K} (hk : KeysLt m)
    (h : addRows A b s is m = .ok m') :
    Ext m m' ∧ m'.vars = m.vars ∧ ∀ i ∈ is, HasCon m' (rowTerms A i) s (b.getD i 0) := by
  induction is generalizing m with
  | nil => cases h; exact ⟨.refl _, rfl, by simp⟩
  | cons i is ih =>
    simp only [addRows, bind, Except.bind] at h
    cases hb : b[i]? with
    | none => simp [hb] at h
    | some r =>
      simp only [hb] at h
      split at h
      · cases h
      · rename_i p hp
        obtain ⟨j, m1⟩ := p
        obtain ⟨a1, a2, a3⟩ := addConstraint_ext hk hp
        obtain ⟨b1, b2, b3⟩ := ih (addConstraint_inv hk hp).2.1 h
        refine ⟨a1.trans b1, b2.trans a2, List.forall_mem_cons.2 ⟨?_, b3⟩⟩
        rw [show b.getD i 0 = r by simp [List.getD, hb]]
        exact a3.ext b1

theorem fromCoefficients_ext {be : Backend} {A : Mat K} {b opt : List K} {doms : List Dom} {s : CSense} {m : Milp K}
    {mx : Bool} {bounds : Option (List (Option K × Option K))}
    (h : fromCoefficients be A b opt doms s mx bounds = .ok m) :
    (∀ j < A.cols, ∃ d, descr doms bounds j = .ok d ∧ m.vars[j]? = some (mkVar be d.1 d.2.1 d.2.2)) ∧
    ∀ i < A.rows, HasCon m (rowTerms A i) s (b.getD i 0) := by
  unfold fromCoefficients at h
  simp only [bind, Except.bind] at h
  split at h
  · cases h
  rename_i ds hds
  split at h
  · cases h
  rename_i o ho
  split at h
  · cases h
  rename_i m1 hm1
  obtain ⟨hdl, hd⟩ := mapM_range_inv hds
  obtain ⟨o1, o2, o3, -⟩ := setObjective_inv hm1
  have e1 : ((new be mx : Milp K).addVariablesWB ds).2.vars = ds.map fun d => mkVar be d.1 d.2.1 d.2.2 := by
    unfold addVariablesWB; dsimp only; split <;> simp [new]
  have e2 : ((new be mx : Milp K).addVariablesWB ds).2.cons = [] := by
    unfold addVariablesWB; dsimp only; split <;> simp [new]
  have hk : KeysLt m1 := by intro e he; rw [o2, e2] at he; simp at he
  obtain ⟨g1, g2, g3⟩ := addRows_ext _ hk h
  refine ⟨fun j hj => ?_, fun i hi => g3 i (List.mem_range.2 hi)⟩
  obtain ⟨d, h1, h2⟩ := hd j hj
  exact ⟨d, h1, by rw [g2, o1, e1, List.getElem?_map, h2]; rfl⟩

theorem linkVars_ext {ub : Option (List K)} {v : Nat} (g : List Nat) {m m' : Milp K} (hk : KeysLt m)
    (h : g.foldlM (linkVar ub v) m = .ok m') :
    Ext m m' ∧ m'.vars = m.vars ∧ ∀ w ∈ g, HasCon m' [(w, 1), (v, -ubAt ub w)] .le 0 := by
  induction g generalizing m with
  | nil => cases h; exact ⟨.refl _, rfl, by simp⟩
  | cons w g ih =>
    rw [List.foldlM_cons] at h
    simp only [bind, Except.bind] at h
    split at h
    · cases h
    rename_i m1 hm1
    have hk1 := (linkVar_inv hk hm1).2.1
    have key : Ext m m1 ∧ m1.vars = m.vars ∧ HasCon m1 [(w, 1), (v, -ubAt ub w)] .le 0 := by
      unfold linkVar at hm1
      cases ub with
      | none =>
        simp only [bind, Except.bind] at hm1
        split at hm1
        · cases hm1
        · rename_i p hp
          cases hm1
          exact addConstraint_ext (i := p.1) hk hp
      | some u =>
        simp only [bind, Except.bind] at hm1
        cases hu : u[w]? with
        | none => simp [hu] at hm1
        | some c =>
          simp only [hu] at hm1
          split at hm1
          · cases hm1
          · rename_i p hp
            cases hm1
            have e : ubAt (some u) w = c := by simp [ubAt, List.getD, hu]
            rw [e]
            exact addConstraint_ext (i := p.1) hk hp
    obtain ⟨a1, a2, a3⟩ := key
    obtain ⟨b1, b2, b3⟩ := ih hk1 h
    exact ⟨a1.trans b1, b2.trans a2, List.forall_mem_cons.2 ⟨a3.ext b1, b3⟩⟩

theorem indicators_ext {dom : Dom} {ub : Option (List K)} (groups : List (List Nat)) {m m' : Milp K}
    {ind0 ind : List (Nat × List Nat)} (hk : KeysLt m)
    (h : groups.foldlM (addIndicator dom ub) (m, ind0) = .ok (m', ind)) :
    Ext m m' ∧ (∀ k < groups.length, m'.vars[m.vars.length + k]? = some (mkVar m.be dom (some 0) (ub.map fun _ => 1))) ∧
    ∀ (k : Nat) (g : List Nat), groups[k]? = some g → ∀ w ∈ g, HasCon m' [(w, 1), (m.vars.length + k, -ubAt ub w)] .le 0 := by
  induction groups generalizing m ind0 with
  | nil => cases h; exact ⟨.refl _, by simp, by simp⟩
  | cons g gs ih =>
    rw [List.foldlM_cons] at h
    simp only [bind, Except.bind] at h
    split at h
    · cases h
    rename_i st hst
    obtain ⟨m1, i1⟩ := st
    have hk1 : KeysLt m1 := (addIndicator_inv hk hst).2.1
    have hv1 : m1.vars = m.vars ++ [mkVar m.be dom (some 0) (ub.map fun _ => 1)] := (addIndicator_inv hk hst).2.2.2.1
    have key : Ext m m1 ∧ ∀ w ∈ g, HasCon m1 [(w, 1), (m.vars.length, -ubAt ub w)] .le 0 := by
      unfold addIndicator at hst
      simp only [addVariablesWB, List.length_singleton, if_true, List.map_cons, List.map_nil, bind, Except.bind] at hst
      split at hst
      · cases hst
      rename_i m2 hm2
      cases hst
      have hk' : KeysLt ({ m with vars := m.vars ++ [mkVar m.be dom (some 0) (ub.map fun _ => 1)] } : Milp K) := hk
      obtain ⟨a1, a2, a3⟩ := linkVars_ext g hk' hm2
      have a0 : Ext m ({ m with vars := m.vars ++ [mkVar m.be dom (some 0) (ub.map fun _ => 1)] } : Milp K) :=
        ⟨rfl, ⟨_, rfl⟩, fun _ h => h⟩
      exact ⟨a0.trans a1, a3⟩
    obtain ⟨a1, a2⟩ := key
    obtain ⟨b1, b2, b3⟩ := ih hk1 h
    have hlen : m1.vars.length = m.vars.length + 1 := by rw [hv1]; simp
    have hsh : ∀ k, m1.vars.length + k = m.vars.length + (k + 1) := fun k => by omega
    refine ⟨a1.trans b1, fun k hk => ?_, fun k g' hg' w hw => ?_⟩
    · cases k with
      | zero => exact b1.var (by rw [hv1]; simp)
      | succ k =>
        rw [← hsh, b2 k (by simpa using hk), a1.be]
    · cases k with
      | zero =>
        simp only [List.getElem?_cons_zero] at hg'
        cases hg'
        exact (a2 w hw).ext b1
      | succ k => rw [← hsh]; exact b3 k g' (by simpa using hg') w hw

/-- the certificate variables and the indicators, up to a tolerance -/
structure InPolyTol (f : Form σ K) (mode : Mode) (ε : K) (A : Mat K) (b : List K) (ub : Option (List K))
    (groups : List (List Nat)) (relaxed : Bool) (x : Nat → K) : Prop where
  nonneg : ∀ j < f.certSize mode, -ε ≤ x j
  ec : mode = .min → ∀ j < f.certSize mode, f.inProperEC j = true → x j ≤ ε
  rows : ∀ i < A.rows, ∑ j ∈ range A.cols, A.at_ i j * x j ≤ b.getD i 0 + ε
  ind : relaxed = false → ∀ k < groups.length, |x (f.certSize mode + k)| ≤ ε ∨ |x (f.certSize mode + k) - 1| ≤ ε
  link : ∀ (k : Nat) (g : List Nat), groups[k]? = some g → ∀ w ∈ g, w < f.certSize mode →
    x w ≤ ubAt ub w * x (f.certSize mode + k) + ε

theorem built_tol {f : Form σ K} {mode : Mode} {labels : Option (List String)} {relaxed : Bool} {be : Backend} {A : Mat K}
    {b : List K} {ub : Option (List K)} {m : Milp K} {ind : List (Nat × List Nat)} (hA : A.cols = f.certSize mode)
    (h : buildMILP f mode labels relaxed be A b ub = .ok (m, ind)) :
    ∃ groups, groupsFromLabels f mode labels (decide (mode = .max ∧ relaxed = false)) = .ok groups ∧ KeysLt m ∧
      m.vars.length = f.certSize mode + groups.length ∧
      ∀ (ε : K) (x : Nat → K), m.FeasibleTol ε x → InPolyTol f mode ε A b ub groups relaxed x := by
  unfold buildMILP at h
  by_cases hreal : relaxed = false ∧ mode = .max ∧ ub = none
  · simp only [hreal, bind, Except.bind, addIndicators] at h
    exfalso
    split at h
    · cases h
    split at h
    · cases h
    split at h
    · cases h
    split at h
    · cases h
    simp at h
  simp only [if_neg (show ¬ ((relaxed = false ∧ mode = .max ∧ ub = none) ∧ be ≠ .gurobi) from fun g => hreal g.1), bind, Except.bind] at h
  split at h
  · cases h
  rename_i groups hg
  split at h
  · cases h
  rename_i bounds hb
  split at h
  · cases h
  rename_i m0 hm0
  split at h
  · cases h
  rename_i st hst
  obtain ⟨m1, ind1⟩ := st
  simp only at h
  split at h
  · cases h
  rename_i m2 hm2
  cases h
  simp only [addIndicators, decide_eq_true_eq, if_neg hreal] at hst
  obtain ⟨k0, k1, k2, -⟩ := fromCoefficients_inv hm0
  obtain ⟨c1, c2⟩ := fromCoefficients_ext hm0
  obtain ⟨i1, i2, i3⟩ := indicators_ext groups k0 hst
  obtain ⟨_, -, H⟩ := indicated groups k0 hst
  obtain ⟨o1, o2, o2', o3, -⟩ := setObjective_inv hm2
  rw [hA] at k2 c1
  have hlen : m.vars.length = f.certSize mode + groups.length := by rw [o1, H.vars, List.length_append, k2, List.length_map]
  have x2 : Ext m1 m := ⟨o3, ⟨[], by rw [o1]; simp⟩, fun e he => by rw [o2]; exact he⟩
  have x0 : Ext m0 m := i1.trans x2
  obtain ⟨-, hbd⟩ := mapM_range_inv hb
  refine ⟨groups, hg, fun e he => by rw [o2] at he; rw [o2']; exact H.keys e he, hlen, fun ε x hx => ?_⟩
  -- the description of a certificate variable
  have hdesc : ∀ j < f.certSize mode, ∃ u, m.vars[j]? = some (mkVar be .real (some 0) u) ∧
      (mode = .min → f.inProperEC j = true → u = some 0) := by
    intro j hj
    obtain ⟨d, d1, d2⟩ := c1 j hj
    obtain ⟨p, p1, p2⟩ := hbd j hj
    have hrep : (List.replicate (f.certSize mode) Dom.real)[j]? = some .real := by
      rw [List.getElem?_replicate, if_pos hj]
    simp only [descr, hrep, p2, Except.ok.injEq] at d1
    subst d1
    unfold varBound at p1
    refine ⟨p.2, ?_, ?_⟩
    · have : p.1 = some 0 := by
        split at p1
        · cases p1; rfl
        · split at p1
          · cases p1; rfl
          · split at p1
            · cases p1
            · cases p1; rfl
      rw [x0.var d2]
      simp [this]
    · intro h1 h2
      rw [if_pos ⟨h1, h2⟩] at p1
      cases p1
      rfl
  refine ⟨fun j hj => ?_, fun hm j hj he => ?_, fun i hi => ?_, fun hr k hk => ?_, fun k g hg' w hw hlt => ?_⟩
  · obtain ⟨u, h1, -⟩ := hdesc j hj
    have := (hx.1 j _ h1).1 0 (by cases be <;> simp [mkVar])
    linarith
  · obtain ⟨u, h1, h2⟩ := hdesc j hj
    have := (hx.1 j _ h1).2.1 0 (by cases be <;> simp [mkVar, h2 hm he])
    linarith
  · have := ((c2 i hi).ext x0).sat hx
    rwa [evalE_expr _ _ (fun _ => rowTerms_nodup A i), terms_rowTerms] at this
  · have h1 := x2.var (i2 k hk)
    rw [k2] at h1
    have := (hx.1 _ _ h1).2.2
    rw [hr] at this
    have hdom : (mkVar m0.be .binary (some 0) (ub.map fun _ => (1 : K))).dom = .binary := by
      cases m0.be <;> simp [mkVar]
    simp only [Bool.false_eq_true, if_false, hdom] at this
    exact this
  · have hc := ((i3 k g hg' w hw).ext x2).sat hx
    rw [k2] at hc
    have hne : w ≠ f.certSize mode + k := by omega
    rw [evalE_expr _ _ (fun _ => by simp [hne])] at hc
    simp only [CSense.holdsTol, terms, List.map_cons, List.map_nil, List.sum_cons, List.sum_nil] at hc
    linarith

theorem addConstraints_ext (cs : List (List (Nat × K) × CSense × K)) {m m' : Milp K} (hk : KeysLt m)
    (h : m.addConstraints cs = .ok m') : Ext m m' := by
  induction cs generalizing m with
  | nil =>
    simp only [addConstraints, List.foldlM_nil, pure, Except.pure, Except.ok.injEq] at h
    subst h
    exact .refl m
  | cons c cs ih =>
    simp only [addConstraints, List.foldlM_cons, bind, Except.bind] at h
    split at h
    · cases h
    rename_i m1 h1
    split at h1
    · cases h1
    rename_i p hp
    cases h1
    exact (addConstraint_ext (i := p.1) (m' := p.2) hk hp).1.trans (ih (addConstraint_inv (i := p.1) (m' := p.2) hk hp).2.1 h)

/-- every vector satisfies up to `ε` what the first model demands -/
theorem qsLoop_tol {f : Form σ K} {solver : Nat → Milp K → Answer K} {mode : Mode} {upd : Updater K} {ε : K}
    (hs : ∀ k m, (solver k m).Approx ε m) {F : (Nat → K) → Prop} {L : Nat} :
    ∀ (k : Nat) (m : Milp K) (obj : List (Nat × K)), KeysLt m → m.vars.length = L → (∀ x, m.FeasibleTol ε x → F x) →
      ∀ r ∈ (qsLoop f solver mode upd k m obj).1, r.status = .success →
        ∃ v, v.length = L ∧ F (fun j => v.getD j 0) ∧ Out f mode r v := by
  intro k
  induction k with
  | zero => intro m obj _ _ _ r hr; simp [qsLoop] at hr
  | succ k ih =>
    intro m obj hk hL hF r hr hst
    simp only [qsLoop] at hr
    split at hr
    · simp at hr
    rename_i m1 hm1
    obtain ⟨o1, o2, o3, o4, o5, -⟩ := setObjective_inv hm1
    have hk1 : KeysLt m1 := by intro e he; rw [o2] at he; rw [o3]; exact hk e he
    have x1 : Ext m m1 := ⟨o4, ⟨[], by rw [o1]; simp⟩, fun e he => by rw [o2]; exact he⟩
    split at hr
    · rename_i ho
      split at hr
      · simp at hr
      rename_i w hw
      have hout : ∃ v, v.length = L ∧ F (fun j => v.getD j 0) ∧ Out f mode
          ⟨.success, some w, some ((((solver k m1).vec.drop (f.certSize mode)).countP fun x => decide (0 < x) : Nat) : K),
            some ((solver k m1).vec.take (f.certSize mode))⟩ v :=
        ⟨(solver k m1).vec, by rw [(hs k m1).length ho, o1, hL], hF _ (x1.feasibleTol ((hs k m1).feasible ho)), w, hw, rfl⟩
      split at hr
      · simp only [List.mem_singleton] at hr
        subst hr
        exact hout
      · rename_i p hp
        simp only [List.mem_cons] at hr
        rcases hr with rfl | hr
        · exact hout
        · simp only [bind, Except.bind] at hp
          split at hp
          · cases hp
          split at hp
          · cases hp
          split at hp
          · cases hp
          rename_i m2 hm2
          simp only [Except.ok.injEq, Prod.mk.injEq] at hp
          obtain ⟨rfl, rfl⟩ := hp
          obtain ⟨b1, b2, b3, b4, b5, b6⟩ := qs_addConstraints _ hk1 hm2
          exact ih m2 _ b1 (by rw [b3, o1, hL])
            (fun x hx => hF x (x1.feasibleTol ((addConstraints_ext _ hk1 hm2).feasibleTol hx))) r hr hst
    · simp only [List.mem_singleton] at hr
      subst hr
      have hs' : PStatus.failed _ = PStatus.success := hst
      cases hs'

end Verif.Proofs
