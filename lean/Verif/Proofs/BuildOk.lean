import Verif.Proofs.GroupCount
/-! when `construct_MILP` returns -/
set_option linter.unusedSectionVars false
namespace Verif.Proofs
open Verif.Model Verif.Model.Milp Finset

variable {K : Type} [Field K] [LinearOrder K] [IsStrictOrderedRing K] {σ : Type}

theorem mapM_ok' {α β : Type} {f : α → Except Err β} (l : List α) (h : ∀ a ∈ l, ∃ y, f a = .ok y) : ∃ ys, l.mapM f = .ok ys := by
  induction l with
  | nil => exact ⟨[], rfl⟩
  | cons a l ih =>
    obtain ⟨y, hy⟩ := h a (by simp)
    obtain ⟨ys, hys⟩ := ih fun b hb => h b (by simp [hb])
    exact ⟨y :: ys, by rw [List.mapM_cons, hy, hys]; rfl⟩

theorem linkVar_ok {ub : Option (List K)} {v w : Nat} {m : Milp K} (hk : KeysLt m) (hv : v < m.vars.length) (hw : w < m.vars.length)
    (hu : ∀ u, ub = some u → w < u.length) : ∃ m', linkVar ub v m w = .ok m' ∧ KeysLt m' ∧ m'.vars = m.vars := by
  have key : ∀ c : K, ∃ m', m.addConstraint [(w, 1), (v, -c)] .le 0 = .ok (m.ncon, m') ∧ KeysLt m' ∧ m'.vars = m.vars := by
    intro c
    obtain ⟨m', h1, h2, -, h3, -⟩ := addConstraint_ok (s := .le) (r := 0) hk (lhs := [(w, 1), (v, -c)]) (by
      intro t ht
      simp only [List.mem_cons, List.not_mem_nil, or_false] at ht
      rcases ht with rfl | rfl
      · exact hw
      · exact hv) (by simp)
    exact ⟨m', h1, h2, h3⟩
  unfold linkVar
  cases ub with
  | none =>
    obtain ⟨m', h1, h2⟩ := key 1
    exact ⟨m', by simp only [bind, Except.bind, h1], h2⟩
  | some u =>
    have := hu u rfl
    obtain ⟨m', h1, h2⟩ := key u[w]
    exact ⟨m', by simp only [bind, Except.bind, List.getElem?_eq_getElem this, h1], h2⟩

theorem linkVars_ok {ub : Option (List K)} {v : Nat} (g : List Nat) {m : Milp K} (hk : KeysLt m) (hv : v < m.vars.length)
    (hw : ∀ w ∈ g, w < m.vars.length) (hu : ∀ u, ub = some u → ∀ w ∈ g, w < u.length) :
    ∃ m', g.foldlM (linkVar ub v) m = .ok m' ∧ KeysLt m' ∧ m'.vars = m.vars := by
  induction g generalizing m with
  | nil => exact ⟨m, rfl, hk, rfl⟩
  | cons w g ih =>
    obtain ⟨m1, h1, h2, h3⟩ := linkVar_ok hk hv (hw w (by simp)) (fun u e => hu u e w (by simp))
    obtain ⟨m', g1, g2, g3⟩ := ih h2 (by rw [h3]; exact hv) (by rw [h3]; exact fun w' h' => hw w' (by simp [h']))
      (fun u e w' h' => hu u e w' (by simp [h']))
    refine ⟨m', ?_, g2, g3.trans h3⟩
    rw [List.foldlM_cons, h1]
    exact g1

theorem addIndicators_ok {dom : Dom} {ub : Option (List K)} (groups : List (List Nat)) {m : Milp K}
    {ind0 : List (Nat × List Nat)} (hk : KeysLt m) (hw : ∀ g ∈ groups, ∀ w ∈ g, w < m.vars.length)
    (hu : ∀ u, ub = some u → ∀ g ∈ groups, ∀ w ∈ g, w < u.length) :
    ∃ m' ind, groups.foldlM (addIndicator dom ub) (m, ind0) = .ok (m', ind) := by
  induction groups generalizing m ind0 with
  | nil => exact ⟨m, ind0, rfl⟩
  | cons g gs ih =>
    let m1 : Milp K := { m with vars := m.vars ++ [mkVar m.be dom (some 0) (ub.map fun _ => 1)] }
    have hl : m1.vars.length = m.vars.length + 1 := by simp [m1]
    obtain ⟨m2, h1, h2, h3⟩ := linkVars_ok (ub := ub) (v := m.vars.length) g (m := m1) hk (by omega)
      (fun w h => by have := hw g (by simp) w h; omega) (fun u e => hu u e g (by simp))
    have e : addIndicator dom ub (m, ind0) g = .ok (m2, ind0 ++ [(m.vars.length, g)]) := by
      unfold addIndicator
      simp only [addVariablesWB, List.length_singleton, if_true, List.map_cons, List.map_nil, bind, Except.bind]
      rw [show List.foldlM (linkVar ub m.vars.length) _ g = _ from h1]
    obtain ⟨m', ind, g1⟩ := ih (m := m2) (ind0 := ind0 ++ [(m.vars.length, g)]) h2
      (fun g' hg' w h => by have := hw g' (by simp [hg']) w h; rw [h3]; omega)
      (fun u e g' hg' => hu u e g' (by simp [hg']))
    exact ⟨m', ind, by rw [List.foldlM_cons, e]; exact g1⟩

theorem buildMILP_ok {f : Form σ K} {mode : Mode} {labels : Option (List String)} {relaxed : Bool} {be : Backend} {A : Mat K}
    {b : List K} {ub : Option (List K)} {groups : List (List Nat)} (hA : A.cols = f.certSize mode) (hb : A.rows ≤ b.length)
    (hbe : be = .gurobi → ∀ i < A.rows, ∃ j < A.cols, A.at_ i j ≠ 0)
    (hreal : ¬ (relaxed = false ∧ mode = .max ∧ ub = none))
    (hg : groupsFromLabels f mode labels (decide (mode = .max ∧ relaxed = false)) = .ok groups)
    (hu : ∀ u, ub = some u → f.certSize mode ≤ u.length) (hlt : ∀ g ∈ groups, ∀ w ∈ g, w < f.certSize mode) :
    ∃ m ind, buildMILP f mode labels relaxed be A b ub = .ok (m, ind) := by
  obtain ⟨bounds, hbd⟩ := mapM_ok' (f := varBound f mode ub) (List.range (f.certSize mode)) (by
    intro j hj
    have hj := List.mem_range.1 hj
    unfold varBound
    split
    · exact ⟨_, rfl⟩
    · cases ub with
      | none => exact ⟨_, rfl⟩
      | some u =>
        have := hu u rfl
        simp only [List.getElem?_eq_getElem (show j < u.length by omega)]
        exact ⟨_, rfl⟩)
  obtain ⟨hbl, -⟩ := mapM_range_inv hbd
  obtain ⟨m0, h1, h2, h3, h4, -⟩ := fromCoefficients_ok (be := be) (A := A) (b := b) (opt := List.replicate (f.certSize mode) 0)
    (doms := List.replicate (f.certSize mode) .real) (s := .le) (mx := false) (bounds := some bounds) hb (by simp [hA]) (by simp [hA])
    (by intro l hl; cases hl; rw [hbl, hA]) hbe
  obtain ⟨m1, ind, h5⟩ := addIndicators_ok (dom := if relaxed then .real else .binary) (ub := ub) groups (m := m0) (ind0 := [])
    h2 (by rw [h4, hA]; exact hlt) (fun u e g hg w hw => lt_of_lt_of_le (hlt g hg w hw) (hu u e))
  obtain ⟨ind1, e, H⟩ := indicated groups h2 h5
  simp only [List.nil_append] at e
  subst e
  have hobj : ∃ m2, m1.setObjective (ind.map fun e => (e.1, (1 : K))) = .ok m2 := by
    have hv : ∀ t ∈ ind.map (fun e => (e.1, (1 : K))), t.1 < m1.vars.length := by
      intro t ht
      obtain ⟨e, he, rfl⟩ := List.mem_map.1 ht
      rw [H.ind] at he
      obtain ⟨p, hp, rfl⟩ := List.mem_map.1 he
      have := List.mem_zipIdx (x := p.1) (i := p.2) hp
      rw [H.vars, List.length_append, List.length_map]
      simp only
      omega
    simp only [setObjective, assertExpr, if_pos hv, bind, Except.bind]
    split <;> exact ⟨_, rfl⟩
  obtain ⟨m2, h6⟩ := hobj
  refine ⟨m2, ind, ?_⟩
  unfold buildMILP
  simp only [if_neg (show ¬ ((relaxed = false ∧ mode = .max ∧ ub = none) ∧ be ≠ .gurobi) from fun g => hreal g.1), bind, Except.bind,
    hg, hbd, h1, addIndicators, decide_eq_true_eq, if_neg hreal, h5, h6]

end Verif.Proofs
