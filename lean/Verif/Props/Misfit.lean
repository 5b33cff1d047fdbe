import Verif.Props.QSHeur
import Verif.Props.Reward
/-!
# C89: vectors and labels that do not fit

A label on the goal or fail state names a variable the minimisation does not have; vectors for `from_coefficients` may be too short.
-/
set_option linter.unusedSectionVars false
namespace Verif.Props
open Verif.Model Verif.Model.Milp Verif.Spec Verif.Proofs Verif.Theory Verif.Proofs.IDict Finset

section lists
variable {α β : Type} {e : Err}

theorem mapM_err {f : α → Except Err β} (l : List α) (h : ∀ a ∈ l, (∃ y, f a = .ok y) ∨ f a = .error e)
    (hx : ∃ a ∈ l, f a = .error e) : l.mapM f = .error e := by
  induction l with
  | nil => simp at hx
  | cons a l ih =>
    rw [List.mapM_cons]
    rcases h a (by simp) with ⟨y, hy⟩ | hy
    · rw [hy]
      obtain ⟨b, hb, hb'⟩ := hx
      have hb : b ∈ l := by
        rcases List.mem_cons.1 hb with rfl | hb
        · rw [hy] at hb'; cases hb'
        · exact hb
      simp only [bind, Except.bind, ih (fun c hc => h c (by simp [hc])) ⟨b, hb, hb'⟩]
    · rw [hy]; rfl

end lists

section coefficients
variable {K : Type} [Field K] [LinearOrder K] [IsStrictOrderedRing K]

theorem addRows_err {A : Mat K} {b : List K} {s : CSense} (is : List Nat) (m : Milp K) (hbe : m.be = .pulp) (hk : KeysLt m)
    (hA : A.cols ≤ m.vars.length) (hx : ∃ i ∈ is, b.length ≤ i) : addRows A b s is m = .error .indexError := by
  induction is generalizing m with
  | nil => simp at hx
  | cons i is ih =>
    unfold addRows
    by_cases hi : i < b.length
    · obtain ⟨m', h1, h2, h3, h4, -⟩ := addConstraint_ok (s := s) (r := b[i]) (lhs := rowTerms A i) hk (by
        intro t ht
        obtain ⟨j, hj, rfl⟩ := List.mem_map.1 ht
        exact lt_of_lt_of_le (List.mem_range.1 (List.mem_filter.1 hj).1) hA) (by rw [hbe]; exact fun g => nomatch g)
      simp only [List.getElem?_eq_getElem hi, bind, Except.bind, h1]
      obtain ⟨k, hk', hk''⟩ := hx
      refine ih m' (by rw [h3, hbe]) h2 (by rw [h4]; exact hA) ⟨k, ?_, hk''⟩
      rcases List.mem_cons.1 hk' with rfl | h
      · omega
      · exact h
    · have : b[i]? = none := List.getElem?_eq_none (by omega)
      simp only [this, bind, Except.bind]

/-- **C89 (coefficients).** `MILP.from_coefficients` (pulp) raises `IndexError` exactly if one of the vectors is too short: the right
side for the rows, or the objective, domains or bounds for the columns of the matrix.  Otherwise it returns a problem. -/
theorem C89_coefficients {A : Mat K} {b opt : List K} {doms : List Dom} {s : CSense} {mx : Bool}
    {bounds : Option (List (Option K × Option K))} :
    (fromCoefficients .pulp A b opt doms s mx bounds = .error .indexError ↔
      b.length < A.rows ∨ opt.length < A.cols ∨ doms.length < A.cols ∨ ∃ l, bounds = some l ∧ l.length < A.cols) ∧
    ((∃ m, fromCoefficients .pulp A b opt doms s mx bounds = .ok m) ↔
      A.rows ≤ b.length ∧ A.cols ≤ opt.length ∧ A.cols ≤ doms.length ∧ ∀ l, bounds = some l → A.cols ≤ l.length) := by
  have good : (A.rows ≤ b.length ∧ A.cols ≤ opt.length ∧ A.cols ≤ doms.length ∧ ∀ l, bounds = some l → A.cols ≤ l.length) →
      ∃ m, fromCoefficients .pulp A b opt doms s mx bounds = .ok m := by
    rintro ⟨h1, h2, h3, h4⟩
    obtain ⟨m, hm, -⟩ := fromCoefficients_ok (be := .pulp) (s := s) (mx := mx) h1 h2 h3 h4 (fun g => nomatch g)
    exact ⟨m, hm⟩
  have bad : (b.length < A.rows ∨ opt.length < A.cols ∨ doms.length < A.cols ∨ ∃ l, bounds = some l ∧ l.length < A.cols) →
      fromCoefficients .pulp A b opt doms s mx bounds = .error .indexError := by
    intro hx
    have hd : ∀ j ∈ List.range A.cols, (∃ y, descr doms bounds j = .ok y) ∨ descr doms bounds j = .error .indexError := by
      intro j _
      unfold descr
      cases doms[j]? with
      | none => exact Or.inr rfl
      | some d =>
        cases bounds with
        | none => exact Or.inl ⟨_, rfl⟩
        | some l =>
          dsimp only
          cases l[j]? with
          | none => exact Or.inr rfl
          | some lu => exact Or.inl ⟨_, rfl⟩
    have ho : ∀ j ∈ List.range A.cols, (∃ y, objTerm opt j = .ok y) ∨ objTerm opt j = .error .indexError := by
      intro j _
      unfold objTerm
      cases opt[j]? with
      | none => exact Or.inr rfl
      | some d => exact Or.inl ⟨_, rfl⟩
    unfold fromCoefficients
    by_cases hxd : ∃ j ∈ List.range A.cols, descr doms bounds j = .error .indexError
    · rw [mapM_err _ hd hxd]; rfl
    obtain ⟨ds, hds⟩ := mapM_ok' (f := descr doms bounds) (List.range A.cols)
      fun j hj => (hd j hj).resolve_right fun g => hxd ⟨j, hj, g⟩
    have hdl := (mapM_range_inv hds).1
    rw [hds]
    by_cases hxo : ∃ j ∈ List.range A.cols, objTerm opt j = .error .indexError
    · rw [mapM_err _ ho hxo]; rfl
    obtain ⟨os, hos⟩ := mapM_ok' (f := objTerm opt) (List.range A.cols)
      fun j hj => (ho j hj).resolve_right fun g => hxo ⟨j, hj, g⟩
    rw [hos]
    have hlen : A.cols ≤ opt.length := by
      by_contra g
      refine hxo ⟨opt.length, List.mem_range.2 (by omega), ?_⟩
      unfold objTerm
      rw [List.getElem?_eq_none le_rfl]
    have hdom : A.cols ≤ doms.length := by
      by_contra g
      refine hxd ⟨doms.length, List.mem_range.2 (by omega), ?_⟩
      unfold descr
      rw [List.getElem?_eq_none le_rfl]
    have hbo : ∀ l, bounds = some l → A.cols ≤ l.length := by
      intro l hl
      by_contra g
      refine hxd ⟨l.length, List.mem_range.2 (by omega), ?_⟩
      unfold descr
      cases doms[l.length]? with
      | none => rfl
      | some d =>
        subst hl
        have : l[l.length]? = none := List.getElem?_eq_none le_rfl
        simp only [this]
    have hb : b.length < A.rows := by
      rcases hx with h | h | h | ⟨l, h, h'⟩
      · exact h
      · omega
      · omega
      · have := hbo l h; omega
    simp only [bind, Except.bind]
    have hv : ((new .pulp mx : Milp K).addVariablesWB ds).2.vars.length = A.cols := by
      unfold addVariablesWB
      dsimp only
      split <;> simp [new, hdl]
    have hcons : ((new .pulp mx : Milp K).addVariablesWB ds).2.cons = [] := by
      unfold addVariablesWB
      dsimp only
      split <;> rfl
    have hbe : ((new .pulp mx : Milp K).addVariablesWB ds).2.be = .pulp := by
      unfold addVariablesWB
      dsimp only
      split <;> rfl
    generalize ((new .pulp mx : Milp K).addVariablesWB ds).2 = m0 at hv hcons hbe
    have hos' : ∀ t ∈ os, t.1 < m0.vars.length := by
      intro t ht
      obtain ⟨h1, h2⟩ := mapM_range_inv hos
      obtain ⟨j, hj, rfl⟩ := List.getElem_of_mem ht
      obtain ⟨t, h3, h4⟩ := h2 j (by omega)
      unfold objTerm at h3
      rw [List.getElem?_eq_getElem (show j < opt.length by omega)] at h3
      rw [List.getElem?_eq_getElem hj] at h4
      cases h3
      rw [Option.some.inj h4, hv]
      omega
    simp only [setObjective, assertExpr, if_pos hos', bind, Except.bind]
    have fin : ∀ o, addRows A b s (List.range A.rows) { m0 with obj := o } = .error .indexError := fun o =>
      addRows_err _ _ hbe (by intro e he; rw [hcons] at he; simp at he) hv.ge ⟨b.length, List.mem_range.2 hb, le_rfl⟩
    split
    · rename_i h
      split at h <;> cases h
    · rename_i h
      split at h <;> cases h <;> exact fin _
  refine ⟨⟨fun h => ?_, bad⟩, ⟨fun ⟨m, hm⟩ => ?_, good⟩⟩
  · by_contra g
    simp only [not_or, not_lt, not_exists, not_and] at g
    obtain ⟨m, hm⟩ := good ⟨g.1, g.2.1, g.2.2.1, g.2.2.2⟩
    rw [hm] at h; cases h
  · by_contra g
    have : b.length < A.rows ∨ opt.length < A.cols ∨ doms.length < A.cols ∨ ∃ l, bounds = some l ∧ l.length < A.cols := by
      by_contra g'
      simp only [not_or, not_lt, not_exists, not_and] at g'
      exact g ⟨g'.1, g'.2.1, g'.2.2.1, g'.2.2.2⟩
    rw [bad this] at hm; cases hm

end coefficients

section labels
variable {K : Type} [Field K] [LinearOrder K] [IsStrictOrderedRing K] {σ : Type}

theorem linkVars_err {u : List K} {v : Nat} (g : List Nat) {m : Milp K} (hk : KeysLt m) (hv : v < m.vars.length)
    (hu : u.length ≤ m.vars.length) (hx : ∃ w ∈ g, u.length ≤ w) : g.foldlM (linkVar (some u) v) m = .error .indexError := by
  induction g generalizing m with
  | nil => simp at hx
  | cons w g ih =>
    rw [List.foldlM_cons]
    by_cases hw : w < u.length
    · obtain ⟨m1, h1, h2, h3⟩ := linkVar_ok (ub := some u) (w := w) hk hv (by omega) (by rintro u' ⟨⟩; exact hw)
      rw [h1]
      refine ih h2 (by rw [h3]; exact hv) (by rw [h3]; exact hu) ?_
      obtain ⟨k, hk', hk''⟩ := hx
      refine ⟨k, ?_, hk''⟩
      rcases List.mem_cons.1 hk' with rfl | h
      · omega
      · exact h
    · have : u[w]? = none := List.getElem?_eq_none (by omega)
      have e : linkVar (some u) v m w = .error .indexError := by
        unfold linkVar
        simp only [this, bind, Except.bind]
      rw [e]; rfl

theorem addIndicators_err {dom : Dom} {u : List K} (groups : List (List Nat)) {m : Milp K} {ind0 : List (Nat × List Nat)}
    (hk : KeysLt m) (hu : u.length ≤ m.vars.length) (hx : ∃ g ∈ groups, ∃ w ∈ g, u.length ≤ w) :
    groups.foldlM (addIndicator dom (some u)) (m, ind0) = .error .indexError := by
  induction groups generalizing m ind0 with
  | nil => simp at hx
  | cons g gs ih =>
    let m1 : Milp K := { m with vars := m.vars ++ [mkVar m.be dom (some 0) ((some u).map fun _ => 1)] }
    have hl : m1.vars.length = m.vars.length + 1 := by simp [m1]
    rw [List.foldlM_cons]
    by_cases hg : ∃ w ∈ g, u.length ≤ w
    · have h1 := linkVars_err (v := m.vars.length) g (m := m1) hk (by omega) (by omega) hg
      have e : addIndicator dom (some u) (m, ind0) g = .error .indexError := by
        unfold addIndicator
        simp only [addVariablesWB, List.length_singleton, if_true, List.map_cons, List.map_nil, bind, Except.bind]
        rw [show List.foldlM (linkVar (some u) m.vars.length) _ g = _ from h1]
      rw [e]; rfl
    · obtain ⟨m2, h1, h2, h3⟩ := linkVars_ok (ub := some u) (v := m.vars.length) g (m := m1) hk (by omega)
        (fun w h => by
          have : ¬ u.length ≤ w := fun c => hg ⟨w, h, c⟩
          omega)
        (by
          rintro u' ⟨⟩ w h
          exact not_le.1 fun c => hg ⟨w, h, c⟩)
      have e : addIndicator dom (some u) (m, ind0) g = .ok (m2, ind0 ++ [(m.vars.length, g)]) := by
        unfold addIndicator
        simp only [addVariablesWB, List.length_singleton, if_true, List.map_cons, List.map_nil, bind, Except.bind]
        rw [show List.foldlM (linkVar (some u) m.vars.length) _ g = _ from h1]
      rw [e]
      refine ih h2 (by rw [h3]; omega) ?_
      obtain ⟨g', hg', hw⟩ := hx
      refine ⟨g', ?_, hw⟩
      rcases List.mem_cons.1 hg' with rfl | h
      · exact absurd hw hg
      · exact h

theorem buildMILP_err {f : Form σ K} {mode : Mode} {labels : Option (List String)} {relaxed : Bool} {A : Mat K}
    {b : List K} {u : List K} {groups : List (List Nat)} (hA : A.cols = f.certSize mode) (hb : A.rows ≤ b.length)
    (hg : groupsFromLabels f mode labels (decide (mode = .max ∧ relaxed = false)) = .ok groups)
    (hu : u.length = f.certSize mode) (hx : ∃ g ∈ groups, ∃ w ∈ g, f.certSize mode ≤ w) :
    buildMILP f mode labels relaxed .pulp A b (some u) = .error .indexError := by
  obtain ⟨bounds, hbd⟩ := mapM_ok' (f := varBound f mode (some u)) (List.range (f.certSize mode)) (by
    intro j hj
    have hj := List.mem_range.1 hj
    unfold varBound
    split
    · exact ⟨_, rfl⟩
    · simp only [List.getElem?_eq_getElem (show j < u.length by omega)]
      exact ⟨_, rfl⟩)
  obtain ⟨hbl, -⟩ := mapM_range_inv hbd
  obtain ⟨m0, h1, h2, h3, h4, -⟩ := fromCoefficients_ok (be := .pulp) (A := A) (b := b) (opt := List.replicate (f.certSize mode) 0)
    (doms := List.replicate (f.certSize mode) .real) (s := .le) (mx := false) (bounds := some bounds) hb (by simp [hA]) (by simp [hA])
    (by intro l hl; cases hl; rw [hbl, hA]) (fun g => nomatch g)
  have h5 := addIndicators_err (dom := if relaxed then .real else .binary) (u := u) groups (m := m0) (ind0 := [])
    h2 (by rw [h4, hA, hu]) (by rw [hu]; exact hx)
  have hreal : ¬ (relaxed = false ∧ mode = .max ∧ some u = none) := fun g => nomatch g.2.2
  unfold buildMILP
  simp only [if_neg (show ¬ ((relaxed = false ∧ mode = .max ∧ some u = none) ∧ Backend.pulp ≠ .gurobi) from fun g => hreal g.1),
    bind, Except.bind, hg, hbd, h1, addIndicators, decide_eq_true_eq, if_neg hreal, h5]

variable {ρ : Graph.Rnd} {M : Sys K} {il tl fl : String} {rf : RF K} {mode : Mode} {t : K}
  {lpSolver solver : Milp K → Answer K}

/-- the groups of labels that can be looked up, one of which is on the goal or fail state -/
theorem groups_bad (h : RFOK rf) (mode : Mode) {ls : List String}
    (hl : ∀ l ∈ ls, (∃ ss, rf.sys.statesByLabel l = .ok ss) ∧ ∀ s ∈ rf.sys.labelled l, s < rf.sys.N)
    {l : String} (hll : l ∈ ls) {s : Nat} (hsl : s ∈ rf.sys.labelled l) (hs' : s = rf.sys.N - 2 ∨ s = rf.sys.N - 1) (b : Bool) :
    ∃ groups, groupsFromLabels rf.form mode (some ls) b = .ok groups ∧ ∃ g ∈ groups, ∃ w ∈ g, rf.form.certSize mode ≤ w := by
  have ofd : ∀ {d : Dict String (List Nat)} {w : Nat}, Has d l w → ∃ g ∈ d.map Prod.snd, w ∈ g := by
    intro d w hw
    unfold Has at hw
    cases hk : d.get? l with
    | none => rw [hk] at hw; simp at hw
    | some g =>
      rw [hk] at hw
      exact ⟨g, List.mem_map_of_mem (f := Prod.snd) (Dict.mem_of_get? hk), hw⟩
  have hN := h.hN
  have hC := h.hC
  cases mode with
  | min =>
    obtain ⟨d, hd⟩ : ∃ d, groupsMin rf.form ls = .ok d := by
      refine foldlM_total _ _ fun d l hm => ?_
      obtain ⟨ss, hss⟩ := (hl l hm).1
      rw [show rf.form.sys.statesByLabel l = .ok ss from hss]
      exact ⟨_, rfl⟩
    obtain ⟨-, -, g2⟩ := groupsMin_spec hd
    obtain ⟨g, hg, hw⟩ := ofd ((g2 l s).2 ⟨hll, hsl⟩)
    refine ⟨d.map Prod.snd, ?_, g, hg, s, hw, ?_⟩
    · simp only [groupsFromLabels, hd]
      rfl
    · show rf.sys.N - 2 ≤ s
      omega
  | max =>
    obtain ⟨abs, habs⟩ := actionsByState_ok h
    obtain ⟨a1, a2⟩ := actionsByState_spec habs
    have hrow : ∀ s < rf.sys.N, ∃ a i, ((s, a), i) ∈ rf.sys.idx ∧ i < rf.sys.C := by
      intro s hs
      by_cases h1 : s < rf.N
      · obtain ⟨a, i, hi, hi'⟩ := h.exists_row h1
        exact ⟨a, i, hi, RFOK.lt_C hi'⟩
      · have : s = rf.sys.N - 2 ∨ s = rf.sys.N - 1 := by
          have : ¬ s < rf.sys.N - 2 := h1
          omega
        rcases this with rfl | rfl
        · obtain ⟨a, ha⟩ := h.goalRow
          exact ⟨a, _, ha, by omega⟩
        · obtain ⟨a, ha⟩ := h.failRow
          exact ⟨a, _, ha, by omega⟩
    obtain ⟨d, hd⟩ : ∃ d, groupsMax rf.form ls = .ok d := by
      refine foldlM_total _ _ fun d l hm => ?_
      obtain ⟨ss, hss⟩ := (hl l hm).1
      rw [show rf.form.sys.statesByLabel l = .ok ss from hss]
      simp only [bind, Except.bind]
      refine foldlM_total _ _ fun d s hs => ?_
      have hs := (hl l hm).2 s ((statesByLabel_mem hss s).1 hs)
      obtain ⟨a, i, hi, hi'⟩ := hrow s hs
      have hH : Has abs.d s a := (a2 s a).2 ⟨i, hi', (invGet?_iff h.wf.vals).2 hi⟩
      obtain ⟨as, has⟩ : ∃ as, abs.d.get? s = some as := by
        unfold Has at hH
        cases e : abs.d.get? s with
        | none => rw [e] at hH; simp at hH
        | some as => exact ⟨as, rfl⟩
      rw [show rf.form.sys.actionsByState = .ok abs from habs]
      simp only [Model.IDict.getItem, has]
      refine foldlM_total _ _ fun d a ha => ?_
      have : Has abs.d s a := by unfold Has; rw [has]; exact ha
      obtain ⟨i, -, hi⟩ := (a2 s a).1 this
      rw [show rf.form.sys.idx.get? (s, a) = some i from
        (Dict.get?_iff_mem h.wf.keys).2 ((invGet?_iff h.wf.vals).1 hi)]
      exact ⟨_, rfl⟩
    obtain ⟨-, g2⟩ := groupsMax_spec h.wf.keys h.wf.vals hd
    have : ∃ a i, ((s, a), i) ∈ rf.sys.idx ∧ i < rf.sys.C ∧ rf.sys.C - 2 ≤ i := by
      rcases hs' with rfl | rfl
      · obtain ⟨a, ha⟩ := h.goalRow
        exact ⟨a, _, ha, by omega, by omega⟩
      · obtain ⟨a, ha⟩ := h.failRow
        exact ⟨a, _, ha, by omega, by omega⟩
    obtain ⟨a, i, hi, hi', hi''⟩ := this
    obtain ⟨g, hg, hw⟩ := ofd ((g2 l i).2 ⟨hll, hi', s, a, hsl, hi⟩)
    refine ⟨d.map Prod.snd, ?_, g, hg, i, hw, hi''⟩
    simp only [groupsFromLabels, hd]
    rfl

/-- the program cannot be built -/
theorem construct_bad (hM : M.WF) (hrf : RF.make ρ M il tl fl false = .ok rf) (hlp : ∀ lp, (lpSolver lp).Exact lp)
    (hi : ∀ i ∈ M.labelled il, i ∉ M.labelled tl)
    {ls : List String} (hl : ∀ l ∈ ls, (∃ ss, M.statesByLabel l = .ok ss) ∧ ∀ s ∈ M.labelled l, s < M.N)
    {l : String} (hll : l ∈ ls) {s : Nat} (hsl : s ∈ M.labelled l) (hs' : s = M.N - 2 ∨ s = M.N - 1) (relaxed : Bool)
    (he : mode = .max → Nonempty (K →+*o ℝ) ∧ rf.isEcFree = true) :
    constructMILP rf.form lpSolver t mode (some ls) relaxed none .pulp = .error .indexError ∨
    mode = .max ∧ constructMILP rf.form lpSolver t mode (some ls) relaxed none .pulp = .ok none := by
  have h := rfok_built hM hrf
  obtain ⟨e0, eil, -⟩ := make_fields hrf
  have hin : rf.initial < rf.N := by
    have : rf.initial ∈ M.labelled il := by
      have := (rflive_built hM hrf).initLab
      rw [e0, eil] at this
      exact ⟨_, this, by simp⟩
    exact initial_lt hM hrf this (hi _ this)
  obtain ⟨A, b, hA⟩ : ∃ A b, rf.farkConstraints t mode = .ok (A, b) := by
    cases mode with
    | min => simp only [RF.farkConstraints, RF.farkZ, if_pos hin]; exact ⟨_, _, rfl⟩
    | max => simp only [RF.farkConstraints, RF.farkY, if_pos hin]; exact ⟨_, _, rfl⟩
  obtain ⟨f1, f2, f3⟩ := rf_fark hM hrf A b hA
  obtain ⟨groups, hg, hx⟩ := groups_bad h mode (ls := ls) (by rw [e0]; exact hl) hll (by rw [e0]; exact hsl) (by rw [e0]; exact hs')
    (decide (mode = .max ∧ relaxed = false))
  have hbd : (mode = .max ∧ chooseBounds rf.form lpSolver mode A b none = .ok none) ∨
      ∃ u, chooseBounds rf.form lpSolver mode A b none = .ok (some (some u)) ∧ u.length = rf.form.certSize mode := by
    unfold chooseBounds
    cases mode with
    | min => exact Or.inr ⟨_, if_pos ⟨rfl, rfl, rfl⟩, by simp⟩
    | max =>
      rw [if_neg (by simp), if_pos (show rf.form.isEcFree = true from (he rfl).2)]
      obtain ⟨⟨φ⟩, he⟩ := he rfl
      rcases C37_computed hM hrf φ he hA hlp with ⟨-, u, hu⟩ | ⟨-, u, hu⟩
      · refine Or.inr ⟨u, by rw [hu]; rfl, ?_⟩
        rw [(C37_max hM hrf hA (fun lp => (hlp lp).toSound) hu).1, f1]
      · exact Or.inl ⟨rfl, by rw [hu]; rfl⟩
  rcases hbd with ⟨hm, hbd⟩ | ⟨u, hbd, hul⟩
  · refine Or.inr ⟨hm, ?_⟩
    unfold constructMILP
    rw [show rf.form.fark t mode = .ok (A, b) from hA]
    simp only [bind, Except.bind, hbd]
  · refine Or.inl ?_
    unfold constructMILP
    rw [show rf.form.fark t mode = .ok (A, b) from hA]
    simp only [bind, Except.bind, hbd, buildMILP_err f1 f2 hg hul hx]

/-- **C89 (labels).** If one of the given labels is on the goal or fail state, `MILPExact` and `QSHeur` (pulp) raise `IndexError`
for minimal probabilities; so they do for maximal probabilities of systems without proper end components, unless they report that
there is no witness.  (Missing: maximal probabilities of systems with proper end components, where it is false: `C89_false`.) -/
theorem C89_labels_partial (hM : M.WF) (hrf : RF.make ρ M il tl fl false = .ok rf) (hlp : ∀ lp, (lpSolver lp).Exact lp)
    (ht : 0 ≤ t ∧ t ≤ 1) (hi : ∀ i ∈ M.labelled il, i ∉ M.labelled tl)
    {ls : List String} (hl : ∀ l ∈ ls, (∃ ss, M.statesByLabel l = .ok ss) ∧ ∀ s ∈ M.labelled l, s < M.N)
    {l : String} (hll : l ∈ ls) {s : Nat} (hsl : s ∈ M.labelled l) (hs' : s = M.N - 2 ∨ s = M.N - 1)
    (he : mode = .max → Nonempty (K →+*o ℝ) ∧ rf.isEcFree = true) {run : Run (Subsystem K) K}
    (hrun : (∃ solver, run = milpExact rf.form lpSolver solver t mode (some ls) .pulp) ∨
      ∃ solver n ini upd, run = qsHeur rf.form lpSolver solver n ini upd t mode (some ls) .pulp) :
    (mode = .min → solveLast (solveIter rf.form t run) = .error .indexError) ∧
    (mode = .max → solveLast (solveIter rf.form t run) = .error .indexError ∨
      ∃ r, solveLast (solveIter rf.form t run) = .ok r ∧ r.status = .failed .infeasible) := by
  have hsi : solveIter rf.form t run = run := by
    unfold solveIter
    rw [if_pos ht.1, if_pos fun _ => ht.2]
  rw [hsi]
  have key : run = ([], some .indexError) ∨ mode = .max ∧ run = ([failure .infeasible], none) := by
    rcases hrun with ⟨solver, rfl⟩ | ⟨solver, n, ini, upd, rfl⟩
    · unfold milpExact
      rcases construct_bad (t := t) hM hrf hlp hi hl hll hsl hs' false he with h | ⟨hm, h⟩ <;> rw [h]
      · exact Or.inl rfl
      · exact Or.inr ⟨hm, rfl⟩
    · unfold qsHeur
      rcases construct_bad (t := t) hM hrf hlp hi hl hll hsl hs' true he with h | ⟨hm, h⟩ <;> rw [h]
      · exact Or.inl rfl
      · exact Or.inr ⟨hm, rfl⟩
  rcases key with h | ⟨hm, h⟩
  · rw [h]
    exact ⟨fun _ => rfl, fun _ => Or.inl rfl⟩
  · rw [h]
    exact ⟨(fun g => by rw [hm] at g; cases g), fun _ => Or.inr ⟨_, rfl, rfl⟩⟩

end labels

section rewards
variable {K : Type} [Field K] [LinearOrder K] [IsStrictOrderedRing K]

/-- **C89 (rewards).** `RewardReachabilityForm.assert_reachform_consistency` and `assert_system_consistency` raise
`AssertionError` for systems without rewards. -/
theorem C89_no_rewards {ρ : Graph.Rnd} {rf : RF K} {M : Sys K} {il tl : String} :
    (rf.sys.rew = none → RRF.assertReachform ρ rf = .error .assertion) ∧
    (M.rew = none → RRF.assertSystem ρ M il tl = .error .assertion) := by
  refine ⟨fun h => ?_, fun h => ?_⟩
  · unfold RRF.assertReachform; rw [h]
  · unfold RRF.assertSystem; rw [h]

/-- **C89 (rewards).** So does `RewardReachabilityForm.reduce`, if the system has a reduced form at all. -/
theorem C89_reduce_no_rewards {ρ ρ' : Graph.Rnd} {M : Sys K} {il tl : String} (hM : Input M) (hr : M.rew = none)
    {res : Reduce.Result K} (h : M.reduce ρ il tl "rf_target" "rf_fail" = .ok res) :
    RRF.reduce ρ ρ' M il tl = .error .assertion := by
  have := (C17_reduce_labels hM (by decide) h).2.2.2.2.2.1 hr
  unfold RRF.reduce
  simp only [h, bind, Except.bind, RRF.assertReachform, this]

end rewards

/-! ### the exception: systems with proper end components -/

theorem construct_any {K : Type} [Field K] [LinearOrder K] [IsStrictOrderedRing K] {f : Form (Subsystem K) K} (he : f.isEcFree = false)
    (lp lp' : Milp K → Answer K) (t : K) (labels : Option (List String)) (relaxed : Bool) (be : Backend) :
    constructMILP f lp t .max labels relaxed none be = constructMILP f lp' t .max labels relaxed none be := by
  unfold constructMILP
  cases f.fark t .max with
  | error e => rfl
  | ok p => simp only [bind, Except.bind, chooseBounds, he]; rfl

/-- **C89 (labels).** For maximal probabilities of a system with a proper end component `QSHeur` does not notice the label on the
goal state: it takes the variable after those of the certificate for it, which is the one counting the first label, and
raises nothing. -/
theorem C89_false : ∃ (M : Sys ℚ) (rf : RF ℚ), M.WF ∧ RF.make exRnd M "init" "goal" "fail" false = .ok rf ∧
    M.N - 2 ∈ M.labelled "goal" ∧ rf.isEcFree = false ∧
    ∀ lpSolver solver, (∀ k m, (solver k m : Answer ℚ).Sound m) →
      (solveIter rf.form (1/4) (qsHeur rf.form lpSolver solver 1 allOnes (inverseResultUpdater fun _ => 1) (1/4) .max
        (some ["goal"]) .pulp)).2 = none := by
  obtain ⟨rf, h1, h2⟩ := exists_of_ok_and (x := RF.make exRnd (exSys ℚ) "init" "goal" "fail" false)
    (p := fun rf => !rf.isEcFree && (match constructMILP rf.form (fun _ => ⟨.notsolved, [], 0⟩) (1/4) .max (some ["goal"]) true none .pulp with
      | .ok (some (m, ind)) => decide (m.vars.length = 4 ∧ ind = [(3, [3])] ∧ rf.sys.C = 5)
      | _ => false)) (by decide +kernel)
  rw [Bool.and_eq_true] at h2
  obtain ⟨he, h2⟩ := h2
  have he : rf.isEcFree = false := by simpa using he
  refine ⟨exSys ℚ, rf, exSys_wf ℚ, h1, ⟨[2], by decide +kernel, by decide +kernel⟩, he, fun lpSolver solver hs => ?_⟩
  have hsi : ∀ run : Run (Subsystem ℚ) ℚ, solveIter rf.form (1/4) run = run := by
    intro run
    unfold solveIter
    rw [if_pos (by norm_num), if_pos fun _ => by norm_num]
  rw [hsi]
  unfold qsHeur
  rw [construct_any (f := rf.form) he lpSolver (fun _ => ⟨.notsolved, [], 0⟩)]
  split at h2
  · rename_i m ind hc
    rw [hc]
    simp only [decide_eq_true_eq] at h2
    obtain ⟨h3, rfl, h5⟩ := h2
    simp only [allOnes, List.map_cons, List.map_nil, qsLoop]
    have hob : ∃ m', m.setObjective [(3, (1 : ℚ))] = .ok m' ∧ m'.vars = m.vars := by
      have : ∀ t ∈ [(3, (1 : ℚ))], t.1 < m.vars.length := by rw [h3]; simp
      simp only [setObjective, assertExpr, if_pos this, bind, Except.bind]
      split <;> exact ⟨_, rfl, rfl⟩
    obtain ⟨m', hm', hv⟩ := hob
    rw [hm']
    simp only
    split
    · rename_i hst
      have hl := ((hs 0 m').optimal hst).2.1
      rw [hv, h3] at hl
      have hcs : rf.form.certSize .max = 3 := by show rf.sys.C - 2 = 3; omega
      have : ∃ w, rf.form.mkSub ((solver 0 m').vec.take (rf.form.certSize .max)) .max = .ok w := by
        have : ((solver 0 m').vec.take (rf.form.certSize .max)).length = rf.form.certSize .max := by
          rw [List.length_take, hl, hcs]; rfl
        exact ⟨_, if_pos this⟩
      obtain ⟨w, hw⟩ := this
      rw [hw]
      have hu : ∃ o, (inverseResultUpdater (fun _ => (1 : ℚ)) [(3, [3])]).update (solver 0 m').vec = .ok o := by
        have : (solver 0 m').vec[3]? = some ((solver 0 m').vec[3]'(by omega)) := List.getElem?_eq_getElem _
        simp only [inverseResultUpdater, inverseUpdate, List.mapM_cons, List.mapM_nil, at!, this, bind, Except.bind]
        exact ⟨_, rfl⟩
      obtain ⟨o, ho⟩ := hu
      simp only [ho, bind, Except.bind]
      rfl
    · rfl
  · cases h2

/-! ### the hypotheses can be met -/

/- the loop system without end components, asked to count "goal" -/
example (mode : Mode) : ∃ rf solver, RF.make exRnd exactEx "init" "goal" "fail" false = .ok rf ∧ (∀ m, (solver m : Answer ℚ).Exact m) ∧
    (mode = .min → solveLast (solveIter rf.form (1/4) (milpExact rf.form solver solver (1/4) mode (some ["a", "goal"]) .pulp)) =
      .error .indexError) := by
  obtain ⟨rf, hrf, he⟩ := exactEx_ok
  obtain ⟨solver, hs⟩ := exists_exact ℚ
  have e1 : exactEx.statesByLabel "a" = .ok [0] := by decide +kernel
  have e2 : exactEx.statesByLabel "goal" = .ok [1] := by decide +kernel
  refine ⟨rf, solver, hrf, hs, (C89_labels_partial (mode := mode) (t := 1/4) (ls := ["a", "goal"]) (l := "goal") (s := 1) exactEx_wf hrf hs (by norm_num)
    exactEx_init ?_ (by simp) ⟨_, e2, by simp⟩ (Or.inl rfl) (fun _ => ⟨⟨ratR⟩, he⟩) (Or.inl ⟨solver, rfl⟩)).1⟩
  intro l hl
  simp only [List.mem_cons, List.not_mem_nil, or_false] at hl
  rcases hl with rfl | rfl
  · refine ⟨⟨_, e1⟩, ?_⟩
    rintro s ⟨ss, h1, h2⟩
    rw [e1] at h1; cases h1
    rw [List.mem_singleton] at h2; subst h2; decide
  · refine ⟨⟨_, e2⟩, ?_⟩
    rintro s ⟨ss, h1, h2⟩
    rw [e2] at h1; cases h1
    rw [List.mem_singleton] at h2; subst h2; decide

/- two columns, one coefficient in the objective -/
example : fromCoefficients .pulp (⟨1, 2, fun _ _ => 1⟩ : Mat ℚ) [1] [1] [.real, .real] .le false none = .error .indexError :=
  C89_coefficients.1.2 (Or.inr (Or.inl (by decide)))

/- a system without rewards that can be reduced -/
example : ∃ res, { redSys with rew := none }.reduce exRnd "start" "goal" "rf_target" "rf_fail" = .ok res ∧
    RRF.reduce exRnd exRnd { redSys with rew := none } "start" "goal" = .error .assertion := by
  obtain ⟨res, h, -⟩ := exists_of_ok_and (x := { redSys with rew := none }.reduce exRnd "start" "goal" "rf_target" "rf_fail")
    (p := fun _ => true) (by decide +kernel)
  have hI := redSys_input
  refine ⟨res, h, C89_reduce_no_rewards ⟨?_, hI.total, hI.labS, hI.labA⟩ rfl h⟩
  have w := hI.wf
  constructor
  exacts [w.nodup, w.range, w.pos, w.sum, w.keys, w.vals, w.graph]

end Verif.Props
