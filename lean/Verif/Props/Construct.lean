import Verif.Props.MILPExact
/-!
# C120: `construct_MILP` returns the documented program
-/
set_option linter.unusedSectionVars false

namespace Verif.Props
open Verif.Model Verif.Spec Verif.Proofs Verif.Theory Verif.Proofs.IDict Finset

section
variable {K : Type} [Field K] [LinearOrder K] [IsStrictOrderedRing K]
variable {ρ : Graph.Rnd} {M : Sys K} {il tl fl : String} {rf : RF K} {mode : Mode} {t : K}
  {lpSolver lpSolver' : Milp K → Answer K} {labels : Option (List String)} {relaxed : Bool} {be be' : Backend} {known : Option (List K)}
  {m m' : Milp K} {ind ind' : List (Nat × List Nat)}

/-- a vector that `check_farkas_certificate` accepts (without tolerance) for `Pr >= t`, and that has no negative entries -/
def Accepted (rf : RF K) (mode : Mode) (t : K) (v : List K) : Prop := check rf mode .ge t v 0 = .ok true ∧ ∀ c ∈ v, 0 ≤ c

/-- no accepted vector has a larger entry -/
def Above (rf : RF K) (mode : Mode) (t : K) (u : List K) : Prop :=
  ∀ v, Accepted rf mode t v → ∀ j < v.length, v.getD j 0 ≤ u.getD j 0

/-- the certificate in an assignment -/
def certOf (n : Nat) (x : Nat → K) : List K := (List.range n).map x

theorem certOf_getD (n : Nat) (x : Nat → K) {j : Nat} (hj : j < n) : (certOf n x).getD j 0 = x j := by
  simp [certOf, List.getD, hj]

theorem accepted_length {v : List K} (h : Accepted rf mode t v) : v.length = rf.form.certSize mode := by
  cases mode with
  | min => exact ((check_min_ge (strict := false)).1 h.1).2.2.1
  | max => exact ((check_max_ge (strict := false)).1 h.1).2.2.1

theorem accepted_poly {A : Mat K} {b : List K} (hA : rf.farkConstraints t mode = .ok (A, b)) {v : List K}
    (h : Accepted rf mode t v) : InPoly rf.form mode A b none fun j => v.getD j 0 := by
  have hl := accepted_length h
  have hnn : ∀ j < rf.form.certSize mode, 0 ≤ v.getD j 0 := fun j hj => by
    rw [List.getD_eq_getElem _ _ (by rw [hl]; exact hj)]; exact h.2 _ (List.getElem_mem _)
  cases mode with
  | min =>
    obtain ⟨-, -, -, h1, h2, h3, -⟩ := (check_min_ge (strict := false)).1 h.1
    obtain ⟨e0, e1, e2, -, e3⟩ := farkZ_rows hA
    obtain ⟨e4, e5, e6⟩ := e3 fun j => v.getD j 0
    refine ⟨hnn, (fun u hu => nomatch hu), fun _ s hs => h1 s hs, fun i hi => ?_⟩
    rw [e1] at hi
    rcases Nat.lt_succ_iff_lt_or_eq.1 hi with hi | rfl
    · rw [(e4 i hi).1, (e4 i hi).2]
      have := h2 i hi
      linarith
    · rw [e5, e6]
      linarith
  | max =>
    obtain ⟨-, -, -, h2, h3, -⟩ := (check_max_ge (strict := false)).1 h.1
    obtain ⟨e0, e1, e2, -, e3⟩ := farkY_rows hA
    obtain ⟨e4, e5, e6⟩ := e3 fun j => v.getD j 0
    refine ⟨hnn, (fun u hu => nomatch hu), (fun g => nomatch g), fun i hi => ?_⟩
    rw [e1] at hi
    rcases Nat.lt_succ_iff_lt_or_eq.1 hi with hi | rfl
    · rw [(e4 i hi).1, (e4 i hi).2]
      have := h2 i hi
      linarith
    · rw [e5, e6]
      linarith

/-- the polytope consists of the accepted vectors -/
theorem poly_iff (ht : 0 ≤ t ∧ t ≤ 1) {A : Mat K} {b : List K} (hA : rf.farkConstraints t mode = .ok (A, b)) (ub : Option (List K)) (x : Nat → K) :
    InPoly rf.form mode A b ub x ↔ Accepted rf mode t (certOf (rf.form.certSize mode) x) ∧
      ∀ u, ub = some u → ∀ j < rf.form.certSize mode, x j ≤ u.getD j 0 := by
  have hcols := fark_cols hA
  constructor
  · intro h
    refine ⟨poly_check ht hA (ub := ub) (by simp [certOf]) (h.congr hcols fun j hj => certOf_getD _ _ hj), h.upper⟩
  · rintro ⟨h1, h2⟩
    have := (accepted_poly hA h1).congr (y := x) hcols fun j hj => (certOf_getD _ _ hj).symm
    exact ⟨this.nonneg, h2, this.ec, this.rows⟩

/-- the probabilities in an accepted vector of the mode "min" are at most one -/
theorem accepted_le_one (hM : M.WF) (hrf : RF.make ρ M il tl fl false = .ok rf) (φ : K →+*o ℝ) {v : List K}
    (h : Accepted rf .min t v) : ∀ j < v.length, v.getD j 0 ≤ 1 := by
  obtain ⟨-, -, hl, h1, h2, -⟩ := (check_min_ge (strict := false)).1 h.1
  have hok := rfok_built hM hrf
  intro j hj
  rw [hl] at hj
  have hz := (hok.zrow_le_iff φ (fun j => v.getD j 0) 0).1 h2
  have := Core.le_Vmin_of_cert (hok.sub φ) (z := RFOK.vec φ fun j => v.getD j 0) (fun s r hr => by
    have := hz s r hr
    rwa [map_zero, add_zero] at this) (fun s hs => by
      have := h1 s.1 s.2 ((hok.inEC_iff φ s).1 hs)
      change φ (v.getD s.1 0) ≤ 0
      rw [this, map_zero]) ⟨j, hj⟩
  have h3 := (hok.sub φ).Vmin_le_one ⟨j, hj⟩
  rw [← (phi_strict φ).le_iff_le, map_one]
  exact this.trans h3

/-- `construct_MILP` with the argument `known_upper_bounds` -/
theorem construct_known (hM : M.WF) (hrf : RF.make ρ M il tl fl false = .ok rf) (φ : K →+*o ℝ)
    (hs : ∀ lp, (lpSolver lp).Sound lp) (hk : ∀ u, known = some u → ∀ c ∈ u, 0 ≤ c)
    (h : constructMILP rf.form lpSolver t mode labels relaxed known be = .ok (some (m, ind))) :
    ∃ A b ub groups, rf.farkConstraints t mode = .ok (A, b) ∧ chooseBounds rf.form lpSolver mode A b known = .ok (some ub) ∧
      groupsFromLabels rf.form mode labels (decide (mode = .max ∧ relaxed = false)) = .ok groups ∧
      ¬ (relaxed = false ∧ mode = .max ∧ ub = none) ∧
      Built rf.form mode relaxed A b ub groups m ind ∧
      (ub = known ∨ ∃ u, ub = some u ∧ u.length = rf.form.certSize mode ∧ Above rf mode t u) := by
  unfold constructMILP at h
  simp only [bind, Except.bind] at h
  split at h
  · cases h
  rename_i Ab hAb
  obtain ⟨A, b⟩ := Ab
  simp only at h
  split at h
  · cases h
  rename_i o ho
  cases o with
  | none => cases h
  | some ub =>
    simp only at h
    split at h
    · cases h
    rename_i r hr
    cases h
    have hA : rf.farkConstraints t mode = .ok (A, b) := hAb
    obtain ⟨c1, c2, c3⟩ := rf_fark hM hrf A b hAb
    have hkn : ∀ u, known = some u → ∀ j, 0 ≤ u.getD j 0 := fun u hu j => by
      by_cases hj : j < u.length
      · rw [List.getD_eq_getElem _ _ hj]; exact hk u hu _ (List.getElem_mem _)
      · simp [List.getD, List.getElem?_eq_none (not_lt.1 hj)]
    have hub : (∀ u, ub = some u → ∀ j < rf.form.certSize mode, 0 ≤ u.getD j 0) ∧
        (ub = known ∨ ∃ u, ub = some u ∧ u.length = rf.form.certSize mode ∧ Above rf mode t u) := by
      unfold chooseBounds at ho
      split at ho
      · rename_i hc
        simp only [Except.ok.injEq, Option.some.injEq] at ho
        subst ho
        have hone : ∀ j < rf.form.certSize mode, (List.replicate (rf.form.certSize mode) (1 : K)).getD j 0 = 1 := fun j hj => by
          rw [List.getD_eq_getElem _ _ (by simpa using hj)]; simp
        refine ⟨?_, Or.inr ⟨_, rfl, by simp, fun v hv j hj => ?_⟩⟩
        · rintro u ⟨⟩ j hj
          rw [hone j hj]
          exact zero_le_one
        · rw [hone j (by rw [← accepted_length hv]; exact hj)]
          obtain ⟨rfl, -⟩ := hc
          exact accepted_le_one hM hrf φ hv j hj
      · split at ho
        · simp only [bind, Except.bind] at ho
          split at ho
          · cases ho
          rename_i p hp
          obtain ⟨st, u'⟩ := p
          cases st <;> simp only [Except.ok.injEq, Option.some.injEq, reduceCtorEq] at ho
          · subst ho
            obtain ⟨g1, ⟨x, hx⟩, g2⟩ := C37_bounds c2 c3 hs hp
            rw [c1] at g1 g2
            refine ⟨?_, Or.inr ⟨_, rfl, g1, fun v hv j hj => ?_⟩⟩
            · rintro u ⟨⟩ j hj
              exact le_trans (hx.nonneg j (by rw [c1]; exact hj)) (g2 x hx j hj)
            · have hp := accepted_poly hA hv
              exact g2 _ ⟨fun j hj => hp.nonneg j (by rw [← c1]; exact hj), hp.rows⟩ j (by rw [← accepted_length hv]; exact hj)
          all_goals subst ho; exact ⟨fun u hu j _ => hkn u hu j, Or.inl rfl⟩
        · cases ho
          exact ⟨fun u hu j _ => hkn u hu j, Or.inl rfl⟩
    obtain ⟨groups, b1, b2, b3⟩ := built c1 hub.1 hr
    exact ⟨A, b, ub, groups, hA, ho, b1, b2, b3, hub.2⟩

theorem groups_lt (hM : M.WF) (hrf : RF.make ρ M il tl fl false = .ok rf) (hl : LabelsOK M labels) {b : Bool} {groups : List (List Nat)}
    (h : groupsFromLabels rf.form mode labels b = .ok groups) : ∀ g ∈ groups, ∀ w ∈ g, w < rf.form.certSize mode := by
  obtain ⟨g, h1, h2⟩ := groups_ok (rfok_built hM hrf) mode (labels := labels) (by rw [(make_fields hrf).1]; exact hl) b
  rw [h1] at h
  cases h
  exact h2

theorem ind_get {n : Nat} {groups : List (List Nat)} (hi : ind = (groups.zipIdx n).map fun e => (e.2, e.1)) (v : Nat) (g : List Nat) :
    (v, g) ∈ ind ↔ ∃ k, v = n + k ∧ groups[k]? = some g := by
  subst hi
  rw [List.mem_map]
  constructor
  · rintro ⟨⟨g', v'⟩, h1, h2⟩
    simp only [Prod.mk.injEq] at h2
    obtain ⟨rfl, rfl⟩ := h2
    obtain ⟨h3, h4⟩ := List.mem_zipIdx_iff_le_and_getElem?_sub.1 h1
    exact ⟨v' - n, by omega, h4⟩
  · rintro ⟨k, rfl, h⟩
    exact ⟨(g, n + k), List.mem_zipIdx_iff_le_and_getElem?_sub.2 ⟨by simp, by simpa using h⟩, rfl⟩

theorem sum_range_list (f : Nat → K) (n : Nat) : ((List.range n).map f).sum = ∑ k ∈ range n, f k := by
  induction n with
  | zero => simp
  | succ n ih => rw [List.range_succ, List.map_append, List.sum_append, ih, sum_range_succ]; simp

/-- **C120.** What `construct_MILP` returns is the documented program.  The objective is the sum of the indicators, to be minimised;
the variables that are no indicators come first and form a non-negative vector that `check_farkas_certificate` accepts; the indicators
are 0 or 1 (not negative and, if there are upper bounds, at most 1 in the relaxed program), and each entry is at most its upper bound
times each of its indicators.  The upper bounds are the given ones or such that no accepted vector exceeds them. -/
theorem C120_program (hM : M.WF) (hrf : RF.make ρ M il tl fl false = .ok rf) (φ : K →+*o ℝ) (ht : 0 ≤ t ∧ t ≤ 1)
    (hs : ∀ lp, (lpSolver lp).Sound lp) (hk : ∀ u, known = some u → ∀ c ∈ u, 0 ≤ c) (hl : LabelsOK M labels)
    (h : constructMILP rf.form lpSolver t mode labels relaxed known be = .ok (some (m, ind))) :
    ∃ ub : Option (List K), (ub = known ∨ ∃ u, ub = some u ∧ Above rf mode t u) ∧ (relaxed = false ∨ mode = .min → ub ≠ none) ∧
      m.maximize = false ∧ (∀ x, m.objVal x = (ind.map fun e => x e.1).sum) ∧
      ind.map Prod.fst = List.range' (rf.form.certSize mode) ind.length ∧
      ∀ x, m.Feasible x ↔ Accepted rf mode t (certOf (rf.form.certSize mode) x) ∧
        (∀ u, ub = some u → ∀ j < rf.form.certSize mode, x j ≤ u.getD j 0) ∧
        ∀ e ∈ ind, 0 ≤ x e.1 ∧ (relaxed = false → x e.1 = 0 ∨ x e.1 = 1) ∧ (ub ≠ none → x e.1 ≤ 1) ∧
          ∀ w ∈ e.2, x w ≤ (ub.elim 1 fun u => u.getD w 0) * x e.1 := by
  obtain ⟨A, b, ub, groups, hA, hch, hg, hreal, B, hub⟩ := construct_known hM hrf φ hs hk h
  have hi := B.ind
  have hlen : ind.length = groups.length := by rw [hi]; simp
  have hkeys : ind.map Prod.fst = List.range' (rf.form.certSize mode) groups.length := by
    rw [hi, List.map_map]
    exact List.zipIdx_map_snd _ _
  refine ⟨ub, hub.imp_right fun ⟨u, h1, _, h2⟩ => ⟨u, h1, h2⟩, ?_, B.maximize, fun x => ?_, ?_, fun x => ?_⟩
  · have hmin : mode = .min → ub ≠ none := by
      rintro rfl rfl
      rcases hub with rfl | ⟨u, e, -⟩
      · unfold chooseBounds at hch
        rw [if_pos ⟨rfl, rfl, rfl⟩] at hch
        cases hch
      · cases e
    rintro (h1 | h1)
    · cases mode with
      | min => exact hmin rfl
      | max => exact fun h2 => hreal ⟨h1, rfl, h2⟩
    · exact hmin h1
  · rw [B.obj, ← sum_range_list, show (ind.map fun e => x e.1) = (ind.map Prod.fst).map x by simp [List.map_map, Function.comp_def], hkeys,
      List.range'_eq_map_range, List.map_map]
    rfl
  · rw [hkeys, hlen]
  · rw [B.feasible (groups_lt hM hrf hl hg), poly_iff ht hA, and_assoc]
    refine and_congr_right fun _ => and_congr_right fun _ => ?_
    have hub' : ∀ w, ubAt ub w = ub.elim 1 fun u => u.getD w 0 := fun w => by cases ub <;> rfl
    simp only [hub']
    constructor
    · rintro ⟨h1, h2⟩ ⟨v, g⟩ he
      obtain ⟨k, rfl, hk⟩ := (ind_get hi v g).1 he
      obtain ⟨a1, a2, a3⟩ := h1 k (List.getElem?_eq_some_iff.1 hk).1
      exact ⟨a1, a2, a3, h2 k g hk⟩
    · intro h1
      refine ⟨fun k hk => ?_, fun k g hk => ?_⟩
      · obtain ⟨a1, a2, a3, -⟩ := h1 _ ((ind_get hi _ _).2 ⟨k, rfl, List.getElem?_eq_getElem hk⟩)
        exact ⟨a1, a2, a3⟩
      · exact (h1 _ ((ind_get hi _ _).2 ⟨k, rfl, hk⟩)).2.2.2

/-- **C120.** Exactly the accepted non-negative vectors can be completed to a solution of the program: neither the relaxation nor upper
bounds - given ones that no accepted vector exceeds, or computed ones - remove or add any. -/
theorem C120_certificates (hM : M.WF) (hrf : RF.make ρ M il tl fl false = .ok rf) (φ : K →+*o ℝ) (ht : 0 ≤ t ∧ t ≤ 1)
    (hs : ∀ lp, (lpSolver lp).Sound lp) (hk : ∀ u, known = some u → (∀ c ∈ u, 0 ≤ c) ∧ Above rf mode t u) (hl : LabelsOK M labels)
    (h : constructMILP rf.form lpSolver t mode labels relaxed known be = .ok (some (m, ind))) (v : List K) :
    (∃ x, m.Feasible x ∧ certOf (rf.form.certSize mode) x = v) ↔ Accepted rf mode t v := by
  obtain ⟨ub, hub, hsome, -, -, hkeys, hfeas⟩ := C120_program hM hrf φ ht hs (fun u hu => (hk u hu).1) hl h
  have hab : ∀ u, ub = some u → Above rf mode t u := by
    rintro u rfl
    rcases hub with e | ⟨u', e, h1⟩
    · exact (hk u e.symm).2
    · cases e; exact h1
  constructor
  · rintro ⟨x, hx, rfl⟩
    exact ((hfeas x).1 hx).1
  · intro hv
    have hlen := accepted_length hv
    have hnn : ∀ j, 0 ≤ v.getD j 0 := fun j => by
      by_cases hj : j < v.length
      · rw [List.getD_eq_getElem _ _ hj]; exact hv.2 _ (List.getElem_mem _)
      · simp [List.getD, List.getElem?_eq_none (not_lt.1 hj)]
    have hglt : ∀ e ∈ ind, ∀ w ∈ e.2, w < rf.form.certSize mode := by
      obtain ⟨A, b, ub, groups, hA, -, hg, -, B, -⟩ := construct_known hM hrf φ hs (fun u hu => (hk u hu).1) h
      rintro ⟨i, g⟩ he w hw
      obtain ⟨k, -, hk⟩ := (ind_get B.ind i g).1 he
      exact groups_lt hM hrf hl hg g (List.mem_of_getElem? hk) w hw
    have hel : ∀ e ∈ ind, rf.form.certSize mode ≤ e.1 := by
      intro e he
      have := List.mem_map_of_mem (f := Prod.fst) he
      rw [hkeys, List.mem_range'_1] at this
      exact this.1
    let T : K := ub.elim (∑ j ∈ range (rf.form.certSize mode), v.getD j 0) fun _ => 1
    have hT : 0 ≤ T := by
      cases ub with
      | none => exact sum_nonneg fun j _ => hnn j
      | some u => exact zero_le_one
    have hle : ∀ j < rf.form.certSize mode, v.getD j 0 ≤ (ub.elim 1 fun u => u.getD j 0) * T := by
      intro j hj
      cases ub with
      | none =>
        change _ ≤ 1 * ∑ j ∈ range (rf.form.certSize mode), v.getD j 0
        rw [one_mul]
        exact single_le_sum (f := fun j => v.getD j 0) (fun j _ => hnn j) (mem_range.2 hj)
      | some u =>
        change _ ≤ u.getD j 0 * 1
        rw [mul_one]
        exact hab u rfl v hv j (by omega)
    have hcert : certOf (rf.form.certSize mode) (fun j => if j < rf.form.certSize mode then v.getD j 0 else T) = v := by
      refine List.ext_getElem (by simp [certOf, hlen]) fun j h1 h2 => ?_
      have : j < rf.form.certSize mode := by omega
      simp [certOf, this, h2]
    refine ⟨fun j => if j < rf.form.certSize mode then v.getD j 0 else T, (hfeas _).2 ⟨hcert.symm ▸ hv, ?_, ?_⟩, hcert⟩
    · rintro u hu j hj
      simp only [if_pos hj]
      exact hab u hu v hv j (by omega)
    · intro e he
      have h1 : ¬ e.1 < rf.form.certSize mode := not_lt.2 (hel e he)
      simp only [if_neg h1]
      refine ⟨hT, fun hr => ?_, fun hu => ?_, fun w hw => ?_⟩
      · obtain ⟨u, rfl⟩ := Option.ne_none_iff_exists'.1 (hsome (Or.inl hr))
        exact Or.inr rfl
      · obtain ⟨u, rfl⟩ := Option.ne_none_iff_exists'.1 hu
        exact le_refl _
      · rw [if_pos (hglt e he w hw)]
        exact hle w (hglt e he w hw)

/-- **C120.** The value of the exact program does not depend on the upper bounds, the back end or the solver for the bounds: it is the
same with given bounds that no accepted vector exceeds and without. -/
theorem C120_value (hM : M.WF) (hrf : RF.make ρ M il tl fl false = .ok rf) (φ : K →+*o ℝ) (ht : 0 ≤ t ∧ t ≤ 1)
    (hs : ∀ lp, (lpSolver lp).Sound lp) (hs' : ∀ lp, (lpSolver' lp).Sound lp) {known' : Option (List K)}
    (hk : ∀ u, known = some u → (∀ c ∈ u, 0 ≤ c) ∧ Above rf mode t u) (hk' : ∀ u, known' = some u → (∀ c ∈ u, 0 ≤ c) ∧ Above rf mode t u)
    (hl : LabelsOK M labels)
    (h : constructMILP rf.form lpSolver t mode labels false known be = .ok (some (m, ind)))
    (h' : constructMILP rf.form lpSolver' t mode labels false known' be' = .ok (some (m', ind'))) {x x' : Nat → K}
    (hx : m.Optimal x) (hx' : m'.Optimal x') : m.objVal x = m'.objVal x' := by
  have key : ∀ {lpSolver : Milp K → Answer K} {known : Option (List K)} {be : Backend} {m : Milp K} {ind : List (Nat × List Nat)} {x : Nat → K},
      (∀ lp, (lpSolver lp).Sound lp) → (∀ u, known = some u → (∀ c ∈ u, 0 ≤ c) ∧ Above rf mode t u) →
      constructMILP rf.form lpSolver t mode labels false known be = .ok (some (m, ind)) → m.Optimal x →
      ∃ A b groups, rf.farkConstraints t mode = .ok (A, b) ∧
        groupsFromLabels rf.form mode labels (decide (mode = .max ∧ false = false)) = .ok groups ∧
        InPoly rf.form mode A b none x ∧ m.objVal x = usedGroups groups x ∧
        ∀ y, InPoly rf.form mode A b none y → usedGroups groups x ≤ usedGroups groups y := by
    intro lpSolver known be m ind x hs hk h hx
    obtain ⟨A, b, ub, groups, hA, hch, hg, hreal, B, hub⟩ := construct_known hM hrf φ hs (fun u hu => (hk u hu).1) h
    have hsome : ub ≠ none := by
      rintro rfl
      cases mode with
      | max => exact hreal ⟨rfl, rfl, rfl⟩
      | min =>
        rcases hub with rfl | ⟨u, e, -⟩
        · unfold chooseBounds at hch
          rw [if_pos ⟨rfl, rfl, rfl⟩] at hch
          cases hch
        · cases e
    obtain ⟨u, rfl⟩ := Option.ne_none_iff_exists'.1 hsome
    have hab : Above rf mode t u := by
      rcases hub with e | ⟨u', e, -, h1⟩
      · exact (hk u e.symm).2
      · cases e; exact h1
    obtain ⟨h1, h2, h3⟩ := opt_groups (fark_cols hA) B (groups_lt hM hrf hl hg) hx
    refine ⟨A, b, groups, hA, hg, ⟨h1.nonneg, (fun u hu => nomatch hu), h1.ec, h1.rows⟩, h2, fun y hy => h3 y ?_⟩
    have hacc := (poly_iff ht hA none y).1 hy
    refine (poly_iff ht hA (some u) y).2 ⟨hacc.1, ?_⟩
    rintro u' ⟨⟩ j hj
    have := hab _ hacc.1 j (by simpa [certOf] using hj)
    rwa [certOf_getD _ _ hj] at this
  obtain ⟨A, b, groups, a1, a2, a3, a4, a5⟩ := key hs hk h hx
  obtain ⟨A', b', groups', b1, b2, b3, b4, b5⟩ := key hs' hk' h' hx'
  rw [a1] at b1
  cases b1
  rw [a2] at b2
  cases b2
  rw [a4, b4, le_antisymm (a5 _ b3) (b5 _ a3)]

/-- **C120.** The relaxed program is a relaxation: every solution of the exact program solves it too, with the same value.  In the mode
"max" without labels the exact program has one indicator for each state and the relaxed one for each state-action pair, see
`C120_relaxed_max`. -/
theorem C120_relaxed (hM : M.WF) (hrf : RF.make ρ M il tl fl false = .ok rf) (φ : K →+*o ℝ)
    (hs : ∀ lp, (lpSolver lp).Sound lp) (hk : ∀ u, known = some u → ∀ c ∈ u, 0 ≤ c) (hl : LabelsOK M labels)
    (hml : mode = .min ∨ labels ≠ none)
    (h : constructMILP rf.form lpSolver t mode labels false known be = .ok (some (m, ind)))
    (h' : constructMILP rf.form lpSolver t mode labels true known be' = .ok (some (m', ind'))) :
    ind = ind' ∧ (∀ x, m.objVal x = m'.objVal x) ∧ (∀ x, m.Feasible x → m'.Feasible x) ∧
    ∀ x, m'.Feasible x → (∀ e ∈ ind', x e.1 = 0 ∨ x e.1 = 1) → m.Feasible x := by
  obtain ⟨A, b, ub, groups, hA, hch, hg, -, B, -⟩ := construct_known hM hrf φ hs hk h
  obtain ⟨A', b', ub', groups', hA', hch', hg', -, B', -⟩ := construct_known hM hrf φ hs hk h'
  rw [hA] at hA'
  cases hA'
  rw [hch] at hch'
  cases hch'
  have hgg : groups = groups' := by
    have : groupsFromLabels rf.form mode labels (decide (mode = .max ∧ false = false)) =
        groupsFromLabels rf.form mode labels (decide (mode = .max ∧ true = false)) := by
      rcases hml with rfl | hml
      · rfl
      · cases labels with
        | none => exact absurd rfl hml
        | some ls => cases mode <;> rfl
    rw [this, hg'] at hg
    cases hg
    rfl
  subst hgg
  have hlt := groups_lt hM hrf hl hg
  refine ⟨by rw [B.ind, B'.ind], fun x => by rw [B.obj, B'.obj], fun x hx => ?_, fun x hx hb => ?_⟩
  · obtain ⟨h1, h2, h3⟩ := (B.feasible hlt x).1 hx
    exact (B'.feasible hlt x).2 ⟨h1, fun k hk => ⟨(h2 k hk).1, (fun e => nomatch e), (h2 k hk).2.2⟩, h3⟩
  · obtain ⟨h1, h2, h3⟩ := (B'.feasible hlt x).1 hx
    refine (B.feasible hlt x).2 ⟨h1, fun k hk => ⟨(h2 k hk).1, fun _ => ?_, (h2 k hk).2.2⟩, h3⟩
    exact hb _ ((ind_get B'.ind _ _).2 ⟨k, rfl, List.getElem?_eq_getElem hk⟩)

/-- the upper bound computed for systems with choices bounds the sum of all entries -/
theorem upper_sum {A : Mat K} {b : List K} (hb : A.rows ≤ b.length) (hs : ∀ lp, (lpSolver lp).Sound lp) (hsq : A.cols + 1 ≠ A.rows)
    {u : List K} (h : computeUpperBounds lpSolver A b = .ok (.optimal, u)) :
    ∃ c, u = List.replicate A.cols c ∧ ∀ x, InFark A b x → ∑ j ∈ range A.cols, x j ≤ c := by
  obtain ⟨lp, h1, h2, h3, h4, h5⟩ := upperBoundLP_ok hb
  unfold computeUpperBounds at h
  rw [h1] at h
  simp only [bind, Except.bind, if_neg hsq] at h
  split at h
  · cases h
  simp only [Except.ok.injEq, Prod.mk.injEq] at h
  obtain ⟨o1, o2, o3⟩ := (hs lp).optimal h.1
  refine ⟨_, h.2.symm, fun x hx => ?_⟩
  have := o1.2 x ((h5 x).2 ⟨hx.rows, hx.nonneg⟩)
  rw [h3] at this
  simp only [if_true] at this
  rw [o3, ← h4 x]
  exact this

/-- **C120.** In the mode "max" without labels the relaxed program has one indicator for each state-action pair.  Still, every solution
of the exact program can be turned into one of the relaxed program with the same certificate and a value that is not larger. -/
theorem C120_relaxed_max (hM : M.WF) (hrf : RF.make ρ M il tl fl false = .ok rf) (φ : K →+*o ℝ)
    (hs : ∀ lp, (lpSolver lp).Sound lp)
    (h : constructMILP rf.form lpSolver t .max none false none be = .ok (some (m, ind)))
    (h' : constructMILP rf.form lpSolver t .max none true none be' = .ok (some (m', ind'))) {x : Nat → K} (hx : m.Feasible x) :
    ∃ x', m'.Feasible x' ∧ certOf (rf.form.certSize .max) x' = certOf (rf.form.certSize .max) x ∧ m'.objVal x' ≤ m.objVal x := by
  classical
  have hok := rfok_built hM hrf
  obtain ⟨A, b, ub, groups, hA, hch, hg, hreal, B, -⟩ := construct_known hM hrf φ hs (fun u hu => by cases hu) h
  obtain ⟨A', b', ub', groups', hA', hch', hg', -, B', -⟩ := construct_known hM hrf φ hs (fun u hu => by cases hu) h'
  rw [hA] at hA'
  cases hA'
  rw [hch] at hch'
  cases hch'
  obtain ⟨u, rfl⟩ := Option.ne_none_iff_exists'.1 fun e => hreal ⟨rfl, rfl, e⟩
  have hlt := groups_lt hM hrf (labels := none) (fun ls e => by cases e) hg
  have hlt' := groups_lt hM hrf (labels := none) (fun ls e => by cases e) hg'
  have hC : rf.form.certSize .max = rf.C := rfl
  have hg1 : groups' = (List.range rf.C).map fun i => [i] := by
    have : groupsFromLabels rf.form .max none (decide (Mode.max = .max ∧ true = false)) = .ok ((List.range rf.C).map fun i => [i]) := rfl
    rw [this] at hg'
    cases hg'
    rfl
  have hlen' : groups'.length = rf.C := by rw [hg1]; simp
  have hget' : ∀ k g, groups'[k]? = some g → g = [k] ∧ k < rf.C := by
    intro k g hk
    have hk' := (List.getElem?_eq_some_iff.1 hk).1
    rw [hlen'] at hk'
    rw [hg1] at hk
    simp [hk'] at hk
    exact ⟨hk.symm, hk'⟩
  obtain ⟨c1, c2, -⟩ := rf_fark hM hrf (mode := .max) (t := t) A b hA
  have hcost := used_le_obj B hlt hx
  rw [used_eq_cost hok hg hlt] at hcost
  have hP := (B.poly x hx).1
  have hF : InFark A b x := ⟨fun j hj => hP.nonneg j (by rw [← c1]; exact hj), hP.rows⟩
  -- it suffices to give the indicators
  suffices hsuff : ∃ σ : Nat → K, (∀ k < rf.C, 0 ≤ σ k ∧ σ k ≤ 1 ∧ x k ≤ u.getD k 0 * σ k) ∧ ∑ k ∈ range rf.C, σ k ≤ m.objVal x by
    obtain ⟨σ, h1, h2⟩ := hsuff
    refine ⟨fun j => if j < rf.C then x j else σ (j - rf.C), (B'.feasible hlt' _).2 ⟨?_, fun k hk => ?_, fun k g hk w hw => ?_⟩, ?_, ?_⟩
    · exact hP.congr c1 fun j hj => if_pos hj
    · rw [hlen'] at hk
      simp only [hC, if_neg (show ¬ rf.C + k < rf.C by omega), Nat.add_sub_cancel_left]
      exact ⟨(h1 k hk).1, (fun e => nomatch e), fun _ => (h1 k hk).2.1⟩
    · obtain ⟨rfl, hk'⟩ := hget' k g hk
      obtain rfl : w = k := by simpa using hw
      simp only [hC, if_neg (show ¬ rf.C + w < rf.C by omega), Nat.add_sub_cancel_left, if_pos hk', ubAt]
      exact (h1 w hk').2.2
    · refine List.map_congr_left fun j hj => if_pos ?_
      exact List.mem_range.1 hj
    · rw [B'.obj, hlen']
      refine le_trans (le_of_eq (sum_congr rfl fun k _ => ?_)) h2
      simp only [hC, if_neg (show ¬ rf.C + k < rf.C by omega), Nat.add_sub_cancel_left]
  have hstate : ∀ i : Fin rf.C, ∃ s : Fin rf.N, rf.rowState i.1 = some s.1 := fun i => by
    obtain ⟨s, h1, h2⟩ := hok.exists_rowState i.2
    exact ⟨⟨s, h1⟩, h2⟩
  choose st hst using hstate
  by_cases hsq : A.cols + 1 = A.rows
  · -- every state has one action
    have hCN : rf.C = rf.N := by
      obtain ⟨-, e1, e2, -⟩ := farkY_rows hA
      omega
    have hinj : Function.Injective st := by
      refine ((Fintype.bijective_iff_surjective_and_card st).2 ⟨fun s => ?_, by simp [hCN]⟩).1
      obtain ⟨a, i, h1, h2⟩ := hok.exists_row s.2
      refine ⟨⟨i, h2⟩, Fin.ext ?_⟩
      have h3 := hst ⟨i, h2⟩
      rw [(hok.rowState_iff h2).2 ⟨a, h1⟩] at h3
      exact (Option.some.inj h3).symm
    refine ⟨fun k => if 0 < x k then 1 else 0, fun k hk => ⟨by dsimp only; split <;> simp, by dsimp only; split <;> simp, ?_⟩, ?_⟩
    · dsimp only
      split
      · rw [mul_one]; exact hP.upper u rfl k hk
      · rename_i hn
        rw [mul_zero]; exact not_lt.1 hn
    · refine le_trans ?_ hcost
      rw [← sum_filter, sum_const, nsmul_eq_mul, mul_one, Nat.cast_le]
      refine card_le_card_of_injOn (fun k => if hk : k < rf.C then (st ⟨k, hk⟩).1 else 0) (fun k hk => ?_) fun k hk k' hk' e => ?_
      · simp only [coe_filter, mem_range, Set.mem_ofPred_eq] at hk ⊢
        rw [dif_pos hk.1]
        exact ⟨(st ⟨k, hk.1⟩).2, k, hk.1, hst ⟨k, hk.1⟩, hk.2⟩
      · simp only [coe_filter, mem_range, Set.mem_ofPred_eq] at hk hk'
        simp only [dif_pos hk.1, dif_pos hk'.1] at e
        exact congrArg Fin.val (hinj (Fin.ext e))
  · -- the bound is the largest sum
    have hcomp : computeUpperBounds lpSolver A b = .ok (.optimal, u) := by
      unfold chooseBounds at hch
      rw [if_neg (fun e => nomatch e.1)] at hch
      split at hch
      · simp only [bind, Except.bind] at hch
        split at hch
        · cases hch
        rename_i p hp
        obtain ⟨stt, u'⟩ := p
        cases stt <;> simp only [Except.ok.injEq, Option.some.injEq, reduceCtorEq] at hch
        subst hch
        exact hp
      · cases hch
    obtain ⟨c, hu, hsum⟩ := upper_sum c2 hs hsq hcomp
    have hc := hsum x hF
    rw [c1, hC] at hc hu
    have hug : ∀ k < rf.C, u.getD k 0 = c := fun k hk => by rw [hu, List.getD_eq_getElem _ _ (by simpa using hk)]; simp
    have hnn : ∀ k < rf.C, 0 ≤ x k := fun k hk => hP.nonneg k hk
    have hle : ∀ k < rf.C, x k ≤ c := fun k hk => (single_le_sum (f := x) (fun j hj => hnn j (mem_range.1 hj)) (mem_range.2 hk)).trans hc
    by_cases hz : ∃ k < rf.C, 0 < x k
    · obtain ⟨k0, hk0, hp0⟩ := hz
      have hcp : 0 < c := hp0.trans_le (hle k0 hk0)
      refine ⟨fun k => x k / c, fun k hk => ⟨div_nonneg (hnn k hk) hcp.le, (div_le_one hcp).2 (hle k hk), ?_⟩, ?_⟩
      · rw [hug k hk, mul_div_cancel₀ _ hcp.ne']
      · rw [← sum_div]
        refine ((div_le_one hcp).2 hc).trans (le_trans ?_ hcost)
        have : 1 ≤ cost rf.sys none (selF rf .max x) := by
          refine card_pos.2 ⟨(st ⟨k0, hk0⟩).1, ?_⟩
          simp only [mem_filter, mem_range]
          exact ⟨(st ⟨k0, hk0⟩).2, k0, hk0, hst ⟨k0, hk0⟩, hp0⟩
        exact_mod_cast this
    · push Not at hz
      refine ⟨fun _ => 0, fun k hk => ⟨le_refl _, zero_le_one, by rw [mul_zero]; exact hz k hk⟩, ?_⟩
      rw [sum_const_zero]
      exact le_trans (Nat.cast_nonneg _) hcost

/-- the state to which an entry of a certificate belongs -/
def entryState (rf : RF K) (mode : Mode) (w : Nat) : Option Nat := if mode = .min then some w else rf.rowState w

theorem dict_groups {α : Type} [DecidableEq α] (d : Dict α (List Nat)) (hn : (Dict.keys d).Nodup) :
    List.Forall₂ (fun k g => ∀ w, w ∈ g ↔ Has d k w) (Dict.keys d) (d.map Prod.snd) := by
  unfold Dict.keys
  rw [List.forall₂_map_left_iff, List.forall₂_map_right_iff, List.forall₂_same]
  intro e he w
  unfold Has
  rw [(Dict.get?_iff_mem hn).2 (show (e.1, e.2) ∈ d from he)]
  rfl

theorem ind_snd {n : Nat} {groups : List (List Nat)} (hi : ind = (groups.zipIdx n).map fun e => (e.2, e.1)) : ind.map Prod.snd = groups := by
  rw [hi, List.map_map]
  exact List.zipIdx_map_fst _ _

theorem foldlM_keeps {α β : Type} {P : β → Prop} {f : β → α → Except Err β} (hf : ∀ b a b', P b → f b a = .ok b' → P b') (l : List α) :
    ∀ b b', P b → l.foldlM f b = .ok b' → P b' := by
  induction l with
  | nil => intro b b' h e; cases e; exact h
  | cons a l ih =>
    intro b b' h e
    rw [List.foldlM_cons] at e
    cases h1 : f b a with
    | error x => rw [h1] at e; cases e
    | ok b1 => rw [h1] at e; exact ih _ _ (hf _ _ _ h h1) e

/-- no set is empty -/
def AllFull {α : Type} [DecidableEq α] (d : Dict α (List Nat)) : Prop := ∀ k g, d.get? k = some g → g ≠ []

theorem allFull_addTo {α : Type} [DecidableEq α] {d : Dict α (List Nat)} (h : AllFull d) (k : α) (v : Nat) : AllFull (Model.IDict.addTo d k v) := by
  intro k' g hg
  have hm : Has (Model.IDict.addTo d k v) k v := (has_addTo d k k v v).2 (Or.inl ⟨rfl, rfl⟩)
  by_cases e : k' = k
  · subst e
    rintro rfl
    unfold Has at hm
    rw [hg] at hm
    simp at hm
  · unfold Model.IDict.addTo at hg
    rw [Dict.get?_set, if_neg (fun e' => e e'.symm)] at hg
    exact h k' g hg

theorem allFull_nil {α : Type} [DecidableEq α] : AllFull ([] : Dict α (List Nat)) := fun k g h => by cases h

theorem groupsByState_full {σ : Type} {f : Form σ K} {d : Dict Nat (List Nat)} (h : groupsByState f = .ok d) : AllFull d := by
  refine foldlM_keeps (fun b a b' hb e => ?_) _ _ _ allFull_nil h
  split at e
  · split at e
    · cases e
    · cases e; exact allFull_addTo hb _ _
  · cases e

theorem groupsMax_full {σ : Type} {f : Form σ K} {ls : List String} {d : Dict String (List Nat)} (h : groupsMax f ls = .ok d) : AllFull d := by
  refine foldlM_keeps (fun b a b' hb e => ?_) _ _ _ allFull_nil h
  simp only [bind, Except.bind] at e
  split at e
  · cases e
  refine foldlM_keeps (fun b a b' hb e => ?_) _ _ _ hb e
  split at e
  · cases e
  split at e
  · cases e
  refine foldlM_keeps (fun b a b' hb e => ?_) _ _ _ hb e
  split at e
  · cases e
  · cases e; exact allFull_addTo hb _ _

theorem groups_states (hok : RFOK rf) {groups : List (List Nat)}
    (hg : groupsFromLabels rf.form mode none (decide (mode = .max ∧ false = false)) = .ok groups) :
    ∃ keys : List Nat, keys.Nodup ∧ (∀ s, s ∈ keys ↔ s < rf.N) ∧
      List.Forall₂ (fun s g => ∀ w, w ∈ g ↔ w < rf.form.certSize mode ∧ entryState rf mode w = some s) keys groups := by
  cases mode with
  | min =>
    refine ⟨List.range rf.N, List.nodup_range, fun s => List.mem_range, ?_⟩
    have hgr : groups = (List.range rf.N).map fun i => [i] := by cases hg; rfl
    rw [hgr, List.forall₂_map_right_iff, List.forall₂_same]
    intro s hs w
    rw [List.mem_range] at hs
    simp only [List.mem_singleton, entryState, if_true, Option.some.injEq]
    refine ⟨?_, fun e => e.2⟩
    rintro rfl
    exact ⟨hs, rfl⟩
  | max =>
    cases hd : groupsByState rf.form with
    | error e =>
      simp only [groupsFromLabels, decide_true, if_true, and_self, hd] at hg
      cases hg
    | ok d =>
      simp only [groupsFromLabels, decide_true, if_true, and_self, hd] at hg
      obtain ⟨g1, g2⟩ := groupsByState_spec hd
      have hrow : ∀ s w, (w < rf.C ∧ ∃ a, invGet? rf.idx w = some (s, a)) ↔ w < rf.C ∧ rf.rowState w = some s := fun s w => by
        refine and_congr_right fun _ => ?_
        unfold RF.rowState
        rw [Option.map_eq_some_iff]
        exact ⟨fun ⟨a, e⟩ => ⟨_, e, rfl⟩, fun ⟨⟨s', a⟩, e, e'⟩ => ⟨a, by rw [e, ← e']⟩⟩
      have hHas : ∀ s w, Has d s w ↔ w < rf.C ∧ rf.rowState w = some s := fun s w => (g2 s w).trans (hrow s w)
      refine ⟨Dict.keys d, g1.1, fun s => ⟨fun hk => ?_, fun hk => ?_⟩, ?_⟩
      · obtain ⟨⟨s', g⟩, he, rfl⟩ := List.mem_map.1 hk
        obtain ⟨w, hw⟩ := List.exists_mem_of_ne_nil _ (groupsByState_full hd _ _ ((Dict.get?_iff_mem g1.1).2 he))
        have : Has d s' w := by
          unfold Has
          rw [(Dict.get?_iff_mem g1.1).2 he]
          exact hw
        obtain ⟨h1, h2⟩ := (hHas _ _).1 this
        obtain ⟨s'', h3, h4⟩ := hok.exists_rowState h1
        rw [h2] at h4
        cases h4
        exact h3
      · obtain ⟨a, i, h1, h2⟩ := hok.exists_row hk
        have : Has d s i := (hHas s i).2 ⟨h2, (hok.rowState_iff h2).2 ⟨a, h1⟩⟩
        by_contra hn
        unfold Has at this
        rw [Dict.get?_eq_none.2 hn] at this
        simp at this
      · cases hg
        exact (dict_groups d g1.1).imp fun s g e w => (e w).trans (hHas s w)

/-- **C120.** Without labels the exact program has one indicator for each state, and the entries that belong to it are those of the
state: the entry of the state in the mode "min", those of its actions in the mode "max". -/
theorem C120_indicators (hM : M.WF) (hrf : RF.make ρ M il tl fl false = .ok rf) (φ : K →+*o ℝ)
    (hs : ∀ lp, (lpSolver lp).Sound lp) (hk : ∀ u, known = some u → ∀ c ∈ u, 0 ≤ c)
    (h : constructMILP rf.form lpSolver t mode none false known be = .ok (some (m, ind))) :
    ∃ keys : List Nat, keys.Nodup ∧ (∀ s, s ∈ keys ↔ s < rf.N) ∧
      List.Forall₂ (fun s e => ∀ w, w ∈ e.2 ↔ w < rf.form.certSize mode ∧ entryState rf mode w = some s) keys ind := by
  obtain ⟨A, b, ub, groups, -, -, hg, -, B, -⟩ := construct_known hM hrf φ hs hk h
  obtain ⟨keys, h1, h2, h3⟩ := groups_states (rfok_built hM hrf) hg
  rw [← ind_snd B.ind, List.forall₂_map_right_iff] at h3
  exact ⟨keys, h1, h2, h3⟩

/-- **C120.** The relaxed program without labels has one indicator for each entry. -/
theorem C120_indicators_relaxed (hM : M.WF) (hrf : RF.make ρ M il tl fl false = .ok rf) (φ : K →+*o ℝ)
    (hs : ∀ lp, (lpSolver lp).Sound lp) (hk : ∀ u, known = some u → ∀ c ∈ u, 0 ≤ c)
    (h : constructMILP rf.form lpSolver t mode none true known be = .ok (some (m, ind))) :
    ind.map Prod.snd = (List.range (rf.form.certSize mode)).map fun i => [i] := by
  obtain ⟨A, b, ub, groups, -, -, hg, -, B, -⟩ := construct_known hM hrf φ hs hk h
  rw [ind_snd B.ind]
  cases mode <;> cases hg <;> rfl

theorem groups_labels (hok : RFOK rf) {ls : List String} (hl : LabelsOK rf.sys (some ls)) {b : Bool} {groups : List (List Nat)}
    (hg : groupsFromLabels rf.form mode (some ls) b = .ok groups) :
    ∃ keys : List String, keys.Nodup ∧ (∀ l ∈ keys, l ∈ ls) ∧ (∀ l ∈ ls, ∀ s ∈ rf.sys.labelled l, l ∈ keys) ∧
      List.Forall₂ (fun l g => ∀ w, w ∈ g ↔ w < rf.form.certSize mode ∧ ∃ s ∈ rf.sys.labelled l, entryState rf mode w = some s)
        keys groups := by
  obtain ⟨M, hsys⟩ : ∃ M, rf.sys = M := ⟨_, rfl⟩
  rw [hsys] at hl ⊢
  have hno : ∀ {d : Dict String (List Nat)} {l : String} {w : Nat}, Has d l w → l ∈ Dict.keys d := fun {d l w} hw => by
    by_contra hn
    unfold Has at hw
    rw [Dict.get?_eq_none.2 hn] at hw
    simp at hw
  cases mode with
  | min =>
    cases hd : groupsMin rf.form ls with
    | error e =>
      simp only [groupsFromLabels, hd] at hg
      cases hg
    | ok d =>
      simp only [groupsFromLabels, hd] at hg
      obtain ⟨g1, g2, g3⟩ := groupsMin_spec hd
      refine ⟨Dict.keys d, g1, fun l hl => (g2 l).1 hl, fun l hl s _ => (g2 l).2 hl, ?_⟩
      cases hg
      rw [List.forall₂_iff_get]
      have hf := List.forall₂_iff_get.1 (dict_groups d g1)
      refine ⟨hf.1, fun k h1 h2 w => ?_⟩
      rw [hf.2 k h1 h2 w, g3]
      have hk := (g2 _).1 (List.get_mem (Dict.keys d) ⟨k, h1⟩)
      simp only [entryState, if_true, Option.some.injEq, exists_eq_right', show rf.form.sys = M from hsys]
      refine ⟨fun hw => ⟨?_, hw.2⟩, fun hw => ⟨hk, hw.2⟩⟩
      have := (hl ls rfl _ hk).2 w hw.2
      rw [← hsys] at this
      exact this
  | max =>
    cases hd : groupsMax rf.form ls with
    | error e =>
      simp only [groupsFromLabels, hd] at hg
      cases hg
    | ok d =>
      simp only [groupsFromLabels, hd] at hg
      obtain ⟨g1, g2⟩ := groupsMax_spec hok.wf.keys hok.wf.vals hd
      have hHas : ∀ l w, Has d l w ↔ l ∈ ls ∧ w < rf.C ∧ ∃ s ∈ M.labelled l, rf.rowState w = some s := fun l w => by
        rw [g2 l w]
        refine and_congr_right fun hl' => ?_
        constructor
        · rintro ⟨h1, s, a, h2, h3⟩
          rw [show rf.form.sys = M from hsys] at h2
          have hsN : s < rf.N := by
            have := (hl ls rfl l hl').2 s h2
            rw [← hsys] at this
            exact this
          have hC := hok.row_lt hsN h1 h3
          exact ⟨hC, s, h2, (hok.rowState_iff hC).2 ⟨a, h3⟩⟩
        · rintro ⟨h1, s, h2, h3⟩
          obtain ⟨a, h4⟩ := (hok.rowState_iff h1).1 h3
          exact ⟨RFOK.lt_C h1, s, a, by rw [show rf.form.sys = M from hsys]; exact h2, h4⟩
      have hne : ∀ l ∈ Dict.keys d, l ∈ ls := fun l hk => by
        obtain ⟨⟨l', g⟩, he, rfl⟩ := List.mem_map.1 hk
        obtain ⟨w, hw⟩ := List.exists_mem_of_ne_nil _ (groupsMax_full hd _ _ ((Dict.get?_iff_mem g1.1).2 he))
        have : Has d l' w := by
          unfold Has
          rw [(Dict.get?_iff_mem g1.1).2 he]
          exact hw
        exact ((hHas _ _).1 this).1
      refine ⟨Dict.keys d, g1.1, hne, fun l hl' s hs => ?_, ?_⟩
      · have hsN : s < rf.N := by
          have := (hl ls rfl l hl').2 s hs
          rw [← hsys] at this
          exact this
        obtain ⟨a, i, h1, h2⟩ := hok.exists_row hsN
        exact hno ((hHas l i).2 ⟨hl', h2, s, hs, (hok.rowState_iff h2).2 ⟨a, h1⟩⟩)
      · cases hg
        rw [List.forall₂_iff_get]
        have hf := List.forall₂_iff_get.1 (dict_groups d g1.1)
        refine ⟨hf.1, fun k h1 h2 w => ?_⟩
        rw [hf.2 k h1 h2 w, hHas]
        exact ⟨fun e => e.2, fun e => ⟨hne _ (List.get_mem (Dict.keys d) ⟨k, h1⟩), e⟩⟩

/-- **C120.** With labels there is one indicator for each label, exact or relaxed, and the entries that belong to it are those of the
states with the label.  Labels without states may have no indicator. -/
theorem C120_indicators_labels (hM : M.WF) (hrf : RF.make ρ M il tl fl false = .ok rf) (φ : K →+*o ℝ)
    (hs : ∀ lp, (lpSolver lp).Sound lp) (hk : ∀ u, known = some u → ∀ c ∈ u, 0 ≤ c) {ls : List String} (hl : LabelsOK M (some ls))
    (h : constructMILP rf.form lpSolver t mode (some ls) relaxed known be = .ok (some (m, ind))) :
    ∃ keys : List String, keys.Nodup ∧ (∀ l ∈ keys, l ∈ ls) ∧ (∀ l ∈ ls, ∀ s ∈ M.labelled l, l ∈ keys) ∧
      List.Forall₂ (fun l e => ∀ w, w ∈ e.2 ↔ w < rf.form.certSize mode ∧ ∃ s ∈ M.labelled l, entryState rf mode w = some s) keys ind := by
  have hsys : rf.sys = M := (make_fields hrf).1
  obtain ⟨A, b, ub, groups, -, -, hg, -, B, -⟩ := construct_known hM hrf φ hs hk h
  obtain ⟨keys, h1, h2, h3, h4⟩ := groups_labels (rfok_built hM hrf) (by rw [hsys]; exact hl) hg
  rw [hsys] at h3
  rw [← ind_snd B.ind, List.forall₂_map_right_iff, hsys] at h4
  exact ⟨keys, h1, h2, h3, h4⟩

/-- **C120.** If `(None, None)` is returned, no vector is accepted. -/
theorem C120_none (hM : M.WF) (hrf : RF.make ρ M il tl fl false = .ok rf) (hs : ∀ lp, (lpSolver lp).Sound lp)
    (h : constructMILP rf.form lpSolver t mode labels relaxed known be = .ok none) : ∀ v, ¬ Accepted rf mode t v := by
  unfold constructMILP at h
  simp only [bind, Except.bind] at h
  split at h
  · cases h
  rename_i Ab hAb
  obtain ⟨A, b⟩ := Ab
  simp only at h
  split at h
  · cases h
  rename_i o ho
  cases o with
  | some ub =>
    simp only at h
    split at h <;> cases h
  | none =>
    obtain ⟨c1, c2, -⟩ := rf_fark hM hrf A b hAb
    unfold chooseBounds at ho
    split at ho
    · cases ho
    split at ho
    swap
    · cases ho
    simp only [bind, Except.bind] at ho
    split at ho
    · cases ho
    rename_i p hp
    obtain ⟨st, u⟩ := p
    cases st <;> simp only [Except.ok.injEq, reduceCtorEq] at ho
    obtain ⟨lp, h1, h2, h3, h4, h5⟩ := upperBoundLP_ok c2
    unfold computeUpperBounds at hp
    rw [h1] at hp
    simp only [bind, Except.bind] at hp
    intro v hv
    have hP := accepted_poly (show rf.farkConstraints t mode = .ok (A, b) from hAb) hv
    have hf : lp.Feasible fun j => v.getD j 0 := (h5 _).2 ⟨hP.rows, fun j hj => hP.nonneg j (by rw [← c1]; exact hj)⟩
    have : (lpSolver lp).status = .infeasible := by
      split at hp
      · cases hp
      split at hp <;> simp only [Except.ok.injEq, Prod.mk.injEq] at hp <;> exact hp.1
    exact (hs lp).infeasible this _ hf

/-- **C120.** If there are proper end components, given upper bounds - one for each entry - are used.  They make the exact program
available for the mode "max", for which no bounds can be computed then (without given bounds the call fails, `C39_not_ec_free`).
Missing is the case without proper end components, for which this is false, see `C120_known_false`. -/
theorem C120_known_partial (hM : M.WF) (hrf : RF.make ρ M il tl fl false = .ok rf) (hi : ∀ i ∈ M.labelled il, i ∉ M.labelled tl)
    (hl : LabelsOK M labels) (he : rf.isEcFree = false) {u : List K} (hu : u.length = rf.form.certSize mode)
    (hnn : ∀ c ∈ u, 0 ≤ c) :
    ∃ m ind, constructMILP rf.form lpSolver t mode labels relaxed (some u) .pulp = .ok (some (m, ind)) ∧
      ∀ x, m.Feasible x → ∀ j < rf.form.certSize mode, x j ≤ u.getD j 0 := by
  have hok := rfok_built hM hrf
  obtain ⟨e0, eil, -⟩ := make_fields hrf
  have hin : rf.initial < rf.N := by
    have : rf.initial ∈ M.labelled il := by
      have := (rflive_built hM hrf).initLab
      rw [e0, eil] at this
      exact ⟨_, this, by simp⟩
    exact initial_lt hM hrf this (hi _ this)
  obtain ⟨A, b, hA⟩ : ∃ A b, rf.farkConstraints t mode = .ok (A, b) := by
    cases mode with
    | min => simp only [RF.farkConstraints, RF.farkZ, if_pos hin]; exact ⟨_, _, rfl⟩
    | max => simp only [RF.farkConstraints, RF.farkY, if_pos hin]; exact ⟨_, _, rfl⟩
  obtain ⟨c1, c2, -⟩ := rf_fark hM hrf (mode := mode) (t := t) A b hA
  obtain ⟨groups, hg, hlt⟩ := groups_ok hok mode (labels := labels) (by rw [(make_fields hrf).1]; exact hl) (decide (mode = .max ∧ relaxed = false))
  obtain ⟨m, ind, hb⟩ := buildMILP_ok (f := rf.form) (be := .pulp) (ub := some u) (relaxed := relaxed) c1 c2 (fun g => nomatch g)
      (fun g => nomatch g.2.2) hg (by rintro u' ⟨⟩; exact hu.ge) hlt
  have hub : ∀ j < rf.form.certSize mode, 0 ≤ u.getD j 0 := fun j hj => by
    rw [List.getD_eq_getElem _ _ (by rw [hu]; exact hj)]; exact hnn _ (List.getElem_mem _)
  refine ⟨m, ind, ?_, fun x hx => ?_⟩
  swap
  · obtain ⟨_, -, -, B⟩ := built c1 (by rintro u' ⟨⟩; exact hub) hb
    exact (B.poly x hx).1.upper u rfl
  have hbd : chooseBounds rf.form lpSolver mode A b (some u) = .ok (some (some u)) := by
    unfold chooseBounds
    rw [if_neg (fun e => nomatch e.2.2), if_neg (by rw [show rf.form.isEcFree = false from he]; simp)]
  unfold constructMILP
  rw [show rf.form.fark t mode = .ok (A, b) from hA]
  simp only [bind, Except.bind, hbd, hb]

/-- **C120.** Without given bounds the call returns a program or, if no vector is accepted and the mode is "max", `(None, None)`,
unless the mode is "max", the exact program is wanted and there are proper end components. -/
theorem C120_computed (hM : M.WF) (hrf : RF.make ρ M il tl fl false = .ok rf) (φ : K →+*o ℝ) (hs : ∀ lp, (lpSolver lp).Exact lp)
    (hi : ∀ i ∈ M.labelled il, i ∉ M.labelled tl) (hl : LabelsOK M labels)
    (he : mode = .max → relaxed = false → rf.isEcFree = true) :
    (∃ m ind, constructMILP rf.form lpSolver t mode labels relaxed none .pulp = .ok (some (m, ind))) ∨
    (mode = .max ∧ (∀ v, ¬ Accepted rf mode t v) ∧ constructMILP rf.form lpSolver t mode labels relaxed none .pulp = .ok none) := by
  have hok := rfok_built hM hrf
  obtain ⟨e0, eil, -⟩ := make_fields hrf
  have hin : rf.initial < rf.N := by
    have : rf.initial ∈ M.labelled il := by
      have := (rflive_built hM hrf).initLab
      rw [e0, eil] at this
      exact ⟨_, this, by simp⟩
    exact initial_lt hM hrf this (hi _ this)
  obtain ⟨A, b, hA⟩ : ∃ A b, rf.farkConstraints t mode = .ok (A, b) := by
    cases mode with
    | min => simp only [RF.farkConstraints, RF.farkZ, if_pos hin]; exact ⟨_, _, rfl⟩
    | max => simp only [RF.farkConstraints, RF.farkY, if_pos hin]; exact ⟨_, _, rfl⟩
  obtain ⟨c1, c2, c3⟩ := rf_fark hM hrf (mode := mode) (t := t) A b hA
  obtain ⟨groups, hg, hlt⟩ := groups_ok hok mode (labels := labels) (by rw [e0]; exact hl) (decide (mode = .max ∧ relaxed = false))
  have hbd : (∃ ub, chooseBounds rf.form lpSolver mode A b none = .ok (some ub) ∧ (∀ u, ub = some u → rf.form.certSize mode ≤ u.length) ∧
      ¬ (relaxed = false ∧ mode = .max ∧ ub = none)) ∨ mode = .max ∧ chooseBounds rf.form lpSolver mode A b none = .ok none := by
    unfold chooseBounds
    cases mode with
    | min => exact Or.inl ⟨_, if_pos ⟨rfl, rfl, rfl⟩, (by rintro u ⟨⟩; simp), fun e => nomatch e.2.1⟩
    | max =>
      rw [if_neg (fun e => nomatch e.1)]
      by_cases hec : rf.isEcFree = true
      · rw [if_pos (show rf.form.isEcFree = true from hec)]
        rcases C37_computed hM hrf φ hec hA hs with ⟨-, u, hu⟩ | ⟨-, u, hu⟩
        · refine Or.inl ⟨some u, by rw [hu]; rfl, ?_, fun e => nomatch e.2.2⟩
          rintro u' ⟨⟩
          rw [(C37_bounds c2 c3 (fun lp => (hs lp).toSound) hu).1, c1]
        · exact Or.inr ⟨rfl, by rw [hu]; rfl⟩
      · rw [if_neg (show ¬ rf.form.isEcFree = true from hec)]
        exact Or.inl ⟨none, rfl, (fun u hu => by cases hu), fun e => hec (he rfl e.1)⟩
  rcases hbd with ⟨ub, hbd, hu, hreal⟩ | ⟨hm, hbd⟩
  · left
    obtain ⟨m, ind, hb⟩ := buildMILP_ok (f := rf.form) (be := .pulp) (ub := ub) (relaxed := relaxed) c1 c2 (fun g => nomatch g)
        hreal hg hu hlt
    refine ⟨m, ind, ?_⟩
    unfold constructMILP
    rw [show rf.form.fark t mode = .ok (A, b) from hA]
    simp only [bind, Except.bind, hbd, hb]
  · right
    have h : constructMILP rf.form lpSolver t mode labels relaxed none .pulp = .ok none := by
      unfold constructMILP
      rw [show rf.form.fark t mode = .ok (A, b) from hA]
      simp only [bind, Except.bind, hbd]
    exact ⟨hm, C120_none hM hrf (fun lp => (hs lp).toSound) h, h⟩

/-- **C120** is false for the bound 1 of the relaxed indicators: if there are proper end components and no bounds are given, the
indicators of the relaxed program for the mode "max" have no upper bound.  Every solution has variants with the same certificate in which
all indicators are larger than any given number. -/
theorem C120_relaxed_bound_false (hM : M.WF) (hrf : RF.make ρ M il tl fl false = .ok rf) (φ : K →+*o ℝ)
    (hs : ∀ lp, (lpSolver lp).Sound lp) (hl : LabelsOK M labels) (he : rf.isEcFree = false)
    (h : constructMILP rf.form lpSolver t .max labels true none be = .ok (some (m, ind))) {x : Nat → K} (hx : m.Feasible x) (B : K) :
    ∃ x', m.Feasible x' ∧ certOf (rf.form.certSize .max) x' = certOf (rf.form.certSize .max) x ∧ ∀ e ∈ ind, B ≤ x' e.1 := by
  obtain ⟨A, b, ub, groups, hA, hch, hg, -, Bt, -⟩ := construct_known hM hrf φ hs (fun u hu => by cases hu) h
  have hlt := groups_lt hM hrf hl hg
  have hub : ub = none := by
    unfold chooseBounds at hch
    rw [if_neg (fun e => nomatch e.1), if_neg (by rw [show rf.form.isEcFree = false from he]; simp)] at hch
    cases hch
    rfl
  subst hub
  obtain ⟨h1, h2, h3⟩ := (Bt.feasible hlt x).1 hx
  have hn : ∀ k, ¬ rf.form.certSize .max + k < rf.form.certSize .max := fun k => by omega
  refine ⟨fun j => if j < rf.form.certSize .max then x j else x j + |B|, (Bt.feasible hlt _).2 ⟨?_, fun k hk => ?_, fun k g hk w hw => ?_⟩, ?_, ?_⟩
  · exact h1.congr (fark_cols hA) fun j hj => if_pos hj
  · simp only [if_neg (hn k)]
    exact ⟨add_nonneg (h2 k hk).1 (abs_nonneg B), (fun e => nomatch e), fun e => absurd rfl e⟩
  · simp only [if_neg (hn k), if_pos (hlt g (List.mem_of_getElem? hk) w hw)]
    have := h3 k g hk w hw
    simp only [ubAt, one_mul] at this ⊢
    exact this.trans (le_add_of_nonneg_right (abs_nonneg B))
  · exact List.map_congr_left fun j hj => if_pos (List.mem_range.1 hj)
  · rintro ⟨v, g⟩ hv
    obtain ⟨k, rfl, hk⟩ := (ind_get Bt.ind v g).1 hv
    simp only [if_neg (hn k)]
    exact (le_abs_self B).trans (le_add_of_nonneg_left (h2 k (List.getElem?_eq_some_iff.1 hk).1).1)

/-- **C120** is false for `known_upper_bounds`: if there are no proper end components, the given bounds are not used.  They are computed
anyway and the result is the same for all given vectors, of whatever length; in the mode "max" it is also that without the argument. -/
theorem C120_known_false (hM : M.WF) (hrf : RF.make ρ M il tl fl false = .ok rf) (φ : K →+*o ℝ) (he : rf.isEcFree = true)
    (hs : ∀ lp, (lpSolver lp).Exact lp) (u u' : List K) :
    constructMILP rf.form lpSolver t mode labels relaxed (some u) be = constructMILP rf.form lpSolver t mode labels relaxed (some u') be ∧
    (mode = .max → constructMILP rf.form lpSolver t mode labels relaxed (some u) be =
      constructMILP rf.form lpSolver t mode labels relaxed none be) := by
  unfold constructMILP
  cases hA : rf.form.fark t mode with
  | error e => exact ⟨rfl, fun _ => rfl⟩
  | ok Ab =>
    obtain ⟨A, b⟩ := Ab
    have key : ∃ o, (∀ u : List K, chooseBounds rf.form lpSolver mode A b (some u) = o) ∧
        (mode = .max → chooseBounds rf.form lpSolver mode A b none = o) := by
      unfold chooseBounds
      rcases C37_computed hM hrf φ he (show rf.farkConstraints t mode = .ok (A, b) from hA) hs with ⟨-, w, hw⟩ | ⟨-, w, hw⟩
      · refine ⟨.ok (some (some w)), fun u => ?_, fun hm => ?_⟩
        · rw [if_neg (fun e => nomatch e.2.2), if_pos (show rf.form.isEcFree = true from he), hw]; rfl
        · subst hm
          rw [if_neg (fun e => nomatch e.1), if_pos (show rf.form.isEcFree = true from he), hw]; rfl
      · refine ⟨.ok none, fun u => ?_, fun hm => ?_⟩
        · rw [if_neg (fun e => nomatch e.2.2), if_pos (show rf.form.isEcFree = true from he), hw]; rfl
        · subst hm
          rw [if_neg (fun e => nomatch e.1), if_pos (show rf.form.isEcFree = true from he), hw]; rfl
    obtain ⟨o, h1, h2⟩ := key
    refine ⟨?_, fun hm => ?_⟩
    · simp only [bind, Except.bind, h1]
    · simp only [bind, Except.bind, h1, h2 hm]

end
/-! ### the hypotheses are met -/

theorem exactEx_accepted : ∃ rf, RF.make exRnd exactEx "init" "goal" "fail" false = .ok rf ∧ rf.isEcFree = true ∧
    Accepted rf .min (1/4) [1/2] ∧ Accepted rf .max (1/4) [1] := by
  obtain ⟨rf, h1, h2⟩ := exists_of_ok_and (x := RF.make exRnd exactEx "init" "goal" "fail" false)
    (p := fun rf : RF ℚ => rf.isEcFree && decide (check rf .min .ge (1/4) [1/2] 0 = .ok true) &&
      decide (check rf .max .ge (1/4) [1] 0 = .ok true)) (by decide +kernel)
  simp only [Bool.and_eq_true, decide_eq_true_eq] at h2
  exact ⟨rf, h1, h2.1.1, ⟨h2.1.2, by norm_num⟩, h2.2, by norm_num⟩

theorem exactEx_labels : LabelsOK exactEx (some ["a"]) := by
  rintro ls ⟨⟩ l hl
  obtain rfl := List.mem_singleton.1 hl
  have e1 : exactEx.statesByLabel "a" = .ok [0] := by decide +kernel
  refine ⟨⟨_, e1⟩, ?_⟩
  rintro s ⟨ss, h1, h2⟩
  rw [e1] at h1; cases h1
  rw [List.mem_singleton] at h2
  subst h2
  decide

/-- both programs exist in both modes, with and without labels, and have solutions -/
example (mode : Mode) (relaxed : Bool) : ∃ rf lpSolver, RF.make exRnd exactEx "init" "goal" "fail" false = .ok rf ∧ rf.isEcFree = true ∧
    (∀ lp, (lpSolver lp : Answer ℚ).Exact lp) ∧ LabelsOK exactEx none ∧ LabelsOK exactEx (some ["a"]) ∧
    ∀ labels, LabelsOK exactEx labels → ∃ m ind, constructMILP rf.form lpSolver (1/4) mode labels relaxed none .pulp = .ok (some (m, ind)) ∧
      ∃ x, m.Feasible x := by
  obtain ⟨rf, hrf, he, h1, h2⟩ := exactEx_accepted
  obtain ⟨solver, hs⟩ := exists_exact ℚ
  obtain ⟨v, hv⟩ : ∃ v, Accepted rf mode (1/4) v := by cases mode <;> exact ⟨_, by assumption⟩
  refine ⟨rf, solver, hrf, he, hs, (fun ls e => by cases e), exactEx_labels, fun labels hl => ?_⟩
  rcases C120_computed (t := 1/4) (mode := mode) (relaxed := relaxed) exactEx_wf hrf ratR hs exactEx_init hl (fun _ _ => he) with ⟨m, ind, h⟩ | ⟨-, h, -⟩
  · obtain ⟨x, hx, -⟩ := (C120_certificates exactEx_wf hrf ratR (by norm_num) (fun lp => (hs lp).toSound) (fun u hu => by cases hu) hl h v).2 hv
    exact ⟨m, ind, h, x, hx⟩
  · exact absurd hv (h v)

/-- given bounds that no accepted vector exceeds: the computed ones are such, and so are ones in the mode "min" -/
example : ∃ rf, RF.make exRnd exactEx "init" "goal" "fail" false = .ok rf ∧ Above rf .min (1/4) [1] := by
  obtain ⟨rf, hrf, -⟩ := exactEx_accepted
  refine ⟨rf, hrf, fun v hv j hj => ?_⟩
  have h1 := accepted_le_one exactEx_wf hrf ratR hv j hj
  have hN : rf.form.certSize .min = 1 := by
    have : rf.sys.N = 3 := by rw [(make_fields hrf).1]; rfl
    show rf.sys.N - 2 = 1
    omega
  have hl := accepted_length hv
  rw [hN] at hl
  obtain rfl : j = 0 := by omega
  exact h1

theorem exSys_init : ∀ i ∈ (exSys ℚ).labelled "init", i ∉ (exSys ℚ).labelled "goal" := by
  rintro i ⟨ss, h1, h2⟩ ⟨ss', h3, h4⟩
  have e1 : (exSys ℚ).statesByLabel "init" = .ok [0] := by decide +kernel
  have e2 : (exSys ℚ).statesByLabel "goal" = .ok [2] := by decide +kernel
  rw [e1] at h1; cases h1
  rw [e2] at h3; cases h3
  simp only [List.mem_singleton] at h2 h4
  omega

/-- a system with a proper end component, with given bounds: the exact program for the maximum is built -/
example (lpSolver : Milp ℚ → Answer ℚ) : ∃ rf, RF.make exRnd (exSys ℚ) "init" "goal" "fail" false = .ok rf ∧ rf.isEcFree = false ∧
    ∃ m ind, constructMILP rf.form lpSolver (1/4) .max none false (some (List.replicate (rf.form.certSize .max) 10)) .pulp = .ok (some (m, ind)) ∧
      ∀ x, m.Feasible x → ∀ j < rf.form.certSize .max, x j ≤ (List.replicate (rf.form.certSize .max) (10 : ℚ)).getD j 0 := by
  obtain ⟨rf, h1, h2⟩ := exists_of_ok_and (x := RF.make exRnd (exSys ℚ) "init" "goal" "fail" false)
    (p := fun rf => !rf.isEcFree) (by decide +kernel)
  refine ⟨rf, h1, by simpa using h2, C120_known_partial (exSys_wf ℚ) h1 exSys_init (fun ls e => by cases e) (by simpa using h2) (by simp) (by simp)⟩

/-- the relaxed program without bounds -/
example : ∃ rf lpSolver, RF.make exRnd (exSys ℚ) "init" "goal" "fail" false = .ok rf ∧ rf.isEcFree = false ∧
    (∀ lp, (lpSolver lp : Answer ℚ).Exact lp) ∧
    ∃ m ind, constructMILP rf.form lpSolver 0 .max none true none .pulp = .ok (some (m, ind)) ∧ ∃ x, m.Feasible x := by
  obtain ⟨rf, h1, h2⟩ := exists_of_ok_and (x := RF.make exRnd (exSys ℚ) "init" "goal" "fail" false)
    (p := fun rf => !rf.isEcFree && decide (check rf .max .ge 0 (List.replicate rf.C 0) 0 = .ok true)) (by decide +kernel)
  simp only [Bool.and_eq_true, decide_eq_true_eq] at h2
  have hv : Accepted rf .max 0 (List.replicate rf.C 0) := ⟨h2.2, by simp⟩
  obtain ⟨solver, hs⟩ := exists_exact ℚ
  refine ⟨rf, solver, h1, by simpa using h2.1, hs, ?_⟩
  have hl : LabelsOK (exSys ℚ) none := fun ls e => by cases e
  rcases C120_computed (t := 0) (mode := .max) (relaxed := true) (exSys_wf ℚ) h1 ratR hs exSys_init hl (fun _ e => nomatch e) with
    ⟨m, ind, h⟩ | ⟨-, h, -⟩
  · obtain ⟨x, hx, -⟩ := (C120_certificates (exSys_wf ℚ) h1 ratR (by norm_num) (fun lp => (hs lp).toSound) (fun u hu => by cases hu) hl h _).2 hv
    exact ⟨m, ind, h, x, hx⟩
  · exact absurd hv (h _)

end Verif.Props
