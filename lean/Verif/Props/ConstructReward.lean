import Verif.Props.Construct
import Verif.Props.RewardProblem
import Verif.Props.RewCert
/-!
# C120: `construct_MILP` for reward forms
-/
set_option linter.unusedSectionVars false

namespace Verif.Props
open Verif.Model Verif.Spec Verif.Proofs Verif.Theory Verif.Proofs.IDict Finset

section
variable {K : Type} [Field K] [LinearOrder K] [IsStrictOrderedRing K] {M : Sys K} {ρ ρ' : Graph.Rnd} {il tl : String} {res : RRF.Result K}
  {t : K} {mode : Mode} {lpSolver lpSolver' : Milp K → Answer K} {labels : Option (List String)} {relaxed : Bool} {be be' : Backend}
  {known known' : Option (List K)} {m m' : Milp K} {ind ind' : List (Nat × List Nat)}

/-- the expected reward that a certificate promises -/
def promised (x : RRF K) (mode : Mode) (v : List K) : K :=
  if mode = .min then v.getD x.rf.initial 0 else ∑ i ∈ range x.rf.C, x.rew.getD i 0 * v.getD i 0

/-- a vector without negative entries that `check_farkas_certificate` accepts for the threshold 0 and that promises at least `t`
(`check_farkas_certificate` refuses thresholds above 1) -/
def RAccepted (x : RRF K) (mode : Mode) (t : K) (v : List K) : Prop :=
  x.check mode .ge 0 v 0 = .ok true ∧ (∀ c ∈ v, 0 ≤ c) ∧ t ≤ promised x mode v

/-- for thresholds up to 1 these are the vectors that are accepted for `t` -/
theorem raccepted_iff (hlr : res.rrf.rew.length = res.rrf.rf.C) (ht : 0 ≤ t ∧ t ≤ 1) (v : List K) :
    RAccepted res.rrf mode t v ↔ res.rrf.check mode .ge t v 0 = .ok true ∧ ∀ c ∈ v, 0 ≤ c := by
  unfold RAccepted promised
  cases mode with
  | min =>
    have h1 := rcheck_min_ge (x := res.rrf) (strict := false) (t := t) (tol := 0) (v := v)
    have h2 := rcheck_min_ge (x := res.rrf) (strict := false) (t := 0) (tol := 0) (v := v)
    simp only [Bool.false_eq_true, if_false, sub_zero, false_imp_iff, and_true, le_refl, zero_le_one, true_and] at h1 h2
    rw [h1, h2]
    simp only [if_true]
    constructor
    · rintro ⟨⟨a, b, c, d⟩, e, f⟩
      exact ⟨⟨ht, a, b, c, f⟩, e⟩
    · rintro ⟨⟨-, a, b, c, f⟩, e⟩
      exact ⟨⟨a, b, c, ht.1.trans f⟩, e, f⟩
  | max =>
    have h1 := rcheck_max_ge (x := res.rrf) (strict := false) (t := t) (tol := 0) (v := v) hlr
    have h2 := rcheck_max_ge (x := res.rrf) (strict := false) (t := 0) (tol := 0) (v := v) hlr
    simp only [Bool.false_eq_true, if_false, sub_zero, false_imp_iff, and_true, le_refl, zero_le_one, true_and] at h1 h2
    rw [h1, h2]
    simp only [reduceCtorEq, if_false]
    change _ ∧ _ ∧ t ≤ rgain _ _ ↔ _
    constructor
    · rintro ⟨⟨a, b, c, d⟩, e, f⟩
      exact ⟨⟨ht, a, b, c, f⟩, e⟩
    · rintro ⟨⟨-, a, b, c, f⟩, e⟩
      exact ⟨⟨a, b, c, ht.1.trans f⟩, e, f⟩

/-- no accepted vector has a larger entry -/
def RAbove (x : RRF K) (mode : Mode) (t : K) (u : List K) : Prop :=
  ∀ v, RAccepted x mode t v → ∀ j < v.length, v.getD j 0 ≤ u.getD j 0

theorem raccepted_length (bt : RewBuilt M il tl res) {v : List K} (h : RAccepted res.rrf mode t v) : v.length = res.rrf.form.certSize mode := by
  cases mode with
  | min => exact ((rcheck_min_ge (strict := false)).1 h.1).2.2.1
  | max => exact ((rcheck_max_ge (strict := false) bt.ok.len).1 h.1).2.2.1

/-- the points of the polytope are the accepted vectors -/
theorem rfark_iff (bt : RewBuilt M il tl res) (ht : 0 ≤ t) {A : Mat K} {b : List K} (hA : res.rrf.form.fark t mode = .ok (A, b)) {v : List K}
    (hl : v.length = res.rrf.form.certSize mode) : InFark A b (fun j => v.getD j 0) ↔ RAccepted res.rrf mode t v := by
  have hnn : (∀ j < res.rrf.form.certSize mode, 0 ≤ v.getD j 0) ↔ ∀ c ∈ v, 0 ≤ c := by
    constructor
    · intro h c hc
      obtain ⟨j, hj, rfl⟩ := List.getElem_of_mem hc
      have := h j (by omega)
      rwa [List.getD_eq_getElem _ _ hj] at this
    · intro h j hj
      rw [List.getD_eq_getElem _ _ (by omega)]
      exact h _ (List.getElem_mem _)
  cases mode with
  | min =>
    obtain ⟨-, e1, e2, -, e3⟩ := rfarkZ_rows hA
    obtain ⟨e4, e5, e6⟩ := e3 fun j => v.getD j 0
    have h2 := rcheck_min_ge (x := res.rrf) (strict := false) (t := 0) (tol := 0) (v := v)
    simp only [Bool.false_eq_true, if_false, sub_zero, false_imp_iff, and_true, le_refl, zero_le_one, true_and] at h2
    unfold RAccepted promised
    rw [h2, ← hnn]
    simp only [if_true]
    constructor
    · rintro ⟨h3, h4⟩
      have h5 := h4 res.rrf.rf.C (by omega)
      rw [e5, e6, neg_le_neg_iff] at h5
      refine ⟨⟨bt.init, hl, fun i hi => ?_, ht.trans h5⟩, fun j hj => h3 j (by rw [e2]; exact hj), h5⟩
      have h6 := h4 i (by omega)
      rwa [(e4 i hi).1, (e4 i hi).2] at h6
    · rintro ⟨⟨-, -, h3, -⟩, h4, h5⟩
      refine ⟨fun j hj => h4 j (by rw [e2] at hj; exact hj), fun i hi => ?_⟩
      rw [e1] at hi
      rcases Nat.lt_succ_iff_lt_or_eq.1 hi with hi | rfl
      · rw [(e4 i hi).1, (e4 i hi).2]
        exact h3 i hi
      · rw [e5, e6, neg_le_neg_iff]
        exact h5
  | max =>
    obtain ⟨-, e1, e2, -, e3⟩ := rfarkY_rows hA
    obtain ⟨e4, e5, e6⟩ := e3 fun j => v.getD j 0
    have h2 := rcheck_max_ge (x := res.rrf) (strict := false) (t := 0) (tol := 0) (v := v) bt.ok.len
    simp only [Bool.false_eq_true, if_false, sub_zero, false_imp_iff, and_true, le_refl, zero_le_one, true_and] at h2
    unfold RAccepted promised
    rw [h2, ← hnn]
    simp only [reduceCtorEq, if_false]
    change _ ↔ _ ∧ _ ∧ t ≤ rgain _ _
    constructor
    · rintro ⟨h3, h4⟩
      have h5 := h4 res.rrf.rf.N (by omega)
      rw [e5, e6, neg_le_neg_iff] at h5
      refine ⟨⟨bt.init, hl, fun i hi => ?_, ht.trans h5⟩, fun j hj => h3 j (by rw [e2]; exact hj), h5⟩
      have h6 := h4 i (by omega)
      rwa [(e4 i hi).1, (e4 i hi).2] at h6
    · rintro ⟨⟨-, -, h3, -⟩, h4, h5⟩
      refine ⟨fun j hj => h4 j (by rw [e2] at hj; exact hj), fun i hi => ?_⟩
      rw [e1] at hi
      rcases Nat.lt_succ_iff_lt_or_eq.1 hi with hi | rfl
      · rw [(e4 i hi).1, (e4 i hi).2]
        exact h3 i hi
      · rw [e5, e6, neg_le_neg_iff]
        exact h5

theorem rpoly_iff (bt : RewBuilt M il tl res) (ht : 0 ≤ t) {A : Mat K} {b : List K} (hA : res.rrf.form.fark t mode = .ok (A, b))
    (ub : Option (List K)) (x : Nat → K) :
    InPoly res.rrf.form mode A b ub x ↔ RAccepted res.rrf mode t (certOf (res.rrf.form.certSize mode) x) ∧
      ∀ u, ub = some u → ∀ j < res.rrf.form.certSize mode, x j ≤ u.getD j 0 := by
  obtain ⟨c1, -, -⟩ := rrf_fark bt.ok hA
  rw [← rfark_iff bt ht hA (by simp [certOf])]
  constructor
  · intro h
    have := h.congr (y := fun j => (certOf (res.rrf.form.certSize mode) x).getD j 0) c1 fun j hj => certOf_getD _ _ hj
    exact ⟨⟨fun j hj => this.nonneg j (by rw [← c1]; exact hj), this.rows⟩, h.upper⟩
  · rintro ⟨h1, h2⟩
    have : InPoly res.rrf.form mode A b none fun j => (certOf (res.rrf.form.certSize mode) x).getD j 0 :=
      ⟨fun j hj => h1.nonneg j (by rw [c1]; exact hj), (fun u hu => nomatch hu), (fun _ _ _ g => nomatch g), h1.rows⟩
    have h3 := this.congr (y := x) c1 fun j hj => (certOf_getD _ _ hj).symm
    exact ⟨h3.nonneg, h2, h3.ec, h3.rows⟩

/-- what the call does -/
theorem rconstruct (bt : RewBuilt M il tl res) (ht : 0 ≤ t) (hs : ∀ lp, (lpSolver lp).Sound lp)
    (hk : ∀ u, known = some u → ∀ c ∈ u, 0 ≤ c)
    (h : constructMILP res.rrf.form lpSolver t mode labels relaxed known be = .ok (some (m, ind))) :
    ∃ A b ub groups, res.rrf.form.fark t mode = .ok (A, b) ∧ chooseBounds res.rrf.form lpSolver mode A b known = .ok (some ub) ∧
      groupsFromLabels res.rrf.form mode labels (decide (mode = .max ∧ relaxed = false)) = .ok groups ∧
      ¬ (relaxed = false ∧ mode = .max ∧ ub = none) ∧
      Proofs.Built res.rrf.form mode relaxed A b ub groups m ind ∧
      (ub = known ∨ ∃ u, ub = some u ∧ u.length = res.rrf.form.certSize mode ∧ RAbove res.rrf mode t u) ∧
      (Decides res.rrf t mode lpSolver → ∃ u, ub = some u ∧ u.length = res.rrf.form.certSize mode ∧ RAbove res.rrf mode t u) := by
  unfold constructMILP at h
  simp only [bind, Except.bind] at h
  split at h
  · cases h
  rename_i Ab hAb
  obtain ⟨A, b⟩ := Ab
  simp only at h
  split at h
  · cases h
  rename_i o ho
  cases o with
  | none => cases h
  | some ub =>
    simp only at h
    split at h
    · cases h
    rename_i r hr
    cases h
    obtain ⟨c1, c2, c3⟩ := rrf_fark bt.ok hAb
    have hkn : ∀ u, known = some u → ∀ j, 0 ≤ u.getD j 0 := fun u hu j => by
      by_cases hj : j < u.length
      · rw [List.getD_eq_getElem _ _ hj]; exact hk u hu _ (List.getElem_mem _)
      · simp [List.getD, List.getElem?_eq_none (not_lt.1 hj)]
    have ho' := ho
    unfold chooseBounds at ho
    rw [if_neg (fun e => nomatch e.2.1), if_pos (show res.rrf.form.isEcFree = true from rfl)] at ho
    simp only [bind, Except.bind] at ho
    split at ho
    · cases ho
    rename_i p hp
    obtain ⟨st, u'⟩ := p
    have hdec : Decides res.rrf t mode lpSolver → st ≠ .undefined ∧ st ≠ .notsolved ∧ st ≠ .unbounded := by
      intro hd
      unfold computeUpperBounds at hp
      simp only [bind, Except.bind] at hp
      split at hp
      · cases hp
      rename_i lp hlp
      obtain ⟨n1, n2⟩ := hd.2 A b lp hAb hlp
      split at hp
      · cases hp
      · rename_i hun
        split at hp <;>
        · simp only [Except.ok.injEq, Prod.mk.injEq] at hp
          rw [← hp.1]
          exact ⟨n1, n2, hun⟩
    have hub : (∀ u, ub = some u → ∀ j < res.rrf.form.certSize mode, 0 ≤ u.getD j 0) ∧
        (ub = known ∨ ∃ u, ub = some u ∧ u.length = res.rrf.form.certSize mode ∧ RAbove res.rrf mode t u) ∧
        (Decides res.rrf t mode lpSolver → ∃ u, ub = some u ∧ u.length = res.rrf.form.certSize mode ∧ RAbove res.rrf mode t u) := by
      have hother : st ≠ .optimal → ub = known → ¬ Decides res.rrf t mode lpSolver →
          (∀ u, ub = some u → ∀ j < res.rrf.form.certSize mode, 0 ≤ u.getD j 0) ∧
          (ub = known ∨ ∃ u, ub = some u ∧ u.length = res.rrf.form.certSize mode ∧ RAbove res.rrf mode t u) ∧
          (Decides res.rrf t mode lpSolver → ∃ u, ub = some u ∧ u.length = res.rrf.form.certSize mode ∧ RAbove res.rrf mode t u) :=
        fun _ e hd => ⟨fun u hu j _ => hkn u (by rw [← e, hu]) j, Or.inl e, fun g => absurd g hd⟩
      cases st <;> simp only [Except.ok.injEq, Option.some.injEq, reduceCtorEq] at ho
      · subst ho
        obtain ⟨g1, ⟨x, hx⟩, g2⟩ := C37_bounds c2 c3 hs hp
        rw [c1] at g1 g2
        have hab : RAbove res.rrf mode t u' := fun v hv j hj => by
          have hl := raccepted_length bt hv
          exact g2 _ ((rfark_iff bt ht hAb hl).2 hv) j (by omega)
        refine ⟨?_, Or.inr ⟨_, rfl, g1, hab⟩, fun _ => ⟨_, rfl, g1, hab⟩⟩
        rintro u ⟨⟩ j hj
        exact le_trans (hx.nonneg j (by rw [c1]; exact hj)) (g2 x hx j hj)
      · exact hother (by decide) ho.symm fun hd => (hdec hd).2.2 rfl
      · exact hother (by decide) ho.symm fun hd => (hdec hd).1 rfl
      · exact hother (by decide) ho.symm fun hd => (hdec hd).2.1 rfl
    obtain ⟨groups, b1, b2, b3⟩ := built c1 hub.1 hr
    exact ⟨A, b, ub, groups, hAb, ho', b1, b2, b3, hub.2⟩

theorem rgroups_lt (bt : RewBuilt M il tl res) (hl : LabelsOK res.rrf.rf.sys labels) {g : Bool} {groups : List (List Nat)}
    (h : groupsFromLabels res.rrf.form mode labels g = .ok groups) : ∀ g ∈ groups, ∀ w ∈ g, w < res.rrf.form.certSize mode := by
  by_cases hG : Grouped mode labels
  · rw [groups_same hG] at h
    obtain ⟨gs, h1, h2⟩ := groups_ok bt.ok.ok mode (labels := labels) hl g
    rw [h1] at h
    cases h
    exact h2
  · unfold Grouped at hG
    push Not at hG
    obtain ⟨h1, h2⟩ := hG
    subst h2
    cases mode with
    | min => exact absurd rfl h1
    | max =>
      cases g with
      | true =>
        simp only [groupsFromLabels, if_true, max_unlabelled_groups bt] at h
        cases h
      | false =>
        cases h
        intro g hg w hw
        obtain ⟨i, hi, rfl⟩ := List.mem_map.1 hg
        rw [List.mem_singleton] at hw
        exact hw ▸ List.mem_range.1 hi

/-- **C120**, reward forms: the program. -/
theorem C120_reward_program (hM : RewardInput M) (hr : RRF.reduce ρ ρ' M il tl = .ok res) (ht : 0 ≤ t) (hs : ∀ lp, (lpSolver lp).Sound lp)
    (hk : ∀ u, known = some u → ∀ c ∈ u, 0 ≤ c) (hl : LabelsOK res.rrf.rf.sys labels)
    (h : constructMILP res.rrf.form lpSolver t mode labels relaxed known be = .ok (some (m, ind))) :
    ∃ ub : Option (List K), (ub = known ∨ ∃ u, ub = some u ∧ RAbove res.rrf mode t u) ∧
      (Decides res.rrf t mode lpSolver → ∃ u, ub = some u ∧ RAbove res.rrf mode t u) ∧
      m.maximize = false ∧ (∀ x, m.objVal x = (ind.map fun e => x e.1).sum) ∧
      ind.map Prod.fst = List.range' (res.rrf.form.certSize mode) ind.length ∧
      (∀ e ∈ ind, ∀ w ∈ e.2, w < res.rrf.form.certSize mode) ∧
      ∀ x, m.Feasible x ↔ RAccepted res.rrf mode t (certOf (res.rrf.form.certSize mode) x) ∧
        (∀ u, ub = some u → ∀ j < res.rrf.form.certSize mode, x j ≤ u.getD j 0) ∧
        ∀ e ∈ ind, 0 ≤ x e.1 ∧ (relaxed = false → x e.1 = 0 ∨ x e.1 = 1) ∧ (ub ≠ none → x e.1 ≤ 1) ∧
          ∀ w ∈ e.2, x w ≤ (ub.elim 1 fun u => u.getD w 0) * x e.1 := by
  have bt := rew_built hM hr
  obtain ⟨A, b, ub, groups, hA, hch, hg, hreal, B, hub, hdec⟩ := rconstruct bt ht hs hk h
  have hi := B.ind
  have hlen : ind.length = groups.length := by rw [hi]; simp
  have hkeys : ind.map Prod.fst = List.range' (res.rrf.form.certSize mode) groups.length := by
    rw [hi, List.map_map]
    exact List.zipIdx_map_snd _ _
  refine ⟨ub, hub.imp_right fun ⟨u, h1, _, h2⟩ => ⟨u, h1, h2⟩, fun hd => ?_, B.maximize, fun x => ?_, ?_, ?_, fun x => ?_⟩
  · obtain ⟨u, h1, -, h2⟩ := hdec hd
    exact ⟨u, h1, h2⟩
  · rw [B.obj, ← sum_range_list, show (ind.map fun e => x e.1) = (ind.map Prod.fst).map x by simp [List.map_map, Function.comp_def], hkeys,
      List.range'_eq_map_range, List.map_map]
    rfl
  · rw [hkeys, hlen]
  · rintro ⟨i, g⟩ he w hw
    obtain ⟨k, -, hk⟩ := (ind_get hi i g).1 he
    exact rgroups_lt bt hl hg g (List.mem_of_getElem? hk) w hw
  · rw [B.feasible (rgroups_lt bt hl hg), rpoly_iff bt ht hA, and_assoc]
    refine and_congr_right fun _ => and_congr_right fun _ => ?_
    have hub' : ∀ w, ubAt ub w = ub.elim 1 fun u => u.getD w 0 := fun w => by cases ub <;> rfl
    simp only [hub']
    constructor
    · rintro ⟨h1, h2⟩ ⟨v, g⟩ he
      obtain ⟨k, rfl, hk⟩ := (ind_get hi v g).1 he
      obtain ⟨a1, a2, a3⟩ := h1 k (List.getElem?_eq_some_iff.1 hk).1
      exact ⟨a1, a2, a3, h2 k g hk⟩
    · intro h1
      refine ⟨fun k hk => ?_, fun k g hk => ?_⟩
      · obtain ⟨a1, a2, a3, -⟩ := h1 _ ((ind_get hi _ _).2 ⟨k, rfl, List.getElem?_eq_getElem hk⟩)
        exact ⟨a1, a2, a3⟩
      · exact (h1 _ ((ind_get hi _ _).2 ⟨k, rfl, hk⟩)).2.2.2

/-- **C120**, reward forms: without labels there is one indicator for each entry.  The exact program is returned only in the mode
"min", where the entries are those of the states. -/
theorem C120_reward_indicators (hM : RewardInput M) (hr : RRF.reduce ρ ρ' M il tl = .ok res) (ht : 0 ≤ t)
    (hs : ∀ lp, (lpSolver lp).Sound lp) (hk : ∀ u, known = some u → ∀ c ∈ u, 0 ≤ c)
    (h : constructMILP res.rrf.form lpSolver t mode none relaxed known be = .ok (some (m, ind))) :
    ind.map Prod.snd = (List.range (res.rrf.form.certSize mode)).map (fun i => [i]) ∧ (relaxed = false → mode = .min) := by
  have bt := rew_built hM hr
  obtain ⟨A, b, ub, groups, -, -, hg, -, B, -, -⟩ := rconstruct bt ht hs hk h
  rw [ind_snd B.ind]
  cases mode with
  | min => cases hg; exact ⟨rfl, fun _ => rfl⟩
  | max =>
    cases relaxed with
    | true => cases hg; exact ⟨rfl, fun e => by cases e⟩
    | false =>
      simp only [groupsFromLabels, and_self, decide_true, if_true, max_unlabelled_groups bt] at hg
      cases hg

/-- **C120**, reward forms: with labels there is one indicator for each label, exact or relaxed, and the entries that belong to it are
those of the states with the label.  Labels without states may have no indicator. -/
theorem C120_reward_indicators_labels (hM : RewardInput M) (hr : RRF.reduce ρ ρ' M il tl = .ok res) (ht : 0 ≤ t)
    (hs : ∀ lp, (lpSolver lp).Sound lp) (hk : ∀ u, known = some u → ∀ c ∈ u, 0 ≤ c) {ls : List String}
    (hl : LabelsOK res.rrf.rf.sys (some ls))
    (h : constructMILP res.rrf.form lpSolver t mode (some ls) relaxed known be = .ok (some (m, ind))) :
    ∃ keys : List String, keys.Nodup ∧ (∀ l ∈ keys, l ∈ ls) ∧ (∀ l ∈ ls, ∀ s ∈ res.rrf.rf.sys.labelled l, l ∈ keys) ∧
      List.Forall₂ (fun l e => ∀ w, w ∈ e.2 ↔ w < res.rrf.form.certSize mode ∧
        ∃ s ∈ res.rrf.rf.sys.labelled l, entryState res.rrf.rf mode w = some s) keys ind := by
  have bt := rew_built hM hr
  obtain ⟨A, b, ub, groups, -, -, hg, -, B, -, -⟩ := rconstruct bt ht hs hk h
  rw [groups_same (.inr (by simp))] at hg
  obtain ⟨keys, h1, h2, h3, h4⟩ := groups_labels bt.ok.ok hl hg
  rw [← ind_snd B.ind, List.forall₂_map_right_iff] at h4
  exact ⟨keys, h1, h2, h3, h4⟩

/-- **C120**, reward forms: if the solver answers definitely when it is asked for the bounds, exactly the accepted vectors belong to
solutions.  (If it gives up, certificates are lost, see `C61_timeout_false`.) -/
theorem C120_reward_certificates (hM : RewardInput M) (hr : RRF.reduce ρ ρ' M il tl = .ok res) (ht : 0 ≤ t)
    (hd : Decides res.rrf t mode lpSolver) (hk : ∀ u, known = some u → ∀ c ∈ u, 0 ≤ c) (hl : LabelsOK res.rrf.rf.sys labels)
    (h : constructMILP res.rrf.form lpSolver t mode labels relaxed known be = .ok (some (m, ind))) (v : List K) :
    (∃ x, m.Feasible x ∧ certOf (res.rrf.form.certSize mode) x = v) ↔ RAccepted res.rrf mode t v := by
  obtain ⟨ub, -, hu, -, -, hkeys, hglt, hfeas⟩ := C120_reward_program hM hr ht hd.1 hk hl h
  obtain ⟨u, rfl, hab⟩ := hu hd
  constructor
  · rintro ⟨x, hx, rfl⟩
    exact ((hfeas x).1 hx).1
  · intro hv
    have hlen := raccepted_length (rew_built hM hr) hv
    have hel : ∀ e ∈ ind, res.rrf.form.certSize mode ≤ e.1 := by
      intro e he
      have := List.mem_map_of_mem (f := Prod.fst) he
      rw [hkeys, List.mem_range'_1] at this
      exact this.1
    have hcert : certOf (res.rrf.form.certSize mode) (fun j => if j < res.rrf.form.certSize mode then v.getD j 0 else 1) = v := by
      refine List.ext_getElem (by simp [certOf, hlen]) fun j h1 h2 => ?_
      have : j < res.rrf.form.certSize mode := by omega
      simp [certOf, this, h2]
    refine ⟨fun j => if j < res.rrf.form.certSize mode then v.getD j 0 else 1, (hfeas _).2 ⟨hcert.symm ▸ hv, ?_, ?_⟩, hcert⟩
    · rintro u' ⟨⟩ j hj
      simp only [if_pos hj]
      exact hab v hv j (by omega)
    · intro e he
      have h1 : ¬ e.1 < res.rrf.form.certSize mode := not_lt.2 (hel e he)
      simp only [if_neg h1]
      refine ⟨zero_le_one, fun _ => Or.inr trivial, fun _ => le_refl _, fun w hw => ?_⟩
      rw [if_pos (hglt e he w hw)]
      simp only [Option.elim_some, mul_one]
      exact hab v hv w (by rw [hlen]; exact hglt e he w hw)

/-- **C120**, reward forms: the value of the exact program does not depend on the bounds, the back end or the solver. -/
theorem C120_reward_value (hM : RewardInput M) (hr : RRF.reduce ρ ρ' M il tl = .ok res) (ht : 0 ≤ t)
    (hd : Decides res.rrf t mode lpSolver) (hd' : Decides res.rrf t mode lpSolver') (hk : ∀ u, known = some u → ∀ c ∈ u, 0 ≤ c)
    (hk' : ∀ u, known' = some u → ∀ c ∈ u, 0 ≤ c) (hl : LabelsOK res.rrf.rf.sys labels)
    (h : constructMILP res.rrf.form lpSolver t mode labels false known be = .ok (some (m, ind)))
    (h' : constructMILP res.rrf.form lpSolver' t mode labels false known' be' = .ok (some (m', ind'))) {x x' : Nat → K}
    (hx : m.Optimal x) (hx' : m'.Optimal x') : m.objVal x = m'.objVal x' := by
  have bt := rew_built hM hr
  have key : ∀ {lpSolver : Milp K → Answer K} {known : Option (List K)} {be : Backend} {m : Milp K} {ind : List (Nat × List Nat)} {x : Nat → K},
      Decides res.rrf t mode lpSolver → (∀ u, known = some u → ∀ c ∈ u, 0 ≤ c) →
      constructMILP res.rrf.form lpSolver t mode labels false known be = .ok (some (m, ind)) → m.Optimal x →
      ∃ A b groups, res.rrf.form.fark t mode = .ok (A, b) ∧
        groupsFromLabels res.rrf.form mode labels (decide (mode = .max ∧ false = false)) = .ok groups ∧
        InPoly res.rrf.form mode A b none x ∧ m.objVal x = usedGroups groups x ∧
        ∀ y, InPoly res.rrf.form mode A b none y → usedGroups groups x ≤ usedGroups groups y := by
    intro lpSolver known be m ind x hd hk h hx
    obtain ⟨A, b, ub, groups, hA, hch, hg, hreal, B, -, hdec⟩ := rconstruct bt ht hd.1 hk h
    obtain ⟨u, rfl, -, hab⟩ := hdec hd
    obtain ⟨h1, h2, h3⟩ := opt_groups (rrf_fark bt.ok hA).1 B (rgroups_lt bt hl hg) hx
    refine ⟨A, b, groups, hA, hg, ⟨h1.nonneg, (fun u hu => nomatch hu), h1.ec, h1.rows⟩, h2, fun y hy => h3 y ?_⟩
    have hacc := (rpoly_iff bt ht hA none y).1 hy
    refine (rpoly_iff bt ht hA (some u) y).2 ⟨hacc.1, ?_⟩
    rintro u' ⟨⟩ j hj
    have := hab _ hacc.1 j (by simpa [certOf] using hj)
    rwa [certOf_getD _ _ hj] at this
  obtain ⟨A, b, groups, a1, a2, a3, a4, a5⟩ := key hd hk h hx
  obtain ⟨A', b', groups', b1, b2, b3, b4, b5⟩ := key hd' hk' h' hx'
  rw [a1] at b1
  cases b1
  rw [a2] at b2
  cases b2
  rw [a4, b4, le_antisymm (a5 _ b3) (b5 _ a3)]

/-- **C120**, reward forms: every solution of the exact program solves the relaxed one, with the same value. -/
theorem C120_reward_relaxed (hM : RewardInput M) (hr : RRF.reduce ρ ρ' M il tl = .ok res) (ht : 0 ≤ t) (hs : ∀ lp, (lpSolver lp).Sound lp)
    (hk : ∀ u, known = some u → ∀ c ∈ u, 0 ≤ c) (hl : LabelsOK res.rrf.rf.sys labels)
    (h : constructMILP res.rrf.form lpSolver t mode labels false known be = .ok (some (m, ind)))
    (h' : constructMILP res.rrf.form lpSolver t mode labels true known be' = .ok (some (m', ind'))) :
    ind = ind' ∧ (∀ x, m.objVal x = m'.objVal x) ∧ (∀ x, m.Feasible x → m'.Feasible x) ∧
    ∀ x, m'.Feasible x → (∀ e ∈ ind', x e.1 = 0 ∨ x e.1 = 1) → m.Feasible x := by
  have bt := rew_built hM hr
  obtain ⟨A, b, ub, groups, hA, hch, hg, -, B, -⟩ := rconstruct bt ht hs hk h
  obtain ⟨A', b', ub', groups', hA', hch', hg', -, B', -⟩ := rconstruct bt ht hs hk h'
  rw [hA] at hA'
  cases hA'
  rw [hch] at hch'
  cases hch'
  have hgg : groups = groups' := by
    have : groupsFromLabels res.rrf.form mode labels (decide (mode = .max ∧ false = false)) =
        groupsFromLabels res.rrf.form mode labels (decide (mode = .max ∧ true = false)) := by
      cases mode with
      | min => rfl
      | max =>
        cases labels with
        | none =>
          simp only [groupsFromLabels, and_self, decide_true, if_true, max_unlabelled_groups bt] at hg
          cases hg
        | some ls => rfl
    rw [this, hg'] at hg
    cases hg
    rfl
  subst hgg
  have hlt := rgroups_lt bt hl hg
  refine ⟨by rw [B.ind, B'.ind], fun x => by rw [B.obj, B'.obj], fun x hx => ?_, fun x hx hb => ?_⟩
  · obtain ⟨h1, h2, h3⟩ := (B.feasible hlt x).1 hx
    exact (B'.feasible hlt x).2 ⟨h1, fun k hk => ⟨(h2 k hk).1, (fun e => nomatch e), (h2 k hk).2.2⟩, h3⟩
  · obtain ⟨h1, h2, h3⟩ := (B'.feasible hlt x).1 hx
    refine (B.feasible hlt x).2 ⟨h1, fun k hk => ⟨(h2 k hk).1, fun _ => ?_, (h2 k hk).2.2⟩, h3⟩
    exact hb _ ((ind_get B'.ind _ _).2 ⟨k, rfl, List.getElem?_eq_getElem hk⟩)

/-- **C120**, reward forms: without given bounds a program is returned if some vector is accepted, and `(None, None)` otherwise.  In the
mode "max" the exact program needs labels (`C61_max_raises`). -/
theorem C120_reward_computed (hM : RewardInput M) (hr : RRF.reduce ρ ρ' M il tl = .ok res) (φ : K →+*o ℝ) (ht : 0 ≤ t)
    (hs : ∀ lp, (lpSolver lp).Exact lp) (hl : LabelsOK res.rrf.rf.sys labels) (hG : mode = .min ∨ labels ≠ none ∨ relaxed = true) :
    ((∃ v, RAccepted res.rrf mode t v) ∧
      ∃ m ind, constructMILP res.rrf.form lpSolver t mode labels relaxed none .pulp = .ok (some (m, ind))) ∨
    ((∀ v, ¬ RAccepted res.rrf mode t v) ∧ constructMILP res.rrf.form lpSolver t mode labels relaxed none .pulp = .ok none) := by
  have bt := rew_built hM hr
  obtain ⟨A, b, hA⟩ := rew_fark_ok bt t mode
  obtain ⟨c1, c2, c3⟩ := rrf_fark bt.ok hA
  obtain ⟨groups, hg⟩ : ∃ groups, groupsFromLabels res.rrf.form mode labels (decide (mode = .max ∧ relaxed = false)) = .ok groups := by
    by_cases hG' : Grouped mode labels
    · rw [groups_same hG']
      obtain ⟨g, h1, -⟩ := groups_ok bt.ok.ok mode (labels := labels) hl (decide (mode = .max ∧ relaxed = false))
      exact ⟨g, h1⟩
    · have hrel : relaxed = true := by
        rcases hG with e | e | e
        · exact absurd (Or.inl e) hG'
        · exact absurd (Or.inr e) hG'
        · exact e
      unfold Grouped at hG'
      push Not at hG'
      obtain ⟨h1, rfl⟩ := hG'
      subst hrel
      cases mode with
      | min => exact absurd rfl h1
      | max => exact ⟨_, rfl⟩
  have hlt := rgroups_lt bt hl hg
  obtain ⟨B, hB⟩ := rfark_bounded bt φ hA
  rcases computed_of_bounded c2 hB hs with ⟨⟨x, hx⟩, u, hu⟩ | ⟨hno, u, hu⟩
  · left
    have hbd : chooseBounds res.rrf.form lpSolver mode A b none = .ok (some (some u)) := by
      unfold chooseBounds
      rw [if_neg (fun e => nomatch e.2.1), if_pos (show res.rrf.form.isEcFree = true from rfl), hu]
      rfl
    obtain ⟨m, ind, hb⟩ := buildMILP_ok (f := res.rrf.form) (be := .pulp) (ub := some u) (relaxed := relaxed) c1 c2
      (fun g => nomatch g) (fun g => nomatch g.2.2) hg (by
        rintro u' ⟨⟩
        rw [(C37_bounds c2 c3 (fun lp => (hs lp).toSound) hu).1, c1]) hlt
    refine ⟨⟨certOf (res.rrf.form.certSize mode) x, ?_⟩, m, ind, ?_⟩
    · refine ((rpoly_iff bt ht hA none x).1 ⟨fun j hj => hx.nonneg j (by rw [c1]; exact hj), (fun u hu => nomatch hu), (fun _ _ _ g => nomatch g), hx.rows⟩).1
    · unfold constructMILP
      rw [hA]
      simp only [bind, Except.bind, hbd, hb]
  · right
    refine ⟨fun v hv => hno _ ((rfark_iff bt ht hA (raccepted_length bt hv)).2 hv), ?_⟩
    have hbd : chooseBounds res.rrf.form lpSolver mode A b none = .ok none := by
      unfold chooseBounds
      rw [if_neg (fun e => nomatch e.2.1), if_pos (show res.rrf.form.isEcFree = true from rfl), hu]
      rfl
    unfold constructMILP
    rw [hA]
    simp only [bind, Except.bind, hbd]

/-- **C120**, reward forms: with a definite answer for the bounds the given ones are never used, in both modes. -/
theorem C120_reward_known_false (hM : RewardInput M) (hr : RRF.reduce ρ ρ' M il tl = .ok res) (hd : Decides res.rrf t mode lpSolver)
    (known known' : Option (List K)) :
    constructMILP res.rrf.form lpSolver t mode labels relaxed known be =
      constructMILP res.rrf.form lpSolver t mode labels relaxed known' be := by
  have bt := rew_built hM hr
  obtain ⟨A, b, hA⟩ := rew_fark_ok bt t mode
  have key : chooseBounds res.rrf.form lpSolver mode A b known = chooseBounds res.rrf.form lpSolver mode A b known' := by
    unfold chooseBounds
    rw [if_neg (fun e => nomatch e.2.1), if_pos (show res.rrf.form.isEcFree = true from rfl), if_neg (fun e => nomatch e.2.1),
      if_pos (show res.rrf.form.isEcFree = true from rfl)]
    simp only [bind, Except.bind]
    cases hp : computeUpperBounds lpSolver A b with
    | error e => rfl
    | ok p =>
      obtain ⟨st, u⟩ := p
      unfold computeUpperBounds at hp
      simp only [bind, Except.bind] at hp
      split at hp
      · cases hp
      rename_i lp hlp
      obtain ⟨n1, n2⟩ := hd.2 A b lp hA hlp
      have hst : st ≠ .undefined ∧ st ≠ .notsolved ∧ st ≠ .unbounded := by
        split at hp
        · cases hp
        · rename_i hun
          split at hp <;>
          · simp only [Except.ok.injEq, Prod.mk.injEq] at hp
            rw [← hp.1]
            exact ⟨n1, n2, hun⟩
      cases st with
      | optimal => rfl
      | infeasible => rfl
      | unbounded => exact absurd rfl hst.2.2
      | undefined => exact absurd rfl hst.1
      | notsolved => exact absurd rfl hst.2.1
  unfold constructMILP
  rw [hA]
  simp only [bind, Except.bind, key]

end
/-! ### the hypotheses are met -/

/-- for the threshold 2, which `check_farkas_certificate` refuses, there are accepted vectors, both programs and solutions -/
example (relaxed : Bool) : ∃ (res : RRF.Result ℚ) (lpSolver : Milp ℚ → Answer ℚ), RewardInput (rwSys 2) ∧
    RRF.reduce exRnd exRnd (rwSys 2) "start" "goal" = .ok res ∧ (∀ lp, (lpSolver lp).Exact lp) ∧ Decides res.rrf 2 .min lpSolver ∧
    LabelsOK res.rrf.rf.sys none ∧ LabelsOK res.rrf.rf.sys (some ["start"]) ∧ ∀ labels, LabelsOK res.rrf.rf.sys labels →
    ∃ m ind, constructMILP res.rrf.form lpSolver 2 .min labels relaxed none .pulp = .ok (some (m, ind)) ∧ ∃ x, m.Feasible x := by
  obtain ⟨res, h⟩ := rwSys_ok (c := 2) zero_le_two exRnd exRnd
  have hM := rwSys_input (c := 2) zero_le_two
  have bt := rew_built hM h
  obtain ⟨i, hi, hU, -⟩ := rwSys_init zero_le_two h
  obtain ⟨solver, hs⟩ := exists_exact ℚ
  have hd : Decides res.rrf 2 .min solver := decides_of_exact bt ratR hs
  have hl0 : LabelsOK res.rrf.rf.sys none := fun ls e => by cases e
  have hl1 : LabelsOK res.rrf.rf.sys (some ["start"]) := by
    intro ls e l hl
    cases e
    rw [List.mem_singleton] at hl
    subst hl
    refine ⟨⟨_, bt.initL⟩, fun s hs => ?_⟩
    obtain ⟨ss, e, hs⟩ := hs
    rw [bt.initL] at e
    cases e
    rw [List.mem_singleton.1 hs]
    exact bt.init
  rw [bt.initL] at hi
  cases hi
  obtain ⟨A, b, hA⟩ := rew_fark_ok bt 2 .min
  obtain ⟨x, hx, -⟩ := fark_of_inside bt ratR hA hU
  have hv := ((rpoly_iff bt zero_le_two hA none x).1 ⟨fun j hj => hx.nonneg j (by rw [(rrf_fark bt.ok hA).1]; exact hj),
    (fun u hu => nomatch hu), (fun _ _ _ g => nomatch g), hx.rows⟩).1
  refine ⟨res, solver, hM, h, hs, hd, hl0, hl1, fun labels hl => ?_⟩
  rcases C120_reward_computed (t := 2) (mode := .min) (relaxed := relaxed) hM h ratR zero_le_two hs hl (Or.inl rfl) with ⟨-, m, ind, hc⟩ | ⟨hno, -⟩
  · obtain ⟨y, hy, -⟩ := (C120_reward_certificates hM h zero_le_two hd (fun u hu => by cases hu) hl hc _).2 hv
    exact ⟨m, ind, hc, y, hy⟩
  · exact absurd hv (hno _)

end Verif.Props
