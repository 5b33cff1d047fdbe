import Verif.Proofs.BuildOk
import Verif.Props.UpperBounds
import Verif.Props.Subsystem
/-!
# C38–C40: `MILPExact`

`K` is any ordered field where only the answers are concerned; minimality is proved over the reals, where the
competing subsystem has a certificate.
-/
set_option linter.unusedSectionVars false

namespace Verif.Props
open Verif.Model Verif.Model.Milp Verif.Spec Verif.Proofs Verif.Theory Verif.Proofs.IDict Finset

/-! ### size of a set of states -/

section
variable {K : Type} [Field K] [LinearOrder K] [IsStrictOrderedRing K]

open Classical in
/-- What is minimised: the number of states of a set (goal and fail, the last two, do not count), or, if labels are
given, the number of those labels that some state of the set carries. -/
noncomputable def cost (M : Sys K) (labels : Option (List String)) (U : Nat → Prop) : Nat :=
  match labels with
  | none => ((range (M.N - 2)).filter U).card
  | some ls => (ls.toFinset.filter fun l => ∃ s ∈ M.labelled l, U s).card

theorem cost_mono (M : Sys K) (labels : Option (List String)) {U V : Nat → Prop} (h : ∀ s, U s → V s) :
    cost M labels U ≤ cost M labels V := by
  classical
  unfold cost
  cases labels with
  | none => exact card_le_card fun s hs => by simp only [mem_filter] at hs ⊢; exact ⟨hs.1, h s hs.2⟩
  | some ls =>
    refine card_le_card fun l hl => ?_
    simp only [mem_filter] at hl ⊢
    obtain ⟨h1, s, h2, h3⟩ := hl
    exact ⟨h1, s, h2, h s h3⟩

theorem cost_congr (M : Sys K) (labels : Option (List String)) {U V : Nat → Prop} (h : ∀ s, U s ↔ V s) :
    cost M labels U = cost M labels V := by
  have : U = V := funext fun s => propext (h s)
  rw [this]

/-- the states selected by a vector, given as a function -/
def selF (rf : RF K) (mode : Mode) (x : Nat → K) (s : Nat) : Prop :=
  match mode with
  | .min => s < rf.N ∧ 0 < x s
  | .max => ∃ i < rf.C, rf.rowState i = some s ∧ 0 < x i

variable {ρ ρ' : Graph.Rnd} {M : Sys K} {il tl fl : String} {rf : RF K} {mode : Mode}

theorem used_eq_cost (h : RFOK rf) {labels : Option (List String)} {groups : List (List Nat)}
    (hg : groupsFromLabels rf.form mode labels (decide (mode = .max ∧ false = false)) = .ok groups)
    (hlt : ∀ g ∈ groups, ∀ w ∈ g, w < rf.form.certSize mode) (x : Nat → K) :
    usedGroups groups x = cost rf.sys labels (selF rf mode x) := by
  classical
  have hmap : ∀ {α : Type} [DecidableEq α] {e : Except Err (Dict α (List Nat))}, e.map (·.map Prod.snd) = .ok groups →
      ∃ d, e = .ok d ∧ groups = d.map Prod.snd := by
    intro α _ e he
    cases e with
    | error e => cases he
    | ok d => cases he; exact ⟨d, rfl, rfl⟩
  have hmem : ∀ {α : Type} [DecidableEq α] {d : Dict α (List Nat)} {k : α} {w : Nat}, groups = d.map Prod.snd → Has d k w →
      k ∈ Dict.keys d ∧ w < rf.form.certSize mode := by
    intro α _ d k w e hw
    unfold Has at hw
    cases hk : d.get? k with
    | none => rw [hk] at hw; simp at hw
    | some g =>
      rw [hk] at hw
      have hm := Dict.mem_of_get? hk
      exact ⟨List.mem_map_of_mem (f := Prod.fst) hm, hlt g (by rw [e]; exact List.mem_map_of_mem (f := Prod.snd) hm) w hw⟩
  cases labels with
  | none =>
    cases mode with
    | min =>
      cases hg
      rw [usedGroups_single]
      unfold cost
      refine congrArg _ (filter_congr fun s hs => ?_)
      exact ⟨fun g => ⟨mem_range.1 hs, g⟩, fun g => g.2⟩
    | max =>
      simp only [groupsFromLabels, decide_true, if_true, and_self] at hg
      obtain ⟨d, hd, e⟩ := hmap hg
      obtain ⟨g1, g2⟩ := groupsByState_spec hd
      rw [e, usedGroups_dict g1.1]
      unfold cost
      refine congrArg _ (ext fun s => ?_)
      rw [mem_filter, mem_filter, List.mem_toFinset, mem_range]
      constructor
      · rintro ⟨-, w, hw, hp⟩
        obtain ⟨h1, a, h2⟩ := (g2 s w).1 hw
        have hr : rf.rowState w = some s := by
          unfold RF.rowState
          rw [show invGet? rf.idx w = some (s, a) from h2]
          rfl
        obtain ⟨a', ha'⟩ := (h.rowState_iff h1).1 hr
        exact ⟨h.state_lt h1 ha', w, h1, hr, hp⟩
      · rintro ⟨-, w, h1, hr, hp⟩
        have hw : Has d s w := by
          refine (g2 s w).2 ⟨h1, ?_⟩
          unfold RF.rowState at hr
          cases hi : invGet? rf.idx w with
          | none => rw [hi] at hr; cases hr
          | some p =>
            rw [hi] at hr
            cases hr
            exact ⟨p.2, hi⟩
        exact ⟨(hmem e hw).1, w, hw, hp⟩
  | some ls =>
    cases mode with
    | min =>
      obtain ⟨d, hd, e⟩ := hmap (e := groupsMin rf.form ls) hg
      obtain ⟨g1, g2, g3⟩ := groupsMin_spec hd
      rw [e, usedGroups_dict g1]
      unfold cost
      refine congrArg _ (ext fun l => ?_)
      rw [mem_filter, mem_filter, List.mem_toFinset, List.mem_toFinset, g2]
      refine and_congr_right fun hl => ?_
      constructor
      · rintro ⟨w, hw, hp⟩
        exact ⟨w, ((g3 l w).1 hw).2, (hmem e hw).2, hp⟩
      · rintro ⟨s, hs, -, hp⟩
        exact ⟨s, (g3 l s).2 ⟨hl, hs⟩, hp⟩
    | max =>
      obtain ⟨d, hd, e⟩ := hmap (e := groupsMax rf.form ls) hg
      obtain ⟨g1, g2⟩ := groupsMax_spec h.wf.keys h.wf.vals hd
      rw [e, usedGroups_dict g1.1]
      unfold cost
      refine congrArg _ (ext fun l => ?_)
      rw [mem_filter, mem_filter, List.mem_toFinset, List.mem_toFinset]
      constructor
      · rintro ⟨-, w, hw, hp⟩
        obtain ⟨hl, -, s, a, hs, hm⟩ := (g2 l w).1 hw
        have hwC : w < rf.C := (hmem e hw).2
        exact ⟨hl, s, hs, w, hwC, (h.rowState_iff hwC).2 ⟨a, hm⟩, hp⟩
      · rintro ⟨hl, s, hs, w, hwC, hr, hp⟩
        obtain ⟨a, hm⟩ := (h.rowState_iff hwC).1 hr
        have hw : Has d l w := (g2 l w).2 ⟨hl, RFOK.lt_C hwC, s, a, hs, hm⟩
        exact ⟨(hmem e hw).1, w, hw, hp⟩

theorem selF_iff (h : RFOK rf) {v : List K} (hl : v.length = rf.form.certSize mode) (s : Nat) :
    selF rf mode (fun j => v.getD j 0) s ↔ Selected rf.sys mode v s := by
  unfold selF Selected
  cases mode with
  | min =>
    rw [← getD_pos]
    refine ⟨fun g => g.2, fun g => ⟨?_, g⟩⟩
    obtain ⟨c, h1, -⟩ := getD_pos.1 g
    obtain ⟨h2, -⟩ := List.getElem?_eq_some_iff.1 h1
    have : v.length = rf.N := hl
    omega
  | max =>
    constructor
    · rintro ⟨i, hi, hr, hp⟩
      obtain ⟨c, h3, h4⟩ := getD_pos.1 hp
      obtain ⟨a, ha⟩ := (h.rowState_iff hi).1 hr
      exact ⟨a, i, c, ha, h3, h4⟩
    · rintro ⟨a, i, c, ha, h3, h4⟩
      have hi : i < rf.C := by
        obtain ⟨h5, -⟩ := List.getElem?_eq_some_iff.1 h3
        have : v.length = rf.C := hl
        omega
      exact ⟨i, hi, (h.rowState_iff hi).2 ⟨a, ha⟩, getD_pos.2 ⟨c, h3, h4⟩⟩

/-! ### certificates and the polytope -/

variable {A : Mat K} {b : List K} {t : K} {ub : Option (List K)}

theorem fark_cols {mode : Mode} (hA : rf.farkConstraints t mode = .ok (A, b)) : A.cols = rf.form.certSize mode := by
  cases mode with
  | min => exact (farkZ_rows hA).2.2.1
  | max => exact (farkY_rows hA).2.2.1

theorem poly_check (ht : 0 ≤ t ∧ t ≤ 1) (hA : rf.farkConstraints t mode = .ok (A, b)) {v : List K}
    (hl : v.length = rf.form.certSize mode) (hv : InPoly rf.form mode A b ub (fun j => v.getD j 0)) :
    check rf mode .ge t v 0 = .ok true ∧ ∀ c ∈ v, 0 ≤ c := by
  refine ⟨?_, fun c hc => ?_⟩
  · cases mode with
    | min =>
      obtain ⟨e0, e1, e2, -, e3⟩ := farkZ_rows hA
      obtain ⟨e4, e5, e6⟩ := e3 fun j => v.getD j 0
      refine (check_min_ge (strict := false)).2 ⟨ht, e0, hl, fun s hs => hv.ec rfl s hs, fun i hi => ?_, ?_, by simp⟩
      · have := hv.rows i (by omega)
        rw [(e4 i hi).1, (e4 i hi).2] at this
        linarith
      · have := hv.rows rf.C (by omega)
        rw [e5, e6] at this
        linarith
    | max =>
      obtain ⟨e0, e1, e2, -, e3⟩ := farkY_rows hA
      obtain ⟨e4, e5, e6⟩ := e3 fun j => v.getD j 0
      refine (check_max_ge (strict := false)).2 ⟨ht, e0, hl, fun i hi => ?_, ?_, by simp⟩
      · have := hv.rows i (by omega)
        rw [(e4 i hi).1, (e4 i hi).2] at this
        linarith
      · have := hv.rows rf.N (by omega)
        rw [e5, e6] at this
        linarith
  · obtain ⟨j, hj, rfl⟩ := List.mem_iff_getElem.1 hc
    have := hv.nonneg j (by omega)
    rwa [List.getD_eq_getElem _ _ hj] at this

/-- what `construct_MILP` returns -/
theorem construct_inv {σ : Type} {f : Form σ K} {labels : Option (List String)} {relaxed : Bool} {be : Backend}
    {lpSolver : Milp K → Answer K} {m : Milp K} {ind : List (Nat × List Nat)} 
    (hf : ∀ A b, f.fark t mode = .ok (A, b) → A.cols = f.certSize mode ∧ A.rows ≤ b.length ∧ (A.cols + 1 = A.rows → OnePos A))
    (hs : ∀ lp, (lpSolver lp).Sound lp)
    (h : constructMILP f lpSolver t mode labels relaxed none be = .ok (some (m, ind))) :
    ∃ A b ub groups, f.fark t mode = .ok (A, b) ∧ chooseBounds f lpSolver mode A b none = .ok (some ub) ∧
      groupsFromLabels f mode labels (decide (mode = .max ∧ relaxed = false)) = .ok groups ∧
      ¬ (relaxed = false ∧ mode = .max ∧ ub = none) ∧
      Built f mode relaxed A b ub groups m ind ∧
      ∀ u, ub = some u → u.length = f.certSize mode ∧
        ((mode = .min ∧ f.isRF = true ∧ u = List.replicate (f.certSize mode) 1) ∨
          ∀ x, InFark A b x → ∀ j < f.certSize mode, x j ≤ u.getD j 0) := by
  unfold constructMILP at h
  simp only [bind, Except.bind] at h
  split at h
  · cases h
  rename_i Ab hAb
  obtain ⟨A, b⟩ := Ab
  simp only at h
  split at h
  · cases h
  rename_i o ho
  cases o with
  | none => cases h
  | some ub =>
    simp only at h
    split at h
    · cases h
    rename_i r hr
    cases h
    obtain ⟨c1, c2, c3⟩ := hf A b hAb
    have hub : ∀ u, ub = some u → u.length = f.certSize mode ∧ (∀ j < f.certSize mode, 0 ≤ u.getD j 0) ∧
        ((mode = .min ∧ f.isRF = true ∧ u = List.replicate (f.certSize mode) 1) ∨
          ∀ x, InFark A b x → ∀ j < f.certSize mode, x j ≤ u.getD j 0) := by
      rintro u rfl
      unfold chooseBounds at ho
      split at ho
      · rename_i hc
        simp only [Except.ok.injEq, Option.some.injEq] at ho
        subst ho
        refine ⟨by simp, fun j hj => ?_, Or.inl ⟨hc.1, hc.2.1, rfl⟩⟩
        rw [List.getD_eq_getElem _ _ (by simpa using hj)]
        simp
      · split at ho
        · simp only [bind, Except.bind] at ho
          split at ho
          · cases ho
          rename_i p hp
          obtain ⟨st, u'⟩ := p
          cases st <;> simp only [Except.ok.injEq, Option.some.injEq, reduceCtorEq] at ho
          subst ho
          obtain ⟨g1, ⟨x, hx⟩, g2⟩ := C37_bounds c2 c3 hs hp
          rw [c1] at g1 g2
          refine ⟨g1, fun j hj => le_trans (hx.nonneg j (by rw [c1]; exact hj)) (g2 x hx j hj), Or.inr g2⟩
        · cases ho
    obtain ⟨groups, b1, b2, b3⟩ := built c1 (fun u hu => (hub u hu).2.1) hr
    exact ⟨A, b, ub, groups, hAb, ho, b1, b2, b3, fun u hu => ⟨(hub u hu).1, (hub u hu).2.2⟩⟩

theorem rf_fark (hM : M.WF) (hrf : RF.make ρ M il tl fl false = .ok rf) (A : Mat K) (b : List K)
    (hA : rf.form.fark t mode = .ok (A, b)) :
    A.cols = rf.form.certSize mode ∧ A.rows ≤ b.length ∧ (A.cols + 1 = A.rows → OnePos A) := by
  have hA' : rf.farkConstraints t mode = .ok (A, b) := hA
  refine ⟨fark_cols hA', ?_⟩
  cases mode with
  | min => exact ⟨(C37_one_positive_z hM hrf hA').1, fun _ => (C37_one_positive_z hM hrf hA').2⟩
  | max => exact C37_one_positive_y hM hrf hA'

/-- the results of `MILPExact` -/
theorem exact_success {σ : Type} {f : Form σ K} {lpSolver solver : Milp K → Answer K} {labels : Option (List String)} {be : Backend}
    {r : ProblemResult σ K} (hr : r ∈ (milpExact f lpSolver solver t mode labels be).1) (hs : r.status = .success) :
    ∃ m ind w, constructMILP f lpSolver t mode labels false none be = .ok (some (m, ind)) ∧
      (solver m).status = .optimal ∧ f.mkSub ((solver m).vec.take (f.certSize mode)) mode = .ok w ∧
      r = ⟨.success, some w, some (solver m).value, some ((solver m).vec.take (f.certSize mode))⟩ := by
  unfold milpExact at hr
  split at hr
  · simp at hr
  · simp only [List.mem_singleton] at hr; subst hr; cases hs
  · rename_i m ind hm
    simp only at hr
    split at hr
    · rename_i ho
      split at hr
      · simp at hr
      · rename_i w hw
        simp only [List.mem_singleton] at hr
        exact ⟨m, ind, w, hm, ho, hw, hr⟩
    · simp only [List.mem_singleton] at hr; subst hr; cases hs

/-- the status `infeasible` of `MILPExact` -/
theorem exact_infeasible {σ : Type} {f : Form σ K} {lpSolver solver : Milp K → Answer K} {labels : Option (List String)} {be : Backend}
    {r : ProblemResult σ K} (hr : r ∈ (milpExact f lpSolver solver t mode labels be).1) (hs : r.status = .failed .infeasible) :
    constructMILP f lpSolver t mode labels false none be = .ok none ∨
    ∃ m ind, constructMILP f lpSolver t mode labels false none be = .ok (some (m, ind)) ∧
      (solver m).status = .infeasible := by
  unfold milpExact at hr
  split at hr
  · simp at hr
  · rename_i hm; exact Or.inl hm
  · rename_i m ind hm
    simp only at hr
    split at hr
    · split at hr
      · simp at hr
      · simp only [List.mem_singleton] at hr; subst hr; cases hs
    · simp only [List.mem_singleton] at hr
      subst hr
      have hs' : PStatus.failed (solver m).status = .failed .infeasible := hs
      injection hs' with hs'
      exact Or.inr ⟨m, ind, hm, hs'⟩

/-- `construct_MILP` gives up only if the polytope is empty -/
theorem construct_none {σ : Type} {f : Form σ K} {labels : Option (List String)} {relaxed : Bool} {be : Backend}
    {lpSolver : Milp K → Answer K}
    (hf : ∀ A b, f.fark t mode = .ok (A, b) → A.rows ≤ b.length)
    (hs : ∀ lp, (lpSolver lp).Sound lp)
    (h : constructMILP f lpSolver t mode labels relaxed none be = .ok none) :
    ∃ A b, f.fark t mode = .ok (A, b) ∧ ¬ (mode = .min ∧ f.isRF = true) ∧ f.isEcFree = true ∧ ∀ x, ¬ InFark A b x := by
  unfold constructMILP at h
  simp only [bind, Except.bind] at h
  split at h
  · cases h
  rename_i Ab hAb
  obtain ⟨A, b⟩ := Ab
  simp only at h
  split at h
  · cases h
  rename_i o ho
  cases o with
  | some ub =>
    simp only at h
    split at h <;> cases h
  | none =>
    unfold chooseBounds at ho
    split at ho
    · cases ho
    · rename_i hc
      split at ho
      · rename_i he
        simp only [bind, Except.bind] at ho
        split at ho
        · cases ho
        rename_i p hp
        obtain ⟨st, u'⟩ := p
        cases st <;> simp only [Except.ok.injEq, reduceCtorEq] at ho
        exact ⟨A, b, hAb, fun g => hc ⟨g.1, g.2, rfl⟩, he, C37_infeasible (hf A b hAb) hs hp⟩
      · cases ho

/-! ### witnessing subsystems -/

/-- the extremal probability of a mode -/
noncomputable def _root_.Verif.Model.Sys.pr (φ : K →+*o ℝ) (M : Sys K) (mode : Mode) (T : Set Nat) (s : Nat) : ℝ :=
  match mode with
  | .min => M.prMin φ T s
  | .max => M.prMax φ T s

/-- There is a subsystem of `rf` - given by any vector of either kind, built with or without the checks -
with probability at least `t` in its initial state and of size `k`: `k` states besides goal and fail, resp. `k` of
the given labels occur on such states. -/
def Witness (rf : RF K) (il tl : String) (φ : K →+*o ℝ) (mode : Mode) (t : K) (labels : Option (List String)) (k : Nat) : Prop :=
  ∃ cert mode' ig x ρ res n, Subsystem.make rf cert mode' ig = .ok x ∧ x.subsys ρ = .ok res ∧
    n ∈ res.rf.sys.labelled il ∧ φ t ≤ res.rf.sys.pr φ mode (res.rf.sys.labelled tl) n ∧
    cost res.rf.sys labels (fun s => s < res.rf.sys.N - 2) = k

theorem cost_sub {cert : List K} {ig : Bool} {x : Subsystem K} {res : Subsystem.Result K}
    (hM : M.WF) (hL : LabelMap M.labS) (hrf : RF.make ρ M il tl fl false = .ok rf)
    (hx : Subsystem.make rf cert mode ig = .ok x) (hr : x.subsys ρ' = .ok res) (labels : Option (List String)) :
    cost res.rf.sys labels (fun s => s < res.rf.sys.N - 2) = cost M labels (Selected M mode cert) := by
  classical
  obtain ⟨ks, k1, k2, k3, k4, -, -, -, -, -, -, -, -, k5, -⟩ := C47_construction hM hL hrf hx hr
  have hN : res.rf.sys.N - 2 = ks.length := by omega
  unfold cost
  cases labels with
  | none =>
    simp only
    have e2 : (range (M.N - 2)).filter (Selected M mode cert) = ks.toFinset := by
      ext s
      rw [mem_filter, List.mem_toFinset, k2, mem_range]
      exact ⟨fun g => g.2, fun g => ⟨k3 s ((k2 s).2 g), g⟩⟩
    have e3 : #(range (res.rf.sys.N - 2)) = #(ks.toFinset) := by
      rw [card_range, hN, List.toFinset_card_of_nodup (k1.imp fun h => h.ne)]
    refine (congrArg card (@filter_true_of_mem _ _ (_) _ fun s hs => mem_range.1 hs)).trans (e3.trans (congrArg card ?_))
    rw [← e2]
  | some ls =>
    simp only
    refine congrArg _ (filter_congr fun l _ => ?_)
    constructor
    · rintro ⟨n, hn, hlt⟩
      rw [hN] at hlt
      rcases (k5 l n).1 hn with ⟨s, h1, h2⟩ | ⟨-, h⟩ | ⟨-, h⟩
      · exact ⟨s, h2, (k2 s).1 (List.mem_of_getElem? h1)⟩
      · omega
      · omega
    · rintro ⟨s, h1, h2⟩
      obtain ⟨n, hn, e⟩ := List.mem_iff_getElem.1 ((k2 s).2 h2)
      refine ⟨n, (k5 l n).2 (Or.inl ⟨s, ?_, h1⟩), by rw [hN]; exact hn⟩
      rw [List.getElem?_eq_getElem hn, e]

/-- the extremal value of the core restricted to the states in `U` -/
noncomputable def cutVal (h : RFOK rf) (φ : K →+*o ℝ) (mode : Mode) (U : Nat → Prop) (s : Fin rf.N) : ℝ :=
  match mode with
  | .min => ((h.core φ).cut {s | U s.1}).Vmin s
  | .max => ((h.core φ).cut {s | U s.1}).Vmax s

/-- the value of a witness, in the core -/
theorem witness_cut (hM : M.WF) (hL : LabelMap M.labS) (hrf : RF.make ρ M il tl fl false = .ok rf) {φ : K →+*o ℝ}
    {labels : Option (List String)} {k : Nat} (hw : Witness rf il tl φ mode t labels k) :
    ∃ (U : Nat → Prop) (hin : rf.initial < rf.N), cost M labels U = k ∧
      φ t ≤ cutVal (rfok_built hM hrf) φ mode U ⟨rf.initial, hin⟩ := by
  obtain ⟨cert, mode', ig, x, ρ', res, n, hx, hr, hn, hp, hc⟩ := hw
  obtain ⟨ks, k1, k2, -⟩ := C47_construction hM hL hrf hx hr
  have hk : Naming M mode' cert ks := ⟨k1, k2⟩
  obtain ⟨hs, v1, v2⟩ := sub_values hM hL hrf hx hr φ hk (sub_initial hM hL hrf hx hr hn hk)
  refine ⟨Selected M mode' cert, hs, by rw [← hc, cost_sub hM hL hrf hx hr], ?_⟩
  unfold Model.Sys.pr at hp
  cases mode with
  | min => simp only at hp; rw [v1] at hp; exact hp
  | max => simp only at hp; rw [v2] at hp; exact hp

end

/-! ### the results -/

section
variable {K : Type} [Field K] [LinearOrder K] [IsStrictOrderedRing K]
variable {ρ ρ' : Graph.Rnd} {M : Sys K} {il tl fl : String} {rf : RF K} {mode : Mode} {t : K}
  {lpSolver solver : Milp K → Answer K} {labels : Option (List String)} {be : Backend} {r : ProblemResult (Subsystem K) K}

/-- what is known about the upper bounds in the exact model -/
theorem exact_built (hM : M.WF) (hrf : RF.make ρ M il tl fl false = .ok rf) (hlp : ∀ lp, (lpSolver lp).Sound lp)
    {m : Milp K} {ind : List (Nat × List Nat)}
    (h : constructMILP rf.form lpSolver t mode labels false none be = .ok (some (m, ind))) :
    ∃ A b u groups, rf.farkConstraints t mode = .ok (A, b) ∧ A.cols = rf.form.certSize mode ∧
      groupsFromLabels rf.form mode labels (decide (mode = .max ∧ false = false)) = .ok groups ∧
      Built rf.form mode false A b (some u) groups m ind ∧ (∀ g ∈ groups, ∀ w ∈ g, w < rf.form.certSize mode) ∧
      ((mode = .min ∧ u = List.replicate (rf.form.certSize mode) 1) ∨
        ∀ x, InFark A b x → ∀ j < rf.form.certSize mode, x j ≤ u.getD j 0) := by
  obtain ⟨A, b, ub, groups, h1, h2, h3, h4, h5, h6⟩ := construct_inv (rf_fark hM hrf) hlp h
  have hub : ∃ u, ub = some u := by
    cases ub with
    | some u => exact ⟨u, rfl⟩
    | none =>
      exfalso
      cases mode with
      | max => exact h4 ⟨rfl, rfl, rfl⟩
      | min =>
        unfold chooseBounds at h2
        rw [if_pos ⟨rfl, rfl, rfl⟩] at h2
        cases h2
  obtain ⟨u, rfl⟩ := hub
  obtain ⟨h7, h8⟩ := h6 u rfl
  refine ⟨A, b, u, groups, h1, fark_cols h1, h3, h5, fun g hg w hw => ?_, h8.imp_left fun g => ⟨g.1, g.2.2⟩⟩
  have := h5.bound u rfl g hg w hw
  omega

theorem solveIter_mem {σ : Type} {f : Form σ K} {run : Run σ K} {r : ProblemResult σ K} (h : r ∈ (solveIter f t run).1) :
    r ∈ run.1 ∧ 0 ≤ t ∧ (f.isRF = true → t ≤ 1) := by
  unfold solveIter at h
  split at h
  · split at h
    · exact ⟨h, by assumption, by assumption⟩
    · simp at h
  · simp at h

/-- **C38–C40**, soundness, both modes, with or without labels, any back end.  A success reports the subsystem of an
accepted certificate, and the value is its size. -/
theorem exact_sound (hM : M.WF) (hL : LabelMap M.labS) (hrf : RF.make ρ M il tl fl false = .ok rf)
    (hlp : ∀ lp, (lpSolver lp).Sound lp) (hs : ∀ m, (solver m).Sound m)
    (hr : r ∈ (solveIter rf.form t (milpExact rf.form lpSolver solver t mode labels be)).1) (hst : r.status = .success) :
    ∃ (cert : List K) (x : Subsystem K) (k : Nat), r = ⟨.success, some x, some (k : K), some cert⟩ ∧ Subsystem.make rf cert mode false = .ok x ∧
      check rf mode .ge t cert 0 = .ok true ∧ (∀ c ∈ cert, 0 ≤ c) ∧ k = cost M labels (Selected M mode cert) ∧
      ∀ (ρ' : Graph.Rnd) (res : Subsystem.Result K), x.subsys ρ' = .ok res →
        cost res.rf.sys labels (fun s => s < res.rf.sys.N - 2) = k ∧
        ∀ (φ : K →+*o ℝ), ∀ n ∈ res.rf.sys.labelled il, φ t ≤ res.rf.sys.pr φ mode (res.rf.sys.labelled tl) n := by
  obtain ⟨hr, h0, h1⟩ := solveIter_mem hr
  obtain ⟨m, ind, w, hc, ho, hw, rfl⟩ := exact_success hr hst
  obtain ⟨A, b, u, groups, g1, g2, g3, g4, g5, g6⟩ := exact_built hM hrf hlp hc
  obtain ⟨o1, o2, o3⟩ := (hs m).optimal ho
  obtain ⟨p1, p2, p3⟩ := opt_groups g2 g4 g5 o1
  have h := rfok_built hM hrf
  have hlen : ((solver m).vec.take (rf.form.certSize mode)).length = rf.form.certSize mode := by
    rw [List.length_take, o2, g4.vars]; omega
  have etake : ∀ j < rf.form.certSize mode, ((solver m).vec.take (rf.form.certSize mode)).getD j 0 = (solver m).vec.getD j 0 := by
    intro j hj
    rw [List.getD_eq_getElem?_getD, List.getElem?_take_of_lt hj, List.getD_eq_getElem?_getD]
  obtain ⟨c1, c2⟩ := poly_check ⟨h0, h1 rfl⟩ g1 hlen (p1.congr g2 etake)
  have e0 := (make_fields hrf).1
  have ek : usedGroups groups (fun j => (solver m).vec.getD j 0) =
      cost M labels (Selected M mode ((solver m).vec.take (rf.form.certSize mode))) := by
    rw [← usedGroups_congr g5 etake, used_eq_cost h g3 g5, ← e0]
    exact cost_congr _ _ fun s => selF_iff h hlen s
  refine ⟨_, w, usedGroups groups (fun j => (solver m).vec.getD j 0), ?_, hw, c1, c2, ek, fun ρ' res hres => ⟨?_, fun φ n hn => ?_⟩⟩
  · rw [o3, p2]
  · rw [ek]
    exact cost_sub hM hL hrf hw hres labels
  · unfold Model.Sys.pr
    cases mode with
    | min => exact C45_min_ge hM hL hrf c1 hw hres φ hn
    | max => exact C45_max_ge hM hL hrf c2 c1 hw hres φ hn

end

section
variable {K : Type} [Field K] [LinearOrder K] [IsStrictOrderedRing K]
variable {ρ ρ' : Graph.Rnd} {M : Sys K} {il tl fl : String} {rf : RF K} {mode : Mode} {t : K}
  {lpSolver solver : Milp K → Answer K} {labels : Option (List String)} {be : Backend} {r : ProblemResult (Subsystem K) K}

/-- every witnessing subsystem has a point of the polytope supported in it -/
theorem poly_of_cut' (hM : M.WF) (hrf : RF.make ρ M il tl fl false = .ok rf) {A : Mat K} {b : List K} {ub : Option (List K)}
    (hA : rf.farkConstraints t mode = .ok (A, b)) 
    (hu : ∀ u, ub = some u → (mode = .min ∧ u = List.replicate (rf.form.certSize mode) 1) ∨
        ∀ x, InFark A b x → ∀ j < rf.form.certSize mode, x j ≤ u.getD j 0) {φ : K →+*o ℝ}
    {U : Nat → Prop} {hin : rf.initial < rf.N} (hU : φ t ≤ cutVal (rfok_built hM hrf) φ mode U ⟨rf.initial, hin⟩) :
    ∃ x, InPoly rf.form mode A b ub x ∧ InFark A b x ∧ ∀ s, selF rf mode x s → U s := by
  have h := rfok_built hM hrf
  have hcols := fark_cols hA
  have hφ := phi_strict φ
  cases mode with
  | min =>
    simp only [cutVal] at hU
    obtain ⟨c1, c2, c3, c4, c5⟩ := Core.cut_Vmin_cert (h.sub φ) {s : Fin rf.N | U s.1}
    obtain ⟨v, -, hx, -⟩ := exists_zvec φ (Core.Vmin_mem (Core.cut_sub (h.sub φ)) ((core_over h φ).cut {s : Fin rf.N | U s.1}))
    let x : Nat → K := fun j => v.getD j 0
    have hx : ∀ s : Fin rf.N, φ (x s.1) = ((h.core φ).cut {s | U s.1}).Vmin s := hx
    have hvec : RFOK.vec (rf := rf) φ x = ((h.core φ).cut {s | U s.1}).Vmin := funext fun s => hx s
    obtain ⟨e0, e1, e2, -, e3⟩ := farkZ_rows hA
    obtain ⟨e4, e5, e6⟩ := e3 x
    have hz : ∀ i < rf.C, zrow rf x i - 0 ≤ rf.b i := by
      refine (h.zrow_le_iff φ x 0).2 fun s r hr => ?_
      rw [hvec, map_zero, add_zero]
      exact c4 s r hr
    have hF : InFark A b x := by
      refine ⟨fun j hj => ?_, fun i hi => ?_⟩
      · rw [hcols] at hj
        rw [← hφ.le_iff_le, map_zero, hx ⟨j, hj⟩]
        exact c1 _
      · rw [e1] at hi
        rcases Nat.lt_succ_iff_lt_or_eq.1 hi with hi | rfl
        · rw [(e4 i hi).1, (e4 i hi).2]
          have := hz i hi
          linarith
        · rw [e5, e6]
          rw [← hx ⟨rf.initial, hin⟩, hφ.le_iff_le] at hU
          exact neg_le_neg hU
    refine ⟨x, ⟨fun j hj => hF.nonneg j (by rw [hcols]; exact hj), ?_, fun _ j hj he => ?_, hF.rows⟩, hF, ?_⟩
    · rintro u' hu' j hj
      rcases hu u' hu' with ⟨-, rfl⟩ | hu
      · rw [List.getD_eq_getElem _ _ (by simpa using hj), List.getElem_replicate, ← hφ.le_iff_le, hx ⟨j, hj⟩, map_one]
        exact c2 _
      · exact hu x hF j hj
    · refine hφ.injective ?_
      rw [hx ⟨j, hj⟩, map_zero]
      exact c5 _ ((h.inEC_iff φ ⟨j, hj⟩).2 he)
    · rintro s ⟨hs, hp⟩
      by_contra hn
      rw [← hφ.lt_iff_lt, hx ⟨s, hs⟩, c3 ⟨s, hs⟩ hn, map_zero] at hp
      exact lt_irrefl _ hp
  | max =>
    simp only [cutVal] at hU
    obtain ⟨y, hy0, hyb, hyg, hyU⟩ := Core.exists_dual_cut (h.sub φ) {s : Fin rf.N | U s.1} ⟨rf.initial, hin⟩
    obtain ⟨y', hy0', hyg', hyb', -, hys⟩ := Core.exists_flow_mem (core_over h φ) hy0
      (d := fun t => if t = (⟨rf.initial, hin⟩ : Fin rf.N) then 1 else 0) (fun t => ite_mem φ _) (by
        rw [hyg]
        exact Core.Vmax_mem (Core.cut_ok (h.sub φ).toOK) (Core.cut_sub (h.sub φ)).bound ((core_over h φ).cut _) _)
    obtain ⟨v, hl, hv0, hve, hb, hg⟩ := exists_vec h φ hy0'
    obtain ⟨e0, e1, e2, -, e3⟩ := farkY_rows hA
    obtain ⟨e4, e5, e6⟩ := e3 fun j => v.getD j 0
    have hF : InFark A b fun j => v.getD j 0 := by
      refine ⟨fun j hj => ?_, fun i hi => ?_⟩
      · rw [List.getD_eq_getElem _ _ (by rw [hl, ← e2]; exact hj)]
        exact hv0 _ (List.getElem_mem _)
      · rw [e1] at hi
        rcases Nat.lt_succ_iff_lt_or_eq.1 hi with hi | rfl
        · rw [(e4 i hi).1, (e4 i hi).2]
          have := (h.yrow_le_iff φ hin (fun j => v.getD j 0) 0).2 (fun s => by
            rw [hb, map_zero, add_zero]; exact hyb' s (hyb s)) i hi
          linarith
        · rw [e5, e6]
          rw [← hyg, ← hyg', ← hg, ← RFOK.ygain_eq, hφ.le_iff_le] at hU
          exact neg_le_neg hU
    refine ⟨fun j => v.getD j 0, ⟨fun j hj => hF.nonneg j (by rw [hcols]; exact hj), ?_, (fun g => nomatch g), hF.rows⟩, hF, ?_⟩
    · rintro u' hu' j hj
      rcases hu u' hu' with ⟨g, -⟩ | hu
      · cases g
      · exact hu _ hF j hj
    · rintro s ⟨i, hi, hr, hp⟩
      obtain ⟨a, ha⟩ := (h.rowState_iff hi).1 hr
      have hs := h.state_lt hi ha
      have := hve ⟨s, hs⟩ ⟨i, hi⟩ ((h.mem_rows φ).2 hr)
      simp only at this hp
      rw [this] at hp
      exact hyU ⟨s, hs⟩ ⟨i, hi⟩ fun h0 => hp.ne' (hys _ _ h0)

theorem poly_of_cut (hM : M.WF) (hrf : RF.make ρ M il tl fl false = .ok rf) {A : Mat K} {b : List K} {u : List K}
    (hA : rf.farkConstraints t mode = .ok (A, b)) 
    (hu : (mode = .min ∧ u = List.replicate (rf.form.certSize mode) 1) ∨
        ∀ x, InFark A b x → ∀ j < rf.form.certSize mode, x j ≤ u.getD j 0) {φ : K →+*o ℝ}
    {U : Nat → Prop} {hin : rf.initial < rf.N} (hU : φ t ≤ cutVal (rfok_built hM hrf) φ mode U ⟨rf.initial, hin⟩) :
    ∃ x, InPoly rf.form mode A b (some u) x ∧ InFark A b x ∧ ∀ s, selF rf mode x s → U s :=
  poly_of_cut' hM hrf hA (ub := some u) (by rintro u' ⟨⟩; exact hu) hU

/-- minimality in terms of the core: no set of states whose restriction has the value `t` is cheaper -/
theorem exact_minimal_cut (hM : M.WF) (hrf : RF.make ρ M il tl fl false = .ok rf) (φ : K →+*o ℝ)
    (hlp : ∀ lp, (lpSolver lp).Sound lp) (hs : ∀ m, (solver m).Sound m)
    (hr : r ∈ (solveIter rf.form t (milpExact rf.form lpSolver solver t mode labels be)).1) :
    (r.status = .success → ∃ k : Nat, r.value = some (k : K) ∧ ∀ (U : Nat → Prop) (hin : rf.initial < rf.N),
      φ t ≤ cutVal (rfok_built hM hrf) φ mode U ⟨rf.initial, hin⟩ → k ≤ cost M labels U) ∧
    (r.status = .failed .infeasible → ∀ (U : Nat → Prop) (hin : rf.initial < rf.N),
      ¬ φ t ≤ cutVal (rfok_built hM hrf) φ mode U ⟨rf.initial, hin⟩) := by
  obtain ⟨hr, h0, h1⟩ := solveIter_mem hr
  have h := rfok_built hM hrf
  have e0 := (make_fields hrf).1
  refine ⟨fun hst => ?_, fun hst U hin hU => ?_⟩
  · obtain ⟨m, ind, w, hc, ho, hw, rfl⟩ := exact_success hr hst
    obtain ⟨A, b, u, groups, g1, g2, g3, g4, g5, g6⟩ := exact_built hM hrf hlp hc
    obtain ⟨o1, o2, o3⟩ := (hs m).optimal ho
    obtain ⟨p1, p2, p3⟩ := opt_groups g2 g4 g5 o1
    refine ⟨_, by rw [o3, p2], fun U hin hU => ?_⟩
    obtain ⟨x, hx, -, hsel⟩ := poly_of_cut hM hrf g1 g6 hU
    refine le_trans (p3 x hx) ?_
    rw [used_eq_cost h g3 g5, e0]
    exact cost_mono _ _ hsel
  · rcases exact_infeasible hr hst with hc | ⟨m, ind, hc, hi⟩
    · obtain ⟨A, b, g1, -, -, g2⟩ := construct_none (fun A b hA => (rf_fark hM hrf A b hA).2.1) hlp hc
      -- the bounds play no role here
      obtain ⟨A', b', g1'⟩ : ∃ A' b', rf.farkConstraints t mode = .ok (A', b') := ⟨A, b, g1⟩
      by_cases hm : mode = .min
      · obtain ⟨x, -, hx, -⟩ := poly_of_cut hM hrf (u := List.replicate (rf.form.certSize mode) 1) g1 (Or.inl ⟨hm, rfl⟩) hU
        exact g2 x hx
      · obtain ⟨x, -, hx, -⟩ := poly_of_cut hM hrf (u := []) g1 (Or.inr fun x hx => absurd hx (g2 x)) hU
        exact g2 x hx
    · obtain ⟨A, b, u, groups, g1, g2, g3, g4, g5, g6⟩ := exact_built hM hrf hlp hc
      obtain ⟨x, hx, -, -⟩ := poly_of_cut hM hrf g1 g6 hU
      exact (hs m).infeasible hi _ (complete_feasible g2 g4 g5 hx)

/-- **C38–C40**, minimality, both modes, with or without labels, any back end. -/
theorem exact_minimal (hM : M.WF) (hL : LabelMap M.labS) (hrf : RF.make ρ M il tl fl false = .ok rf) (φ : K →+*o ℝ)
    (hlp : ∀ lp, (lpSolver lp).Sound lp) (hs : ∀ m, (solver m).Sound m)
    (hr : r ∈ (solveIter rf.form t (milpExact rf.form lpSolver solver t mode labels be)).1) :
    (r.status = .success → ∃ k : Nat, r.value = some (k : K) ∧ ∀ k', Witness rf il tl φ mode t labels k' → k ≤ k') ∧
    (r.status = .failed .infeasible → ∀ k', ¬ Witness rf il tl φ mode t labels k') := by
  obtain ⟨h1, h2⟩ := exact_minimal_cut hM hrf φ hlp hs hr
  refine ⟨fun hst => ?_, fun hst k' hw => ?_⟩
  · obtain ⟨k, hk, h⟩ := h1 hst
    refine ⟨k, hk, fun k' hw => ?_⟩
    obtain ⟨U, hin, rfl, hU⟩ := witness_cut hM hL hrf hw
    exact h U hin hU
  · obtain ⟨U, hin, -, hU⟩ := witness_cut hM hL hrf hw
    exact h2 hst U hin hU

end

section
variable {K : Type} [Field K] [LinearOrder K] [IsStrictOrderedRing K]
variable {M : Sys K} {rf : RF K}

theorem actionsByState_ok (h : RFOK rf) : ∃ x, rf.sys.actionsByState = .ok x := by
  refine foldlM_total _ _ fun d i hi => ?_
  obtain ⟨s, a, h1, -⟩ := WF.cover h.wf (List.mem_range.1 hi)
  rw [(invGet?_iff h.wf.vals).2 h1]
  exact ⟨_, rfl⟩

/-- the labels can be looked up, and no goal or fail state carries them -/
def LabelsOK (M : Sys K) (labels : Option (List String)) : Prop :=
  ∀ ls, labels = some ls → ∀ l ∈ ls, (∃ ss, M.statesByLabel l = .ok ss) ∧ ∀ s ∈ M.labelled l, s < M.N - 2

theorem groups_ok (h : RFOK rf) (mode : Mode) {labels : Option (List String)} (hl : LabelsOK rf.sys labels) (b : Bool) :
    ∃ groups, groupsFromLabels rf.form mode labels b = .ok groups ∧ ∀ g ∈ groups, ∀ w ∈ g, w < rf.form.certSize mode := by
  have single : ∀ n : Nat, ∀ g ∈ (List.range n).map (fun i => [i]), ∀ w ∈ g, w < n := by
    intro n g hg w hw
    obtain ⟨i, hi, rfl⟩ := List.mem_map.1 hg
    rw [List.mem_singleton] at hw
    exact hw ▸ List.mem_range.1 hi
  have ofd : ∀ {α : Type} [DecidableEq α] {d : Dict α (List Nat)} {n : Nat}, (Dict.keys d).Nodup → (∀ k w, Has d k w → w < n) →
      ∀ g ∈ d.map Prod.snd, ∀ w ∈ g, w < n := by
    intro α _ d n hn hd g hg w hw
    obtain ⟨⟨k, g'⟩, hm, rfl⟩ := List.mem_map.1 hg
    refine hd k w ?_
    unfold Has
    rw [(Dict.get?_iff_mem hn).2 hm]
    exact hw
  cases labels with
  | none =>
    cases mode with
    | min => exact ⟨_, rfl, single _⟩
    | max =>
      cases b with
      | false => exact ⟨_, rfl, single _⟩
      | true =>
        obtain ⟨d, hd⟩ : ∃ d, groupsByState rf.form = .ok d := by
          refine foldlM_total _ _ fun d i hi => ?_
          have hi : i < rf.C := List.mem_range.1 hi
          obtain ⟨s, -, hs⟩ := h.exists_rowState hi
          unfold RF.rowState at hs
          cases hx : invGet? rf.idx i with
          | none => rw [hx] at hs; cases hs
          | some p =>
            rw [show rf.form.hasIdx = true from rfl, if_pos rfl, show invGet? rf.form.idx i = some p from hx]
            exact ⟨_, rfl⟩
        obtain ⟨g1, g2⟩ := groupsByState_spec hd
        refine ⟨d.map Prod.snd, ?_, ofd g1.1 fun k w hw => ((g2 k w).1 hw).1⟩
        simp only [groupsFromLabels, if_true, hd]
        rfl
  | some ls =>
    have hl := hl ls rfl
    cases mode with
    | min =>
      obtain ⟨d, hd⟩ : ∃ d, groupsMin rf.form ls = .ok d := by
        refine foldlM_total _ _ fun d l hm => ?_
        obtain ⟨ss, hss⟩ := (hl l hm).1
        rw [show rf.form.sys.statesByLabel l = .ok ss from hss]
        exact ⟨_, rfl⟩
      obtain ⟨g1, -, g2⟩ := groupsMin_spec hd
      refine ⟨d.map Prod.snd, ?_, ofd g1 fun k w hw => (hl k ((g2 k w).1 hw).1).2 w ((g2 k w).1 hw).2⟩
      simp only [groupsFromLabels, hd]
      rfl
    | max =>
      obtain ⟨abs, habs⟩ := actionsByState_ok h
      obtain ⟨a1, a2⟩ := actionsByState_spec habs
      obtain ⟨d, hd⟩ : ∃ d, groupsMax rf.form ls = .ok d := by
        refine foldlM_total _ _ fun d l hm => ?_
        obtain ⟨ss, hss⟩ := (hl l hm).1
        rw [show rf.form.sys.statesByLabel l = .ok ss from hss]
        simp only [bind, Except.bind]
        refine foldlM_total _ _ fun d s hs => ?_
        have hs := (hl l hm).2 s ((statesByLabel_mem hss s).1 hs)
        obtain ⟨a, i, hi, hi'⟩ := h.exists_row hs
        have hH : Has abs.d s a := (a2 s a).2 ⟨i, RFOK.lt_C hi', (invGet?_iff h.wf.vals).2 hi⟩
        obtain ⟨as, has⟩ : ∃ as, abs.d.get? s = some as := by
          unfold Has at hH
          cases e : abs.d.get? s with
          | none => rw [e] at hH; simp at hH
          | some as => exact ⟨as, rfl⟩
        rw [show rf.form.sys.actionsByState = .ok abs from habs]
        simp only [Model.IDict.getItem, has]
        refine foldlM_total _ _ fun d a ha => ?_
        have : Has abs.d s a := by unfold Has; rw [has]; exact ha
        obtain ⟨i, -, hi⟩ := (a2 s a).1 this
        rw [show rf.form.sys.idx.get? (s, a) = some i from
          (Dict.get?_iff_mem h.wf.keys).2 ((invGet?_iff h.wf.vals).1 hi)]
        exact ⟨_, rfl⟩
      obtain ⟨g1, g2⟩ := groupsMax_spec h.wf.keys h.wf.vals hd
      refine ⟨d.map Prod.snd, ?_, ofd g1.1 fun k w hw => ?_⟩
      · simp only [groupsFromLabels, hd]
        rfl
      · obtain ⟨h1, h2, s, a, h3, h4⟩ := (g2 k w).1 hw
        exact h.row_lt ((hl k h1).2 s h3) h2 h4

end

section
variable {K : Type} [Field K] [LinearOrder K] [IsStrictOrderedRing K]
variable {ρ ρ' : Graph.Rnd} {M : Sys K} {il tl fl : String} {rf : RF K} {mode : Mode} {t : K}
  {lpSolver solver : Milp K → Answer K} {labels : Option (List String)}

/-- **C38–C40**, completeness: with solvers that solve every problem the run has exactly one result, either a success
or the report that there is no witness. -/
theorem exact_complete (hM : M.WF) (hrf : RF.make ρ M il tl fl false = .ok rf)
    (hlp : ∀ lp, (lpSolver lp).Exact lp) (hs : ∀ m, (solver m).Exact m) (ht : 0 ≤ t ∧ t ≤ 1)
    (hi : ∀ i ∈ M.labelled il, i ∉ M.labelled tl) (hl : LabelsOK M labels) (he : mode = .max → Nonempty (K →+*o ℝ) ∧ rf.isEcFree = true) :
    ∃ r, solveIter rf.form t (milpExact rf.form lpSolver solver t mode labels .pulp) = ([r], none) ∧
      (r.status = .success ∨ r.status = .failed .infeasible) := by
  have h := rfok_built hM hrf
  obtain ⟨e0, eil, -⟩ := make_fields hrf
  have hin : rf.initial < rf.N := by
    have : rf.initial ∈ M.labelled il := by
      have := (rflive_built hM hrf).initLab
      rw [e0, eil] at this
      exact ⟨_, this, by simp⟩
    exact initial_lt hM hrf this (hi _ this)
  obtain ⟨A, b, hA⟩ : ∃ A b, rf.farkConstraints t mode = .ok (A, b) := by
    cases mode with
    | min => simp only [RF.farkConstraints, RF.farkZ, if_pos hin]; exact ⟨_, _, rfl⟩
    | max => simp only [RF.farkConstraints, RF.farkY, if_pos hin]; exact ⟨_, _, rfl⟩
  obtain ⟨f1, f2, f3⟩ := rf_fark hM hrf A b hA
  obtain ⟨groups, hg, hlt⟩ := groups_ok h mode (labels := labels) (by rw [e0]; exact hl) (decide (mode = .max ∧ false = false))
  have hrun : solveIter rf.form t (milpExact rf.form lpSolver solver t mode labels .pulp) =
      milpExact rf.form lpSolver solver t mode labels .pulp := by
    unfold solveIter
    rw [if_pos ht.1, if_pos fun _ => ht.2]
  rw [hrun]
  -- the bounds
  have hbd : chooseBounds rf.form lpSolver mode A b none = .ok none ∨
      ∃ u, chooseBounds rf.form lpSolver mode A b none = .ok (some (some u)) ∧ u.length = rf.form.certSize mode := by
    unfold chooseBounds
    cases mode with
    | min => exact Or.inr ⟨_, if_pos ⟨rfl, rfl, rfl⟩, by simp⟩
    | max =>
      rw [if_neg (by simp), if_pos (show rf.form.isEcFree = true from (he rfl).2)]
      obtain ⟨⟨φ⟩, he⟩ := he rfl
      rcases C37_computed hM hrf φ he hA hlp with ⟨-, u, hu⟩ | ⟨-, u, hu⟩
      · refine Or.inr ⟨u, by rw [hu]; rfl, ?_⟩
        rw [(C37_max hM hrf hA (fun lp => (hlp lp).toSound) hu).1, f1]
      · exact Or.inl (by rw [hu]; rfl)
  rcases hbd with hbd | ⟨u, hbd, hul⟩
  · have : constructMILP rf.form lpSolver t mode labels false none .pulp = .ok none := by
      unfold constructMILP
      rw [show rf.form.fark t mode = .ok (A, b) from hA]
      simp only [bind, Except.bind, hbd]
    refine ⟨failure .infeasible, ?_, Or.inr rfl⟩
    unfold milpExact
    rw [this]
  · obtain ⟨m, ind, hb⟩ := buildMILP_ok (f := rf.form) (be := .pulp) (ub := some u) (relaxed := false) f1 f2 (fun g => nomatch g)
      (fun g => nomatch g.2.2) hg (by rintro u' ⟨⟩; exact hul.ge) hlt
    have hc : constructMILP rf.form lpSolver t mode labels false none .pulp = .ok (some (m, ind)) := by
      unfold constructMILP
      rw [show rf.form.fark t mode = .ok (A, b) from hA]
      simp only [bind, Except.bind, hbd, hb]
    obtain ⟨A', b', u', groups', g1, g2, g3, g4, g5, -⟩ := exact_built hM hrf (fun lp => (hlp lp).toSound) hc
    unfold milpExact
    rw [hc]
    simp only
    by_cases hne : ∃ y, InPoly rf.form mode A' b' (some u') y
    · have hst := (hs m).optimal' ((exists_opt g2 g4 g5).2 hne)
      rw [if_pos hst]
      have hlen : ((solver m).vec.take (rf.form.certSize mode)).length = rf.form.certSize mode := by
        rw [List.length_take, ((hs m).optimal hst).2.1, g4.vars]; omega
      have : ∃ w, rf.form.mkSub ((solver m).vec.take (rf.form.certSize mode)) mode = .ok w := by
        cases mode with
        | min => exact ⟨_, if_pos hlen⟩
        | max => exact ⟨_, if_pos hlen⟩
      obtain ⟨w, hw⟩ := this
      rw [hw]
      exact ⟨_, rfl, Or.inl rfl⟩
    · have hst := (hs m).infeasible' fun x hx => hne ((feasible_iff g2 g4 g5).1 ⟨x, hx⟩)
      rw [if_neg (by rw [hst]; decide), hst]
      exact ⟨_, rfl, Or.inr rfl⟩

/-- a success, for a positive threshold and a system whose labels can be read, is a witness -/
theorem exact_witness (hM : M.WF) (hL : LabelMap M.labS) (hrf : RF.make ρ M il tl fl false = .ok rf) (φ : K →+*o ℝ)
    (hlS : M.labS.dflt = true ∨ ∀ s < M.N, ∃ l, s ∈ M.labelled l) (hA : LabelMap M.labA) (hlA : M.labA.dflt = true)
    (hd : M.dtmc = true → ∀ s a i, ((s, a), i) ∈ M.idx → a = 0) (ht : 0 < t) {be : Backend}
    (hlp : ∀ lp, (lpSolver lp).Sound lp) (hs : ∀ m, (solver m).Sound m) {r : ProblemResult (Subsystem K) K}
    (hr : r ∈ (solveIter rf.form t (milpExact rf.form lpSolver solver t mode labels be)).1) (hst : r.status = .success) :
    ∃ k : Nat, r.value = some (k : K) ∧ Witness rf il tl φ mode t labels k := by
  obtain ⟨cert, x, k, rfl, -, h1, h2, h3, -⟩ := exact_sound hM hL hrf hlp hs hr hst
  obtain ⟨x', res, n, q1, q2, q3⟩ := C45_returns (ρ' := ρ) hM hL hrf hlS hA hlA hd φ ht (fun _ => h2) h1
  have hn : n ∈ res.rf.sys.labelled il := ⟨_, q3, by simp⟩
  refine ⟨k, rfl, cert, mode, true, x', _, res, n, q1, q2, hn, ?_, ?_⟩
  · unfold Model.Sys.pr
    cases mode with
    | min => exact C45_min_ge hM hL hrf h1 q1 q2 φ hn
    | max => exact C45_max_ge hM hL hrf h2 h1 q1 q2 φ hn
  · rw [h3]; exact cost_sub hM hL hrf q1 q2 labels

/-- The result `r` of a search for a subsystem of `rf` with probability at least `t`: it carries a vector and the
subsystem object made from it; the system of that object, whenever it can be built, has size `k` and probability at
least `t`; `k` is the reported value, and no witnessing subsystem is smaller. -/
def Smallest (rf : RF K) (il tl : String) (φ : K →+*o ℝ) (mode : Mode) (t : K) (labels : Option (List String))
    (r : ProblemResult (Subsystem K) K) : Prop :=
  ∃ (cert : List K) (x : Subsystem K) (k : Nat), r = ⟨.success, some x, some (k : K), some cert⟩ ∧
    Subsystem.make rf cert mode false = .ok x ∧ check rf mode .ge t cert 0 = .ok true ∧ (∀ c ∈ cert, 0 ≤ c) ∧
    k = cost rf.sys labels (Selected rf.sys mode cert) ∧
    (∀ (ρ' : Graph.Rnd) (res : Subsystem.Result K), x.subsys ρ' = .ok res →
      cost res.rf.sys labels (fun s => s < res.rf.sys.N - 2) = k ∧
      ∀ n ∈ res.rf.sys.labelled il, φ t ≤ res.rf.sys.pr φ mode (res.rf.sys.labelled tl) n) ∧
    ∀ k', Witness rf il tl φ mode t labels k' → k ≤ k'

theorem exact_smallest (hM : M.WF) (hL : LabelMap M.labS) (hrf : RF.make ρ M il tl fl false = .ok rf) (φ : K →+*o ℝ)
    (hlp : ∀ lp, (lpSolver lp).Sound lp) (hs : ∀ m, (solver m).Sound m) {be : Backend} {r : ProblemResult (Subsystem K) K}
    (hr : r ∈ (solveIter rf.form t (milpExact rf.form lpSolver solver t mode labels be)).1) :
    (r.status = .success → Smallest rf il tl φ mode t labels r) ∧
    (r.status = .failed .infeasible → ∀ k, ¬ Witness rf il tl φ mode t labels k) := by
  obtain ⟨h1, h2⟩ := exact_minimal hM hL hrf φ hlp hs hr
  refine ⟨fun hst => ?_, h2⟩
  obtain ⟨cert, x, k, rfl, g1, g2, g3, g4, g5⟩ := exact_sound hM hL hrf hlp hs hr hst
  obtain ⟨k', e, h⟩ := h1 hst
  have : k = k' := by simpa using e
  subst this
  refine ⟨cert, x, k, rfl, g1, g2, g3, ?_, fun ρ' res hres => ⟨(g5 ρ' res hres).1, (g5 ρ' res hres).2 φ⟩, h⟩
  rw [(make_fields hrf).1]; exact g4

/-- **C38.** The answers of `MILPExact` for the minimal probability are correct: a success is a smallest witnessing
subsystem; "infeasible" means that there is none.  Any back end, solvers that may give up but do not lie. -/
theorem C38_min (hM : M.WF) (hL : LabelMap M.labS) (hrf : RF.make ρ M il tl fl false = .ok rf) (φ : K →+*o ℝ)
    (hlp : ∀ lp, (lpSolver lp).Sound lp) (hs : ∀ m, (solver m).Sound m) {be : Backend} {r : ProblemResult (Subsystem K) K}
    (hr : r ∈ (solveIter rf.form t (milpExact rf.form lpSolver solver t .min none be)).1) :
    (r.status = .success → Smallest rf il tl φ .min t none r) ∧
    (r.status = .failed .infeasible → ∀ k, ¬ Witness rf il tl φ .min t none k) :=
  exact_smallest hM hL hrf φ hlp hs hr

/-- **C38.** With a solver that solves its problems `MILPExact` gives one answer, success or infeasible. -/
theorem C38_returns (hM : M.WF) (hrf : RF.make ρ M il tl fl false = .ok rf)
    (hlp : ∀ lp, (lpSolver lp).Exact lp) (hs : ∀ m, (solver m).Exact m) (ht : 0 ≤ t ∧ t ≤ 1)
    (hi : ∀ i ∈ M.labelled il, i ∉ M.labelled tl) :
    ∃ r, solveIter rf.form t (milpExact rf.form lpSolver solver t .min none .pulp) = ([r], none) ∧
      (r.status = .success ∨ r.status = .failed .infeasible) :=
  exact_complete hM hrf hlp hs ht hi (fun _ g => nomatch g) (fun g => nomatch g)

/-- **C38.** ... and it is a success if and only if there is a witness (for a positive threshold and a system whose
labels can be read). -/
theorem C38_feasible_iff (hM : M.WF) (hL : LabelMap M.labS) (hrf : RF.make ρ M il tl fl false = .ok rf) (φ : K →+*o ℝ)
    (hlS : M.labS.dflt = true ∨ ∀ s < M.N, ∃ l, s ∈ M.labelled l) (hA : LabelMap M.labA) (hlA : M.labA.dflt = true)
    (hd : M.dtmc = true → ∀ s a i, ((s, a), i) ∈ M.idx → a = 0)
    (hlp : ∀ lp, (lpSolver lp).Exact lp) (hs : ∀ m, (solver m).Exact m) (ht : 0 < t ∧ t ≤ 1)
    (hi : ∀ i ∈ M.labelled il, i ∉ M.labelled tl) :
    ∃ r, solveIter rf.form t (milpExact rf.form lpSolver solver t .min none .pulp) = ([r], none) ∧
      (r.status = .success ↔ ∃ k, Witness rf il tl φ .min t none k) := by
  obtain ⟨r, hr, h⟩ := C38_returns hM hrf hlp hs ⟨ht.1.le, ht.2⟩ hi
  have hm : r ∈ (solveIter rf.form t (milpExact rf.form lpSolver solver t .min none .pulp)).1 := by rw [hr]; simp
  refine ⟨r, hr, fun hst => ?_, fun ⟨k, hk⟩ => h.resolve_right fun hst => ?_⟩
  · obtain ⟨k, -, hk⟩ := exact_witness hM hL hrf φ hlS hA hlA hd ht.1 (fun lp => (hlp lp).toSound) (fun m => (hs m).toSound) hm hst
    exact ⟨k, hk⟩
  · exact (C38_min hM hL hrf φ (fun lp => (hlp lp).toSound) (fun m => (hs m).toSound) hm).2 hst k hk

/-- **C39.** The same for the maximal probability. -/
theorem C39_max (hM : M.WF) (hL : LabelMap M.labS) (hrf : RF.make ρ M il tl fl false = .ok rf) (φ : K →+*o ℝ)
    (hlp : ∀ lp, (lpSolver lp).Sound lp) (hs : ∀ m, (solver m).Sound m) {be : Backend} {r : ProblemResult (Subsystem K) K}
    (hr : r ∈ (solveIter rf.form t (milpExact rf.form lpSolver solver t .max none be)).1) :
    (r.status = .success → Smallest rf il tl φ .max t none r) ∧
    (r.status = .failed .infeasible → ∀ k, ¬ Witness rf il tl φ .max t none k) :=
  exact_smallest hM hL hrf φ hlp hs hr

/-- **C39.** An answer is given if the system has no proper end component. -/
theorem C39_returns (hM : M.WF) (hrf : RF.make ρ M il tl fl false = .ok rf) (φ : K →+*o ℝ)
    (hlp : ∀ lp, (lpSolver lp).Exact lp) (hs : ∀ m, (solver m).Exact m) (ht : 0 ≤ t ∧ t ≤ 1)
    (hi : ∀ i ∈ M.labelled il, i ∉ M.labelled tl) (he : rf.isEcFree = true) :
    ∃ r, solveIter rf.form t (milpExact rf.form lpSolver solver t .max none .pulp) = ([r], none) ∧
      (r.status = .success ∨ r.status = .failed .infeasible) :=
  exact_complete hM hrf hlp hs ht hi (fun _ g => nomatch g) (fun _ => ⟨⟨φ⟩, he⟩)

/-- **C39.** -/
theorem C39_feasible_iff (hM : M.WF) (hL : LabelMap M.labS) (hrf : RF.make ρ M il tl fl false = .ok rf) (φ : K →+*o ℝ)
    (hlS : M.labS.dflt = true ∨ ∀ s < M.N, ∃ l, s ∈ M.labelled l) (hA : LabelMap M.labA) (hlA : M.labA.dflt = true)
    (hd : M.dtmc = true → ∀ s a i, ((s, a), i) ∈ M.idx → a = 0)
    (hlp : ∀ lp, (lpSolver lp).Exact lp) (hs : ∀ m, (solver m).Exact m) (ht : 0 < t ∧ t ≤ 1)
    (hi : ∀ i ∈ M.labelled il, i ∉ M.labelled tl) (he : rf.isEcFree = true) :
    ∃ r, solveIter rf.form t (milpExact rf.form lpSolver solver t .max none .pulp) = ([r], none) ∧
      (r.status = .success ↔ ∃ k, Witness rf il tl φ .max t none k) := by
  obtain ⟨r, hr, h⟩ := C39_returns hM hrf φ hlp hs ⟨ht.1.le, ht.2⟩ hi he
  have hm : r ∈ (solveIter rf.form t (milpExact rf.form lpSolver solver t .max none .pulp)).1 := by rw [hr]; simp
  refine ⟨r, hr, fun hst => ?_, fun ⟨k, hk⟩ => h.resolve_right fun hst => ?_⟩
  · obtain ⟨k, -, hk⟩ := exact_witness hM hL hrf φ hlS hA hlA hd ht.1 (fun lp => (hlp lp).toSound) (fun m => (hs m).toSound) hm hst
    exact ⟨k, hk⟩
  · exact (C39_max hM hL hrf φ (fun lp => (hlp lp).toSound) (fun m => (hs m).toSound) hm).2 hst k hk

/-- **C39.** With a proper end component the call always ends in an exception, whatever the back end, labels and
threshold. -/
theorem C39_not_ec_free (rf : RF K) (he : rf.isEcFree = false) (be : Backend) :
    ∃ e, solveIter rf.form t (milpExact rf.form lpSolver solver t .max labels be) = ([], some e) := by
  have key : ∃ e, constructMILP rf.form lpSolver t .max labels false none be = .error e := by
    unfold constructMILP
    cases hf : rf.form.fark t .max with
    | error e => exact ⟨e, rfl⟩
    | ok Ab =>
      have hc : chooseBounds rf.form lpSolver .max Ab.1 Ab.2 none = .ok (some none) := by
        unfold chooseBounds
        rw [if_neg (by simp), if_neg (by rw [show rf.form.isEcFree = false from he]; simp)]
      simp only [bind, Except.bind, hc]
      have : ∃ e, buildMILP rf.form .max labels false be Ab.1 Ab.2 none = .error e := by
        unfold buildMILP addIndicators
        simp only [bind, Except.bind, and_self, decide_true, if_true, true_and]
        split
        · exact ⟨_, rfl⟩
        split
        · exact ⟨_, rfl⟩
        split
        · exact ⟨_, rfl⟩
        split
        · exact ⟨_, rfl⟩
        · exact ⟨_, rfl⟩
      obtain ⟨e, he⟩ := this
      rw [he]
      exact ⟨e, rfl⟩
  obtain ⟨e, he⟩ := key
  unfold solveIter milpExact
  rw [he]
  split
  · split
    · exact ⟨_, rfl⟩
    · exact ⟨_, rfl⟩
  · exact ⟨_, rfl⟩

/-- **C40.** With labels, `MILPExact` minimises the number of the given labels that occur in the subsystem. -/
theorem C40_labels (hM : M.WF) (hL : LabelMap M.labS) (hrf : RF.make ρ M il tl fl false = .ok rf) (φ : K →+*o ℝ)
    (hlp : ∀ lp, (lpSolver lp).Sound lp) (hs : ∀ m, (solver m).Sound m) {be : Backend} {ls : List String}
    {r : ProblemResult (Subsystem K) K}
    (hr : r ∈ (solveIter rf.form t (milpExact rf.form lpSolver solver t mode (some ls) be)).1) :
    (r.status = .success → Smallest rf il tl φ mode t (some ls) r) ∧
    (r.status = .failed .infeasible → ∀ k, ¬ Witness rf il tl φ mode t (some ls) k) :=
  exact_smallest hM hL hrf φ hlp hs hr

/-- **C40.** An answer is given if the labels can be looked up and none of them is on the goal or fail state. -/
theorem C40_returns (hM : M.WF) (hrf : RF.make ρ M il tl fl false = .ok rf) (φ : K →+*o ℝ)
    (hlp : ∀ lp, (lpSolver lp).Exact lp) (hs : ∀ m, (solver m).Exact m) (ht : 0 ≤ t ∧ t ≤ 1)
    (hi : ∀ i ∈ M.labelled il, i ∉ M.labelled tl) (he : mode = .max → rf.isEcFree = true) {ls : List String}
    (hl : ∀ l ∈ ls, (∃ ss, M.statesByLabel l = .ok ss) ∧ ∀ s ∈ M.labelled l, s < M.N - 2) :
    ∃ r, solveIter rf.form t (milpExact rf.form lpSolver solver t mode (some ls) .pulp) = ([r], none) ∧
      (r.status = .success ∨ r.status = .failed .infeasible) :=
  exact_complete hM hrf hlp hs ht hi (fun ls' e => by cases e; exact hl) fun g => ⟨⟨φ⟩, he g⟩

/-- **C40.** A label on the goal or fail state makes every call fail to find a subsystem. -/
theorem C40_target_label (hM : M.WF) (hrf : RF.make ρ M il tl fl false = .ok rf)
    (hlp : ∀ lp, (lpSolver lp).Sound lp) {be : Backend} {ls : List String}
    {l : String} (hl : l ∈ ls) {s : Nat} (hsl : s ∈ M.labelled l) (hs' : s = M.N - 2 ∨ s = M.N - 1)
    {r : ProblemResult (Subsystem K) K}
    (hr : r ∈ (solveIter rf.form t (milpExact rf.form lpSolver solver t mode (some ls) be)).1) : r.status ≠ .success := by
  intro hst
  have h := rfok_built hM hrf
  have e0 := (make_fields hrf).1
  obtain ⟨hr, -⟩ := solveIter_mem hr
  obtain ⟨m, ind, w, hc, -⟩ := exact_success hr hst
  obtain ⟨A, b, u, groups, -, -, g3, -, g5, -⟩ := exact_built hM hrf hlp hc
  have hofd : ∀ {d : Dict String (List Nat)} {w : Nat}, groups = d.map Prod.snd → Has d l w → w < rf.form.certSize mode := by
    intro d w e hw
    unfold Has at hw
    cases hk : d.get? l with
    | none => rw [hk] at hw; simp at hw
    | some g =>
      rw [hk] at hw
      exact g5 g (by rw [e]; exact List.mem_map_of_mem (f := Prod.snd) (Dict.mem_of_get? hk)) w hw
  have hN := h.hN
  have hC := h.hC
  subst e0
  cases mode with
  | min =>
    simp only [groupsFromLabels] at g3
    cases hd : groupsMin rf.form ls with
    | error e => rw [hd] at g3; cases g3
    | ok d =>
      rw [hd] at g3
      cases g3
      have : s < rf.sys.N - 2 := hofd rfl (((groupsMin_spec hd).2.2 l s).2 ⟨hl, hsl⟩)
      omega
  | max =>
    simp only [groupsFromLabels] at g3
    cases hd : groupsMax rf.form ls with
    | error e => rw [hd] at g3; cases g3
    | ok d =>
      rw [hd] at g3
      cases g3
      have key : ∀ a i, ((s, a), i) ∈ rf.sys.idx → i < rf.sys.C → i < rf.sys.C - 2 := fun a i h1 h2 =>
        hofd rfl (((groupsMax_spec h.wf.keys h.wf.vals hd).2 l i).2 ⟨hl, h2, s, a, hsl, h1⟩)
      rcases hs' with rfl | rfl
      · obtain ⟨a, ha⟩ := h.goalRow
        exact absurd (key _ _ ha (by omega)) (by omega)
      · obtain ⟨a, ha⟩ := h.failRow
        exact absurd (key _ _ ha (by omega)) (by omega)

end

/-! ### the hypotheses are met -/

/-- a state that loops with probability 1/2 and carries the label "a" -/
def exactEx : Sys ℚ := mkSys (loopP ℚ (1/2)) loopI
  (IDict.mk' [("init", [0]), ("goal", [1]), ("fail", [2]), ("a", [0])] true)

theorem exactEx_wf : exactEx.WF := by
  refine mkSys_wf (by simp [loopP]) ?_ ?_ (by simp [loopI]) (by simp [loopI]) (by decide +kernel)
  · intro e he
    simp only [loopP, List.mem_cons, List.not_mem_nil, or_false] at he
    rcases he with rfl | rfl | rfl | rfl | rfl <;> norm_num [loopP]
  · intro i hi
    have hi : i < 3 := hi
    show ∑ j ∈ Finset.range 3, _ = 1
    interval_cases i <;> simp [Finset.sum_range_succ, loopP, Dok.get, Dict.get?]; norm_num

theorem exactEx_labS : LabelMap exactEx.labS :=
  ⟨id, [("init", [0]), ("goal", [1]), ("fail", [2]), ("a", [0])], true, [], fun _ => List.Perm.refl _,
    isPyDict_of (by decide +kernel) (by decide +kernel), rfl⟩

theorem exactEx_labA : LabelMap exactEx.labA :=
  ⟨id, [], true, [], fun _ => List.Perm.refl _, isPyDict_of (by decide +kernel) (by decide +kernel), rfl⟩

theorem exactEx_ok : ∃ rf, RF.make exRnd exactEx "init" "goal" "fail" false = .ok rf ∧ rf.isEcFree = true :=
  exists_of_ok_and (p := fun rf : RF ℚ => rf.isEcFree) (by decide +kernel)

theorem exactEx_init : ∀ i ∈ exactEx.labelled "init", i ∉ exactEx.labelled "goal" := by
  rintro i ⟨ss, h1, h2⟩ ⟨ss', h3, h4⟩
  have e1 : exactEx.statesByLabel "init" = .ok [0] := by decide +kernel
  have e2 : exactEx.statesByLabel "goal" = .ok [1] := by decide +kernel
  rw [e1] at h1; cases h1
  rw [e2] at h3; cases h3
  simp only [List.mem_singleton] at h2 h4
  omega

/-- There are exact solvers, and then both calls give an answer. -/
example : ∃ rf solver, RF.make exRnd exactEx "init" "goal" "fail" false = .ok rf ∧ (∀ m, (solver m : Answer ℚ).Exact m) ∧
    (∃ r, solveIter rf.form (1/4 : ℚ) (milpExact rf.form solver solver (1/4) .min none .pulp) = ([r], none) ∧
      (r.status = .success ↔ ∃ k, Witness rf "init" "goal" ratR .min (1/4) none k)) ∧
    (∃ r, solveIter rf.form (1/4 : ℚ) (milpExact rf.form solver solver (1/4) .max none .pulp) = ([r], none) ∧
      (r.status = .success ↔ ∃ k, Witness rf "init" "goal" ratR .max (1/4) none k)) ∧
    ∃ r, solveIter rf.form (1/4 : ℚ) (milpExact rf.form solver solver (1/4) .max (some ["a"]) .pulp) = ([r], none) ∧
      (r.status = .success ∨ r.status = .failed .infeasible) := by
  obtain ⟨rf, hrf, he⟩ := exactEx_ok
  obtain ⟨solver, hs⟩ := exists_exact ℚ
  have hd : exactEx.dtmc = true → ∀ s a i, ((s, a), i) ∈ exactEx.idx → a = 0 := fun g => by cases g
  refine ⟨rf, solver, hrf, hs,
    C38_feasible_iff exactEx_wf exactEx_labS hrf ratR (Or.inl rfl) exactEx_labA rfl hd hs hs (by norm_num) exactEx_init,
    C39_feasible_iff exactEx_wf exactEx_labS hrf ratR (Or.inl rfl) exactEx_labA rfl hd hs hs (by norm_num) exactEx_init he,
    C40_returns exactEx_wf hrf ratR hs hs (by norm_num) exactEx_init (fun _ => he) ?_⟩
  intro l hl
  obtain rfl := List.mem_singleton.1 hl
  have e1 : exactEx.statesByLabel "a" = .ok [0] := by decide +kernel
  refine ⟨⟨_, e1⟩, ?_⟩
  rintro s ⟨ss, h1, h2⟩
  rw [e1] at h1; cases h1
  rw [List.mem_singleton] at h2
  subst h2
  decide

/-- a system with a proper end component, for `C39_not_ec_free` -/
example : ∃ rf, RF.make exRnd (exSys ℚ) "init" "goal" "fail" false = .ok rf ∧ rf.isEcFree = false := by
  obtain ⟨rf, h1, h2⟩ := exists_of_ok_and (x := RF.make exRnd (exSys ℚ) "init" "goal" "fail" false)
    (p := fun rf => !rf.isEcFree) (by decide +kernel)
  exact ⟨rf, h1, by simpa using h2⟩

/-- the hypotheses of `C37_computed`, `C37_min`, `C37_max` -/
example (mode : Mode) : ∃ rf A b solver, RF.make exRnd exactEx "init" "goal" "fail" false = .ok rf ∧ rf.isEcFree = true ∧
    rf.farkConstraints (1/4) mode = .ok (A, b) ∧ (∀ lp, (solver lp : Answer ℚ).Exact lp) ∧
    (((∃ x, InFark A b x) ∧ ∃ u, computeUpperBounds solver A b = .ok (.optimal, u)) ∨
      ((∀ x, ¬ InFark A b x) ∧ ∃ u, computeUpperBounds solver A b = .ok (.infeasible, u))) := by
  obtain ⟨rf, hrf, he⟩ := exactEx_ok
  obtain ⟨solver, hs⟩ := exists_exact ℚ
  have hin : rf.initial < rf.N := initial_lt exactEx_wf hrf ⟨[0], by decide +kernel, by simp⟩
    (exactEx_init 0 ⟨[0], by decide +kernel, by simp⟩)
  obtain ⟨A, b, hA⟩ : ∃ A b, rf.farkConstraints (1/4) mode = .ok (A, b) := by
    cases mode with
    | min => simp only [RF.farkConstraints, RF.farkZ, if_pos hin]; exact ⟨_, _, rfl⟩
    | max => simp only [RF.farkConstraints, RF.farkY, if_pos hin]; exact ⟨_, _, rfl⟩
  exact ⟨rf, A, b, solver, hrf, he, hA, hs, C37_computed exactEx_wf hrf ratR he hA hs⟩

end Verif.Props
