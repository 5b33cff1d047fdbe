import Verif.Proofs.QS
import Verif.Props.MILPExact
/-!
# C41–C44: `QSHeur`

`K` is any ordered field; where a competing subsystem occurs, the reals.
-/
set_option linter.unusedSectionVars false

namespace Verif.Props
open Verif.Model Verif.Model.Milp Verif.Spec Verif.Proofs Verif.Theory Verif.Proofs.IDict Finset

section
variable {K : Type} [Field K] [LinearOrder K] [IsStrictOrderedRing K] {σ : Type}
variable {ρ ρ' : Graph.Rnd} {M : Sys K} {il tl fl : String} {rf : RF K} {mode : Mode} {t : K}
  {lpSolver : Milp K → Answer K} {solver : Nat → Milp K → Answer K} {labels : Option (List String)} {be : Backend}
  {r : ProblemResult (Subsystem K) K} {n : Nat} {ini : List (Nat × List Nat) → Except Err (List (Nat × K))}
  {upd : List (Nat × List Nat) → Updater K}

/-! ### sizes as `QSHeur` counts them -/

/-- What `QSHeur` counts: the positive entries of the certificate (states in min mode, state-action pairs in max
mode), or, with labels, the given labels that occur on selected states. -/
noncomputable def qsCost (M : Sys K) (mode : Mode) (labels : Option (List String)) (cert : List K) : Nat :=
  match labels with
  | none => cert.countP fun x => decide (0 < x)
  | some ls => cost M (some ls) (Selected M mode cert)

theorem countP_card (v : List K) : (v.countP fun x => decide (0 < x)) = #{j ∈ range v.length | 0 < v.getD j 0} := by
  induction v with
  | nil => simp
  | cons a v ih =>
    rw [List.countP_cons, ih, card_filter, card_filter, List.length_cons, sum_range_succ']
    simp

theorem countP_drop (v : List K) (n l : Nat) (h : v.length = n + l) :
    ((v.drop n).countP fun x => decide (0 < x)) = #{k ∈ range l | 0 < v.getD (n + k) 0} := by
  rw [countP_card, List.length_drop, h, Nat.add_sub_cancel_left]
  refine congrArg _ (filter_congr fun k _ => ?_)
  rw [List.getD_eq_getElem?_getD, List.getElem?_drop, ← List.getD_eq_getElem?_getD]

theorem groups_flag (f : Form (Subsystem K) K) (h : labels ≠ none ∨ mode = .min) (b b' : Bool) :
    groupsFromLabels f mode labels b = groupsFromLabels f mode labels b' := by
  cases labels with
  | none =>
    rcases h with h | rfl
    · exact absurd rfl h
    · rfl
  | some ls => cases mode <;> rfl

theorem used_eq_qsCost (h : RFOK rf) {groups : List (List Nat)}
    (hg : groupsFromLabels rf.form mode labels (decide (mode = .max ∧ true = false)) = .ok groups)
    (hlt : ∀ g ∈ groups, ∀ w ∈ g, w < rf.form.certSize mode) {v : List K} (hl : v.length = rf.form.certSize mode) :
    usedGroups groups (fun j => v.getD j 0) = qsCost rf.sys mode labels v := by
  cases labels with
  | none =>
    have e : groups = (List.range (rf.form.certSize mode)).map fun i => [i] := by
      cases mode with
      | min => cases hg; rfl
      | max => cases hg; rfl
    rw [e, usedGroups_single]
    unfold qsCost
    rw [countP_card, hl]
  | some ls =>
    rw [groups_flag _ (Or.inl (by simp)) _ (decide (mode = .max ∧ false = false))] at hg
    rw [used_eq_cost h hg hlt]
    exact cost_congr _ _ fun s => selF_iff h hl s

/-- the number of selected states (labels on selected states) is at most what `QSHeur` counts -/
theorem cost_le_qsCost (h : RFOK rf) {v : List K} (hl : v.length = rf.form.certSize mode) :
    cost rf.sys labels (Selected rf.sys mode v) ≤ qsCost rf.sys mode labels v := by
  classical
  cases labels with
  | some ls => exact le_rfl
  | none =>
    unfold cost qsCost
    simp only
    rw [countP_card, hl]
    cases mode with
    | min =>
      refine card_le_card fun s hs => ?_
      rw [mem_filter] at hs ⊢
      exact ⟨hs.1, getD_pos.2 hs.2⟩
    | max =>
      refine card_le_card_of_surjOn (fun i => (rf.rowState i).getD 0) fun s hs => ?_
      rw [mem_coe, mem_filter] at hs
      obtain ⟨a, i, c, ha, h3, h4⟩ := hs.2
      have hi : i < rf.C := by
        obtain ⟨h5, -⟩ := List.getElem?_eq_some_iff.1 h3
        have : v.length = rf.C := hl
        omega
      refine ⟨i, ?_, ?_⟩
      · rw [mem_coe, mem_filter, mem_range]
        exact ⟨hi, getD_pos.2 ⟨c, h3, h4⟩⟩
      · show (rf.rowState i).getD 0 = s
        rw [(h.rowState_iff hi).2 ⟨a, ha⟩]
        rfl

/-! ### the constructed model -/

theorem qs_run (hr : r ∈ (solveIter rf.form t (qsHeur rf.form lpSolver solver n ini upd t mode labels be)).1) :
    (0 ≤ t ∧ t ≤ 1) ∧
    ((constructMILP rf.form lpSolver t mode labels true none be = .ok none ∧ r = failure .infeasible) ∨
      ∃ m ind obj, constructMILP rf.form lpSolver t mode labels true none be = .ok (some (m, ind)) ∧ ini ind = .ok obj ∧
        r ∈ (qsLoop rf.form solver mode (upd ind) n m obj).1) := by
  obtain ⟨hr, h0, h1⟩ := solveIter_mem hr
  refine ⟨⟨h0, h1 rfl⟩, ?_⟩
  unfold qsHeur at hr
  split at hr
  · simp at hr
  · rename_i hc
    rw [List.mem_singleton] at hr
    exact Or.inl ⟨hc, hr⟩
  · rename_i m ind hc
    split at hr
    · simp at hr
    · rename_i obj ho
      exact Or.inr ⟨m, ind, obj, hc, ho, hr⟩

theorem take_getD {v : List K} {k : Nat} (j : Nat) (hj : j < k) : (v.take k).getD j 0 = v.getD j 0 := by
  rw [List.getD_eq_getElem?_getD, List.getElem?_take_of_lt hj, List.getD_eq_getElem?_getD]

theorem used_le_countP {σ : Type} {f : Form σ K} {relaxed : Bool} {A : Mat K} {b : List K} {ub : Option (List K)} {groups : List (List Nat)}
    {m : Milp K} {ind : List (Nat × List Nat)} (B : Built f mode relaxed A b ub groups m ind)
    (hlt : ∀ g ∈ groups, ∀ w ∈ g, w < f.certSize mode) {v : List K} (hl : v.length = m.vars.length)
    (hv : m.Feasible fun j => v.getD j 0) :
    usedGroups groups (fun j => v.getD j 0) ≤ (v.drop (f.certSize mode)).countP fun x => decide (0 < x) := by
  rw [countP_drop v _ groups.length (by rw [hl, B.vars])]
  unfold usedGroups
  refine card_le_card fun k hk => ?_
  rw [mem_filter] at hk ⊢
  refine ⟨hk.1, ?_⟩
  obtain ⟨w, hw, hp⟩ := hk.2
  obtain ⟨-, h2, h3⟩ := (B.feasible hlt _).1 hv
  have hk' := mem_range.1 hk.1
  have := h3 k (groups.getD k []) (by rw [List.getD_eq_getElem _ _ hk']; exact List.getElem?_eq_getElem hk') w hw
  rcases (h2 k hk').1.lt_or_eq with h | h
  · exact h
  · rw [← h, mul_zero] at this
    exact absurd this (not_le.2 hp)

/-- soundness of the heuristic for solvers that may have been stopped -/
theorem heur_sound (hM : M.WF) (hL : LabelMap M.labS) (hrf : RF.make ρ M il tl fl false = .ok rf)
    (hlp : ∀ lp, (lpSolver lp).Sound lp) (hs : ∀ k m, (solver k m).Right m)
    (hr : r ∈ (solveIter rf.form t (qsHeur rf.form lpSolver solver n ini upd t mode labels be)).1) (hst : r.status = .success) :
    ∃ (cert : List K) (x : Subsystem K) (k : Nat), r = ⟨.success, some x, some (k : K), some cert⟩ ∧
      Subsystem.make rf cert mode false = .ok x ∧ check rf mode .ge t cert 0 = .ok true ∧ (∀ c ∈ cert, 0 ≤ c) ∧
      (mode = .min → ∀ s < rf.N, rf.inProperEC s = true → cert.getD s 0 = 0) ∧
      (LabelsOK M labels → cost M labels (Selected M mode cert) ≤ k) ∧
      ∀ (ρ' : Graph.Rnd) (res : Subsystem.Result K), x.subsys ρ' = .ok res →
        (LabelsOK M labels → cost res.rf.sys labels (fun s => s < res.rf.sys.N - 2) ≤ k) ∧
        ∀ (φ : K →+*o ℝ), ∀ n ∈ res.rf.sys.labelled il, φ t ≤ res.rf.sys.pr φ mode (res.rf.sys.labelled tl) n := by
  obtain ⟨ht, ⟨-, rfl⟩ | ⟨m, ind, obj, hc, -, hr⟩⟩ := qs_run hr
  · cases hst
  obtain ⟨A, b, ub, groups, g1, -, g3, -, g4, g5⟩ := construct_inv (rf_fark hM hrf) hlp hc
  obtain ⟨v, v1, v2, w, hw, rfl⟩ := qsLoop_sound hs n m obj g4.keys rfl (fun x hx => hx) r hr hst
  have g2 := fark_cols g1
  have p1 := (g4.poly _ v2).1
  have h := rfok_built hM hrf
  have e0 := (make_fields hrf).1
  have hlen : (v.take (rf.form.certSize mode)).length = rf.form.certSize mode := by
    rw [List.length_take, v1, g4.vars]; omega
  have p1' := p1.congr g2 (fun j hj => take_getD (v := v) j hj)
  obtain ⟨c1, c2⟩ := poly_check ht g1 hlen p1'
  have hcost : LabelsOK M labels → cost M labels (Selected M mode (v.take (rf.form.certSize mode))) ≤
      (v.drop (rf.form.certSize mode)).countP fun x => decide (0 < x) := by
    intro hl
    obtain ⟨groups', q1, hlt⟩ := groups_ok h mode (labels := labels) (by rw [e0]; exact hl) (decide (mode = .max ∧ true = false))
    rw [g3] at q1
    cases q1
    refine le_trans ?_ (used_le_countP g4 hlt v1 v2)
    rw [← usedGroups_congr hlt (fun j hj => take_getD (v := v) j hj), used_eq_qsCost h g3 hlt hlen, ← e0]
    exact cost_le_qsCost h hlen
  refine ⟨_, w, _, rfl, hw, c1, c2, fun hm s hs he => p1'.ec hm s (by subst hm; exact hs) he, hcost, fun ρ' res hres => ⟨fun hl => ?_, fun φ n hn => ?_⟩⟩
  · rw [cost_sub hM hL hrf hw hres labels]
    exact hcost hl
  · unfold Model.Sys.pr
    cases mode with
    | min => exact C45_min_ge hM hL hrf c1 hw hres φ hn
    | max => exact C45_max_ge hM hL hrf c2 c1 hw hres φ hn

/-- **C41.** Every success that `QSHeur` reports, for any initial objective, any updater, any number of iterations,
any solver that does not lie (it may differ from call to call), any back end and labels: the reported vector is
accepted as a certificate for the threshold, is non-negative, vanishes (min mode) on proper end components; the
reported subsystem object was made from it and, whenever its system can be built, has probability at least the
threshold; the reported value is at least the size. -/
theorem C41_sound (hM : M.WF) (hL : LabelMap M.labS) (hrf : RF.make ρ M il tl fl false = .ok rf)
    (hlp : ∀ lp, (lpSolver lp).Sound lp) (hs : ∀ k m, (solver k m).Sound m)
    (hr : r ∈ (solveIter rf.form t (qsHeur rf.form lpSolver solver n ini upd t mode labels be)).1) (hst : r.status = .success) :
    ∃ (cert : List K) (x : Subsystem K) (k : Nat), r = ⟨.success, some x, some (k : K), some cert⟩ ∧
      Subsystem.make rf cert mode false = .ok x ∧ check rf mode .ge t cert 0 = .ok true ∧ (∀ c ∈ cert, 0 ≤ c) ∧
      (mode = .min → ∀ s < rf.N, rf.inProperEC s = true → cert.getD s 0 = 0) ∧
      (LabelsOK M labels → cost M labels (Selected M mode cert) ≤ k) ∧
      ∀ (ρ' : Graph.Rnd) (res : Subsystem.Result K), x.subsys ρ' = .ok res →
        (LabelsOK M labels → cost res.rf.sys labels (fun s => s < res.rf.sys.N - 2) ≤ k) ∧
        ∀ (φ : K →+*o ℝ), ∀ n ∈ res.rf.sys.labelled il, φ t ≤ res.rf.sys.pr φ mode (res.rf.sys.labelled tl) n :=
  heur_sound hM hL hrf hlp (fun k m => (hs k m).right) hr hst

/-! ### C42: the protocol -/

/-- **C42.** Whatever initial objective, updater and solver do: the results are successes, possibly followed by one
failure; there are at most as many as iterations (one if there is no iteration at all but the polytope is found empty
before); without a failure and without an exception there are exactly as many; a failure ends the run without an
exception; no exception and at least one iteration means at least one result. -/
theorem C42_protocol (f : Form σ K) :
    let run := solveIter f t (qsHeur f lpSolver solver n ini upd t mode labels be)
    run.1.length ≤ max n 1 ∧
    (run.2 = none → 1 ≤ n → run.1 ≠ []) ∧
    ∃ rs tail, run.1 = rs ++ tail ∧ (∀ r ∈ rs, r.status = .success) ∧
      ((tail = [] ∧ (run.2 = none → rs.length = n)) ∨
        ∃ s, s ≠ .optimal ∧ tail = [failure s] ∧ run.2 = none) := by
  intro run
  have nil : ∀ e, run = ([], some e) → run.1.length ≤ max n 1 ∧ (run.2 = none → 1 ≤ n → run.1 ≠ []) ∧
      ∃ rs tail, run.1 = rs ++ tail ∧ (∀ r ∈ rs, r.status = .success) ∧
      ((tail = [] ∧ (run.2 = none → rs.length = n)) ∨ ∃ s, s ≠ .optimal ∧ tail = [failure s] ∧ run.2 = none) := by
    intro e he
    rw [he]
    exact ⟨by simp, by simp, [], [], rfl, by simp, Or.inl ⟨rfl, by simp⟩⟩
  by_cases h0 : 0 ≤ t
  swap
  · exact nil .assertion (by simp only [run, solveIter, if_neg h0])
  by_cases h1 : f.isRF = true → t ≤ 1
  swap
  · exact nil .assertion (by simp only [run, solveIter, if_pos h0, if_neg h1])
  have e0 : run = qsHeur f lpSolver solver n ini upd t mode labels be := by simp only [run, solveIter, if_pos h0, if_pos h1]
  cases hc : constructMILP f lpSolver t mode labels true none be with
  | error e => exact nil e (by rw [e0]; simp only [qsHeur, hc])
  | ok o =>
    cases o with
    | none =>
      have e1 : run = ([failure .infeasible], none) := by rw [e0]; simp only [qsHeur, hc]
      rw [e1]
      exact ⟨by simp, by simp, [], [_], rfl, by simp, Or.inr ⟨.infeasible, by simp, rfl, rfl⟩⟩
    | some p =>
      obtain ⟨m, ind⟩ := p
      cases hi : ini ind with
      | error e => exact nil e (by rw [e0]; simp only [qsHeur, hc, hi])
      | ok obj =>
        have e1 : run = qsLoop f solver mode (upd ind) n m obj := by rw [e0]; simp only [qsHeur, hc, hi]
        rw [e1]
        obtain ⟨h1, rs, tail, h2, h3, h4⟩ := qsLoop_shape f solver mode (upd ind) n m obj
        refine ⟨le_trans h1 (le_max_left _ _), fun hn h1n => ?_, rs, tail, h2, h3, h4⟩
        rw [h2]
        rcases h4 with ⟨-, h5⟩ | ⟨s, -, h5, -⟩
        · have := h5 hn
          intro g
          rw [List.append_eq_nil_iff] at g
          rw [g.1] at this
          simp at this
          omega
        · rw [h5]; simp

/-- **C42.** `solve` returns the last result. -/
theorem C42_solve (f : Form σ K) (hn : 1 ≤ n)
    (hok : (solveIter f t (qsHeur f lpSolver solver n ini upd t mode labels be)).2 = none) :
    ∃ r, solveLast (solveIter f t (qsHeur f lpSolver solver n ini upd t mode labels be)) = .ok r ∧
      (solveIter f t (qsHeur f lpSolver solver n ini upd t mode labels be)).1.getLast? = some r := by
  obtain ⟨-, h2, -⟩ := C42_protocol (t := t) (lpSolver := lpSolver) (solver := solver) (n := n) (ini := ini) (upd := upd)
    (mode := mode) (labels := labels) (be := be) f
  have := h2 hok hn
  obtain ⟨r, hr⟩ : ∃ r, (solveIter f t (qsHeur f lpSolver solver n ini upd t mode labels be)).1.getLast? = some r :=
    ⟨_, List.getLast?_eq_some_getLast this⟩
  exact ⟨r, by simp only [solveLast, hok, hr], hr⟩

/-! ### positive weights -/

theorem built_ind {σ : Type} {f : Form σ K} {relaxed : Bool} {A : Mat K} {b : List K} {ub : Option (List K)} {groups : List (List Nat)}
    {m : Milp K} {ind : List (Nat × List Nat)} (B : Built f mode relaxed A b ub groups m ind) :
    (ind.map Prod.fst).Nodup ∧ (∀ e ∈ ind, e.1 < m.vars.length) ∧
    ∀ e, e ∈ ind ↔ ∃ k, groups[k]? = some e.2 ∧ e.1 = f.certSize mode + k := by
  have hmem : ∀ e, e ∈ ind ↔ ∃ k, groups[k]? = some e.2 ∧ e.1 = f.certSize mode + k := by
    rintro ⟨i, g⟩
    rw [B.ind, List.mem_map]
    constructor
    · rintro ⟨⟨g', i'⟩, h1, h2⟩
      obtain ⟨h3, h4⟩ := List.mem_zipIdx_iff_le_and_getElem?_sub.1 h1
      simp only [Prod.mk.injEq] at h2
      obtain ⟨rfl, rfl⟩ := h2
      exact ⟨i' - f.certSize mode, h4, by simp only at h3 ⊢; omega⟩
    · rintro ⟨k, h1, h2⟩
      simp only at h1 h2
      exact ⟨(g, i), List.mem_zipIdx_iff_le_and_getElem?_sub.2 ⟨by simp only; omega, by simp only [h2, Nat.add_sub_cancel_left, h1]⟩, rfl⟩
  refine ⟨?_, fun e he => ?_, hmem⟩
  · rw [B.ind, List.map_map]
    show ((groups.zipIdx (f.certSize mode)).map Prod.snd).Nodup
    rw [List.zipIdx_map_snd]
    exact List.nodup_range'
  · obtain ⟨k, h1, h2⟩ := (hmem e).1 he
    obtain ⟨h3, -⟩ := List.getElem?_eq_some_iff.1 h1
    rw [B.vars, h2]
    omega

/-- what is known of a run with positive weights; a solution is the only one below itself -/
theorem qs_best (hM : M.WF) (hrf : RF.make ρ M il tl fl false = .ok rf)
    (hlp : ∀ lp, (lpSolver lp).Sound lp) (hs : ∀ k m, (solver k m).Sound m) (hl : LabelsOK M labels)
    (hini : ∀ ind obj, ini ind = .ok obj → PosInit ind obj)
    (hupd : ∀ ind : List (Nat × List Nat), (ind.map Prod.fst).Nodup → GoodUpd ind (upd ind)) :
    let run := solveIter rf.form t (qsHeur rf.form lpSolver solver n ini upd t mode labels be)
    (∃ e, run = ([], some e)) ∨
    (run = ([failure .infeasible], none) ∧ ∃ A b, rf.farkConstraints t mode = .ok (A, b) ∧ ∀ x, ¬ InFark A b x) ∨
    ∃ A b ub groups m ind, rf.farkConstraints t mode = .ok (A, b) ∧
      groupsFromLabels rf.form mode labels (decide (mode = .max ∧ true = false)) = .ok groups ∧
      (∀ g ∈ groups, ∀ w ∈ g, w < rf.form.certSize mode) ∧
      Built rf.form mode true A b ub groups m ind ∧
      (∀ u, ub = some u → (mode = .min ∧ u = List.replicate (rf.form.certSize mode) 1) ∨
          ∀ x, InFark A b x → ∀ j < rf.form.certSize mode, x j ≤ u.getD j 0) ∧
      ∃ rs vs tail, run.1 = rs ++ tail ∧ List.Forall₂ (Out rf.form mode) rs vs ∧
        (∀ v ∈ vs, v.length = m.vars.length ∧ m.Feasible (fun j => v.getD j 0) ∧
          ∀ x, m.Feasible x → (∀ i, x i ≤ v.getD i 0 ∧ (v.getD i 0 = 0 → x i = 0)) → ∀ e ∈ ind, x e.1 = v.getD e.1 0) ∧
        vs.Pairwise (fun v v' => ∀ cs, (upd ind).constraints v = .ok cs → ∀ i, ([(i, 1)], CSense.eq, (0 : K)) ∈ cs → v'.getD i 0 = 0) ∧
        (tail = [] ∨ ∃ s, tail = [failure s] ∧ s ≠ .optimal ∧ s ≠ .unbounded ∧
          (s = .infeasible → rs = [] ∧ ∀ x, ¬ m.Feasible x)) := by
  intro run
  by_cases h0 : 0 ≤ t
  swap
  · exact Or.inl ⟨.assertion, by simp only [run, solveIter, if_neg h0]⟩
  by_cases h1 : rf.form.isRF = true → t ≤ 1
  swap
  · exact Or.inl ⟨.assertion, by simp only [run, solveIter, if_pos h0, if_neg h1]⟩
  have e0 : run = qsHeur rf.form lpSolver solver n ini upd t mode labels be := by simp only [run, solveIter, if_pos h0, if_pos h1]
  cases hc : constructMILP rf.form lpSolver t mode labels true none be with
  | error e => exact Or.inl ⟨e, by rw [e0]; simp only [qsHeur, hc]⟩
  | ok o =>
    cases o with
    | none =>
      obtain ⟨A, b, g1, -, -, g2⟩ := construct_none (fun A b hA => (rf_fark hM hrf A b hA).2.1) hlp hc
      exact Or.inr (Or.inl ⟨by rw [e0]; simp only [qsHeur, hc], A, b, g1, g2⟩)
    | some p =>
      obtain ⟨m, ind⟩ := p
      cases hi : ini ind with
      | error e => exact Or.inl ⟨e, by rw [e0]; simp only [qsHeur, hc, hi]⟩
      | ok obj =>
        have e1 : run = qsLoop rf.form solver mode (upd ind) n m obj := by rw [e0]; simp only [qsHeur, hc, hi]
        obtain ⟨A, b, ub, groups, g1, -, g3, -, g4, g5⟩ := construct_inv (rf_fark hM hrf) hlp hc
        obtain ⟨i1, i2, i3⟩ := built_ind g4
        obtain ⟨groups', q1, hlt⟩ := groups_ok (rfok_built hM hrf) mode (labels := labels)
          (by rw [(make_fields hrf).1]; exact hl) (decide (mode = .max ∧ true = false))
        rw [g3] at q1
        cases q1
        have hpoly := fun x hx => (g4.feasible hlt x).1 hx
        obtain ⟨rs, vs, tail, r1, r2, r3, r4, r5⟩ := qsLoop_best (f := rf.form) (mode := mode) (hupd ind i1) hs
          (F := m.Feasible) (L := m.vars.length) (fun x hx i hi => by
            obtain ⟨h2, h3, -⟩ := hpoly x hx
            rcases Nat.lt_or_ge i (rf.form.certSize mode) with h | h
            · exact h2.nonneg i h
            · have := (h3 (i - rf.form.certSize mode) (by rw [g4.vars] at hi; omega)).1
              rwa [Nat.add_sub_cancel' h] at this) i2 n (fun _ => False) m obj
          ⟨g4.keys, rfl, g4.maximize, g4.objK, fun x => by simp⟩ ((hini ind obj hi).objOK i1 _)
        refine Or.inr (Or.inr ⟨A, b, ub, groups, m, ind, g1, g3, hlt, g4, fun u hu => (g5 u hu).2.imp_left fun g => ⟨g.1, g.2.2⟩, rs, vs, tail,
          by rw [e1]; exact r1, r2, fun v hv => ?_, r4, ?_⟩)
        · obtain ⟨a1, a2, -, a3⟩ := r3 v hv
          exact ⟨a1, a2, a3⟩
        · refine r5.imp_right ?_
          rintro ⟨s, s1, s2, s3, s4⟩
          exact ⟨s, s1, s2, s3, fun h => ⟨(s4 h).1, fun x hx => (s4 h).2 x hx (fun _ h => h.elim)⟩⟩

/-- what is known of a run with positive weights -/
theorem qs_good (hM : M.WF) (hrf : RF.make ρ M il tl fl false = .ok rf)
    (hlp : ∀ lp, (lpSolver lp).Sound lp) (hs : ∀ k m, (solver k m).Sound m) (hl : LabelsOK M labels)
    (hini : ∀ ind obj, ini ind = .ok obj → PosInit ind obj)
    (hupd : ∀ ind : List (Nat × List Nat), (ind.map Prod.fst).Nodup → GoodUpd ind (upd ind)) :
    let run := solveIter rf.form t (qsHeur rf.form lpSolver solver n ini upd t mode labels be)
    (∃ e, run = ([], some e)) ∨
    (run = ([failure .infeasible], none) ∧ ∃ A b, rf.farkConstraints t mode = .ok (A, b) ∧ ∀ x, ¬ InFark A b x) ∨
    ∃ A b ub groups m ind, rf.farkConstraints t mode = .ok (A, b) ∧
      groupsFromLabels rf.form mode labels (decide (mode = .max ∧ true = false)) = .ok groups ∧
      (∀ g ∈ groups, ∀ w ∈ g, w < rf.form.certSize mode) ∧
      Built rf.form mode true A b ub groups m ind ∧
      (∀ u, ub = some u → (mode = .min ∧ u = List.replicate (rf.form.certSize mode) 1) ∨
          ∀ x, InFark A b x → ∀ j < rf.form.certSize mode, x j ≤ u.getD j 0) ∧
      ∃ rs vs tail, run.1 = rs ++ tail ∧ List.Forall₂ (Out rf.form mode) rs vs ∧
        (∀ v ∈ vs, v.length = m.vars.length ∧ m.Feasible (fun j => v.getD j 0) ∧
          ∀ e ∈ ind, (∀ w ∈ e.2, v.getD w 0 = 0) → v.getD e.1 0 = 0) ∧
        vs.Pairwise (fun v v' => ∀ cs, (upd ind).constraints v = .ok cs → ∀ i, ([(i, 1)], CSense.eq, (0 : K)) ∈ cs → v'.getD i 0 = 0) ∧
        (tail = [] ∨ ∃ s, tail = [failure s] ∧ s ≠ .optimal ∧ s ≠ .unbounded ∧
          (s = .infeasible → rs = [] ∧ ∀ x, ¬ m.Feasible x)) := by
  intro run
  rcases qs_best (t := t) (n := n) (be := be) (mode := mode) hM hrf hlp hs hl hini hupd with
    h | h | ⟨A, b, ub, groups, m, ind, g1, g2, hlt, B, g5, rs, vs, tail, r1, r2, r3, r4, r5⟩
  · exact Or.inl h
  · exact Or.inr (Or.inl h)
  refine Or.inr (Or.inr ⟨A, b, ub, groups, m, ind, g1, g2, hlt, B, g5, rs, vs, tail, r1, r2, fun v hv => ?_, r4, r5⟩)
  obtain ⟨a1, a2, a3⟩ := r3 v hv
  refine ⟨a1, a2, fun e he hz => ?_⟩
  obtain ⟨i1, i2, i3⟩ := built_ind B
  obtain ⟨k, k1, k2⟩ := (i3 e).1 he
  obtain ⟨h2, h3, h4⟩ := (B.feasible hlt _).1 a2
  have hcols := fark_cols g1
  have hup : ∀ j < rf.form.certSize mode, Function.update (fun j => v.getD j 0) e.1 0 j = v.getD j 0 := fun j hj => by
    rw [Function.update_of_ne (by omega)]
  have hk : k < groups.length := (List.getElem?_eq_some_iff.1 k1).1
  have := a3 (Function.update (fun j => v.getD j 0) e.1 0) ((B.feasible hlt _).2 ⟨h2.congr hcols hup, fun k' hk' => ?_, fun k' g' hg' w hw => ?_⟩)
    (fun i => ?_) e he
  · rw [Function.update_self] at this
    exact this.symm
  · by_cases hkk : rf.form.certSize mode + k' = e.1
    · rw [hkk, Function.update_self]
      exact ⟨le_rfl, (fun g => nomatch g), fun _ => zero_le_one⟩
    · rw [Function.update_of_ne hkk]
      exact h3 k' hk'
  · rw [hup w (hlt g' (List.mem_of_getElem? hg') w hw)]
    by_cases hkk : rf.form.certSize mode + k' = e.1
    · have : k' = k := by omega
      subst this
      rw [k1] at hg'
      cases hg'
      rw [hkk, Function.update_self, mul_zero, hz w hw]
    · rw [Function.update_of_ne hkk]
      exact h4 k' g' hg' w hw
  · by_cases hie : i = e.1
    · subst hie
      rw [Function.update_self]
      exact ⟨by rw [k2]; exact (h3 k hk).1, fun _ => rfl⟩
    · rw [Function.update_of_ne hie]
      exact ⟨le_rfl, id⟩

/-- the reported value counts exactly the used groups -/
theorem qs_count (h : RFOK rf) {groups : List (List Nat)} {A : Mat K} {b : List K} {ub : Option (List K)}
    {m : Milp K} {ind : List (Nat × List Nat)} (B : Built rf.form mode true A b ub groups m ind)
    (hg : groupsFromLabels rf.form mode labels (decide (mode = .max ∧ true = false)) = .ok groups)
    (hlt : ∀ g ∈ groups, ∀ w ∈ g, w < rf.form.certSize mode) {v : List K} (hl : v.length = m.vars.length)
    (hv : m.Feasible fun j => v.getD j 0) (hz : ∀ e ∈ ind, (∀ w ∈ e.2, v.getD w 0 = 0) → v.getD e.1 0 = 0) :
    ((v.drop (rf.form.certSize mode)).countP fun x => decide (0 < x)) = qsCost rf.sys mode labels (v.take (rf.form.certSize mode)) := by
  have hlen : (v.take (rf.form.certSize mode)).length = rf.form.certSize mode := by
    rw [List.length_take, hl, B.vars]; omega
  rw [← used_eq_qsCost h hg hlt hlen, usedGroups_congr hlt (fun j hj => take_getD (v := v) j hj)]
  refine le_antisymm ?_ (used_le_countP B hlt hl hv)
  rw [countP_drop v _ groups.length (by rw [hl, B.vars])]
  unfold usedGroups
  refine card_le_card fun k hk => ?_
  rw [mem_filter] at hk ⊢
  refine ⟨hk.1, ?_⟩
  have hk' := mem_range.1 hk.1
  by_contra hn
  refine hk.2.ne' (hz (rf.form.certSize mode + k, groups.getD k []) (((built_ind B).2.2 _).2 ⟨k, ?_, rfl⟩) fun w hw => ?_)
  · rw [List.getD_eq_getElem _ _ hk']; exact List.getElem?_eq_getElem hk'
  · have h0 := ((B.feasible hlt _).1 hv).1.nonneg w (mem_getD_lt hlt hw)
    refine le_antisymm ?_ h0
    by_contra hp
    exact hn ⟨w, hw, not_le.1 hp⟩

/-- the updaters of the library -/
def LibUpdater (w : Nat → K) (upd : List (Nat × List Nat) → Updater K) : Prop :=
  upd = inverseResultUpdater w ∨ upd = fixedZerosUpdater w

theorem lib_good {w : Nat → K} (hw : ∀ i, 0 < w i) (hu : LibUpdater w upd) (ind : List (Nat × List Nat))
    (hn : (ind.map Prod.fst).Nodup) : GoodUpd ind (upd ind) := by
  rcases hu with rfl | rfl
  · exact inverse_good hw hn
  · exact fixed_good hw hn

/-- the initial objectives of the library (`AllOnesInitializer`, `InverseReachabilityInitializer`, and, with the vector
computed in their constructors, `InverseFrequencyInitializer` and `InverseCombinedInitializer`) -/
def LibInit (w : Nat → K) (ini : List (Nat × List Nat) → Except Err (List (Nat × K))) : Prop :=
  ini = allOnes ∨ (∃ pr, ini = inverseReachability w pr) ∨ ∃ ev, ini = inverseFrequency w ev

theorem lib_init {w : Nat → K} (hw : ∀ i, 0 < w i) (hi : LibInit w ini) (ind : List (Nat × List Nat)) (obj : List (Nat × K))
    (h : ini ind = .ok obj) : PosInit ind obj := by
  rcases hi with rfl | ⟨pr, rfl⟩ | ⟨ev, rfl⟩
  · obtain ⟨obj', h1, h2⟩ := allOnes_pos (K := K) ind
    rw [h1] at h
    cases h
    exact h2
  · exact inverseReachability_pos hw h
  · exact inverseFrequency_pos hw h

theorem out_of_success {rs : List (ProblemResult (Subsystem K) K)} {vs : List (List K)} (h : List.Forall₂ (Out rf.form mode) rs vs)
    (hr : r ∈ rs) : ∃ v ∈ vs, Out rf.form mode r v := by
  induction h with
  | nil => simp at hr
  | cons h1 h2 ih =>
    rcases List.mem_cons.1 hr with rfl | hr
    · exact ⟨_, by simp, h1⟩
    · obtain ⟨v, hv, h⟩ := ih hr
      exact ⟨v, by simp [hv], h⟩

/-- **C41.** With the initial objectives and updaters of the library and positive weights, the reported value is
exactly the size of the reported certificate. -/
theorem C41_value (hM : M.WF) (hrf : RF.make ρ M il tl fl false = .ok rf)
    (hlp : ∀ lp, (lpSolver lp).Sound lp) (hs : ∀ k m, (solver k m).Sound m) (hl : LabelsOK M labels)
    {w : Nat → K} (hw : ∀ i, 0 < w i) (hi : LibInit w ini) (hu : LibUpdater w upd)
    (hr : r ∈ (solveIter rf.form t (qsHeur rf.form lpSolver solver n ini upd t mode labels be)).1) (hst : r.status = .success) :
    ∃ cert, r.cert = some cert ∧ r.value = some ((qsCost M mode labels cert : Nat) : K) := by
  rcases qs_good (t := t) (n := n) (be := be) (mode := mode) hM hrf hlp hs hl (lib_init hw hi) (lib_good hw hu) with
    ⟨e, he⟩ | ⟨he, -⟩ | ⟨A, b, ub, groups, m, ind, -, g3, hlt, g4, -, rs, vs, tail, r1, r2, r3, -, r5⟩
  · rw [he] at hr; simp at hr
  · rw [he] at hr
    rw [List.mem_singleton] at hr
    subst hr
    cases hst
  · rw [r1] at hr
    rcases List.mem_append.1 hr with hr | hr
    · obtain ⟨v, hv, w, hw, rfl⟩ := out_of_success r2 hr
      obtain ⟨a1, a2, a3⟩ := r3 v hv
      refine ⟨_, rfl, ?_⟩
      rw [← (make_fields hrf).1, ← qs_count (rfok_built hM hrf) g4 g3 hlt a1 a2 a3]
    · rcases r5 with rfl | ⟨s, rfl, -⟩
      · simp at hr
      · rw [List.mem_singleton] at hr
        subst hr
        cases hst

/-! ### C43: fixed zeros -/

/-- nothing that the first vector leaves out is taken up by the second one: entries of the vector (states in min mode,
state-action pairs in max mode), or labels -/
def Shrinks (M : Sys K) (mode : Mode) (labels : Option (List String)) (cert cert' : List K) : Prop :=
  match labels with
  | none => ∀ j, 0 < cert'.getD j 0 → 0 < cert.getD j 0
  | some ls => ∀ l ∈ ls, (∃ s ∈ M.labelled l, Selected M mode cert' s) → ∃ s ∈ M.labelled l, Selected M mode cert s

/-- the group of a label -/
theorem group_of_label (h : RFOK rf) {ls : List String} {groups : List (List Nat)}
    (hg : groupsFromLabels rf.form mode (some ls) (decide (mode = .max ∧ true = false)) = .ok groups)
    (hlt : ∀ g ∈ groups, ∀ w ∈ g, w < rf.form.certSize mode) {l : String} (hl : l ∈ ls) :
    (∀ x : Nat → K, ¬ ∃ s ∈ rf.sys.labelled l, selF rf mode x s) ∨
    ∃ g ∈ groups, ∀ x : Nat → K, (∃ s ∈ rf.sys.labelled l, selF rf mode x s) ↔ ∃ w ∈ g, 0 < x w := by
  have hmap : ∀ {e : Except Err (Dict String (List Nat))}, e.map (·.map Prod.snd) = .ok groups →
      ∃ d, e = .ok d ∧ groups = d.map Prod.snd := by
    intro e he
    cases e with
    | error e => cases he
    | ok d => cases he; exact ⟨d, rfl, rfl⟩
  have hmem : ∀ {d : Dict String (List Nat)} {w : Nat}, groups = d.map Prod.snd → Has d l w → w < rf.form.certSize mode := by
    intro d w e hw
    unfold Has at hw
    cases hk : d.get? l with
    | none => rw [hk] at hw; simp at hw
    | some g =>
      rw [hk] at hw
      exact hlt g (by rw [e]; exact List.mem_map_of_mem (f := Prod.snd) (Dict.mem_of_get? hk)) w hw
  obtain ⟨d, hgr, key⟩ : ∃ d : Dict String (List Nat), groups = d.map Prod.snd ∧
      ∀ x : Nat → K, (∃ s ∈ rf.sys.labelled l, selF rf mode x s) ↔ ∃ w, Has d l w ∧ 0 < x w := by
    cases mode with
    | min =>
      obtain ⟨d, hd, e⟩ := hmap (e := groupsMin rf.form ls) hg
      obtain ⟨g1, g2, g3⟩ := groupsMin_spec hd
      exact ⟨d, e, fun x => ⟨fun ⟨s, h1, h2, h3⟩ => ⟨s, (g3 l s).2 ⟨hl, h1⟩, h3⟩,
        fun ⟨w, h1, h2⟩ => ⟨w, ((g3 l w).1 h1).2, hmem e h1, h2⟩⟩⟩
    | max =>
      obtain ⟨d, hd, e⟩ := hmap (e := groupsMax rf.form ls) hg
      obtain ⟨g1, g2⟩ := groupsMax_spec h.wf.keys h.wf.vals hd
      refine ⟨d, e, fun x => ⟨?_, ?_⟩⟩
      · rintro ⟨s, h1, i, h2, h3, h4⟩
        obtain ⟨a, ha⟩ := (h.rowState_iff h2).1 h3
        exact ⟨i, (g2 l i).2 ⟨hl, RFOK.lt_C h2, s, a, h1, ha⟩, h4⟩
      · rintro ⟨w, h1, h2⟩
        obtain ⟨-, -, s, a, hs, hm⟩ := (g2 l w).1 h1
        have hwC : w < rf.C := hmem e h1
        exact ⟨s, hs, w, hwC, (h.rowState_iff hwC).2 ⟨a, hm⟩, h2⟩
  cases hk : d.get? l with
  | none =>
    left
    intro x hx
    obtain ⟨w, h1, -⟩ := (key x).1 hx
    unfold Has at h1
    rw [hk] at h1
    simp at h1
  | some g =>
    right
    refine ⟨g, by rw [hgr]; exact List.mem_map_of_mem (f := Prod.snd) (Dict.mem_of_get? hk), fun x => (key x).trans ?_⟩
    unfold Has
    rw [hk]
    simp

/-- groups that stay unused -/
theorem shrinks_of_groups (h : RFOK rf) {groups : List (List Nat)}
    (hg : groupsFromLabels rf.form mode labels (decide (mode = .max ∧ true = false)) = .ok groups)
    (hlt : ∀ g ∈ groups, ∀ w ∈ g, w < rf.form.certSize mode) {v v' : List K} (hl : v.length = rf.form.certSize mode)
    (hl' : v'.length = rf.form.certSize mode)
    (hz : ∀ g ∈ groups, (∃ w ∈ g, 0 < v'.getD w 0) → ∃ w ∈ g, 0 < v.getD w 0) : Shrinks rf.sys mode labels v v' := by
  cases labels with
  | none =>
    intro j hj
    have hjl : j < rf.form.certSize mode := by
      obtain ⟨c, h1, -⟩ := getD_pos.1 hj
      obtain ⟨h2, -⟩ := List.getElem?_eq_some_iff.1 h1
      omega
    have e : [j] ∈ groups := by
      cases mode with
      | min => cases hg; exact List.mem_map.2 ⟨j, List.mem_range.2 hjl, rfl⟩
      | max => cases hg; exact List.mem_map.2 ⟨j, List.mem_range.2 hjl, rfl⟩
    simpa using hz [j] e (by simpa using hj)
  | some ls =>
    intro l hl1 hex
    have hex : ∃ s ∈ rf.sys.labelled l, selF rf mode (fun j => v'.getD j 0) s := by
      obtain ⟨s, h1, h2⟩ := hex
      exact ⟨s, h1, (selF_iff h hl' s).2 h2⟩
    rcases group_of_label h hg hlt hl1 with hn | ⟨g, hg', key⟩
    · exact absurd hex (hn _)
    · obtain ⟨s, h1, h2⟩ := (key fun j => v.getD j 0).2 (hz g hg' ((key _).1 hex))
      exact ⟨s, h1, (selF_iff h hl s).1 h2⟩

/-- **C43.** With `InverseResultFixedZerosUpdater` (positive weights, any initial objective of the library, any back
end, any solver that does not lie): from one success to any later one the reported value does not increase and no
removed entry, resp. label, comes back.  No iteration is unbounded; "infeasible" can only be the single result of the
run. -/
theorem C43_fixed_zeros (hM : M.WF) (hrf : RF.make ρ M il tl fl false = .ok rf)
    (hlp : ∀ lp, (lpSolver lp).Sound lp) (hs : ∀ k m, (solver k m).Sound m) (hl : LabelsOK M labels)
    {w : Nat → K} (hw : ∀ i, 0 < w i) (hi : LibInit w ini) :
    let run := solveIter rf.form t (qsHeur rf.form lpSolver solver n ini (fixedZerosUpdater w) t mode labels be)
    run.1.Pairwise (fun r r' => r.status = .success ∧ (r'.status = .success →
      ∃ (k k' : Nat) (cert cert' : List K), r.value = some (k : K) ∧ r'.value = some (k' : K) ∧ r.cert = some cert ∧ r'.cert = some cert' ∧
        k' ≤ k ∧ Shrinks M mode labels cert cert')) ∧
    (∀ r ∈ run.1, r.status ≠ .failed .unbounded ∧ (r.status = .failed .infeasible → run.1 = [r])) := by
  intro run
  have hrun : run = solveIter rf.form t (qsHeur rf.form lpSolver solver n ini (fixedZerosUpdater w) t mode labels be) := rfl
  rcases qs_good (t := t) (n := n) (be := be) (mode := mode) hM hrf hlp hs hl (lib_init hw hi) (lib_good hw (Or.inr rfl)) with
    ⟨e, he⟩ | ⟨he, -⟩ | ⟨A, b, ub, groups, m, ind, -, g3, hlt, g4, -, rs, vs, tail, r1, r2, r3, r4, r5⟩
  · rw [hrun, he]; simp
  · rw [hrun, he]
    refine ⟨by simp, fun r hr => ?_⟩
    rw [List.mem_singleton] at hr
    subst hr
    exact ⟨(by intro h; injection h with h; cases h), fun _ => rfl⟩
  · rw [hrun, r1]
    have h := rfok_built hM hrf
    have e0 := (make_fields hrf).1
    -- two vectors
    have step : ∀ v ∈ vs, ∀ v' ∈ vs, (∀ cs, (fixedZerosUpdater w ind).constraints v = .ok cs →
        ∀ i, ([(i, 1)], CSense.eq, (0 : K)) ∈ cs → v'.getD i 0 = 0) → ∀ r r', Out rf.form mode r v → Out rf.form mode r' v' →
        r.status = .success ∧ (r'.status = .success →
        ∃ (k k' : Nat) (cert cert' : List K), r.value = some (k : K) ∧ r'.value = some (k' : K) ∧ r.cert = some cert ∧ r'.cert = some cert' ∧
        k' ≤ k ∧ Shrinks M mode labels cert cert') := by
      rintro v hv v' hv' hc r r' ⟨x, hx, rfl⟩ ⟨x', hx', rfl⟩
      refine ⟨rfl, fun _ => ?_⟩
      obtain ⟨a1, a2, a3⟩ := r3 v hv
      obtain ⟨b1, b2, b3⟩ := r3 v' hv'
      obtain ⟨i1, i2, i3⟩ := built_ind g4
      obtain ⟨-, cs, -, hcs, -⟩ := fixed_total (w := w) i2 v a1
      have hzero : ∀ e ∈ ind, v.getD e.1 0 = 0 → v'.getD e.1 0 = 0 := fun e he hz =>
        hc cs hcs e.1 ((fixedConstraints_mem hcs _).2 ⟨e, he, hz, rfl⟩)
      refine ⟨_, _, _, _, rfl, rfl, rfl, rfl, ?_, ?_⟩
      · rw [countP_drop v _ groups.length (by rw [a1, g4.vars]), countP_drop v' _ groups.length (by rw [b1, g4.vars])]
        refine card_le_card fun k hk => ?_
        rw [mem_filter] at hk ⊢
        refine ⟨hk.1, ?_⟩
        have hk' := mem_range.1 hk.1
        have h0 := (((g4.feasible hlt _).1 a2).2.1 k hk').1
        rcases h0.lt_or_eq with hp | hp
        · exact hp
        · exact absurd (hzero (rf.form.certSize mode + k, groups.getD k []) ((i3 _).2 ⟨k, by
            rw [List.getD_eq_getElem _ _ hk']; exact List.getElem?_eq_getElem hk', rfl⟩) hp.symm) hk.2.ne'
      · have hlen : ∀ u : List K, u.length = m.vars.length → (u.take (rf.form.certSize mode)).length = rf.form.certSize mode := by
          intro u hu
          rw [List.length_take, hu, g4.vars]; omega
        rw [← e0]
        refine shrinks_of_groups h g3 hlt (hlen v a1) (hlen v' b1) fun g hg => ?_
        rintro ⟨y, hy, hp⟩
        rw [take_getD y (hlt g hg y hy)] at hp
        by_contra hn
        obtain ⟨k, hk, e⟩ := List.mem_iff_getElem.1 hg
        have hk1 : groups[k]? = some g := by rw [List.getElem?_eq_getElem hk, e]
        have hmem : (rf.form.certSize mode + k, g) ∈ ind := (i3 _).2 ⟨k, hk1, rfl⟩
        have z1 : v.getD (rf.form.certSize mode + k) 0 = 0 := a3 _ hmem fun w hw => by
          have h0 := ((g4.feasible hlt _).1 a2).1.nonneg w (hlt g hg w hw)
          refine le_antisymm (not_lt.1 fun hp => hn ⟨w, hw, ?_⟩) h0
          rw [take_getD w (hlt g hg w hw)]
          exact hp
        have z2 := hzero _ hmem z1
        have z3 := ((g4.feasible hlt _).1 b2).2.2 k g hk1 y hy
        simp only at z2 z3
        rw [z2, mul_zero] at z3
        exact absurd z3 (not_le.2 hp)
    have pw : ∀ (rs : List (ProblemResult (Subsystem K) K)) (us : List (List K)), List.Forall₂ (Out rf.form mode) rs us → (∀ v ∈ us, v ∈ vs) →
        us.Pairwise (fun v v' => ∀ cs, (fixedZerosUpdater w ind).constraints v = .ok cs →
          ∀ i, ([(i, 1)], CSense.eq, (0 : K)) ∈ cs → v'.getD i 0 = 0) →
        rs.Pairwise (fun r r' => r.status = .success ∧ (r'.status = .success →
        ∃ (k k' : Nat) (cert cert' : List K), r.value = some (k : K) ∧ r'.value = some (k' : K) ∧ r.cert = some cert ∧ r'.cert = some cert' ∧
        k' ≤ k ∧ Shrinks M mode labels cert cert')) := by
      intro rs us h2
      induction h2 with
      | nil => intros; exact .nil
      | cons h3 h4 ih =>
        intro hin hp
        rw [List.pairwise_cons] at hp
        refine List.pairwise_cons.2 ⟨fun r' hr' => ?_, ih (fun v hv => hin v (by simp [hv])) hp.2⟩
        obtain ⟨v', hv', ho⟩ := out_of_success h4 hr'
        exact step _ (hin _ (by simp)) v' (hin v' (by simp [hv'])) (hp.1 v' hv') _ r' h3 ho
    have hsucc : ∀ r ∈ rs, r.status = .success := by
      intro r hr
      obtain ⟨v, -, x, -, rfl⟩ := out_of_success r2 hr
      rfl
    refine ⟨List.pairwise_append.2 ⟨pw rs vs r2 (fun _ h => h) r4, ?_, fun r hr r' hr' => ?_⟩, fun r hr => ?_⟩
    · rcases r5 with rfl | ⟨s, rfl, -⟩ <;> simp
    · refine ⟨hsucc r hr, fun hst => ?_⟩
      rcases r5 with rfl | ⟨s, rfl, -⟩
      · simp at hr'
      · rw [List.mem_singleton] at hr'
        subst hr'
        cases hst
    · rcases List.mem_append.1 hr with hr | hr
      · rw [hsucc r hr]
        exact ⟨by simp, by simp⟩
      · rcases r5 with rfl | ⟨s, rfl, s1, s2, s3⟩
        · simp at hr
        · rw [List.mem_singleton] at hr
          subst hr
          refine ⟨fun hst => s2 ?_, fun hst => ?_⟩
          · have hst : PStatus.failed s = .failed .unbounded := hst
            injection hst
          · have hst : PStatus.failed s = .failed .infeasible := hst
            injection hst with hst
            rw [(s3 hst).1]
            rfl

/-! ### C44: inverse weights -/

/-- **C44.** `InverseResultUpdater` with the default weights, for every last result with non-negative indicator values:
one weight for each group; all positive and at most 1e9; a smaller last value never gets a smaller weight; a removed
group gets the largest weight, at least 1e8. -/
theorem C44_inverse_result {ind : List (Nat × List Nat)} {v : List K} {obj : List (Nat × K)}
    (h : (inverseResultUpdater (fun _ => 1) ind).update v = .ok obj) :
    obj.map Prod.fst = ind.map Prod.fst ∧ (∀ p ∈ obj, 0 < p.2 ∧ p.2 ≤ 10 ^ 9) ∧
    (∀ p ∈ obj, ∀ q ∈ obj, 0 ≤ v.getD p.1 0 → v.getD p.1 0 ≤ v.getD q.1 0 → q.2 ≤ p.2) ∧
    ∀ p ∈ obj, v.getD p.1 0 = 0 → 10 ^ 8 ≤ p.2 ∧ ∀ q ∈ obj, q.2 ≤ p.2 := by
  have h : inverseUpdate (fun _ => 1) ind v = .ok obj := h
  obtain rfl := inverseUpdate_eq h
  set C := bigC (ind.map fun e => v.getD e.1 0) with hC
  obtain ⟨c1, c2, -⟩ := bigC_spec (ind.map fun e => v.getD e.1 0)
  rw [← hC] at c1 c2
  have c0 : 0 < C := bigC_pos _
  simp only [one_mul]
  have anti : ∀ a b : K, 0 ≤ a → a ≤ b →
      (if 0 < b then min (1 / b) C else C) ≤ (if 0 < a then min (1 / a) C else C) := by
    intro a b h0 hab
    split
    · split
      · exact min_le_min (one_div_le_one_div_of_le (by assumption) hab) le_rfl
      · exact min_le_right _ _
    · rename_i hb
      rw [if_neg (fun ha => hb (lt_of_lt_of_le ha hab))]
  refine ⟨by rw [List.map_map]; rfl, fun p hp => ?_, fun p hp q hq h0 hpq => ?_, fun p hp h0 => ?_⟩
  · obtain ⟨e, he, rfl⟩ := List.mem_map.1 hp
    simp only
    split
    · exact ⟨lt_min (one_div_pos.2 (by assumption)) c0, le_trans (min_le_right _ _) c2⟩
    · exact ⟨c0, c2⟩
  · obtain ⟨e, he, rfl⟩ := List.mem_map.1 hp
    obtain ⟨e', he', rfl⟩ := List.mem_map.1 hq
    exact anti _ _ h0 hpq
  · obtain ⟨e, he, rfl⟩ := List.mem_map.1 hp
    simp only at h0 ⊢
    rw [h0, if_neg (lt_irrefl _)]
    refine ⟨c1, fun q hq => ?_⟩
    obtain ⟨e', he', rfl⟩ := List.mem_map.1 hq
    simp only
    split
    · exact min_le_right _ _
    · exact le_rfl

/-- **C44.** The weights are computed for every vector that is long enough. -/
theorem C44_returns {w : Nat → K} {ind : List (Nat × List Nat)} {v : List K} (h : ∀ e ∈ ind, e.1 < v.length) :
    ∃ obj, (inverseResultUpdater w ind).update v = .ok obj := by
  obtain ⟨obj, -, h1, -⟩ := inverse_total (w := w) h v rfl
  exact ⟨obj, h1⟩

/-- **C44 with weights is false**: for user-given weights the removed group does not get the largest weight, as the
weight is applied to the other groups only, and the bound 1e9 is exceeded. -/
theorem C44_weights_false : ∃ (w : Nat → ℚ) (ind : List (Nat × List Nat)) (v : List ℚ) (obj : List (Nat × ℚ)),
    (∀ i, 0 < w i) ∧ (∀ e ∈ ind, 0 ≤ v.getD e.1 0) ∧ (inverseResultUpdater w ind).update v = .ok obj ∧
    ∃ p ∈ obj, ∃ q ∈ obj, v.getD p.1 0 = 0 ∧ v.getD q.1 0 = 1 ∧ p.2 < q.2 ∧ 10 ^ 9 < q.2 := by
  refine ⟨fun _ => 10 ^ 10, [(1, [0]), (2, [0])], [1, 0, 1], [(1, 10 ^ 8), (2, 10 ^ 10)], fun _ => by norm_num, by decide +kernel, by decide +kernel,
    (1, 10 ^ 8), by simp, (2, 10 ^ 10), by simp, rfl, rfl, by norm_num, by norm_num⟩

/-- with any positive weights: one positive weight for each group -/
theorem C44_positive {w : Nat → K} (hw : ∀ i, 0 < w i) {ind : List (Nat × List Nat)} {v : List K} {obj : List (Nat × K)}
    (h : (inverseResultUpdater w ind).update v = .ok obj) :
    obj.map Prod.fst = ind.map Prod.fst ∧ ∀ p ∈ obj, 0 < p.2 := by
  have h : inverseUpdate w ind v = .ok obj := h
  obtain rfl := inverseUpdate_eq h
  refine ⟨by rw [List.map_map]; rfl, fun p hp => ?_⟩
  obtain ⟨e, he, rfl⟩ := List.mem_map.1 hp
  simp only
  split
  · exact mul_pos (hw _) (lt_min (one_div_pos.2 (by assumption)) (bigC_pos _))
  · exact bigC_pos _

end

/-! ### completeness -/

section
variable {K : Type} [Field K] [LinearOrder K] [IsStrictOrderedRing K] {ρ ρ' : Graph.Rnd} {M : Sys K} {il tl fl : String} {rf : RF K} {mode : Mode} {t : K}
  {lpSolver : Milp K → Answer K} {solver : Nat → Milp K → Answer K} {labels : Option (List String)} {be : Backend}
  {r : ProblemResult (Subsystem K) K} {n : Nat} {ini : List (Nat × List Nat) → Except Err (List (Nat × K))}
  {upd : List (Nat × List Nat) → Updater K}

/-- a point of the relaxed model -/
theorem relaxed_feasible {σ : Type} {f : Form σ K} {A : Mat K} {b : List K}
    {ub : Option (List K)} {groups : List (List Nat)} {m : Milp K}
    {ind : List (Nat × List Nat)} (hA : A.cols = f.certSize mode) (B : Built f mode true A b ub groups m ind)
    (hlt : ∀ g ∈ groups, ∀ w ∈ g, w < f.certSize mode) {y : Nat → K} (hy : InPoly f mode A b ub y) :
    ∃ x, m.Feasible x := by
  let x : Nat → K := fun j => if j < f.certSize mode then y j else
    match ub with
    | none => ((groups.getD (j - f.certSize mode) []).map y).sum
    | some _ => 1
  have e1 : ∀ j < f.certSize mode, x j = y j := fun j hj => if_pos hj
  have e2 : ∀ k, x (f.certSize mode + k) = match ub with
    | none => ((groups.getD k []).map y).sum
    | some _ => 1 := fun k => by
    simp only [x, if_neg (show ¬ f.certSize mode + k < f.certSize mode by omega), Nat.add_sub_cancel_left]
  have h0 : ∀ g ∈ groups, ∀ w ∈ g, 0 ≤ y w := fun g hg w hw => hy.nonneg w (hlt g hg w hw)
  have h1 : ∀ k, ∀ w ∈ groups.getD k [], 0 ≤ y w := fun k w hw => hy.nonneg w (mem_getD_lt hlt hw)
  refine ⟨x, (B.feasible hlt x).2 ⟨hy.congr hA e1, fun k hk => ?_, fun k g hg w hw => ?_⟩⟩
  · rw [e2]
    cases ub with
    | some u => exact ⟨zero_le_one, (fun g => nomatch g), fun _ => le_rfl⟩
    | none =>
      refine ⟨List.sum_nonneg fun z hz => ?_, (fun g => nomatch g), fun g => absurd rfl g⟩
      obtain ⟨w, hw, rfl⟩ := List.mem_map.1 hz
      exact h1 k w hw
  · have hg' := List.mem_of_getElem? hg
    rw [e1 w (hlt g hg' w hw), e2]
    cases ub with
    | some u =>
      simp only [mul_one]
      exact hy.upper u rfl w (hlt g hg' w hw)
    | none =>
      simp only [ubAt, one_mul]
      rw [List.getD_eq_getElem?_getD, hg]
      refine List.single_le_sum (fun z hz => ?_) _ (List.mem_map_of_mem (f := y) hw)
      obtain ⟨w', hw', rfl⟩ := List.mem_map.1 hz
      exact h0 g hg' w' hw'

/-- "infeasible" in terms of the core: no restriction has the value `t` -/
theorem qs_infeasible_cut (hM : M.WF) (hrf : RF.make ρ M il tl fl false = .ok rf) (φ : K →+*o ℝ)
    (hlp : ∀ lp, (lpSolver lp).Sound lp) (hs : ∀ k m, (solver k m).Sound m) (hl : LabelsOK M labels)
    {w : Nat → K} (hw : ∀ i, 0 < w i) (hi : LibInit w ini) (hu : LibUpdater w upd)
    (hr : r ∈ (solveIter rf.form t (qsHeur rf.form lpSolver solver n ini upd t mode labels be)).1)
    (hst : r.status = .failed .infeasible) (U : Nat → Prop) (hin : rf.initial < rf.N) :
    ¬ φ t ≤ cutVal (rfok_built hM hrf) φ mode U ⟨rf.initial, hin⟩ := by
  intro hU
  rcases qs_good (t := t) (n := n) (be := be) (mode := mode) hM hrf hlp hs hl (lib_init hw hi) (lib_good hw hu) with
    ⟨e, he⟩ | ⟨he, A, b, hA, hno⟩ | ⟨A, b, ub, groups, m, ind, hA, g3, hlt, g4, g5, rs, vs, tail, r1, r2, r3, -, r5⟩
  · rw [he] at hr; simp at hr
  · obtain ⟨x, -, hx, -⟩ := poly_of_cut' hM hrf (ub := none) hA (fun u h => nomatch h) hU
    exact hno x hx
  · obtain ⟨x, hx, -, -⟩ := poly_of_cut' hM hrf hA g5 hU
    obtain ⟨y, hy⟩ := relaxed_feasible (fark_cols hA) g4 hlt hx
    rw [r1] at hr
    rcases List.mem_append.1 hr with hr | hr
    · obtain ⟨v, -, x, -, rfl⟩ := out_of_success r2 hr
      cases hst
    · rcases r5 with rfl | ⟨s, rfl, -, -, s3⟩
      · simp at hr
      · rw [List.mem_singleton] at hr
        subst hr
        have hst : PStatus.failed s = .failed .infeasible := hst
        injection hst with hst
        exact (s3 hst).2 y hy

/-- **C43**, **C41.** If `QSHeur` reports "infeasible", there is no witnessing subsystem (positive weights). -/
theorem C41_infeasible (hM : M.WF) (hL : LabelMap M.labS) (hrf : RF.make ρ M il tl fl false = .ok rf) (φ : K →+*o ℝ)
    (hlp : ∀ lp, (lpSolver lp).Sound lp) (hs : ∀ k m, (solver k m).Sound m) (hl : LabelsOK M labels)
    {w : Nat → K} (hw : ∀ i, 0 < w i) (hi : LibInit w ini) (hu : LibUpdater w upd)
    (hr : r ∈ (solveIter rf.form t (qsHeur rf.form lpSolver solver n ini upd t mode labels be)).1)
    (hst : r.status = .failed .infeasible) (k : Nat) : ¬ Witness rf il tl φ mode t labels k := by
  intro hwit
  obtain ⟨U, hin, -, hU⟩ := witness_cut hM hL hrf hwit
  exact qs_infeasible_cut hM hrf φ hlp hs hl hw hi hu hr hst U hin hU

/-- the relaxed model can be built -/
theorem construct_relaxed_ok (hM : M.WF) (hrf : RF.make ρ M il tl fl false = .ok rf) (φ : K →+*o ℝ)
    (hlp : ∀ lp, (lpSolver lp).Exact lp) (hi : ∀ i ∈ M.labelled il, i ∉ M.labelled tl) (hl : LabelsOK M labels) :
    ∃ o, constructMILP rf.form lpSolver t mode labels true none .pulp = .ok o := by
  have h := rfok_built hM hrf
  obtain ⟨e0, eil, -⟩ := make_fields hrf
  have hin : rf.initial < rf.N := by
    have : rf.initial ∈ M.labelled il := by
      have := (rflive_built hM hrf).initLab
      rw [e0, eil] at this
      exact ⟨_, this, by simp⟩
    exact initial_lt hM hrf this (hi _ this)
  obtain ⟨A, b, hA⟩ : ∃ A b, rf.farkConstraints t mode = .ok (A, b) := by
    cases mode with
    | min => simp only [RF.farkConstraints, RF.farkZ, if_pos hin]; exact ⟨_, _, rfl⟩
    | max => simp only [RF.farkConstraints, RF.farkY, if_pos hin]; exact ⟨_, _, rfl⟩
  obtain ⟨f1, f2, f3⟩ := rf_fark hM hrf A b hA
  obtain ⟨groups, hg, hlt⟩ := groups_ok h mode (labels := labels) (by rw [e0]; exact hl) (decide (mode = .max ∧ true = false))
  have hbd : chooseBounds rf.form lpSolver mode A b none = .ok none ∨
      ∃ ub, chooseBounds rf.form lpSolver mode A b none = .ok (some ub) ∧ ∀ u, ub = some u → u.length = rf.form.certSize mode := by
    unfold chooseBounds
    cases mode with
    | min => exact Or.inr ⟨_, if_pos ⟨rfl, rfl, rfl⟩, by rintro u ⟨⟩; simp⟩
    | max =>
      rw [if_neg (by simp)]
      cases he : rf.isEcFree with
      | true =>
        rw [if_pos (show rf.form.isEcFree = true from he)]
        rcases C37_computed hM hrf φ he hA hlp with ⟨-, u, hu⟩ | ⟨-, u, hu⟩
        · refine Or.inr ⟨some u, by rw [hu]; rfl, ?_⟩
          rintro u' ⟨⟩
          rw [(C37_max hM hrf hA (fun lp => (hlp lp).toSound) hu).1, f1]
        · exact Or.inl (by rw [hu]; rfl)
      | false =>
        rw [if_neg (by rw [show rf.form.isEcFree = false from he]; simp)]
        exact Or.inr ⟨none, rfl, fun u h => nomatch h⟩
  unfold constructMILP
  rw [show rf.form.fark t mode = .ok (A, b) from hA]
  rcases hbd with hbd | ⟨ub, hbd, hul⟩
  · simp only [bind, Except.bind, hbd]
    exact ⟨_, rfl⟩
  · obtain ⟨m, ind, hb⟩ := buildMILP_ok (f := rf.form) (be := .pulp) (ub := ub) (relaxed := true) f1 f2 (fun g => nomatch g)
      (fun g => nomatch g.1) hg (fun u hu => (hul u hu).ge) hlt
    simp only [bind, Except.bind, hbd, hb]
    exact ⟨_, rfl⟩

/-- initial objectives that are computed without an exception: `AllOnesInitializer` always; the others, without
labels, if the vector of their constructor has the length of a certificate -/
def InitOK {σ : Type} (f : Form σ K) (mode : Mode) (labels : Option (List String)) (w : Nat → K)
    (ini : List (Nat × List Nat) → Except Err (List (Nat × K))) : Prop :=
  ini = allOnes ∨ labels = none ∧ ∃ v : List K, v.length = f.certSize mode ∧
    (ini = inverseReachability w v ∨ ini = inverseFrequency w v)

theorem InitOK.lib {σ : Type} {f : Form σ K} {w : Nat → K} (h : InitOK f mode labels w ini) : LibInit w ini := by
  rcases h with h | ⟨-, v, -, h | h⟩
  · exact Or.inl h
  · exact Or.inr (Or.inl ⟨v, h⟩)
  · exact Or.inr (Or.inr ⟨v, h⟩)

theorem InitOK.total {σ : Type} {f : Form σ K} {w : Nat → K} (h : InitOK f mode labels w ini) {groups : List (List Nat)}
    (hg : groupsFromLabels f mode labels (decide (mode = .max ∧ true = false)) = .ok groups)
    {A : Mat K} {b : List K} {ub : Option (List K)} {m : Milp K} {ind : List (Nat × List Nat)}
    (B : Built f mode true A b ub groups m ind) : ∃ obj, ini ind = .ok obj := by
  rcases h with rfl | ⟨rfl, v, hv, h⟩
  · exact ⟨_, rfl⟩
  · have hgr : ∀ e ∈ ind, ∃ i < v.length, e.2 = [i] := by
      intro e he
      obtain ⟨k, h1, -⟩ := ((built_ind B).2.2 e).1 he
      have : groups = (List.range (f.certSize mode)).map fun i => [i] := by
        cases mode with
        | min => cases hg; rfl
        | max => cases hg; rfl
      have := List.mem_of_getElem? h1
      rw [‹groups = _›] at this
      obtain ⟨i, hi, e⟩ := List.mem_map.1 this
      exact ⟨i, by rw [hv]; exact List.mem_range.1 hi, e.symm⟩
    have hat : ∀ i < v.length, at! v i = .ok (v.getD i 0) := fun i hi => by
      rw [at!_ok, List.getElem?_eq_getElem hi, List.getD_eq_getElem _ _ hi]
    rcases h with rfl | rfl
    · refine mapM_ok' _ fun e he => ?_
      obtain ⟨i, hi, h2⟩ := hgr e he
      rw [h2]
      simp only [List.mapM_cons, List.mapM_nil, bind, Except.bind, hat i hi, pure, Except.pure, List.length_singleton, Nat.one_ne_zero, if_false]
      exact ⟨_, rfl⟩
    · refine mapM_ok' _ fun e he => ?_
      obtain ⟨i, hi, h2⟩ := hgr e he
      rw [h2]
      simp only [List.mapM_cons, List.mapM_nil, bind, Except.bind, hat i hi, pure, Except.pure]
      exact ⟨_, rfl⟩

/-- the same for any kind of form -/
theorem qs_returns {σ : Type} {f : Form σ K}
    (hf : ∀ A b, f.fark t mode = .ok (A, b) → A.cols = f.certSize mode ∧ A.rows ≤ b.length ∧ (A.cols + 1 = A.rows → OnePos A))
    (hgr : ∀ groups, groupsFromLabels f mode labels (decide (mode = .max ∧ true = false)) = .ok groups →
      ∀ g ∈ groups, ∀ w ∈ g, w < f.certSize mode)
    (hmk : ∀ v, v.length = f.certSize mode → ∃ w, f.mkSub v mode = .ok w)
    (hlp' : ∀ lp, (lpSolver lp).Sound lp) (hs : ∀ k m, (solver k m).Exact m) (ht : 0 ≤ t) (ht' : f.isRF = true → t ≤ 1)
    (hn : 1 ≤ n) {o : Option (Milp K × List (Nat × List Nat))} (hc : constructMILP f lpSolver t mode labels true none .pulp = .ok o)
    {w : Nat → K} (hw : ∀ i, 0 < w i) (hini : InitOK f mode labels w ini) (hu : LibUpdater w upd) :
    let run := solveIter f t (qsHeur f lpSolver solver n ini upd t mode labels .pulp)
    run.2 = none ∧ ((∃ r, run.1 = [r] ∧ r.status = .failed .infeasible ∧
        ∃ A b, f.fark t mode = .ok (A, b) ∧ ((∀ x, ¬ InFark A b x) ∨
          ∃ u, chooseBounds f lpSolver mode A b none = .ok (some u) ∧ ∀ x, ¬ InPoly f mode A b u x)) ∨
      run.1.length = n ∧ ∀ r ∈ run.1, r.status = .success) := by
  intro run
  have e0 : run = qsHeur f lpSolver solver n ini upd t mode labels .pulp := by
    simp only [run, solveIter, if_pos ht]
    rw [if_pos ht']
  cases o with
  | none =>
    have e1 : run = ([failure .infeasible], none) := by rw [e0]; simp only [qsHeur, hc]
    rw [e1]
    obtain ⟨A, b, g1, -, -, g3⟩ := construct_none (fun A b hA => (hf A b hA).2.1) hlp' hc
    exact ⟨rfl, Or.inl ⟨_, rfl, rfl, A, b, g1, Or.inl g3⟩⟩
  | some p =>
    obtain ⟨m, ind⟩ := p
    obtain ⟨A, b, ub, groups, g1, gb, g3, -, g4, g5⟩ := construct_inv hf hlp' hc
    obtain ⟨i1, i2, i3⟩ := built_ind g4
    have hlt := hgr groups g3
    obtain ⟨obj, hobj⟩ := hini.total g3 g4
    have hpos := lib_init hw hini.lib ind obj hobj
    have hlt' : ∀ t ∈ obj, t.1 < m.vars.length := by
      intro t ht
      have : t.1 ∈ ind.map Prod.fst := by rw [← hpos.1]; exact List.mem_map_of_mem (f := Prod.fst) ht
      obtain ⟨e, he, h⟩ := List.mem_map.1 this
      rw [← h]
      exact i2 e he
    have e1 : run = qsLoop f solver mode (upd ind) n m obj := by rw [e0]; simp only [qsHeur, hc, hobj]
    have hcols := (hf A b g1).1
    have hnone : run.2 = none := by
      rw [e1]
      refine qsLoop_total (fun k m => (hs k m).toSound) (fun v hv => ?_) (by rw [g4.vars]; omega) (fun v hv => ?_) n m obj g4.keys rfl hlt'
      · exact hmk v hv
      · rcases hu with rfl | rfl
        · exact inverse_total i2 v hv
        · exact fixed_total i2 v hv
    have h0 : ∀ x, m.Feasible x → ∀ i < m.vars.length, 0 ≤ x i := fun x hx i hi => by
      obtain ⟨h2, h3, -⟩ := (g4.feasible hlt x).1 hx
      rcases Nat.lt_or_ge i (f.certSize mode) with h | h
      · exact h2.nonneg i h
      · have := (h3 (i - f.certSize mode) (by rw [g4.vars] at hi; omega)).1
        rwa [Nat.add_sub_cancel' h] at this
    refine ⟨hnone, ?_⟩
    have hSt : St m.Feasible m.vars.length (fun _ => False) m := ⟨g4.keys, rfl, g4.maximize, g4.objK, fun x => by simp⟩
    by_cases hne : ∃ x, m.Feasible x
    · right
      have hall := qsLoop_exact (f := f) (mode := mode) (lib_good hw hu ind i1) hs h0 i2 (built_poly hcols g4 hlt) n
        (fun _ => False) m obj hSt (hpos.objOK i1 _) (by
          obtain ⟨x, hx⟩ := hne
          exact ⟨x, hx, fun _ h => h.elim⟩)
      rw [← e1] at hall
      refine ⟨?_, hall⟩
      obtain ⟨-, rs, tail, h2, h3, h4⟩ := qsLoop_shape f solver mode (upd ind) n m obj
      rw [← e1] at h2 h4
      rcases h4 with ⟨h5, h6⟩ | ⟨s, -, h5, -⟩
      · rw [h2, h5, List.append_nil]
        exact h6 hnone
      · exact absurd (hall (failure s) (by rw [h2, h5]; simp)) (fun h => nomatch (h : PStatus.failed s = .success))
    · left
      have hno : ∀ x, ¬ m.Feasible x := fun x hx => hne ⟨x, hx⟩
      obtain ⟨n', rfl⟩ : ∃ n', n = n' + 1 := ⟨n - 1, by omega⟩
      obtain ⟨m1, hm1⟩ := setObjective_ok (m := m) (e := obj) hlt'
      obtain ⟨o1, o2, -⟩ := setObjective_inv hm1
      have hst := (hs n' m1).infeasible' fun x hx => hno x ((feasible_congr o1 o2 x).1 hx)
      rw [e1]
      simp only [qsLoop, hm1, hst, reduceCtorEq, if_false]
      exact ⟨_, rfl, rfl, A, b, g1, Or.inr ⟨ub, gb, fun x hx => by
        obtain ⟨y, hy⟩ := relaxed_feasible hcols g4 hlt hx
        exact hno y hy⟩⟩

/-- **C42.** With solvers that solve every problem: there is no exception, and the run either consists of the single
result "infeasible" or of exactly `n` successes. -/
theorem C42_returns (hM : M.WF) (hrf : RF.make ρ M il tl fl false = .ok rf) (φ : K →+*o ℝ)
    (hlp : ∀ lp, (lpSolver lp).Exact lp) (hs : ∀ k m, (solver k m).Exact m) (ht : 0 ≤ t ∧ t ≤ 1) (hn : 1 ≤ n)
    (hi : ∀ i ∈ M.labelled il, i ∉ M.labelled tl) (hl : LabelsOK M labels)
    {w : Nat → K} (hw : ∀ i, 0 < w i) (hini : InitOK rf.form mode labels w ini) (hu : LibUpdater w upd) :
    let run := solveIter rf.form t (qsHeur rf.form lpSolver solver n ini upd t mode labels .pulp)
    run.2 = none ∧ ((∃ r, run.1 = [r] ∧ r.status = .failed .infeasible) ∨
      run.1.length = n ∧ ∀ r ∈ run.1, r.status = .success) := by
  have hlp' : ∀ lp, (lpSolver lp).Sound lp := fun lp => (hlp lp).toSound
  obtain ⟨o, hc⟩ := construct_relaxed_ok (t := t) (mode := mode) hM hrf φ hlp hi hl
  obtain ⟨h1, h2⟩ := qs_returns (f := rf.form) (n := n) (mode := mode) (rf_fark hM hrf) (fun groups hg => by
      obtain ⟨groups', q1, hlt⟩ := groups_ok (rfok_built hM hrf) mode (labels := labels)
        (by rw [(make_fields hrf).1]; exact hl) (decide (mode = .max ∧ true = false))
      rw [hg] at q1
      cases q1
      exact hlt) (fun v hv => by
      cases mode with
      | min => exact ⟨_, if_pos hv⟩
      | max => exact ⟨_, if_pos hv⟩) hlp' hs ht.1 (fun _ => ht.2) hn hc hw hini hu
  exact ⟨h1, h2.imp_left fun ⟨r, g1, g2, _⟩ => ⟨r, g1, g2⟩⟩

/-- **C41.** ... so `solve` reports a success if and only if there is a witnessing subsystem (positive threshold, labels
that can be read). -/
theorem C41_feasible_iff (hM : M.WF) (hL : LabelMap M.labS) (hrf : RF.make ρ M il tl fl false = .ok rf) (φ : K →+*o ℝ)
    (hlS : M.labS.dflt = true ∨ ∀ s < M.N, ∃ l, s ∈ M.labelled l) (hA : LabelMap M.labA) (hlA : M.labA.dflt = true)
    (hd : M.dtmc = true → ∀ s a i, ((s, a), i) ∈ M.idx → a = 0)
    (hlp : ∀ lp, (lpSolver lp).Exact lp) (hs : ∀ k m, (solver k m).Exact m) (ht : 0 < t ∧ t ≤ 1) (hn : 1 ≤ n)
    (hi : ∀ i ∈ M.labelled il, i ∉ M.labelled tl) (hl : LabelsOK M labels)
    {w : Nat → K} (hw : ∀ i, 0 < w i) (hini : InitOK rf.form mode labels w ini) (hu : LibUpdater w upd) :
    ∃ r, solveLast (solveIter rf.form t (qsHeur rf.form lpSolver solver n ini upd t mode labels .pulp)) = .ok r ∧
      (r.status = .success ∨ r.status = .failed .infeasible) ∧
      (r.status = .success ↔ ∃ k, Witness rf il tl φ mode t labels k) := by
  have hlp' : ∀ lp, (lpSolver lp).Sound lp := fun lp => (hlp lp).toSound
  have hs' : ∀ k m, (solver k m).Sound m := fun k m => (hs k m).toSound
  obtain ⟨h1, h2⟩ := C42_returns (mode := mode) hM hrf φ hlp hs ⟨ht.1.le, ht.2⟩ hn hi hl hw hini hu
  obtain ⟨r, h3, h4⟩ := C42_solve rf.form hn h1
  have hr := List.mem_of_getLast? h4
  have hst : r.status = .success ∨ r.status = .failed .infeasible := by
    rcases h2 with ⟨r', h5, h6⟩ | ⟨-, h5⟩
    · rw [h5, List.mem_singleton] at hr
      subst hr
      exact Or.inr h6
    · exact Or.inl (h5 r hr)
  refine ⟨r, h3, hst, fun hsu => ?_, fun ⟨k, hk⟩ => hst.resolve_right fun hin => ?_⟩
  · obtain ⟨cert, x, k, rfl, -, c1, c2, -⟩ := C41_sound hM hL hrf hlp' hs' hr hsu
    obtain ⟨x', res, m, q1, q2, q3⟩ := C45_returns (ρ' := ρ) hM hL hrf hlS hA hlA hd φ ht.1 (fun _ => c2) c1
    have hm : m ∈ res.rf.sys.labelled il := ⟨_, q3, by simp⟩
    refine ⟨_, cert, mode, true, x', _, res, m, q1, q2, hm, ?_, rfl⟩
    unfold Model.Sys.pr
    cases mode with
    | min => exact C45_min_ge hM hL hrf c1 q1 q2 φ hm
    | max => exact C45_max_ge hM hL hrf c2 c1 q1 q2 φ hm
  · exact C41_infeasible hM hL hrf φ hlp' hs' hl hw hini.lib hu hr hin k hk

end

/-! ### the hypotheses can be met -/

/-- Runs of three iterations, in both modes, with each updater and each initial objective, with and without labels. -/
example (mode : Mode) : ∃ rf solver, RF.make exRnd exactEx "init" "goal" "fail" false = .ok rf ∧ (∀ m, (solver m : Answer ℚ).Exact m) ∧
    (∀ upd, LibUpdater (fun _ => 1) upd →
      (∃ r, solveLast (solveIter rf.form (1/4) (qsHeur rf.form solver (fun _ => solver) 3 allOnes upd (1/4) mode none .pulp)) = .ok r ∧
        (r.status = .success ∨ r.status = .failed .infeasible) ∧
        (r.status = .success ↔ ∃ k, Witness rf "init" "goal" ratR mode (1/4) none k)) ∧
      (∃ r, solveLast (solveIter rf.form (1/4) (qsHeur rf.form solver (fun _ => solver) 3
          (inverseReachability (fun _ => 1) (List.replicate (rf.form.certSize mode) 1)) upd (1/4) mode none .pulp)) = .ok r ∧
        (r.status = .success ∨ r.status = .failed .infeasible) ∧
        (r.status = .success ↔ ∃ k, Witness rf "init" "goal" ratR mode (1/4) none k)) ∧
      (∃ r, solveLast (solveIter rf.form (1/4) (qsHeur rf.form solver (fun _ => solver) 3 allOnes upd (1/4) mode (some ["a"]) .pulp)) = .ok r ∧
        (r.status = .success ∨ r.status = .failed .infeasible) ∧
        (r.status = .success ↔ ∃ k, Witness rf "init" "goal" ratR mode (1/4) (some ["a"]) k))) := by
  obtain ⟨rf, hrf, he⟩ := exactEx_ok
  obtain ⟨solver, hs⟩ := exists_exact ℚ
  have hd : exactEx.dtmc = true → ∀ s a i, ((s, a), i) ∈ exactEx.idx → a = 0 := fun g => by cases g
  have hlab : LabelsOK exactEx (some ["a"]) := by
    intro ls hls l hl
    cases hls
    obtain rfl := List.mem_singleton.1 hl
    have e1 : exactEx.statesByLabel "a" = .ok [0] := by decide +kernel
    refine ⟨⟨_, e1⟩, ?_⟩
    rintro s ⟨ss, h1, h2⟩
    rw [e1] at h1; cases h1
    rw [List.mem_singleton] at h2
    subst h2
    decide
  have hlab0 : LabelsOK exactEx none := fun ls h => nomatch h
  refine ⟨rf, solver, hrf, hs, fun upd hu => ⟨?_, ?_, ?_⟩⟩
  · exact C41_feasible_iff exactEx_wf exactEx_labS hrf ratR (Or.inl rfl) exactEx_labA rfl hd hs (fun _ => hs) (by norm_num) (by norm_num)
      exactEx_init hlab0 (fun _ => one_pos) (Or.inl rfl) hu
  · exact C41_feasible_iff exactEx_wf exactEx_labS hrf ratR (Or.inl rfl) exactEx_labA rfl hd hs (fun _ => hs) (by norm_num) (by norm_num)
      exactEx_init hlab0 (fun _ => one_pos) (Or.inr ⟨rfl, _, by simp, Or.inl rfl⟩) hu
  · exact C41_feasible_iff exactEx_wf exactEx_labS hrf ratR (Or.inl rfl) exactEx_labA rfl hd hs (fun _ => hs) (by norm_num) (by norm_num)
      exactEx_init hlab (fun _ => one_pos) (Or.inl rfl) hu

/-- weights for a last result with a removed group and two others -/
example : (inverseResultUpdater (fun _ => 1) [(3, [0]), (4, [1]), (5, [2])]).update [1, 0, 1, 1, 0, (1/2 : ℚ)] =
    .ok [(3, 1), (4, 10 ^ 8), (5, 2)] := by decide +kernel

end Verif.Props
