import Verif.Props.LP
/-! # C27: generating certificates -/
set_option linter.unusedSectionVars false

namespace Verif.Props
open Verif.Model Verif.Proofs Verif.Theory Finset

variable {K : Type} [Field K] [LinearOrder K] [IsStrictOrderedRing K]
variable {ρ : Graph.Rnd} {M : Sys K} {il tl fl : String} {rf : RF K}

/-- **C27 (soundness).** Whatever the LP solver answers, a returned vector is accepted by
`check_farkas_certificate` with the tolerance given; an accepted answer of the solver is returned, and
otherwise the result is `None` (or the exception of the solver / of the check). -/
theorem C27_generate_valid (solver : Milp K → Except Err (List K)) (mode : Mode) (sense : Sense) (t tol : K) :
    (∀ v, generate solver rf mode sense t tol = .ok (some v) → check rf mode sense t v tol = .ok true) ∧
    (∀ lp ans, generateLP rf mode sense t = .ok lp → solver lp = .ok ans →
      check rf mode sense t ans.dropLast tol = .ok true →
      generate solver rf mode sense t tol = .ok (some ans.dropLast)) := by
  constructor
  · intro v hv
    simp only [generate, bind, Except.bind] at hv
    split at hv
    · cases hv
    split at hv
    · cases hv
    split at hv
    · cases hv
    · rename_i b hb
      cases b
      · cases hv
      · simp only [Except.ok.injEq, Option.some.injEq] at hv
        rw [← hv]; exact hb
  · intro lp ans h1 h2 h3
    simp only [generate, bind, Except.bind, h1, h2, h3]

/-- is the comparison strict? -/
def _root_.Verif.Model.Sense.strict : Sense → Bool
  | .lt | .gt => true
  | .le | .ge => false

/-- the check in terms of the (negated) system the generator uses -/
theorem check_iff_generateMatrix {mode : Mode} {sense : Sense} {t tol : K} {v : List K} {m : Mat K} {rhs : List K}
    (hcs : constraintSet rf mode sense t = .ok (m, rhs)) (hl : m.rows ≤ rhs.length) (hr : 0 < m.rows) :
    check rf mode sense t v tol = .ok true ↔ (0 ≤ t ∧ t ≤ 1) ∧ v.length = m.cols ∧
      ecCheck rf mode sense v (List.range m.cols) = .ok true ∧
      let g := generateMatrix sense (m, rhs)
      (∀ i < g.1.rows, ∑ j ∈ range g.1.cols, g.1.at_ i j * v.getD j 0 ≤ g.2.getD i 0 + tol) ∧
      (sense.strict = true → ∑ j ∈ range g.1.cols, g.1.at_ (m.rows - 1) j * v.getD j 0 < g.2.getD (m.rows - 1) 0 + tol) := by
  unfold check
  by_cases ht : 0 ≤ t ∧ t ≤ 1
  swap
  · simp [ht]
  rw [if_pos ht]
  simp only [hcs, bind, Except.bind]
  by_cases hlen : v.length = m.cols
  swap
  · simp [hlen]
  rw [if_pos hlen]
  have hneg : ∀ i < m.rows, (rhs.map fun x => -x).getD i 0 = - rhs.getD i 0 := by
    intro i hi
    rw [List.getD_eq_getElem _ _ (by simp; omega), List.getD_eq_getElem _ _ (by omega)]
    simp
  cases hec : ecCheck rf mode sense v (List.range m.cols) with
  | error e => simp
  | ok b =>
    cases b with
    | false => simp
    | true =>
      have hd : ∀ i < m.rows, (m.dot v).getD i 0 = ∑ j ∈ range m.cols, m.at_ i j * v.getD j 0 :=
        fun i hi => dot_getD hi
      have hlast : m.rows - 1 < m.rows := by omega
      simp only [ht, hlen, true_and, and_self]
      cases sense with
      | ge =>
        simp only [generateMatrix, Sense.isLe, Sense.strict, Bool.false_eq_true, if_false, Except.ok.injEq,
          decide_eq_true_eq, false_imp_iff, and_true]
        refine forall_congr' fun i => forall_congr' fun hi => ?_
        rw [hd i hi, sub_le_iff_le_add]
      | gt =>
        simp only [generateMatrix, Sense.isLe, Sense.strict, Bool.false_eq_true, if_false, Except.ok.injEq,
          decide_eq_true_eq, true_imp_iff]
        refine and_congr (forall_congr' fun i => forall_congr' fun hi => ?_) ?_
        · rw [hd i hi, sub_le_iff_le_add]
        · rw [hd _ hlast, sub_lt_iff_lt_add]
      | le =>
        simp only [generateMatrix, Sense.isLe, Sense.strict, if_true, Except.ok.injEq,
          decide_eq_true_eq, Bool.false_eq_true, false_imp_iff, and_true, neg_mul, Finset.sum_neg_distrib]
        refine forall_congr' fun i => forall_congr' fun hi => ?_
        rw [hd i hi, hneg i hi]
        constructor <;> intro h <;> linarith
      | lt =>
        simp only [generateMatrix, Sense.isLe, Sense.strict, if_true, Except.ok.injEq,
          decide_eq_true_eq, true_imp_iff, neg_mul, Finset.sum_neg_distrib]
        refine and_congr (forall_congr' fun i => forall_congr' fun hi => ?_) ?_
        · rw [hd i hi, hneg i hi]
          constructor <;> intro h <;> linarith
        · rw [hd _ hlast, hneg _ hlast]
          constructor <;> intro h <;> linarith

theorem constraintSet_ok (hin : rf.initial < rf.N) (mode : Mode) (sense : Sense) (t : K) :
    ∃ m rhs, constraintSet rf mode sense t = .ok (m, rhs) ∧ m.rows ≤ rhs.length ∧ 0 < m.rows ∧
      m.cols = (match mode, sense.isLe with
        | .min, true => rf.C
        | .max, false => rf.C
        | .min, false => rf.N
        | .max, true => rf.N) := by
  have hz : ∃ m rhs, rf.farkZ t = .ok (m, rhs) ∧ m.rows ≤ rhs.length ∧ 0 < m.rows ∧ m.cols = rf.N := by
    obtain ⟨m, rhs, h⟩ := farkZ_some t hin
    obtain ⟨-, h1, h2, h3, -⟩ := farkZ_rows h
    exact ⟨m, rhs, h, by omega, by omega, h2⟩
  have hy : ∃ m rhs, rf.farkY t = .ok (m, rhs) ∧ m.rows ≤ rhs.length ∧ 0 < m.rows ∧ m.cols = rf.C := by
    obtain ⟨m, rhs, h⟩ := farkY_some t hin
    obtain ⟨-, h1, h2, h3, -⟩ := farkY_rows h
    exact ⟨m, rhs, h, by omega, by omega, h2⟩
  cases mode <;> cases sense <;> simp only [constraintSet, Sense.isLe] <;> assumption

theorem zeroVars_ok (h : RFOK rf) {mode : Mode} {sense : Sense} {m : Mat K}
    (hcols : m.cols = (match mode, sense.isLe with
        | .min, true => rf.C
        | .max, false => rf.C
        | .min, false => rf.N
        | .max, true => rf.N))
    (hne : mode = .min → sense.isLe = true → ∀ s < rf.N, rf.inProperEC s = false) :
    ∃ zs, zeroVars rf mode sense m.cols = .ok zs ∧ (∀ z ∈ zs, z < m.cols) ∧
      ∀ v, ecCheck rf mode sense v (List.range m.cols) = .ok true ↔ ∀ z ∈ zs, v.getD z 0 = 0 := by
  cases mode with
  | max =>
    refine ⟨[], rfl, by simp, fun v => ?_⟩
    simp [ecCheck_max]
  | min =>
    by_cases hs : sense.isLe = true
    · have hec := hne rfl hs
      simp only [hs] at hcols
      refine ⟨[], ?_, by simp, fun v => ?_⟩
      · simp only [zeroVars, hs, if_true]
        have key : ∀ l : List Nat, (∀ i ∈ l, i < rf.C) → l.foldlM (fun acc i =>
            match rf.rowState i with
            | none => .error .keyError
            | some s => .ok (if rf.inProperEC s = true then acc ++ [s] else acc)) ([] : List Nat) = (.ok [] : Except Err (List Nat)) := by
          intro l
          induction l with
          | nil => intro _; rfl
          | cons i l ih =>
            intro hl
            obtain ⟨s, hsN, es⟩ := h.exists_rowState (hl i (by simp))
            simp only [List.foldlM_cons, es, hec s hsN, Bool.false_eq_true, if_false, bind, Except.bind]
            exact ih fun j hj => hl j (by simp [hj])
        exact key _ fun i hi => by rw [hcols] at hi; exact List.mem_range.1 hi
      · rw [hcols, ecCheck_min_y hs v _ fun i hi => h.isSome_rowState (List.mem_range.1 hi)]
        simp only [Except.ok.injEq, decide_eq_true_eq, List.not_mem_nil, false_imp_iff, implies_true, iff_true]
        intro i hi s hs' hp
        obtain ⟨s', hsN, es⟩ := h.exists_rowState (List.mem_range.1 hi)
        rw [es] at hs'
        cases hs'
        rw [hec _ hsN] at hp
        cases hp
    · have hs : sense.isLe = false := by simpa using hs
      refine ⟨(List.range m.cols).filter fun s => rf.inProperEC s,
        by simp only [zeroVars, hs, Bool.false_eq_true, if_false], ?_, fun v => ?_⟩
      · intro z hz
        exact List.mem_range.1 (List.mem_filter.1 hz).1
      · rw [ecCheck_min_z hs]
        simp only [Except.ok.injEq, decide_eq_true_eq, List.mem_filter, and_imp]

/-- **C27 (completeness; partial).** If a non-negative certificate exists that is accepted with tolerance 0 and
the solver answers with an optimal solution, then a certificate is returned -- provided the tolerance is positive for the
strict comparisons, and that there are no proper end components for `Pr_min <=`, `Pr_min <` (otherwise
see `C27_min_le_false`). -/
theorem C27_generate_complete_partial (hM : M.WF) (hrf : RF.make ρ M il tl fl false = .ok rf)
    {mode : Mode} {sense : Sense} {t tol : K} (htol : 0 ≤ tol) (hst : sense.strict = true → 0 < tol)
    (hne : mode = .min → sense.isLe = true → ∀ s < rf.N, rf.inProperEC s = false)
    {v : List K} (hv : ∀ x ∈ v, 0 ≤ x) (hc : check rf mode sense t v 0 = .ok true)
    {solver : Milp K → Except Err (List K)}
    (hsol : ∀ lp, generateLP rf mode sense t = .ok lp →
      ∃ x, lp.Optimal x ∧ solver lp = .ok ((List.range lp.vars.length).map x)) :
    ∃ w, generate solver rf mode sense t tol = .ok (some w) := by
  have h := rfok_built hM hrf
  have hin : rf.initial < rf.N := by
    unfold check at hc
    split at hc
    swap
    · cases hc
    by_contra hin
    have : constraintSet rf mode sense t = .error .indexError := by
      cases mode <;> cases sense <;> simp [constraintSet, Sense.isLe, RF.farkZ, RF.farkY, hin]
    simp only [this, bind, Except.bind] at hc
    cases hc
  obtain ⟨m, rhs, hcs, hl, hr, hcols⟩ := constraintSet_ok hin mode sense t
  obtain ⟨zs, hz, hzlt, hzec⟩ := zeroVars_ok h hcols hne
  obtain ⟨ht, hlen, hec, hrows, -⟩ := (check_iff_generateMatrix hcs hl hr).1 hc
  set g := generateMatrix sense (m, rhs) with hg
  have hgr : g.1.rows = m.rows := by rw [hg]; unfold generateMatrix; split <;> rfl
  have hgc : g.1.cols = m.cols := by rw [hg]; unfold generateMatrix; split <;> rfl
  have hgl : g.2.length = rhs.length := by rw [hg]; unfold generateMatrix; split <;> simp
  obtain ⟨lp, hlp, hvars, hmax, hobj, hfeas⟩ := interiorLP_ok (A := g.1) (b := g.2) (zero := zs)
    (by rw [hgr, hgl]; exact hl) (by rw [hgc]; exact hzlt)
  have hglp : generateLP rf mode sense t = .ok lp := by
    simp only [generateLP, if_pos ht, hcs, bind, Except.bind, hz]
    exact hlp
  obtain ⟨x, hx, hans⟩ := hsol lp hglp
  refine ⟨_, (C27_generate_valid solver mode sense t tol).2 lp _ hglp hans ?_⟩
  -- the certificate with slack 0 is feasible
  have hf0 : lp.Feasible fun j => if j = g.1.cols then 0 else v.getD j 0 := by
    refine (hfeas _).2 ⟨fun i hi => ?_, fun j hj => ?_, fun z hz' => ?_⟩
    · rw [if_pos rfl]
      refine le_trans (le_of_eq ?_) (hrows i hi)
      exact Finset.sum_congr rfl fun j hj => by rw [if_neg (by have := Finset.mem_range.1 hj; omega)]
    · rw [if_pos rfl, if_neg (by omega), add_zero]
      rw [List.getD_eq_getElem _ _ (by rw [hlen, ← hgc]; exact hj)]
      exact hv _ (List.getElem_mem _)
    · rw [if_neg (by have := hzlt z hz'; omega)]
      exact (hzec v).1 hec z hz'
  have hs : x g.1.cols ≤ 0 := by
    have := hx.2 _ hf0
    rw [hmax, if_neg (by simp), hobj, hobj, if_pos rfl] at this
    exact this
  obtain ⟨f1, -, f3⟩ := (hfeas x).1 hx.1
  have hdl : ((List.range lp.vars.length).map x).dropLast = (List.range m.cols).map x := by
    rw [hvars, hgc, List.range_succ, List.map_append]
    simp
  rw [hdl]
  have hxd : ∀ j < m.cols, ((List.range m.cols).map x).getD j 0 = x j := fun j hj => getD_map_range hj _ _
  have hrow : ∀ i < g.1.rows, ∑ j ∈ range g.1.cols, g.1.at_ i j * ((List.range m.cols).map x).getD j 0 ≤ g.2.getD i 0 := by
    intro i hi
    have := f1 i hi
    have e : ∑ j ∈ range g.1.cols, g.1.at_ i j * ((List.range m.cols).map x).getD j 0 =
        ∑ j ∈ range g.1.cols, g.1.at_ i j * x j :=
      Finset.sum_congr rfl fun j hj => by rw [hxd j (by have := Finset.mem_range.1 hj; omega)]
    rw [e]; linarith
  refine (check_iff_generateMatrix hcs hl hr).2 ⟨ht, by simp, (hzec _).2 fun z hz' => ?_, fun i hi => ?_, fun hs' => ?_⟩
  · rw [hxd z (hzlt z hz')]; exact f3 z hz'
  · have := hrow i hi; linarith
  · have := hrow (m.rows - 1) (by omega)
    have := hst hs'
    linarith

/-! ### the wrong zero variables -/

/-- state 1 is initial and may go to goal/fail (row 0) or to state 0 (row 3), which can loop (row 1) or go to
goal (row 2) -/
def cxGen : Sys ℚ := mkSys ⟨6, 4, [((0, 2), 1/2), ((0, 3), 1/2), ((1, 0), 1), ((2, 2), 1), ((3, 0), 1),
    ((4, 2), 1), ((5, 3), 1)]⟩
  [((1, 0), 0), ((0, 0), 1), ((0, 1), 2), ((1, 1), 3), ((2, 0), 4), ((3, 0), 5)]
  (IDict.mk' [("init", [1]), ("goal", [2]), ("fail", [3])] true)

theorem cxGen_wf : cxGen.WF := mkSys_wf (by decide +kernel) (by decide +kernel) (by decide +kernel)
  (by decide) (by decide) (by decide +kernel)

/-- **C27 (completeness) is false for `Pr_min <=` with end components.** A certificate exists (accepted with
tolerance 0), but whatever feasible solution the solver answers, no certificate is returned. -/
theorem C27_min_le_false : ∃ rf, RF.make exRnd cxGen "init" "goal" "fail" false = .ok rf ∧
    check rf .min .le (1/2) [1, 0, 0, 0] 0 = .ok true ∧
    ∃ lp, generateLP rf .min .le (1/2) = .ok lp ∧ (∃ x, lp.Feasible x) ∧
    ∀ (solver : Milp ℚ → Except Err (List ℚ)) (x : Nat → ℚ), lp.Feasible x →
      solver lp = .ok ((List.range lp.vars.length).map x) →
      ∀ v, generate solver rf .min .le (1/2) (1 / 10 ^ 5) ≠ .ok (some v) := by
  obtain ⟨rf, h1, h2⟩ := exists_of_ok_and (x := RF.make exRnd cxGen "init" "goal" "fail" false)
    (p := fun rf => yes (check rf .min .le (1/2) [1, 0, 0, 0] 0) &&
      decide (rf.initial = 1 ∧ rf.N = 2 ∧ rf.C = 4 ∧ (match zeroVars rf .min .le 4 with | .ok zs => decide (zs = [0, 0]) | _ => false) = true ∧
        rf.inProperEC 0 = true ∧ rf.rowState 1 = some 0 ∧ rf.rowState 2 = some 0 ∧
        rf.A 0 1 = 1 ∧ rf.A 3 1 = 1 ∧ rf.A 3 0 = -1 ∧ rf.A 0 0 = 0))
    (by decide +kernel)
  simp only [Bool.and_eq_true, yes_iff, decide_eq_true_eq] at h2
  obtain ⟨hc, hinit, hN, hC, hz, hp, hr1, hr2, a01, a31, a30, a00⟩ := h2
  have h := rfok_built cxGen_wf h1
  have hin : rf.initial < rf.N := by omega
  have hz : zeroVars rf .min .le 4 = .ok [0, 0] := by
    revert hz
    cases zeroVars rf .min .le 4 with
    | ok zs => simp
    | error e => simp
  obtain ⟨m, rhs, hcs, hl, hr, hcols⟩ := constraintSet_ok hin .min .le (1/2 : ℚ)
  simp only [Sense.isLe] at hcols
  set g := generateMatrix .le (m, rhs) with hg
  obtain ⟨lp, hlp, hvars, hmax, hobj, hfeas⟩ := interiorLP_ok (A := g.1) (b := g.2) (zero := [0, 0])
    (by simpa [hg, generateMatrix, Sense.isLe] using hl) (by
      intro i hi
      have : i = 0 := by simpa using hi
      subst this
      show 0 < m.cols
      omega)
  have hglp : generateLP rf .min .le (1/2) = .ok lp := by
    simp only [generateLP]
    rw [if_pos (by norm_num)]
    simp only [hcs, bind, Except.bind, hcols, hC, hz]
    exact hlp
  refine ⟨rf, h1, hc, lp, hglp, ?_, ?_⟩
  · -- a large slack
    obtain ⟨B, hB⟩ : ∃ B : ℚ, 0 ≤ B ∧ ∀ i < g.1.rows, 0 ≤ g.2.getD i 0 + B := by
      refine ⟨∑ i ∈ range g.1.rows, |g.2.getD i 0|, Finset.sum_nonneg fun _ _ => abs_nonneg _, fun i hi => ?_⟩
      have := Finset.single_le_sum (f := fun i => |g.2.getD i 0|) (fun _ _ => abs_nonneg _) (Finset.mem_range.2 hi)
      have := neg_abs_le (g.2.getD i 0)
      linarith
    refine ⟨fun j => if j = g.1.cols then B else 0, (hfeas _).2 ⟨fun i hi => ?_, fun j hj => ?_, fun z hz' => ?_⟩⟩
    · rw [if_pos rfl]
      refine le_trans (le_of_eq ?_) (hB.2 i hi)
      exact Finset.sum_eq_zero fun j hj => by rw [if_neg (by have := Finset.mem_range.1 hj; omega), mul_zero]
    · rw [if_pos rfl, if_neg (by omega), zero_add]; exact hB.1
    · have : z = 0 := by simpa using hz'
      subst this
      rw [if_neg]
      show 0 ≠ m.cols
      omega
  · intro solver x hx hans v hv
    have hck := (C27_generate_valid solver .min .le _ _).1 v hv
    have hvx : v = (List.range 4).map x := by
      simp only [generate, hglp, bind, Except.bind, hans] at hv
      split at hv
      · cases hv
      split at hv
      · simp only [Except.ok.injEq, Option.some.injEq] at hv
        rw [← hv, hvars]
        show ((List.range (m.cols + 1)).map x).dropLast = _
        rw [hcols, hC, List.range_succ, List.map_append]
        simp
      · cases hv
    obtain ⟨-, -, f3⟩ := (hfeas x).1 hx
    have hx0 : x 0 = 0 := f3 0 (by simp)
    subst hvx
    obtain ⟨-, -, -, hec, hrow, -, -⟩ :=
      (check_min_le (strict := false) fun i hi => h.isSome_rowState hi).1 hck
    have v0 : ((List.range 4).map x).getD 0 0 = 0 := by rw [getD_map_range (by norm_num), hx0]
    have v1 := hec 1 (by omega) 0 (by rw [hr1]; rfl) hp
    have v2 := hec 2 (by omega) 0 (by rw [hr2]; rfl) hp
    have c0 := hrow 0 (by omega)
    have c1 := hrow 1 (by omega)
    simp only [yrow, hC, Finset.sum_range_succ, Finset.sum_range_zero, v0, v1, v2, a30, a31, RF.delta, hinit] at c0 c1
    norm_num at c0 c1
    linarith

/-! ### the hypotheses are met -/

example : ∃ rf, RF.make exRnd cxMin "init" "goal" "fail" false = .ok rf ∧
    (∀ s < rf.N, rf.inProperEC s = false) ∧ check rf .min .le (1/2) [1, 0] 0 = .ok true := by
  obtain ⟨rf, h1, h2⟩ := exists_of_ok_and (x := RF.make exRnd cxMin "init" "goal" "fail" false)
    (p := fun rf => decide (∀ s < rf.N, rf.inProperEC s = false) && yes (check rf .min .le (1/2) [1, 0] 0))
    (by decide +kernel)
  simp only [Bool.and_eq_true, yes_iff, decide_eq_true_eq] at h2
  exact ⟨rf, h1, h2⟩

end Verif.Props
