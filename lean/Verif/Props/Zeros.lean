import Verif.Props.Robust
import Verif.Props.SystemGraph
import Verif.Props.CertMin
/-!
# C88: explicitly stored zeros

A sparse matrix may store zeros explicitly; `cast_dok_matrix` keeps them, the constructors accept them and the graph
gets an edge for each.
-/
set_option linter.unusedSectionVars false

namespace Verif.Props
open Verif.Model Verif.Spec Verif.Proofs Verif.Theory Finset

section
variable {K : Type} [Field K] [LinearOrder K] [IsStrictOrderedRing K]
variable {ρ ρ' : Graph.Rnd} {M M' : Sys K} {il tl fl : String} {rf rf' : RF K}

/-- **C88 (partial: no zeros are stored).** Two systems with the same entries, index and labels, however the entries are
stored: their reachability forms exist together and accept the same certificates. -/
theorem C88_same_partial (hw : M.WF) (hw' : M'.WF) (hr : M'.C = M.C) (hc : M'.N = M.N) (hi : M'.idx = M.idx)
    (hl : M'.labS = M.labS) (hg : ∀ i j, M'.P.get i j = M.P.get i j) :
    ((∃ rf, RF.make ρ M il tl fl false = .ok rf) ↔ ∃ rf', RF.make ρ' M' il tl fl false = .ok rf') ∧
    (RF.make ρ M il tl fl false = .ok rf → RF.make ρ' M' il tl fl false = .ok rf' →
      ∀ mode sense t v tol, check rf mode sense t v tol = .ok true ↔ check rf' mode sense t v tol = .ok true) := by
  have hn : M.Near 0 M' := ⟨hr, hc, hi, hl, fun i j => by rw [hg], fun i j => by rw [hg]; simp⟩
  refine ⟨C87_same_form (stored_of_wf hw) hw' hn, fun h h' mode sense t v tol => ⟨fun hk => ?_, fun hk => ?_⟩⟩
  · simpa using C87_check (stored_of_wf hw) hw' hn h h' hk
  · simpa using C87_check (stored_of_wf hw') hw (Near.symm hn) h' h hk

/-- probabilities are a matter of the entries alone -/
theorem prMin_congr (φ : K →+*o ℝ) (hr : M'.C = M.C) (hc : M'.N = M.N) (hi : M'.idx = M.idx)
    (hg : ∀ i j, M'.P.get i j = M.P.get i j) (T : Set Nat) (s : Nat) : M'.prMin φ T s = M.prMin φ T s := by
  obtain ⟨d, P, idx, la, ls, rw, g⟩ := M
  obtain ⟨d', P', idx', la', ls', rw', g'⟩ := M'
  obtain ⟨r, c, it⟩ := P
  obtain ⟨r', c', it'⟩ := P'
  simp only [Sys.C, Sys.N] at hr hc hi
  subst hr hc hi
  unfold Sys.prMin Sys.toMDP
  simp only [hg]
  rfl

end

/-! ### the counterexample -/

/-- state 0 may go to the goal (state 1) or stay where it is; state 2 is the fail state -/
def zeroP0 : Dok ℚ := ⟨4, 3, [((0, 1), 1), ((1, 0), 1), ((2, 1), 1), ((3, 2), 1)]⟩
/-- the same matrix with a stored zero: staying has an entry for the goal -/
def zeroP : Dok ℚ := ⟨4, 3, [((0, 1), 1), ((1, 0), 1), ((1, 1), 0), ((2, 1), 1), ((3, 2), 1)]⟩
def zeroIdx : Dict (Nat × Nat) Nat := [((0, 0), 0), ((0, 1), 1), ((1, 0), 2), ((2, 0), 3)]
def zeroLab : IDict String Nat := IDict.mk' [("init", [0]), ("goal", [1]), ("fail", [2])] true

theorem zeroP_get (i j : Nat) : zeroP.get i j = zeroP0.get i j := by
  by_cases h : ((1, 1) : Nat × Nat) = (i, j)
  · cases h; rfl
  · simp only [Dok.get, Dict.get?, zeroP, zeroP0, if_neg h]

/-- **C88 (false as stated).** Two matrices with the same entries, one of which stores a zero.  Both are accepted.  With
the stored zero `check_farkas_certificate` says that the goal is reached with minimal probability at least 1; without it
the same call says no, and the minimal probability is 0. -/
theorem C88_false : InShape zeroP ∧ (∀ i j, zeroP.get i j = zeroP0.get i j) ∧
    ∃ M M0 rf rf0, Sys.makeMDP zeroP zeroIdx (IDict.mk' [] true) zeroLab none = .ok M ∧
      Sys.makeMDP zeroP0 zeroIdx (IDict.mk' [] true) zeroLab none = .ok M0 ∧
      RF.make exRnd M "init" "goal" "fail" false = .ok rf ∧ RF.make exRnd M0 "init" "goal" "fail" false = .ok rf0 ∧
      0 ∈ M.labelled "init" ∧
      check rf .min .ge 1 [1] 0 = .ok true ∧ check rf0 .min .ge 1 [1] 0 = .ok false ∧
      ∀ φ : ℚ →+*o ℝ, M.prMin φ (M.labelled "goal") 0 = 0 := by
  have hsh : InShape zeroP := by
    refine ⟨by decide, fun i j p he => ?_⟩
    simp only [zeroP, List.mem_cons, Prod.mk.injEq, List.not_mem_nil, or_false] at he
    rcases he with ⟨⟨rfl, rfl⟩, -⟩ | ⟨⟨rfl, rfl⟩, -⟩ | ⟨⟨rfl, rfl⟩, -⟩ | ⟨⟨rfl, rfl⟩, -⟩ | ⟨⟨rfl, rfl⟩, -⟩ <;>
      exact ⟨Nat.le_of_ble_eq_true rfl, Nat.le_of_ble_eq_true rfl⟩
  have hsh0 : InShape zeroP0 := by
    refine ⟨by decide, fun i j p he => ?_⟩
    simp only [zeroP0, List.mem_cons, Prod.mk.injEq, List.not_mem_nil, or_false] at he
    rcases he with ⟨⟨rfl, rfl⟩, -⟩ | ⟨⟨rfl, rfl⟩, -⟩ | ⟨⟨rfl, rfl⟩, -⟩ | ⟨⟨rfl, rfl⟩, -⟩ <;>
      exact ⟨Nat.le_of_ble_eq_true rfl, Nat.le_of_ble_eq_true rfl⟩
  have hk : (zeroIdx.map Prod.fst).Nodup := by decide
  obtain ⟨M, hM, h⟩ := exists_of_ok_and (x := Sys.makeMDP zeroP zeroIdx (IDict.mk' [] true) zeroLab none)
    (p := fun M => match RF.make exRnd M "init" "goal" "fail" false with
      | .ok rf => yes (check rf .min .ge 1 [1] 0) | .error _ => false) (by decide +kernel)
  obtain ⟨M0, hM0, h0⟩ := exists_of_ok_and (x := Sys.makeMDP zeroP0 zeroIdx (IDict.mk' [] true) zeroLab none)
    (p := fun M => match RF.make exRnd M "init" "goal" "fail" false with
      | .ok rf => (match check rf .min .ge 1 [1] 0 with | .ok b => !b | .error _ => false) && rf.inProperEC 0 && decide (rf.N = 1)
      | .error _ => false) (by decide +kernel)
  obtain ⟨rf, hrf, hc⟩ := exists_of_ok_and (x := RF.make exRnd M "init" "goal" "fail" false)
    (p := fun rf => yes (check rf .min .ge 1 [1] 0)) (by
      revert h; cases RF.make exRnd M "init" "goal" "fail" false <;> exact id)
  obtain ⟨rf0, hrf0, hc0⟩ := exists_of_ok_and (x := RF.make exRnd M0 "init" "goal" "fail" false)
    (p := fun rf => (match check rf .min .ge 1 [1] 0 with | .ok b => !b | .error _ => false) && rf.inProperEC 0 &&
      decide (rf.N = 1)) (by revert h0; cases RF.make exRnd M0 "init" "goal" "fail" false <;> exact id)
  simp only [Bool.and_eq_true, decide_eq_true_eq] at hc0
  obtain ⟨⟨hc0, hec⟩, hN⟩ := hc0
  obtain ⟨e1, e2, -, e4, -⟩ := C09_mdp_content hk hM
  obtain ⟨f1, f2, -, f4, -⟩ := C09_mdp_content hk hM0
  refine ⟨hsh, zeroP_get, M, M0, rf, rf0, hM, hM0, hrf, hrf0, ⟨[0], ?_, by simp⟩, yes_iff.1 hc, ?_, fun φ => ?_⟩
  · unfold Sys.statesByLabel; rw [e4]; rfl
  · cases hk : check rf0 .min .ge 1 [1] 0 with
    | error e => simp [hk] at hc0
    | ok b => simp [hk] at hc0; rw [hc0]
  · have hw : M0.WF := Constructed.wf (P := zeroP0) (idx := zeroIdx) hsh0 hk (.mdp _ _ _ hM0) (by decide +kernel) (by
      intro i j he
      simp [zeroP0] at he)
    have hlab : M.labelled "goal" = M0.labelled "goal" := by unfold Sys.labelled Sys.statesByLabel; rw [e4, f4]
    rw [hlab, prMin_congr (M := M0) (M' := M) φ (by unfold Sys.C; rw [e1, f1]; rfl) (by unfold Sys.N; rw [e1, f1]; rfl)
      (by rw [e2, f2]) (fun i j => by rw [e1, f1]; exact zeroP_get i j)]
    have := prMin_core hw hrf0 φ ⟨0, by omega⟩
    simp only at this
    rw [this]
    exact Core.Vmin_eq_zero_of_InEC ((rfok_built hw hrf0).sub φ) ((RFOK.inEC_iff (rfok_built hw hrf0) φ ⟨0, by omega⟩).2 hec)

/-- the hypotheses of `C88_same_partial`: the same entries stored in another order -/
example : ∃ M M' : Sys ℚ, M = mkSys zeroP0 zeroIdx zeroLab ∧
    M' = mkSys ⟨4, 3, [((3, 2), 1), ((1, 0), 1), ((0, 1), 1), ((2, 1), 1)]⟩ zeroIdx zeroLab ∧ M.WF ∧ M'.WF ∧ M'.C = M.C ∧
    M'.N = M.N ∧ (∀ i j, M'.P.get i j = M.P.get i j) ∧ (RF.make exRnd M "init" "goal" "fail" false).isOk = true := by
  refine ⟨_, _, rfl, rfl, mkSys_wf (by decide +kernel) (by decide +kernel) (by decide +kernel) (by decide +kernel)
    (by decide +kernel) (by decide +kernel), mkSys_wf (by decide +kernel) (by decide +kernel) (by decide +kernel)
    (by decide +kernel) (by decide +kernel) (by decide +kernel), rfl, rfl, fun i j => ?_, by decide +kernel⟩
  simp only [mkSys, Dok.get, Dict.get?, zeroP0]
  split_ifs <;> simp_all

/-! ### what remains true with stored zeros -/

section
variable {K : Type} [Field K] [LinearOrder K] [IsStrictOrderedRing K]
variable {ρ ρ' : Graph.Rnd} {M M' : Sys K} {il tl fl : String} {rf rf' : RF K}

theorem make_parts {ig : Bool} (h : RF.make ρ M il tl fl ig = .ok rf) : ∃ d s l, delInv M.idx (M.C - 2) = .ok d ∧ delInv d (M.C - 1) = .ok rf.idx ∧
    M.statesByLabel il = .ok (s :: l) ∧ rf.initial = s := by
  unfold RF.make at h
  simp only [bind, Except.bind] at h
  cases ig with
  | true =>
    simp only [if_true] at h
    split at h
    · cases h
    rename_i is his
    cases is with
    | nil => cases h
    | cons s l =>
      simp only at h
      repeat' split at h
      all_goals first | (cases h; done) | skip
      all_goals (rename_i d1 hd1 _ d2 hd2 _ _ _ _ _ _ _; cases h; exact ⟨d1, s, l, hd1, hd2, his, rfl⟩)
  | false =>
    simp only [Bool.false_eq_true, if_false] at h
    split at h
    · cases h
    split at h
    · cases h
    rename_i is his
    cases is with
    | nil => cases h
    | cons s l =>
      simp only at h
      repeat' split at h
      all_goals first | (cases h; done) | skip
      all_goals (rename_i d1 hd1 _ d2 hd2 _ _ _ _ _ _ _; cases h; exact ⟨d1, s, l, hd1, hd2, his, rfl⟩)

theorem make_same {ig ig' : Bool} (hr : M'.C = M.C) (hi : M'.idx = M.idx) (hl : M'.labS = M.labS)
    (h : RF.make ρ M il tl fl ig = .ok rf) (h' : RF.make ρ' M' il tl fl ig' = .ok rf') : rf'.idx = rf.idx ∧ rf'.initial = rf.initial := by
  obtain ⟨d, s, l, h1, h2, h3, h4⟩ := make_parts h
  obtain ⟨d', s', l', g1, g2, g3, g4⟩ := make_parts h'
  rw [hr, hi, h1] at g1
  cases g1
  rw [hr, h2] at g2
  unfold Sys.statesByLabel at g3 h3
  rw [hl, h3] at g3
  cases g3
  exact ⟨(Except.ok.inj g2).symm, g4.trans h4.symm⟩

/-- probabilities are a matter of the entries alone -/
theorem prMax_congr (φ : K →+*o ℝ) (hr : M'.C = M.C) (hc : M'.N = M.N) (hi : M'.idx = M.idx)
    (hg : ∀ i j, M'.P.get i j = M.P.get i j) (T : Set Nat) (s : Nat) : M'.prMax φ T s = M.prMax φ T s := by
  obtain ⟨d, P, idx, la, ls, rw, g⟩ := M
  obtain ⟨d', P', idx', la', ls', rw', g'⟩ := M'
  obtain ⟨r, c, it⟩ := P
  obtain ⟨r', c', it'⟩ := P'
  simp only [Sys.C, Sys.N] at hr hc hi
  subst hr hc hi
  unfold Sys.prMax Sys.toMDP
  simp only [hg]
  rfl

/-- the entries alone determine the constraints -/
theorem constraintSet_congr (e1 : rf'.sys.C = rf.sys.C) (e2 : rf'.sys.N = rf.sys.N) (e3 : rf'.idx = rf.idx) (e4 : rf'.initial = rf.initial)
    (hg : ∀ i j, rf'.sys.P.get i j = rf.sys.P.get i j) (mode : Mode) (sense : Sense) (t : K) :
    constraintSet rf' mode sense t = constraintSet rf mode sense t := by
  have hA : rf'.A = rf.A := by funext i j; unfold RF.A RF.rowState RF.P; rw [e3, hg]
  have hb : rf'.b = rf.b := by funext i; unfold RF.b; rw [e2, hg]
  have hd : rf'.delta = rf.delta := by funext i; unfold RF.delta; rw [e4]
  have hN : rf'.N = rf.N := by unfold RF.N; rw [e2]
  have hC : rf'.C = rf.C := by unfold RF.C; rw [e1]
  unfold constraintSet RF.farkY RF.farkZ
  rw [hA, hb, hd, hN, hC, e4]

theorem ecCheck_congr (e3 : rf'.idx = rf.idx) {mode : Mode} (sense : Sense) (v : List K)
    (hec : mode = .min → ∀ s, rf'.inProperEC s = rf.inProperEC s) : ∀ l, ecCheck rf' mode sense v l = ecCheck rf mode sense v l
  | [] => rfl
  | i :: is => by
    cases mode with
    | max => rfl
    | min =>
      have ih := ecCheck_congr e3 sense v hec is
      have hrow : rf'.rowState i = rf.rowState i := by unfold RF.rowState; rw [e3]
      simp only [ecCheck, hrow, ih, hec rfl]

/-- **C88 (partial: maximal probabilities).** Two systems with the same entries, index and labels, one or both with stored zeros,
and any reachability forms of them: `check_farkas_certificate` gives the same answer - or raises the same exception - for every
vector and every bound on the maximal probability, and for bounds on the minimal probability if the two forms have the same
states in end components. -/
theorem C88_max_partial (hr : M'.C = M.C) (hc : M'.N = M.N) (hi : M'.idx = M.idx)
    (hl : M'.labS = M.labS) (hg : ∀ i j, M'.P.get i j = M.P.get i j)
    {ig ig' : Bool} (h : RF.make ρ M il tl fl ig = .ok rf) (h' : RF.make ρ' M' il tl fl ig' = .ok rf') {mode : Mode}
    (hec : mode = .min → ∀ s, rf'.inProperEC s = rf.inProperEC s) (sense : Sense) (t : K) (v : List K) (tol : K) :
    check rf' mode sense t v tol = check rf mode sense t v tol := by
  obtain ⟨e3, e4⟩ := make_same hr hi hl h h'
  obtain ⟨e, -⟩ := make_fields h
  obtain ⟨e', -⟩ := make_fields h'
  have h1 := constraintSet_congr (rf := rf) (rf' := rf') (by rw [e, e', hr]) (by rw [e, e', hc]) e3 e4
    (fun i j => by rw [e, e', hg]) mode sense t
  unfold check
  simp only [h1, ecCheck_congr e3 sense v hec]

/-- **C88 (partial: soundness with stored zeros).** Whatever zeros are stored: an accepted certificate for an upper bound on the
maximal probability is right, provided that the reachability form would be accepted without the stored zeros. -/
theorem C88_max_le_partial (hM : M.WF) (hr : M'.C = M.C) (hc : M'.N = M.N) (hi : M'.idx = M.idx)
    (hl : M'.labS = M.labS) (hg : ∀ i j, M'.P.get i j = M.P.get i j)
    (h : RF.make ρ M il tl fl false = .ok rf) (h' : RF.make ρ' M' il tl fl false = .ok rf') (φ : K →+*o ℝ)
    {t : K} {v : List K} (hk : check rf' .max .le t v 0 = .ok true) {i : Nat} (hin : i ∈ M'.labelled il) :
    M'.prMax φ (M'.labelled tl) i ≤ φ t := by
  have hlab : ∀ l, M'.labelled l = M.labelled l := fun l => by unfold Sys.labelled Sys.statesByLabel; rw [hl]
  rw [C88_max_partial hr hc hi hl hg h h' (mode := .max) (fun h => nomatch h)] at hk
  rw [hlab] at hin ⊢
  rw [prMax_congr φ hr hc hi hg]
  exact C21_max_le_sound hM h φ hk hin

end

/-- state 0 goes to the goal (state 2), state 1 as well, but nothing leads to state 1 -/
def farP0 : Dok ℚ := ⟨4, 4, [((0, 2), 1), ((1, 2), 1), ((2, 2), 1), ((3, 3), 1)]⟩
/-- the same with a stored zero from 0 to 1 -/
def farP : Dok ℚ := ⟨4, 4, [((0, 1), 0), ((0, 2), 1), ((1, 2), 1), ((2, 2), 1), ((3, 3), 1)]⟩
/-- state 0 goes to the goal -/
def offP0 : Dok ℚ := ⟨3, 3, [((0, 1), 1), ((1, 1), 1), ((2, 2), 1)]⟩
/-- the same with a stored zero from fail to the goal -/
def offP : Dok ℚ := ⟨3, 3, [((0, 1), 1), ((1, 1), 1), ((2, 1), 0), ((2, 2), 1)]⟩

theorem get_cons_zero {r c : Nat} {l l' : Dict (Nat × Nat) ℚ} (k : Nat × Nat) (h1 : (Dict.get? (l ++ l') k).getD 0 = 0) (i j : Nat) :
    (⟨r, c, l ++ (k, 0) :: l'⟩ : Dok ℚ).get i j = (⟨r, c, l ++ l'⟩ : Dok ℚ).get i j := by
  unfold Dok.get
  simp only
  by_cases h : k = (i, j)
  · subst h
    rw [h1]
    induction l with
    | nil => simp [Dict.get?]
    | cons e l ih =>
      obtain ⟨k', x⟩ := e
      simp only [List.cons_append, Dict.get?] at h1 ⊢
      split
      · rename_i h2; rw [if_pos h2] at h1; exact h1
      · rename_i h2; rw [if_neg h2] at h1; exact ih h1
  · congr 1
    clear h1
    induction l with
    | nil => simp [Dict.get?, h]
    | cons e l ih =>
      obtain ⟨k', x⟩ := e
      simp only [List.cons_append, Dict.get?]
      split
      · rfl
      · exact ih

/-- the call ends with an assertion error -/
def refused {α : Type} : Except Err α → Bool
  | .error .assertion => true
  | _ => false

theorem refused_iff {α : Type} {x : Except Err α} (h : refused x = true) : x = .error .assertion := by
  unfold refused at h
  split at h
  · rfl
  · cases h

/-- **C88 (false as stated: existence).** A stored zero may make a reachability form possible that is refused without it, and the
other way round. -/
theorem C88_form_false : (∀ i j, farP.get i j = farP0.get i j) ∧ (∀ i j, offP.get i j = offP0.get i j) ∧
    (∃ M M0 rf, Sys.makeMDP farP [((0, 0), 0), ((1, 0), 1), ((2, 0), 2), ((3, 0), 3)] (IDict.mk' [] true)
        (IDict.mk' [("init", [0]), ("goal", [2]), ("fail", [3])] true) none = .ok M ∧
      Sys.makeMDP farP0 [((0, 0), 0), ((1, 0), 1), ((2, 0), 2), ((3, 0), 3)] (IDict.mk' [] true)
        (IDict.mk' [("init", [0]), ("goal", [2]), ("fail", [3])] true) none = .ok M0 ∧
      RF.make exRnd M "init" "goal" "fail" false = .ok rf ∧ RF.make exRnd M0 "init" "goal" "fail" false = .error .assertion) ∧
    ∃ M M0 rf, Sys.makeMDP offP [((0, 0), 0), ((1, 0), 1), ((2, 0), 2)] (IDict.mk' [] true)
        (IDict.mk' [("init", [0]), ("goal", [1]), ("fail", [2])] true) none = .ok M ∧
      Sys.makeMDP offP0 [((0, 0), 0), ((1, 0), 1), ((2, 0), 2)] (IDict.mk' [] true)
        (IDict.mk' [("init", [0]), ("goal", [1]), ("fail", [2])] true) none = .ok M0 ∧
      RF.make exRnd M "init" "goal" "fail" false = .error .assertion ∧ RF.make exRnd M0 "init" "goal" "fail" false = .ok rf := by
  refine ⟨get_cons_zero (l := []) (0, 1) (by decide +kernel), get_cons_zero (l := [((0, 1), 1), ((1, 1), 1)]) (2, 1) (by decide +kernel), ?_, ?_⟩
  · obtain ⟨M, hM, h⟩ := exists_of_ok_and (p := fun M => (RF.make exRnd M "init" "goal" "fail" false).isOk)
      (x := Sys.makeMDP farP [((0, 0), 0), ((1, 0), 1), ((2, 0), 2), ((3, 0), 3)] (IDict.mk' [] true)
        (IDict.mk' [("init", [0]), ("goal", [2]), ("fail", [3])] true) none) (by decide +kernel)
    obtain ⟨M0, hM0, h0⟩ := exists_of_ok_and (p := fun M => refused (RF.make exRnd M "init" "goal" "fail" false))
      (x := Sys.makeMDP farP0 [((0, 0), 0), ((1, 0), 1), ((2, 0), 2), ((3, 0), 3)] (IDict.mk' [] true)
        (IDict.mk' [("init", [0]), ("goal", [2]), ("fail", [3])] true) none) (by decide +kernel)
    obtain ⟨rf, hrf⟩ := exists_of_ok h
    exact ⟨M, M0, rf, hM, hM0, hrf, refused_iff h0⟩
  · obtain ⟨M, hM, h⟩ := exists_of_ok_and (p := fun M => refused (RF.make exRnd M "init" "goal" "fail" false))
      (x := Sys.makeMDP offP [((0, 0), 0), ((1, 0), 1), ((2, 0), 2)] (IDict.mk' [] true)
        (IDict.mk' [("init", [0]), ("goal", [1]), ("fail", [2])] true) none) (by decide +kernel)
    obtain ⟨M0, hM0, h0⟩ := exists_of_ok_and (p := fun M => (RF.make exRnd M "init" "goal" "fail" false).isOk)
      (x := Sys.makeMDP offP0 [((0, 0), 0), ((1, 0), 1), ((2, 0), 2)] (IDict.mk' [] true)
        (IDict.mk' [("init", [0]), ("goal", [1]), ("fail", [2])] true) none) (by decide +kernel)
    obtain ⟨rf, hrf⟩ := exists_of_ok h0
    exact ⟨M, M0, rf, hM, hM0, refused_iff h, hrf⟩

/-- the hypotheses of `C88_max_le_partial` are met: the matrix with the stored zero of `C88_false` -/
example : ∃ (M M' : Sys ℚ) (rf rf' : RF ℚ), M.WF ∧ M'.C = M.C ∧ M'.N = M.N ∧ M'.idx = M.idx ∧ M'.labS = M.labS ∧
    (∀ i j, M'.P.get i j = M.P.get i j) ∧ M'.P.items ≠ M.P.items ∧ RF.make exRnd M "init" "goal" "fail" false = .ok rf ∧
    RF.make exRnd M' "init" "goal" "fail" false = .ok rf' ∧ check rf' .max .le 1 [1] 0 = .ok true ∧ 0 ∈ M'.labelled "init" := by
  obtain ⟨M, hM, h⟩ := exists_of_ok_and (x := Sys.makeMDP zeroP zeroIdx (IDict.mk' [] true) zeroLab none)
    (p := fun M => match RF.make exRnd M "init" "goal" "fail" false with
      | .ok rf => yes (check rf .max .le 1 [1] 0) | .error _ => false) (by decide +kernel)
  obtain ⟨rf', hrf', hc⟩ := exists_of_ok_and (x := RF.make exRnd M "init" "goal" "fail" false)
    (p := fun rf => yes (check rf .max .le 1 [1] 0)) (by
      revert h; cases RF.make exRnd M "init" "goal" "fail" false <;> exact id)
  obtain ⟨rf, hrf⟩ := exists_of_ok (x := RF.make exRnd (mkSys zeroP0 zeroIdx zeroLab) "init" "goal" "fail" false) (by decide +kernel)
  have hk : (zeroIdx.map Prod.fst).Nodup := by decide
  obtain ⟨e1, e2, -, e4, -⟩ := C09_mdp_content hk hM
  refine ⟨mkSys zeroP0 zeroIdx zeroLab, M, rf, rf', mkSys_wf (by decide +kernel) (by decide +kernel) (by decide +kernel) (by decide +kernel)
    (by decide +kernel) (by decide +kernel), by unfold Sys.C; rw [e1]; rfl, by unfold Sys.N; rw [e1]; rfl, e2, e4, fun i j => ?_, ?_, hrf, hrf',
    yes_iff.1 hc, ⟨[0], ?_, by simp⟩⟩
  · rw [e1]; exact zeroP_get i j
  · rw [e1]; decide +kernel
  · unfold Sys.statesByLabel; rw [e4]; rfl

end Verif.Props
