import Verif.Proofs.Monotone
import Verif.Props.Rename
import Mathlib.Data.Real.Pointwise
/-!
# C110: answers respond to changes of the model in the right direction

`Improves mode M M' tl tl'`: `M'` has the states of `M`, at least its targets, and - outside of the targets of `M'` - in maximal
mode at least its actions, in minimal mode at most its actions.
-/
set_option linter.unusedSectionVars false

namespace Verif.Props
open Verif.Model Verif.Spec Verif.Proofs Verif.Theory Verif.Proofs.IDict Finset

variable {K : Type} [Field K] [LinearOrder K] [IsStrictOrderedRing K]

/-- every action that `M` has in a state outside of `T` is an action of `M'` in that state -/
def RowsIn (M M' : Sys K) (T : Set Nat) : Prop :=
  ∀ s < M.N, s ∉ T → ∀ a i, ((s, a), i) ∈ M.idx → i < M.C →
    ∃ a' i', ((s, a'), i') ∈ M'.idx ∧ i' < M'.C ∧ ∀ t < M.N, M'.P.get i' t = M.P.get i t

structure Improves (mode : Mode) (M M' : Sys K) (tl tl' : String) : Prop where
  N : M'.N = M.N
  target : ∀ s < M.N, s ∈ M.labelled tl → s ∈ M'.labelled tl'
  more : mode = .max → RowsIn M M' (M'.labelled tl')
  fewer : mode = .min → RowsIn M' M (M'.labelled tl')

/-- row `i'` of `M'` gives at least the reward of row `i` of `M`, and outside of `T` it has the same distribution -/
def RowLe (M M' : Sys K) (T : Set Nat) (s i i' : Nat) : Prop :=
  (M.rew.getD []).getD i 0 ≤ (M'.rew.getD []).getD i' 0 ∧ (s ∉ T → ∀ t < M.N, M'.P.get i' t = M.P.get i t)

/-- `M'` has the states of `M` and at most its targets; in maximal mode every action of `M` has one of `M'` that is as good, in
minimal mode every action of `M'` is as good as one of `M` -/
structure RewImproves (mode : Mode) (M M' : Sys K) (tl tl' : String) : Prop where
  N : M'.N = M.N
  target : ∀ s < M.N, s ∈ M'.labelled tl' → s ∈ M.labelled tl
  more : mode = .max → ∀ s < M.N, ∀ a i, ((s, a), i) ∈ M.idx → i < M.C →
    ∃ a' i', ((s, a'), i') ∈ M'.idx ∧ i' < M'.C ∧ RowLe M M' (M.labelled tl) s i i'
  fewer : mode = .min → ∀ s < M.N, ∀ a' i', ((s, a'), i') ∈ M'.idx → i' < M'.C →
    ∃ a i, ((s, a), i) ∈ M.idx ∧ i < M.C ∧ RowLe M M' (M.labelled tl) s i i'

section
variable {M M' : Sys K} {tl tl' il il' : String} {mode : Mode}

/-- one step of the probabilities, compared -/
theorem prob_step (e : Fin M.N ≃ Fin M'.N) (hM : M.WF) (hM' : M'.WF) (ht : M.Total) (ht' : M'.Total) (φ : K →+*o ℝ) {F : Finset (Fin M.N)} {F' : Finset (Fin M'.N)}
    (hF : ∀ s, s ∈ F → e s ∈ F') {U : Set (Fin M.N)} {U' : Set (Fin M'.N)} (hU : ∀ s, s ∈ U → e s ∈ U')
    {s : Fin M.N} {i : Fin M.C} {i' : Fin M'.C} (hi : i ∈ (M.toMDP φ).rows s) (hi' : i' ∈ (M'.toMDP φ).rows (e s))
    (hd : e s ∉ F' → ∀ t, M'.P.get i'.1 (e t).1 = M.P.get i.1 t.1) (x : Fin M.N → ℝ) (y : Fin M'.N → ℝ)
    (hx : ∀ t, 0 ≤ x t ∧ x t ≤ 1) (hxy : ∀ t, x t ≤ y (e t)) :
    ((Core.ofMDP (M.toMDP φ) (WF.valid hM φ ht) F).cut U).step x s i ≤
      ((Core.ofMDP (M'.toMDP φ) (WF.valid hM' φ ht') F').cut U').step y (e s) i' := by
  classical
  have hsub := Core.cut_sub (U := U) (Bridge.sub (WF.valid hM φ ht) F)
  have hsub' := Core.cut_sub (U := U') (Bridge.sub (WF.valid hM' φ ht') F')
  have hy : ∀ t, 0 ≤ y t := fun t => by
    have := le_trans (hx (e.symm t)).1 (hxy _)
    rwa [Equiv.apply_symm_apply] at this
  by_cases hsU : s ∈ U
  · have hsU' := hU s hsU
    by_cases hsF : e s ∈ F'
    · refine le_trans (hsub.step_le_one (fun t => (hx t).2) hi) ?_
      refine le_of_eq ?_
      simp [Core.step, Core.cut, Core.ofMDP, hsU', hsF]
    · have hsF0 : s ∉ F := fun g => hsF (hF s g)
      have e1 : ((Core.ofMDP (M.toMDP φ) (WF.valid hM φ ht) F).cut U).g s i = 0 := by simp [Core.cut, Core.ofMDP, hsF0]
      have e2 : ((Core.ofMDP (M'.toMDP φ) (WF.valid hM' φ ht') F').cut U').g (e s) i' = 0 := by simp [Core.cut, Core.ofMDP, hsF]
      unfold Core.step
      rw [e1, e2, zero_add, zero_add, ← e.sum_comp]
      refine sum_le_sum fun t _ => ?_
      have hq : ((Core.ofMDP (M.toMDP φ) (WF.valid hM φ ht) F).cut U).Q s i t ≤
          ((Core.ofMDP (M'.toMDP φ) (WF.valid hM' φ ht') F').cut U').Q (e s) i' (e t) := by
        by_cases htU : t ∈ U
        · have htU' := hU t htU
          refine le_of_eq ?_
          have := hd hsF t
          simp only [Core.cut, Core.ofMDP, Sys.toMDP, hsU, hsU', htU, htU', hsF, hsF0]
          simp [this]
        · refine le_trans (le_of_eq ?_) (hsub'.Q0 _ _ hi' _)
          simp [Core.cut, htU]
      exact mul_le_mul hq (hxy t) (hx t).1 (hsub'.Q0 _ _ hi' _)
  · have : ((Core.ofMDP (M.toMDP φ) (WF.valid hM φ ht) F).cut U).step x s i = 0 := by simp [Core.step, Core.cut, hsU]
    rw [this]
    exact Core.step_nonneg hsub'.toOK hy hi'

/-- **C110.** The extremal probability of reaching the targets through a set of states does not fall. -/
theorem C110_probabilities (h : Improves mode M M' tl tl') (hM : Input M) (hM' : Input M') (φ : K →+*o ℝ) {s : Nat} (hs : s < M.N) :
    M.pr φ mode (M.labelled tl) s ≤ M'.pr φ mode (M'.labelled tl') s ∧
    ∀ A A' : Set Nat, (∀ t < M.N, t ∈ A → t ∈ A') →
      M.prWithin φ mode A (M.labelled tl) s ≤ M'.prWithin φ mode A' (M'.labelled tl') s := by
  classical
  have key : ∀ A A' : Set Nat, (∀ t < M.N, t ∈ A → t ∈ A') →
      M.prWithin φ mode A (M.labelled tl) s ≤ M'.prWithin φ mode A' (M'.labelled tl') s := by
    intro A A' hA
    have hsub := Core.cut_sub (U := {t : Fin M.N | t.1 ∈ A}) (Bridge.sub (WF.valid hM.wf φ hM.total) (univ.filter fun t => t.1 ∈ M.labelled tl))
    have hsub' := Core.cut_sub (U := {t : Fin M'.N | t.1 ∈ A'}) (Bridge.sub (WF.valid hM'.wf φ hM'.total) (univ.filter fun t => t.1 ∈ M'.labelled tl'))
    obtain ⟨p1, p2⟩ := sys_prWithin_eq (A := A) (T := M.labelled tl) φ (WF.valid hM.wf φ hM.total) (F := univ.filter fun t => t.1 ∈ M.labelled tl) (by simp) ⟨s, hs⟩
    obtain ⟨q1, q2⟩ := sys_prWithin_eq (A := A') (T := M'.labelled tl') φ (WF.valid hM'.wf φ hM'.total) (F := univ.filter fun t => t.1 ∈ M'.labelled tl') (by simp)
      (finCongr h.N.symm ⟨s, hs⟩)
    have es : (finCongr h.N.symm ⟨s, hs⟩).1 = s := rfl
    rw [es] at q1 q2
    have hF : ∀ s : Fin M.N, s ∈ (univ.filter fun t : Fin M.N => t.1 ∈ M.labelled tl) →
        finCongr h.N.symm s ∈ (univ.filter fun t : Fin M'.N => t.1 ∈ M'.labelled tl') := by
      intro s hs
      simp only [mem_filter, mem_univ, true_and] at hs ⊢
      exact h.target s.1 s.2 hs
    have hU : ∀ s : Fin M.N, s ∈ {t : Fin M.N | t.1 ∈ A} → finCongr h.N.symm s ∈ {t : Fin M'.N | t.1 ∈ A'} := fun s hs => hA s.1 s.2 hs
    have hnF : ∀ s : Fin M.N, finCongr h.N.symm s ∉ (univ.filter fun t : Fin M'.N => t.1 ∈ M'.labelled tl') ↔ s.1 ∉ M'.labelled tl' := by
      intro s
      simp
    cases mode with
    | max =>
      rw [p2, q2]
      refine ciSup_le fun n => le_trans ?_ (Core.vmax_le_Vmax hsub'.toOK hsub'.bound n _)
      refine Core.vmax_compare (e := finCongr h.N.symm) (I := fun x => ∀ t, 0 ≤ x t ∧ x t ≤ 1)
        (fun n t => ⟨Core.vmax_nonneg hsub.toOK n t, Core.vmax_le_pre hsub.toOK hsub.bound.nonneg hsub.bound.pre n t⟩) (fun s r hr => ?_) n _
      obtain ⟨a, ha⟩ := (WF.mem_rows (φ := φ) hM.wf).1 hr
      by_cases hsT : s.1 ∈ M'.labelled tl'
      · obtain ⟨a', i', g1, g2⟩ := hM'.total s.1 (by rw [h.N]; exact s.2)
        have hr' : (⟨i', g2⟩ : Fin M'.C) ∈ (M'.toMDP φ).rows (finCongr h.N.symm s) := (WF.mem_rows (φ := φ) hM'.wf).2 ⟨a', g1⟩
        exact ⟨⟨i', g2⟩, hr', fun x y hx hxy => prob_step (finCongr h.N.symm) hM.wf hM'.wf hM.total hM'.total φ hF hU hr hr'
          (fun g => absurd hsT ((hnF s).1 g)) x y hx hxy⟩
      · obtain ⟨a', i', g1, g2, g3⟩ := h.more rfl s.1 s.2 hsT a r.1 ha r.2
        have hr' : (⟨i', g2⟩ : Fin M'.C) ∈ (M'.toMDP φ).rows (finCongr h.N.symm s) := (WF.mem_rows (φ := φ) hM'.wf).2 ⟨a', g1⟩
        exact ⟨⟨i', g2⟩, hr', fun x y hx hxy => prob_step (finCongr h.N.symm) hM.wf hM'.wf hM.total hM'.total φ hF hU hr hr' (fun _ t => g3 t.1 t.2) x y hx hxy⟩
    | min =>
      rw [p1, q1]
      refine ciSup_le fun n => le_trans ?_ (Core.vmin_le_Vmin hsub'.toOK hsub'.bound n _)
      refine Core.vmin_compare (e := finCongr h.N.symm) (I := fun x => ∀ t, 0 ≤ x t ∧ x t ≤ 1)
        (fun n t => ⟨Core.vmin_nonneg hsub.toOK n t, le_trans (Core.vmin_le_vmax hsub.toOK n t)
          (Core.vmax_le_pre hsub.toOK hsub.bound.nonneg hsub.bound.pre n t)⟩) (fun s r' hr' => ?_) n _
      obtain ⟨a', ha'⟩ := (WF.mem_rows (φ := φ) hM'.wf).1 hr'
      by_cases hsT : s.1 ∈ M'.labelled tl'
      · obtain ⟨a, i, g1, g2⟩ := hM.total s.1 s.2
        have hr : (⟨i, g2⟩ : Fin M.C) ∈ (M.toMDP φ).rows s := (WF.mem_rows (φ := φ) hM.wf).2 ⟨a, g1⟩
        exact ⟨⟨i, g2⟩, hr, fun x y hx hxy => prob_step (finCongr h.N.symm) hM.wf hM'.wf hM.total hM'.total φ hF hU hr hr'
          (fun g => absurd hsT ((hnF s).1 g)) x y hx hxy⟩
      · obtain ⟨a, i, g1, g2, g3⟩ := h.fewer rfl s.1 (by rw [h.N]; exact s.2) hsT a' r'.1 ha' r'.2
        have hr : (⟨i, g2⟩ : Fin M.C) ∈ (M.toMDP φ).rows s := (WF.mem_rows (φ := φ) hM.wf).2 ⟨a, g1⟩
        exact ⟨⟨i, g2⟩, hr, fun x y hx hxy => prob_step (finCongr h.N.symm) hM.wf hM'.wf hM.total hM'.total φ hF hU hr hr'
          (fun _ t => (g3 t.1 (by rw [h.N]; exact t.2)).symm) x y hx hxy⟩
  refine ⟨?_, key⟩
  have := key Set.univ Set.univ (by simp)
  unfold Sys.pr
  cases mode with
  | min => rwa [(prWithin_univ hM.wf hM.total φ _ _).1, (prWithin_univ hM'.wf hM'.total φ _ _).1] at this
  | max => rwa [(prWithin_univ hM.wf hM.total φ _ _).2, (prWithin_univ hM'.wf hM'.total φ _ _).2] at this

/-! ### answers of the library -/

variable {ρ ρ' : Graph.Rnd} {ntl nfl ntl' nfl' : String} {res res' : Reduce.Result K} {t : K} {labels : Option (List String)}
  {lpSolver solver lpSolver' solver' : Milp K → Answer K} {be be' : Backend} {r r' : ProblemResult (Subsystem K) K}

/-- **C110.** In maximal mode `reduce` succeeds on `M'` if it succeeds on `M` - provided the names of the labels and the format are not
the reason for an exception. -/
theorem C110_reduce (h : Improves .max M M' tl tl') (hM : Input M) (hM' : Input M') (hr : M.reduce ρ il tl ntl nfl = .ok res)
    {i : Nat} (hi : i ∈ M.labelled il) (hi' : M'.statesByLabel il' = .ok [i]) (hne : ntl' ≠ nfl')
    (hTN : ∀ t ∈ M'.labelled tl', t < M'.N) (h1 : ntl' ∉ M'.labS.d.keys) (h2 : nfl' ∉ M'.labS.d.keys)
    (hlS : M'.labS.dflt = true ∨ ∀ s < M'.N, ∃ l, s ∈ M'.labelled l) (hlA : M'.labA.dflt = true)
    (hrew : ∀ r, M'.rew = some r → ∀ i < M'.C, ∃ x, r[i]? = some x ∧ 0 ≤ x)
    (hd : M'.dtmc = true → ∀ s a i, ((s, a), i) ∈ M'.idx → a = 0) :
    ∃ res', M'.reduce ρ' il' tl' ntl' nfl' = .ok res' := by
  refine C13_reduce_returns hM' hne hi' ?_ hTN h1 h2 hlS hlA hrew hd
  have hiN := labelled_lt hM hi ⟨ρ, ntl, nfl, res, hr⟩
  by_contra hn
  refine C13_reduce_unreachable (ρ := ρ) (ntl := ntl) (nfl := nfl) hM (il := il) (tl := tl) (fun j hj t ht hp => hn ?_) res hr
  rw [labelled_init hM hr hi hj] at hp
  clear hi hi' hn hj
  induction hp using Relation.ReflTransGen.head_induction_on with
  | refl => exact ⟨t, h.target t hiN ht, .refl⟩
  | @head a c hac hct ih =>
    by_cases ha : a ∈ M'.labelled tl'
    · exact ⟨a, ha, .refl⟩
    · obtain ⟨b, k, g1, g2, g3⟩ := hac
      have hc := Renames.lt_of_pos hM.wf g3
      obtain ⟨b', k', f1, f2, f3⟩ := h.more rfl a hiN ha b k g1 g2
      obtain ⟨t', h3, h4⟩ := ih hc
      exact ⟨t', h3, h4.head ⟨b', k', f1, f2, by rw [f3 c hc]; exact g3⟩⟩

/-- **C110.** The optimum of the exact method does not grow, and a success on `M` rules out "infeasible" on `M'`. -/
theorem C110_exact (h : Improves mode M M' tl tl') (hM : Input M) (hM' : Input M') (hne : ntl ≠ nfl) (hne' : ntl' ≠ nfl')
    (hr : M.reduce ρ il tl ntl nfl = .ok res) (hr' : M'.reduce ρ' il' tl' ntl' nfl' = .ok res') (φ : K →+*o ℝ)
    {i : Nat} (hi : i ∈ M.labelled il) (hi' : i ∈ M'.labelled il') (hl : LabelsAgree id M M' labels)
    (hlp : ∀ lp, (lpSolver lp).Sound lp) (hs : ∀ m, (solver m).Sound m)
    (hlp' : ∀ lp, (lpSolver' lp).Sound lp) (hs' : ∀ m, (solver' m).Sound m)
    (hrr : r ∈ (solveIter res.rf.form t (milpExact res.rf.form lpSolver solver t mode labels be)).1)
    (hrr' : r' ∈ (solveIter res'.rf.form t (milpExact res'.rf.form lpSolver' solver' t mode labels be')).1)
    (hst : r.status = .success) :
    r'.status ≠ .failed .infeasible ∧
    (r'.status = .success → ∃ k k' : Nat, r.value = some (k : K) ∧ r'.value = some (k' : K) ∧ k' ≤ k) := by
  have hiN := labelled_lt hM hi ⟨ρ, ntl, nfl, res, hr⟩
  obtain ⟨a1, -⟩ := C86_exact hM hne hr φ hlp hs hi hrr
  obtain ⟨b1, b2⟩ := C86_exact hM' hne' hr' φ hlp' hs' hi' hrr'
  have hval := (C110_probabilities h hM hM' φ hiN).2
  obtain ⟨cert, k, A, -, e1, hA1, hA2, hA3, -⟩ := a1 hst
  have hAN : ∀ s ∈ A, s < M.N := fun s hs => by
    obtain ⟨s', g1, -⟩ := (hA1 s).1 hs
    obtain ⟨T, i0, mask, hR, -⟩ := reduce_spec hM.wf hM.labS.inv hM.labA.inv hr
    exact hR.red.maps.col_state_lt hM.wf (Dict.mem_of_get? g1)
  have hA' := le_trans hA3 (hval A A fun _ _ g => g)
  refine ⟨fun g => absurd hA' (not_le.2 (b2 g A)), fun g => ?_⟩
  obtain ⟨cert', k', A', -, e1', -, -, -, hA4'⟩ := b1 g
  refine ⟨k, k', e1, e1', ?_⟩
  have := Renames.size_image_le hl hAN
  rw [image_id] at this
  exact le_trans (hA4' A hA') (le_trans this hA2.le)

/-- **C110.** A success of the heuristic method on `M` is not below the value of the exact method on `M'`. -/
theorem C110_heuristic {solver : Nat → Milp K → Answer K} {n : Nat} {ini : List (Nat × List Nat) → Except Err (List (Nat × K))}
    {upd : List (Nat × List Nat) → Updater K}
    (h : Improves mode M M' tl tl') (hM : Input M) (hM' : Input M') (hne : ntl ≠ nfl) (hne' : ntl' ≠ nfl')
    (hr : M.reduce ρ il tl ntl nfl = .ok res) (hr' : M'.reduce ρ' il' tl' ntl' nfl' = .ok res') (φ : K →+*o ℝ)
    {i : Nat} (hi : i ∈ M.labelled il) (hi' : i ∈ M'.labelled il') (hl : LabelsAgree id M M' labels)
    (hl' : ∀ ls, labels = some ls → ntl ∉ ls ∧ nfl ∉ ls)
    (hlp : ∀ lp, (lpSolver lp).Sound lp) (hs : ∀ k m, (solver k m).Sound m)
    (hlp' : ∀ lp, (lpSolver' lp).Sound lp) (hs' : ∀ m, (solver' m).Sound m)
    (hrr : r ∈ (solveIter res.rf.form t (qsHeur res.rf.form lpSolver solver n ini upd t mode labels be)).1)
    (hrr' : r' ∈ (solveIter res'.rf.form t (milpExact res'.rf.form lpSolver' solver' t mode labels be')).1)
    (hst : r.status = .success) :
    r'.status ≠ .failed .infeasible ∧
    (r'.status = .success → ∃ k k' : Nat, r.value = some (k : K) ∧ r'.value = some (k' : K) ∧ k' ≤ k) := by
  have hiN := labelled_lt hM hi ⟨ρ, ntl, nfl, res, hr⟩
  obtain ⟨cert, k, A, -, e1, hA1, hA2, hA3⟩ := C86_heuristic hM hne hr φ hlp hs hi hl' hrr hst
  obtain ⟨b1, b2⟩ := C86_exact hM' hne' hr' φ hlp' hs' hi' hrr'
  have hval := (C110_probabilities h hM hM' φ hiN).2
  have hAN : ∀ s ∈ A, s < M.N := fun s hs => by
    obtain ⟨s', g1, -⟩ := (hA1 s).1 hs
    obtain ⟨T, i0, mask, hR, -⟩ := reduce_spec hM.wf hM.labS.inv hM.labA.inv hr
    exact hR.red.maps.col_state_lt hM.wf (Dict.mem_of_get? g1)
  have hA' := le_trans hA3 (hval A A fun _ _ g => g)
  refine ⟨fun g => absurd hA' (not_le.2 (b2 g A)), fun g => ?_⟩
  obtain ⟨cert', k', A', -, e1', -, -, -, hA4'⟩ := b1 g
  refine ⟨k, k', e1, e1', ?_⟩
  have := Renames.size_image_le hl hAN
  rw [image_id] at this
  exact le_trans (hA4' A hA') (le_trans this hA2)

/-- **C110.** With solvers that solve every problem: if the exact method succeeds on `M`, it succeeds on `M'` with at most that value. -/
theorem C110_decides (h : Improves mode M M' tl tl') (hM : Input M) (hM' : Input M') (hne : ntl ≠ nfl) (hne' : ntl' ≠ nfl')
    (hr : M.reduce ρ il tl ntl nfl = .ok res) (hr' : M'.reduce ρ' il' tl' ntl' nfl' = .ok res') (φ : K →+*o ℝ)
    {i : Nat} (hi : i ∈ M.labelled il) (hi' : i ∈ M'.labelled il') (hl : LabelsAgree id M M' labels) (ht : 0 ≤ t ∧ t ≤ 1)
    (hlp : ∀ lp, (lpSolver lp).Exact lp) (hs : ∀ m, (solver m).Exact m)
    (hlp' : ∀ lp, (lpSolver' lp).Exact lp) (hs' : ∀ m, (solver' m).Exact m)
    (hl1 : ∀ ls, labels = some ls → ntl ∉ ls ∧ nfl ∉ ls) (hl2 : ∀ ls, labels = some ls → ntl' ∉ ls ∧ nfl' ∉ ls)
    (he : mode = .max → res.rf.isEcFree = true ∧ res'.rf.isEcFree = true) :
    ∃ r r', solveIter res.rf.form t (milpExact res.rf.form lpSolver solver t mode labels .pulp) = ([r], none) ∧
      solveIter res'.rf.form t (milpExact res'.rf.form lpSolver' solver' t mode labels .pulp) = ([r'], none) ∧
      (r.status = .success → r'.status = .success ∧ ∃ k k' : Nat, r.value = some (k : K) ∧ r'.value = some (k' : K) ∧ k' ≤ k) := by
  have hiN := labelled_lt hM hi ⟨ρ, ntl, nfl, res, hr⟩
  obtain ⟨r, a1, a2, -⟩ := C86_decides (mode := mode) hM hne hr φ hlp hs ht hi hl1 fun g => (he g).1
  obtain ⟨r', b1, b2, -⟩ := C86_decides (mode := mode) hM' hne' hr' φ hlp' hs' ht hi' hl2 fun g => (he g).2
  refine ⟨r, r', a1, b1, fun g => ?_⟩
  have g' := b2.2 (le_trans (a2.1 g) (C110_probabilities h hM hM' φ hiN).1)
  exact ⟨g', (C110_exact h hM hM' hne hne' hr hr' φ hi hi' hl (fun lp => (hlp lp).toSound) (fun m => (hs m).toSound)
    (fun lp => (hlp' lp).toSound) (fun m => (hs' m).toSound) (by rw [a1]; simp) (by rw [b1]; simp) g).2 g'⟩

/-- **C110.** Certified lower bounds of `M` can be certified for `M'`; certified upper bounds of the maximal probability of `M'` can be
certified for `M`. -/
theorem C110_certificates (h : Improves mode M M' tl tl') (hM : Input M) (hM' : Input M') (hne : ntl ≠ nfl) (hne' : ntl' ≠ nfl')
    (hr : M.reduce ρ il tl ntl nfl = .ok res) (hr' : M'.reduce ρ' il' tl' ntl' nfl' = .ok res') (φ : K →+*o ℝ)
    {i : Nat} (hi : i ∈ M.labelled il) (hi' : i ∈ M'.labelled il') (ht : 0 ≤ t ∧ t ≤ 1) :
    (∀ cmp : Sense, cmp = .ge ∨ cmp = .gt → (∃ v, (∀ x ∈ v, 0 ≤ x) ∧ check res.rf mode cmp t v 0 = .ok true) →
      ∃ v, (∀ x ∈ v, 0 ≤ x) ∧ check res'.rf mode cmp t v 0 = .ok true) ∧
    (∀ cmp : Sense, mode = .max → cmp = .le ∨ cmp = .lt → (∃ v, (∀ x ∈ v, 0 ≤ x) ∧ check res'.rf mode cmp t v 0 = .ok true) →
      ∃ v, (∀ x ∈ v, 0 ≤ x) ∧ check res.rf mode cmp t v 0 = .ok true) := by
  have hiN := labelled_lt hM hi ⟨ρ, ntl, nfl, res, hr⟩
  obtain ⟨a1, a2, a3, a4⟩ := certs_iff (mode := mode) hM hne hr φ hi ht
  obtain ⟨b1, b2, b3, b4⟩ := certs_iff (mode := mode) hM' hne' hr' φ hi' ht
  have e := (C110_probabilities h hM hM' φ hiN).1
  refine ⟨?_, ?_⟩
  · rintro cmp (rfl | rfl) hc
    · exact b1.2 (le_trans (a1.1 hc) e)
    · exact b2.2 (lt_of_lt_of_le (a2.1 hc) e)
  · rintro cmp rfl (rfl | rfl) hc
    · exact a3.2 (le_trans e (b3.1 hc))
    · exact a4.2 (lt_of_le_of_lt e (b4.1 hc))

/-! ### rewards -/

variable {rres rres' : RRF.Result K} {ρ₂ ρ₂' : Graph.Rnd} {rr rr' : ProblemResult (RRF.Sub K) K}

/-- one step of the rewards, compared -/
theorem rew_step (e : Fin M.N ≃ Fin M'.N) {φ : K →+*o ℝ} {hv : (M.toMDP φ).Valid} {hv' : (M'.toMDP φ).Valid}
    (h0 : ∀ i, 0 ≤ M'.rewardAt φ i) {F : Finset (Fin M.N)} {F' : Finset (Fin M'.N)} (hF : ∀ s, e s ∈ F' → s ∈ F)
    {U : Set (Fin M.N)} {U' : Set (Fin M'.N)} (hU : ∀ s, s ∈ U → e s ∈ U')
    {s : Fin M.N} {i : Fin M.C} {i' : Fin M'.C} (hi' : i' ∈ (M'.toMDP φ).rows (e s))
    (hg : M.rewardAt φ i.1 ≤ M'.rewardAt φ i'.1) (hd : s ∉ F → ∀ t, M'.P.get i'.1 (e t).1 = M.P.get i.1 t.1)
    (x : Fin M.N → ℝ) (y : Fin M'.N → ℝ) (hx : ∀ t, 0 ≤ x t) (hxy : ∀ t, x t ≤ y (e t)) :
    ((Core.ofGain (M.toMDP φ) hv (fun _ r => M.rewardAt φ r.1) F).restrict U).step x s i ≤
      ((Core.ofGain (M'.toMDP φ) hv' (fun _ r => M'.rewardAt φ r.1) F').restrict U').step y (e s) i' := by
  classical
  have ok' := ofGain_ok (T := F') hv' (g := fun _ r => M'.rewardAt φ r.1) fun s r _ => h0 r.1
  have okr := Core.restrict_ok (U := U') ok'
  have hy : ∀ t, 0 ≤ y t := fun t => by
    have := le_trans (hx (e.symm t)) (hxy _)
    rwa [Equiv.apply_symm_apply] at this
  by_cases hsU : s ∈ U
  · have hsU' := hU s hsU
    rw [Core.restrict_step hsU, Core.restrict_step hsU']
    unfold Core.step
    refine add_le_add hg ?_
    by_cases hsF : s ∈ F
    · refine le_trans (le_of_eq ?_) (sum_nonneg fun t _ => mul_nonneg (ok'.Q0 _ _ hi' t) (hy t))
      simp [Core.ofGain, hsF]
    · have hsF' : e s ∉ F' := fun g => hsF (hF s g)
      rw [← e.sum_comp]
      refine sum_le_sum fun t _ => ?_
      have hq : (Core.ofGain (M.toMDP φ) hv (fun _ r => M.rewardAt φ r.1) F).Q s i t =
          (Core.ofGain (M'.toMDP φ) hv' (fun _ r => M'.rewardAt φ r.1) F').Q (e s) i' (e t) := by
        simp [Core.ofGain, hsF, hsF', Sys.toMDP, hd hsF t]
      rw [hq]
      exact mul_le_mul_of_nonneg_left (hxy t) (ok'.Q0 _ _ hi' _)
  · have : ((Core.ofGain (M.toMDP φ) hv (fun _ r => M.rewardAt φ r.1) F).restrict U).step x s i = 0 := by simp [Core.step, Core.restrict, hsU]
    rw [this]
    exact Core.step_nonneg okr hy hi'

/-- the rewards from a kept state are the limits of the rewards within finitely many steps -/
theorem rewWithin_limit (hM : RewardInput M) (hr : RRF.reduce ρ ρ₂ M il tl = .ok rres) (φ : K →+*o ℝ) (A : Set Nat)
    {s s' : Nat} (hs : rres.cols.get? s = some s') (hN : s < M.N) :
    let B := (Core.ofGain (M.toMDP φ) (WF.valid hM.wf φ hM.total) (fun _ r => M.rewardAt φ r.1) (M.stateSet (M.labelled tl))).restrict
      (M.stateSet A : Set (Fin M.N))
    (∀ i, 0 ≤ M.rewardAt φ i) ∧ B.OK ∧
    (M.rewWithin φ .max A (M.labelled tl) s = ⨆ n, B.vmax n ⟨s, hN⟩) ∧ (∀ n, B.vmax n ⟨s, hN⟩ ≤ M.rewWithin φ .max A (M.labelled tl) s) ∧
    (M.rewWithin φ .min A (M.labelled tl) s = ⨆ n, B.vmin n ⟨s, hN⟩) ∧ (∀ n, B.vmin n ⟨s, hN⟩ ≤ M.rewWithin φ .min A (M.labelled tl) s) := by
  intro B
  obtain ⟨T, i, mask, hx, hR, b, h0, -, ⟨e, he, hE⟩, -⟩ := c51 hM hr φ
  have hm := Dict.mem_of_get? hs
  have hs' : s' < rres.rrf.rf.N := by
    have := hR.red.maps.col_lt hm
    have := hR.red.hN
    unfold RF.N; omega
  have hes : e ⟨s', hs'⟩ = ⟨s, hN⟩ := Fin.ext (hR.red.maps.col_inj (he ⟨s', hs'⟩) hm)
  obtain ⟨c, hc⟩ := hx.exists_bound φ
  have hq := hx.qsub φ
  obtain ⟨v1, v2⟩ := sys_rewWithin_eq (A := A) (U := {u : Fin rres.rrf.rf.N | (e u).1 ∈ A}) h0 hE hq.toOK
    (fun u => Iff.rfl) (Core.restrict_bound hq.toOK hc) ⟨s', hs'⟩
  have ok := ofGain_ok (T := M.stateSet (M.labelled tl)) (WF.valid hM.wf φ hM.total) (g := fun _ r => M.rewardAt φ r.1) fun s r _ => h0 r.1
  have h' := hE.restrict ok (U := (M.stateSet A : Set (Fin M.N))) (U' := {u : Fin rres.rrf.rf.N | (e u).1 ∈ A}) fun s' => by
    rw [mem_coe, mem_stateSet]; rfl
  have m1 : ∀ n, B.vmax n ⟨s, hN⟩ = ((hx.core φ).restrict {u : Fin rres.rrf.rf.N | (e u).1 ∈ A}).vmax n ⟨s', hs'⟩ := fun n => by rw [← hes]; exact (h'.vmax_eq n ⟨s', hs'⟩).symm
  have m2 : ∀ n, B.vmin n ⟨s, hN⟩ = ((hx.core φ).restrict {u : Fin rres.rrf.rf.N | (e u).1 ∈ A}).vmin n ⟨s', hs'⟩ := fun n => by rw [← hes]; exact (h'.vmin_eq (Core.restrict_ok ok) n ⟨s', hs'⟩).symm
  rw [hes] at v1 v2
  simp only at v1 v2
  simp only [m1, m2, v1, v2]
  exact ⟨h0, Core.restrict_ok ok, rfl, fun n => Core.vmax_le_Vmax (Core.restrict_ok hq.toOK) (Core.restrict_bound hq.toOK hc) n _,
    rfl, fun n => Core.vmin_le_Vmin (Core.restrict_ok hq.toOK) (Core.restrict_bound hq.toOK hc) n _⟩

/-- **C110.** The extremal expected reward collected inside a set of states, from a state that both reductions keep, does not fall. -/
theorem C110_rewards (h : RewImproves mode M M' tl tl') (hM : RewardInput M) (hM' : RewardInput M')
    (hr : RRF.reduce ρ ρ₂ M il tl = .ok rres) (hr' : RRF.reduce ρ' ρ₂' M' il' tl' = .ok rres') (φ : K →+*o ℝ)
    {s d d' : Nat} (hs : rres.cols.get? s = some d) (hs' : rres'.cols.get? s = some d') {A A' : Set Nat} (hA : ∀ t < M.N, t ∈ A → t ∈ A') :
    M.rewWithin φ mode A (M.labelled tl) s ≤ M'.rewWithin φ mode A' (M'.labelled tl') s := by
  obtain ⟨T, i0, mask, hR, -⟩ := reduce_spec hM.wf hM.labS.inv hM.labA.inv (rew_reduce hM hr)
  have hN : s < M.N := hR.red.maps.col_state_lt hM.wf (Dict.mem_of_get? hs)
  have hN' : s < M'.N := by rw [h.N]; exact hN
  obtain ⟨-, ok, v1, -, v2, -⟩ := rewWithin_limit hM hr φ A hs hN
  obtain ⟨h0', -, -, w1, -, w2⟩ := rewWithin_limit hM' hr' φ A' hs' hN'
  have hF : ∀ s : Fin M.N, finCongr h.N.symm s ∈ M'.stateSet (M'.labelled tl') → s ∈ M.stateSet (M.labelled tl) := by
    intro s g
    rw [mem_stateSet] at g ⊢
    exact h.target s.1 s.2 g
  have hU : ∀ s : Fin M.N, s ∈ (M.stateSet A : Set (Fin M.N)) → finCongr h.N.symm s ∈ (M'.stateSet A' : Set (Fin M'.N)) := by
    intro s g
    rw [mem_coe, mem_stateSet] at g ⊢
    exact hA s.1 s.2 g
  have hle : ∀ {s : Fin M.N} {i : Fin M.C} {i' : Fin M'.C}, RowLe M M' (M.labelled tl) s.1 i.1 i'.1 →
      M.rewardAt φ i.1 ≤ M'.rewardAt φ i'.1 ∧
      (s ∉ M.stateSet (M.labelled tl) → ∀ t : Fin M.N, M'.P.get i'.1 (finCongr h.N.symm t).1 = M.P.get i.1 t.1) := by
    intro s i i' g
    refine ⟨(phi_strict φ).monotone g.1, fun g1 t => g.2 ?_ t.1 t.2⟩
    rwa [mem_stateSet] at g1
  cases mode with
  | max =>
    rw [v1]
    refine ciSup_le fun n => le_trans ?_ (w1 n)
    refine Core.vmax_compare (e := finCongr h.N.symm) (I := fun x => ∀ t, 0 ≤ x t) (fun n t => Core.vmax_nonneg ok n t) (fun s r hrr => ?_) n _
    obtain ⟨a, ha⟩ := (WF.mem_rows (φ := φ) hM.wf).1 hrr
    obtain ⟨a', i', g1, g2, g3⟩ := h.more rfl s.1 s.2 a r.1 ha r.2
    have hr' : (⟨i', g2⟩ : Fin M'.C) ∈ (M'.toMDP φ).rows (finCongr h.N.symm s) := (WF.mem_rows (φ := φ) hM'.wf).2 ⟨a', g1⟩
    obtain ⟨l1, l2⟩ := hle (i' := ⟨i', g2⟩) g3
    exact ⟨⟨i', g2⟩, hr', fun x y hx hxy => rew_step _ h0' hF hU hr' l1 l2 x y hx hxy⟩
  | min =>
    rw [v2]
    refine ciSup_le fun n => le_trans ?_ (w2 n)
    refine Core.vmin_compare (e := finCongr h.N.symm) (I := fun x => ∀ t, 0 ≤ x t) (fun n t => Core.vmin_nonneg ok n t) (fun s r' hr' => ?_) n _
    obtain ⟨a', ha'⟩ := (WF.mem_rows (φ := φ) hM'.wf).1 hr'
    obtain ⟨a, i, g1, g2, g3⟩ := h.fewer rfl s.1 s.2 a' r'.1 ha' r'.2
    have hrr : (⟨i, g2⟩ : Fin M.C) ∈ (M.toMDP φ).rows s := (WF.mem_rows (φ := φ) hM.wf).2 ⟨a, g1⟩
    obtain ⟨l1, l2⟩ := hle (i := ⟨i, g2⟩) g3
    exact ⟨⟨i, g2⟩, hrr, fun x y hx hxy => rew_step _ h0' hF hU hr' l1 l2 x y hx hxy⟩

/-- **C110.** The optimum of the exact method for expected rewards does not grow, and a success on `M` rules out "infeasible" on `M'`. -/
theorem C110_reward_exact (h : RewImproves mode M M' tl tl') (hM : RewardInput M) (hM' : RewardInput M')
    (hr : RRF.reduce ρ ρ₂ M il tl = .ok rres) (hr' : RRF.reduce ρ' ρ₂' M' il' tl' = .ok rres') (φ : K →+*o ℝ)
    {i : Nat} (hi : i ∈ M.labelled il) (hi' : i ∈ M'.labelled il') (hl : LabelsAgree id M M' labels)
    (hlp : Decides rres.rrf t mode lpSolver) (hs : ∀ m, (solver m).Sound m)
    (hlp' : Decides rres'.rrf t mode lpSolver') (hs' : ∀ m, (solver' m).Sound m)
    (hrr : rr ∈ (solveIter rres.rrf.form t (milpExact rres.rrf.form lpSolver solver t mode labels be)).1)
    (hrr' : rr' ∈ (solveIter rres'.rrf.form t (milpExact rres'.rrf.form lpSolver' solver' t mode labels be')).1)
    (hst : rr.status = .success) :
    rr'.status ≠ .failed .infeasible ∧
    (rr'.status = .success → ∃ k k' : Nat, rr.value = some (k : K) ∧ rr'.value = some (k' : K) ∧ k' ≤ k) := by
  have hred := rew_reduce hM hr
  obtain ⟨a1, -⟩ := C106_exact hM hr φ hlp hs hi hrr
  obtain ⟨b1, b2⟩ := C106_exact hM' hr' φ hlp' hs' hi' hrr'
  have hk := rew_initial hM hr hi (rew_built hM hr).initL
  have hk' := rew_initial hM' hr' hi' (rew_built hM' hr').initL
  obtain ⟨cert, k, A, -, e1, hA1, hA2, hA3, -⟩ := a1 hst
  have hAN : ∀ s ∈ A, s < M.N := fun s hs => by
    obtain ⟨s', g1, -⟩ := (hA1 s).1 hs
    obtain ⟨T, i0, mask, hR, -⟩ := reduce_spec hM.wf hM.labS.inv hM.labA.inv hred
    exact hR.red.maps.col_state_lt hM.wf (Dict.mem_of_get? g1)
  have hA' := le_trans hA3 (C110_rewards h hM hM' hr hr' φ hk hk' (A := A) (A' := A) fun _ _ g => g)
  refine ⟨fun g => absurd hA' (not_le.2 (b2 g A)), fun g => ?_⟩
  obtain ⟨cert', k', A', -, e1', -, -, -, hA4'⟩ := b1 g
  refine ⟨k, k', e1, e1', ?_⟩
  have := Renames.size_image_le hl hAN
  rw [image_id] at this
  exact le_trans (hA4' A hA') (le_trans this hA2.le)

/-! ### scaling -/

/-- all rewards multiplied by `c` -/
def scaled (c : K) (M : Sys K) : Sys K := { M with rew := M.rew.map (List.map (c * ·)) }

/-- scaling changes nothing but rewards -/
theorem scaled_renames (c : K) (M : Sys K) (tl : String) : Renames id M (scaled c M) tl tl where
  lt _ h := h
  inj _ _ _ _ h := h
  target _ _ := Iff.rfl
  rows _ _ _ a i h1 h2 := ⟨a, i, h1, h2, fun _ _ => rfl, fun u hu g => absurd rfl (g u hu)⟩
  rows' _ _ _ a i h1 h2 := ⟨a, i, h1, h2, fun _ _ => rfl, fun u hu g => absurd rfl (g u hu)⟩

theorem scaled_rewardAt (φ : K →+*o ℝ) (c : K) (i : Nat) : (scaled c M).rewardAt φ i = φ c * M.rewardAt φ i := by
  unfold Sys.rewardAt scaled
  cases M.rew with
  | none => simp
  | some v =>
    simp only [Option.map_some, Option.getD_some, List.getD_eq_getElem?_getD, List.getElem?_map]
    cases v[i]? <;> simp

theorem scaled_input {c : K} (hc : 0 ≤ c) (hM : RewardInput M) : RewardInput (scaled c M) where
  wf := ⟨hM.wf.nodup, hM.wf.range, hM.wf.pos, hM.wf.sum, hM.wf.keys, hM.wf.vals, hM.wf.graph⟩
  total := hM.total
  labS := hM.labS
  labA := hM.labA
  rew := by
    intro r hr
    obtain ⟨v, hv, rfl⟩ := Option.map_eq_some_iff.1 hr
    obtain ⟨h1, h2⟩ := hM.rew v hv
    refine ⟨by rw [List.length_map]; exact h1, fun x hx => ?_⟩
    obtain ⟨y, hy, rfl⟩ := List.mem_map.1 hx
    exact mul_nonneg hc (h2 y hy)

theorem rewWithinN_mul {S R : Type} [Fintype S] [DecidableEq S] (D : MDP S R) (q : R → ℝ) (c : ℝ) (A T : Finset S) (σ : Sched S R) (n : ℕ)
    (h : List (S × R)) (s : S) : D.rewWithinN (fun r => c * q r) A T σ n h s = c * D.rewWithinN q A T σ n h s := by
  induction n generalizing h s with
  | zero => simp [MDP.rewWithinN]
  | succ n ih =>
    simp only [MDP.rewWithinN, ih]
    by_cases hA : s ∈ A
    · simp only [hA, not_true, if_false, mul_sum]
      refine sum_congr rfl fun r _ => ?_
      by_cases hT : s ∈ T
      · simp only [hT, if_true]; ring
      · simp only [hT, if_false, mul_add, mul_sum]
        congr 1
        · ring
        · refine sum_congr rfl fun t _ => by ring
    · simp [hA]

/-- **C110.** Rewards multiplied by `c ≥ 0`: the extremal expected rewards are multiplied by `c` - for all sets of states and all
states, also if infinite rewards are possible. -/
theorem C110_scale (φ : K →+*o ℝ) {c : K} (hc : 0 ≤ c) (A T : Set Nat) (s : Nat) :
    (scaled c M).rewWithin φ mode A T s = φ c * M.rewWithin φ mode A T s := by
  have hc' : 0 ≤ φ c := by
    have := (phi_strict φ).monotone hc
    rwa [map_zero] at this
  unfold Sys.rewWithin
  by_cases hs : s < M.N
  · have e : (fun r : Fin M.C => (scaled c M).rewardAt φ r.1) = fun r => φ c * M.rewardAt φ r.1 := funext fun r => scaled_rewardAt φ c r.1
    rw [dif_pos hs, dif_pos (show s < (scaled c M).N from hs)]
    cases mode with
    | min =>
      show (M.toMDP φ).RewWithinMin (fun r : Fin M.C => (scaled c M).rewardAt φ r.1) (M.stateSet A) (M.stateSet T) ⟨s, hs⟩ = _
      rw [e]
      unfold MDP.RewWithinMin MDP.rewWithin
      simp only [rewWithinN_mul]
      rw [Real.mul_iInf_of_nonneg hc']
      simp only [Real.mul_iSup_of_nonneg hc']
    | max =>
      show (M.toMDP φ).RewWithinMax (fun r : Fin M.C => (scaled c M).rewardAt φ r.1) (M.stateSet A) (M.stateSet T) ⟨s, hs⟩ = _
      rw [e]
      unfold MDP.RewWithinMax MDP.rewWithin
      simp only [rewWithinN_mul]
      rw [Real.mul_iSup_of_nonneg hc']
      simp only [Real.mul_iSup_of_nonneg hc']
  · rw [dif_neg hs, dif_neg (show ¬ s < (scaled c M).N from hs), mul_zero]

/-- **C110.** Rewards and threshold multiplied by the same `c > 0`: the exact method gives the same value, and never success for the
one and "infeasible" for the other. -/
theorem C110_scale_exact (hM : RewardInput M) {c : K} (hc : 0 < c)
    (hr : RRF.reduce ρ ρ₂ M il tl = .ok rres) (hr' : RRF.reduce ρ' ρ₂' (scaled c M) il tl = .ok rres') (φ : K →+*o ℝ)
    {i : Nat} (hi : i ∈ M.labelled il)
    (hlp : Decides rres.rrf t mode lpSolver) (hs : ∀ m, (solver m).Sound m)
    (hlp' : Decides rres'.rrf (c * t) mode lpSolver') (hs' : ∀ m, (solver' m).Sound m)
    (hrr : rr ∈ (solveIter rres.rrf.form t (milpExact rres.rrf.form lpSolver solver t mode labels be)).1)
    (hrr' : rr' ∈ (solveIter rres'.rrf.form (c * t) (milpExact rres'.rrf.form lpSolver' solver' (c * t) mode labels be')).1) :
    (rr.status = .success → rr'.status = .success → rr'.value = rr.value) ∧
    (rr.status = .success → rr'.status ≠ .failed .infeasible) ∧ (rr.status = .failed .infeasible → rr'.status ≠ .success) := by
  have hc' : 0 < φ c := by
    have := phi_strict φ hc
    rwa [map_zero] at this
  obtain ⟨a1, a2⟩ := C106_exact hM hr φ hlp hs hi hrr
  obtain ⟨b1, b2⟩ := C106_exact (scaled_input hc.le hM) hr' φ hlp' hs' hi hrr'
  have key : ∀ A : Set Nat, φ (c * t) ≤ (scaled c M).rewWithin φ mode A ((scaled c M).labelled tl) i ↔ φ t ≤ M.rewWithin φ mode A (M.labelled tl) i := by
    intro A
    rw [C110_scale φ hc.le, map_mul]
    exact mul_le_mul_iff_right₀ hc'
  refine ⟨fun g g' => ?_, fun g g' => ?_, fun g g' => ?_⟩
  · obtain ⟨cert, k, A, -, e1, -, hA2, hA3, hA4⟩ := a1 g
    obtain ⟨cert', k', A', -, e1', -, hA2', hA3', hA4'⟩ := b1 g'
    have k1 : k' ≤ size M labels A := hA4' A ((key A).2 hA3)
    have k2 : k ≤ size M labels A' := hA4 A' ((key A').1 hA3')
    have k3 : size M labels A' = k' := hA2'
    rw [e1, e1', le_antisymm (k1.trans hA2.le) (k2.trans k3.le)]
  · obtain ⟨cert, k, A, -, e1, -, hA2, hA3, hA4⟩ := a1 g
    exact absurd ((key A).2 hA3) (not_le.2 (b2 g' A))
  · obtain ⟨cert', k', A', -, e1', -, hA2', hA3', hA4'⟩ := b1 g'
    exact absurd ((key A').1 hA3') (not_le.2 (a2 g A'))
end

/-! ### examples

`incSys` is `redSys` with one more action in state 1 and one more target; `decSys` is `redSys` without the action that leads
from the initial state to a dead end. -/

def incSys : Sys ℚ :=
  mkSys ⟨8, 6, redP.items ++ [((7, 2), 1)]⟩ (redI ++ [((1, 1), 7)]) (IDict.mk' [("start", [0]), ("goal", [2, 3, 5]), ("odd", [1, 3, 5])] true)
def decSys : Sys ℚ :=
  mkSys ⟨6, 6, [((0, 1), 1/2), ((0, 3), 1/2), ((1, 2), 1/3), ((1, 0), 2/3), ((2, 2), 1), ((3, 5), 1), ((4, 4), 1), ((5, 2), 1)]⟩
    [((0, 0), 0), ((1, 0), 1), ((2, 0), 2), ((3, 0), 3), ((4, 0), 4), ((5, 0), 5)]
    (IDict.mk' [("start", [0]), ("goal", [2, 3]), ("odd", [1, 3, 5])] true)

theorem incSys_input : Input incSys where
  wf := mkSys_wf (by decide +kernel) (by decide +kernel) (by decide +kernel) (by decide +kernel) (by decide +kernel) (by decide +kernel)
  total := by
    intro s hs
    have hs : s < 6 := hs
    have : ∀ s < 6, ∃ e ∈ incSys.idx, e.1.1 = s ∧ e.2 < incSys.C := by decide +kernel
    obtain ⟨⟨⟨s', a⟩, i⟩, h1, rfl, h2⟩ := this s hs
    exact ⟨a, i, h1, h2⟩
  labS := ⟨id, [("start", [0]), ("goal", [2, 3, 5]), ("odd", [1, 3, 5])], true, [], fun _ => List.Perm.refl _,
    isPyDict_of (by decide +kernel) (by decide +kernel), rfl⟩
  labA := ⟨id, [], true, [], fun _ => List.Perm.refl _, isPyDict_of (by decide +kernel) (by decide +kernel), rfl⟩

theorem decSys_input : Input decSys where
  wf := mkSys_wf (by decide +kernel) (by decide +kernel) (by decide +kernel) (by decide +kernel) (by decide +kernel) (by decide +kernel)
  total := by
    intro s hs
    have hs : s < 6 := hs
    have : ∀ s < 6, ∃ e ∈ decSys.idx, e.1.1 = s ∧ e.2 < decSys.C := by decide +kernel
    obtain ⟨⟨⟨s', a⟩, i⟩, h1, rfl, h2⟩ := this s hs
    exact ⟨a, i, h1, h2⟩
  labS := ⟨id, [("start", [0]), ("goal", [2, 3]), ("odd", [1, 3, 5])], true, [], fun _ => List.Perm.refl _,
    isPyDict_of (by decide +kernel) (by decide +kernel), rfl⟩
  labA := ⟨id, [], true, [], fun _ => List.Perm.refl _, isPyDict_of (by decide +kernel) (by decide +kernel), rfl⟩

/-- a computable form of `RowsIn` -/
def rowsIn (M M' : Sys ℚ) (T : List Nat) : Bool :=
  M.idx.all fun e => T.contains e.1.1 || M'.idx.any fun e' =>
    decide (e'.1.1 = e.1.1) && decide (e'.2 < M'.C) && decide (∀ t < M.N, M'.P.get e'.2 t = M.P.get e.2 t)

theorem rowsIn_of {M M' : Sys ℚ} {l : String} {T : List Nat} {N : Sys ℚ} (hT : N.statesByLabel l = .ok T) (h : rowsIn M M' T = true) :
    RowsIn M M' (N.labelled l) := by
  intro s _ hn a i hi _
  simp only [rowsIn, List.all_eq_true, Bool.or_eq_true, List.any_eq_true, Bool.and_eq_true, decide_eq_true_eq, List.contains_iff_mem] at h
  rcases h _ hi with g | ⟨⟨⟨s', a'⟩, i'⟩, g1, ⟨rfl, g3⟩, g4⟩
  · exact absurd ((mem_T hT s).1 g) hn
  · exact ⟨a', i', g1, g3, g4⟩

theorem incSys_improves : Improves .max redSys incSys "goal" "goal" where
  N := rfl
  target := by
    intro s _ hs
    rw [← mem_T (T := [2, 3]) (by decide +kernel)] at hs
    rw [← mem_T (T := [2, 3, 5]) (by decide +kernel)]
    simp only [List.mem_cons, List.not_mem_nil, or_false] at hs ⊢
    tauto
  more _ := rowsIn_of (T := [2, 3, 5]) (by decide +kernel) (by decide +kernel)
  fewer g := nomatch g

theorem decSys_improves : Improves .min redSys decSys "goal" "goal" where
  N := rfl
  target := by
    intro s _ hs
    rw [← mem_T (T := [2, 3]) (by decide +kernel)] at hs
    rwa [← mem_T (T := [2, 3]) (by decide +kernel)]
  more g := nomatch g
  fewer _ := rowsIn_of (T := [2, 3]) (by decide +kernel) (by decide +kernel)

/-- both changes are proper ones -/
example : rowsIn incSys redSys [2, 3, 5] = false ∧ rowsIn redSys decSys [2, 3] = false := by decide +kernel

/-- the exact method on both pairs of models, with solvers that solve every problem -/
example : ∃ (res res' res'' : Reduce.Result ℚ) (solver : Milp ℚ → Answer ℚ),
    redSys.reduce exRnd "start" "goal" "target" "fail" = .ok res ∧ incSys.reduce exRnd "start" "goal" "target" "fail" = .ok res' ∧
    decSys.reduce exRnd "start" "goal" "target" "fail" = .ok res'' ∧
    (∃ r r', solveIter res.rf.form (1/2) (milpExact res.rf.form solver solver (1/2) .max (some ["odd"]) .pulp) = ([r], none) ∧
      solveIter res'.rf.form (1/2) (milpExact res'.rf.form solver solver (1/2) .max (some ["odd"]) .pulp) = ([r'], none) ∧
      (r.status = .success → r'.status = .success ∧ ∃ k k' : Nat, r.value = some (k : ℚ) ∧ r'.value = some (k' : ℚ) ∧ k' ≤ k)) ∧
    (∃ r r', solveIter res.rf.form (1/2) (milpExact res.rf.form solver solver (1/2) .min none .pulp) = ([r], none) ∧
      solveIter res''.rf.form (1/2) (milpExact res''.rf.form solver solver (1/2) .min none .pulp) = ([r'], none) ∧
      (r.status = .success → r'.status = .success ∧ ∃ k k' : Nat, r.value = some (k : ℚ) ∧ r'.value = some (k' : ℚ) ∧ k' ≤ k)) := by
  obtain ⟨res, h, he⟩ := exists_of_ok_and (x := redSys.reduce exRnd "start" "goal" "target" "fail") (p := fun r => r.rf.isEcFree) (by decide +kernel)
  obtain ⟨res', h', he'⟩ := exists_of_ok_and (x := incSys.reduce exRnd "start" "goal" "target" "fail") (p := fun r => r.rf.isEcFree) (by decide +kernel)
  obtain ⟨res'', h'', -⟩ := exists_of_ok_and (x := decSys.reduce exRnd "start" "goal" "target" "fail") (p := fun _ => true) (by decide +kernel)
  obtain ⟨solver, hs⟩ := exists_exact ℚ
  have hi : 0 ∈ redSys.labelled "start" := ⟨[0], by decide +kernel, by simp⟩
  have hi' : 0 ∈ incSys.labelled "start" := ⟨[0], by decide +kernel, by simp⟩
  have hi'' : 0 ∈ decSys.labelled "start" := ⟨[0], by decide +kernel, by simp⟩
  have hl : LabelsAgree id redSys incSys (some ["odd"]) := by
    intro ls e l hl s hs
    cases e
    obtain rfl : l = "odd" := by simpa using hl
    rw [← mem_T (T := [1, 3, 5]) (M := redSys) (by decide +kernel), ← mem_T (T := [1, 3, 5]) (M := incSys) (by decide +kernel)]
    rfl
  exact ⟨res, res', res'', solver, h, h', h'',
    C110_decides incSys_improves redSys_input incSys_input (by decide) (by decide) h h' ratR hi hi' hl (by norm_num) hs hs hs hs
      (by intro ls e; cases e; decide) (by intro ls e; cases e; decide) (fun _ => ⟨he, he'⟩),
    C110_decides decSys_improves redSys_input decSys_input (by decide) (by decide) h h'' ratR hi hi'' (by intro ls e; cases e) (by norm_num) hs hs hs hs
      (by intro ls e; cases e) (by intro ls e; cases e) (fun g => nomatch g)⟩

theorem rwSys_rewLe {c c' : ℚ} (hc : c ≤ c') (i : Nat) : ((rwSys c).rew.getD []).getD i 0 ≤ ((rwSys c').rew.getD []).getD i 0 := by
  show ([1, 2, 3, c] : List ℚ).getD i 0 ≤ ([1, 2, 3, c'] : List ℚ).getD i 0
  match i with
  | 0 => exact le_rfl
  | 1 => exact le_rfl
  | 2 => exact le_rfl
  | 3 => exact hc
  | _ + 4 => exact le_rfl

/-- more reward in the target: `rwSys` with a larger parameter -/
theorem rwSys_improves {c c' : ℚ} (hc : c ≤ c') (mode : Mode) : RewImproves mode (rwSys c) (rwSys c') "goal" "goal" where
  N := rfl
  target s _ h := (rwSys_goal c s).2 ((rwSys_goal c' s).1 h)
  more _ _ _ a i hi hC := ⟨a, i, hi, hC, rwSys_rewLe hc i, fun _ _ _ => rfl⟩
  fewer _ _ _ a i hi hC := ⟨a, i, hi, hC, rwSys_rewLe hc i, fun _ _ _ => rfl⟩

example : ∃ (res res' : RRF.Result ℚ) (d d' : Nat), RRF.reduce exRnd exRnd (rwSys 2) "start" "goal" = .ok res ∧
    RRF.reduce exRnd exRnd (rwSys 5) "start" "goal" = .ok res' ∧ res.cols.get? 0 = some d ∧ res'.cols.get? 0 = some d' ∧
    ∀ A : Set Nat, (rwSys 2).rewWithin ratR .min A ((rwSys 2).labelled "goal") 0 ≤ (rwSys 5).rewWithin ratR .min A ((rwSys 5).labelled "goal") 0 := by
  have h5 : (0 : ℚ) ≤ 5 := by norm_num
  obtain ⟨res, h⟩ := rwSys_ok (c := 2) zero_le_two exRnd exRnd
  obtain ⟨res', h'⟩ := rwSys_ok h5 exRnd exRnd
  obtain ⟨d, hd⟩ := rwSys_kept zero_le_two h
  obtain ⟨d', hd'⟩ := rwSys_kept h5 h'
  exact ⟨res, res', d, d', h, h', hd, hd', fun A =>
    C110_rewards (rwSys_improves (by norm_num) .min) (rwSys_input zero_le_two) (rwSys_input h5) h h' ratR hd hd' fun _ _ g => g⟩

/-- `rwSys 2` with threshold 2 and with all rewards multiplied by 3 and threshold 6 -/
example : ∃ (res res' : RRF.Result ℚ) (solver : Milp ℚ → Answer ℚ) (r r' : ProblemResult (RRF.Sub ℚ) ℚ),
    RRF.reduce exRnd exRnd (rwSys 2) "start" "goal" = .ok res ∧ RRF.reduce exRnd exRnd (scaled 3 (rwSys 2)) "start" "goal" = .ok res' ∧
    r ∈ (solveIter res.rrf.form 2 (milpExact res.rrf.form solver solver 2 .min none .pulp)).1 ∧
    r' ∈ (solveIter res'.rrf.form (3 * 2) (milpExact res'.rrf.form solver solver (3 * 2) .min none .pulp)).1 ∧
    (r.status = .success → r'.status = .success → r'.value = r.value) := by
  have h3 : (0 : ℚ) < 3 := by norm_num
  obtain ⟨res, h⟩ := rwSys_ok (c := 2) zero_le_two exRnd exRnd
  have hM := rwSys_input (c := 2) zero_le_two
  have hM' := scaled_input h3.le hM
  have hi : (0 : Nat) ∈ (rwSys 2).labelled "start" := ⟨[0], rwSys_start 2, by simp⟩
  obtain ⟨res', h'⟩ := C109_reward_reduce (ρ' := exRnd) (ρ₂' := exRnd) (scaled_renames 3 (rwSys 2) "goal") hM hM' h ratR hi (il' := "start")
    (rwSys_start 2) (fun t ht => by rw [(rwSys_goal 2 t).1 ht]; exact (by decide : (2 : Nat) < 3))
    (show "rf_target" ∉ (mkSys rwP rwI (IDict.mk' [("start", [0]), ("goal", [2])] true)).labS.d.keys by decide +kernel)
    (show "rf_fail" ∉ (mkSys rwP rwI (IDict.mk' [("start", [0]), ("goal", [2])] true)).labS.d.keys by decide +kernel) (Or.inl rfl) rfl rfl (fun g => nomatch g)
  obtain ⟨solver, hs⟩ := exists_exact ℚ
  obtain ⟨r, hr, -⟩ := C106_decides (mode := .min) (t := 2) (labels := none) hM h ratR hs hs zero_le_two (Or.inl rfl) hi (fun _ g => nomatch g)
  obtain ⟨r', hr', -⟩ := C106_decides (mode := .min) (t := 3 * 2) (labels := none) hM' h' ratR hs hs (by norm_num) (Or.inl rfl) hi (fun _ g => nomatch g)
  have m : r ∈ (solveIter res.rrf.form 2 (milpExact res.rrf.form solver solver 2 .min none .pulp)).1 := by rw [hr]; simp
  have m' : r' ∈ (solveIter res'.rrf.form (3 * 2) (milpExact res'.rrf.form solver solver (3 * 2) .min none .pulp)).1 := by rw [hr']; simp
  exact ⟨res, res', solver, r, r', h, h', m, m', (C110_scale_exact hM h3 h h' ratR hi
    (decides_of_exact (rew_built hM h) ratR hs) (fun m => (hs m).toSound) (decides_of_exact (rew_built hM' h') ratR hs)
    (fun m => (hs m).toSound) m m').1⟩
end Verif.Props
