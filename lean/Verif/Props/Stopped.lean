import Verif.Props.Original
import Verif.Props.RewardProblem
import Verif.Props.Approx
/-!
# C116: a time limit costs minimality, not correctness

`Answer.Right`: with "optimal" the solver reports a feasible point that need not be a best one, which is what remains of
"optimal" when a run is stopped by a time limit.  The solver of the linear programs for the upper bounds (`lpSolver`) is
as before; its time limit is fixed and it is called with problems without integer variables.
-/
set_option linter.unusedSectionVars false

namespace Verif.Props
open Verif.Model Verif.Spec Verif.Proofs Verif.Theory Finset

section
variable {K : Type} [Field K] [LinearOrder K] [IsStrictOrderedRing K]
variable {ρ : Graph.Rnd} {M : Sys K} {il tl fl : String} {rf : RF K} {mode : Mode} {t : K}
  {lpSolver solver : Milp K → Answer K} {labels : Option (List String)} {be : Backend} {r : ProblemResult (Subsystem K) K}

/-- the value of a feasible point of an exact problem is a natural number, at least the number of groups it uses -/
theorem obj_nat {σ : Type} {f : Form σ K} {A : Mat K} {b u : List K} {groups : List (List Nat)} {m : Milp K}
    {ind : List (Nat × List Nat)} (B : Built f mode false A b (some u) groups m ind)
    (hlt : ∀ g ∈ groups, ∀ w ∈ g, w < f.certSize mode) {x : Nat → K} (hx : m.Feasible x) :
    ∃ k : Nat, m.objVal x = k ∧ usedGroups groups x ≤ k := by
  obtain ⟨h1, h2, h3⟩ := (B.feasible hlt x).1 hx
  have : m.objVal x = (((range groups.length).filter fun k => x (f.certSize mode + k) = 1).card : Nat) := by
    rw [B.obj, card_filter, Nat.cast_sum]
    refine sum_congr rfl fun k hk => ?_
    rcases (h2 k (mem_range.1 hk)).2.1 rfl with h | h <;> simp [h]
  refine ⟨_, this, ?_⟩
  have h4 := used_le_obj B hlt hx
  rw [this] at h4
  exact_mod_cast h4

/-- **C116.** Exact minimisation with a solver that may be stopped: a success still reports the subsystem object of a
non-negative certificate that the checker accepts; its system, whenever it can be built, has probability at least the
threshold; the value is a natural number that is at least the size of the subsystem. -/
theorem C116_exact (hM : M.WF) (hL : LabelMap M.labS) (hrf : RF.make ρ M il tl fl false = .ok rf)
    (hlp : ∀ lp, (lpSolver lp).Sound lp) (hs : ∀ m, (solver m).Right m)
    (hr : r ∈ (solveIter rf.form t (milpExact rf.form lpSolver solver t mode labels be)).1) (hst : r.status = .success) :
    ∃ (cert : List K) (x : Subsystem K) (k : Nat), r = ⟨.success, some x, some (k : K), some cert⟩ ∧
      Subsystem.make rf cert mode false = .ok x ∧ check rf mode .ge t cert 0 = .ok true ∧ (∀ c ∈ cert, 0 ≤ c) ∧
      cost M labels (Selected M mode cert) ≤ k ∧
      ∀ (ρ' : Graph.Rnd) (res : Subsystem.Result K), x.subsys ρ' = .ok res →
        cost res.rf.sys labels (fun s => s < res.rf.sys.N - 2) ≤ k ∧
        ∀ (φ : K →+*o ℝ), ∀ n ∈ res.rf.sys.labelled il, φ t ≤ res.rf.sys.pr φ mode (res.rf.sys.labelled tl) n := by
  obtain ⟨hr, h0, h1⟩ := solveIter_mem hr
  obtain ⟨m, ind, w, hc, ho, hw, rfl⟩ := exact_success hr hst
  obtain ⟨A, b, u, groups, g1, g2, g3, g4, g5, g6⟩ := exact_built hM hrf hlp hc
  obtain ⟨o1, o2, o3⟩ := (hs m).optimal ho
  have p1 := (g4.poly _ o1).1
  obtain ⟨k, hk, hle⟩ := obj_nat g4 g5 o1
  have h := rfok_built hM hrf
  have hlen : ((solver m).vec.take (rf.form.certSize mode)).length = rf.form.certSize mode := by
    rw [List.length_take, o2, g4.vars]; omega
  have etake : ∀ j < rf.form.certSize mode, ((solver m).vec.take (rf.form.certSize mode)).getD j 0 = (solver m).vec.getD j 0 :=
    fun j hj => take_getD j hj
  obtain ⟨c1, c2⟩ := poly_check ⟨h0, h1 rfl⟩ g1 hlen (p1.congr g2 etake)
  have e0 := (make_fields hrf).1
  have ek : usedGroups groups (fun j => (solver m).vec.getD j 0) =
      cost M labels (Selected M mode ((solver m).vec.take (rf.form.certSize mode))) := by
    rw [← usedGroups_congr g5 etake, used_eq_cost h g3 g5, ← e0]
    exact cost_congr _ _ fun s => selF_iff h hlen s
  rw [ek] at hle
  refine ⟨_, w, k, by rw [o3, hk], hw, c1, c2, hle, fun ρ' res hres => ⟨?_, fun φ n hn => ?_⟩⟩
  · rw [cost_sub hM hL hrf hw hres labels]
    exact hle
  · unfold Model.Sys.pr
    cases mode with
    | min => exact C45_min_ge hM hL hrf c1 hw hres φ hn
    | max => exact C45_max_ge hM hL hrf c2 c1 hw hres φ hn

theorem stopped_infeasible_cut (hM : M.WF) (hrf : RF.make ρ M il tl fl false = .ok rf) (φ : K →+*o ℝ)
    (hlp : ∀ lp, (lpSolver lp).Sound lp) (hs : ∀ m, (solver m).Right m)
    (hr : r ∈ (solveIter rf.form t (milpExact rf.form lpSolver solver t mode labels be)).1)
    (hst : r.status = .failed .infeasible) (U : Nat → Prop) (hin : rf.initial < rf.N) :
    ¬ φ t ≤ cutVal (rfok_built hM hrf) φ mode U ⟨rf.initial, hin⟩ := by
  intro hU
  obtain ⟨hr, h0, h1⟩ := solveIter_mem hr
  rcases exact_infeasible hr hst with hc | ⟨m, ind, hc, hi⟩
  · obtain ⟨A, b, g1, -, -, g2⟩ := construct_none (fun A b hA => (rf_fark hM hrf A b hA).2.1) hlp hc
    obtain ⟨x, -, hx, -⟩ := poly_of_cut' hM hrf (ub := none) g1 (fun u h => nomatch h) hU
    exact g2 x hx
  · obtain ⟨A, b, u, groups, g1, g2, g3, g4, g5, g6⟩ := exact_built hM hrf hlp hc
    obtain ⟨x, hx, -, -⟩ := poly_of_cut hM hrf g1 g6 hU
    exact (hs m).infeasible hi _ (complete_feasible g2 g4 g5 hx)

/-- **C116.** "infeasible" still means that there is no witnessing subsystem at all. -/
theorem C116_infeasible (hM : M.WF) (hL : LabelMap M.labS) (hrf : RF.make ρ M il tl fl false = .ok rf) (φ : K →+*o ℝ)
    (hlp : ∀ lp, (lpSolver lp).Sound lp) (hs : ∀ m, (solver m).Right m)
    (hr : r ∈ (solveIter rf.form t (milpExact rf.form lpSolver solver t mode labels be)).1)
    (hst : r.status = .failed .infeasible) (k : Nat) : ¬ Witness rf il tl φ mode t labels k := by
  intro hw
  obtain ⟨U, hin, -, hU⟩ := witness_cut hM hL hrf hw
  exact stopped_infeasible_cut hM hrf φ hlp hs hr hst U hin hU

end

/-! ### the heuristic -/

section
variable {K : Type} [Field K] [LinearOrder K] [IsStrictOrderedRing K]
variable {ρ : Graph.Rnd} {M : Sys K} {il tl fl : String} {rf : RF K} {mode : Mode} {t : K}
  {lpSolver : Milp K → Answer K} {solver : Nat → Milp K → Answer K} {labels : Option (List String)} {be : Backend}
  {r : ProblemResult (Subsystem K) K} {n : Nat} {ini : List (Nat × List Nat) → Except Err (List (Nat × K))}
  {upd : List (Nat × List Nat) → Updater K}

/-- **C116.** The same for every result of the heuristic, with any initial objective, updater and number of iterations. -/
theorem C116_heuristic (hM : M.WF) (hL : LabelMap M.labS) (hrf : RF.make ρ M il tl fl false = .ok rf)
    (hlp : ∀ lp, (lpSolver lp).Sound lp) (hs : ∀ k m, (solver k m).Right m)
    (hr : r ∈ (solveIter rf.form t (qsHeur rf.form lpSolver solver n ini upd t mode labels be)).1) (hst : r.status = .success) :
    ∃ (cert : List K) (x : Subsystem K) (k : Nat), r = ⟨.success, some x, some (k : K), some cert⟩ ∧
      Subsystem.make rf cert mode false = .ok x ∧ check rf mode .ge t cert 0 = .ok true ∧ (∀ c ∈ cert, 0 ≤ c) ∧
      (mode = .min → ∀ s < rf.N, rf.inProperEC s = true → cert.getD s 0 = 0) ∧
      (LabelsOK M labels → cost M labels (Selected M mode cert) ≤ k) ∧
      ∀ (ρ' : Graph.Rnd) (res : Subsystem.Result K), x.subsys ρ' = .ok res →
        (LabelsOK M labels → cost res.rf.sys labels (fun s => s < res.rf.sys.N - 2) ≤ k) ∧
        ∀ (φ : K →+*o ℝ), ∀ n ∈ res.rf.sys.labelled il, φ t ≤ res.rf.sys.pr φ mode (res.rf.sys.labelled tl) n :=
  heur_sound hM hL hrf hlp hs hr hst

/-- the constraints that the updaters of the library add, for any weights -/
theorem lib_con {w : Nat → K} (hu : LibUpdater w upd) (ind : List (Nat × List Nat)) (v : List K) (cs : List (List (Nat × K) × CSense × K))
    (h : (upd ind).constraints v = .ok cs) : ∀ c ∈ cs, ∃ i, v.getD i 0 = 0 ∧ c = ([(i, 1)], .eq, 0) := by
  intro c hc
  rcases hu with rfl | rfl
  · cases h; simp at hc
  · obtain ⟨e, -, h1, h2⟩ := (fixedConstraints_mem h c).1 hc
    exact ⟨e.1, h1, h2⟩

theorem stopped_qs_infeasible_cut (hM : M.WF) (hrf : RF.make ρ M il tl fl false = .ok rf) (φ : K →+*o ℝ)
    (hlp : ∀ lp, (lpSolver lp).Sound lp) (hs : ∀ k m, (solver k m).Right m) (hl : LabelsOK M labels)
    {w : Nat → K} (hu : LibUpdater w upd)
    (hr : r ∈ (solveIter rf.form t (qsHeur rf.form lpSolver solver n ini upd t mode labels be)).1)
    (hst : r.status = .failed .infeasible) (U : Nat → Prop) (hin : rf.initial < rf.N) :
    ¬ φ t ≤ cutVal (rfok_built hM hrf) φ mode U ⟨rf.initial, hin⟩ := by
  intro hU
  obtain ⟨-, ⟨hc, -⟩ | ⟨m, ind, obj, hc, -, hr⟩⟩ := qs_run hr
  · obtain ⟨A, b, g1, -, -, g2⟩ := construct_none (fun A b hA => (rf_fark hM hrf A b hA).2.1) hlp hc
    obtain ⟨x, -, hx, -⟩ := poly_of_cut' hM hrf (ub := none) g1 (fun u h => nomatch h) hU
    exact g2 x hx
  · obtain ⟨A, b, ub, groups, g1, -, g3, -, g4, g5⟩ := construct_inv (rf_fark hM hrf) hlp hc
    obtain ⟨groups', q1, hlt⟩ := groups_ok (rfok_built hM hrf) mode (labels := labels)
      (by rw [(make_fields hrf).1]; exact hl) (decide (mode = .max ∧ true = false))
    rw [g3] at q1
    cases q1
    obtain ⟨x, hx, -, -⟩ := poly_of_cut' hM hrf g1 (fun u hu => ((g5 u hu).2.imp_left fun g => ⟨g.1, g.2.2⟩)) hU
    obtain ⟨y, hy⟩ := relaxed_feasible (fark_cols g1) g4 hlt hx
    exact qsLoop_infeasible hs (fun v cs h => lib_con hu ind v cs h) n m obj g4.keys r hr hst y hy

/-- **C116.** If the heuristic with an updater of the library (any weights, any initial objective) reports "infeasible",
in whichever iteration, there is no witnessing subsystem. -/
theorem C116_heuristic_infeasible (hM : M.WF) (hL : LabelMap M.labS) (hrf : RF.make ρ M il tl fl false = .ok rf) (φ : K →+*o ℝ)
    (hlp : ∀ lp, (lpSolver lp).Sound lp) (hs : ∀ k m, (solver k m).Right m) (hl : LabelsOK M labels)
    {w : Nat → K} (hu : LibUpdater w upd)
    (hr : r ∈ (solveIter rf.form t (qsHeur rf.form lpSolver solver n ini upd t mode labels be)).1)
    (hst : r.status = .failed .infeasible) (k : Nat) : ¬ Witness rf il tl φ mode t labels k := by
  intro hw
  obtain ⟨U, hin, -, hU⟩ := witness_cut hM hL hrf hw
  exact stopped_qs_infeasible_cut hM hrf φ hlp hs hl hu hr hst U hin hU

end

/-! ### the original model -/

section
variable {K : Type} [Field K] [LinearOrder K] [IsStrictOrderedRing K]
variable {ρ : Graph.Rnd} {M : Sys K} {il tl ntl nfl : String} {res : Reduce.Result K} {mode : Mode} {t : K}
  {lpSolver : Milp K → Answer K} {labels : Option (List String)} {be : Backend} {r : ProblemResult (Subsystem K) K}

/-- **C116.** In terms of the original model, exact minimisation: the set of states that a success selects reaches the
targets with probability at least `t`, and its size is at most the reported value; "infeasible" means that no set of
states does. -/
theorem C116_original {solver : Milp K → Answer K} (hM : Input M) (hne : ntl ≠ nfl) (h : M.reduce ρ il tl ntl nfl = .ok res)
    (φ : K →+*o ℝ) (hlp : ∀ lp, (lpSolver lp).Sound lp) (hs : ∀ m, (solver m).Right m) {i : Nat} (hi : i ∈ M.labelled il)
    (hr : r ∈ (solveIter res.rf.form t (milpExact res.rf.form lpSolver solver t mode labels be)).1) :
    (r.status = .success → ∃ (cert : List K) (k : Nat) (A : Finset Nat), r.cert = some cert ∧ r.value = some (k : K) ∧
      (∀ s, s ∈ A ↔ ∃ s', res.cols.get? s = some s' ∧ Selected res.rf.sys mode cert s') ∧ size M labels A ≤ k ∧
      φ t ≤ M.prWithin φ mode A (M.labelled tl) i) ∧
    (r.status = .failed .infeasible → ∀ A : Set Nat, M.prWithin φ mode A (M.labelled tl) i < φ t) := by
  obtain ⟨hI, -, -, -, hrf⟩ := C13_reduce_again hM hne h
  obtain ⟨hi1, hi2⟩ := reduced_initial hM hne h hi
  refine ⟨fun hst => ?_, fun hst A => ?_⟩
  · obtain ⟨cert, x, k, rfl, g1, g2, g3, g4, g5⟩ := C116_exact hI.wf hI.labS hrf hlp hs hr hst
    have hb := (C86_certificate hM hne h φ hi (fun _ => g3)).1 g2
    rw [← coe_originF hM h] at hb
    refine ⟨cert, k, originF M res (Selected res.rf.sys mode cert), rfl, rfl, fun s => ?_, ?_, hb⟩
    · rw [← mem_coe, coe_originF hM h]; rfl
    · exact le_trans (size_origin_le hM hne h labels _) g4
  · by_contra hn
    exact stopped_infeasible_cut hI.wf hrf φ hlp hs hr hst _ hi2
      (by rw [reduced_within hM h φ _ (image_iff hM h A) hi1 hi2]; exact not_lt.1 hn)

/-- **C116.** In terms of the original model, the heuristic. -/
theorem C116_original_heuristic {solver : Nat → Milp K → Answer K} {n : Nat}
    {ini : List (Nat × List Nat) → Except Err (List (Nat × K))} {upd : List (Nat × List Nat) → Updater K}
    (hM : Input M) (hne : ntl ≠ nfl) (h : M.reduce ρ il tl ntl nfl = .ok res) (φ : K →+*o ℝ)
    (hlp : ∀ lp, (lpSolver lp).Sound lp) (hs : ∀ k m, (solver k m).Right m) {i : Nat} (hi : i ∈ M.labelled il)
    (hl : ∀ ls, labels = some ls → ntl ∉ ls ∧ nfl ∉ ls)
    (hr : r ∈ (solveIter res.rf.form t (qsHeur res.rf.form lpSolver solver n ini upd t mode labels be)).1) :
    (r.status = .success → ∃ (cert : List K) (k : Nat) (A : Finset Nat), r.cert = some cert ∧ r.value = some (k : K) ∧
      (∀ s, s ∈ A ↔ ∃ s', res.cols.get? s = some s' ∧ Selected res.rf.sys mode cert s') ∧ size M labels A ≤ k ∧
      φ t ≤ M.prWithin φ mode A (M.labelled tl) i) ∧
    ((∃ w, LibUpdater w upd) → r.status = .failed .infeasible → ∀ A : Set Nat, M.prWithin φ mode A (M.labelled tl) i < φ t) := by
  obtain ⟨hI, -, -, -, hrf⟩ := C13_reduce_again hM hne h
  obtain ⟨hi1, hi2⟩ := reduced_initial hM hne h hi
  refine ⟨fun hst => ?_, fun ⟨w, hu⟩ hst A => ?_⟩
  · obtain ⟨cert, x, k, rfl, g1, g2, g3, -, g4, -⟩ := heur_sound hI.wf hI.labS hrf hlp hs hr hst
    have hb := (C86_certificate hM hne h φ hi (fun _ => g3)).1 g2
    rw [← coe_originF hM h] at hb
    refine ⟨cert, k, originF M res (Selected res.rf.sys mode cert), rfl, rfl, fun s => ?_, ?_, hb⟩
    · rw [← mem_coe, coe_originF hM h]; rfl
    · exact le_trans (size_origin_le hM hne h labels _) (g4 (labelsOK_reduced hM hne h hl))
  · by_contra hn
    exact stopped_qs_infeasible_cut hI.wf hrf φ hlp hs (labelsOK_reduced hM hne h hl) hu hr hst _ hi2
      (by rw [reduced_within hM h φ _ (image_iff hM h A) hi1 hi2]; exact not_lt.1 hn)

end

/-! ### rewards -/

section
variable {K : Type} [Field K] [LinearOrder K] [IsStrictOrderedRing K]
variable {ρ ρ' : Graph.Rnd} {M : Sys K} {il tl : String} {res : RRF.Result K} {mode : Mode} {t : K}
  {lpSolver : Milp K → Answer K} {labels : Option (List String)} {be : Backend} {r : ProblemResult (RRF.Sub K) K}

/-- **C116.** Exact minimisation on a reward form with a solver that may be stopped: the states that a success selects
collect at least the threshold and are at most as many as the value says; "infeasible" means that no set of states does. -/
theorem C116_reward {solver : Milp K → Answer K} (hM : RewardInput M) (h : RRF.reduce ρ ρ' M il tl = .ok res) (φ : K →+*o ℝ)
    (hlp : Decides res.rrf t mode lpSolver) (hs : ∀ m, (solver m).Right m)
    (hr : r ∈ (solveIter res.rrf.form t (milpExact res.rrf.form lpSolver solver t mode labels be)).1) :
    (r.status = .success →
      ∃ (cert : List K) (k i : Nat), r = ⟨.success, some ⟨res.rrf, cert, mode⟩, some (k : K), some cert⟩ ∧
        (∀ c ∈ cert, 0 ≤ c) ∧ cost res.rrf.rf.sys labels (Selected res.rrf.rf.sys mode cert) ≤ k ∧
        res.rrf.rf.sys.statesByLabel il = .ok [i] ∧
        φ t ≤ Inside φ res.rrf.rf.sys mode (Selected res.rrf.rf.sys mode cert) i) ∧
    (r.status = .failed .infeasible → ∀ k', ¬ RewWitness φ res.rrf.rf.sys il mode t labels k') := by
  obtain ⟨hr, h0, -⟩ := solveIter_mem hr
  have bt := rew_built hM h
  refine ⟨fun hst => ?_, fun hst k' hw => ?_⟩
  · obtain ⟨m, ind, w, hc, ho, hw, rfl⟩ := exact_success hr hst
    obtain ⟨A, b, u, groups, g1, g2, g3, g4, g5, g6⟩ := rew_exact_built bt hlp hc
    have hG : Grouped mode labels := by
      cases mode with
      | min => exact Or.inl rfl
      | max =>
        refine Or.inr fun hl => ?_
        subst hl
        simp only [groupsFromLabels, max_unlabelled_groups bt] at g3
        cases g3
    obtain ⟨o1, o2, o3⟩ := (hs m).optimal ho
    obtain ⟨k, hk, hle⟩ := obj_nat g4 g5 o1
    have p1 := (g4.poly _ o1).1
    have hlen : ((solver m).vec.take (res.rrf.form.certSize mode)).length = res.rrf.form.certSize mode := by
      rw [List.length_take, o2, g4.vars]; omega
    have etake : ∀ j < res.rrf.form.certSize mode,
        ((solver m).vec.take (res.rrf.form.certSize mode)).getD j 0 = (solver m).vec.getD j 0 := fun j hj => take_getD j hj
    set cert := (solver m).vec.take (res.rrf.form.certSize mode) with hcert
    have q1 := p1.congr g2 etake
    have hF : InFark A b (fun j => cert.getD j 0) := ⟨fun j hj => q1.nonneg j (by omega), q1.rows⟩
    have hsel : selF res.rrf.rf mode (fun j => cert.getD j 0) = Selected res.rrf.rf.sys mode cert :=
      funext fun s => propext (selF_iff bt.ok.ok hlen s)
    rw [groups_same hG] at g3
    have ek : usedGroups groups (fun j => (solver m).vec.getD j 0) =
        cost res.rrf.rf.sys labels (Selected res.rrf.rf.sys mode cert) := by
      rw [← usedGroups_congr g5 etake, used_eq_cost bt.ok.ok g3 g5, hsel]
    have hsub : w = ⟨res.rrf, cert, mode⟩ := by
      have hw : res.rrf.mkSub cert mode = .ok w := hw
      unfold RRF.mkSub at hw
      cases mode <;>
      · simp only at hw
        split at hw <;> cases hw
        rfl
    refine ⟨cert, k, res.rrf.rf.initial, by rw [o3, hk, hsub], fun c hcm => ?_, by rw [← ek]; exact hle, bt.initL, ?_⟩
    · obtain ⟨j, hj, rfl⟩ := List.mem_iff_getElem.1 hcm
      have := hF.nonneg j (by omega)
      rwa [List.getD_eq_getElem _ _ hj] at this
    · rw [← hsel]
      exact inside_of_fark bt φ g1 hF fun _ hs => hs
  · obtain ⟨U, i, hi, -, hU⟩ := hw
    rw [bt.initL] at hi
    cases hi
    rcases exact_infeasible hr hst with hc | ⟨m, ind, hc, hinf⟩
    · obtain ⟨A, b, g1, -, -, g2⟩ := construct_none (fun A b hA => (rrf_fark bt.ok hA).2.1) hlp.1 hc
      obtain ⟨x, hx, -⟩ := fark_of_inside bt φ g1 hU
      exact g2 x hx
    · obtain ⟨A, b, u, groups, g1, g2, g3, g4, g5, g6⟩ := rew_exact_built bt hlp hc
      obtain ⟨x, hx, -⟩ := fark_of_inside bt φ g1 hU
      exact (hs m).infeasible hinf _ (complete_feasible g2 g4 g5 (rew_poly g2 g6 hx))

/-- **C116.** The heuristic on a reward form with a solver that may be stopped. -/
theorem C116_reward_heuristic {solver : Nat → Milp K → Answer K} {n : Nat}
    {ini : List (Nat × List Nat) → Except Err (List (Nat × K))} {upd : List (Nat × List Nat) → Updater K}
    (hM : RewardInput M) (h : RRF.reduce ρ ρ' M il tl = .ok res) (φ : K →+*o ℝ)
    (hlp : ∀ lp, (lpSolver lp).Sound lp) (hs : ∀ k m, (solver k m).Right m)
    (hr : r ∈ (solveIter res.rrf.form t (qsHeur res.rrf.form lpSolver solver n ini upd t mode labels be)).1)
    (hst : r.status = .success) :
    ∃ (cert : List K) (k i : Nat), r = ⟨.success, some ⟨res.rrf, cert, mode⟩, some (k : K), some cert⟩ ∧
      (∀ c ∈ cert, 0 ≤ c) ∧ res.rrf.rf.sys.statesByLabel il = .ok [i] ∧
      φ t ≤ Inside φ res.rrf.rf.sys mode (Selected res.rrf.rf.sys mode cert) i ∧
      (LabelsOK res.rrf.rf.sys labels → cost res.rrf.rf.sys labels (Selected res.rrf.rf.sys mode cert) ≤ k) :=
  rew_heur_sound hM h φ hlp hs hr hst

/-- **C116.** If the heuristic with an updater of the library (any weights, any initial objective) reports "infeasible" on a
reward form, in whichever iteration, the threshold is met inside no set of states. -/
theorem C116_reward_heuristic_infeasible {solver : Nat → Milp K → Answer K} {n : Nat}
    {ini : List (Nat × List Nat) → Except Err (List (Nat × K))} {upd : List (Nat × List Nat) → Updater K}
    (hM : RewardInput M) (h : RRF.reduce ρ ρ' M il tl = .ok res) (φ : K →+*o ℝ)
    (hlp : ∀ lp, (lpSolver lp).Sound lp) (hs : ∀ k m, (solver k m).Right m) (hl : LabelsOK res.rrf.rf.sys labels)
    {w : Nat → K} (hu : LibUpdater w upd)
    (hr : r ∈ (solveIter res.rrf.form t (qsHeur res.rrf.form lpSolver solver n ini upd t mode labels be)).1)
    (hst : r.status = .failed .infeasible) (k : Nat) : ¬ RewWitness φ res.rrf.rf.sys il mode t labels k := by
  rintro ⟨U, i, hi, -, hU⟩
  have bt := rew_built hM h
  rw [bt.initL] at hi
  cases hi
  obtain ⟨hr, -, -⟩ := solveIter_mem hr
  unfold qsHeur at hr
  split at hr
  · simp at hr
  · rename_i hc
    obtain ⟨A, b, g1, -, -, g2⟩ := construct_none (fun A b hA => (rrf_fark bt.ok hA).2.1) hlp hc
    obtain ⟨x, hx, -⟩ := fark_of_inside bt φ g1 hU
    exact g2 x hx
  · rename_i m ind hc
    split at hr
    · simp at hr
    rename_i obj _
    obtain ⟨A, b, ub, groups, g1, -, g3, -, g4, g5⟩ := construct_inv (fun A b hA => rrf_fark bt.ok hA) hlp hc
    obtain ⟨groups', q1, hlt⟩ := groups_ok bt.ok.ok mode (labels := labels) hl (decide (mode = .max ∧ true = false))
    rw [groups_same'] at g3
    rw [g3] at q1
    cases q1
    have hA := (rrf_fark bt.ok g1).1
    obtain ⟨x, hx, -⟩ := fark_of_inside bt φ g1 hU
    have hp : InPoly res.rrf.form mode A b ub x := by
      refine ⟨fun j hj => hx.nonneg j (by omega), fun u hu => ?_, (fun _ _ _ g => nomatch g), hx.rows⟩
      rcases (g5 u hu).2 with ⟨-, g, -⟩ | g
      · cases g
      · exact g x hx
    obtain ⟨y, hy⟩ := relaxed_feasible hA g4 hlt hp
    exact qsLoop_infeasible hs (fun v cs h => lib_con hu ind v cs h) n m obj g4.keys r hr hst y hy

/-- "infeasible" occurs: with correct solvers and a threshold that is too large -/
example : ∃ (res : RRF.Result ℚ) (solver : Milp ℚ → Answer ℚ) (r : ProblemResult (RRF.Sub ℚ) ℚ),
    RewardInput (rwSys 2) ∧ RRF.reduce exRnd exRnd (rwSys 2) "start" "goal" = .ok res ∧ (∀ lp, (solver lp).Sound lp) ∧
    (∀ m, (solver m).Right m) ∧ LabelsOK res.rrf.rf.sys none ∧ r.status = .failed .infeasible ∧
    ∃ t, r ∈ (solveIter res.rrf.form t (qsHeur res.rrf.form solver (fun _ => solver) 3 allOnes (inverseResultUpdater fun _ => 1) t .max none .pulp)).1 := by
  obtain ⟨res, h⟩ := rwSys_ok (c := 2) zero_le_two exRnd exRnd
  obtain ⟨i, hi, -, hU⟩ := rwSys_init zero_le_two h
  obtain ⟨solver, hs⟩ := exists_exact ℚ
  obtain ⟨t, h0, ht⟩ : ∃ t : ℚ, 0 ≤ t ∧ res.rrf.rf.sys.rewOpt ratR .max (res.rrf.rf.sys.labelled "rf_target") i < ratR t := by
    obtain ⟨k, hk⟩ := exists_nat_gt (res.rrf.rf.sys.rewOpt ratR .max (res.rrf.rf.sys.labelled "rf_target") i)
    exact ⟨k, Nat.cast_nonneg k, by rw [map_natCast]; exact hk⟩
  obtain ⟨r, hr, hst⟩ := (C62_returns (n := 3) (mode := .max) (labels := none) (rwSys_input zero_le_two) h ratR hs (fun _ => hs)
    h0 (by omega) (fun _ g => nomatch g) (w := fun _ => 1) (fun _ => one_pos) (Or.inl rfl) (Or.inl rfl) hi).2.2 ht
  exact ⟨res, solver, r, rwSys_input zero_le_two, h, fun m => (hs m).toSound, fun m => (hs m).toSound.right, (fun _ g => nomatch g), hst, t,
    by rw [hr]; exact List.mem_singleton_self r⟩

end

/-! ### minimality is lost; the hypotheses are met -/

/-- a solver that gives `ans` for `m0` and is exact otherwise -/
theorem exists_right {m0 : Milp ℚ} {ans : Answer ℚ} (h : ans.Right m0) :
    ∃ solver : Milp ℚ → Answer ℚ, (∀ m, (solver m).Right m) ∧ solver m0 = ans := by
  classical
  obtain ⟨ex, hex⟩ := exists_exact ℚ
  refine ⟨fun m => if m = m0 then ans else ex m, fun m => ?_, if_pos rfl⟩
  by_cases hm : m = m0
  · subst hm
    simpa using h
  · simp only [if_neg hm]
    exact (hex m).toSound.right

/-- the problem for `valEx` and the threshold 1/4 -/
def stopMilp : Milp ℚ where
  be := .pulp
  maximize := false
  vars := [⟨.real, some 0, some 1⟩, ⟨.real, some 0, some 1⟩, ⟨.binary, some 0, some 1⟩, ⟨.binary, some 0, some 1⟩]
  obj := some [(0, 0), (1, 0), (2, 1), (3, 1)]
  cons := [(0, ⟨[(0, 1), (1, -1/2)], .le, 1/2⟩), (1, ⟨[(1, 1)], .le, 1/10^9⟩), (2, ⟨[(0, -1)], .le, -(1/4)⟩),
    (3, ⟨[(0, 1), (2, -1)], .le, 0⟩), (4, ⟨[(1, 1), (3, -1)], .le, 0⟩)]
  ncon := 5

theorem stopMilp_feasible : stopMilp.Feasible (fun j => ([1/4, 1/10^9, 1, 1] : List ℚ).getD j 0) := by
  refine ⟨fun i v hi => ?_, fun c hc => ?_⟩
  · match i, hi with
    | 0, hi => cases hi; norm_num [Milp.Var.ok]
    | 1, hi => cases hi; norm_num [Milp.Var.ok]
    | 2, hi => cases hi; norm_num [Milp.Var.ok]
    | 3, hi => cases hi; norm_num [Milp.Var.ok]
  · simp only [stopMilp, List.mem_cons, List.not_mem_nil, or_false] at hc
    rcases hc with rfl | rfl | rfl | rfl | rfl <;> norm_num [Milp.Constr.sat, Milp.CSense.holds, Milp.evalE]

/-- **C116 (minimality is lost).** With a solver that may be stopped `MILPExact` may report a subsystem with two states
although there is one with a single state.  This also shows that the hypotheses of `C116_exact` are met. -/
theorem C116_minimal_false : ∃ (rf : RF ℚ) (lpSolver solver : Milp ℚ → Answer ℚ) (x : Subsystem ℚ),
    RF.make exRnd valEx "init" "goal" "fail" false = .ok rf ∧ (∀ lp, (lpSolver lp).Exact lp) ∧ (∀ m, (solver m).Right m) ∧
    solveIter rf.form (1/4) (milpExact rf.form lpSolver solver (1/4) .min none .pulp) =
      ([⟨.success, some x, some 2, some [1/4, 1/10^9]⟩], none) ∧
    (∀ (ρ' : Graph.Rnd) (res : Subsystem.Result ℚ), x.subsys ρ' = .ok res → res.rf.sys.N - 2 = 2) ∧
    Witness rf "init" "goal" ratR .min (1/4) none 1 := by
  obtain ⟨rf, hrf, hp⟩ := exists_of_ok_and (x := RF.make exRnd valEx "init" "goal" "fail" false)
    (p := fun rf => gives stopMilp rf (1/4) && decide (rf.form.certSize .min = 2) && yes (check rf .min .ge (1/4) [1/4, 0] 0))
    (by decide +kernel)
  simp only [Bool.and_eq_true, decide_eq_true_eq, yes_iff] at hp
  obtain ⟨⟨h1, h3⟩, h4⟩ := hp
  obtain ⟨lp, hlp⟩ := exists_exact ℚ
  obtain ⟨solver, hs, e⟩ := exists_right (m0 := stopMilp) (ans := ⟨.optimal, [1/4, 1/10^9, 1, 1], 2⟩)
    ⟨fun _ => ⟨stopMilp_feasible, rfl, by norm_num [stopMilp, Milp.objVal, Milp.evalE]⟩, fun g => nomatch g⟩
  obtain ⟨ind, hc⟩ := gives_iff h1 lp
  have ht : ([1/4, 1/10^9, 1, 1] : List ℚ).take (rf.form.certSize .min) = [1/4, 1/10^9] := by rw [h3]; rfl
  have hmk : ∀ c : List ℚ, c.length = 2 → ∃ w, Subsystem.make rf c .min false = .ok w := by
    intro c hcl
    exact ⟨_, if_pos (hcl.trans h3.symm)⟩
  obtain ⟨w, hw⟩ := hmk [1/4, 1/10^9] rfl
  have hw' : rf.form.mkSub [1/4, 1/10^9] .min = .ok w := by rw [← hw]; simp only [RF.form]
  refine ⟨rf, lp, solver, w, hrf, hlp, hs, ?_, fun ρ' res hres => ?_, ?_⟩
  · unfold solveIter
    rw [if_pos (by norm_num), if_pos fun _ => by norm_num]
    unfold milpExact
    simp only [hc, e, if_true, ht, hw']
  · obtain ⟨ks, k1, k2, k3, k4, -⟩ := C47_construction valEx_wf valEx_labS hrf hw hres
    have h0 : (0 : Nat) ∈ ks := (k2 0).2 ⟨1/4, rfl, by norm_num⟩
    have h1 : (1 : Nat) ∈ ks := (k2 1).2 ⟨1/10^9, rfl, by norm_num⟩
    have hsub : ∀ s ∈ ks, s < 2 := k3
    have : ks.toFinset = {0, 1} := by
      ext s
      simp only [List.mem_toFinset, mem_insert, mem_singleton]
      refine ⟨fun g => by have := hsub s g; omega, ?_⟩
      rintro (rfl | rfl)
      · exact h0
      · exact h1
    have hcard := List.toFinset_card_of_nodup (k1.imp fun h => h.ne)
    rw [this] at hcard
    simp at hcard
    omega
  · have hA : LabelMap valEx.labA :=
      ⟨id, [], true, [], fun _ => List.Perm.refl _, isPyDict_of (by decide +kernel) (by decide +kernel), rfl⟩
    obtain ⟨x', res, n, q1, q2, q3⟩ := C45_returns (ρ' := exRnd) (mode := .min) valEx_wf valEx_labS hrf (Or.inl rfl) hA rfl
      (fun g => by cases g) ratR (t := 1/4) (by norm_num) (fun g => nomatch g) h4
    have hn : n ∈ res.rf.sys.labelled "init" := ⟨_, q3, by simp⟩
    refine ⟨[1/4, 0], .min, true, x', _, res, n, q1, q2, hn, C45_min_ge valEx_wf valEx_labS hrf h4 q1 q2 ratR hn, ?_⟩
    rw [cost_sub valEx_wf valEx_labS hrf q1 q2]
    have : (cost valEx none fun s => s = 0) = 1 := by
      unfold cost
      refine card_eq_one.2 ⟨0, ?_⟩
      ext s
      simp only [mem_filter, mem_range, mem_singleton]
      exact ⟨fun g => g.2, fun g => ⟨by subst g; decide, g⟩⟩
    rw [← this]
    refine cost_congr _ _ fun s => ⟨fun hs => ?_, fun hs => ?_⟩
    · obtain ⟨c, g1, g2⟩ := hs
      match s, g1 with
      | 0, _ => rfl
      | 1, g1 => cases g1; exact absurd g2 (lt_irrefl _)
      | s + 2, g1 => simp at g1
    · subst hs
      exact ⟨1/4, rfl, by norm_num⟩

/-- the hypotheses of `C116_infeasible` and `C116_heuristic_infeasible` are met: the threshold 1 for `valEx` -/
example : ∃ (rf : RF ℚ) (solver : Milp ℚ → Answer ℚ), RF.make exRnd valEx "init" "goal" "fail" false = .ok rf ∧
    (∀ lp, (solver lp).Sound lp) ∧ (∀ m, (solver m).Right m) ∧
    solveIter rf.form 1 (milpExact rf.form solver solver 1 .min none .pulp) = ([failure .infeasible], none) := by
  obtain ⟨rf, hrf, hp⟩ := exists_of_ok_and (x := RF.make exRnd valEx "init" "goal" "fail" false)
    (p := fun rf => gives { stopMilp with cons := [(0, ⟨[(0, 1), (1, -1/2)], .le, 1/2⟩), (1, ⟨[(1, 1)], .le, 1/10^9⟩),
      (2, ⟨[(0, -1)], .le, -1⟩), (3, ⟨[(0, 1), (2, -1)], .le, 0⟩), (4, ⟨[(1, 1), (3, -1)], .le, 0⟩)] } rf 1)
    (by decide +kernel)
  obtain ⟨solver, hs⟩ := exists_exact ℚ
  obtain ⟨ind, hc⟩ := gives_iff hp solver
  refine ⟨rf, solver, hrf, fun m => (hs m).toSound, fun m => (hs m).toSound.right, ?_⟩
  have hst := (hs _).infeasible' (m := { stopMilp with cons := [(0, ⟨[(0, 1), (1, -1/2)], .le, 1/2⟩), (1, ⟨[(1, 1)], .le, 1/10^9⟩),
      (2, ⟨[(0, -1)], .le, -1⟩), (3, ⟨[(0, 1), (2, -1)], .le, 0⟩), (4, ⟨[(1, 1), (3, -1)], .le, 0⟩)] }) (by
    rintro x ⟨-, h⟩
    have a := h (0, ⟨[(0, 1), (1, -1/2)], .le, 1/2⟩) (by simp)
    have b := h (1, ⟨[(1, 1)], .le, 1/10^9⟩) (by simp)
    have c := h (2, ⟨[(0, -1)], .le, -1⟩) (by simp)
    simp only [Milp.Constr.sat, Milp.CSense.holds, Milp.evalE, List.map_cons, List.map_nil, List.sum_cons, List.sum_nil] at a b c
    norm_num at a b c
    linarith)
  unfold solveIter
  rw [if_pos zero_le_one, if_pos fun _ => le_rfl]
  unfold milpExact
  rw [hc]
  simp only
  rw [if_neg (by rw [hst]; decide), hst]

/-- the hypotheses of `C116_heuristic` are met -/
example : ∃ (rf : RF ℚ) (solver : Milp ℚ → Answer ℚ) (r : ProblemResult (Subsystem ℚ) ℚ),
    RF.make exRnd valEx "init" "goal" "fail" false = .ok rf ∧ (∀ lp, (solver lp).Sound lp) ∧ (∀ m, (solver m).Right m) ∧
    LabelsOK valEx none ∧ LibUpdater (fun _ => 1) (fixedZerosUpdater (fun _ => (1 : ℚ))) ∧
    r ∈ (solveIter rf.form (1/4) (qsHeur rf.form solver (fun _ => solver) 3 allOnes (fixedZerosUpdater fun _ => 1)
      (1/4) .min none .pulp)).1 ∧ r.status = .success := by
  obtain ⟨rf, -, -, -, hrf, -, -, -, -, hw⟩ := C116_minimal_false
  obtain ⟨solver, hs⟩ := exists_exact ℚ
  have hA : LabelMap valEx.labA :=
    ⟨id, [], true, [], fun _ => List.Perm.refl _, isPyDict_of (by decide +kernel) (by decide +kernel), rfl⟩
  have hi : ∀ i ∈ valEx.labelled "init", i ∉ valEx.labelled "goal" := by
    rintro i ⟨ss, h1, h2⟩ ⟨ss', h3, h4⟩
    have e1 : valEx.statesByLabel "init" = .ok [0] := by decide +kernel
    have e2 : valEx.statesByLabel "goal" = .ok [2] := by decide +kernel
    rw [e1] at h1; cases h1
    rw [e2] at h3; cases h3
    simp only [List.mem_singleton] at h2 h4
    omega
  obtain ⟨r, h1, -, h2⟩ := C41_feasible_iff (n := 3) (labels := none) (ini := allOnes) (upd := fixedZerosUpdater fun _ => 1) valEx_wf
    valEx_labS hrf ratR (Or.inl rfl) hA rfl (fun g => by cases g) hs (fun _ => hs) (t := 1/4) (by norm_num) (by norm_num)
    hi (fun ls h => nomatch h) (fun _ => one_pos) (Or.inl rfl) (Or.inr rfl)
  refine ⟨rf, solver, r, hrf, fun m => (hs m).toSound, fun m => (hs m).toSound.right, (fun ls h => nomatch h), Or.inr rfl, ?_,
    h2.2 ⟨_, hw⟩⟩
  unfold solveLast at h1
  split at h1
  · cases h1
  · split at h1
    · cases h1
    · rename_i hl
      cases h1
      exact List.mem_of_getLast? hl

end Verif.Props
