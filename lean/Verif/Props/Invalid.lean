import Verif.Props.Check
import Verif.Props.Generate
import Verif.Props.QSHeur
import Verif.Props.Bench
/-!
# C85: which calls with unusable arguments raise, and what
-/
set_option linter.unusedSectionVars false
namespace Verif.Props
open Verif.Model Verif.Proofs Verif.Theory Finset

section generate
variable {K : Type} [Field K] [LinearOrder K] [IsStrictOrderedRing K]
variable {ρ : Graph.Rnd} {M : Sys K} {il tl fl : String} {rf : RF K}

/-- a reachability form has at least as many state-action pairs as states -/
theorem N_le_C (h : RFOK rf) : rf.N ≤ rf.C := by
  have hx : ∀ s : Nat, ∃ i : Nat, s < rf.N → ∃ a, ((s, a), i) ∈ rf.sys.idx ∧ i < rf.C := by
    intro s
    by_cases hs : s < rf.N
    · obtain ⟨a, i, h1, h2⟩ := h.exists_row hs
      exact ⟨i, fun _ => ⟨a, h1, h2⟩⟩
    · exact ⟨0, fun g => absurd g hs⟩
  choose f hf using hx
  have := Finset.card_le_card_of_injOn (s := range rf.N) (t := range rf.C) f
    (fun s hs => by
      obtain ⟨a, -, h2⟩ := hf s (by simpa using hs)
      simpa using h2)
    (fun s hs s' hs' e => by
      obtain ⟨a, h1, -⟩ := hf s (by simpa using hs)
      obtain ⟨a', h2, -⟩ := hf s' (by simpa using hs')
      rw [e] at h1
      have := WF.idx_inj h.wf h1 h2
      exact (Prod.mk.inj this).1)
  simpa using this

/-- the variables forced to zero are variables -/
theorem zeroVars_lt (h : RFOK rf) {mode : Mode} {sense : Sense} {m : Mat K}
    (hcols : m.cols = (match mode, sense.isLe with
        | .min, true => rf.C
        | .max, false => rf.C
        | .min, false => rf.N
        | .max, true => rf.N)) :
    ∃ zs, zeroVars rf mode sense m.cols = .ok zs ∧ ∀ z ∈ zs, z < m.cols := by
  cases mode with
  | max => exact ⟨[], rfl, by simp⟩
  | min =>
    by_cases hs : sense.isLe = true
    · simp only [hs] at hcols
      simp only [zeroVars, hs, if_true]
      have key : ∀ (l : List Nat) (acc : List Nat), (∀ i ∈ l, i < rf.C) → (∀ z ∈ acc, z < m.cols) →
          ∃ zs, l.foldlM (fun acc i =>
            match rf.rowState i with
            | none => .error .keyError
            | some s => .ok (if rf.inProperEC s = true then acc ++ [s] else acc)) acc = (.ok zs : Except Err (List Nat)) ∧
            ∀ z ∈ zs, z < m.cols := by
        intro l
        induction l with
        | nil => intro acc _ ha; exact ⟨acc, rfl, ha⟩
        | cons i l ih =>
          intro acc hl ha
          obtain ⟨s, hsN, es⟩ := h.exists_rowState (hl i (by simp))
          simp only [List.foldlM_cons, es, bind, Except.bind]
          refine ih _ (fun j hj => hl j (by simp [hj])) fun z hz => ?_
          split at hz
          · rcases List.mem_append.1 hz with hz | hz
            · exact ha z hz
            · rw [List.mem_singleton] at hz
              subst hz
              have := N_le_C h
              omega
          · exact ha z hz
      exact key _ _ (fun i hi => by have := List.mem_range.1 hi; omega) (by simp)
    · simp only [zeroVars, hs]
      exact ⟨_, rfl, fun z hz => List.mem_range.1 (List.mem_filter.1 hz).1⟩

/-- **C85 (certificates).** `generate_farkas_certificate` raises `AssertionError` for every threshold outside `[0,1]`, whatever
the solver; for the other thresholds it poses one problem with one variable more than a certificate has entries, and if the solver
answers with a value for every variable, it returns. -/
theorem C85_generate (hM : M.WF) (hrf : RF.make ρ M il tl fl false = .ok rf) {i : Nat}
    (hi : i ∈ M.labelled il) (hit : i ∉ M.labelled tl) (mode : Mode) (sense : Sense) (t tol : K)
    {solver : Milp K → Except Err (List K)}
    (hs : ∀ lp, lp.vars.length = vecLen M mode sense + 1 → ∃ v, solver lp = .ok v ∧ v.length = lp.vars.length) :
    (¬ (0 ≤ t ∧ t ≤ 1) → ∀ solver', generate solver' rf mode sense t tol = .error .assertion) ∧
    (0 ≤ t ∧ t ≤ 1 → ∃ o, generate solver rf mode sense t tol = .ok o) := by
  refine ⟨fun ht solver' => ?_, fun ht => ?_⟩
  · simp only [generate, generateLP, if_neg ht, bind, Except.bind]
  have h := rfok_built hM hrf
  have hin := initial_lt hM hrf hi hit
  have e := (make_fields hrf).1
  obtain ⟨m, rhs, hcs, hl, hr, hcols⟩ := constraintSet_ok hin mode sense t
  obtain ⟨zs, hz, hzlt⟩ := zeroVars_lt h hcols
  set g := generateMatrix sense (m, rhs) with hg
  have hgr : g.1.rows = m.rows := by rw [hg]; unfold generateMatrix; split <;> rfl
  have hgc : g.1.cols = m.cols := by rw [hg]; unfold generateMatrix; split <;> rfl
  have hgl : g.2.length = rhs.length := by rw [hg]; unfold generateMatrix; split <;> simp
  obtain ⟨lp, hlp, hvars, -, -, -⟩ := interiorLP_ok (A := g.1) (b := g.2) (zero := zs)
    (by rw [hgr, hgl]; exact hl) (by rw [hgc]; exact hzlt)
  have hglp : generateLP rf mode sense t = .ok lp := by
    simp only [generateLP, if_pos ht, hcs, bind, Except.bind, hz]
    exact hlp
  have hv : m.cols = vecLen M mode sense := by
    rw [hcols]
    unfold RF.C RF.N
    rw [e]
    cases mode <;> cases sense <;> rfl
  obtain ⟨v, h1, h2⟩ := hs lp (by rw [hvars, hgc, hv])
  obtain ⟨b, hb⟩ := ((C68_exceptions hM hrf hi hit mode sense t tol v.dropLast).2).2 ⟨ht, by
    rw [List.length_dropLast, h2, hvars, hgc, hv]; rfl⟩
  simp only [generate, bind, Except.bind, hglp, h1, hb]
  cases b
  · exact ⟨_, rfl⟩
  · exact ⟨_, rfl⟩

/-- **C85 (subsystems).** `Subsystem` raises `AssertionError` exactly for a vector without an entry for each state (`min`) or
state-action pair (`max`) of the form other than `goal` and `fail`. -/
theorem C85_subsystem (hrf : RF.make ρ M il tl fl false = .ok rf) (v : List K) (mode : Mode) (ig : Bool) :
    (Subsystem.make rf v mode ig = .error .assertion ↔ v.length ≠ vecLen M mode .ge) ∧
    ((∃ x, Subsystem.make rf v mode ig = .ok x) ↔ v.length = vecLen M mode .ge) := by
  have e := (make_fields hrf).1
  unfold Subsystem.make vecLen
  rw [e]
  cases mode
  · by_cases h : v.length = M.N - 2 <;> simp [h]
  · by_cases h : v.length = M.C - 2 <;> simp [h]

end generate

section thresholds
variable {K : Type} [Field K] [LinearOrder K] [IsStrictOrderedRing K] {σ : Type}

/-- **C85 (thresholds).** `solve` and `solveiter` raise `AssertionError` for a negative threshold and, unless the form is a reward
form, for one above one: with each method, before anything else happens. -/
theorem C85_threshold (f : Form σ K) {t : K} (ht : ¬ 0 ≤ t ∨ f.isRF = true ∧ ¬ t ≤ 1) (run : Run σ K) :
    solveLast (solveIter f t run) = .error .assertion ∧ (solveIter f t run).1 = [] := by
  unfold solveIter
  rcases ht with h | ⟨h1, h2⟩
  · rw [if_neg h]; exact ⟨rfl, rfl⟩
  · by_cases h0 : 0 ≤ t
    · rw [if_pos h0, if_neg fun g => h2 (g h1)]; exact ⟨rfl, rfl⟩
    · rw [if_neg h0]; exact ⟨rfl, rfl⟩

end thresholds

section iterations
variable {K : Type} [Field K] [LinearOrder K] [IsStrictOrderedRing K] {ρ : Graph.Rnd} {M : Sys K} {il tl fl : String} {rf : RF K} {mode : Mode} {t : K}
  {lpSolver : Milp K → Answer K} {solver : Nat → Milp K → Answer K} {labels : Option (List String)}
  {ini : List (Nat × List Nat) → Except Err (List (Nat × K))} {upd : List (Nat × List Nat) → Updater K}

/-- **C85 (no iterations).** `QSHeur(iterations=0).solve` never reports a subsystem: it raises `IndexError`, or reports
"infeasible"; whenever there is a witnessing subsystem it raises. -/
theorem C85_no_iterations (hM : M.WF) (hL : LabelMap M.labS) (hrf : RF.make ρ M il tl fl false = .ok rf) (φ : K →+*o ℝ)
    (hlp : ∀ lp, (lpSolver lp).Exact lp) (hs : ∀ k m, (solver k m).Exact m) (ht : 0 ≤ t ∧ t ≤ 1)
    (hi : ∀ i ∈ M.labelled il, i ∉ M.labelled tl) (hl : LabelsOK M labels)
    {w : Nat → K} (hw : ∀ i, 0 < w i) (hini : InitOK rf.form mode labels w ini) (hu : LibUpdater w upd) :
    let res := solveLast (solveIter rf.form t (qsHeur rf.form lpSolver solver 0 ini upd t mode labels .pulp))
    (res = .error .indexError ∨ ∃ r, res = .ok r ∧ r.status = .failed .infeasible) ∧
    ((∃ k, Witness rf il tl φ mode t labels k) → res = .error .indexError) := by
  intro res
  have hlp' : ∀ lp, (lpSolver lp).Sound lp := fun lp => (hlp lp).toSound
  have hs' : ∀ k m, (solver k m).Sound m := fun k m => (hs k m).toSound
  obtain ⟨o, hc⟩ := construct_relaxed_ok (t := t) (mode := mode) hM hrf φ hlp hi hl
  have e0 : solveIter rf.form t (qsHeur rf.form lpSolver solver 0 ini upd t mode labels .pulp) =
      qsHeur rf.form lpSolver solver 0 ini upd t mode labels .pulp := by
    simp only [solveIter, if_pos ht.1]
    rw [if_pos fun _ => ht.2]
  cases o with
  | none =>
    have e1 : solveIter rf.form t (qsHeur rf.form lpSolver solver 0 ini upd t mode labels .pulp) = ([failure .infeasible], none) := by
      rw [e0]; simp only [qsHeur, hc]
    refine ⟨Or.inr ⟨failure .infeasible, ?_, rfl⟩, fun ⟨k, hk⟩ => ?_⟩
    · show solveLast _ = _
      rw [e1]; rfl
    · exact absurd hk (C41_infeasible (be := .pulp) (n := 0) (r := failure .infeasible) hM hL hrf φ hlp' hs' hl hw hini.lib hu
        (by rw [e1]; simp) rfl k)
  | some p =>
    obtain ⟨m, ind⟩ := p
    obtain ⟨A, b, ub, groups, g1, gb, g3, -, g4, g5⟩ := construct_inv (rf_fark hM hrf) hlp' hc
    obtain ⟨obj, hobj⟩ := hini.total g3 g4
    have e1 : solveIter rf.form t (qsHeur rf.form lpSolver solver 0 ini upd t mode labels .pulp) = ([], none) := by
      rw [e0]; simp only [qsHeur, hc, hobj, qsLoop]
    have : res = .error .indexError := by
      show solveLast _ = _
      rw [e1]; rfl
    exact ⟨Or.inl this, fun _ => this⟩

end iterations

section bench
open Verif.Model.Bench
variable {K : Type} [Field K] [LinearOrder K] [IsStrictOrderedRing K]

/-- **C85 (plots).** Plotting the numbers of states raises `ValueError` if there is an entry, and one of the entries has no values. -/
theorem C85_render (last normalize : Bool) (timeoutVal : Option K) (data : List (Entry K)) (e : Entry K) (he : e ∈ data)
    (hv : e.value = []) : renderStates last normalize timeoutVal data = .error .valueError := by
  cases data with
  | nil => simp at he
  | cons e0 ds =>
    have hany : (e0 :: ds).any (fun e => e.value.isEmpty) = true := by
      rw [List.any_eq_true]
      exact ⟨e, he, by rw [hv]; rfl⟩
    unfold renderStates
    simp only [at?, List.getElem?_cons_zero, bind, Except.bind, hany, if_true]

end bench

/-! ### the hypotheses can be met -/

/- the form of the loop system: there is a witness for 1/4, so a run without iterations raises -/
example (mode : Mode) : ∃ rf solver, RF.make exRnd exactEx "init" "goal" "fail" false = .ok rf ∧ (∀ m, (solver m : Answer ℚ).Exact m) ∧
    let res := solveLast (solveIter rf.form (1/4) (qsHeur rf.form solver (fun _ => solver) 0 allOnes (inverseResultUpdater fun _ => 1)
      (1/4) mode none .pulp))
    (res = .error .indexError ∨ ∃ r, res = .ok r ∧ r.status = .failed .infeasible) := by
  obtain ⟨rf, hrf, he⟩ := exactEx_ok
  obtain ⟨solver, hs⟩ := exists_exact ℚ
  have hlab0 : LabelsOK exactEx none := fun ls h => nomatch h
  exact ⟨rf, solver, hrf, hs, (C85_no_iterations exactEx_wf exactEx_labS hrf ratR hs (fun _ => hs) (by norm_num) exactEx_init hlab0
    (fun _ => one_pos) (Or.inl rfl) (Or.inl rfl)).1⟩

example : (match generate (fun lp => .ok (List.replicate lp.vars.length 0)) (exRF ℚ) .min .ge 2 0 with
    | .error e => e == .assertion | _ => false) = true := by decide +kernel
example : (generate (fun lp => .ok (List.replicate lp.vars.length 0)) (exRF ℚ) .min .le (1/2) 0).isOk = true := by decide +kernel

end Verif.Props
