import Verif.Proofs.Repro
import Verif.Props.ExampleTools
/-!
# C108: results do not depend on the random numbers

`maximal_end_components` seeds `rand` with the time and keeps its sets in treaps with random keys.  `ρ` and `ρ'` are the random
numbers (and the contents of uninitialised memory) of two runs.
-/
set_option linter.unusedSectionVars false

namespace Verif.Props
open Verif.Model Verif.Spec Verif.Proofs

variable {K : Type} [Field K] [LinearOrder K] [IsStrictOrderedRing K]

/-- a system object: the constructor returned it, and the labels may have been changed since -/
def BuiltSys (M : Sys K) : Prop :=
  ∃ d P idx la ls rew M', Sys.make d P idx la ls rew = .ok M' ∧ M = { M' with labA := M.labA, labS := M.labS }

theorem BuiltSys.graphOK {M : Sys K} (h : BuiltSys M) : GraphOK M := by
  obtain ⟨d, P, idx, la, ls, rew, M', h1, h2⟩ := h
  obtain ⟨k1, k2, k3, k4⟩ := GraphOK.of_make h1
  rw [h2]
  exact ⟨k1, k2, k3, k4⟩

/-- what the methods of two reachability forms tell, other than the numbers of end components -/
structure SameAnswers (x y : RF K) : Prop where
  system : x.sys = y.sys
  initial : x.initial = y.initial
  labels : x.initL = y.initL ∧ x.targetL = y.targetL ∧ x.failL = y.failL
  index : x.idx = y.idx
  A : x.A = y.A
  toTarget : x.b = y.b
  toInitial : x.delta = y.delta
  farkZ : ∀ t, x.farkZ t = y.farkZ t
  farkY : ∀ t, x.farkY t = y.farkY t
  maxZ : x.maxZLP = y.maxZLP
  maxY : x.maxYLP = y.maxYLP
  prMax : x.prMaxLP = y.prMaxLP
  maxZStateAction : x.maxZStateAction = y.maxZStateAction
  maxYState : x.maxYState = y.maxYState
  check : ∀ mode sense t v tol, check x mode sense t v tol = check y mode sense t v tol
  generate : ∀ solver mode sense t tol, generate solver x mode sense t tol = generate solver y mode sense t tol
  inProperEc : ∀ s, x.inProperEcCall s = y.inProperEcCall s
  isEcFree : x.isEcFree = y.isEcFree
  nrOfMecs : x.nrOfMecs = y.nrOfMecs
  nrOfProperMecs : x.nrOfProperMecs = y.nrOfProperMecs
  sameMec : ∀ s < x.sys.N - 2, ∀ t < x.sys.N - 2, (x.stateToMec[s]? = x.stateToMec[t]? ↔ y.stateToMec[s]? = y.stateToMec[t]?)
  text : Repr.rf x = Repr.rf y

theorem SameAnswers.of_alike {x y : RF K} (h : Alike x y) : SameAnswers x y where
  system := h.sys
  initial := h.initial
  labels := ⟨h.initL, h.targetL, h.failL⟩
  index := h.idx
  A := h.A_eq
  toTarget := h.b_eq
  toInitial := h.delta_eq
  farkZ := h.farkZ
  farkY := h.farkY
  maxZ := h.maxZLP
  maxY := h.maxYLP
  prMax := h.prMaxLP
  maxZStateAction := h.maxZStateAction
  maxYState := h.maxYState
  check := h.check
  generate := h.generate
  inProperEc := h.inProperEcCall
  isEcFree := h.isEcFree
  nrOfMecs := h.nrOfMecs
  nrOfProperMecs := h.nrOfProperMecs
  sameMec s hs t ht := by
    unfold RF.stateToMec
    rw [← h.sys]
    simp only [List.getElem?_map, List.getElem?_range hs, List.getElem?_range ht, Option.map_some, Option.some.injEq]
    exact h.same s (by omega) t (by omega)
  text := h.repr

/-- what two subsystems tell -/
structure SameSubsystem (x y : Subsystem K) : Prop where
  super : SameAnswers x.rf y.rf
  certificate : x.cert = y.cert
  form : x.mode = y.mode
  mask : x.mask = y.mask
  subsys : ∀ ρ ρ', (∀ e, x.subsys ρ = .error e ↔ y.subsys ρ' = .error e) ∧
    ∀ r, x.subsys ρ = .ok r → ∃ r', y.subsys ρ' = .ok r' ∧ SameAnswers r.rf r'.rf ∧ r.labT = r'.labT
  text : ∀ ρ ρ', Repr.sub ρ x = Repr.sub ρ' y
  pictureMDP : ∀ ρ ρ' fmt w v, Digraph.subMDP ρ x fmt w v = Digraph.subMDP ρ' y fmt w v
  pictureDTMC : ∀ ρ ρ' fmt w v, Digraph.subDTMC ρ x fmt w v = Digraph.subDTMC ρ' y fmt w v

theorem erel_error {α β : Type} {R : α → β → Prop} {x : Except Err α} {y : Except Err β} (h : ERel R x y) (e : Err) :
    x = .error e ↔ y = .error e := by
  cases h with
  | error e' => simp
  | ok h => simp

theorem SameSubsystem.of_alike {x y : Subsystem K} (h : SubAlike x y) : SameSubsystem x y where
  super := .of_alike h.rf
  certificate := h.cert
  form := h.mode
  mask := mask_alike h
  subsys ρ ρ' := by
    have k := subsys_alike h ρ ρ'
    refine ⟨erel_error k, fun r hr => ?_⟩
    obtain ⟨r', h1, h2⟩ := k.get hr
    exact ⟨r', h1, .of_alike h2.rf, h2.labT⟩
  text := subText_alike h
  pictureMDP := subMDP_alike h
  pictureDTMC := subDTMC_alike h

/-- what two results tell -/
structure SameResult (r r' : ProblemResult (Subsystem K) K) : Prop where
  status : r.status = r'.status
  value : r.value = r'.value
  certificate : r.cert = r'.cert
  subsystem : Option.Rel SameSubsystem r.subsystem r'.subsystem
  text : ∀ ρ ρ' fmt, Repr.result (Repr.sub ρ) fmt r = Repr.result (Repr.sub ρ') fmt r'

theorem SameResult.of_alike {r r' : ProblemResult (Subsystem K) K} (h : ResultAlike SubAlike r r') : SameResult r r' where
  status := h.status
  value := h.value
  certificate := h.cert
  subsystem := by
    have k := h.subsystem
    generalize r.subsystem = a at k ⊢
    generalize r'.subsystem = b at k ⊢
    cases k with
    | none => exact .none
    | some k => exact .some (.of_alike k)
  text := resultText_alike h

/-- one result for one result, and the same exception at the end -/
def SameRun (r r' : Run (Subsystem K) K) : Prop := List.Forall₂ SameResult r.1 r'.1 ∧ r.2 = r'.2

theorem SameRun.of_alike {r r' : Run (Subsystem K) K} (h : RunAlike SubAlike r r') : SameRun r r' :=
  ⟨h.1.imp fun _ _ k => .of_alike k, h.2⟩

/-- `maximal_end_components` finds the same components, the same number of them, and calls the same ones proper -/
theorem C108_components {n : Nat} {inv : Nat → Option (Nat × Nat)} {items : List ((Nat × Nat) × K)} {g : Graph K}
    (hg : Graph.build n inv items (Graph.empty n) = .ok g) (hn : 0 < n) (ρ ρ' : Graph.Rnd) :
    ∃ r r', g.maximalEndComponents ρ = some r ∧ g.maximalEndComponents ρ' = some r' ∧ r.2.2 = r'.2.2 ∧
      (∀ x < n, ∀ y < n, r.1 x = r.1 y ↔ r'.1 x = r'.1 y) ∧ (∀ x < n, r.2.1 (r.1 x) = r'.2.1 (r'.1 x)) ∧
      ((List.range r.2.2).filter r.2.1).length = ((List.range r'.2.2).filter r'.2.1).length := by
  obtain ⟨hgn, hgs, -⟩ := build_range hg
  obtain ⟨r, r', h1, h2, h3⟩ := mec_same g ρ ρ' (by omega) hgs
  rw [hgn] at h3
  exact ⟨r, r', h1, h2, h3.cnt, h3.same, h3.proper, h3.properCount⟩

/-- the constructor of `ReachabilityForm` raises the same exceptions, and the forms answer alike -/
theorem C108_form_partial {M : Sys K} (hM : BuiltSys M) (ρ ρ' : Graph.Rnd) (il tl fl : String) (ig : Bool) :
    (∀ e, RF.make ρ M il tl fl ig = .error e ↔ RF.make ρ' M il tl fl ig = .error e) ∧
    ∀ x, RF.make ρ M il tl fl ig = .ok x → ∃ y, RF.make ρ' M il tl fl ig = .ok y ∧ SameAnswers x y := by
  have k := make_alike hM.graphOK ρ ρ' il tl fl ig
  refine ⟨erel_error k, fun x hx => ?_⟩
  obtain ⟨y, h1, h2⟩ := k.get hx
  exact ⟨y, h1, .of_alike h2⟩

/-- `ReachabilityForm.reduce`: the same exceptions, the same maps, forms that answer alike -/
theorem C108_reduce_partial (M : Sys K) (ρ ρ' : Graph.Rnd) (il tl ntl nfl : String) :
    (∀ e, M.reduce ρ il tl ntl nfl = .error e ↔ M.reduce ρ' il tl ntl nfl = .error e) ∧
    ∀ r, M.reduce ρ il tl ntl nfl = .ok r → ∃ r', M.reduce ρ' il tl ntl nfl = .ok r' ∧
      SameAnswers r.rf r'.rf ∧ r.cols = r'.cols ∧ r.rows = r'.rows := by
  have k := reduce_alike M ρ ρ' il tl ntl nfl
  refine ⟨erel_error k, fun x hx => ?_⟩
  obtain ⟨y, h1, h2⟩ := k.get hx
  exact ⟨y, h1, .of_alike h2.rf, h2.cols, h2.rows⟩

/-- what the methods of `switss/problem` yield, for a solver that answers the same program alike -/
theorem C108_solve {M : Sys K} (hM : BuiltSys M) (ρ ρ' : Graph.Rnd) {il tl fl : String} {ig : Bool} {x y : RF K}
    (hx : RF.make ρ M il tl fl ig = .ok x) (hy : RF.make ρ' M il tl fl ig = .ok y)
    (lpSolver : Milp K → Answer K) (solver : Nat → Milp K → Answer K) (n : Nat)
    (ini : List (Nat × List Nat) → Except Err (List (Nat × K))) (upd : List (Nat × List Nat) → Updater K)
    (t : K) (mode : Mode) (labels : Option (List String)) (be : Backend) :
    SameRun (solveIter x.form t (milpExact x.form lpSolver (solver 0) t mode labels be))
      (solveIter y.form t (milpExact y.form lpSolver (solver 0) t mode labels be)) ∧
    SameRun (solveIter x.form t (qsHeur x.form lpSolver solver n ini upd t mode labels be))
      (solveIter y.form t (qsHeur y.form lpSolver solver n ini upd t mode labels be)) := by
  have k := make_alike hM.graphOK ρ ρ' il tl fl ig
  rw [hx, hy] at k
  cases k with
  | ok k => exact ⟨.of_alike (k.form.solveIter (k.form.milpExact _ _ _ _ _ _) _), .of_alike (k.form.solveIter (k.form.qsHeur _ _ _ _ _ _ _ _ _) _)⟩

/-- `solve` instead of `solveiter` -/
theorem C108_solve_last {M : Sys K} (hM : BuiltSys M) (ρ ρ' : Graph.Rnd) {il tl fl : String} {ig : Bool} {x y : RF K}
    (hx : RF.make ρ M il tl fl ig = .ok x) (hy : RF.make ρ' M il tl fl ig = .ok y)
    (lpSolver : Milp K → Answer K) (solver : Nat → Milp K → Answer K) (n : Nat)
    (ini : List (Nat × List Nat) → Except Err (List (Nat × K))) (upd : List (Nat × List Nat) → Updater K)
    (t : K) (mode : Mode) (labels : Option (List String)) (be : Backend) :
    (∀ r, solveLast (solveIter x.form t (milpExact x.form lpSolver (solver 0) t mode labels be)) = .ok r →
      ∃ r', solveLast (solveIter y.form t (milpExact y.form lpSolver (solver 0) t mode labels be)) = .ok r' ∧ SameResult r r') ∧
    (∀ r, solveLast (solveIter x.form t (qsHeur x.form lpSolver solver n ini upd t mode labels be)) = .ok r →
      ∃ r', solveLast (solveIter y.form t (qsHeur y.form lpSolver solver n ini upd t mode labels be)) = .ok r' ∧ SameResult r r') := by
  have k := make_alike hM.graphOK ρ ρ' il tl fl ig
  rw [hx, hy] at k
  cases k with
  | ok k =>
    constructor
    · intro r hr
      obtain ⟨r', h1, h2⟩ := (k.form.solveIter (k.form.milpExact lpSolver (solver 0) t mode labels be) t).solveLast.get hr
      exact ⟨r', h1, .of_alike h2⟩
    · intro r hr
      obtain ⟨r', h1, h2⟩ := (k.form.solveIter (k.form.qsHeur lpSolver solver n ini upd t mode labels be) t).solveLast.get hr
      exact ⟨r', h1, .of_alike h2⟩

/-- the weights that the initializers of `QSHeur` start from, for the same solver answers -/
theorem C108_initializers {M : Sys K} (hM : BuiltSys M) (ρ ρ' : Graph.Rnd) {il tl fl : String} {ig : Bool} {x y : RF K}
    (hx : RF.make ρ M il tl fl ig = .ok x) (hy : RF.make ρ' M il tl fl ig = .ok y) (mode : Mode) :
    reachVector x mode = reachVector y mode ∧ freqVector x mode = freqVector y mode ∧ combinedVector x mode = combinedVector y mode := by
  have k := make_alike hM.graphOK ρ ρ' il tl fl ig
  rw [hx, hy] at k
  cases k with
  | ok k => exact ⟨k.reachVector mode, k.freqVector mode, k.combinedVector mode⟩

/-- subsystems of a certificate -/
theorem C108_subsystem {M : Sys K} (hM : BuiltSys M) (ρ ρ' : Graph.Rnd) {il tl fl : String} {ig : Bool} {x y : RF K}
    (hx : RF.make ρ M il tl fl ig = .ok x) (hy : RF.make ρ' M il tl fl ig = .ok y) (c : List K) (mode : Mode) (ig' : Bool) :
    (∀ e, Subsystem.make x c mode ig' = .error e ↔ Subsystem.make y c mode ig' = .error e) ∧
    ∀ s, Subsystem.make x c mode ig' = .ok s → ∃ s', Subsystem.make y c mode ig' = .ok s' ∧ SameSubsystem s s' := by
  have k := make_alike hM.graphOK ρ ρ' il tl fl ig
  rw [hx, hy] at k
  cases k with
  | ok k =>
    have k := mkSub_alike k c mode ig'
    refine ⟨erel_error k, fun s hs => ?_⟩
    obtain ⟨s', h1, h2⟩ := k.get hs
    exact ⟨s', h1, .of_alike h2⟩

/-- reward forms: the same exceptions, the same maps and programs -/
theorem C108_reward (M : Sys K) (ρ₁ ρ₂ ρ₁' ρ₂' : Graph.Rnd) (il tl : String) :
    (∀ e, RRF.reduce ρ₁ ρ₂ M il tl = .error e ↔ RRF.reduce ρ₁' ρ₂' M il tl = .error e) ∧
    ∀ r, RRF.reduce ρ₁ ρ₂ M il tl = .ok r → ∃ r', RRF.reduce ρ₁' ρ₂' M il tl = .ok r' ∧ r.cols = r'.cols ∧ r.rows = r'.rows ∧
      SameAnswers r.rrf.rf r'.rrf.rf ∧ r.rrf.rew = r'.rrf.rew ∧ r.rrf.maxZLP = r'.rrf.maxZLP ∧ r.rrf.maxYLP = r'.rrf.maxYLP ∧
      r.rrf.rewMaxLP = r'.rrf.rewMaxLP ∧ (∀ t, r.rrf.farkZ t = r'.rrf.farkZ t) ∧ (∀ t, r.rrf.farkY t = r'.rrf.farkY t) ∧
      ∀ lpSolver solver n ini upd t mode labels be,
        List.Forall₂ (fun a b => a.status = b.status ∧ a.value = b.value ∧ a.cert = b.cert)
          (milpExact r.rrf.form lpSolver (solver 0) t mode labels be).1 (milpExact r'.rrf.form lpSolver (solver 0) t mode labels be).1 ∧
        (milpExact r.rrf.form lpSolver (solver 0) t mode labels be).2 = (milpExact r'.rrf.form lpSolver (solver 0) t mode labels be).2 ∧
        List.Forall₂ (fun a b => a.status = b.status ∧ a.value = b.value ∧ a.cert = b.cert)
          (qsHeur r.rrf.form lpSolver solver n ini upd t mode labels be).1 (qsHeur r'.rrf.form lpSolver solver n ini upd t mode labels be).1 ∧
        (qsHeur r.rrf.form lpSolver solver n ini upd t mode labels be).2 = (qsHeur r'.rrf.form lpSolver solver n ini upd t mode labels be).2 := by
  have k := rewReduce_alike M ρ₁ ρ₂ ρ₁' ρ₂' il tl
  refine ⟨erel_error k, fun r hr => ?_⟩
  obtain ⟨r', h1, h2⟩ := k.get hr
  have f := h2.rrf.form
  refine ⟨r', h1, h2.cols, h2.rows, .of_alike h2.rrf.rf, h2.rrf.rew, h2.rrf.maxZLP, h2.rrf.maxYLP, h2.rrf.rewMaxLP, h2.rrf.farkZ, h2.rrf.farkY, ?_⟩
  intro lpSolver solver n ini upd t mode labels be
  have k1 := f.milpExact lpSolver (solver 0) t mode labels be
  have k2 := f.qsHeur lpSolver solver n ini upd t mode labels be
  exact ⟨k1.1.imp fun _ _ k => ⟨k.status, k.value, k.cert⟩, k1.2, k2.1.imp fun _ _ k => ⟨k.status, k.value, k.cert⟩, k2.2⟩

/-- the commands: the same output for the same files and arguments -/
theorem C108_commands [FloorRing K] (ρ ρ' : Graph.Rnd) (π : List Nat → List Nat) (π' : List String → List String) (kind : Cli.Kind)
    (lab tra : List Char) :
    (∀ il tl ntl nfl, Cli.rfCmd (K := K) ρ π π' kind lab tra il tl ntl nfl = Cli.rfCmd (K := K) ρ' π π' kind lab tra il tl ntl nfl) ∧
    (∀ il tl fl cert (tol : K), Cli.certify ρ kind lab tra il tl fl cert tol = Cli.certify ρ' kind lab tra il tl fl cert tol) ∧
    (∀ (copy : Sys K → Except Err (Sys K)) il tl fl label cert,
      Cli.subsystem copy ρ π π' kind lab tra il tl fl label cert = Cli.subsystem copy ρ' π π' kind lab tra il tl fl label cert) ∧
    (∀ (env : Cli.Env K) il tl fl method solve solveIt tol, (∀ x y i, SameAnswers x y → env.init i x = env.init i y) →
      Cli.minimize ρ env kind lab tra il tl fl method solve solveIt tol = Cli.minimize ρ' env kind lab tra il tl fl method solve solveIt tol) :=
  ⟨fun _ _ _ _ => rfCmd_alike .., fun _ _ _ _ _ => certify_alike .., fun _ _ _ _ _ _ => subsystemCmd_alike ..,
    fun _ _ _ _ _ _ _ _ hi => minimize_alike _ _ _ (fun x y h i m ind => by
      rw [hi x y i (.of_alike h)]) ..⟩

/-! ### the numbers of the end components do depend on the random numbers -/

/-- heap keys `f`, the same in every treap -/
def keyRnd (f : Nat → Int) : Graph.Rnd :=
  ⟨f, fun _ => f, fun _ _ => f, f, fun _ _ => 0, fun _ _ => false, fun _ => f, fun _ => f⟩

/-- state 0 goes to 1 and 2, state 1 to the goal, state 2 to goal and fail -/
def reproSys : Except Err (Sys ℚ) :=
  Sys.makeDTMC ⟨5, 5, [((0, 1), 1/2), ((0, 2), 1/2), ((1, 3), 1), ((2, 3), 1/2), ((2, 4), 1/2), ((3, 3), 1), ((4, 4), 1)]⟩
    (IDict.mk' [("init", [0]), ("goal", [3]), ("fail", [4])] true) none none

/-- the same call on the same system: `state_to_mec` is `[0, 1, 2]` in one run and `[0, 3, 1]` in another -/
theorem C108_numbers_false : ∃ (M : Sys ℚ) (ρ ρ' : Graph.Rnd) (x y : RF ℚ), BuiltSys M ∧
    RF.make ρ M "init" "goal" "fail" false = .ok x ∧ RF.make ρ' M "init" "goal" "fail" false = .ok y ∧
    x.stateToMec = [0, 1, 2] ∧ y.stateToMec = [0, 3, 1] := by
  obtain ⟨x, h1, ex⟩ := exists_of_ok_and (x := do
      let M ← reproSys
      RF.make (keyRnd fun n => n) M "init" "goal" "fail" false) (p := fun x => decide (x.stateToMec = [0, 1, 2])) (by decide +kernel)
  obtain ⟨y, h2, ey⟩ := exists_of_ok_and (x := do
      let M ← reproSys
      RF.make (keyRnd fun n => -n) M "init" "goal" "fail" false) (p := fun x => decide (x.stateToMec = [0, 3, 1])) (by decide +kernel)
  obtain ⟨M, hM, hx⟩ := bind_ok h1
  obtain ⟨M', hM', hy⟩ := bind_ok h2
  rw [hM] at hM'
  cases hM'
  refine ⟨M, _, _, x, y, ?_, hx, hy, of_decide_eq_true ex, of_decide_eq_true ey⟩
  unfold reproSys Sys.makeDTMC at hM
  rw [if_pos rfl] at hM
  exact ⟨_, _, _, _, _, _, _, hM, rfl⟩

/-- the condition on `env.init` is met by weights computed from `max_y_state` -/
example (solver : Nat → Milp ℚ → Answer ℚ) (y : Nat → ℚ) : ∃ env : Cli.Env ℚ, env.solver = solver ∧
    (∀ x m ind, env.init "InverseFrequencyInitializer" x m ind = .ok (ind.map fun e => (e.1, ((freqVector x m y).getD e.1 0)⁻¹))) ∧
    ∀ x x' i, SameAnswers x x' → env.init i x = env.init i x' := by
  refine ⟨⟨solver 0, solver, fun _ x m ind => .ok (ind.map fun e => (e.1, ((freqVector x m y).getD e.1 0)⁻¹))⟩, rfl, fun _ _ _ => rfl, ?_⟩
  intro x x' i h
  have : ∀ m, freqVector x m y = freqVector x' m y := by
    intro m
    unfold freqVector RF.N RF.C
    rw [h.system, h.maxYState]
  simp only [this]

end Verif.Props
