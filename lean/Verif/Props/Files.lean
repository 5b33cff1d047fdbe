import Verif.Model.Files
import Verif.Props.Json
import Verif.Props.CliMin
import Verif.Props.CliRf
import Mathlib.Tactic.Tauto
import Mathlib.Tactic.ByContra
/-!
# C113: the files that the commands of `bin/switss` read and write
-/
set_option linter.unusedSectionVars false

namespace Verif.Props
open Verif.Model Verif.Model.Cli Verif.Model.Files Verif.Spec Verif.Proofs Verif.Proofs.IDict Verif.Proofs.IOTra

/-! ## what the documentation says about the files -/

/-- the files that a command reads -/
def Reads {K : Type} (p : String) : Command K → Prop
  | .rf _ path _ _ _ _ _ => p = path ++ ".lab" ∨ p = path ++ ".tra"
  | .info _ path => p = path ++ ".lab" ∨ p = path ++ ".tra"
  | .minimize _ path _ _ _ _ _ _ _ _ => p = path ++ ".lab" ∨ p = path ++ ".tra"
  | .certify _ path _ _ _ cert _ => p = path ++ ".lab" ∨ p = path ++ ".tra" ∨ cert = some p
  | .subsystem _ path _ _ _ _ cert _ => p = path ++ ".lab" ∨ p = path ++ ".tra" ∨ cert = some p

/-- the files that a command may write: `rf` the form at the output path (by default the path of the model with "-rf") and the
mapping beside it, `minimize` the certificates (by default beside the model), `subsystem` one model for every instance, named
after its iteration -/
def Writes {K : Type} (p : String) : Command K → Prop
  | .rf _ path _ _ _ _ out =>
    let o := out.getD (path ++ "-rf")
    p = o ++ ".mapping.json" ∨ p = o ++ ".tra" ∨ p = o ++ ".lab"
  | .info _ _ => False
  | .minimize _ path _ _ _ _ _ _ cert _ => p = cert.getD (path ++ ".certificates.json")
  | .certify _ _ _ _ _ _ _ => False
  | .subsystem _ path _ _ _ _ _ out =>
    let o := out.getD (path ++ "-subsys")
    ∃ n : Nat, p = o ++ "-" ++ toString n ++ ".tra" ∨ p = o ++ "-" ++ toString n ++ ".lab"

variable {F K : Type} [DecidableEq F] [Field K] [LinearOrder K] [IsStrictOrderedRing K] [FloorRing K] {w : World F K}

theorem exec_frame {o : Outcome} {f : F} : ∀ (ws : List (String × Except Err (List Char))) (d : Disk F),
    (∀ x ∈ ws, w.loc x.1 ≠ f) → (exec w o ws d).1 f = d f := by
  intro ws
  induction ws with
  | nil => intros; rfl
  | cons x ws ih =>
    intro d h
    obtain ⟨p, t⟩ := x
    have hp : f ≠ w.loc p := fun e => h (p, t) (by simp) e.symm
    rw [exec.eq_def]
    simp only
    split
    · cases t with
      | ok t =>
        simp only
        rw [ih _ fun x hx => h x (by simp [hx]), Files.store, if_neg hp]
      | error e =>
        simp only
        rw [Files.store, if_neg hp]
    · rfl

theorem writes_spec {d : Disk F} {c : Command K} {x : String × Except Err (List Char)} (hx : x ∈ (plan w d c).writes) : Writes x.1 c := by
  have stop : ∀ o, x ∉ (Plan.stop o).writes := fun o h => by simp [Plan.stop] at h
  have err : ∀ e, x ∉ (Plan.err e).writes := fun e h => by simp [Plan.err, Plan.stop] at h
  cases c with
  | rf kind path il tl ntl nfl out =>
    simp only [plan] at hx
    split at hx
    · exact absurd hx (stop _)
    · unfold rfPlan at hx
      split at hx
      · exact absurd hx (err _)
      · split at hx
        · exact absurd hx (err _)
        · simp only [saveWrites, List.mem_cons, List.not_mem_nil, or_false] at hx
          rcases hx with rfl | rfl | rfl <;> simp [Writes]
  | info kind path =>
    simp only [plan] at hx
    split at hx
    · exact absurd hx (stop _)
    · split at hx
      · exact absurd hx (err _)
      · exact absurd hx (stop _)
  | minimize kind path il tl fl method solve solveIt cert tol =>
    simp only [plan] at hx
    split at hx
    · exact absurd hx (stop _)
    · split at hx
      · exact absurd hx (err _)
      · simp only [List.mem_cons, List.not_mem_nil, or_false] at hx
        subst hx
        rfl
  | certify kind path il tl fl cert tol =>
    simp only [plan] at hx
    split at hx
    · exact absurd hx (stop _)
    · split at hx
      · exact absurd hx (err _)
      · split at hx
        · exact absurd hx (stop _)
        · simp at hx
  | subsystem kind path il tl fl label cert out =>
    simp only [plan] at hx
    split at hx
    · exact absurd hx (stop _)
    · split at hx
      · exact absurd hx (err _)
      · split at hx
        · exact absurd hx (stop _)
        · obtain ⟨y, -, hy⟩ := List.mem_flatMap.1 hx
          simp only [saveWrites, List.mem_cons, List.not_mem_nil, or_false] at hy
          have e : ∀ n : Nat, String.ofList (Text.fmtD n) = toString n := by
            intro n
            rfl
          refine ⟨y.1, ?_⟩
          rcases hy with rfl | rfl
          · exact Or.inl (by simp only [instancePath, e])
          · exact Or.inr (by simp only [instancePath, e])

/-- **C113, no other file is touched.** Whatever happens — success, an exception half way, a file that cannot be opened — a
command leaves every file as it is that is not named by one of its output paths. -/
theorem C113_frame (c : Command K) (d : Disk F) {f : F} (h : ∀ p, Writes p c → w.loc p ≠ f) : (run w c d).disk f = d f := by
  unfold run
  exact exec_frame _ _ fun x hx => h _ (writes_spec hx)

/-- what a list of writes does does not depend on the disk: every file gets a certain text or stays as it is -/
theorem exec_patch (o : Outcome) (ws : List (String × Except Err (List Char))) :
    ∃ (u : F → Option (List Char)) (o' : Outcome), (∀ d, exec w o ws d = (fun f => (u f).or (d f), o')) ∧
      ∀ f t, u f = some t → ∃ x ∈ ws, w.loc x.1 = f := by
  induction ws with
  | nil => exact ⟨fun _ => none, o, fun d => by simp [exec], by simp⟩
  | cons x ws ih =>
    obtain ⟨p, t⟩ := x
    obtain ⟨u, o', h, hu⟩ := ih
    by_cases hp : w.canWrite p = true
    · cases t with
      | ok t =>
        refine ⟨fun f => (u f).or (if f = w.loc p then some t else none), o', fun d => ?_, fun f t' ht' => ?_⟩
        · rw [exec.eq_def]
          simp only [hp, if_true]
          rw [h]
          refine Prod.ext (funext fun f => ?_) rfl
          simp only [Files.store]
          cases u f <;> by_cases e : f = w.loc p <;> simp [e]
        · cases hf : u f with
          | some t'' =>
            obtain ⟨x, hx, e⟩ := hu f t'' hf
            exact ⟨x, by simp [hx], e⟩
          | none =>
            by_cases e : f = w.loc p
            · exact ⟨(p, .ok t), by simp, e.symm⟩
            · simp [hf, e] at ht'
      | error e =>
        refine ⟨fun f => if f = w.loc p then some w.junk else none, .exit (.of e), fun d => ?_, fun f t' ht' => ?_⟩
        · rw [exec.eq_def]
          simp only [hp, if_true]
          refine Prod.ext (funext fun f => ?_) rfl
          simp only [Files.store]
          by_cases e : f = w.loc p <;> simp [e]
        · by_cases h : f = w.loc p
          · exact ⟨(p, .error e), by simp, h.symm⟩
          · simp [h] at ht'
    · refine ⟨fun _ => none, .osError, fun d => ?_, by simp⟩
      rw [exec.eq_def]
      simp [hp]

theorem readModel_congr {d d' : Disk F} {path : String} (h1 : d (w.loc (path ++ ".lab")) = d' (w.loc (path ++ ".lab")))
    (h2 : d (w.loc (path ++ ".tra")) = d' (w.loc (path ++ ".tra"))) : readModel w d path = readModel w d' path := by
  unfold readModel
  rw [h1, h2]

theorem plan_congr {d d' : Disk F} {c : Command K} (h : ∀ p, Reads p c → d (w.loc p) = d' (w.loc p)) : plan w d c = plan w d' c := by
  have hc : ∀ cert : Option String, (∀ p, cert = some p → d (w.loc p) = d' (w.loc p)) →
      (cert.map fun p => d (w.loc p)) = cert.map fun p => d' (w.loc p) := by
    intro cert h
    cases cert with
    | none => rfl
    | some p => simp [h p rfl]
  cases c with
  | rf kind path il tl ntl nfl out =>
    simp only [plan, readModel_congr (h _ (Or.inl rfl)) (h _ (Or.inr rfl))]
  | info kind path =>
    simp only [plan, readModel_congr (h _ (Or.inl rfl)) (h _ (Or.inr rfl))]
  | minimize kind path il tl fl method solve solveIt cert tol =>
    simp only [plan, readModel_congr (h _ (Or.inl rfl)) (h _ (Or.inr rfl))]
  | certify kind path il tl fl cert tol =>
    simp only [plan, readModel_congr (h _ (Or.inl rfl)) (h _ (Or.inr (Or.inl rfl))), hc cert fun p hp => h p (Or.inr (Or.inr hp))]
  | subsystem kind path il tl fl label cert out =>
    simp only [plan, readModel_congr (h _ (Or.inl rfl)) (h _ (Or.inr (Or.inl rfl))), hc cert fun p hp => h p (Or.inr (Or.inr hp))]

/-- **C113, what a command depends on.** On all disks that agree on the files a command reads it prints the same verdicts, ends in
the same way and does the same to the disk: the same files get the same texts, and all others stay as they are. -/
theorem C113_depends (c : Command K) (d : Disk F) : ∃ (u : F → Option (List Char)) (vs : List Bool) (o : Outcome),
    (∀ f t, u f = some t → ∃ p, Writes p c ∧ w.loc p = f) ∧
    ∀ d', (∀ p, Reads p c → d' (w.loc p) = d (w.loc p)) →
      (run w c d').verdicts = vs ∧ (run w c d').outcome = o ∧
      ∀ f, (run w c d').disk f = match u f with | some t => some t | none => d' f := by
  obtain ⟨u, o', h, hu⟩ := exec_patch (w := w) (plan w d c).outcome (plan w d c).writes
  refine ⟨u, (plan w d c).verdicts, o', fun f t ht => ?_, fun d' hd' => ?_⟩
  · obtain ⟨x, hx, e⟩ := hu f t ht
    exact ⟨x.1, writes_spec hx, e⟩
  · have e := plan_congr (w := w) (c := c) hd'
    refine ⟨by simp only [run, e], by simp only [run, e, h], fun f => ?_⟩
    simp only [run, e, h]
    cases u f <;> rfl

/-- **C113, sessions.** Files that no command of a session writes stay as they are; a later `certify` (or any other command) whose
files are not written by the commands in between gives the result it would have given before them. -/
theorem C113_session (cs : List (Command K)) (d : Disk F) :
    (∀ f, (∀ c ∈ cs, ∀ p, Writes p c → w.loc p ≠ f) → runAll w cs d f = d f) ∧
    ∀ c, (∀ c' ∈ cs, ∀ p q, Writes p c' → Reads q c → w.loc p ≠ w.loc q) →
      (run w c (runAll w cs d)).verdicts = (run w c d).verdicts ∧ (run w c (runAll w cs d)).outcome = (run w c d).outcome := by
  have key : ∀ (cs : List (Command K)) (d : Disk F) f, (∀ c ∈ cs, ∀ p, Writes p c → w.loc p ≠ f) → runAll w cs d f = d f := by
    intro cs
    induction cs with
    | nil => intros; rfl
    | cons c cs ih =>
      intro d f h
      show runAll w cs _ f = d f
      rw [ih _ f fun c' hc' => h c' (by simp [hc'])]
      exact C113_frame c d (h c (by simp))
  refine ⟨key cs d, fun c h => ?_⟩
  obtain ⟨u, vs, o, -, h2⟩ := C113_depends (w := w) c d
  obtain ⟨a1, a2, -⟩ := h2 d fun _ _ => rfl
  obtain ⟨b1, b2, -⟩ := h2 (runAll w cs d) fun q hq => key cs d _ fun c' hc' p hp => h c' hc' p q hp hq
  exact ⟨by rw [a1, b1], by rw [a2, b2]⟩

/-! ## missing files -/

/-- the path of the model -/
def modelPath : Command K → String
  | .rf _ path _ _ _ _ _ => path
  | .info _ path => path
  | .minimize _ path _ _ _ _ _ _ _ _ => path
  | .certify _ path _ _ _ _ _ => path
  | .subsystem _ path _ _ _ _ _ _ => path

theorem run_stop {c : Command K} {d : Disk F} {o : Outcome} (h : plan w d c = .stop o) : run w c d = ⟨d, [], o⟩ := by
  simp only [run, h, Plan.stop, exec]

theorem plan_of_readModel {c : Command K} {d : Disk F} {o : Outcome} (h : readModel w d (modelPath c) = .error o) :
    plan w d c = .stop o := by
  cases c <;> simp only [modelPath] at h <;> simp only [plan, h]

/-- **C113, missing files.** Without the `.lab` file, or with a well-formed `.lab` file but without the `.tra` file, every command
ends with the `OSError` of `open`; it prints nothing and leaves the disk as it is.  The same holds of a certificate file that does
not exist, except that a fault of the model is reported first. -/
theorem C113_missing (c : Command K) (d : Disk F) :
    (d (w.loc (modelPath c ++ ".lab")) = none → run w c d = ⟨d, [], .osError⟩) ∧
    (∀ lab x, d (w.loc (modelPath c ++ ".lab")) = some lab → parseLabelFile lab = .ok x →
      d (w.loc (modelPath c ++ ".tra")) = none → run w c d = ⟨d, [], .osError⟩) ∧
    ∀ p, Reads p c → d (w.loc p) = none → (run w c d).disk = d ∧ (run w c d).verdicts = [] ∧ (run w c d).outcome ≠ .exit .done := by
  have hof : ∀ e, Exit.of e ≠ .done := by intro e; cases e <;> simp [Exit.of]
  have hlab : d (w.loc (modelPath c ++ ".lab")) = none → run w c d = ⟨d, [], .osError⟩ := fun h =>
    run_stop (plan_of_readModel (by simp only [readModel, h]))
  have htra : d (w.loc (modelPath c ++ ".tra")) = none → ∃ o, o ≠ .exit .done ∧ run w c d = ⟨d, [], o⟩ := by
    intro h
    cases hl : d (w.loc (modelPath c ++ ".lab")) with
    | none => exact ⟨_, by simp, hlab hl⟩
    | some lab =>
      cases hp : parseLabelFile lab with
      | error e => exact ⟨.exit (.of e), by simp [hof], run_stop (plan_of_readModel (by simp only [readModel, hl, h, hp]))⟩
      | ok x => exact ⟨.osError, by simp, run_stop (plan_of_readModel (by simp only [readModel, hl, h, hp]))⟩
  refine ⟨hlab, fun lab x h1 h2 h3 => run_stop (plan_of_readModel (by simp only [readModel, h1, h2, h3])), fun p hp hn => ?_⟩
  have fin : ∀ o, o ≠ .exit .done → run w c d = ⟨d, [], o⟩ →
      (run w c d).disk = d ∧ (run w c d).verdicts = [] ∧ (run w c d).outcome ≠ .exit .done := by
    intro o ho h
    rw [h]
    exact ⟨rfl, rfl, ho⟩
  have two : p = modelPath c ++ ".lab" ∨ p = modelPath c ++ ".tra" →
      (run w c d).disk = d ∧ (run w c d).verdicts = [] ∧ (run w c d).outcome ≠ .exit .done := by
    rintro (rfl | rfl)
    · exact fin _ (by simp) (hlab hn)
    · obtain ⟨o, ho, h⟩ := htra hn
      exact fin o ho h
  cases c with
  | rf kind path il tl ntl nfl out => exact two hp
  | info kind path => exact two hp
  | minimize kind path il tl fl method solve solveIt cert tol => exact two hp
  | certify kind path il tl fl cert tol =>
    rcases hp with hp | hp | rfl
    · exact two (Or.inl hp)
    · exact two (Or.inr hp)
    · cases hr : readModel w d path with
      | error o =>
        refine fin o ?_ (run_stop (plan_of_readModel hr))
        rintro rfl
        unfold readModel at hr
        split at hr
        · cases hr
        · split at hr
          · cases hr
          · split at hr
            · exact hof _ (Outcome.exit.inj (Except.error.inj hr))
            · cases hr
      | ok x =>
        cases hq : prepare w kind x.1 x.2 il tl fl none with
        | error e =>
          exact fin (.exit (.of e)) (by simp [hof]) (run_stop (by simp only [plan, hr, hq, Plan.err]))
        | ok rf => exact fin .osError (by simp) (run_stop (by simp only [plan, hr, hq, Option.map_some, hn]))
  | subsystem kind path il tl fl label cert out =>
    rcases hp with hp | hp | rfl
    · exact two (Or.inl hp)
    · exact two (Or.inr hp)
    · cases hr : readModel w d path with
      | error o =>
        refine fin o ?_ (run_stop (plan_of_readModel hr))
        rintro rfl
        unfold readModel at hr
        split at hr
        · cases hr
        · split at hr
          · cases hr
          · split at hr
            · exact hof _ (Outcome.exit.inj (Except.error.inj hr))
            · cases hr
      | ok x =>
        cases hq : prepare w kind x.1 x.2 il tl fl (some label) with
        | error e =>
          exact fin (.exit (.of e)) (by simp [hof]) (run_stop (by simp only [plan, hr, hq, Plan.err]))
        | ok rf => exact fin .osError (by simp) (run_stop (by simp only [plan, hr, hq, Option.map_some, hn]))

/-- **C113, no certificate file.** Without `-c`, `certify` and `subsystem` print no verdict, change nothing and do not end normally. -/
theorem C113_no_certificate (kind : Kind) (path il tl fl label : String) (out : Option String) (tol : K) (d : Disk F)
    (c : Command K) (hc : c = .certify kind path il tl fl none tol ∨ c = .subsystem kind path il tl fl label none out) :
    (run w c d).disk = d ∧ (run w c d).verdicts = [] ∧ (run w c d).outcome ≠ .exit .done := by
  have hof : ∀ e, Exit.of e ≠ .done := by intro e; cases e <;> simp [Exit.of]
  have key : ∃ o, o ≠ .exit .done ∧ plan w d c = .stop o := by
    rcases hc with rfl | rfl
    · cases hr : readModel w d path with
      | error o =>
        refine ⟨o, ?_, by simp only [plan, hr]⟩
        rw [readModel] at hr
        split at hr
        · cases hr; simp
        · split at hr
          · cases hr
          · split at hr <;> cases hr <;> simp [hof]
      | ok x =>
        cases hp : prepare w kind x.1 x.2 il tl fl none with
        | error e => exact ⟨.exit (.of e), by simp [hof], by simp only [plan, hr, hp]; rfl⟩
        | ok rf => exact ⟨.exit (.raised .assertion), by simp, by simp only [plan, hr, hp]; rfl⟩
    · cases hr : readModel w d path with
      | error o =>
        refine ⟨o, ?_, by simp only [plan, hr]⟩
        rw [readModel] at hr
        split at hr
        · cases hr; simp
        · split at hr
          · cases hr
          · split at hr <;> cases hr <;> simp [hof]
      | ok x =>
        cases hp : prepare w kind x.1 x.2 il tl fl (some label) with
        | error e => exact ⟨.exit (.of e), by simp [hof], by simp only [plan, hr, hp]; rfl⟩
        | ok rf => exact ⟨.exit (.raised .assertion), by simp, by simp only [plan, hr, hp]; rfl⟩
  obtain ⟨o, h1, h2⟩ := key
  rw [run_stop h2]
  exact ⟨rfl, rfl, h1⟩

/-! ## `switss rf` -/

theorem save_of {kind : Kind} {π : List Nat → List Nat} {π' : List String → List String} {M : Sys K} {l t : List Char}
    (h1 : saveTra kind M = .ok t) (h2 : M.saveLab π π' = .ok l) : save kind π π' M = .ok (l, t) := by
  cases kind <;> simp only [saveTra] at h1 <;> simp [save, h1, h2, bind, Except.bind]

/-- whatever `reduce` returns can be saved -/
theorem reduced_saves {kind : Kind} {lab tra : List Char} {M : Sys K} {ρ : Graph.Rnd} {π : List Nat → List Nat}
    {π' : List String → List String} (hπ : ∀ l, (π l).Perm l) (hπ' : ∀ l, (π' l).Perm l) (h : loadModel kind lab tra = .ok M)
    (hx : ExactRows M) {il tl ntl nfl : String} {res : Reduce.Result K} (hres : M.reduce ρ il tl ntl nfl = .ok res) :
    ∃ l t, saveTra kind res.rf.sys = .ok t ∧ res.rf.sys.saveLab π π' = .ok l := by
  have hF := loadModel_spec h
  obtain ⟨T, i0, mask, hR, -⟩ := reduce_spec (hF.wf_of_sum hx) hF.labS hF.labA hres
  have ht := table_of_wf hR.red.wf
  have h1 : ∃ t, saveTra kind res.rf.sys = .ok t := by
    cases kind with
    | mdp => exact ⟨_, saveTraMDP_ok (M := { res.rf.sys with rew := none }) ht⟩
    | dtmc => exact ⟨_, saveTraDTMC_ok (M := { res.rf.sys with rew := none }) ht⟩
  obtain ⟨t, h1⟩ := h1
  exact ⟨_, t, h1, (IOLab.saveLab_ok hπ hπ' hR.red.labI).1⟩

variable {kind : Kind} {path il tl ntl nfl fl : String} {out : Option String} {lab tra : List Char} {d : Disk F}

theorem readModel_ok (h1 : d (w.loc (path ++ ".lab")) = some lab) (h2 : d (w.loc (path ++ ".tra")) = some tra) :
    readModel w d path = .ok (lab, tra) := by
  simp only [readModel, h1, h2]

/-- **C113, `switss certify`** on files that exist gives the result described for their texts by C75 and C111, and writes nothing. -/
theorem C113_certify (h1 : d (w.loc (path ++ ".lab")) = some lab) (h2 : d (w.loc (path ++ ".tra")) = some tra) {cert : String}
    {text : List Char} (h3 : d (w.loc cert) = some text) (tol : K) :
    run w (.certify kind path il tl fl (some cert) tol) d =
      ⟨d, (Json.certify w.rd w.ρ kind lab tra il tl fl (some text) tol).1,
        .exit (Json.certify w.rd w.ρ kind lab tra il tl fl (some text) tol).2⟩ := by
  simp only [run, plan, readModel_ok h1 h2, prepare, Json.certify, Option.map_some, h3]
  cases loadModel (K := K) kind lab tra with
  | error e => rfl
  | ok M =>
    simp only [bind, Except.bind, Option.any_none, Bool.false_eq_true, if_false]
    cases RF.make w.ρ M il tl fl false with
    | error e => rfl
    | ok rf => rfl

/-- **C113, `switss rf` stores everything or nothing.** If its three output files can be opened, `rf` either stores the `.tra` file,
the `.lab` file and the mapping file of the reachability form, or it raises an exception and leaves the disk as it is. -/
theorem C113_rf (hπ : ∀ l, (w.π l).Perm l) (hπ' : ∀ l, (w.π' l).Perm l) (h1 : d (w.loc (path ++ ".lab")) = some lab)
    (h2 : d (w.loc (path ++ ".tra")) = some tra) (hx : ∀ M : Sys K, loadModel kind lab tra = .ok M → ExactRows M)
    {o : String} (ho : o = out.getD (path ++ "-rf")) (hw : ∀ e ∈ [".mapping.json", ".tra", ".lab"], w.canWrite (o ++ e) = true)
    (hd : w.loc (o ++ ".mapping.json") ≠ w.loc (o ++ ".tra") ∧ w.loc (o ++ ".mapping.json") ≠ w.loc (o ++ ".lab") ∧
      w.loc (o ++ ".tra") ≠ w.loc (o ++ ".lab")) :
    (∃ mp lab' tra', rfCmd (K := K) w.ρ w.π w.π' kind lab tra il tl ntl nfl = .ok (mp, lab', tra') ∧
      (run w (.rf kind path il tl ntl nfl out) d).outcome = .exit .done ∧
      (run w (.rf kind path il tl ntl nfl out) d).disk (w.loc (o ++ ".tra")) = some tra' ∧
      (run w (.rf kind path il tl ntl nfl out) d).disk (w.loc (o ++ ".lab")) = some lab' ∧
      (run w (.rf kind path il tl ntl nfl out) d).disk (w.loc (o ++ ".mapping.json")) = some (Json.dump w.fr (Json.mappingJson mp))) ∨
    ∃ e, rfCmd (K := K) w.ρ w.π w.π' kind lab tra il tl ntl nfl = .error e ∧
      run w (.rf kind path il tl ntl nfl out) d = ⟨d, [], .exit (.of e)⟩ := by
  subst ho
  simp only [List.mem_cons, List.not_mem_nil, or_false, forall_eq_or_imp, forall_eq] at hw
  obtain ⟨w1, w2, w3⟩ := hw
  cases hM : loadModel (K := K) kind lab tra with
  | error e =>
    refine Or.inr ⟨e, by simp only [rfCmd, hM, bind, Except.bind], run_stop ?_⟩
    simp only [plan, readModel_ok h1 h2, rfPlan, hM, Plan.err]
  | ok M =>
    cases hres : M.reduce w.ρ il tl ntl nfl with
    | error e =>
      refine Or.inr ⟨e, by simp only [rfCmd, hM, bind, Except.bind, hres], run_stop ?_⟩
      simp only [plan, readModel_ok h1 h2, rfPlan, hM, hres, Plan.err]
    | ok res =>
      obtain ⟨l, t, s1, s2⟩ := reduced_saves hπ hπ' hM (hx M hM) hres
      refine Or.inl ⟨_, l, t, (rfCmd_ok hM).2 ⟨res, hres, save_of s1 s2, rfl⟩, ?_⟩
      obtain ⟨d1, d2, d3⟩ := hd
      simp only [run, plan, readModel_ok h1 h2, rfPlan, hM, hres, saveWrites, s1, s2, exec, w1, w2, w3, if_true, Files.store]
      simp [d1, d2, d3]

/-- **C113, in place.** `rf` with the path of the model as output path replaces the model by its form; the same command once more
raises `AssertionError`, since the new labels are now in use, and changes nothing. -/
theorem C113_in_place (hπ : ∀ l, (w.π l).Perm l) (hπ' : ∀ l, (w.π' l).Perm l) (h1 : d (w.loc (path ++ ".lab")) = some lab)
    (h2 : d (w.loc (path ++ ".tra")) = some tra) {M : Sys K} (hM : loadModel kind lab tra = .ok M) (hx : ExactRows M) (ht : M.Total)
    (h6 : ∀ r t, ∃ n : Nat, M.P.get r t = n / 10 ^ 6) (hne : ntl ≠ nfl) (hc : CleanName ntl) (hc' : CleanName nfl)
    (hd : w.loc (path ++ ".mapping.json") ≠ w.loc (path ++ ".tra") ∧ w.loc (path ++ ".mapping.json") ≠ w.loc (path ++ ".lab") ∧
      w.loc (path ++ ".tra") ≠ w.loc (path ++ ".lab"))
    (hdone : (run w (.rf kind path il tl ntl nfl (some path)) d).outcome = .exit .done)
    (hw : ∀ e ∈ [".mapping.json", ".tra", ".lab"], w.canWrite (path ++ e) = true) :
    run w (.rf kind path il tl ntl nfl (some path)) (run w (.rf kind path il tl ntl nfl (some path)) d).disk =
      ⟨(run w (.rf kind path il tl ntl nfl (some path)) d).disk, [], .exit (.raised .assertion)⟩ := by
  have hof : ∀ e, Exit.of e ≠ .done := by intro e; cases e <;> simp [Exit.of]
  rcases C113_rf (il := il) (tl := tl) (ntl := ntl) (nfl := nfl) (out := some path) (o := path) hπ hπ' h1 h2
    (fun M' h' => by rw [hM] at h'; cases h'; exact hx) rfl hw hd with ⟨mp, lab', tra', a1, -, a3, a4, -⟩ | ⟨e, -, he⟩
  · obtain ⟨res, b1, b2, -⟩ := (rfCmd_ok hM).1 a1
    obtain ⟨M', rf', i, i', c1, c2, c3, -⟩ := rf_main (ρ' := w.ρ) hπ hπ' hM hx ht h6 hne hc hc' a1
    refine run_stop ?_
    have hk : ntl ∈ M'.labS.d.keys := by
      have hlive := rflive_built c2 c3
      obtain ⟨e, -, etl, -⟩ := make_fields c3
      have ht' := hlive.toRFOK.target
      rw [e, etl] at ht'
      have : M'.N - 2 ∈ M'.labelled ntl := by rw [ht']; rfl
      obtain ⟨ss, e1, e2⟩ := this
      by_contra hn
      unfold Sys.statesByLabel IDict.getItem at e1
      rw [Dict.get?_eq_none.2 hn] at e1
      simp only at e1
      split at e1
      · cases e1
        simp at e2
      · cases e1
    simp only [plan, readModel_ok a4 a3, rfPlan, c1]
    have : M'.reduce w.ρ il tl ntl nfl = .error .assertion := by
      unfold Sys.reduce
      rw [if_pos (Or.inl hk)]
      rfl
    rw [this]
    rfl
  · rw [he] at hdone
    exact absurd (Outcome.exit.inj hdone) (hof e)

/-- **C113, the pipeline.** `switss rf`, then any commands that do not write the files of the form or the certificates, then
`switss certify -tol 0` on the form: if it prints "VALID" for the `k`-th instance of the certificate file, the bound of that
instance holds for the model from which `rf` started. -/
theorem C113_pipeline (hπ : ∀ l, (w.π l).Perm l) (hπ' : ∀ l, (w.π' l).Perm l) (h1 : d (w.loc (path ++ ".lab")) = some lab)
    (h2 : d (w.loc (path ++ ".tra")) = some tra) {M : Sys K} (hM : loadModel kind lab tra = .ok M) (hx : ExactRows M) (ht : M.Total)
    (h6 : ∀ r t, ∃ n : Nat, M.P.get r t = n / 10 ^ 6) (hne : ntl ≠ nfl) (hc : CleanName ntl) (hc' : CleanName nfl)
    {o cert : String} (ho : o = out.getD (path ++ "-rf"))
    (hd : w.loc (o ++ ".mapping.json") ≠ w.loc (o ++ ".tra") ∧ w.loc (o ++ ".mapping.json") ≠ w.loc (o ++ ".lab") ∧
      w.loc (o ++ ".tra") ≠ w.loc (o ++ ".lab"))
    (hcert : ∀ e ∈ [".mapping.json", ".tra", ".lab"], w.loc (o ++ e) ≠ w.loc cert)
    (hw : ∀ e ∈ [".mapping.json", ".tra", ".lab"], w.canWrite (o ++ e) = true)
    (hdone : (run w (.rf kind path il tl ntl nfl out) d).outcome = .exit .done)
    {text : List Char} {v : Json.Value K} {f : CertFile K} (htext : d (w.loc cert) = some text) (hv : Json.Document w.rd v text)
    (hf : FileIs v f) {cs : List (Command K)}
    (hcs : ∀ c ∈ cs, ∀ p, Writes p c → w.loc p ≠ w.loc (o ++ ".lab") ∧ w.loc p ≠ w.loc (o ++ ".tra") ∧ w.loc p ≠ w.loc cert)
    (φ : K →+*o ℝ) {k : Nat}
    (hk : (run w (.certify kind o il ntl nfl (some cert) 0)
      (runAll w cs (run w (.rf kind path il tl ntl nfl out) d).disk)).verdicts[k]? = some true) {i : Nat} (hi : i ∈ M.labelled il) :
    ∃ c, f.instances[k]? = some c ∧
      (f.mode = some "min" ∧ φ c.threshold ≤ M.prMin φ (M.labelled tl) i ∨
       f.mode = some "max" ∧ ((∀ y ∈ c.certificate, 0 ≤ y) → φ c.threshold ≤ M.prMax φ (M.labelled tl) i)) := by
  have hof : ∀ e, Exit.of e ≠ .done := by intro e; cases e <;> simp [Exit.of]
  rcases C113_rf (il := il) (tl := tl) (ntl := ntl) (nfl := nfl) (out := out) hπ hπ' h1 h2
    (fun M' h' => by rw [hM] at h'; cases h'; exact hx) ho hw hd with ⟨mp, lab', tra', a1, -, a3, a4, -⟩ | ⟨e, -, he⟩
  · have a5 : (run w (.rf kind path il tl ntl nfl out) d).disk (w.loc cert) = some text := by
      rw [C113_frame (w := w) _ d ?_, htext]
      intro p hp
      simp only [Writes, ← ho] at hp
      rcases hp with rfl | rfl | rfl <;> exact hcert _ (by simp)
    rw [((C113_session cs _).2 (.certify kind o il ntl nfl (some cert) 0) ?_).1] at hk
    · refine C76_certified_sound_partial (ρ' := w.ρ) hπ hπ' hM hx ht h6 hne hc hc' a1 φ (f := f) (k := k) ?_ hi
      rw [← C111_certify hv hf]
      rw [← hk]
      rw [C113_certify a4 a3 a5]
    · intro c' hc' p q hp hq
      obtain ⟨b1, b2, b3⟩ := hcs c' hc' p hp
      rcases hq with rfl | rfl | e
      · exact b1
      · exact b2
      · cases e
        exact b3
  · rw [he] at hdone
    exact absurd (Outcome.exit.inj hdone) (hof e)

/-! ## the inputs -/

theorem append_ne {a b x y : String} (h : (x.toList.getLast?) ≠ y.toList.getLast?) (hx : x ≠ "") (hy : y ≠ "") : a ++ x ≠ b ++ y := by
  intro e
  have e := congrArg (fun s => s.toList.getLast?) e
  simp only [String.toList_append] at e
  rw [List.getLast?_append_of_ne_nil, List.getLast?_append_of_ne_nil] at e
  · exact h e
  · exact fun h => hy (String.toList_eq_nil_iff.1 h)
  · exact fun h => hx (String.toList_eq_nil_iff.1 h)

theorem append_left_ne {a b x : String} (h : a ≠ b) : a ++ x ≠ b ++ x := by
  intro e
  have e := congrArg String.toList e
  simp only [String.toList_append, List.append_cancel_right_eq] at e
  exact h (String.toList_inj.1 e)

/-- the arguments do not ask for the model to be overwritten -/
def SparesModel : Command K → Prop
  | .rf _ path _ _ _ _ out => out ≠ some path
  | .info _ _ => True
  | .minimize _ path _ _ _ _ _ _ cert _ => cert ≠ some (path ++ ".lab") ∧ cert ≠ some (path ++ ".tra")
  | .certify _ _ _ _ _ _ _ => True
  | .subsystem _ path _ _ _ _ _ out => ∀ o, out = some o → ∀ n : Nat, path ≠ o ++ "-" ++ toString n

theorem longer_ne {a b c : String} (h : b ≠ "") : a ≠ a ++ b ++ c := by
  intro e
  have e := congrArg (fun s => s.toList.length) e
  simp only [String.toList_append, List.length_append] at e
  have : b.toList ≠ [] := fun h' => h (String.toList_eq_nil_iff.1 h')
  have := List.length_pos_iff.2 this
  omega

/-- **C113, the model is kept.** If different paths name different files, a command leaves the two files of the model as they are
unless its arguments name them: `-o` the path of the model for `rf`, `-c` one of the two files for `minimize`, and for `subsystem`
an output path to which the path of the model adds a number.  In particular this holds with the default output paths. -/
theorem C113_inputs_kept (hloc : Function.Injective w.loc) (c : Command K) (hc : SparesModel c) (d : Disk F) :
    (run w c d).disk (w.loc (modelPath c ++ ".lab")) = d (w.loc (modelPath c ++ ".lab")) ∧
    (run w c d).disk (w.loc (modelPath c ++ ".tra")) = d (w.loc (modelPath c ++ ".tra")) := by
  suffices h : ∀ e ∈ [".lab", ".tra"], ∀ p, Writes p c → p ≠ modelPath c ++ e by
    exact ⟨C113_frame c d fun p hp e => h ".lab" (by simp) p hp (hloc e), C113_frame c d fun p hp e => h ".tra" (by simp) p hp (hloc e)⟩
  intro e he p hp
  have hn : e ≠ "" := by
    simp only [List.mem_cons, List.not_mem_nil, or_false] at he
    rcases he with rfl | rfl <;> decide
  have h1 : e.toList.getLast? ≠ some 'n' := by
    simp only [List.mem_cons, List.not_mem_nil, or_false] at he
    rcases he with rfl | rfl <;> decide
  -- paths with one of the two endings
  have h2 : ∀ a b, a ≠ b → ∀ e' ∈ [".lab", ".tra"], a ++ e' ≠ b ++ e := by
    intro a b hab e' he'
    simp only [List.mem_cons, List.not_mem_nil, or_false] at he he'
    rcases he with rfl | rfl <;> rcases he' with rfl | rfl
    · exact append_left_ne hab
    · exact append_ne (by decide) (by decide) (by decide)
    · exact append_ne (by decide) (by decide) (by decide)
    · exact append_left_ne hab
  cases c with
  | rf kind path il tl ntl nfl out =>
    have ho : out.getD (path ++ "-rf") ≠ path := by
      cases out with
      | none =>
        have := longer_ne (a := path) (b := "-rf") (c := "") (by decide)
        simp
      | some o => exact fun e => hc (by rw [← e]; rfl)
    rcases hp with rfl | rfl | rfl
    · exact append_ne (by intro e; exact h1 (by rw [← e]; decide)) (by decide) hn
    · exact h2 _ _ ho _ (by simp)
    · exact h2 _ _ ho _ (by simp)
  | info kind path => exact hp.elim
  | minimize kind path il tl fl method solve solveIt cert tol =>
    simp only [Writes] at hp
    subst hp
    cases cert with
    | none =>
      show path ++ ".certificates.json" ≠ _
      exact append_ne (by intro e; exact h1 (by rw [← e]; decide)) (by decide) hn
    | some q =>
      show q ≠ path ++ e
      rintro rfl
      simp only [List.mem_cons, List.not_mem_nil, or_false] at he
      rcases he with rfl | rfl
      · exact hc.1 rfl
      · exact hc.2 rfl
  | certify kind path il tl fl cert tol => exact hp.elim
  | subsystem kind path il tl fl label cert out =>
    obtain ⟨n, hp⟩ := hp
    have ho : out.getD (path ++ "-subsys") ++ "-" ++ toString n ≠ path := by
      cases out with
      | none =>
        have := longer_ne (a := path) (b := "-subsys") (c := "-" ++ toString n) (by decide)
        simp only [Option.getD_none]
        rw [String.append_assoc]
        exact this.symm
      | some o => exact (hc o rfl n).symm
    rcases hp with rfl | rfl
    · exact h2 _ _ ho _ (by simp)
    · exact h2 _ _ ho _ (by simp)

/-- **C113, `switss minimize` (false of the code, see C77).** Whatever the arguments: `minimize` changes no file, or it stores a
file without a certificate. -/
theorem C113_minimize_false {method solve solveIt : List (List Char)} {cert : Option String} {tol : K}
    (h1 : d (w.loc (path ++ ".lab")) = some lab) (h2 : d (w.loc (path ++ ".tra")) = some tra) :
    (run w (.minimize kind path il tl fl method solve solveIt cert tol) d).disk = d ∨
    ∃ (m : Method) (v : Json.Value K), (run w (.minimize kind path il tl fl method solve solveIt cert tol) d).disk =
      Files.store w d (cert.getD (path ++ ".certificates.json")) (Json.dump w.fr v) ∧
      v = .obj [("method", .obj (Json.methodJson m)), ("instances", .arr [])] := by
  cases h : Cli.minimize w.ρ w.env kind lab tra il tl fl method solve solveIt tol with
  | error e =>
    left
    rw [run_stop (o := .exit (.of e)) (by simp only [plan, readModel_ok h1 h2, h, Plan.err])]
  | ok r =>
    obtain ⟨m, f⟩ := r
    have hf := (minimize_inv h).1
    by_cases hw : w.canWrite (cert.getD (path ++ ".certificates.json")) = true
    · right
      refine ⟨m, _, ?_, rfl⟩
      simp only [run, plan, readModel_ok h1 h2, h, exec, hw, if_true, hf]
      rfl
    · left
      simp only [run, plan, readModel_ok h1 h2, h, exec, hw]
      rfl

/-- **C113, `switss subsystem` (false of the code, see C78).** Since systems cannot be copied, `subsystem` never changes a file. -/
theorem C113_subsystem_false (hcopy : w.copy = noCopy) {label : String} {cert : Option String} :
    (run w (.subsystem kind path il tl fl label cert out) d).disk = d := by
  have h : ∀ (rf : RF K) t, (Json.readFile w.rd t (subsystemModel w label rf)).1 = [] := by
    intro rf t
    have hstep : ∀ x, ∃ e, subsystemModel w label rf x = .error e := by
      intro x
      unfold subsystemModel
      cases modeOf x.1 with
      | none => exact ⟨_, rfl⟩
      | some mode =>
        cases hs : Subsystem.make rf x.2.certificate mode false with
        | error e => exact ⟨e, by simp only [hs, bind, Except.bind]⟩
        | ok ss => exact ⟨.typeError, by simp only [hs, bind, Except.bind, hcopy, noCopy]⟩
    have hloop : ∀ (info : Json.Value K) is, (Json.forEach (fun inst => Json.unpack info inst >>= subsystemModel w label rf) is).1 = [] := by
      intro info is
      cases is with
      | nil => rfl
      | cons i is =>
        rw [Json.forEach]
        cases hu : Json.unpack info i with
        | error e => rfl
        | ok x =>
          obtain ⟨e, he⟩ := hstep x
          simp only [bind, Except.bind, he]
    unfold Json.readFile
    split
    · rfl
    · split
      · rfl
      · split
        · rfl
        · exact hloop _ _
  have hplan : (plan w d (.subsystem kind path il tl fl label cert out)).writes = [] := by
    simp only [plan]
    split
    · rfl
    · split
      · rfl
      · split
        · rfl
        · simp only [h, List.flatMap_nil]
  simp only [run, hplan, exec]

/-- **C113, label collision.** If the new label of `subsystem` already occurs in the model, `subsystem` ends with a failed assertion
and changes nothing. -/
theorem C113_collision (h1 : d (w.loc (path ++ ".lab")) = some lab) (h2 : d (w.loc (path ++ ".tra")) = some tra) {M : Sys K}
    (hM : loadModel kind lab tra = .ok M) {label : String} {s : Nat} (hs : s ∈ M.labelled label) (cert : Option String) :
    run w (.subsystem kind path il tl fl label cert out) d = ⟨d, [], .exit (.raised .assertion)⟩ := by
  have hk : label ∈ M.labS.d.keys := by
    obtain ⟨ss, g1, g2⟩ := hs
    by_contra hn
    have : M.labS.d.get? label = none := by
      cases hg : M.labS.d.get? label with
      | none => rfl
      | some x => exact absurd (List.mem_map_of_mem (f := Prod.fst) (Dict.mem_of_get? hg)) hn
    unfold Sys.statesByLabel IDict.getItem at g1
    rw [this] at g1
    simp only at g1
    split at g1 <;> cases g1
    simp at g2
  refine run_stop ?_
  simp only [plan, readModel_ok h1 h2, prepare, hM, bind, Except.bind, Option.any_some, decide_eq_true_eq, if_pos hk]
  rfl

theorem instancePath_inj {o : String} {m n : Nat} (h : instancePath o m = instancePath o n) : m = n := by
  have e := congrArg String.toList h
  simp only [instancePath, String.toList_append, List.append_cancel_left_eq, String.toList_ofList] at e
  simpa only [Json.natOf_fmtD] using congrArg Json.natOf e

/-- the texts `x` are those of the system `y` -/
def Saved (w : World F K) (kind : Kind) (x : Nat × List Char × List Char) (y : Nat × Sys K) : Prop :=
  x.1 = y.1 ∧ saveTra kind y.2 = .ok x.2.2 ∧ y.2.saveLab w.π w.π' = .ok x.2.1

theorem forEach_saved {label : String} {rf : RF K} {info : Json.Value K} : ∀ (is : List (Json.Value K)) (fs : List (Nat × List Char × List Char)),
    Json.forEach (fun inst => Json.unpack info inst >>= fun x => subsystemStep w.copy w.π w.π' kind label rf (some x.1) x.2) is = (fs, .done) →
    ∃ ms, Json.forEach (fun inst => Json.unpack info inst >>= subsystemModel w label rf) is = (ms, .done) ∧ List.Forall₂ (Saved w kind) fs ms := by
  intro is
  induction is with
  | nil =>
    intro fs h
    rw [Json.forEach] at h
    cases h
    exact ⟨[], rfl, .nil⟩
  | cons i is ih =>
    intro fs h
    have hof : ∀ e, Exit.of e ≠ .done := by intro e; cases e <;> simp [Exit.of]
    rw [Json.forEach] at h
    cases hx : Json.unpack info i with
    | error e =>
      simp only [hx, bind, Except.bind, Prod.mk.injEq] at h
      exact absurd h.2 (hof e)
    | ok x =>
      simp only [hx, bind, Except.bind] at h
      cases hy : subsystemStep w.copy w.π w.π' kind label rf (some x.1) x.2 with
      | error e =>
        simp only [hy, Prod.mk.injEq] at h
        exact absurd h.2 (hof e)
      | ok y =>
        simp only [hy, Prod.mk.injEq] at h
        obtain ⟨rfl, h⟩ := h
        obtain ⟨ms, g1, g2⟩ := ih _ (Prod.ext rfl h)
        have hm : ∃ M, subsystemModel w label rf x = .ok (y.1, M) ∧ Saved w kind y (y.1, M) := by
          unfold subsystemStep at hy
          unfold subsystemModel
          simp only at hy
          cases hmo : modeOf x.1 with
          | none => rw [hmo] at hy; cases hy
          | some mode =>
            rw [hmo] at hy
            simp only [bind, Except.bind] at hy ⊢
            cases hss : Subsystem.make rf x.2.certificate mode false with
            | error e => rw [hss] at hy; cases hy
            | ok ss =>
              rw [hss] at hy
              simp only at hy ⊢
              cases hcp : w.copy rf.sys with
              | error e => rw [hcp] at hy; cases hy
              | ok M =>
                rw [hcp] at hy
                simp only at hy ⊢
                cases hma : ss.mask with
                | error e => rw [hma] at hy; cases hy
                | ok mask =>
                  rw [hma] at hy
                  simp only at hy ⊢
                  cases hsv : save kind w.π w.π' (addLabels w.π label M mask) with
                  | error e => rw [hsv] at hy; cases hy
                  | ok fl =>
                    rw [hsv] at hy
                    cases hy
                    refine ⟨_, rfl, rfl, ?_⟩
                    unfold save at hsv
                    cases kind <;>
                    · simp only [bind, Except.bind] at hsv
                      split at hsv
                      · cases hsv
                      · rename_i tra htra
                        split at hsv
                        · cases hsv
                        · rename_i lab hlab
                          cases hsv
                          exact ⟨htra, hlab⟩
        obtain ⟨M, hm1, hm2⟩ := hm
        refine ⟨(y.1, M) :: ms, ?_, .cons hm2 g2⟩
        rw [Json.forEach]
        simp only [hx, bind, Except.bind, hm1]
        simp only [bind, Except.bind] at g1
        rw [g1]

theorem exec_saved {o : Outcome} {b : String} (hw : ∀ n : Nat, w.canWrite (instancePath b n ++ ".tra") = true ∧ w.canWrite (instancePath b n ++ ".lab") = true) :
    ∀ (fs : List (Nat × List Char × List Char)) (ms : List (Nat × Sys K)), List.Forall₂ (Saved w kind) fs ms → ∀ d : Disk F,
      (exec w o (ms.flatMap fun x => saveWrites w kind (instancePath b x.1) x.2) d).2 = o ∧
      (Function.Injective w.loc → ∀ (k n : Nat) (lab' tra' : List Char), fs[k]? = some (n, lab', tra') → (∀ k' > k, ∀ x, fs[k']? = some x → x.1 ≠ n) →
        (exec w o (ms.flatMap fun x => saveWrites w kind (instancePath b x.1) x.2) d).1 (w.loc (instancePath b n ++ ".tra")) = some tra' ∧
        (exec w o (ms.flatMap fun x => saveWrites w kind (instancePath b x.1) x.2) d).1 (w.loc (instancePath b n ++ ".lab")) = some lab') := by
  intro fs ms h
  induction h with
  | nil => intro d; exact ⟨rfl, fun _ k n _ _ h => by simp at h⟩
  | cons hxy hrest ih =>
    rename_i x y fs ms
    intro d
    obtain ⟨e1, e2, e3⟩ := hxy
    have hstep : exec w o ((y :: ms).flatMap fun x => saveWrites w kind (instancePath b x.1) x.2) d =
        exec w o (ms.flatMap fun x => saveWrites w kind (instancePath b x.1) x.2)
          (store w (store w d (instancePath b y.1 ++ ".tra") x.2.2) (instancePath b y.1 ++ ".lab") x.2.1) := by
      rw [List.flatMap_cons, saveWrites]
      simp only [List.cons_append, List.nil_append]
      rw [exec.eq_def]
      simp only [(hw y.1).1, if_true, e2]
      rw [exec.eq_def]
      simp only [(hw y.1).2, if_true, e3]
    rw [hstep]
    obtain ⟨i1, i2⟩ := ih (store w (store w d (instancePath b y.1 ++ ".tra") x.2.2) (instancePath b y.1 ++ ".lab") x.2.1)
    refine ⟨i1, fun hloc k n lab' tra' hk hlast => ?_⟩
    cases k with
    | succ k =>
      exact i2 hloc k n lab' tra' (by simpa using hk) fun k' hk' x hx => hlast (k' + 1) (by omega) x (by simpa using hx)
    | zero =>
      simp only [List.getElem?_cons_zero, Option.some.injEq] at hk
      subst hk
      simp only at e1 e2 e3
      have hne : ∀ z ∈ ms, z.1 ≠ n := by
        intro z hz hzn
        obtain ⟨j, hj, rfl⟩ := List.mem_iff_getElem.1 hz
        have hjl : j < fs.length := by rw [hrest.length_eq]; exact hj
        have := hrest.get hjl hj
        simp only [List.get_eq_getElem] at this
        exact hlast (j + 1) (by omega) fs[j] (by simp [hjl]) (this.1.trans hzn)
      have hfr : ∀ ext, ext = ".tra" ∨ ext = ".lab" → ∀ v ∈ ms.flatMap fun x => saveWrites w kind (instancePath b x.1) x.2,
          w.loc v.1 ≠ w.loc (instancePath b n ++ ext) := by
        intro ext hext v hv he
        obtain ⟨z, hz, hv⟩ := List.mem_flatMap.1 hv
        have hp : instancePath b z.1 ≠ instancePath b n := fun g => hne z hz (instancePath_inj g)
        have he := hloc he
        simp only [saveWrites, List.mem_cons, List.not_mem_nil, or_false] at hv
        rcases hv with rfl | rfl <;> rcases hext with rfl | rfl
        · exact append_left_ne hp he
        · exact append_ne (by decide) (by decide) (by decide) he
        · exact append_ne (by decide) (by decide) (by decide) he
        · exact append_left_ne hp he
      have hne2 : w.loc (instancePath b n ++ ".tra") ≠ w.loc (instancePath b n ++ ".lab") := fun he =>
        append_ne (by decide) (by decide) (by decide) (hloc he)
      rw [exec_frame _ _ (hfr ".tra" (Or.inl rfl)), exec_frame _ _ (hfr ".lab" (Or.inr rfl)), ← e1]
      refine ⟨?_, ?_⟩
      · rw [Files.store, if_neg hne2, Files.store, if_pos rfl]
      · rw [Files.store, if_pos rfl]

/-- **C113, `switss subsystem`.** If the run described for the texts of the files (C78, C111) ends normally, and the output files can be
opened, the command ends normally.  If different paths name different files, the texts of each instance are in the files named after
its iteration, unless a later instance has the same iteration.  (Partial because systems cannot be copied, see
`C113_subsystem_false`.) -/
theorem C113_subsystem_partial (h1 : d (w.loc (path ++ ".lab")) = some lab) (h2 : d (w.loc (path ++ ".tra")) = some tra) {cert : String}
    {text : List Char} (h3 : d (w.loc cert) = some text) {label o : String} (ho : o = out.getD (path ++ "-subsys"))
    (hw : ∀ n : Nat, w.canWrite (o ++ "-" ++ toString n ++ ".tra") = true ∧ w.canWrite (o ++ "-" ++ toString n ++ ".lab") = true)
    {fs : List (Nat × List Char × List Char)}
    (hf : Json.subsystem w.rd w.copy w.ρ w.π w.π' kind lab tra il tl fl label (some text) = (fs, .done)) :
    (run w (.subsystem kind path il tl fl label (some cert) out) d).outcome = .exit .done ∧
    (Function.Injective w.loc → ∀ (k n : Nat) (lab' tra' : List Char), fs[k]? = some (n, lab', tra') →
      (∀ k' > k, ∀ x, fs[k']? = some x → x.1 ≠ n) →
      (run w (.subsystem kind path il tl fl label (some cert) out) d).disk (w.loc (o ++ "-" ++ toString n ++ ".tra")) = some tra' ∧
      (run w (.subsystem kind path il tl fl label (some cert) out) d).disk (w.loc (o ++ "-" ++ toString n ++ ".lab")) = some lab') := by
  have hof : ∀ e, Exit.of e ≠ .done := by intro e; cases e <;> simp [Exit.of]
  have hpath : ∀ n : Nat, o ++ "-" ++ toString n = instancePath o n := fun n => rfl
  simp only [hpath] at hw ⊢
  unfold Json.subsystem at hf
  cases hM : loadModel (K := K) kind lab tra with
  | error e =>
    simp only [hM, Prod.mk.injEq] at hf
    exact absurd hf.2 (hof e)
  | ok M =>
    simp only [hM] at hf
    split at hf
    · simp at hf
    rename_i hl
    cases hrf : RF.make w.ρ M il tl fl false with
    | error e =>
      simp only [hrf, Prod.mk.injEq] at hf
      exact absurd hf.2 (hof e)
    | ok rf =>
      simp only [hrf, Json.readFile] at hf
      have hread : ∃ ms, Json.readFile w.rd (some text) (subsystemModel w label rf) = (ms, .done) ∧ List.Forall₂ (Saved w kind) fs ms := by
        unfold Json.readFile
        simp only
        cases hv : Json.load w.rd text with
        | error e =>
          simp only [hv, Prod.mk.injEq] at hf
          exact absurd hf.2 (hof e)
        | ok info =>
          simp only [hv] at hf ⊢
          cases hi : info.get "instances" >>= Json.Value.iter with
          | error e =>
            simp only [hi, Prod.mk.injEq] at hf
            exact absurd hf.2 (hof e)
          | ok is =>
            simp only [hi] at hf ⊢
            exact forEach_saved is fs hf
      obtain ⟨ms, r1, r2⟩ := hread
      have hplan : plan w d (.subsystem kind path il tl fl label (some cert) out) =
          ⟨[], ms.flatMap fun x => saveWrites w kind (instancePath o x.1) x.2, .exit .done⟩ := by
        simp only [plan, readModel_ok h1 h2, prepare, hM, bind, Except.bind, Option.any_some, decide_eq_true_eq, if_neg hl, hrf,
          Option.map_some, h3, Option.join_some, r1, ho]
      unfold run
      rw [hplan]
      exact exec_saved hw fs ms r2 d

/-- **C113, interruption (false of the code).** A failed `rf` need not leave the disk as it is: if the `.lab` file of the form cannot
be opened, the mapping and the `.tra` file are already replaced.  With `-o` the path of the model, the transitions of the form
then stand beside the labels of the model. -/
theorem C113_interrupted_false (h1 : d (w.loc (path ++ ".lab")) = some lab)
    (h2 : d (w.loc (path ++ ".tra")) = some tra)
    {o : String} (ho : o = out.getD (path ++ "-rf")) (hw : w.canWrite (o ++ ".mapping.json") = true) (hw' : w.canWrite (o ++ ".tra") = true)
    (hw'' : w.canWrite (o ++ ".lab") = false) {mp : Mapping} {lab' tra' : List Char}
    (hok : rfCmd (K := K) w.ρ w.π w.π' kind lab tra il tl ntl nfl = .ok (mp, lab', tra')) :
    (run w (.rf kind path il tl ntl nfl out) d).outcome = .osError ∧
    (run w (.rf kind path il tl ntl nfl out) d).disk (w.loc (o ++ ".tra")) = some tra' ∧
    ∀ f, f ≠ w.loc (o ++ ".tra") → f ≠ w.loc (o ++ ".mapping.json") → (run w (.rf kind path il tl ntl nfl out) d).disk f = d f := by
  subst ho
  cases hM : loadModel (K := K) kind lab tra with
  | error e =>
    unfold rfCmd at hok
    rw [hM] at hok
    cases hok
  | ok M =>
    obtain ⟨res, hres, hs, rfl⟩ := (rfCmd_ok hM).1 hok
    have s1 : saveTra kind res.rf.sys = .ok tra' := by
      cases kind <;>
      · simp only [save] at hs
        obtain ⟨t, e1, hs⟩ := bind_ok hs
        obtain ⟨l, e2, hs⟩ := bind_ok hs
        cases hs
        exact e1
    simp only [run, plan, readModel_ok h1 h2, rfPlan, hM, hres, saveWrites, s1, exec, hw, hw', hw'', if_true, Files.store, Bool.false_eq_true,
      if_false, true_and]
    intro f f1 f2
    rw [if_neg f1, if_neg f2]

/-! ## examples -/

/-- every path names its own file; `locked` is the path of a file that cannot be written -/
def exWorld (locked : String) : World String ℚ where
  loc := id
  canWrite p := p != locked
  junk := []
  fr := Text.fmtF
  rd := id
  ρ := exRnd
  π := id
  π' := id
  copy := noCopy
  env := cliEnv [1/2, 1/2]

/-- a certificate file for the form of the model `rfLab`, `rfTra` -/
def rfCerts : List Char :=
  ("{\"method\": {\"mode\": \"max\"}, \"instances\": [{\"iteration\": 0, \"threshold\": 1, \"certificate\": [0, 4, 0, 1, 0]},\n" ++
   " {\"iteration\": 1, \"threshold\": 1, \"certificate\": [1, 0, 1, 0, 0]}]}").toList

def exDisk : Disk String := fun f =>
  if f = "m.lab" then some rfLab else if f = "m.tra" then some rfTra else if f = "c.json" then some rfCerts else none

/-- `switss rf mdp m -t goal -trf t -frf f` -/
def exRf (out : Option String) : Command ℚ := .rf .mdp "m" "init" "goal" "t" "f" out

/-- two commands in between: `minimize` fails, `info` writes nothing -/
def exOthers : List (Command ℚ) :=
  [.minimize .mdp "m-rf" "init" "t" "f" (cliWords ["QSHeur"]) (cliWords ["threshold=0.5", "mode=min"]) [] none 0, .info .mdp "m"]

def exCertify : Command ℚ := .certify .mdp "m-rf" "init" "t" "f" (some "c.json") 0

-- a session: `rf`, other commands, `certify`
example : (run (exWorld "") (exRf none) exDisk).outcome = .exit .done ∧
    (run (exWorld "") exCertify (runAll (exWorld "") exOthers (run (exWorld "") (exRf none) exDisk).disk)).verdicts = [true, false] ∧
    (run (exWorld "") exCertify exDisk).outcome = .osError := by
  decide +kernel

-- in place: the second run fails; with a locked `.lab` file the first run fails half way, and `certify` then runs on a mixture
example : (run (exWorld "") (exRf (some "m")) exDisk).outcome = .exit .done ∧
    (run (exWorld "") (exRf (some "m")) (run (exWorld "") (exRf (some "m")) exDisk).disk).outcome = .exit (.raised .assertion) ∧
    (run (exWorld "m.lab") (exRf (some "m")) exDisk).outcome = .osError ∧
    (run (exWorld "m.lab") (exRf (some "m")) exDisk).disk "m.tra" ≠ exDisk "m.tra" ∧
    (run (exWorld "m.lab") (exRf (some "m")) exDisk).disk "m.lab" = exDisk "m.lab" ∧
    (run (exWorld "m.lab") (.info .mdp "m") (run (exWorld "m.lab") (exRf (some "m")) exDisk).disk).outcome = .exit .done := by
  decide +kernel

-- `subsystem` if systems could be copied: one model for every certificate; a label that occurs already is refused
example :
    let w : World String ℚ := { exWorld "" with copy := .ok }
    let d := (run w (exRf none) exDisk).disk
    (run w (.subsystem .mdp "m-rf" "init" "t" "f" "sub" (some "c.json") none) d).outcome = .exit .done ∧
    ((Json.subsystem w.rd w.copy w.ρ w.π w.π' .mdp ((d "m-rf.lab").getD []) ((d "m-rf.tra").getD []) "init" "t" "f" "sub" (some rfCerts)).1.map
      Prod.fst, (Json.subsystem w.rd w.copy w.ρ w.π w.π' .mdp ((d "m-rf.lab").getD []) ((d "m-rf.tra").getD []) "init" "t" "f" "sub"
        (some rfCerts)).2) = ([0, 1], .done) ∧
    ((run w (.subsystem .mdp "m-rf" "init" "t" "f" "sub" (some "c.json") none) d).disk "m-rf-subsys-1.tra").isSome = true ∧
    (run w (.subsystem .mdp "m-rf" "init" "t" "f" "goal" (some "c.json") none) d).outcome = .exit (.raised .assertion) := by
  decide +kernel

theorem rfModel : ∃ M : Sys ℚ, loadModel .mdp rfLab rfTra = .ok M ∧ ExactRows M ∧ M.Total ∧ (∀ r t, ∃ n : Nat, M.P.get r t = n / 10 ^ 6) ∧
    0 ∈ M.labelled "init" := by
  obtain ⟨M, h1, h2⟩ := exists_of_ok_and (x := loadModel (K := ℚ) .mdp rfLab rfTra)
    (p := fun M => nineTest M.P && sixTest M.P && decide (M.N = 5) &&
      ((List.range 5).all fun s => M.idx.any fun e => decide (e.1.1 = s ∧ e.2 < M.C)) && decide (M.statesByLabel "init" = .ok [0])) (by decide +kernel)
  simp only [Bool.and_eq_true, decide_eq_true_eq] at h2
  obtain ⟨⟨⟨⟨h3, h4⟩, h5⟩, h6⟩, h7⟩ := h2
  refine ⟨M, h1, C75_nine_decimals h1 (nine_of_test h3), ?_, six_of_test h4, ⟨_, h7, by simp⟩⟩
  intro s hs
  rw [h5] at hs
  obtain ⟨⟨⟨s', a⟩, i⟩, g1, g⟩ := List.any_eq_true.1 (List.all_eq_true.1 h6 s (List.mem_range.2 hs))
  obtain ⟨rfl, g2⟩ := of_decide_eq_true g
  exact ⟨a, i, g1, g2⟩

-- what the session above proves about the model `rfLab`, `rfTra`
example (φ : ℚ →+*o ℝ) : ∃ M : Sys ℚ, loadModel .mdp rfLab rfTra = .ok M ∧ 1 ≤ M.prMax φ (M.labelled "goal") 0 := by
  obtain ⟨M, h1, h2, h3, h4, h5⟩ := rfModel
  refine ⟨M, h1, ?_⟩
  obtain ⟨v, g1, g2⟩ := exists_of_ok_and (x := Json.load (K := ℚ) id rfCerts) (p := fun v => sameValue v
    (.obj [("method", .obj [("mode", .str "max")]), ("instances", .arr [
      .obj [("iteration", .int 0), ("threshold", .int 1), ("certificate", .arr [.int 0, .int 4, .int 0, .int 1, .int 0])],
      .obj [("iteration", .int 1), ("threshold", .int 1), ("certificate", .arr [.int 1, .int 0, .int 1, .int 0, .int 0])]])])) (by decide +kernel)
  have g2 := sameValue_eq g2
  subst g2
  have num : ∀ i : Int, NumIs (K := ℚ) (.int i) (i : ℚ) := fun i => Or.inr ⟨i, rfl, rfl⟩
  have nums : ∀ l : List Int, List.Forall₂ (NumIs (K := ℚ)) (l.map .int) (l.map fun i => (i : ℚ)) := by
    intro l
    induction l with
    | nil => exact .nil
    | cons i l ih => exact .cons (num i) ih
  obtain ⟨c, c1, c2⟩ := C113_pipeline (w := exWorld "") (d := exDisk) (kind := .mdp) (path := "m") (il := "init") (tl := "goal") (ntl := "t")
    (nfl := "f") (out := none) (lab := rfLab) (tra := rfTra) (o := "m-rf") (cert := "c.json") (text := rfCerts) (cs := exOthers) (k := 0) (i := 0)
    (f := ⟨some "max", [⟨0, ((1 : Int) : ℚ), [0, 4, 0, 1, 0].map fun i : Int => (i : ℚ)⟩, ⟨1, ((1 : Int) : ℚ), [1, 0, 1, 0, 0].map fun i : Int => (i : ℚ)⟩]⟩)
    (fun l => .refl _) (fun l => .refl _) (by decide +kernel) (by decide +kernel) h1 h2 h3 h4 (by decide) (by unfold CleanName; decide)
    (by unfold CleanName; decide) (by decide +kernel) (by decide +kernel) (by decide +kernel) (by decide +kernel) (by decide +kernel) (by decide +kernel)
    (Json.load_iff.1 g1)
    ⟨_, _, _, rfl, rfl, rfl, rfl, .cons ⟨_, _, _, rfl, rfl, rfl, num 1, rfl, nums [0, 4, 0, 1, 0]⟩
      (.cons ⟨_, _, _, rfl, rfl, rfl, num 1, rfl, nums [1, 0, 1, 0, 0]⟩ .nil)⟩
    (by
      intro c hc p hp
      simp only [exOthers, List.mem_cons, List.not_mem_nil, or_false] at hc
      rcases hc with rfl | rfl
      · have : p = "m-rf" ++ ".certificates.json" := hp
        subst this
        decide +kernel
      · exact hp.elim) φ (by decide +kernel) h5
  cases c1
  rcases c2 with ⟨c2, -⟩ | ⟨-, c2⟩
  · exact absurd (Option.some.inj c2) (by decide)
  · have := c2 (by decide +kernel)
    simpa using this

end Verif.Props
