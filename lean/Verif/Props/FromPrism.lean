import Verif.Model.FromPrism
import Verif.Props.Prism
import Verif.Props.FromFile
/-!
# C117: models built from PRISM models
-/
set_option linter.unusedSectionVars false
namespace Verif.Props
open Verif.Model Verif.Model.FromPrism Verif.Model.Text Verif.Proofs.IOTra Verif.Proofs.IOLab
open Verif.Model.Prism (Call prismCall constStrings)
open Verif.Model.Files (Disk)
open Verif.Spec (Lines)

variable {K : Type} [Field K] [LinearOrder K] [IsStrictOrderedRing K] [FloorRing K]

/-- the program `prism`: for the `-const` arguments and the text of a model it exports a label file and a transition file, or it
exits with an error.  It changes no file but the exported ones. -/
structure IsPrism (run : Call → Disk String → Nat × Disk String) (exports : List String → List Char → Option (List Char × List Char)) :
    Prop where
  ok : ∀ tmp dest cs input d lab tra, d tmp = some input → exports cs input = some (lab, tra) →
    (run ⟨["prism", tmp] ++ cs ++ ["-exportmodel", dest ++ ".tra,sta,lab"], String.ofList input⟩ d).1 = 0 ∧
    (run ⟨["prism", tmp] ++ cs ++ ["-exportmodel", dest ++ ".tra,sta,lab"], String.ofList input⟩ d).2 (dest ++ ".lab") = some lab ∧
    (run ⟨["prism", tmp] ++ cs ++ ["-exportmodel", dest ++ ".tra,sta,lab"], String.ofList input⟩ d).2 (dest ++ ".tra") = some tra
  fails : ∀ tmp dest cs input d, d tmp = some input → exports cs input = none →
    (run ⟨["prism", tmp] ++ cs ++ ["-exportmodel", dest ++ ".tra,sta,lab"], String.ofList input⟩ d).1 ≠ 0
  frame : ∀ tmp dest cs input d p, p ≠ dest ++ ".tra" → p ≠ dest ++ ".sta" → p ≠ dest ++ ".lab" →
    (run ⟨["prism", tmp] ++ cs ++ ["-exportmodel", dest ++ ".tra,sta,lab"], input⟩ d).2 p = d p

/-- the names of temporary files are new: neither the file nor anything in the directory exists -/
structure Fresh (w : Machine) (d : Disk String) : Prop where
  file : d w.tmpFile = none
  dir : ∀ p, Below w.tmpDir p → d p = none
  apart : ¬ Below w.tmpDir w.tmpFile

theorem Fresh.ne {w : Machine} {d : Disk String} (h : Fresh w d) {p : String} {t : List Char} (hp : d p = some t) : p ≠ w.tmpFile := by
  rintro rfl; rw [h.file] at hp; cases hp

theorem below_dest (dir ext : String) : Below dir (dir ++ "/model" ++ ext) := by
  refine ⟨"model".toList ++ ext.toList, ?_⟩
  simp [String.toList_append]

/-- the call that is made if all names have two characters -/
theorem call_args {text : List Char} {tmp dest : String} {consts extra : Dict String String} {c : Call}
    (h : prismCall (String.ofList text) tmp dest consts extra = .ok c) :
    ∃ cs ls, constStrings consts = .ok cs ∧ Prism.labelLines extra = .ok ls ∧
      c = ⟨["prism", tmp] ++ cs ++ ["-exportmodel", dest ++ ".tra,sta,lab"], String.ofList (text ++ (String.join ls).toList)⟩ := by
  unfold prismCall at h
  cases h1 : constStrings consts with
  | error e => rw [h1] at h; cases h
  | ok cs =>
    cases h2 : Prism.labelLines extra with
    | error e => rw [h1, h2] at h; cases h
    | ok ls =>
      rw [h1, h2] at h
      refine ⟨cs, ls, rfl, rfl, ?_⟩
      simp only [bind, Except.bind, Except.ok.injEq] at h
      rw [← h]
      congr 1
      apply String.toList_injective
      simp

/-- what `prism_to_tra` leaves on the disk -/
theorem toTra_frame {w : Machine} {d : Disk String} (hf : Fresh w d) {ex} (hp : ∀ run, w.prism = some run → IsPrism run ex)
    (model : String) (consts extra : Dict String String) {p : String} (hb : ¬ Below w.tmpDir p) :
    (prismToTra w model (w.tmpDir ++ "/model") consts extra d).1 p = d p := by
  have key : ∀ t : List Char, remove (write d w.tmpFile t) w.tmpFile p = d p := by
    intro t
    unfold remove write
    split
    · rename_i h; rw [h, hf.file]
    · rfl
  unfold prismToTra
  cases h1 : constStrings consts with
  | error e => rfl
  | ok cs =>
    dsimp only
    cases h2 : write d w.tmpFile [] model with
    | none => exact key _
    | some text =>
      dsimp only
      cases h3 : prismCall (String.ofList text) w.tmpFile (w.tmpDir ++ "/model") consts extra with
      | error e => exact key _
      | ok c =>
        dsimp only
        cases h4 : w.prism with
        | none => exact key _
        | some run =>
          dsimp only
          obtain ⟨cs, ls, -, -, rfl⟩ := call_args h3
          unfold remove
          split
          · rename_i h; rw [h, hf.file]
          · rename_i h
            rw [(hp run h4).frame _ _ _ _ _ _ (by rintro rfl; exact hb (below_dest _ _)) (by rintro rfl; exact hb (below_dest _ _))
              (by rintro rfl; exact hb (below_dest _ _))]
            unfold write
            rw [if_neg h]

/-- **C117 (nothing is left behind).** Whatever the arguments are and however the call ends, all files are as before: the model
file is not changed, and no temporary file remains. -/
theorem C117_clean {w : Machine} {d : Disk String} (hf : Fresh w d) {ex} (hp : ∀ run, w.prism = some run → IsPrism run ex)
    (load : List Char → List Char → Except Err (Sys K)) (model : String) (consts extra : Dict String String) :
    (fromPrismModel load w model consts extra d).1 = d := by
  funext p
  unfold fromPrismModel removeDir
  dsimp only
  split
  · rename_i h; exact (hf.dir p h).symm
  · rename_i h; exact toTra_frame hf hp model consts extra h

/-- the call in the case that all names have two characters -/
theorem toTra_run {w : Machine} {d : Disk String} (hf : Fresh w d) {run} (hr : w.prism = some run) {model : String} {text : List Char}
    (hm : d model = some text) {consts extra : Dict String String} {cs ls : List String} (h1 : constStrings consts = .ok cs)
    (h2 : Prism.labelLines extra = .ok ls) (dest : String) :
    ∃ d1 : Disk String, d1 w.tmpFile = some (text ++ (String.join ls).toList) ∧
      prismToTra w model dest consts extra d =
        (remove (run ⟨["prism", w.tmpFile] ++ cs ++ ["-exportmodel", dest ++ ".tra,sta,lab"],
            String.ofList (text ++ (String.join ls).toList)⟩ d1).2 w.tmpFile,
          .ok (decide ((run ⟨["prism", w.tmpFile] ++ cs ++ ["-exportmodel", dest ++ ".tra,sta,lab"],
            String.ofList (text ++ (String.join ls).toList)⟩ d1).1 = 0))) := by
  refine ⟨write d w.tmpFile (text ++ (String.join ls).toList), by simp [write], ?_⟩
  have hw : write d w.tmpFile [] model = some text := by unfold write; rw [if_neg (hf.ne hm), hm]
  have hc : prismCall (String.ofList text) w.tmpFile dest consts extra =
      .ok ⟨["prism", w.tmpFile] ++ cs ++ ["-exportmodel", dest ++ ".tra,sta,lab"], String.ofList (text ++ (String.join ls).toList)⟩ := by
    unfold prismCall
    rw [h1, h2]
    simp only [bind, Except.bind]
    congr 2
    apply String.toList_injective
    simp
  unfold prismToTra
  rw [h1]
  dsimp only
  rw [hw]
  dsimp only
  rw [hc, hr]
  simp

/-- the result of `from_prism_model` -/
theorem fromPrism_eq {w : Machine} {d : Disk String} (hf : Fresh w d) {ex run} (hr : w.prism = some run) (hp : IsPrism run ex)
    (load : List Char → List Char → Except Err (Sys K)) {model : String} {text : List Char}
    (hm : d model = some text) {consts extra : Dict String String} {cs ls : List String} (h1 : constStrings consts = .ok cs)
    (h2 : Prism.labelLines extra = .ok ls) :
    (ex cs (text ++ (String.join ls).toList) = none →
      (fromPrismModel load w model consts extra d).2 = .error (.err .assertion)) ∧
    ∀ lab tra, ex cs (text ++ (String.join ls).toList) = some (lab, tra) →
      (fromPrismModel load w model consts extra d).2 = (load lab tra).mapError .err := by
  obtain ⟨d1, hd, e⟩ := toTra_run hf hr hm h1 h2 (w.tmpDir ++ "/model")
  constructor
  · intro he
    have := hp.fails w.tmpFile (w.tmpDir ++ "/model") cs _ d1 hd he
    unfold fromPrismModel
    dsimp only
    rw [e]
    dsimp only
    rw [decide_eq_false this]
  · intro lab tra he
    obtain ⟨g1, g2, g3⟩ := hp.ok w.tmpFile (w.tmpDir ++ "/model") cs _ d1 lab tra hd he
    have hne : ∀ ext, w.tmpDir ++ "/model" ++ ext ≠ w.tmpFile := fun ext h => hf.apart (h ▸ below_dest _ _)
    unfold fromPrismModel
    dsimp only
    rw [e]
    dsimp only
    rw [decide_eq_true g1]
    dsimp only
    unfold fromFile remove
    rw [if_neg (hne _), if_neg (hne _), g2, g3]
    dsimp only
    cases load lab tra <;> rfl

/-- **C117 (partial).** Without constants and additional labels, `from_prism_model` returns exactly what `from_file` returns for the
two files that prism exports for the text of the model file, and raises `AssertionError` if prism fails.  Missing: constants and
labels are never passed on as documented (`C117_raises`, `C117_constants_false`). -/
theorem C117_partial {w : Machine} {d : Disk String} (hf : Fresh w d) {ex run} (hr : w.prism = some run) (hp : IsPrism run ex)
    (load : List Char → List Char → Except Err (Sys K)) {model : String} {text : List Char} (hm : d model = some text) :
    (ex [] text = none → (fromPrismModel load w model [] [] d).2 = .error (.err .assertion)) ∧
    (∀ lab tra, ex [] text = some (lab, tra) → (fromPrismModel load w model [] [] d).2 = (load lab tra).mapError .err) ∧
    ∀ M, (fromPrismModel load w model [] [] d).2 = .ok M ↔ ∃ lab tra, ex [] text = some (lab, tra) ∧ load lab tra = .ok M := by
  have h := fromPrism_eq hf hr hp load hm (consts := []) (extra := []) (cs := []) (ls := []) rfl rfl
  simp only [String.join_nil, String.toList_empty, List.append_nil] at h
  refine ⟨h.1, h.2, fun M => ?_⟩
  cases he : ex [] text with
  | none => rw [h.1 he]; simp
  | some x =>
    obtain ⟨lab, tra⟩ := x
    rw [h.2 lab tra he]
    simp only [Option.some.injEq, Prod.mk.injEq]
    cases hl : load lab tra with
    | error e =>
      constructor
      · intro h; cases h
      · rintro ⟨_, _, ⟨rfl, rfl⟩, h⟩; rw [hl] at h; cases h
    | ok M' =>
      constructor
      · intro h; cases h; exact ⟨lab, tra, ⟨rfl, rfl⟩, hl⟩
      · rintro ⟨_, _, ⟨rfl, rfl⟩, h⟩; rw [hl] at h; cases h; rfl

/-- **C117 (MDPs).** The system that `MDP.from_prism_model` returns has the states, choices, probabilities and labels that the
lines of the exported files say. -/
theorem C117_mdp {w : Machine} {d : Disk String} (hf : Fresh w d) {ex run} (hr : w.prism = some run) (hp : IsPrism run ex)
    {model : String} {text : List Char} (hm : d model = some text) {M : Sys K}
    (h : (fromPrismModel Sys.fromFileMDP w model [] [] d).2 = .ok M) :
    ∃ lab tra, ex [] text = some (lab, tra) ∧
    ∃ xs ys hd ls n c ts, IsLabFile lab xs ys ∧ Lines tra (hd :: ls) ∧ IsHead hd n c ∧ List.Forall₂ (IsTra n) ls ts ∧
      M.N = n ∧ M.C = c ∧ M.rew = none ∧ M.dtmc = false ∧
      (∀ s a, (s, a) ∈ M.idx.map Prod.fst ↔ ∃ y ∈ ts, y.s = s ∧ y.a = a) ∧
      (∀ s a t v, LastLine ts s a t v → prob M s a t = (v : K)) ∧
      (∀ l s a, (l, (s, a)) ∈ pairs M.labA.d ↔ ∃ y ∈ ts, y.s = s ∧ y.a = a ∧ y.lab = some l) ∧
      (∀ l, l ∈ M.labS.d.map Prod.fst ↔ ∃ i, (i, l) ∈ xs) ∧
      (∀ l s, (l, s) ∈ pairs M.labS.d ↔ ∃ y ∈ ys, y.1 = s ∧ ∃ i ∈ y.2, Named xs i l) := by
  obtain ⟨lab, tra, h1, h2⟩ := ((C117_partial hf hr hp Sys.fromFileMDP hm).2.2 M).1 h
  exact ⟨lab, tra, h1, C83_mdp h2⟩

/-- **C117 (DTMCs).** The same for `DTMC.from_prism_model`. -/
theorem C117_dtmc {w : Machine} {d : Disk String} (hf : Fresh w d) {ex run} (hr : w.prism = some run) (hp : IsPrism run ex)
    {model : String} {text : List Char} (hm : d model = some text) {M : Sys K}
    (h : (fromPrismModel Sys.fromFileDTMC w model [] [] d).2 = .ok M) :
    ∃ lab tra, ex [] text = some (lab, tra) ∧
    ∃ xs ys ls zs n, IsLabFile lab xs ys ∧ Lines tra ls ∧ DLines 1 ls zs ∧ HasSize zs n ∧
      M.N = n ∧ M.C = n ∧ M.rew = none ∧ M.dtmc = true ∧
      (∀ s a, (s, a) ∈ M.idx.map Prod.fst ↔ s < n ∧ a = 0) ∧
      (∀ s t v, s < n → Entry zs s t v → prob M s 0 t = (v : K)) ∧
      (∀ l, l ∈ M.labS.d.map Prod.fst ↔ ∃ i, (i, l) ∈ xs) ∧
      (∀ l s, (l, s) ∈ pairs M.labS.d ↔ ∃ y ∈ ys, y.1 = s ∧ ∃ i ∈ y.2, Named xs i l) := by
  obtain ⟨lab, tra, h1, h2⟩ := ((C117_partial hf hr hp Sys.fromFileDTMC hm).2.2 M).1 h
  exact ⟨lab, tra, h1, C83_dtmc h2⟩

/-- **C117 (only the text of the model counts).** Two calls, with any names of temporary files and any other files, give the same
result if the model files have the same text. -/
theorem C117_depends {w w' : Machine} {d d' : Disk String} (hf : Fresh w d) (hf' : Fresh w' d') {ex run run'}
    (hr : w.prism = some run) (hp : IsPrism run ex) (hr' : w'.prism = some run') (hp' : IsPrism run' ex)
    (load : List Char → List Char → Except Err (Sys K)) {model model' : String} {text : List Char}
    (hm : d model = some text) (hm' : d' model' = some text) (consts extra : Dict String String) :
    (fromPrismModel load w model consts extra d).2 = (fromPrismModel load w' model' consts extra d').2 := by
  have bad : ∀ {w : Machine} {d : Disk String} {model : String}, Fresh w d → d model = some text →
      ((∃ e, constStrings consts = .error e ∧ (fromPrismModel load w model consts extra d).2 = .error (.err e)) ∨
       (∃ e, (∃ cs, constStrings consts = .ok cs) ∧ Prism.labelLines extra = .error e ∧
          (fromPrismModel load w model consts extra d).2 = .error (.err e)) ∨
       ((∃ cs, constStrings consts = .ok cs) ∧ ∃ ls, Prism.labelLines extra = .ok ls)) := by
    intro w d model hf hm
    have hw : write d w.tmpFile [] model = some text := by unfold write; rw [if_neg (hf.ne hm), hm]
    cases h1 : constStrings consts with
    | error e => exact .inl ⟨e, rfl, by unfold fromPrismModel prismToTra; rw [h1]⟩
    | ok cs =>
      cases h2 : Prism.labelLines extra with
      | error e =>
        refine .inr (.inl ⟨e, ⟨cs, rfl⟩, rfl, ?_⟩)
        unfold fromPrismModel prismToTra prismCall
        rw [h1]
        dsimp only
        rw [hw]
        dsimp only
        rw [h2]
        rfl
      | ok ls => exact .inr (.inr ⟨⟨cs, rfl⟩, ls, rfl⟩)
  rcases bad hf hm with ⟨e, a, b⟩ | ⟨e, ⟨cs, a⟩, a', b⟩ | ⟨⟨cs, a⟩, ls, b⟩
  · rcases bad hf' hm' with ⟨e', a2, b2⟩ | ⟨e', ⟨cs', a2⟩, -⟩ | ⟨⟨cs', a2⟩, -⟩
    · rw [a] at a2; cases a2; rw [b, b2]
    · rw [a] at a2; cases a2
    · rw [a] at a2; cases a2
  · rcases bad hf' hm' with ⟨e', a2, b2⟩ | ⟨e', -, a2, b2⟩ | ⟨-, ls', a2⟩
    · rw [a] at a2; cases a2
    · rw [a'] at a2; cases a2; rw [b, b2]
    · rw [a'] at a2; cases a2
  · have e1 := fromPrism_eq hf hr hp load hm a b
    have e2 := fromPrism_eq hf' hr' hp' load hm' a b
    cases he : ex cs (text ++ (String.join ls).toList) with
    | none => rw [e1.1 he, e2.1 he]
    | some x => rw [e1.2 _ _ he, e2.2 _ _ he]

/-- **C117 (failures before prism is called).** A constant or label whose name does not have two characters gives `ValueError`,
whatever prism would do; a model file that does not exist or a missing program gives an `OSError`. -/
theorem C117_raises {w : Machine} {d : Disk String} (hf : Fresh w d) (load : List Char → List Char → Except Err (Sys K))
    (model : String) (consts extra : Dict String String) :
    ((∃ text, d model = some text) → (∃ k ∈ consts.map Prod.fst ++ extra.map Prod.fst, k.length ≠ 2) →
      (fromPrismModel load w model consts extra d).2 = .error (.err .valueError)) ∧
    (d model = none → model ≠ w.tmpFile → (∀ k ∈ consts.map Prod.fst, k.length = 2) →
      (fromPrismModel load w model consts extra d).2 = .error .osError) ∧
    (w.prism = none → (∃ text, d model = some text) → (∀ k ∈ consts.map Prod.fst ++ extra.map Prod.fst, k.length = 2) →
      (fromPrismModel load w model consts extra d).2 = .error .osError) := by
  have two : (∀ k ∈ consts.map Prod.fst, k.length = 2) → ∃ cs, constStrings consts = .ok cs := by
    intro hc
    have := C54_call "" "" "" consts [] hc (by simp)
    unfold prismCall at this
    cases h : constStrings consts with
    | ok cs => exact ⟨cs, rfl⟩
    | error e => rw [h] at this; cases this
  refine ⟨?_, ?_, ?_⟩
  · rintro ⟨text, hm⟩ hk
    have hw : write d w.tmpFile [] model = some text := by unfold write; rw [if_neg (hf.ne hm), hm]
    have hc := (C54_raises (String.ofList text) w.tmpFile (w.tmpDir ++ "/model") consts extra).1.2 hk
    unfold fromPrismModel prismToTra
    cases h1 : constStrings consts with
    | error e =>
      unfold prismCall at hc
      rw [h1] at hc
      cases hc
      rfl
    | ok cs =>
      dsimp only
      rw [hw]
      dsimp only
      rw [hc]
  · intro hm hne hc
    obtain ⟨cs, h1⟩ := two hc
    have hw : write d w.tmpFile [] model = none := by unfold write; rw [if_neg hne, hm]
    unfold fromPrismModel prismToTra
    rw [h1]
    dsimp only
    rw [hw]
  · rintro hn ⟨text, hm⟩ hk
    obtain ⟨cs, h1⟩ := two fun k h => hk k (List.mem_append_left _ h)
    have hw : write d w.tmpFile [] model = some text := by unfold write; rw [if_neg (hf.ne hm), hm]
    have hc := C54_call (String.ofList text) w.tmpFile (w.tmpDir ++ "/model") consts extra
      (fun k h => hk k (List.mem_append_left _ h)) (fun k h => hk k (List.mem_append_right _ h))
    unfold fromPrismModel prismToTra
    rw [h1]
    dsimp only
    rw [hw]
    dsimp only
    rw [hc, hn]

/-! ### a prism that knows one model -/

/-- exports a chain with one state for the text `m`, only if the constant `N` is 2 or no constant is given -/
def prExports (cs : List String) (text : List Char) : Option (List Char × List Char) :=
  if text = "m".toList ∧ (cs = [] ∨ cs = ["-const", "N=2"]) then some ("0=\"init\"\n0: 0\n".toList, "1 1\n0 0 1\n".toList) else none

def prRun (c : Call) (d : Disk String) : Nat × Disk String :=
  match c.args with
  | _ :: tmp :: rest =>
    match d tmp, rest.reverse with
    | some text, out :: _ :: cs =>
      let dest := String.ofList (out.toList.take (out.toList.length - 12))
      match prExports cs.reverse text with
      | some (lab, tra) => (0, write (write d (dest ++ ".lab") lab) (dest ++ ".tra") tra)
      | none => (1, d)
    | _, _ => (1, d)
  | _ => (1, d)

theorem prRun_eq (tmp dest : String) (cs : List String) (input : String) (d : Disk String) :
    prRun ⟨["prism", tmp] ++ cs ++ ["-exportmodel", dest ++ ".tra,sta,lab"], input⟩ d =
      match d tmp with
      | none => (1, d)
      | some text =>
        match prExports cs text with
        | some (lab, tra) => (0, write (write d (dest ++ ".lab") lab) (dest ++ ".tra") tra)
        | none => (1, d) := by
  unfold prRun
  simp only [List.cons_append, List.nil_append, List.reverse_append, List.reverse_cons, List.reverse_nil]
  have hd : String.ofList ((dest ++ ".tra,sta,lab").toList.take ((dest ++ ".tra,sta,lab").toList.length - 12)) = dest := by
    rw [String.toList_append]
    have : ".tra,sta,lab".toList.length = 12 := by decide +kernel
    rw [List.length_append, this, Nat.add_sub_cancel, List.take_left']
    · exact String.ofList_toList
    · rfl
  cases d tmp with
  | none => rfl
  | some text =>
    dsimp only
    rw [hd, List.reverse_reverse]

theorem ext_ne {dest a b : String} (h : a ≠ b) : dest ++ a ≠ dest ++ b := by
  intro e
  apply h
  apply String.toList_injective
  have := congrArg String.toList e
  simpa [String.toList_append] using this

theorem prRun_prism : IsPrism prRun prExports := by
  refine ⟨?_, ?_, ?_⟩
  · intro tmp dest cs input d lab tra h1 h2
    rw [prRun_eq, h1]
    dsimp only
    rw [h2]
    refine ⟨rfl, ?_, ?_⟩
    · simp [write, ext_ne (dest := dest) (show ".lab" ≠ ".tra" by decide +kernel)]
    · simp [write]
  · intro tmp dest cs input d h1 h2
    rw [prRun_eq, h1]
    dsimp only
    rw [h2]
    exact Nat.one_ne_zero
  · intro tmp dest cs input d p h1 h2 h3
    rw [prRun_eq]
    cases d tmp with
    | none => rfl
    | some text =>
      dsimp only
      cases prExports cs text with
      | none => rfl
      | some x => simp [write, h1, h3]

def prMachine : Machine := ⟨"/tmp/f", "/tmp/d", some prRun⟩

def prFiles : Disk String := fun p => if p = "model.pm" then some "m".toList else none

theorem prFresh : Fresh prMachine prFiles := by
  refine ⟨by decide +kernel, fun p hp => ?_, by decide +kernel⟩
  unfold prFiles
  rw [if_neg]
  rintro rfl
  revert hp
  decide +kernel

/-- **C117 is false** for constants: prism exports a model for `N=2`, and `from_prism_model(…, prism_constants={'N': 2})` raises
`ValueError`; constants whose names have two characters are replaced by others without notice. -/
theorem C117_constants_false :
    (∃ (w : Machine) (d : Disk String) (ex : List String → List Char → Option (List Char × List Char)) (run : _) (text : List Char),
      Fresh w d ∧ w.prism = some run ∧ IsPrism run ex ∧ d "model.pm" = some text ∧ (ex ["-const", "N=2"] text).isSome = true ∧
      (fromPrismModel (K := ℚ) Sys.fromFileDTMC w "model.pm" [("N", "2")] [] d).2 = .error (.err .valueError)) ∧
    constStrings [("NM", "2")] = .ok ["-const", "N=M"] :=
  ⟨⟨prMachine, prFiles, prExports, prRun, "m".toList, prFresh, rfl, prRun_prism, by decide +kernel, by decide +kernel,
    (C117_raises prFresh _ _ _ _).1 ⟨"m".toList, by decide +kernel⟩ ⟨"N", by simp, by decide +kernel⟩⟩, by decide +kernel⟩

-- without constants the model is returned; prism refuses another text
example :
    (fromPrismModel (K := ℚ) Sys.fromFileDTMC prMachine "model.pm" [] [] prFiles).2.toOption.map (fun M => (M.N, M.labS.d)) =
      some (1, [("init", [0])]) ∧
    (fromPrismModel (K := ℚ) Sys.fromFileDTMC prMachine "model.pm" [] [] (write prFiles "model.pm" "x".toList)).2.toOption.isSome =
      false := by
  decide +kernel

end Verif.Props
