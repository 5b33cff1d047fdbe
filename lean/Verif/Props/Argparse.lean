import Verif.Proofs.Argparse
import Verif.Props.Files
/-!
# C114: the command line of `bin/switss`
-/
set_option linter.unusedSectionVars false

namespace Verif.Props
open Verif.Model Verif.Model.Cli Verif.Model.Argparse Verif.Model.Files Verif.Proofs.Argparse

/-! ## what the documentation says -/

/-- the names of the commands -/
def docName : Cmd → Word
  | .rf => "rf".toList
  | .info => "info".toList
  | .minimize => "minimize".toList
  | .certify => "certify".toList
  | .subsystem => "subsystem".toList
  | .render => "render".toList

/-- the options of a command (README, `--help`): short and long spelling, number of arguments -/
def docOpts : Cmd → List (String × String × Nargs)
  | .rf => [("-h", "--help", .zero), ("-i", "--initial-label", .one), ("-trf", "--target-label-rf", .one),
      ("-frf", "--fail-label-rf", .one), ("-t", "--target-label", .one), ("-o", "--output", .one)]
  | .info => [("-h", "--help", .zero)]
  | .minimize => [("-h", "--help", .zero), ("-i", "--initial-label", .one), ("-trf", "--target-label-rf", .one),
      ("-frf", "--fail-label-rf", .one), ("-c", "--certificate", .one), ("-m", "--method", .plus), ("-s", "--solve", .plus),
      ("-si", "--solve-iter", .plus), ("-tol", "--tolerance", .one)]
  | .certify => [("-h", "--help", .zero), ("-i", "--initial-label", .one), ("-trf", "--target-label-rf", .one),
      ("-frf", "--fail-label-rf", .one), ("-c", "--certificate", .one), ("-tol", "--tolerance", .one)]
  | .subsystem => [("-h", "--help", .zero), ("-i", "--initial-label", .one), ("-trf", "--target-label-rf", .one),
      ("-frf", "--fail-label-rf", .one), ("-c", "--certificate", .one), ("-o", "--output", .one), ("-sl", "--subsys-label", .one)]
  | .render => [("-h", "--help", .zero), ("-o", "--output", .one), ("-vi", "--view", .zero), ("-col", "--coloring", .one)]

/-- all spellings -/
def docNames (c : Cmd) : List Word := (docOpts c).flatMap fun x => [x.1.toList, x.2.1.toList]

/-- the number of arguments of an option -/
def docArity (c : Cmd) (n : Word) : Option Nargs :=
  ((docOpts c).find? fun x => n = x.1.toList || n = x.2.1.toList).map fun x => x.2.2

/-- the arguments given to the option with these spellings -/
def givesOpt (short long : String) : Item → Option (List Word)
  | .pos _ => none
  | .sep _ n vs => if n = short.toList ∨ n = long.toList then some vs else none
  | .eq _ n v => if n = short.toList ∨ n = long.toList then some [v] else none
  | .glued n v => if n = short.toList ∨ n = long.toList then some [v] else none

/-- the arguments of an option: if it is given several times, the last time counts -/
def given (items : List Item) (short long : String) : Option (List Word) := (items.filterMap (givesOpt short long)).getLast?

/-- the positional arguments -/
def positions (items : List Item) : List Word := items.filterMap fun i =>
  match i with
  | .pos w => some w
  | _ => none

/-- the words of a command line after the name of the command -/
def lineOf (items : List Item) : List Word := items.flatMap Item.words

/-- a command line of positional arguments and options that exist, each with the right number of arguments, in any order and
spelling, in which no option with any number of arguments stands immediately before a positional argument.  `--help` and the
numbers `inf` and `nan` are left out. -/
structure Line (c : Cmd) (items : List Item) : Prop where
  fits : ∀ i ∈ items, i.Fits (docNames c) (docArity c)
  apart : Apart (docArity c) items
  noHelp : items.filterMap (givesOpt "-h" "--help") = []
  finite : ∀ vs ∈ items.filterMap (givesOpt "-tol" "--tolerance"), ∀ v ∈ vs, Text.pyFloat v ≠ .error .outside

/-- the word for the type of a model -/
def kindWord : Kind → Word
  | .mdp => "mdp".toList
  | .dtmc => "dtmc".toList

/-- two positional arguments, of which the first is the type of the model; every tolerance is a number -/
def CompleteArg (items : List Item) (kind : Kind) (path : Word) : Prop :=
  positions items = [kindWord kind, path] ∧
  ∀ vs ∈ items.filterMap (givesOpt "-tol" "--tolerance"), ∀ v ∈ vs, ∃ q, Text.pyFloat v = .ok q

/-- the argument of an option with one argument, or its default value -/
def theOne (items : List Item) (short long dflt : String) : String :=
  match given items short long with
  | some [w] => String.ofList w
  | _ => dflt

/-- the argument of an option with one argument and without a default value -/
def theOne? (items : List Item) (short long : String) : Option String :=
  match given items short long with
  | some [w] => some (String.ofList w)
  | _ => none

/-- the arguments of an option with any number of arguments -/
def theList (items : List Item) (short long : String) : List Word := (given items short long).getD []

/-- the tolerance, by default `1e-5` -/
def theTol {K : Type} (rd : ℚ → K) (items : List Item) : K :=
  match given items "-tol" "--tolerance" with
  | some [w] =>
    match Text.pyFloat w with
    | .ok q => rd q
    | .error _ => rd 0
  | _ => rd (1 / 100000)

/-- what a command line asks for -/
def asked {K : Type} (rd : ℚ → K) (c : Cmd) (items : List Item) (kind : Kind) (path : Word) : Option (Command K) :=
  let p := String.ofList path
  let il := theOne items "-i" "--initial-label" "init"
  let tl := theOne items "-trf" "--target-label-rf" "rf_target"
  let fl := theOne items "-frf" "--fail-label-rf" "rf_fail"
  match c with
  | .rf => some (.rf kind p il (theOne items "-t" "--target-label" "target") tl fl (theOne? items "-o" "--output"))
  | .info => some (.info kind p)
  | .minimize => some (.minimize kind p il tl fl (theList items "-m" "--method") (theList items "-s" "--solve")
      (theList items "-si" "--solve-iter") (theOne? items "-c" "--certificate") (theTol rd items))
  | .certify => some (.certify kind p il tl fl (theOne? items "-c" "--certificate") (theTol rd items))
  | .subsystem => some (.subsystem kind p il tl fl (theOne items "-sl" "--subsys-label" "subsystem")
      (theOne? items "-c" "--certificate") (theOne? items "-o" "--output"))
  | .render => none

/-! ## the parsers are the documented ones -/

theorem goodB (p : Parser) (h : ((p.strings.map Prod.fst).Nodup ∧ (∀ x ∈ p.strings, x.1[0]? = some '-' ∧ 2 ≤ x.1.length) ∧
    (∀ x ∈ p.strings, '=' ∉ x.1) ∧ (∀ x ∈ p.strings, x.1 ≠ ['-', '-']) ∧
    ∀ x ∈ p.strings, (x.1[1]?.all fun c => c.isAlpha || decide (c = '-')) = true)) : Good p :=
  ⟨h.1, h.2.1, h.2.2.1, h.2.2.2.1, fun x hx c hc => by
    have := h.2.2.2.2 x hx
    rw [hc] at this
    simpa using this⟩

theorem parser_good (c : Cmd) : Good c.parser := by
  refine goodB _ ?_
  cases c <;> decide +kernel

theorem name_doc (c : Cmd) : c.name = docName c := by cases c <;> rfl

theorem parser_names (c : Cmd) : names c.parser = docNames c := by cases c <;> decide +kernel

theorem find?_flat {α : Type} (l : List (String × String × α)) (n : Word) :
    Dict.get? (l.flatMap fun x => [(x.1.toList, x.2.2), (x.2.1.toList, x.2.2)]) n =
      (l.find? fun x => n = x.1.toList || n = x.2.1.toList).map fun x => x.2.2 := by
  induction l with
  | nil => rfl
  | cons x l ih =>
    rw [List.flatMap_cons, List.find?_cons]
    simp only [List.cons_append, List.nil_append, Dict.get?]
    by_cases h1 : x.1.toList = n
    · rw [if_pos h1, ← h1]; simp
    · rw [if_neg h1]
      by_cases h2 : x.2.1.toList = n
      · rw [if_pos h2, ← h2]; simp
      · rw [if_neg h2, ih]
        have e1 : ¬ n = x.1.toList := fun e => h1 e.symm
        have e2 : ¬ n = x.2.1.toList := fun e => h2 e.symm
        simp [e1, e2]

theorem get?_map {α β : Type} (f : α → β) (d : Dict Word α) (n : Word) :
    Dict.get? (d.map fun x => (x.1, f x.2)) n = (Dict.get? d n).map f := by
  induction d with
  | nil => rfl
  | cons x d ih =>
    obtain ⟨k, v⟩ := x
    rw [List.map_cons, Dict.get?, Dict.get?]
    by_cases h : k = n
    · rw [if_pos h, if_pos h]; rfl
    · rw [if_neg h, if_neg h, ih]

theorem parser_arity (c : Cmd) (n : Word) : arity c.parser n = docArity c n := by
  rw [docArity, ← find?_flat, arity, Parser.find, ← get?_map]
  congr 1
  cases c <;> decide +kernel

/-- the attribute of every option -/
def docDests : List (String × String × String) :=
  [("help", "-h", "--help"), ("initial_label", "-i", "--initial-label"), ("target_label_rf", "-trf", "--target-label-rf"),
   ("fail_label_rf", "-frf", "--fail-label-rf"), ("target_label", "-t", "--target-label"), ("output", "-o", "--output"),
   ("certificate", "-c", "--certificate"), ("method", "-m", "--method"), ("solve", "-s", "--solve"),
   ("solve_iter", "-si", "--solve-iter"), ("tolerance", "-tol", "--tolerance"), ("subsys_label", "-sl", "--subsys-label"),
   ("view", "-vi", "--view"), ("coloring", "-col", "--coloring")]

theorem parser_dests (c : Cmd) : ∀ x ∈ c.parser.strings, (∀ y ∈ docDests, x.2.dest = y.1 ↔ x.1 = y.2.1.toList ∨ x.1 = y.2.2.toList) ∧
    x.2.dest ≠ "modeltype" ∧ x.2.dest ≠ "modelpath" := by
  cases c <;> decide +kernel

/-! ## the meaning of a line -/

/-- the attributes that are set, in order -/
def events (p : Parser) : List Item → List String → List (String × List Word)
  | [], _ => []
  | .pos _ :: r, [] => events p r []
  | .pos w :: r, d :: ds => (d, [w]) :: events p r ds
  | .sep _ n vs :: r, ds => ((p.find n).map Opt.dest |>.getD "", vs) :: events p r ds
  | .eq _ n v :: r, ds => ((p.find n).map Opt.dest |>.getD "", [v]) :: events p r ds
  | .glued n v :: r, ds => ((p.find n).map Opt.dest |>.getD "", [v]) :: events p r ds

theorem forM_cases {d : String} {vs : List Word} (h : ∀ v ∈ vs, convert d v = .ok () ∨ convert d v = .error .usage) :
    ((∀ v ∈ vs, convert d v = .ok ()) ∧ vs.forM (convert d) = .ok ()) ∨
    ((∃ v ∈ vs, convert d v ≠ .ok ()) ∧ vs.forM (convert d) = .error .usage) := by
  induction vs with
  | nil => exact .inl ⟨fun _ h => absurd h (List.not_mem_nil), rfl⟩
  | cons v vs ih =>
    have e : (v :: vs).forM (convert d) = (convert d v).bind fun _ => vs.forM (convert d) := rfl
    rcases h v List.mem_cons_self with h1 | h1
    · rw [e, h1]
      rcases ih fun u hu => h u (List.mem_cons_of_mem _ hu) with ⟨a, b⟩ | ⟨⟨u, hu, hn⟩, b⟩
      · refine .inl ⟨fun u hu => ?_, b⟩
        rcases List.mem_cons.1 hu with rfl | hu
        · exact h1
        · exact a u hu
      · exact .inr ⟨⟨u, List.mem_cons_of_mem _ hu, hn⟩, b⟩
    · rw [e, h1]
      exact .inr ⟨⟨v, List.mem_cons_self, by rw [h1]; exact nofun⟩, rfl⟩

/-- the options exist and are not `--help` -/
def Known (p : Parser) (i : Item) : Prop :=
  match i with
  | .pos _ => True
  | .sep _ n _ => ∃ o, p.find n = some o ∧ o.dest ≠ "help"
  | .eq _ n _ => ∃ o, p.find n = some o ∧ o.dest ≠ "help"
  | .glued n _ => ∃ o, p.find n = some o ∧ o.dest ≠ "help"

theorem take_cases {ns : NS} {o : Opt} {vs : List Word} (ho : o.dest ≠ "help")
    (h : ∀ v ∈ vs, convert o.dest v = .ok () ∨ convert o.dest v = .error .usage) :
    ((∀ v ∈ vs, convert o.dest v = .ok ()) ∧ take ns o vs = .ok (ns.set o.dest vs)) ∨
    ((∃ v ∈ vs, convert o.dest v ≠ .ok ()) ∧ take ns o vs = .error .usage) := by
  rw [take, if_neg ho]
  rcases forM_cases h with ⟨a, b⟩ | ⟨a, b⟩
  · rw [b]; exact .inl ⟨a, rfl⟩
  · rw [b]; exact .inr ⟨a, rfl⟩

theorem runItems_eq {p : Parser} {items : List Item} (hk : ∀ i ∈ items, Known p i) : ∀ {ds : List String} {ns : NS} {ex : Bool},
    (∀ e ∈ events p items ds, ∀ v ∈ e.2, convert e.1 v = .ok () ∨ convert e.1 v = .error .usage) →
    ((∀ e ∈ events p items ds, ∀ v ∈ e.2, convert e.1 v = .ok ()) ∧
      runItems p items ds ns ex = .ok (ds.drop (positions items).length,
        (events p items ds).foldl (fun ns e => ns.set e.1 e.2) ns, ex || decide (ds.length < (positions items).length))) ∨
    ((∃ e ∈ events p items ds, ∃ v ∈ e.2, convert e.1 v ≠ .ok ()) ∧ runItems p items ds ns ex = .error .usage) := by
  induction items with
  | nil =>
    intro ds ns ex _
    refine .inl ⟨fun _ h => absurd h (List.not_mem_nil), ?_⟩
    simp [runItems, positions, events]
  | cons i items ih =>
    have ih := @ih fun j hj => hk j (List.mem_cons_of_mem _ hj)
    have hi := hk i List.mem_cons_self
    intro ds ns ex h
    have opt : ∀ (n : Word) (vs : List Word) (o : Opt), p.find n = some o → o.dest ≠ "help" → positions (i :: items) = positions items →
        events p (i :: items) ds = (o.dest, vs) :: events p items ds →
        runItems p (i :: items) ds ns ex = (take ns o vs).bind (fun ns' => runItems p items ds ns' ex) →
        ((∀ e ∈ events p (i :: items) ds, ∀ v ∈ e.2, convert e.1 v = .ok ()) ∧
          runItems p (i :: items) ds ns ex = .ok (ds.drop (positions (i :: items)).length,
            (events p (i :: items) ds).foldl (fun ns e => ns.set e.1 e.2) ns, ex || decide (ds.length < (positions (i :: items)).length))) ∨
        ((∃ e ∈ events p (i :: items) ds, ∃ v ∈ e.2, convert e.1 v ≠ .ok ()) ∧ runItems p (i :: items) ds ns ex = .error .usage) := by
      intro n vs o hf ho e1 e2 e3
      rw [e2] at h
      rw [e1, e2, e3]
      rcases take_cases (ns := ns) ho (h _ List.mem_cons_self) with ⟨a, b⟩ | ⟨a, b⟩
      · rw [b]
        simp only [Except.bind]
        rcases ih (ds := ds) (ns := ns.set o.dest vs) (ex := ex) fun e he => h e (List.mem_cons_of_mem _ he) with ⟨c, d⟩ | ⟨⟨e, he, hv⟩, d⟩
        · rw [d]
          refine .inl ⟨fun e he => ?_, rfl⟩
          rcases List.mem_cons.1 he with rfl | he
          · exact a
          · exact c e he
        · exact .inr ⟨⟨e, List.mem_cons_of_mem _ he, hv⟩, d⟩
      · rw [b]
        exact .inr ⟨⟨_, List.mem_cons_self, a⟩, rfl⟩
    cases i with
    | pos w =>
      have e1 : positions (.pos w :: items) = w :: positions items := rfl
      cases ds with
      | nil =>
        rw [events] at h ⊢
        rw [e1, runItems]
        rcases ih (ds := []) (ns := ns) (ex := true) h with ⟨c, d⟩ | ⟨a, b⟩
        · refine .inl ⟨c, ?_⟩
          rw [d]
          simp
        · exact .inr ⟨a, b⟩
      | cons d ds =>
        rw [events] at h ⊢
        rw [e1, runItems]
        rcases h _ List.mem_cons_self w (List.mem_singleton_self w) with hw | hw
        · simp only at hw
          rw [hw]
          simp only [Except.bind]
          rcases ih (ds := ds) (ns := ns.set d [w]) (ex := ex) fun e he => h e (List.mem_cons_of_mem _ he) with ⟨c, d⟩ | ⟨⟨e, he, hv⟩, d⟩
          · refine .inl ⟨fun e he => ?_, ?_⟩
            · rcases List.mem_cons.1 he with rfl | he
              · intro v hv
                rw [List.mem_singleton.1 hv]
                exact hw
              · exact c e he
            · rw [d]
              simp
          · exact .inr ⟨⟨e, List.mem_cons_of_mem _ he, hv⟩, d⟩
        · simp only at hw
          rw [hw]
          exact .inr ⟨⟨_, List.mem_cons_self, w, List.mem_singleton_self w, by rw [hw]; exact nofun⟩, rfl⟩
    | sep s n vs =>
      obtain ⟨o, hf, ho⟩ := hi
      exact opt n vs o hf ho rfl (by rw [events, hf]; rfl) (by rw [runItems, hf])
    | eq s n v =>
      obtain ⟨o, hf, ho⟩ := hi
      exact opt n [v] o hf ho rfl (by rw [events, hf]; rfl) (by rw [runItems, hf])
    | glued n v =>
      obtain ⟨o, hf, ho⟩ := hi
      exact opt n [v] o hf ho rfl (by rw [events, hf]; rfl) (by rw [runItems, hf])

theorem foldl_set (es : List (String × List Word)) (dest : String) : ∀ ns : NS,
    Dict.get? (es.foldl (fun ns e => ns.set e.1 e.2) ns) dest =
      ((es.filterMap fun e => if e.1 = dest then some e.2 else none).getLast?).or (Dict.get? ns dest) := by
  induction es with
  | nil => intro ns; rfl
  | cons e es ih =>
    intro ns
    rw [List.foldl_cons, ih, Dict.get?_set, List.filterMap_cons]
    by_cases h : e.1 = dest
    · rw [if_pos h]
      simp only [if_pos h]
      cases hl : es.filterMap fun e => if e.1 = dest then some e.2 else none with
      | nil => simp
      | cons a l => simp [List.getLast?_cons]
    · rw [if_neg h]
      simp only [if_neg h]

theorem events_opt {p : Parser} {dest short long : String} {items : List Item}
    (hp : ∀ n o, p.find n = some o → (o.dest = dest ↔ n = short.toList ∨ n = long.toList)) (hk : ∀ i ∈ items, Known p i) :
    ∀ {ds : List String}, dest ∉ ds →
    (events p items ds).filterMap (fun e => if e.1 = dest then some e.2 else none) = items.filterMap (givesOpt short long) := by
  induction items with
  | nil => intro ds _; rfl
  | cons i items ih =>
    have ih := @ih fun j hj => hk j (List.mem_cons_of_mem _ hj)
    have hi := hk i List.mem_cons_self
    intro ds hd
    cases i with
    | pos w =>
      cases ds with
      | nil => exact ih hd
      | cons d ds =>
        rw [events, List.filterMap_cons, List.filterMap_cons]
        simp only [if_neg fun e : d = dest => hd (e ▸ List.mem_cons_self), givesOpt]
        exact ih fun e => hd (List.mem_cons_of_mem _ e)
    | sep s n vs =>
      obtain ⟨o, hf, ho⟩ := hi
      rw [events, List.filterMap_cons, List.filterMap_cons, ih hd, hf]
      simp only [Option.map_some, Option.getD_some, givesOpt, hp n o hf]
    | eq s n v =>
      obtain ⟨o, hf, ho⟩ := hi
      rw [events, List.filterMap_cons, List.filterMap_cons, ih hd, hf]
      simp only [Option.map_some, Option.getD_some, givesOpt, hp n o hf]
    | glued n v =>
      obtain ⟨o, hf, ho⟩ := hi
      rw [events, List.filterMap_cons, List.filterMap_cons, ih hd, hf]
      simp only [Option.map_some, Option.getD_some, givesOpt, hp n o hf]

theorem events_pos {p : Parser} {dest : String} {items : List Item}
    (hp : ∀ n o, p.find n = some o → o.dest ≠ dest) (hk : ∀ i ∈ items, Known p i) : ∀ {ds : List String},
    (events p items ds).filterMap (fun e => if e.1 = dest then some e.2 else none) =
      (ds.zip (positions items)).filterMap fun e => if e.1 = dest then some [e.2] else none := by
  induction items with
  | nil => intro ds; simp [events, positions]
  | cons i items ih =>
    have ih := @ih fun j hj => hk j (List.mem_cons_of_mem _ hj)
    have hi := hk i List.mem_cons_self
    intro ds
    cases i with
    | pos w =>
      have e1 : positions (.pos w :: items) = w :: positions items := rfl
      cases ds with
      | nil => rw [events, ih]; rfl
      | cons d ds => rw [events, e1, List.zip_cons_cons, List.filterMap_cons, List.filterMap_cons, ih]
    | sep s n vs =>
      obtain ⟨o, hf, ho⟩ := hi
      rw [events, List.filterMap_cons, hf]
      simp only [Option.map_some, Option.getD_some, if_neg (hp n o hf)]
      exact ih
    | eq s n v =>
      obtain ⟨o, hf, ho⟩ := hi
      rw [events, List.filterMap_cons, hf]
      simp only [Option.map_some, Option.getD_some, if_neg (hp n o hf)]
      exact ih
    | glued n v =>
      obtain ⟨o, hf, ho⟩ := hi
      rw [events, List.filterMap_cons, hf]
      simp only [Option.map_some, Option.getD_some, if_neg (hp n o hf)]
      exact ih

/-! ## the name of the command -/

theorem main_tuples (w : Word) (h : 2 ≤ w.length) (h0 : w[0]? = some '-') : mainParser.tuples w = [] ∨ ∃ t, mainParser.tuples w = [t] := by
  match w, h, h0 with
  | a :: b :: r, _, h0 =>
    have ha : a = '-' := by simpa using h0
    subst ha
    by_cases hb : b = '-'
    · subst hb
      have key : ∀ (q : Word) (e : Option (Bool × Word)), ['-', '-'] <+: q →
          ((mainParser.strings.filter fun x => q.isPrefixOf x.1).map fun x => Tag.opt (some x.2) x.1 e) = [] ∨
          ∃ t, ((mainParser.strings.filter fun x => q.isPrefixOf x.1).map fun x => Tag.opt (some x.2) x.1 e) = [t] := by
        rintro q e ⟨s, rfl⟩
        have es : mainParser.strings = [("-h".toList, helpOpt), ("--help".toList, helpOpt)] := by decide +kernel
        rw [es, List.filter_cons_of_neg (by simp)]
        rw [List.filter_cons]
        split
        · exact .inr ⟨_, rfl⟩
        · exact .inl rfl
      rw [Parser.tuples]
      cases hc : cutEq ('-' :: '-' :: r) with
      | none => exact key _ _ ⟨r, rfl⟩
      | some x =>
        refine key _ _ ?_
        rw [cutEq_fst (n := x.1) (v := x.2) hc]
        exact ⟨r.takeWhile fun c => decide (c ≠ '='), rfl⟩
    · rw [Parser.tuples]
      · have es : mainParser.strings = [("-h".toList, helpOpt), ("--help".toList, helpOpt)] := by decide +kernel
        rw [es, List.filterMap_cons, List.filterMap_cons, List.filterMap_nil]
        have e1 : ¬ ("--help".toList = ('-' :: b :: r).take 2) := by simp
        have e2 : ¬ ('-' :: b :: r).isPrefixOf "--help".toList = true := by simp [hb]
        simp only [if_neg e1, if_neg e2]
        split
        · exact .inl rfl
        · exact .inr ⟨_, rfl⟩
      · intro r' e
        simp at e
        exact hb e.1

theorem main_parse (w : Word) : ∃ t, mainParser.parseOptional w = .ok t := by
  rw [Parser.parseOptional.eq_def]
  split
  · exact ⟨_, rfl⟩
  · rename_i c r
    split
    · exact ⟨_, rfl⟩
    · rename_i hc
      split
      · exact ⟨_, rfl⟩
      · split
        · exact ⟨_, rfl⟩
        · rename_i hr
          split
          · exact ⟨_, rfl⟩
          · have hl : 2 ≤ (c :: r).length := by cases r with
              | nil => exact absurd rfl hr
              | cons _ _ => simp
            rcases main_tuples (c :: r) hl (by rw [not_not.1 hc]; rfl) with h | ⟨t, h⟩
            · rw [h]
              simp only
              split
              · exact ⟨_, rfl⟩
              · split <;> exact ⟨_, rfl⟩
            · rw [h]; exact ⟨_, rfl⟩

theorem main_tagAll (ws : List Word) : ∃ l, mainParser.tagAll ws = .ok l ∧ l.map Prod.snd = ws := by
  induction ws with
  | nil => exact ⟨[], rfl, rfl⟩
  | cons w ws ih =>
    rw [Parser.tagAll]
    by_cases h : w = ['-', '-']
    · rw [if_pos h]
      refine ⟨_, rfl, ?_⟩
      rw [List.map_cons, List.map_map]
      have : (Prod.snd ∘ fun x : Word => (Tag.arg, x)) = id := rfl
      rw [this, List.map_id]
    · obtain ⟨t, ht⟩ := main_parse w
      obtain ⟨l, hl, e⟩ := ih
      rw [if_neg h, ht, hl]
      exact ⟨_, rfl, by rw [List.map_cons, e]⟩

theorem parse_cmd (c : Cmd) (ws : List Word) :
    parse (docName c :: ws) = (c.parser.parseKnown ws).bind fun x => if x.2 then .error .usage else .ok (c, x.1) := by
  rw [← name_doc]
  obtain ⟨l, hl, e⟩ := main_tagAll ws
  have h1 : mainParser.parseOptional c.name = .ok .arg := by cases c <;> decide +kernel
  have h2 : c.name ≠ ['-', '-'] := by cases c <;> decide +kernel
  have h3 : (Cmd.all.find? fun c' => c'.name = c.name) = some c := by cases c <;> decide +kernel
  have h4 : mainParser.tagAll (c.name :: ws) = .ok ((.arg, c.name) :: l) := by
    rw [Parser.tagAll, if_neg h2, h1, hl]; rfl
  rw [parse, h4]
  simp only [bind, Except.bind, skipOptions, h3, e, Bool.false_or]

/-! ## the line as a whole -/

theorem find_dest {c : Cmd} {y : String × String × String} (hy : y ∈ docDests) (n : Word) (o : Opt) (h : c.parser.find n = some o) :
    o.dest = y.1 ↔ n = y.2.1.toList ∨ n = y.2.2.toList := (parser_dests c _ (find_mem h)).1 y hy

theorem line_known {c : Cmd} {items : List Item} (h : Line c items) : ∀ i ∈ items, Known c.parser i := by
  intro i hi
  have hf := h.fits i hi
  have hh : givesOpt "-h" "--help" i = none := by
    cases hg : givesOpt "-h" "--help" i with
    | none => rfl
    | some vs =>
      have : vs ∈ items.filterMap (givesOpt "-h" "--help") := List.mem_filterMap.2 ⟨i, hi, hg⟩
      rw [h.noHelp] at this
      cases this
  have key : ∀ (n : Word) (a : Nargs), docArity c n = some a → ¬ (n = "-h".toList ∨ n = "--help".toList) →
      ∃ o, c.parser.find n = some o ∧ o.dest ≠ "help" := by
    intro n a ha hn
    rw [← parser_arity] at ha
    obtain ⟨o, ho, _⟩ := arity_find ha
    exact ⟨o, ho, fun e => hn ((find_dest (y := ("help", "-h", "--help")) (by decide) n o ho).1 e)⟩
  cases i with
  | pos w => trivial
  | sep s n vs =>
    obtain ⟨⟨a, ha, _⟩, _⟩ := hf
    refine key n a ha fun e => ?_
    rw [givesOpt, if_pos e] at hh; cases hh
  | eq s n v =>
    obtain ⟨⟨a, ha, _⟩, _⟩ := hf
    refine key n a ha fun e => ?_
    rw [givesOpt, if_pos e] at hh; cases hh
  | glued n v =>
    obtain ⟨⟨a, ha, _⟩, _⟩ := hf
    refine key n a ha fun e => ?_
    rw [givesOpt, if_pos e] at hh; cases hh

theorem events_tol {c : Cmd} {items : List Item} (h : Line c items) :
    (events c.parser items c.parser.pos).filterMap (fun e => if e.1 = "tolerance" then some e.2 else none) =
      items.filterMap (givesOpt "-tol" "--tolerance") :=
  events_opt (find_dest (y := ("tolerance", "-tol", "--tolerance")) (by decide)) (line_known h) (by cases c <;> decide)

theorem pos_ne (c : Cmd) {d : String} (h : d = "modeltype" ∨ d = "modelpath") (n : Word) (o : Opt) (hf : c.parser.find n = some o) :
    o.dest ≠ d := by
  obtain ⟨_, h1, h2⟩ := parser_dests c _ (find_mem hf)
  rcases h with rfl | rfl
  · exact h1
  · exact h2

theorem events_cases {c : Cmd} {items : List Item} (h : Line c items) :
    ∀ e ∈ events c.parser items c.parser.pos, ∀ v ∈ e.2, convert e.1 v = .ok () ∨ convert e.1 v = .error .usage := by
  intro e he v hv
  rw [convert]
  by_cases h1 : e.1 = "modeltype"
  · rw [if_pos h1]
    by_cases h2 : v = "mdp".toList ∨ v = "dtmc".toList
    · rw [if_pos h2]; exact .inl rfl
    · rw [if_neg h2]; exact .inr rfl
  · rw [if_neg h1]
    by_cases h2 : e.1 = "tolerance"
    · rw [if_pos h2]
      have hm : e.2 ∈ items.filterMap (givesOpt "-tol" "--tolerance") := by
        rw [← events_tol h]
        exact List.mem_filterMap.2 ⟨e, he, if_pos h2⟩
      have := h.finite _ hm v hv
      cases hq : Text.pyFloat v with
      | ok q => exact .inl rfl
      | error x => cases x <;> first | exact .inr rfl | exact absurd hq this
    · rw [if_neg h2]; exact .inl rfl

theorem parseKnown_eq {c : Cmd} {items : List Item} (h : Line c items) : c.parser.parseKnown (lineOf items) =
    (runItems c.parser items c.parser.pos [] false).bind fun x => if x.1 = [] then .ok (x.2.1, x.2.2) else .error .usage := by
  have hf : ∀ i ∈ items, i.Fits (names c.parser) (arity c.parser) := by
    have e : arity c.parser = docArity c := funext (parser_arity c)
    rw [e, parser_names]
    exact h.fits
  have ha : Apart (arity c.parser) items := by
    have e : arity c.parser = docArity c := funext (parser_arity c)
    rw [e]
    exact h.apart
  rw [Parser.parseKnown, lineOf, items_tagged (parser_good c) hf]
  simp only [bind, Except.bind]
  rw [loop_items hf ha (Nat.lt_succ_self _)]

theorem convert_modeltype {v : Word} : convert "modeltype" v = .ok () ↔ v = "mdp".toList ∨ v = "dtmc".toList := by
  rw [convert, if_pos rfl]
  by_cases h : v = "mdp".toList ∨ v = "dtmc".toList
  · rw [if_pos h]; exact ⟨fun _ => h, fun _ => rfl⟩
  · rw [if_neg h]; exact ⟨nofun, fun e => absurd e h⟩

theorem convert_tolerance {v : Word} : convert "tolerance" v = .ok () ↔ ∃ q, Text.pyFloat v = .ok q := by
  rw [convert, if_neg (by decide), if_pos rfl]
  cases h : Text.pyFloat v with
  | ok q => exact ⟨fun _ => ⟨q, rfl⟩, fun _ => rfl⟩
  | error x => cases x <;> exact ⟨nofun, fun ⟨q, e⟩ => nomatch e⟩

theorem events_type {c : Cmd} {items : List Item} (h : Line c items) {v : Word} :
    ("modeltype", [v]) ∈ events c.parser items c.parser.pos ↔ (positions items).head? = some v := by
  have e := events_pos (dest := "modeltype") (pos_ne c (.inl rfl)) (line_known h) (ds := c.parser.pos)
  have e2 : ((c.parser.pos.zip (positions items)).filterMap fun e => if e.1 = "modeltype" then some [e.2] else none) =
      ((positions items).head?.map fun v => [v]).toList := by
    have : c.parser.pos = ["modeltype", "modelpath"] := by cases c <;> rfl
    rw [this]
    match positions items with
    | [] => rfl
    | [a] => rfl
    | a :: b :: r => simp
  constructor
  · intro hm
    have : [v] ∈ (events c.parser items c.parser.pos).filterMap fun e => if e.1 = "modeltype" then some e.2 else none :=
      List.mem_filterMap.2 ⟨_, hm, if_pos rfl⟩
    rw [e, e2] at this
    cases hp : (positions items).head? with
    | none => rw [hp] at this; cases this
    | some u =>
      rw [hp] at this
      have : v = u := by simpa using this
      rw [this]
  · intro hh
    have : [v] ∈ (events c.parser items c.parser.pos).filterMap fun e => if e.1 = "modeltype" then some e.2 else none := by
      rw [e, e2, hh]; simp
    obtain ⟨x, hx, hx2⟩ := List.mem_filterMap.1 this
    by_cases h1 : x.1 = "modeltype"
    · rw [if_pos h1] at hx2
      obtain ⟨a, b⟩ := x
      cases hx2; cases h1; exact hx
    · rw [if_neg h1] at hx2; cases hx2

theorem events_single {c : Cmd} {items : List Item} (h : Line c items) {x : String × List Word}
    (hx : x ∈ events c.parser items c.parser.pos) (ht : x.1 = "modeltype") : ∃ v, x.2 = [v] := by
  have : x.2 ∈ (events c.parser items c.parser.pos).filterMap fun e => if e.1 = "modeltype" then some e.2 else none :=
    List.mem_filterMap.2 ⟨x, hx, if_pos ht⟩
  rw [events_pos (dest := "modeltype") (pos_ne c (.inl rfl)) (line_known h)] at this
  obtain ⟨y, _, hy⟩ := List.mem_filterMap.1 this
  by_cases h1 : y.1 = "modeltype"
  · rw [if_pos h1] at hy; exact ⟨y.2, (Option.some.inj hy).symm⟩
  · rw [if_neg h1] at hy; cases hy

/-- all arguments can be converted -/
theorem events_ok {c : Cmd} {items : List Item} (h : Line c items) :
    (∀ e ∈ events c.parser items c.parser.pos, ∀ v ∈ e.2, convert e.1 v = .ok ()) ↔
    (∀ v, (positions items).head? = some v → v = "mdp".toList ∨ v = "dtmc".toList) ∧
    ∀ vs ∈ items.filterMap (givesOpt "-tol" "--tolerance"), ∀ v ∈ vs, ∃ q, Text.pyFloat v = .ok q := by
  constructor
  · intro H
    refine ⟨fun v hv => ?_, fun vs hvs v hv => ?_⟩
    · exact convert_modeltype.1 (H _ ((events_type h).2 hv) v (List.mem_singleton_self v))
    · rw [← events_tol h] at hvs
      obtain ⟨x, hx, hx2⟩ := List.mem_filterMap.1 hvs
      by_cases h1 : x.1 = "tolerance"
      · rw [if_pos h1] at hx2
        cases hx2
        exact convert_tolerance.1 (h1 ▸ H x hx v hv)
      · rw [if_neg h1] at hx2; cases hx2
  · rintro ⟨H1, H2⟩ e he v hv
    by_cases h1 : e.1 = "modeltype"
    · obtain ⟨u, hu⟩ := events_single h he h1
      rw [hu] at hv
      rw [h1, List.mem_singleton.1 hv]
      refine convert_modeltype.2 (H1 u ((events_type h).1 ?_))
      rw [← hu, ← h1]
      exact he
    · by_cases h2 : e.1 = "tolerance"
      · rw [h2]
        refine convert_tolerance.2 (H2 e.2 ?_ v hv)
        rw [← events_tol h]
        exact List.mem_filterMap.2 ⟨e, he, if_pos h2⟩
      · rw [convert, if_neg h1, if_neg h2]

theorem parser_pos (c : Cmd) : c.parser.pos = ["modeltype", "modelpath"] := by cases c <;> rfl

/-- the attributes after parsing -/
def attrs (c : Cmd) (items : List Item) : NS := (events c.parser items c.parser.pos).foldl (fun ns e => ns.set e.1 e.2) []

theorem parse_line {c : Cmd} {items : List Item} (h : Line c items) {kind : Kind} {path : Word} (hc : CompleteArg items kind path) :
    parse (docName c :: lineOf items) = .ok (c, attrs c items) := by
  have hev := (events_ok h).2 ⟨fun v hv => by
    rw [hc.1] at hv
    cases hv
    cases kind
    · exact .inl rfl
    · exact .inr rfl, hc.2⟩
  rcases runItems_eq (line_known h) (ns := []) (ex := false) (events_cases h) with ⟨_, e⟩ | ⟨⟨x, hx, v, hv, hn⟩, _⟩
  · rw [parse_cmd, parseKnown_eq h, e, hc.1, parser_pos]
    simp only [Except.bind, attrs, parser_pos]
    rfl
  · exact absurd (hev x hx v hv) hn

theorem reject_line {c : Cmd} {items : List Item} (h : Line c items) (hc : ¬ ∃ kind path, CompleteArg items kind path) :
    parse (docName c :: lineOf items) = .error .usage := by
  rcases runItems_eq (line_known h) (ns := []) (ex := false) (events_cases h) with ⟨hev, e⟩ | ⟨_, e⟩
  · rw [parse_cmd, parseKnown_eq h, e, parser_pos]
    obtain ⟨H1, H2⟩ := (events_ok h).1 hev
    match hp : positions items with
    | [] => rfl
    | [a] => rfl
    | [a, b] =>
      exfalso
      rw [hp] at H1
      rcases H1 a rfl with rfl | rfl
      · exact hc ⟨.mdp, b, hp, H2⟩
      · exact hc ⟨.dtmc, b, hp, H2⟩
    | a :: b :: d :: r =>
      simp [Except.bind]
  · rw [parse_cmd, parseKnown_eq h, e]; rfl

theorem attrs_opt {c : Cmd} {items : List Item} (h : Line c items) {y : String × String × String} (hy : y ∈ docDests)
    (hd : y.1 ∉ ["modeltype", "modelpath"]) : Dict.get? (attrs c items) y.1 = given items y.2.1 y.2.2 := by
  rw [attrs, foldl_set, events_opt (find_dest hy) (line_known h) (by rw [parser_pos]; exact hd), given]
  simp [Dict.get?]

theorem attrs_pos {c : Cmd} {items : List Item} (h : Line c items) {a b : Word} (hp : positions items = [a, b]) :
    Dict.get? (attrs c items) "modeltype" = some [a] ∧ Dict.get? (attrs c items) "modelpath" = some [b] := by
  constructor
  · rw [attrs, foldl_set, events_pos (pos_ne c (.inl rfl)) (line_known h), hp, parser_pos]; rfl
  · rw [attrs, foldl_set, events_pos (pos_ne c (.inr rfl)) (line_known h), hp, parser_pos]; rfl

theorem given_one {c : Cmd} {items : List Item} (h : Line c items) {short long : String}
    (h1 : ∀ a, docArity c short.toList = some a → a = .one) (h2 : ∀ a, docArity c long.toList = some a → a = .one) :
    given items short long = none ∨ ∃ w, given items short long = some [w] := by
  cases hg : given items short long with
  | none => exact .inl rfl
  | some vs =>
    right
    obtain ⟨i, hi, he⟩ := List.mem_filterMap.1 (List.mem_of_getLast? hg)
    have hf := h.fits i hi
    cases i with
    | pos w => cases he
    | sep s n us =>
      obtain ⟨⟨a, ha, hcount⟩, _⟩ := hf
      rw [givesOpt] at he
      by_cases hn : n = short.toList ∨ n = long.toList
      · rw [if_pos hn] at he
        cases he
        have : a = .one := by
          rcases hn with rfl | rfl
          · exact h1 a ha
          · exact h2 a ha
        subst this
        obtain ⟨w, rfl⟩ := List.length_eq_one_iff.1 hcount
        exact ⟨w, rfl⟩
      · rw [if_neg hn] at he; cases he
    | eq s n v =>
      rw [givesOpt] at he
      by_cases hn : n = short.toList ∨ n = long.toList
      · rw [if_pos hn] at he; cases he; exact ⟨v, rfl⟩
      · rw [if_neg hn] at he; cases he
    | glued n v =>
      rw [givesOpt] at he
      by_cases hn : n = short.toList ∨ n = long.toList
      · rw [if_pos hn] at he; cases he; exact ⟨v, rfl⟩
      · rw [if_neg hn] at he; cases he

theorem str_of {ns : NS} {dest short long dflt : String} {items : List Item} (h : Dict.get? ns dest = given items short long)
    (h1 : given items short long = none ∨ ∃ w, given items short long = some [w]) :
    ns.str dest dflt = theOne items short long dflt ∧ ns.str? dest = theOne? items short long := by
  rw [NS.str, NS.str?, theOne, theOne?, h]
  rcases h1 with e | ⟨w, e⟩ <;> rw [e] <;> exact ⟨rfl, rfl⟩

theorem kind_of {ns : NS} {kind : Kind} (h : Dict.get? ns "modeltype" =
    some [kindWord kind]) : ns.kind = kind := by
  rw [NS.kind, NS.str, h]
  cases kind <;> decide +kernel

theorem tol_of {K : Type} {rd : ℚ → K} {ns : NS} {items : List Item} (h : Dict.get? ns "tolerance" = given items "-tol" "--tolerance")
    (h1 : given items "-tol" "--tolerance" = none ∨ ∃ w, given items "-tol" "--tolerance" = some [w]) :
    ns.tolerance rd = theTol rd items := by
  rw [NS.tolerance, theTol, h]
  rcases h1 with e | ⟨w, e⟩
  · rw [e]
    change rd (1 / 10 ^ 5) = rd (1 / 100000)
    norm_num
  · rw [e]
    rfl

/-- the options with one argument -/
def oneOpts : List (String × String) := [("-i", "--initial-label"), ("-trf", "--target-label-rf"), ("-frf", "--fail-label-rf"),
  ("-t", "--target-label"), ("-o", "--output"), ("-c", "--certificate"), ("-sl", "--subsys-label"), ("-tol", "--tolerance"),
  ("-col", "--coloring")]

theorem doc_one (c : Cmd) : ∀ y ∈ oneOpts, ∀ x ∈ docOpts c,
    (x.1 = y.1 ∨ x.1 = y.2 ∨ x.2.1 = y.1 ∨ x.2.1 = y.2) → x.2.2 = .one := by cases c <;> decide +kernel

theorem given_opt {c : Cmd} {items : List Item} (h : Line c items) {y : String × String} (hy : y ∈ oneOpts) :
    given items y.1 y.2 = none ∨ ∃ w, given items y.1 y.2 = some [w] := by
  have hx := doc_one c y hy
  have key : ∀ n : String, n = y.1 ∨ n = y.2 → ∀ a, docArity c n.toList = some a → a = .one := by
    intro n hn a ha
    rw [docArity] at ha
    cases hf : (docOpts c).find? fun x => n.toList = x.1.toList || n.toList = x.2.1.toList with
    | none => rw [hf] at ha; cases ha
    | some x =>
      rw [hf] at ha
      cases ha
      have h2 := List.find?_some hf
      simp only [Bool.or_eq_true, decide_eq_true_eq, String.toList_inj] at h2
      refine hx x (List.mem_of_find?_eq_some hf) ?_
      rcases h2 with h2 | h2 <;> rcases hn with h3 | h3 <;> rw [← h2, ← h3] <;> tauto
  exact given_one h (key y.1 (.inl rfl)) (key y.2 (.inr rfl))

theorem command_of {K : Type} (rd : ℚ → K) {c : Cmd} {items : List Item} (h : Line c items) {kind : Kind} {path : Word}
    (hc : CompleteArg items kind path) : command rd c (attrs c items) = asked rd c items kind path ∧ (attrs c items).complete = true := by
  obtain ⟨hp1, hp2⟩ := attrs_pos h hc.1
  have hk := kind_of hp1
  have hpath : (attrs c items).str "modelpath" "" = String.ofList path := by rw [NS.str, hp2]
  have hcomp : (attrs c items).complete = true := by rw [NS.complete, hp1, hp2]; simp
  refine ⟨?_, hcomp⟩
  have il := str_of (dflt := "init") (attrs_opt h (y := ("initial_label", "-i", "--initial-label")) (by decide) (by decide)) (given_opt h (y := ("-i", "--initial-label")) (by decide))
  have tl := str_of (dflt := "rf_target") (attrs_opt h (y := ("target_label_rf", "-trf", "--target-label-rf")) (by decide) (by decide)) (given_opt h (y := ("-trf", "--target-label-rf")) (by decide))
  have fl := str_of (dflt := "rf_fail") (attrs_opt h (y := ("fail_label_rf", "-frf", "--fail-label-rf")) (by decide) (by decide)) (given_opt h (y := ("-frf", "--fail-label-rf")) (by decide))
  have t := str_of (dflt := "target") (attrs_opt h (y := ("target_label", "-t", "--target-label")) (by decide) (by decide)) (given_opt h (y := ("-t", "--target-label")) (by decide))
  have o := str_of (dflt := "") (attrs_opt h (y := ("output", "-o", "--output")) (by decide) (by decide)) (given_opt h (y := ("-o", "--output")) (by decide))
  have ce := str_of (dflt := "") (attrs_opt h (y := ("certificate", "-c", "--certificate")) (by decide) (by decide)) (given_opt h (y := ("-c", "--certificate")) (by decide))
  have sl := str_of (dflt := "subsystem") (attrs_opt h (y := ("subsys_label", "-sl", "--subsys-label")) (by decide) (by decide)) (given_opt h (y := ("-sl", "--subsys-label")) (by decide))
  have tol := tol_of (rd := rd) (attrs_opt h (y := ("tolerance", "-tol", "--tolerance")) (by decide) (by decide)) (given_opt h (y := ("-tol", "--tolerance")) (by decide))
  have m : (attrs c items).list "method" = theList items "-m" "--method" := by
    rw [NS.list, attrs_opt h (y := ("method", "-m", "--method")) (by decide) (by decide), theList]
  have s : (attrs c items).list "solve" = theList items "-s" "--solve" := by
    rw [NS.list, attrs_opt h (y := ("solve", "-s", "--solve")) (by decide) (by decide), theList]
  have si : (attrs c items).list "solve_iter" = theList items "-si" "--solve-iter" := by
    rw [NS.list, attrs_opt h (y := ("solve_iter", "-si", "--solve-iter")) (by decide) (by decide), theList]
  cases c with
  | rf =>
    simp only [command, asked, hk, hpath, il.1, tl.1,
      fl.1, t.1, o.2]
  | info => simp only [command, asked, hk, hpath]
  | minimize =>
    simp only [command, asked, hk, hpath, il.1, tl.1,
      fl.1, m, s, si, ce.2, tol]
  | certify =>
    simp only [command, asked, hk, hpath, il.1, tl.1,
      fl.1, ce.2, tol]
  | subsystem =>
    simp only [command, asked, hk, hpath, il.1, tl.1,
      fl.1, ce.2, o.2, sl.1]
  | render => rfl

variable {F K : Type} [DecidableEq F] [Field K] [LinearOrder K] [IsStrictOrderedRing K] [FloorRing K]

/-- **C114.** A command line with the documented options — in any order, in the short, long or abbreviated spelling, with the
argument after a blank, after `=` or immediately after a one-letter option — runs the command with the given arguments, and with
the documented default value for every option that is not given. -/
theorem C114_runs (w : World F K) (d : Disk F) {c : Cmd} {items : List Item} (h : Line c items) {kind : Kind} {path : Word}
    (hc : CompleteArg items kind path) : script w (docName c :: lineOf items) d =
      (asked w.rd c items kind path).map fun x => ((run w x d).disk, (run w x d).verdicts, .done (run w x d).outcome) := by
  obtain ⟨h1, h2⟩ := command_of w.rd h hc
  rw [script, parse_line h hc]
  simp only [h1, h2]
  cases asked w.rd c items kind path <;> rfl

/-- **C114.** With too few or too many positional arguments, another type of model than `mdp` or `dtmc`, or a tolerance that is no
number, the script ends with a usage message and touches no file. -/
theorem C114_rejects (w : World F K) (d : Disk F) {c : Cmd} {items : List Item} (h : Line c items)
    (hc : ¬ ∃ kind path, CompleteArg items kind path) : script w (docName c :: lineOf items) d = some (d, [], .ended .usage) := by
  rw [script, reject_line h hc]

/-! ## every word counts -/

/-- there is an unknown option -/
def HasUnknown (l : List (Tag × Word)) : Prop := ∃ a b w, (Tag.opt none a b, w) ∈ l

theorem unknown_dropWhile {l : List (Tag × Word)} {f : Tag × Word → Bool} (hf : ∀ a b w, f (.opt none a b, w) = false)
    (h : HasUnknown l) : HasUnknown (l.dropWhile f) := by
  obtain ⟨a, b, w, h⟩ := h
  refine ⟨a, b, w, ?_⟩
  induction l with
  | nil => cases h
  | cons x l ih =>
    rw [List.dropWhile_cons]
    by_cases hx : f x
    · rw [if_pos hx]
      rcases List.mem_cons.1 h with rfl | h
      · rw [hf] at hx; cases hx
      · exact ih h
    · rw [if_neg hx]; exact h

theorem unknown_plain {o : Opt} {l r : List (Tag × Word)} {ws : List Word} (h : consumePlain o l = .ok (ws, r)) (hu : HasUnknown l) :
    HasUnknown r := by
  rw [consumePlain.eq_def] at h
  split at h
  · cases h; exact hu
  · split at h
    · cases h
      obtain ⟨a, b, w, hm⟩ := hu
      rcases List.mem_cons.1 hm with e | hm
      · cases e
      · exact ⟨a, b, w, hm⟩
    · cases h
  · split at h
    · cases h
    · cases h; exact unknown_dropWhile (fun _ _ _ => rfl) hu

theorem unknown_explicit {p : Parser} : ∀ {v : Word} {o : Opt} {n : Word} {sep : Bool} {l r : List (Tag × Word)}
    {as : List (Opt × List Word)} {ex : Bool}, p.consumeExplicit l o n sep v = .ok (as, r, ex) → HasUnknown l → HasUnknown r := by
  intro v
  induction hk : v.length using Nat.strong_induction_on generalizing v with
  | _ k ih =>
    intro o n sep l r as ex h hu
    subst hk
    rw [Parser.consumeExplicit.eq_def] at h
    split at h
    · split at h
      · cases h
      · cases h; exact hu
    · split at h
      · split at h
        · cases h
        · split at h
          · cases h; exact hu
          · split at h
            · obtain ⟨x, hc, h⟩ := bind_inv h
              cases h
              exact unknown_plain hc hu
            · obtain ⟨x, hc, h⟩ := bind_inv h
              cases h
              exact ih _ (by simp only [List.length_cons]; omega) rfl hc hu
            · obtain ⟨x, hc, h⟩ := bind_inv h
              cases h
              exact ih _ (by simp only [List.length_cons]; omega) rfl hc hu
      · cases h; exact hu

theorem unknown_optional {p : Parser} {o : Opt} {n : Word} {e : Option (Bool × Word)} {l r : List (Tag × Word)} {ns ns' : NS} {ex : Bool}
    (h : p.consumeOptional o n e l ns = .ok (r, ns', ex)) (hu : HasUnknown l) : HasUnknown r := by
  cases e with
  | none =>
    obtain ⟨x, hx, h⟩ := bind_inv h
    obtain ⟨y, hy, h⟩ := bind_inv h
    obtain ⟨z, hz, h⟩ := bind_inv h
    cases h
    cases hy
    exact unknown_plain hx hu
  | some x =>
    obtain ⟨sep, v⟩ := x
    obtain ⟨x, hx, h⟩ := bind_inv h
    obtain ⟨y, hy, h⟩ := bind_inv h
    cases h
    exact unknown_explicit hx hu

theorem unknown_pos : ∀ {ds ds' : List String} {l r : List (Tag × Word)} {ns ns' : NS}, consumePos ds l ns = .ok (ds', r, ns') →
    HasUnknown l → HasUnknown r := by
  intro ds
  induction ds with
  | nil => intro ds' l r ns ns' h hu; cases h; exact hu
  | cons d ds ih =>
    intro ds' l r ns ns' h hu
    rw [consumePos.eq_def] at h
    simp only at h
    split at h
    · rename_i w t hl
      split at h
      · cases h
      · refine ih h (unknown_dropWhile (fun _ _ _ => rfl) ?_)
        have := unknown_dropWhile (f := isDash) (fun _ _ _ => rfl) hu
        rw [hl] at this
        obtain ⟨a, b, w, hm⟩ := this
        rcases List.mem_cons.1 hm with e | hm
        · cases e
        · exact ⟨a, b, w, hm⟩
    · cases h; exact hu

theorem loop_unknown {p : Parser} : ∀ {n : Nat} {l : List (Tag × Word)} {ds ds' : List String} {ns ns' : NS} {ex ex' : Bool},
    p.loop n l ds ns ex = .ok (ds', ns', ex') → ex = true ∨ HasUnknown l → ex' = true := by
  intro n
  induction n with
  | zero => intro l ds ds' ns ns' ex ex' h; cases h
  | succ n ih =>
    intro l ds ds' ns ns' ex ex' h hu
    rw [Parser.loop.eq_def] at h
    dsimp only at h
    by_cases ho : l.any isOpt
    · rw [if_pos ho] at h
      split at h
      · cases h
      · exact ih h (.inl rfl)
      · obtain ⟨x, hx, h⟩ := bind_inv h
        obtain ⟨r', ns1, ex1⟩ := x
        refine ih h ?_
        rcases hu with rfl | ⟨a, b, w, hm⟩
        · exact .inl rfl
        · rcases List.mem_cons.1 hm with e | hm
          · cases e
          · exact .inr (unknown_optional hx ⟨a, b, w, hm⟩)
      · obtain ⟨x, hx, h⟩ := bind_inv h
        obtain ⟨ds1, r', ns1⟩ := x
        simp only at h
        split at h
        · refine ih h ?_
          rcases hu with rfl | hu
          · exact .inl rfl
          · exact .inr (unknown_pos hx hu)
        · exact ih h (.inl rfl)
    · rw [if_neg ho] at h
      obtain ⟨x, hx, h⟩ := bind_inv h
      cases h
      rcases hu with rfl | ⟨a, b, w, hm⟩
      · rfl
      · exact absurd (List.any_eq_true.2 ⟨_, hm, rfl⟩) ho

theorem tagAll_mem {p : Parser} : ∀ {ws : List Word} {l : List (Tag × Word)}, p.tagAll ws = .ok l →
    ∀ w ∈ ws.takeWhile (fun w => decide (w ≠ ['-', '-'])), ∃ t, (t, w) ∈ l ∧ p.parseOptional w = .ok t := by
  intro ws
  induction ws with
  | nil => intro l _ w hw; cases hw
  | cons v ws ih =>
    intro l h w hw
    rw [Parser.tagAll] at h
    by_cases hv : v = ['-', '-']
    · rw [List.takeWhile_cons_of_neg (by simpa using hv)] at hw; cases hw
    · rw [if_neg hv] at h
      obtain ⟨t, ht, h⟩ := bind_inv h
      obtain ⟨r, hr, h⟩ := bind_inv h
      cases h
      rw [List.takeWhile_cons_of_pos (by simpa using hv)] at hw
      rcases List.mem_cons.1 hw with rfl | hw
      · exact ⟨t, List.mem_cons_self, ht⟩
      · obtain ⟨t', h1, h2⟩ := ih hr w hw
        exact ⟨t', List.mem_cons_of_mem _ h1, h2⟩

theorem neg_digits {w : Word} (h : negNumber w = true) : ∀ c ∈ w.tail, c.isDigit ∨ c = '.' := by
  rw [negNumber.eq_def] at h
  split at h
  · rename_i r
    intro c hc
    have hr : r = r.takeWhile Char.isDigit ++ r.dropWhile Char.isDigit := List.takeWhile_append_dropWhile.symm
    change c ∈ r at hc
    rw [hr] at hc
    rcases List.mem_append.1 hc with hc | hc
    · exact .inl (List.all_eq_true.1 List.all_takeWhile c hc)
    · split at h
      · rename_i e; rw [e] at hc; cases hc
      · rename_i s e
        rw [e] at hc
        rcases List.mem_cons.1 hc with rfl | hc
        · exact .inr rfl
        · simp only [Bool.and_eq_true, List.all_eq_true] at h
          exact .inl (h.2 c hc)
      · cases h
  · cases h

theorem parse_known {p : Parser} {w : Word} {t : Tag} (h : p.parseOptional w = .ok t) (hu : ∀ a b, t ≠ .opt none a b) :
    w.head? ≠ some '-' ∨ w = ['-'] ∨ ' ' ∈ w ∨ (∀ c ∈ w.tail, c.isDigit ∨ c = '.') ∨
      ∃ n ∈ names p, w.takeWhile (fun c => decide (c ≠ '=')) <+: n ∨ n = w.take 2 := by
  rw [Parser.parseOptional.eq_def] at h
  split at h
  · exact .inl nofun
  · rename_i c r
    split at h
    · rename_i hc
      exact .inl (by simpa using hc)
    · rename_i hc
      right
      split at h
      · rename_i o hf
        exact .inr (.inr (.inr ⟨_, mem_names hf, .inl (List.takeWhile_prefix _)⟩))
      · split at h
        · rename_i hr
          left; rw [hr, not_not.1 hc]
        · split at h
          · rename_i t' ht
            obtain ⟨x, hx, h2⟩ := Option.bind_eq_some_iff.1 ht
            obtain ⟨o, ho, _⟩ := Option.map_eq_some_iff.1 h2
            refine .inr (.inr (.inr ⟨_, mem_names ho, .inl ?_⟩))
            rw [cutEq_fst (n := x.1) (v := x.2) hx]
          · have key : ∀ t' : Tag, t' ∈ p.tuples (c :: r) →
                ∃ n ∈ names p, (c :: r).takeWhile (fun c => decide (c ≠ '=')) <+: n ∨ n = (c :: r).take 2 := by
              intro t' ht'
              rw [Parser.tuples.eq_def] at ht'
              split at ht'
              · rename_i r' e
                rw [e]
                obtain ⟨x, hx, _⟩ := List.mem_map.1 ht'
                obtain ⟨hx1, hx2⟩ := List.mem_filter.1 hx
                refine ⟨x.1, List.mem_map.2 ⟨x, hx1, rfl⟩, .inl ?_⟩
                have hx2 := prefix_of.1 hx2
                rw [e] at hx2
                cases hq : cutEq ('-' :: '-' :: r') with
                | none => rw [hq] at hx2; exact (List.takeWhile_prefix _).trans hx2
                | some y =>
                  rw [hq] at hx2
                  rw [← cutEq_fst (n := y.1) (v := y.2) hq]
                  exact hx2
              · obtain ⟨x, hx, hx2⟩ := List.mem_filterMap.1 ht'
                refine ⟨x.1, List.mem_map.2 ⟨x, hx, rfl⟩, ?_⟩
                split at hx2
                · rename_i e; exact .inr e
                · split at hx2
                  · rename_i e; exact .inl ((List.takeWhile_prefix _).trans (prefix_of.1 e))
                  · cases hx2
            split at h
            · cases h
            · rename_i t' e
              exact .inr (.inr (.inr (key t' (by rw [e]; exact List.mem_singleton_self _))))
            · split at h
              · rename_i hn
                exact .inr (.inr (.inl (neg_digits hn)))
              · split at h
                · rename_i hb; exact .inr (.inl hb)
                · cases h; exact absurd rfl (hu _ _)

/-- **C114.** No word is ignored silently: if a command runs at all, every word before `--` that begins with `-` is `-` itself,
looks like a negative number, contains a blank, or begins like an option of the command. -/
theorem C114_every_word (c : Cmd) (ws : List Word) {x : Cmd × NS} (h : parse (docName c :: ws) = .ok x) :
    ∀ w ∈ ws.takeWhile (fun w => decide (w ≠ ['-', '-'])), w.head? = some '-' → w = ['-'] ∨ ' ' ∈ w ∨
      (∀ c ∈ w.tail, c.isDigit ∨ c = '.') ∨ ∃ n ∈ docNames c, w.takeWhile (fun c => decide (c ≠ '=')) <+: n ∨ n = w.take 2 := by
  intro w hw hd
  rw [parse_cmd] at h
  obtain ⟨⟨ns, ex⟩, hk, h⟩ := bind_inv h
  have hex : ex = false := by
    cases ex with
    | false => rfl
    | true => cases h
  obtain ⟨l, hl, hk⟩ := bind_inv hk
  obtain ⟨⟨ds, ns', ex'⟩, hloop, hk⟩ := bind_inv hk
  have he : ex' = ex := by
    simp only at hk
    split at hk
    · cases hk; rfl
    · cases hk
  obtain ⟨t, ht, hp⟩ := tagAll_mem hl w hw
  have := parse_known hp (fun a b e => by
    have := loop_unknown hloop (.inr ⟨a, b, w, e ▸ ht⟩)
    rw [he, hex] at this
    cases this)
  rw [parser_names] at this
  rcases this with h1 | h1
  · exact absurd hd h1
  · exact h1

/-! ## options without arguments -/

/-- an option that ends the run: `--help`, or a flag to which an argument is given -/
def Final (t : Tag) : Prop :=
  ∃ o n e, t = .opt (some o) n e ∧ (o.dest = "help" ∨ o.nargs = .zero ∧ ∃ v, e = some (true, v))

def HasFinal (l : List (Tag × Word)) : Prop := ∃ t w, Final t ∧ (t, w) ∈ l

theorem final_tail {x : Tag × Word} {l : List (Tag × Word)} (hx : isOpt x = false) (h : HasFinal (x :: l)) : HasFinal l := by
  obtain ⟨t, w, hf, hm⟩ := h
  rcases List.mem_cons.1 hm with rfl | hm
  · obtain ⟨o, n, e, rfl, _⟩ := hf
    cases hx
  · exact ⟨t, w, hf, hm⟩

theorem final_dropWhile {l : List (Tag × Word)} {f : Tag × Word → Bool} (hf : ∀ x, isOpt x = true → f x = false)
    (h : HasFinal l) : HasFinal (l.dropWhile f) := by
  induction l with
  | nil => exact h
  | cons x l ih =>
    rw [List.dropWhile_cons]
    by_cases hx : f x
    · rw [if_pos hx]
      refine ih (final_tail ?_ h)
      cases ho : isOpt x with
      | false => rfl
      | true => rw [hf x ho] at hx; cases hx
    · rw [if_neg hx]; exact h

theorem arg_notOpt (x : Tag × Word) (h : isOpt x = true) : isArg x = false := by
  obtain ⟨t, w⟩ := x
  cases t <;> first | rfl | cases h

theorem dash_notOpt (x : Tag × Word) (h : isOpt x = true) : isDash x = false := by
  obtain ⟨t, w⟩ := x
  cases t <;> first | rfl | cases h

theorem final_plain {o : Opt} {l r : List (Tag × Word)} {ws : List Word} (h : consumePlain o l = .ok (ws, r)) (hu : HasFinal l) :
    HasFinal r := by
  rw [consumePlain.eq_def] at h
  split at h
  · cases h; exact hu
  · split at h
    · cases h; exact final_tail rfl hu
    · cases h
  · split at h
    · cases h
    · cases h; exact final_dropWhile arg_notOpt hu

theorem final_explicit {p : Parser} : ∀ {v : Word} {o : Opt} {n : Word} {sep : Bool} {l r : List (Tag × Word)}
    {as : List (Opt × List Word)} {ex : Bool}, p.consumeExplicit l o n sep v = .ok (as, r, ex) →
      (HasFinal l → HasFinal r) ∧ (∃ ws as', as = (o, ws) :: as') ∧ ¬ (o.nargs = .zero ∧ sep = true) := by
  intro v
  induction hk : v.length using Nat.strong_induction_on generalizing v with
  | _ k ih =>
    intro o n sep l r as ex h
    subst hk
    rw [Parser.consumeExplicit.eq_def] at h
    split at h
    · split at h
      · cases h
      · rename_i hz
        cases h; exact ⟨id, ⟨_, _, rfl⟩, fun e => hz e.1⟩
    · split at h
      · split at h
        · cases h
        · rename_i hc
          have hs : ¬ (o.nargs = .zero ∧ sep = true) := fun e => hc (.inr (.inl e.2))
          split at h
          · cases h; exact ⟨id, ⟨_, _, rfl⟩, hs⟩
          · split at h
            · obtain ⟨x, hc, h⟩ := bind_inv h
              cases h
              exact ⟨final_plain hc, ⟨_, _, rfl⟩, hs⟩
            · obtain ⟨x, hc, h⟩ := bind_inv h
              cases h
              exact ⟨(ih _ (by simp only [List.length_cons]; omega) rfl hc).1, ⟨_, _, rfl⟩, hs⟩
            · obtain ⟨x, hc, h⟩ := bind_inv h
              cases h
              exact ⟨(ih _ (by simp only [List.length_cons]; omega) rfl hc).1, ⟨_, _, rfl⟩, hs⟩
      · rename_i hz
        cases h; exact ⟨id, ⟨_, _, rfl⟩, fun e => hz e.1⟩

theorem final_takes {o : Opt} {ws : List Word} {as : List (Opt × List Word)} {ns ns' : NS}
    (h : ((o, ws) :: as).foldlM (fun ns a => take ns a.1 a.2) ns = (.ok ns' : Except End NS)) : o.dest ≠ "help" := by
  intro e
  rw [List.foldlM_cons] at h
  obtain ⟨x, hx, _⟩ := bind_inv h
  rw [take, if_pos e] at hx
  cases hx

theorem final_optional {p : Parser} {o : Opt} {n : Word} {e : Option (Bool × Word)} {l r : List (Tag × Word)} {ns ns' : NS} {ex : Bool}
    (h : p.consumeOptional o n e l ns = .ok (r, ns', ex)) : (HasFinal l → HasFinal r) ∧ ¬ Final (.opt (some o) n e) := by
  cases e with
  | none =>
    obtain ⟨x, hx, h⟩ := bind_inv h
    obtain ⟨y, hy, h⟩ := bind_inv h
    obtain ⟨z, hz, h⟩ := bind_inv h
    cases h
    cases hy
    refine ⟨final_plain hx, ?_⟩
    rintro ⟨o', n', e', he, hf⟩
    cases he
    rcases hf with hf | ⟨_, v, hv⟩
    · exact final_takes hz hf
    · cases hv
  | some x =>
    obtain ⟨sep, v⟩ := x
    obtain ⟨x, hx, h⟩ := bind_inv h
    obtain ⟨y, hy, h⟩ := bind_inv h
    cases h
    obtain ⟨as, r', ex'⟩ := x
    obtain ⟨h1, ⟨ws, as', rfl⟩, h3⟩ := final_explicit hx
    refine ⟨h1, ?_⟩
    rintro ⟨o', n', e', he, hf⟩
    cases he
    rcases hf with hf | ⟨hz, v, hv⟩
    · exact final_takes hy hf
    · cases hv
      exact h3 ⟨hz, rfl⟩

theorem final_pos : ∀ {ds ds' : List String} {l r : List (Tag × Word)} {ns ns' : NS}, consumePos ds l ns = .ok (ds', r, ns') →
    HasFinal l → HasFinal r := by
  intro ds
  induction ds with
  | nil => intro ds' l r ns ns' h hu; cases h; exact hu
  | cons d ds ih =>
    intro ds' l r ns ns' h hu
    rw [consumePos.eq_def] at h
    simp only at h
    split at h
    · rename_i w t hl
      split at h
      · cases h
      · refine ih h (final_dropWhile dash_notOpt ?_)
        have := final_dropWhile (f := isDash) dash_notOpt hu
        rw [hl] at this
        exact final_tail rfl this
    · cases h; exact hu

theorem loop_final {p : Parser} : ∀ {n : Nat} {l : List (Tag × Word)} {ds ds' : List String} {ns ns' : NS} {ex ex' : Bool},
    p.loop n l ds ns ex = .ok (ds', ns', ex') → ¬ HasFinal l := by
  intro n
  induction n with
  | zero => intro l ds ds' ns ns' ex ex' h; cases h
  | succ n ih =>
    intro l ds ds' ns ns' ex ex' h hu
    rw [Parser.loop.eq_def] at h
    dsimp only at h
    by_cases ho : l.any isOpt
    · rw [if_pos ho] at h
      split at h
      · cases h
      · refine ih h ?_
        obtain ⟨t, w, hf, hm⟩ := hu
        rcases List.mem_cons.1 hm with e | hm
        · cases e
          obtain ⟨_, _, _, e, _⟩ := hf
          cases e
        · exact ⟨t, w, hf, hm⟩
      · obtain ⟨x, hx, h⟩ := bind_inv h
        obtain ⟨r', ns1, ex1⟩ := x
        obtain ⟨h1, h2⟩ := final_optional hx
        refine ih h (h1 ?_)
        obtain ⟨t, w, hf, hm⟩ := hu
        rcases List.mem_cons.1 hm with e | hm
        · cases e; exact absurd hf h2
        · exact ⟨t, w, hf, hm⟩
      · obtain ⟨x, hx, h⟩ := bind_inv h
        obtain ⟨ds1, r', ns1⟩ := x
        simp only at h
        split at h
        · exact ih h (final_pos hx hu)
        · exact ih h (final_dropWhile (fun x hx => by rw [hx]; rfl) hu)
    · obtain ⟨t, w, ⟨o, n, e, rfl, _⟩, hm⟩ := hu
      exact ho (List.any_eq_true.2 ⟨_, hm, rfl⟩)

theorem parse_final {c : Cmd} {ws : List Word} {x : Cmd × NS} (h : parse (docName c :: ws) = .ok x) :
    ∀ w ∈ ws.takeWhile (fun w => decide (w ≠ ['-', '-'])), ∀ t, c.parser.parseOptional w = .ok t → ¬ Final t := by
  intro w hw t ht hf
  rw [parse_cmd] at h
  obtain ⟨⟨ns, ex⟩, hk, h⟩ := bind_inv h
  obtain ⟨l, hl, hk⟩ := bind_inv hk
  obtain ⟨⟨ds, ns', ex'⟩, hloop, hk⟩ := bind_inv hk
  obtain ⟨t', ht', hp⟩ := tagAll_mem hl w hw
  rw [ht] at hp
  cases hp
  exact loop_final hloop ⟨t, w, hf, ht'⟩

/-- **C114, help.** With `-h` or `--help` (or an abbreviation of it) anywhere before `--`, no command runs and no file is
touched. -/
theorem C114_help (w : World F K) (d : Disk F) (c : Cmd) (ws : List Word)
    (h : ∃ v ∈ ws.takeWhile (fun w => decide (w ≠ ['-', '-'])), v = "-h".toList ∨ Spelled (docNames c) v "--help".toList) :
    ∃ e, script w (docName c :: ws) d = some (d, [], .ended e) := by
  obtain ⟨v, hv, hh⟩ := h
  cases hp : parse (docName c :: ws) with
  | error e => exact ⟨e, by rw [script, hp]⟩
  | ok x =>
    have h1 : c.parser.find "-h".toList = some helpOpt := by cases c <;> decide +kernel
    have h2 : c.parser.find "--help".toList = some helpOpt := by cases c <;> decide +kernel
    rcases hh with rfl | hh
    · exact absurd ⟨_, _, _, rfl, .inl rfl⟩ (parse_final hp _ hv _ (parse_name (parser_good c) h1))
    · rw [← parser_names] at hh
      exact absurd ⟨_, _, _, rfl, .inl rfl⟩ (parse_final hp _ hv _ (spelled_parse (parser_good c) h2 hh).1)

/-- `switss certify mdp m --he` -/
example : ∃ v ∈ ["mdp".toList, "m".toList, "--he".toList].takeWhile (fun w => decide (w ≠ ['-', '-'])),
    v = "-h".toList ∨ Spelled (docNames .certify) v "--help".toList :=
  ⟨"--he".toList, by decide +kernel, .inr (.inr (by decide +kernel))⟩

/-- **C114, help.** If `-h` or `--help` is the first argument of a command and no other argument begins with `-`, the help text is
printed. -/
theorem C114_help_text (w : World F K) (d : Disk F) (c : Cmd) (v : Word) (hv : v = "-h".toList ∨ v = "--help".toList)
    (ws : List Word) (h : ∀ w ∈ ws, Plain w) : script w (docName c :: v :: ws) d = some (d, [], .ended .help) := by
  have h1 : c.parser.parseOptional v = .ok (.opt (some helpOpt) v none) := by
    rcases hv with rfl | rfl <;> cases c <;> decide +kernel
  have hd : v ≠ ['-', '-'] := by rcases hv with rfl | rfl <;> decide
  have h2 : ∀ ws : List Word, (∀ w ∈ ws, Plain w) → ∃ l, c.parser.tagAll ws = .ok l := by
    intro ws
    induction ws with
    | nil => exact fun _ => ⟨_, rfl⟩
    | cons u ws ih =>
      intro h
      obtain ⟨l, hl⟩ := ih fun w hw => h w (List.mem_cons_of_mem _ hw)
      have ht := plain_tagged (parser_good c) (h u List.mem_cons_self)
      exact ⟨(.arg, u) :: l, by rw [Parser.tagAll, if_neg ht.1, ht.2.1, hl]; rfl⟩
  obtain ⟨l, hl⟩ := h2 ws h
  have h3 : c.parser.tagAll (v :: ws) = .ok ((.opt (some helpOpt) v none, v) :: l) := by
    rw [Parser.tagAll, if_neg hd, h1, hl]; rfl
  have : parse (docName c :: v :: ws) = .error .help := by
    rw [parse_cmd, Parser.parseKnown, h3]
    rfl
  rw [script, this]

/-- **C114, flags.** `-h`, `--help` and, for `render`, `-vi` and `--view` take no argument: if one is given after `=`, the command
does not run and no file is touched. -/
theorem C114_flag_value (w : World F K) (d : Disk F) (c : Cmd) (ws : List Word) (s n v : Word) (hn : docArity c n = some .zero)
    (hs : SpelledEq (docNames c) s n) (h : s ++ '=' :: v ∈ ws.takeWhile (fun w => decide (w ≠ ['-', '-']))) :
    ∃ e, script w (docName c :: ws) d = some (d, [], .ended e) := by
  cases hp : parse (docName c :: ws) with
  | error e => exact ⟨e, by rw [script, hp]⟩
  | ok x =>
    rw [← parser_arity, arity] at hn
    obtain ⟨o, ho, hz⟩ := Option.map_eq_some_iff.1 hn
    have := (spelledEq_parse (v := v) (parser_good c) ho (by rw [parser_names]; exact hs)).1
    exact absurd ⟨_, _, _, rfl, .inr ⟨hz, v, rfl⟩⟩ (parse_final hp _ h _ this)

/-- `switss render mdp m -vi=out` and `switss rf --hel=x` meet the hypotheses -/
example : (docArity .render "-vi".toList = some .zero ∧ SpelledEq (docNames .render) "-vi".toList "-vi".toList ∧
      "-vi".toList ++ '=' :: "out".toList ∈
        ["mdp".toList, "m".toList, "-vi=out".toList].takeWhile (fun w => decide (w ≠ ['-', '-']))) ∧
    docArity .rf "--help".toList = some .zero ∧ SpelledEq (docNames .rf) "--hel".toList "--help".toList :=
  ⟨⟨by decide +kernel, .inl rfl, by decide +kernel⟩, by decide +kernel, .inr (by decide +kernel)⟩

theorem skip_eq : ∀ {l l' : List (Tag × Word)} {ex ex' : Bool}, skipOptions l ex = .ok (l', ex') → l' = l ∧ ex' = ex ∨ ex' = true := by
  intro l
  induction l with
  | nil => intro l' ex ex' h; cases h; exact .inl ⟨rfl, rfl⟩
  | cons x l ih =>
    intro l' ex ex' h
    rw [skipOptions.eq_def] at h
    split at h
    · rename_i e
      cases e
      rcases ih h with ⟨_, h⟩ | h <;> exact .inr h
    · obtain ⟨y, _, h⟩ := bind_inv h
      cases h
    · cases h; exact .inl ⟨rfl, rfl⟩

/-- **C114.** A command runs only if its name is the first word: no option, known or unknown, is accepted before it. -/
theorem C114_first_word (ws : List Word) {c : Cmd} {ns : NS} (h : parse ws = .ok (c, ns)) : ws.head? = some (docName c) := by
  obtain ⟨l, hl, e⟩ := main_tagAll ws
  rw [parse, hl] at h
  obtain ⟨l1, hl1, h⟩ := bind_inv h
  cases hl1
  obtain ⟨⟨l', ex⟩, hs, h⟩ := bind_inv h
  simp only at h
  split at h
  · rename_i v r
    split at h
    · cases h
    · rename_i c' hc
      obtain ⟨⟨ns', ex'⟩, hk, h⟩ := bind_inv h
      simp only at h
      split at h
      · cases h
      · rename_i hx
        cases h
        rcases skip_eq hs with ⟨h1, _⟩ | h1
        · have hv := List.find?_some hc
          rw [← e, ← h1, ← name_doc]
          simpa using (of_decide_eq_true hv).symm
        · simp only [h1, Bool.true_or, not_true_eq_false] at hx
  · cases h

/-! ## no exceptions -/

/-- the only exception is the one that stands for numbers outside of the model -/
def Calm {α : Type} (x : Except End α) : Prop := ∀ e, x = .error (.crash e) → e = .outside

theorem calm_ok {α : Type} {a : α} : Calm (.ok a : Except End α) := nofun
theorem calm_usage {α : Type} : Calm (.error .usage : Except End α) := nofun
theorem calm_help {α : Type} : Calm (.error .help : Except End α) := nofun

theorem calm_bind {α β : Type} {x : Except End α} {f : α → Except End β} (h1 : Calm x) (h2 : ∀ a, x = .ok a → Calm (f a)) :
    Calm (x >>= f) := by
  cases x with
  | error e => intro e' h; cases h; exact h1 e' rfl
  | ok a => exact h2 a rfl

theorem calm_convert (d : String) (w : Word) : Calm (convert d w) := by
  rw [convert]
  split
  · split
    · exact calm_ok
    · exact calm_usage
  · split
    · split
      · exact calm_ok
      · intro e h; cases h; rfl
      · exact calm_usage
    · exact calm_ok

theorem calm_forM (d : String) (ws : List Word) : Calm (ws.forM (convert d)) := by
  induction ws with
  | nil => exact calm_ok
  | cons w ws ih => exact calm_bind (calm_convert d w) fun _ _ => ih

theorem calm_take (ns : NS) (o : Opt) (ws : List Word) : Calm (take ns o ws) := by
  rw [take]
  split
  · exact calm_help
  · exact calm_bind (calm_forM _ _) fun _ _ => calm_ok

theorem calm_takes (as : List (Opt × List Word)) : ∀ ns : NS, Calm (as.foldlM (fun ns a => take ns a.1 a.2) ns) := by
  induction as with
  | nil => intro ns; exact calm_ok
  | cons a as ih => intro ns; exact calm_bind (calm_take _ _ _) fun ns' _ => ih ns'

theorem calm_plain (o : Opt) (l : List (Tag × Word)) : Calm (consumePlain o l) := by
  rw [consumePlain.eq_def]
  split
  · exact calm_ok
  · split
    · exact calm_ok
    · exact calm_usage
  · split
    · exact calm_usage
    · exact calm_ok

theorem calm_explicit {p : Parser} : ∀ {v : Word} {o : Opt} {n : Word} {sep : Bool} {l : List (Tag × Word)},
    Calm (p.consumeExplicit l o n sep v) := by
  intro v
  induction hk : v.length using Nat.strong_induction_on generalizing v with
  | _ k ih =>
    intro o n sep l
    subst hk
    rw [Parser.consumeExplicit.eq_def]
    split
    · split
      · exact calm_usage
      · exact calm_ok
    · split
      · split
        · exact calm_usage
        · split
          · exact calm_ok
          · split
            · exact calm_bind (calm_plain _ _) fun _ _ => calm_ok
            · exact calm_bind (ih _ (by simp only [List.length_cons]; omega) rfl) fun _ _ => calm_ok
            · exact calm_bind (ih _ (by simp only [List.length_cons]; omega) rfl) fun _ _ => calm_ok
      · exact calm_ok

theorem calm_optional {p : Parser} {o : Opt} {n : Word} {e : Option (Bool × Word)} {l : List (Tag × Word)} {ns : NS} :
    Calm (p.consumeOptional o n e l ns) := by
  cases e with
  | none => exact calm_bind (calm_plain _ _) fun _ _ => calm_bind calm_ok fun _ _ => calm_bind (calm_takes _ _) fun _ _ => calm_ok
  | some x => exact calm_bind calm_explicit fun _ _ => calm_bind (calm_takes _ _) fun _ _ => calm_ok

theorem calm_pos : ∀ {ds : List String} {l : List (Tag × Word)} {ns : NS}, Calm (consumePos ds l ns) := by
  intro ds
  induction ds with
  | nil => intro l ns; exact calm_ok
  | cons d ds ih =>
    intro l ns
    rw [consumePos.eq_def]
    simp only
    split
    · split
      · rename_i e he
        intro e' h
        cases h
        exact calm_forM _ _ _ he
      · exact ih
    · exact calm_ok

theorem calm_loop {p : Parser} : ∀ {n : Nat} {l : List (Tag × Word)} {ds : List String} {ns : NS} {ex : Bool}, Calm (p.loop n l ds ns ex) := by
  intro n
  induction n with
  | zero => intro l ds ns ex; exact calm_usage
  | succ n ih =>
    intro l ds ns ex
    rw [Parser.loop.eq_def]
    dsimp only
    split
    · split
      · exact calm_usage
      · exact ih
      · exact calm_bind calm_optional fun _ _ => ih
      · refine calm_bind calm_pos fun _ _ => ?_
        split <;> exact ih
    · exact calm_bind calm_pos fun _ _ => calm_ok

theorem calm_tag {p : Parser} {w : Word} : Calm (p.parseOptional w) := by
  rw [Parser.parseOptional.eq_def]
  repeat' split
  all_goals first | exact calm_ok | exact calm_usage

theorem calm_tagAll {p : Parser} (ws : List Word) : Calm (p.tagAll ws) := by
  induction ws with
  | nil => exact calm_ok
  | cons w ws ih =>
    rw [Parser.tagAll]
    split
    · exact calm_ok
    · exact calm_bind calm_tag fun _ _ => calm_bind ih fun _ _ => calm_ok

theorem calm_skip : ∀ {l : List (Tag × Word)} {ex : Bool}, Calm (skipOptions l ex) := by
  intro l
  induction l with
  | nil => intro ex; exact calm_ok
  | cons x l ih =>
    intro ex
    rw [skipOptions.eq_def]
    split
    · rename_i e; cases e; exact ih
    · exact calm_bind calm_optional fun _ _ => calm_help
    · exact calm_ok

/-- **C114.** Whatever the arguments are, parsing them ends with a command, the help text or a usage message, never with an
exception (numbers like `nan` given as tolerance are outside of the model). -/
theorem C114_no_exception (ws : List Word) (e : Err) (h : parse ws = .error (.crash e)) : e = .outside := by
  revert h
  revert e
  change Calm (parse ws)
  rw [parse]
  refine calm_bind (calm_tagAll _) fun l _ => calm_bind calm_skip fun x _ => ?_
  obtain ⟨l', ex⟩ := x
  match l' with
  | [] => exact calm_usage
  | (.opt _ _ _, _) :: _ => exact calm_usage
  | (.dash, _) :: _ => exact calm_usage
  | (.arg, v) :: r =>
    dsimp only
    split
    · exact calm_usage
    · refine calm_bind (calm_bind (calm_tagAll _) fun _ _ => calm_bind calm_loop fun _ _ => ?_) fun _ _ => ?_
      · repeat' split
        all_goals first | exact calm_ok | exact calm_usage
      · repeat' split
        all_goals first | exact calm_ok | exact calm_usage

/-- **C114.** Without the name of a command, the script ends with a usage message (or the help text) and touches no file. -/
theorem C114_no_command (w : World F K) (d : Disk F) (ws : List Word) (h : ∀ v, ws.head? = some v → Plain v ∧ ∀ c : Cmd, v ≠ docName c) :
    script w ws d = some (d, [], .ended .usage) := by
  have : parse ws = .error .usage := by
    cases ws with
    | nil => rfl
    | cons v ws =>
      obtain ⟨h1, h2⟩ := h v rfl
      obtain ⟨l, hl, e⟩ := main_tagAll ws
      have hg : Good mainParser := goodB _ (by decide +kernel)
      have ht := plain_tagged hg h1
      have h4 : mainParser.tagAll (v :: ws) = .ok ((.arg, v) :: l) := by
        rw [Parser.tagAll, if_neg ht.1, ht.2.1, hl]; rfl
      have h5 : (Cmd.all.find? fun c => c.name = v) = none := by
        rw [List.find?_eq_none]
        intro c _ hc
        exact h2 c (by rw [← name_doc]; simpa using (of_decide_eq_true hc).symm)
      rw [parse, h4]
      simp only [bind, Except.bind, skipOptions, h5]
  rw [script, this]

/-! ## examples -/

/-- `-t goal mdp --out=x m -frfail` for `switss rf` -/
def exLine : List Item := [.sep "-t".toList "-t".toList ["goal".toList], .pos "mdp".toList, .eq "--out".toList "--output".toList "x".toList,
  .pos "m".toList, .sep "--fail".toList "--fail-label-rf".toList ["-".toList]]

theorem exLine_line : Line .rf exLine := by
  refine ⟨?_, ?_, by decide +kernel, ?_⟩
  · intro i hi
    simp only [exLine, List.mem_cons, List.not_mem_nil, or_false] at hi
    rcases hi with rfl | rfl | rfl | rfl | rfl
    · exact ⟨⟨.one, by decide +kernel, rfl⟩, .inl rfl, fun v hv => by rw [List.mem_singleton.1 hv]; exact .inl (by decide +kernel)⟩
    · exact .inl (by decide +kernel)
    · exact ⟨⟨.one, by decide +kernel, by decide⟩, .inr (by decide +kernel)⟩
    · exact .inl (by decide +kernel)
    · exact ⟨⟨.one, by decide +kernel, rfl⟩, .inr (by decide +kernel), fun v hv => by rw [List.mem_singleton.1 hv]; exact .inr (.inl (by decide +kernel))⟩
  · refine ⟨by decide +kernel, ?_⟩
    exact trivial
  · have : exLine.filterMap (givesOpt "-tol" "--tolerance") = [] := by decide +kernel
    rw [this]
    exact nofun

example : lineOf exLine = ["-t".toList, "goal".toList, "mdp".toList, "--out=x".toList, "m".toList, "--fail".toList, "-".toList] ∧
    CompleteArg exLine .mdp "m".toList := by
  refine ⟨by decide +kernel, by decide +kernel, ?_⟩
  have : exLine.filterMap (givesOpt "-tol" "--tolerance") = [] := by decide +kernel
  rw [this]
  exact nofun

example : asked (fun q : ℚ => q) .rf exLine .mdp "m".toList =
    some (Command.rf .mdp "m" "init" "goal" "rf_target" "-" (some "x")) := by
  rw [asked]
  have h1 : theOne exLine "-i" "--initial-label" "init" = "init" := by decide +kernel
  have h2 : theOne exLine "-t" "--target-label" "target" = "goal" := by decide +kernel
  have h3 : theOne exLine "-trf" "--target-label-rf" "rf_target" = "rf_target" := by decide +kernel
  have h4 : theOne exLine "-frf" "--fail-label-rf" "rf_fail" = "-" := by decide +kernel
  have h5 : theOne? exLine "-o" "--output" = some "x" := by decide +kernel
  have h6 : String.ofList "m".toList = "m" := by decide +kernel
  simp only [h1, h2, h3, h4, h5, h6]

/-- the hypothesis of `C114_rejects` is met: one positional argument only -/
example : Line .info [.pos "mdp".toList] ∧ ¬ ∃ kind path, CompleteArg [.pos "mdp".toList] kind path := by
  refine ⟨⟨?_, trivial, rfl, nofun⟩, ?_⟩
  · intro i hi
    rw [List.mem_singleton.1 hi]
    exact .inl (by decide +kernel)
  · rintro ⟨kind, path, h, _⟩
    have := congrArg List.length h
    simp [positions] at this

/-- `C114_every_word`: a command that runs, with a word that begins with `-`; an unknown option -/
example : (∃ x, parse ["rf".toList, "mdp".toList, "m".toList, "-tgoal".toList] = .ok x) ∧
    parse ["rf".toList, "mdp".toList, "m".toList, "--foo".toList] = .error .usage := by
  refine ⟨?_, by decide +kernel⟩
  have : (parse ["rf".toList, "mdp".toList, "m".toList, "-tgoal".toList]).isOk = true := by decide +kernel
  cases h : parse ["rf".toList, "mdp".toList, "m".toList, "-tgoal".toList] with
  | ok x => exact ⟨x, rfl⟩
  | error e => rw [h] at this; cases this

/-- negative numbers and words with blanks may follow an option: `switss certify mdp m -tol -0.5` -/
example : Line .certify [.pos "mdp".toList, .pos "- m".toList, .sep "-tol".toList "-tol".toList ["-0.5".toList]] ∧
    CompleteArg [.pos "mdp".toList, .pos "- m".toList, .sep "-tol".toList "-tol".toList ["-0.5".toList]] .mdp "- m".toList := by
  have h : [Item.pos "mdp".toList, .pos "- m".toList, .sep "-tol".toList "-tol".toList ["-0.5".toList]].filterMap
      (givesOpt "-tol" "--tolerance") = [["-0.5".toList]] := by decide +kernel
  refine ⟨⟨?_, trivial, by decide +kernel, ?_⟩, by decide +kernel, ?_⟩
  · intro i hi
    simp only [List.mem_cons, List.not_mem_nil, or_false] at hi
    rcases hi with rfl | rfl | rfl
    · exact .inl (by decide +kernel)
    · exact .inr (.inr (.inr ⟨' ', ['m'], by decide +kernel, by decide, by decide, by decide +kernel⟩))
    · exact ⟨⟨.one, by decide +kernel, rfl⟩, .inl rfl, fun v hv => by
        rw [List.mem_singleton.1 hv]
        exact .inr (.inr (.inl (.inr ⟨['0'], ['5'], by decide, by decide, by decide, by decide +kernel⟩)))⟩
  · rw [h]
    intro vs hvs v hv
    rw [List.mem_singleton.1 hvs] at hv
    rw [List.mem_singleton.1 hv]
    decide +kernel
  · rw [h]
    intro vs hvs v hv
    rw [List.mem_singleton.1 hvs] at hv
    rw [List.mem_singleton.1 hv]
    exact ⟨-1 / 2, by decide +kernel⟩

/-- the help text -/
example : parse ["rf".toList, "--help".toList] = .error .help := by decide +kernel

/-! ## what does not hold -/

/-- **C114, negative.** `-m`, `-s` and `-si` take all words that follow: if they are written before the positional arguments, these
are lost and the command is rejected. -/
theorem C114_order_false (w : World F K) (d : Disk F) (n : Word) (hn : n ∈ ["-m".toList, "--method".toList, "-s".toList, "--solve".toList,
      "-si".toList, "--solve-iter".toList]) (vs : List Word) (k path : Word) (hv : ∀ v ∈ vs, Plain v) (hk : Plain k) (hp : Plain path) :
    script w ("minimize".toList :: n :: (vs ++ [k, path])) d = some (d, [], .ended .usage) := by
  have ha : docArity .minimize n = some .plus := by
    simp only [List.mem_cons, List.not_mem_nil, or_false] at hn
    rcases hn with rfl | rfl | rfl | rfl | rfl | rfl <;> decide +kernel
  have hg : ∀ s l : String, s.toList ∉ ["-m".toList, "--method".toList, "-s".toList, "--solve".toList, "-si".toList, "--solve-iter".toList] →
      l.toList ∉ ["-m".toList, "--method".toList, "-s".toList, "--solve".toList, "-si".toList, "--solve-iter".toList] →
      [Item.sep n n (vs ++ [k, path])].filterMap (givesOpt s l) = [] := by
    intro s l h1 h2
    have : ¬ (n = s.toList ∨ n = l.toList) := by
      rintro (rfl | rfl)
      · exact h1 hn
      · exact h2 hn
    simp only [List.filterMap_cons, givesOpt, if_neg this, List.filterMap_nil]
  have hl : Line .minimize [.sep n n (vs ++ [k, path])] := by
    refine ⟨?_, trivial, hg _ _ (by decide +kernel) (by decide +kernel), ?_⟩
    · intro i hi
      rw [List.mem_singleton.1 hi]
      refine ⟨⟨.plus, ha, ?_⟩, .inl rfl, ?_⟩
      · change 1 ≤ _
        simp
      · intro v hv'
        rcases List.mem_append.1 hv' with h | h
        · exact hv v h
        · simp only [List.mem_cons, List.not_mem_nil, or_false] at h
          rcases h with rfl | rfl
          · exact hk
          · exact hp
    · rw [hg _ _ (by decide +kernel) (by decide +kernel)]
      exact nofun
  have := C114_rejects w d hl (by rintro ⟨kind, q, h, _⟩; cases h)
  change script w (docName .minimize :: _) d = _
  simpa [lineOf, Item.words] using this

/-- **C114, negative.** An option of another command is not always refused: for `switss rf`, `-tol1e-3` (or `-tol=1e-3`) is `-t`
with the argument `ol1e-3`, another label of the target states. -/
theorem C114_foreign_false (w : World F K) (d : Disk F) (kind : Kind) (path v : Word) (hp : Plain path) :
    script w ("rf".toList :: (kindWord kind) :: path :: ["-tol".toList ++ v]) d =
      let x : Command K := .rf kind (String.ofList path) "init" (String.ofList ("ol".toList ++ v)) "rf_target" "rf_fail" none
      some ((run w x d).disk, (run w x d).verdicts, .done (run w x d).outcome) := by
  have hno : ∀ m ∈ docNames .rf, ¬ "-tol".toList <+: m := by decide +kernel
  have hk : Plain (kindWord kind) := by
    cases kind <;> exact .inl (by decide +kernel)
  have hl : Line .rf [.pos (kindWord kind), .pos path,
      .glued "-t".toList ("ol".toList ++ v)] := by
    refine ⟨?_, trivial, ?_, ?_⟩
    · intro i hi
      simp only [List.mem_cons, List.not_mem_nil, or_false] at hi
      rcases hi with rfl | rfl | rfl
      · exact hk
      · exact hp
      · refine ⟨⟨.one, by decide +kernel, by decide⟩, by decide +kernel, fun h => hno _ h ⟨v, rfl⟩, fun h => hno _ h ?_, fun m hm h => hno m hm ?_⟩
        · exact ⟨v.takeWhile fun c => decide (c ≠ '='), rfl⟩
        · exact List.IsPrefix.trans ⟨v, rfl⟩ h
    · rfl
    · intro vs h
      have : [.pos (kindWord kind), .pos path,
        Item.glued "-t".toList ("ol".toList ++ v)].filterMap (givesOpt "-tol" "--tolerance") = [] := rfl
      rw [this] at h
      cases h
  have := C114_runs w d hl (kind := kind) (path := path) ⟨rfl, fun vs h => by
    have e : [.pos (kindWord kind), .pos path,
        Item.glued "-t".toList ("ol".toList ++ v)].filterMap (givesOpt "-tol" "--tolerance") = [] := rfl
    rw [e] at h
    cases h⟩
  exact this

/-- **C114, negative.** A command may also end with an exception after its arguments were accepted: after `--`, a second `--` counts
as the path of the model and is then removed, so that no path is left (the file `--` cannot be named like this). -/
theorem C114_dashes_false (w : World F K) (d : Disk F) (c : Cmd) (kind : Kind) :
    script w [docName c, kindWord kind, "--".toList, "--".toList] d = some (d, [], .ended (.crash .typeError)) := by
  have h : ∀ (c : Cmd) (kind : Kind), (match parse [docName c, kindWord kind, "--".toList, "--".toList] with
      | .ok (_, ns) => !ns.complete
      | .error _ => false) = true := by
    intro c kind
    cases c <;> cases kind <;> decide +kernel
  have := h c kind
  unfold script
  cases hp : parse [docName c, kindWord kind, "--".toList, "--".toList] with
  | error e => rw [hp] at this; cases this
  | ok x =>
    rw [hp] at this
    simp only at this
    simp only [this, if_true]

end Verif.Props
