import Verif.Model.Files
/-!
# The command line of `bin/switss`: `argparse`

`argparse` belongs to the standard library of python; `_parse_optional`, `_get_option_tuples`, `_parse_known_args` and the
functions they call are modelled for the parsers that bin/switss:174-329 builds (CPython 3.11.10; other versions treat
`--` and some abbreviations differently).  The positions of the original in the list of arguments are suffixes of the list here.
Not modelled: the texts of the messages; that `$` also matches before a final line break and `\d` other than ASCII digits in the
pattern of negative numbers.
-/

namespace Verif.Model.Argparse
open Text Cli

/-- one argument -/
abbrev Word := List Char

/-- how parsing ends without a result: `parser.error`, which is `sys.exit(2)`; the help text and `sys.exit(0)`; an exception -/
inductive End
  | usage
  | help
  | crash (e : Err)
  deriving DecidableEq, Repr

/-- `nargs`: 0 for a flag, `None` and `"+"` -/
inductive Nargs
  | zero
  | one
  | plus
  deriving DecidableEq, Repr

/-- an option: its spellings, the number of its arguments, and the attribute in which it is stored; `-h` has the attribute
`help` -/
structure Opt where
  names : List Word
  nargs : Nargs
  dest : String
  deriving DecidableEq

/-- a parser: its options, and the attributes of its positional arguments (with `nargs=None`) -/
structure Parser where
  opts : List Opt
  pos : List String

/-- `_option_string_actions` -/
def Parser.strings (p : Parser) : List (Word × Opt) := p.opts.flatMap fun o => o.names.map fun n => (n, o)

def Parser.find (p : Parser) (w : Word) : Option Opt := Dict.get? p.strings w

/-- `w.split("=", 1)`, if there is a `=` -/
def cutEq (w : Word) : Option (Word × Word) :=
  match w.dropWhile (· ≠ '=') with
  | [] => none
  | _ :: v => some (w.takeWhile (· ≠ '='), v)

/-- what an argument is taken for: an option (`none`: unknown) with its spelling and the argument given with it — after `=`, or
immediately —, the argument `--`, or something else (the letters O, - and A of `arg_string_pattern_parts`) -/
inductive Tag
  | opt (o : Option Opt) (name : Word) (explicit : Option (Bool × Word))
  | dash
  | arg
  deriving DecidableEq

/-- `_get_option_tuples`: the options of which the argument may be an abbreviation, or a short option with its argument -/
def Parser.tuples (p : Parser) (w : Word) : List Tag :=
  match w with
  | '-' :: '-' :: _ =>
    let pe : Word × Option (Bool × Word) := match cutEq w with
      | some (n, v) => (n, some (true, v))
      | none => (w, none)
    (p.strings.filter fun x => pe.1.isPrefixOf x.1).map fun x => .opt (some x.2) x.1 pe.2
  | _ => p.strings.filterMap fun x =>
    if x.1 = w.take 2 then some (.opt (some x.2) x.1 (some (false, w.drop 2)))
    else if w.isPrefixOf x.1 then some (.opt (some x.2) x.1 none)
    else none

/-- `^-\d+$|^-\d*\.\d+$` -/
def negNumber : Word → Bool
  | '-' :: r =>
    match r.dropWhile Char.isDigit with
    | [] => r ≠ []
    | '.' :: s => s ≠ [] && s.all Char.isDigit
    | _ => false
  | _ => false

/-- `_parse_optional`.  No option of these parsers looks like a negative number. -/
def Parser.parseOptional (p : Parser) (w : Word) : Except End Tag :=
  match w with
  | [] => .ok .arg
  | c :: r =>
    if c ≠ '-' then .ok .arg
    else
      match p.find w with
      | some o => .ok (.opt (some o) w none)
      | none =>
        if r = [] then .ok .arg
        else
          match (cutEq w).bind fun x => (p.find x.1).map fun o => Tag.opt (some o) x.1 (some (true, x.2)) with
          | some t => .ok t
          | none =>
            match p.tuples w with
            | _ :: _ :: _ => .error .usage
            | [t] => .ok t
            | [] =>
              if negNumber w then .ok .arg
              else if ' ' ∈ w then .ok .arg
              else .ok (.opt none w none)

/-- the first loop of `_parse_known_args`: everything after `--` is no option -/
def Parser.tagAll (p : Parser) : List Word → Except End (List (Tag × Word))
  | [] => .ok []
  | w :: ws =>
    if w = ['-', '-'] then .ok ((.dash, w) :: ws.map fun x => (.arg, x))
    else do
      let t ← p.parseOptional w
      let r ← p.tagAll ws
      .ok ((t, w) :: r)

/-- the attributes set so far -/
abbrev NS := Dict String (List Word)

/-- `_get_values`: the choices of `modeltype` (bin/switss:285) and the type of `tolerance` (bin/switss:309, 314) -/
def convert (dest : String) (w : Word) : Except End Unit :=
  if dest = "modeltype" then
    if w = "mdp".toList ∨ w = "dtmc".toList then .ok () else .error .usage
  else if dest = "tolerance" then
    match pyFloat w with
    | .ok _ => .ok ()
    | .error .outside => .error (.crash .outside)
    | .error _ => .error .usage
  else .ok ()

/-- the call of an action -/
def take (ns : NS) (o : Opt) (ws : List Word) : Except End NS :=
  if o.dest = "help" then .error .help
  else do
    ws.forM (convert o.dest)
    .ok (ns.set o.dest ws)

def isArg (x : Tag × Word) : Bool := x.1 = .arg
def isDash (x : Tag × Word) : Bool := x.1 = .dash
def isOpt (x : Tag × Word) : Bool :=
  match x.1 with
  | .opt _ _ _ => true
  | _ => false

/-- `consume_optional` for an option without an argument in the same word: the arguments and the rest -/
def consumePlain (o : Opt) (l : List (Tag × Word)) : Except End (List Word × List (Tag × Word)) :=
  match o.nargs with
  | .zero => .ok ([], l)
  | .one =>
    match l with
    | (.arg, w) :: r => .ok ([w], r)
    | _ => .error .usage
  | .plus =>
    if (l.takeWhile isArg).isEmpty then .error .usage
    else .ok ((l.takeWhile isArg).map Prod.snd, l.dropWhile isArg)

/-- `consume_optional` for an option with an argument in the same word, after `=` if `sep`: the actions, the rest, and whether
there are `extras`.  A flag like `-h` may be followed by other short options in the same word. -/
def Parser.consumeExplicit (p : Parser) (l : List (Tag × Word)) (o : Opt) (name : Word) (sep : Bool) :
    Word → Except End (List (Opt × List Word) × List (Tag × Word) × Bool)
  | [] =>
    match o.nargs with
    | .zero => .error .usage
    | _ => .ok ([(o, [[]])], l, false)
  | c :: v =>
    match o.nargs with
    | .zero =>
      if name[1]? = some '-' ∨ sep ∨ c = '-' then .error .usage
      else
        match p.find ['-', c] with
        | none => .ok ([(o, [])], l, true)
        | some o' =>
          match v with
          | [] => do
            let (ws, r) ← consumePlain o' l
            .ok ([(o, []), (o', ws)], r, false)
          | '=' :: v => do
            let (as, r, ex) ← p.consumeExplicit l o' ['-', c] true v
            .ok ((o, []) :: as, r, ex)
          | v => do
            let (as, r, ex) ← p.consumeExplicit l o' ['-', c] false v
            .ok ((o, []) :: as, r, ex)
    | _ => .ok ([(o, [c :: v])], l, false)

/-- `consume_optional`: the rest, the attributes, and whether there are `extras` -/
def Parser.consumeOptional (p : Parser) (o : Opt) (name : Word) (explicit : Option (Bool × Word)) (l : List (Tag × Word))
    (ns : NS) : Except End (List (Tag × Word) × NS × Bool) := do
  let (as, r, ex) ← match explicit with
    | none => do
      let (ws, r) ← consumePlain o l
      .ok ([(o, ws)], r, false)
    | some (sep, v) => p.consumeExplicit l o name sep v
  let ns' ← as.foldlM (fun ns a => take ns a.1 a.2) ns
  .ok (r, ns', ex)

/-- `consume_positionals`: as many positional arguments as there are.  The pattern of one is `(-*A-*)`; `--` is removed once
(a second `--` leaves an empty list).  The result: what is still expected, what is left, the attributes. -/
def consumePos : List String → List (Tag × Word) → NS → Except End (List String × List (Tag × Word) × NS)
  | [], l, ns => .ok ([], l, ns)
  | d :: ds, l, ns =>
    match l.dropWhile isDash with
    | (.arg, w) :: r =>
      let ws := (((l.takeWhile isDash).map Prod.snd) ++ w :: ((r.takeWhile isDash).map Prod.snd)).erase ['-', '-']
      match ws.forM (convert d) with
      | .error e => .error e
      | .ok _ => consumePos ds (r.dropWhile isDash) (ns.set d ws)
    | _ => .ok (d :: ds, l, ns)

/-- the second loop of `_parse_known_args` and what follows it: the positional arguments that are still expected, the
attributes, and whether there are `extras`.  The first argument bounds the number of rounds. -/
def Parser.loop (p : Parser) : Nat → List (Tag × Word) → List String → NS → Bool → Except End (List String × NS × Bool)
  | 0, _, _, _, _ => .error .usage
  | n + 1, l, ds, ns, ex =>
    if l.any isOpt then
      match l with
      | [] => .error .usage
      | (.opt none _ _, _) :: r => p.loop n r ds ns true
      | (.opt (some o) name explicit, _) :: r => do
        let (r', ns', ex') ← p.consumeOptional o name explicit r ns
        p.loop n r' ds ns' (ex || ex')
      | x :: r => do
        let (ds', r', ns') ← consumePos ds (x :: r) ns
        if r'.length < (x :: r).length then p.loop n r' ds' ns' ex
        else p.loop n ((x :: r).dropWhile fun y => !isOpt y) ds ns true
    else do
      let (ds', r', ns') ← consumePos ds l ns
      .ok (ds', ns', ex || !r'.isEmpty)

/-- `parse_known_args` of a parser: the attributes and whether there are unknown arguments -/
def Parser.parseKnown (p : Parser) (ws : List Word) : Except End (NS × Bool) := do
  let l ← p.tagAll ws
  let (ds, ns, ex) ← p.loop (l.length + 1) l p.pos [] false
  if ds = [] then .ok (ns, ex) else .error .usage

/-! ## the parsers -/

/-- bin/switss:268-275 -/
inductive Cmd
  | rf | info | minimize | certify | subsystem | render
  deriving DecidableEq, Repr

def Cmd.name : Cmd → Word
  | .rf => "rf".toList
  | .info => "info".toList
  | .minimize => "minimize".toList
  | .certify => "certify".toList
  | .subsystem => "subsystem".toList
  | .render => "render".toList

def Cmd.all : List Cmd := [.rf, .info, .minimize, .certify, .subsystem, .render]

def opt (short long : String) (nargs : Nargs) (dest : String) : Opt := ⟨[short.toList, long.toList], nargs, dest⟩

def helpOpt : Opt := opt "-h" "--help" .zero "help"

/-- bin/switss:288-291 -/
def labelOpts : List Opt :=
  [opt "-i" "--initial-label" .one "initial_label", opt "-trf" "--target-label-rf" .one "target_label_rf",
   opt "-frf" "--fail-label-rf" .one "fail_label_rf"]

/-- bin/switss:284-328 -/
def Cmd.parser (c : Cmd) : Parser where
  pos := ["modeltype", "modelpath"]
  opts := helpOpt :: match c with
    | .rf => labelOpts ++ [opt "-t" "--target-label" .one "target_label", opt "-o" "--output" .one "output"]
    | .info => []
    | .minimize => labelOpts ++ [opt "-c" "--certificate" .one "certificate", opt "-m" "--method" .plus "method",
        opt "-s" "--solve" .plus "solve", opt "-si" "--solve-iter" .plus "solve_iter", opt "-tol" "--tolerance" .one "tolerance"]
    | .certify => labelOpts ++ [opt "-c" "--certificate" .one "certificate", opt "-tol" "--tolerance" .one "tolerance"]
    | .subsystem => labelOpts ++ [opt "-c" "--certificate" .one "certificate", opt "-o" "--output" .one "output",
        opt "-sl" "--subsys-label" .one "subsys_label"]
    | .render => [opt "-o" "--output" .one "output", opt "-vi" "--view" .zero "view", opt "-col" "--coloring" .one "coloring"]

/-- the parser of the script itself, without the sub-commands -/
def mainParser : Parser := ⟨[helpOpt], []⟩

/-- the arguments up to the name of the command: unknown options are `extras` -/
def skipOptions : List (Tag × Word) → Bool → Except End (List (Tag × Word) × Bool)
  | (.opt none _ _, _) :: r, _ => skipOptions r true
  | (.opt (some o) name explicit, _) :: r, _ => do
    let _ ← mainParser.consumeOptional o name explicit r []
    .error .help
  | l, ex => .ok (l, ex)

/-- bin/switss:329 `parser.parse_args()`: the command and its attributes.  `--` before the command is taken for the name of a
command.  Without a command there is no attribute `func` (bin/switss:331-333). -/
def parse (ws : List Word) : Except End (Cmd × NS) := do
  let l ← mainParser.tagAll ws
  let (l, ex) ← skipOptions l false
  match l with
  | (.arg, w) :: r =>
    match Cmd.all.find? fun c => c.name = w with
    | none => .error .usage
    | some c => do
      let (ns, ex') ← c.parser.parseKnown (r.map Prod.snd)
      if ex || ex' then .error .usage else .ok (c, ns)
  | _ => .error .usage

/-! ## the arguments of the commands -/

open Files

/-- an attribute with one value, or its default value -/
def NS.str (ns : NS) (dest dflt : String) : String :=
  match Dict.get? ns dest with
  | some (w :: _) => String.ofList w
  | _ => dflt

/-- an attribute whose default value is `None` -/
def NS.str? (ns : NS) (dest : String) : Option String :=
  match Dict.get? ns dest with
  | some (w :: _) => some (String.ofList w)
  | _ => none

/-- an attribute with several values and the default value `[]` -/
def NS.list (ns : NS) (dest : String) : List Word := (Dict.get? ns dest).getD []

/-- bin/switss:309, 314: the default value is `1e-5`; `rd` is the rounding of a decimal number to a float -/
def NS.tolerance {K : Type} (rd : ℚ → K) (ns : NS) : K :=
  match Dict.get? ns "tolerance" with
  | some (w :: _) =>
    match pyFloat w with
    | .ok x => rd x
    | .error _ => rd 0
  | _ => rd (1 / 10 ^ 5)

/-- bin/switss:33 -/
def NS.kind (ns : NS) : Kind := if ns.str "modeltype" "" = "dtmc" then .dtmc else .mdp

/-- a second `--` may leave no word for the model: `load_model` raises an exception (bin/switss:33-34) -/
def NS.complete (ns : NS) : Bool := Dict.get? ns "modeltype" ≠ some [] && Dict.get? ns "modelpath" ≠ some []

/-- the command with its arguments; `render` is treated in `Model/Render.lean` -/
def command {K : Type} (rd : ℚ → K) (c : Cmd) (ns : NS) : Option (Command K) :=
  let path := ns.str "modelpath" ""
  let il := ns.str "initial_label" "init"
  let tl := ns.str "target_label_rf" "rf_target"
  let fl := ns.str "fail_label_rf" "rf_fail"
  match c with
  | .rf => some (.rf ns.kind path il (ns.str "target_label" "target") tl fl (ns.str? "output"))
  | .info => some (.info ns.kind path)
  | .minimize => some (.minimize ns.kind path il tl fl (ns.list "method") (ns.list "solve") (ns.list "solve_iter") (ns.str? "certificate") (ns.tolerance rd))
  | .certify => some (.certify ns.kind path il tl fl (ns.str? "certificate") (ns.tolerance rd))
  | .subsystem => some (.subsystem ns.kind path il tl fl (ns.str "subsys_label" "subsystem") (ns.str? "certificate") (ns.str? "output"))
  | .render => none

/-- how a run of the script with these arguments ends -/
inductive Ran
  | ended (e : End)
  | done (o : Outcome)
  deriving DecidableEq, Repr

variable {K : Type} [Field K] [LinearOrder K] [IsStrictOrderedRing K] [FloorRing K]

/-- the script for all commands but `render`, for which the answer is `none` (see `Render.script`) -/
def script {F : Type} [DecidableEq F] (w : World F K) (ws : List Word) (d : Disk F) : Option (Disk F × List Bool × Ran) :=
  match parse ws with
  | .error e => some (d, [], .ended e)
  | .ok (c, ns) =>
    if !ns.complete then some (d, [], .ended (.crash .typeError))
    else match command w.rd c ns with
    | none => none
    | some c =>
      let r := run w c d
      some (r.disk, r.verdicts, .done r.outcome)

end Verif.Model.Argparse
