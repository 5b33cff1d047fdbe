import Verif.Model.Cli
/-!
# The `.json` files of `bin/switss`: `json.dump` and `json.load`

Both functions belong to the standard library of python; they are modelled with their default arguments, as they are
called in bin/switss:56-58, 116-118 and 123-124.  Not modelled: the limit on the depth of recursion and on the number of
digits of an integer.
-/

namespace Verif.Model.Json
open Text

/-- the python values that a `.json` file can hold; an object is a dictionary, which keeps its order -/
inductive Value (K : Type)
  | null
  | bool (b : Bool)
  | int (i : Int)
  | float (x : K)
  | str (s : String)
  | arr (vs : List (Value K))
  | obj (kvs : List (String × Value K))

variable {K : Type}

/-! ## writing -/

/-- `'{0:04x}'.format(n)` for `n < 2 ^ 16` -/
def hex4 (n : Nat) : List Char :=
  [Nat.digitChar (n / 4096 % 16), Nat.digitChar (n / 256 % 16), Nat.digitChar (n / 16 % 16), Nat.digitChar (n % 16)]

/-- one character of a string (`py_encode_basestring_ascii` of the module `json.encoder`) -/
def escape (c : Char) : List Char :=
  if c = '"' then ['\\', '"']
  else if c = '\\' then ['\\', '\\']
  else if c = '\n' then ['\\', 'n']
  else if c = '\r' then ['\\', 'r']
  else if c = '\t' then ['\\', 't']
  else if c = '\x0c' then ['\\', 'f']
  else if c = '\x08' then ['\\', 'b']
  else if 32 ≤ c.toNat ∧ c.toNat ≤ 126 then [c]
  else if c.toNat < 0x10000 then '\\' :: 'u' :: hex4 c.toNat
  else '\\' :: 'u' :: hex4 (0xd800 + (c.toNat - 0x10000) / 1024) ++ '\\' :: 'u' :: hex4 (0xdc00 + (c.toNat - 0x10000) % 1024)

/-- a string with its quotes -/
def dumpStr (s : String) : List Char := '"' :: s.toList.flatMap escape ++ ['"']

/-- `int.__repr__` -/
def dumpInt (i : Int) : List Char := (if i < 0 then ['-'] else []) ++ fmtD i.natAbs

mutual
/-- `json.dump(v, fp)`: the text written (`_make_iterencode` of the module `json.encoder` with the default separators).
`fr` is `float.__repr__`. -/
def dump (fr : K → List Char) : Value K → List Char
  | .null => ['n', 'u', 'l', 'l']
  | .bool true => ['t', 'r', 'u', 'e']
  | .bool false => ['f', 'a', 'l', 's', 'e']
  | .int i => dumpInt i
  | .float x => fr x
  | .str s => dumpStr s
  | .arr vs => '[' :: dumpItems fr vs ++ [']']
  | .obj kvs => '{' :: dumpMembers fr kvs ++ ['}']

/-- the elements of a list, separated by `", "` -/
def dumpItems (fr : K → List Char) : List (Value K) → List Char
  | [] => []
  | [v] => dump fr v
  | v :: v' :: vs => dump fr v ++ ',' :: ' ' :: dumpItems fr (v' :: vs)

/-- the members of a dictionary, separated by `", "` -/
def dumpMembers (fr : K → List Char) : List (String × Value K) → List Char
  | [] => []
  | [(k, v)] => dumpStr k ++ ':' :: ' ' :: dump fr v
  | (k, v) :: kv' :: kvs => dumpStr k ++ ':' :: ' ' :: dump fr v ++ ',' :: ' ' :: dumpMembers fr (kv' :: kvs)
end

/-! ## reading -/

/-- the white space of the module `json.decoder` -/
def isWs (c : Char) : Bool := c = ' ' || c = '\t' || c = '\n' || c = '\r'

def skip (s : List Char) : List Char := s.dropWhile isWs

/-- the value of a hexadecimal digit -/
def hexDigit (c : Char) : Option Nat :=
  let n := c.toNat
  if 48 ≤ n ∧ n ≤ 57 then some (n - 48)
  else if 97 ≤ n ∧ n ≤ 102 then some (n - 87)
  else if 65 ≤ n ∧ n ≤ 70 then some (n - 55)
  else none

/-- four hexadecimal digits and the rest -/
def scanHex : List Char → Option (Nat × List Char)
  | a :: b :: c :: d :: r =>
    match hexDigit a, hexDigit b, hexDigit c, hexDigit d with
    | some x, some y, some z, some w => some (x * 4096 + y * 256 + z * 16 + w, r)
    | _, _, _, _ => none
  | _ => none

/-- what stands after a backslash (`scanstring` of the module `json.decoder`).  The two halves of a surrogate pair are joined.
A half that stands alone is `outside`: python then makes a string which is not a text, or rejects the file. -/
def unescape : List Char → Except Err (Char × List Char)
  | [] => .error .valueError
  | c :: r =>
    if c = '"' then .ok ('"', r)
    else if c = '\\' then .ok ('\\', r)
    else if c = '/' then .ok ('/', r)
    else if c = 'b' then .ok ('\x08', r)
    else if c = 'f' then .ok ('\x0c', r)
    else if c = 'n' then .ok ('\n', r)
    else if c = 'r' then .ok ('\r', r)
    else if c = 't' then .ok ('\t', r)
    else if c = 'u' then
      match scanHex r with
      | none => .error .valueError
      | some (n, r') =>
        if 0xd800 ≤ n ∧ n < 0xdc00 then
          match r' with
          | '\\' :: 'u' :: r'' =>
            match scanHex r'' with
            | none => .error .outside
            | some (m, r3) =>
              if 0xdc00 ≤ m ∧ m < 0xe000 then .ok (Char.ofNat (0x10000 + (n - 0xd800) * 1024 + (m - 0xdc00)), r3)
              else .error .outside
          | _ => .error .outside
        else if 0xdc00 ≤ n ∧ n < 0xe000 then .error .outside
        else .ok (Char.ofNat n, r')
    else .error .valueError

/-- the characters of a string up to the closing quote; characters below 32 are rejected.  The first argument bounds the
number of steps. -/
def scanStr : Nat → List Char → Except Err (List Char × List Char)
  | 0, _ => .error .valueError
  | _ + 1, [] => .error .valueError
  | n + 1, c :: r =>
    if c = '"' then .ok ([], r)
    else if c = '\\' then do
      let (d, r') ← unescape r
      let (cs, r'') ← scanStr n r'
      .ok (d :: cs, r'')
    else if c.toNat < 32 then .error .valueError
    else do
      let (cs, r') ← scanStr n r
      .ok (c :: cs, r')

/-- `0|[1-9]\d*` -/
def scanInt : List Char → Option (List Char × List Char)
  | [] => none
  | c :: r =>
    if c = '0' then some (['0'], r)
    else if c.isDigit then some ((c :: r).takeWhile Char.isDigit, (c :: r).dropWhile Char.isDigit)
    else none

/-- `(\.\d+)?` -/
def scanFrac : List Char → Option (List Char) × List Char
  | '.' :: r => if r.takeWhile Char.isDigit = [] then (none, '.' :: r) else (some (r.takeWhile Char.isDigit), r.dropWhile Char.isDigit)
  | r => (none, r)

/-- `([eE][-+]?\d+)?` -/
def scanExp : List Char → Option Int × List Char
  | [] => (none, [])
  | c :: r =>
    let ds := (sign r).2.takeWhile Char.isDigit
    if (c = 'e' ∨ c = 'E') ∧ ds ≠ [] then
      (some (if (sign r).1 then -(Nat.ofDigitChars 10 ds 0 : Int) else Nat.ofDigitChars 10 ds 0), (sign r).2.dropWhile Char.isDigit)
    else (none, c :: r)

/-- `-?` -/
def minus : List Char → Bool × List Char
  | '-' :: r => (true, r)
  | r => (false, r)

/-- a number (`NUMBER_RE` of the module `json.scanner`): with a fraction or an exponent a float, otherwise an integer.
`rd` is the rounding of a decimal number to a float.  `NaN`, `Infinity` and `-Infinity`, which python accepts, are `outside`. -/
def scanNum (rd : ℚ → K) (s : List Char) : Except Err (Value K × List Char) :=
  match scanInt (minus s).2 with
  | none =>
    if ['N', 'a', 'N'] <+: s ∨ ['I', 'n', 'f', 'i', 'n', 'i', 't', 'y'] <+: (minus s).2 then .error .outside else .error .valueError
  | some (ip, r) =>
    match scanFrac r with
    | (fp, r') =>
      match scanExp r' with
      | (ex, r'') =>
        if fp = none ∧ ex = none then
          .ok (.int (if (minus s).1 then -(Nat.ofDigitChars 10 ip 0 : Int) else Nat.ofDigitChars 10 ip 0), r'')
        else
          let v : ℚ := (Nat.ofDigitChars 10 (ip ++ fp.getD []) 0 : ℚ) / 10 ^ (fp.getD []).length * 10 ^ ex.getD 0
          .ok (.float (rd (if (minus s).1 then -v else v)), r'')

/-- `dict(pairs)` -/
def dictOf (l : List (String × Value K)) : List (String × Value K) := l.foldl (fun d kv => Dict.set d kv.1 kv.2) []

mutual
/-- `scan_once` of the module `json.scanner`; the first argument bounds the number of steps -/
def scan (rd : ℚ → K) : Nat → List Char → Except Err (Value K × List Char)
  | 0, _ => .error .valueError
  | n + 1, s =>
    match s with
    | '"' :: r => do
      let (cs, r') ← scanStr (n + 1) r
      .ok (.str (String.ofList cs), r')
    | '{' :: r =>
      match skip r with
      | '}' :: r' => .ok (.obj [], r')
      | r' => do
        let (kvs, r'') ← scanMembers rd n r'
        .ok (.obj (dictOf kvs), r'')
    | '[' :: r =>
      match skip r with
      | ']' :: r' => .ok (.arr [], r')
      | r' => do
        let (vs, r'') ← scanItems rd n r'
        .ok (.arr vs, r'')
    | 'n' :: 'u' :: 'l' :: 'l' :: r => .ok (.null, r)
    | 't' :: 'r' :: 'u' :: 'e' :: r => .ok (.bool true, r)
    | 'f' :: 'a' :: 'l' :: 's' :: 'e' :: r => .ok (.bool false, r)
    | s => scanNum rd s

/-- the loop of `JSONArray` of the module `json.decoder` -/
def scanItems (rd : ℚ → K) : Nat → List Char → Except Err (List (Value K) × List Char)
  | 0, _ => .error .valueError
  | n + 1, s => do
    let (v, r) ← scan rd n s
    match skip r with
    | ']' :: r' => .ok ([v], r')
    | ',' :: r' => do
      let (vs, r'') ← scanItems rd n (skip r')
      .ok (v :: vs, r'')
    | _ => .error .valueError

/-- the loop of `JSONObject` of the module `json.decoder` -/
def scanMembers (rd : ℚ → K) : Nat → List Char → Except Err (List (String × Value K) × List Char)
  | 0, _ => .error .valueError
  | n + 1, s =>
    match s with
    | '"' :: r => do
      let (k, r1) ← scanStr (n + 1) r
      match skip r1 with
      | ':' :: r2 => do
        let (v, r3) ← scan rd n (skip r2)
        match skip r3 with
        | '}' :: r' => .ok ([(String.ofList k, v)], r')
        | ',' :: r' => do
          let (kvs, r'') ← scanMembers rd n (skip r')
          .ok ((String.ofList k, v) :: kvs, r'')
        | _ => .error .valueError
      | _ => .error .valueError
    | _ => .error .valueError
end

/-- `json.load(fp)` (`JSONDecoder.decode`): one value with white space around it.  Reading in text mode turns `\r` into `\n`,
which makes no difference: both are white space between the tokens and rejected inside a string. -/
def load (rd : ℚ → K) (t : List Char) : Except Err (Value K) := do
  let (v, r) ← scan rd (t.length + 1) (skip t)
  if skip r = [] then .ok v else .error .valueError

/-! ## the files -/

open Cli

/-- a list of natural numbers -/
def nats (l : List Nat) : Value K := .arr (l.map fun n : Nat => .int (n : Int))

/-- bin/switss:51-55: the object written to the `-rf.mapping.json` file; numbers of states and actions are python integers -/
def mappingJson (m : Mapping) : Value K :=
  .obj [("states", nats m.states), ("actions", nats m.actions), ("rfstates", nats m.rfstates), ("rfactions", nats m.rfactions)]

/-- qsheur.py:68-78, milpexact.py:48-54 `details` -/
def methodJson : Method → List (String × Value K)
  | .qsHeur n i u s => [("type", .str "QSHeur"), ("solver", .str s), ("iterations", .int n), ("initializertype", .str i),
      ("updatertype", .str u)]
  | .milpExact s => [("type", .str "MILPExact"), ("solver", .str s)]

/-- bin/switss:104-106 -/
def instanceJson (i : Instance K) : Value K :=
  .obj [("iteration", .int i.iteration), ("threshold", .float i.threshold), ("certificate", .arr (i.certificate.map .float))]

/-- bin/switss:99: the object written by `minimize`; `details` is the dictionary of the method -/
def infoJson (details : List (String × Value K)) (is : List (Instance K)) : Value K :=
  .obj [("method", .obj details), ("instances", .arr (is.map instanceJson))]

/-- `v[k]` for a string `k`; lists, strings and numbers raise `TypeError` -/
def Value.get (v : Value K) (k : String) : Except Err (Value K) :=
  match v with
  | .obj d =>
    match Dict.get? d k with
    | some x => .ok x
    | none => .error .keyError
  | _ => .error .typeError

/-- `for x in v` -/
def Value.iter : Value K → Except Err (List (Value K))
  | .arr vs => .ok vs
  | .obj d => .ok (d.map fun kv => .str kv.1)
  | .str s => .ok (s.toList.map fun c => .str (String.ofList [c]))
  | _ => .error .typeError

variable [Field K] [LinearOrder K]

/-- a number; other values are `outside` -/
def Value.num : Value K → Except Err K
  | .int i => .ok i
  | .float x => .ok x
  | _ => .error .outside

/-- `np.array(v)` for a list of numbers; other values are `outside` -/
def Value.nums : Value K → Except Err (List K)
  | .arr vs => vs.mapM Value.num
  | _ => .error .outside

/-- bin/switss:126-129 and `minfo["mode"]` (bin/switss:136, 147): mode and certificate data of one instance.  A mode that is
not a string fails the assertion in `check_farkas_certificate` or `Subsystem`.  An iteration that is not a natural number is
`outside`. -/
def unpack (info inst : Value K) : Except Err (String × Instance K) := do
  let c ← inst.get "certificate"
  let c ← c.nums
  let m ← info.get "method"
  let i ← inst.get "iteration"
  let t ← inst.get "threshold"
  let t ← t.num
  let m ← m.get "mode"
  let i ← match i with
    | .int i => if 0 ≤ i then .ok i.toNat else .error .outside
    | _ => .error .outside
  match m with
  | .str m => .ok (m, ⟨i, t, c⟩)
  | _ => .error .assertion

/-- a loop over a generator: what its body does in the rounds before it raises an exception, and the way it ends -/
def forEach {α β : Type} (f : α → Except Err β) : List α → List β × Exit
  | [] => ([], .done)
  | x :: xs =>
    match f x with
    | .error e => ([], .of e)
    | .ok y =>
      let r := forEach f xs
      (y :: r.1, r.2)

/-- bin/switss:121-129 `unpack_results` with the loop around it: `read` opens the file, `body` is the body of the loop -/
def readFile {β : Type} (rd : ℚ → K) (text : Option (List Char)) (body : String × Instance K → Except Err β) : List β × Exit :=
  match text with
  | none => ([], .raised .assertion)
  | some t =>
    match load rd t with
    | .error e => ([], .of e)
    | .ok info =>
      match info.get "instances" >>= Value.iter with
      | .error e => ([], .of e)
      | .ok is => forEach (fun inst => unpack info inst >>= body) is

variable [IsStrictOrderedRing K] [FloorRing K]

/-- bin/switss:131-137 `switss certify`; `text` is the text of the file given with `-c` -/
def certify (rd : ℚ → K) (ρ : Graph.Rnd) (kind : Kind) (lab tra : List Char) (il tl fl : String) (text : Option (List Char)) (tol : K) :
    List Bool × Exit :=
  match loadModel kind lab tra with
  | .error e => ([], .of e)
  | .ok M =>
    match RF.make ρ M il tl fl false with
    | .error e => ([], .of e)
    | .ok rf => readFile rd text fun x =>
      match modeOf x.1 with
      | none => .error .assertion
      | some mode => check rf mode .ge x.2.threshold x.2.certificate tol

/-- bin/switss:139-153 `switss subsystem` -/
def subsystem (rd : ℚ → K) (copy : Sys K → Except Err (Sys K)) (ρ : Graph.Rnd) (π : List Nat → List Nat)
    (π' : List String → List String) (kind : Kind) (lab tra : List Char) (il tl fl label : String)
    (text : Option (List Char)) : List (Nat × List Char × List Char) × Exit :=
  match loadModel kind lab tra with
  | .error e => ([], .of e)
  | .ok M =>
    if label ∈ M.labS.d.keys then ([], .raised .assertion)
    else
      match RF.make ρ M il tl fl false with
      | .error e => ([], .of e)
      | .ok rf => readFile rd text fun x => subsystemStep copy π π' kind label rf (some x.1) x.2

end Verif.Model.Json
