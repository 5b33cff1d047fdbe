import Verif.Model.Py
import Mathlib.Data.Rat.Defs
import Mathlib.Algebra.Field.Rat
import Mathlib.Algebra.Order.Ring.Rat
import Mathlib.Algebra.Order.Floor.Defs
import Mathlib.Algebra.Order.Floor.Ring
/-!
# Text files: the python primitives used by the readers and writers

A file is the list of its characters.  Encoding and decoding of characters are not modelled (files are
written and read with the same encoding), nor are the errors of the operating system.
-/

namespace Verif.Model.Text

/-- the characters at which `str.split()` splits (python `str.isspace`) -/
def isSpace (c : Char) : Bool :=
  let n := c.toNat
  (9 ≤ n && n ≤ 13) || (28 ≤ n && n ≤ 32) || n == 0x85 || n == 0xa0 || n == 0x1680 ||
    (0x2000 ≤ n && n ≤ 0x200a) || n == 0x2028 || n == 0x2029 || n == 0x202f || n == 0x205f ||
    n == 0x3000

/-- the regular expression class `\w`.  Characters outside ASCII are all counted as word characters
(python asks whether they are alphanumeric); this matters only for state lines containing such
characters, which `save` never writes. -/
def isWord (c : Char) : Bool := c.isAlphanum || c == '_' || 128 ≤ c.toNat

/-- reading in text mode: `\r\n` and `\r` become `\n` -/
def universal : List Char → List Char
  | [] => []
  | '\r' :: '\n' :: cs => '\n' :: universal cs
  | '\r' :: cs => '\n' :: universal cs
  | c :: cs => c :: universal cs

/-- the lines of a text, each with its final `\n` (the last one may lack it) -/
def splitLines : List Char → List (List Char)
  | [] => []
  | c :: cs =>
    if c = '\n' then ['\n'] :: splitLines cs
    else match splitLines cs with
      | [] => [[c]]
      | l :: ls => (c :: l) :: ls

/-- `open(path).readlines()`; iterating over the file gives the same lines -/
def readLines (text : List Char) : List (List Char) := splitLines (universal text)

/-- `line.split()`; the state is the word being read -/
def splitWith : List Char → List Char → List (List Char)
  | w, [] => if w = [] then [] else [w]
  | w, c :: cs =>
    if isSpace c then (if w = [] then splitWith [] cs else w :: splitWith [] cs)
    else splitWith (w ++ [c]) cs

def split (line : List Char) : List (List Char) := splitWith [] line

/-- `"%d" % n` and `str(n)` for a natural number -/
def fmtD (n : Nat) : List Char := Nat.toDigits 10 n

/-- a non-empty string of ASCII digits -/
def pyNat (s : List Char) : Except Err Nat :=
  if s ≠ [] ∧ ∀ c ∈ s, c.isDigit = true then .ok (Nat.ofDigitChars 10 s 0) else .error .valueError

/-- `s.strip()` -/
def strip (s : List Char) : List Char := ((s.dropWhile isSpace).reverse.dropWhile isSpace).reverse

/-- remove the underscores of a number; each has to stand between two digits.  `d`: the character before is a digit -/
def ungroup : Bool → List Char → Option (List Char)
  | _, [] => some []
  | d, c :: cs =>
    if c = '_' then (if d = true ∧ cs.head?.any Char.isDigit = true then ungroup false cs else none)
    else (ungroup c.isDigit cs).map (c :: ·)

/-- an optional sign -/
def sign : List Char → Bool × List Char
  | '-' :: cs => (true, cs)
  | '+' :: cs => (false, cs)
  | cs => (false, cs)

/-- `int(s)`: optional sign and digits, which may be grouped by underscores; white space around is ignored.  Other characters
than ASCII are `outside` (python accepts the digits of other scripts). -/
def pyInt (s : List Char) : Except Err Int :=
  if (strip s).any (fun c => 128 ≤ c.toNat) then .error .outside
  else match ungroup false (strip s) with
    | none => .error .valueError
    | some w => do
      let n ← pyNat (sign w).2
      .ok (if (sign w).1 then -(n : Int) else n)

/-- the part of a number starting at `e` or `E`: a power of ten -/
def exponent : List Char → Except Err ℚ
  | [] => .ok 1
  | c :: cs =>
    if c = 'e' ∨ c = 'E' then do
      let n ← pyNat (sign cs).2
      .ok (if (sign cs).1 then (1 : ℚ) / 10 ^ n else 10 ^ n)
    else .error .valueError

/-- an optional point with the digits after it, and the rest -/
def fraction : List Char → List Char × List Char
  | '.' :: r => (r.takeWhile Char.isDigit, r.dropWhile Char.isDigit)
  | r => ([], r)

/-- `[sign] digits [. digits] [e [sign] digits]` with at least one digit before the exponent -/
def decimal (s : List Char) : Except Err ℚ := do
  let s' := (sign s).2
  let ip := s'.takeWhile Char.isDigit
  let r := s'.dropWhile Char.isDigit
  let fp := (fraction r).1
  if ip = [] ∧ fp = [] then .error .valueError
  else do
    let e ← exponent (fraction r).2
    let v : ℚ := ((Nat.ofDigitChars 10 (ip ++ fp) 0 : Nat) : ℚ) / 10 ^ fp.length * e
    .ok (if (sign s).1 then -v else v)

/-- `float(s)`: a number in decimal notation, whose digits may be grouped by underscores; white space around is ignored.
Simplification: the result is the exact rational, not the nearest double.  `inf` and `nan`, and other characters than ASCII
(python accepts the digits of other scripts), are `outside`. -/
def pyFloat (s : List Char) : Except Err ℚ :=
  if (strip s).any (fun c => 128 ≤ c.toNat) then .error .outside
  else if (sign (strip s)).2.map Char.toLower ∈ ["inf".toList, "infinity".toList, "nan".toList] then .error .outside
  else match ungroup false (strip s) with
    | none => .error .valueError
    | some w => decimal w

variable {K : Type} [Field K] [LinearOrder K] [IsStrictOrderedRing K] [FloorRing K]

/-- round a non-negative number to the nearest integer, ties to even -/
def roundEven (x : K) : Nat :=
  let f := ⌊x⌋₊
  if x - f < 1 / 2 then f
  else if 1 / 2 < x - f then f + 1
  else if f % 2 = 0 then f else f + 1

/-- `"%f" % p`: six decimals, correctly rounded -/
def fmtF (p : K) : List Char :=
  let r := roundEven (|p| * 10 ^ 6)
  (if p < 0 then ['-'] else []) ++ fmtD (r / 10 ^ 6) ++ '.' :: List.leftpad 6 '0' (fmtD (r % 10 ^ 6))

/-- `re.finditer(r"([0-9]+)=\"(.*?)\"", line)`: the two groups of each match from left to right.  At a
position the digits are read greedily, then `="`, then the shortest run without newline up to a `"`.
`n` bounds the number of steps. -/
def marks : Nat → List Char → List (List Char × List Char)
  | 0, _ => []
  | _, [] => []
  | n + 1, c :: cs =>
    let ds := (c :: cs).takeWhile Char.isDigit
    match ds, (c :: cs).dropWhile Char.isDigit with
    | _ :: _, '=' :: '"' :: r =>
      let lab := r.takeWhile fun x => x ≠ '"' ∧ x ≠ '\n'
      match r.dropWhile fun x => x ≠ '"' ∧ x ≠ '\n' with
      | '"' :: r' => (ds, lab) :: marks n r'
      | _ => marks n cs
    | _, _ => marks n cs

/-- the class `[\W,0-9]` -/
def inClass (c : Char) : Bool := !isWord c || c == ',' || c.isDigit

/-- `re.search(r"([0-9]+):([\W,0-9]+)", line)` -/
def searchLine : List Char → Option (List Char × List Char)
  | [] => none
  | c :: cs =>
    let ds := (c :: cs).takeWhile Char.isDigit
    match ds, (c :: cs).dropWhile Char.isDigit with
    | _ :: _, ':' :: r =>
      let g := r.takeWhile inClass
      if g ≠ [] then some (ds, g) else searchLine cs
    | _, _ => searchLine cs

/-- `" ".join(words)` -/
def joinSp (ws : List (List Char)) : List Char := List.intercalate [' '] ws

end Verif.Model.Text
