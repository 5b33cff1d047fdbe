import Mathlib.Data.Rat.Defs
import Mathlib.Algebra.Field.Rat
import Mathlib.Data.Nat.Digits.Defs
/-!
# What the text of a file means, independently of the functions that read it
-/
namespace Verif.Spec

/-- `Lines text L`: the lines of `text`, each with a final `\n`, except that the last one may lack it.
A line ends with `\n`, `\r\n` or `\r`. -/
inductive Lines : List Char → List (List Char) → Prop
  | nil : Lines [] []
  | last {l : List Char} : l ≠ [] → (∀ c ∈ l, c ≠ '\n' ∧ c ≠ '\r') → Lines l [l]
  | lf {l rest : List Char} {L : List (List Char)} : (∀ c ∈ l, c ≠ '\n' ∧ c ≠ '\r') → Lines rest L →
      Lines (l ++ '\n' :: rest) ((l ++ ['\n']) :: L)
  | crlf {l rest : List Char} {L : List (List Char)} : (∀ c ∈ l, c ≠ '\n' ∧ c ≠ '\r') → Lines rest L →
      Lines (l ++ '\r' :: '\n' :: rest) ((l ++ ['\n']) :: L)
  | cr {l rest : List Char} {L : List (List Char)} : (∀ c ∈ l, c ≠ '\n' ∧ c ≠ '\r') →
      rest.head? ≠ some '\n' → Lines rest L → Lines (l ++ '\r' :: rest) ((l ++ ['\n']) :: L)

/-- white space -/
def Blank (c : Char) : Prop :=
  c.toNat ∈ [9, 10, 11, 12, 13, 28, 29, 30, 31, 32, 0x85, 0xa0, 0x1680, 0x2000, 0x2001, 0x2002, 0x2003, 0x2004,
    0x2005, 0x2006, 0x2007, 0x2008, 0x2009, 0x200a, 0x2028, 0x2029, 0x202f, 0x205f, 0x3000]

/-- `Fields line ws`: `ws` are the words of `line`, the maximal runs without white space -/
inductive Fields : List Char → List (List Char) → Prop
  | nil {b : List Char} : (∀ c ∈ b, Blank c) → Fields b []
  | cons {b w rest : List Char} {ws : List (List Char)} : (∀ c ∈ b, Blank c) → w ≠ [] → (∀ c ∈ w, ¬ Blank c) →
      (∀ c, rest.head? = some c → Blank c) → Fields rest ws → Fields (b ++ w ++ rest) (w :: ws)

/-- the digits `0` to `9` -/
def Digits (w : List Char) : Prop := ∀ c ∈ w, '0' ≤ c ∧ c ≤ '9'

/-- the value of a string of digits -/
def value (w : List Char) : Nat := Nat.ofDigits 10 (w.reverse.map fun c => c.toNat - '0'.toNat)

/-- a natural number in decimal notation -/
def IsNat (w : List Char) (n : Nat) : Prop := w ≠ [] ∧ Digits w ∧ n = value w

/-- an optional sign -/
def IsSign (w : List Char) (e : ℚ) : Prop := w = [] ∧ e = 1 ∨ w = ['+'] ∧ e = 1 ∨ w = ['-'] ∧ e = -1

/-- an optional exponent -/
def IsExp (w : List Char) (e : ℚ) : Prop :=
  w = [] ∧ e = 1 ∨ ∃ c sg v ds n, w = c :: (sg ++ ds) ∧ (c = 'e' ∨ c = 'E') ∧ IsSign sg v ∧ IsNat ds n ∧
    e = if v = 1 then 10 ^ n else 1 / 10 ^ n

/-- sign, digits, optional point and digits, optional exponent; at least one digit before the exponent -/
def IsDecimal (w : List Char) (q : ℚ) : Prop :=
  ∃ sg v ip fp dot ep e, w = sg ++ (ip ++ (dot ++ fp ++ ep)) ∧ IsSign sg v ∧ Digits ip ∧ Digits fp ∧
    (dot = [] ∧ fp = [] ∨ dot = ['.']) ∧ ip ++ fp ≠ [] ∧ IsExp ep e ∧
    q = v * (value ip + (value fp : ℚ) / 10 ^ fp.length) * e

/-- `w` without white space at its ends -/
def Trim (w w' : List Char) : Prop :=
  ∃ b b', w = b ++ w' ++ b' ∧ (∀ c ∈ b, Blank c) ∧ (∀ c ∈ b', Blank c) ∧
    (∀ c, w'.head? = some c → ¬ Blank c) ∧ ∀ c, w'.getLast? = some c → ¬ Blank c

/-- `w'` is `w` without its underscores, each of which stands between two digits -/
inductive Ungroup : List Char → List Char → Prop
  | nil : Ungroup [] []
  | cons {c : Char} {w w' : List Char} : c ≠ '_' → Ungroup w w' → Ungroup (c :: w) (c :: w')
  | group {c d : Char} {w w' : List Char} : Digits [c, d] → Ungroup (d :: w) w' → Ungroup (c :: '_' :: d :: w) (c :: w')

/-- an integer: sign and digits, which may be grouped by underscores -/
def IsInt (w : List Char) (i : Int) : Prop :=
  ∃ u sg v ds n, Trim w u ∧ Ungroup u (sg ++ ds) ∧ IsSign sg v ∧ IsNat ds n ∧ (i : ℚ) = v * n

/-- a number in decimal notation, whose digits may be grouped by underscores -/
def IsNumber (w : List Char) (q : ℚ) : Prop := ∃ u u', Trim w u ∧ Ungroup u u' ∧ IsDecimal u' q

/-- a number with which the state `s` of `n` states can be denoted: negative ones count from the end -/
def IsIndex (n : Nat) (w : List Char) (s : Nat) : Prop :=
  ∃ i : Int, IsInt w i ∧ (0 ≤ i ∧ (s : Int) = i ∨ i < 0 ∧ (s : Int) = i + n)

end Verif.Spec
