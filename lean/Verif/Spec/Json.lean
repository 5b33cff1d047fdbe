import Verif.Model.Json
import Mathlib.Data.List.Dedup
/-!
# The syntax of JSON

A grammar in the style of RFC 8259, independent of the functions that read and write: `Val rd v t` says that the text `t`
denotes the value `v`.
-/

namespace Verif.Spec.Json
open Verif.Model Verif.Model.Json

variable {K : Type}

/-- white space -/
def Ws (w : List Char) : Prop := ∀ c ∈ w, c = ' ' ∨ c = '\t' ∨ c = '\n' ∨ c = '\r'

/-- decimal digits, at least one -/
def Digits (w : List Char) : Prop := w ≠ [] ∧ ∀ c ∈ w, c.isDigit = true

/-- digits without leading zeros -/
def IntPart (w : List Char) : Prop := w = ['0'] ∨ Digits w ∧ w.head? ≠ some '0'

/-- the number denoted by decimal digits -/
def natOf (w : List Char) : Nat := w.foldl (fun n c => 10 * n + (c.toNat - 48)) 0

/-- an integer: an optional minus sign and digits -/
inductive IsInt : Int → List Char → Prop
  | pos {w : List Char} : IntPart w → IsInt (natOf w) w
  | neg {w : List Char} : IntPart w → IsInt (-(natOf w : Int)) ('-' :: w)

/-- an optional fraction, by its digits -/
inductive Frac : List Char → List Char → Prop
  | none : Frac [] []
  | some {d : List Char} : Digits d → Frac d ('.' :: d)

/-- an optional exponent -/
inductive Expo : Int → List Char → Prop
  | none : Expo 0 []
  | plain {e : Char} {d : List Char} : e = 'e' ∨ e = 'E' → Digits d → Expo (natOf d) (e :: d)
  | plus {e : Char} {d : List Char} : e = 'e' ∨ e = 'E' → Digits d → Expo (natOf d) (e :: '+' :: d)
  | minus {e : Char} {d : List Char} : e = 'e' ∨ e = 'E' → Digits d → Expo (-(natOf d : Int)) (e :: '-' :: d)

/-- a number without sign that has a fraction or an exponent -/
def PosFloat (q : ℚ) (t : List Char) : Prop :=
  ∃ w d ft et, ∃ e : Int, IntPart w ∧ Frac d ft ∧ Expo e et ∧ (ft ≠ [] ∨ et ≠ []) ∧ t = w ++ ft ++ et ∧
    q = (natOf w + natOf d / 10 ^ d.length) * 10 ^ e

/-- a number that has a fraction or an exponent -/
inductive IsFloat : ℚ → List Char → Prop
  | pos {q : ℚ} {t : List Char} : PosFloat q t → IsFloat q t
  | neg {q : ℚ} {t : List Char} : PosFloat q t → IsFloat (-q) ('-' :: t)

/-- a hexadecimal digit, in lower or upper case -/
def Hex (c : Char) (n : Nat) : Prop :=
  n < 16 ∧ (c = Nat.digitChar n ∨ c = (Nat.digitChar n).toUpper)

/-- four hexadecimal digits -/
def Hex4 (n : Nat) (t : List Char) : Prop :=
  ∃ a b c d x y z w, Hex a x ∧ Hex b y ∧ Hex c z ∧ Hex d w ∧ t = [a, b, c, d] ∧ n = 16 * (16 * (16 * x + y) + z) + w

/-- the escape sequences of two characters, without the backslash -/
def escapes : List (Char × Char) :=
  [('"', '"'), ('\\', '\\'), ('/', '/'), ('b', '\x08'), ('f', '\x0c'), ('n', '\n'), ('r', '\r'), ('t', '\t')]

/-- the text of one character inside a string -/
inductive ChrText : Char → List Char → Prop
  | plain {c : Char} : 32 ≤ c.toNat → c ≠ '"' → c ≠ '\\' → ChrText c [c]
  | esc {e c : Char} : (e, c) ∈ escapes → ChrText c ['\\', e]
  | uni {c : Char} {h : List Char} : Hex4 c.toNat h → ChrText c ('\\' :: 'u' :: h)
  | pair {c : Char} {m n : Nat} {h h' : List Char} : Hex4 m h → Hex4 n h' → 0xd800 ≤ m → m < 0xdc00 → 0xdc00 ≤ n → n < 0xe000 →
      c.toNat = 0x10000 + (m - 0xd800) * 0x400 + (n - 0xdc00) → ChrText c ('\\' :: 'u' :: (h ++ '\\' :: 'u' :: h'))

/-- the text of the characters of a string -/
inductive StrText : List Char → List Char → Prop
  | nil : StrText [] []
  | cons {c : Char} {cs t t' : List Char} : ChrText c t → StrText cs t' → StrText (c :: cs) (t ++ t')

/-- `d` is the dictionary of the members `l`: the keys in the order of their first occurrence, each with its last value -/
def IsDict (l d : List (String × Value K)) : Prop :=
  d.map Prod.fst = (l.map Prod.fst).reverse.dedup.reverse ∧
  ∀ k v, (k, v) ∈ d ↔ ∃ l1 l2, l = l1 ++ (k, v) :: l2 ∧ k ∉ l2.map Prod.fst

mutual
/-- the text `t` denotes the value `v` -/
inductive Val (rd : ℚ → K) : Value K → List Char → Prop
  | null : Val rd .null "null".toList
  | true : Val rd (.bool true) "true".toList
  | false : Val rd (.bool false) "false".toList
  | int {i : Int} {t : List Char} : IsInt i t → Val rd (.int i) t
  | float {q : ℚ} {t : List Char} : IsFloat q t → Val rd (.float (rd q)) t
  | str {s : String} {t : List Char} : StrText s.toList t → Val rd (.str s) ('"' :: (t ++ ['"']))
  | empty {w : List Char} : Ws w → Val rd (.arr []) ('[' :: (w ++ [']']))
  | arr {vs : List (Value K)} {t : List Char} : Items rd vs t → Val rd (.arr vs) ('[' :: (t ++ [']']))
  | emptyObj {w : List Char} : Ws w → Val rd (.obj []) ('{' :: (w ++ ['}']))
  | obj {kvs d : List (String × Value K)} {t : List Char} : Members rd kvs t → IsDict kvs d → Val rd (.obj d) ('{' :: (t ++ ['}']))

/-- the elements of an array -/
inductive Items (rd : ℚ → K) : List (Value K) → List Char → Prop
  | one {v : Value K} {w t w' : List Char} : Ws w → Val rd v t → Ws w' → Items rd [v] (w ++ t ++ w')
  | cons {v : Value K} {vs : List (Value K)} {w t w' t' : List Char} : Ws w → Val rd v t → Ws w' → Items rd vs t' →
      Items rd (v :: vs) (w ++ t ++ w' ++ ',' :: t')

/-- the members of an object -/
inductive Members (rd : ℚ → K) : List (String × Value K) → List Char → Prop
  | one {k : String} {v : Value K} {w1 tk w2 w3 t w4 : List Char} : Ws w1 → StrText k.toList tk → Ws w2 → Ws w3 → Val rd v t → Ws w4 →
      Members rd [(k, v)] (w1 ++ '"' :: tk ++ '"' :: w2 ++ ':' :: w3 ++ t ++ w4)
  | cons {k : String} {v : Value K} {kvs : List (String × Value K)} {w1 tk w2 w3 t w4 t' : List Char} : Ws w1 → StrText k.toList tk →
      Ws w2 → Ws w3 → Val rd v t → Ws w4 → Members rd kvs t' →
      Members rd ((k, v) :: kvs) (w1 ++ '"' :: tk ++ '"' :: w2 ++ ':' :: w3 ++ t ++ w4 ++ ',' :: t')
end

/-- the text of a file: one value with white space around it -/
def Document (rd : ℚ → K) (v : Value K) (t : List Char) : Prop :=
  ∃ w t' w', Ws w ∧ Val rd v t' ∧ Ws w' ∧ t = w ++ t' ++ w'

/-- a value that python can write: the keys of every dictionary are distinct, and every float satisfies `P` -/
inductive Writable (P : K → Prop) : Value K → Prop
  | null : Writable P .null
  | bool (b : Bool) : Writable P (.bool b)
  | int (i : Int) : Writable P (.int i)
  | float {x : K} : P x → Writable P (.float x)
  | str (s : String) : Writable P (.str s)
  | arr {vs : List (Value K)} : (∀ v ∈ vs, Writable P v) → Writable P (.arr vs)
  | obj {kvs : List (String × Value K)} : (kvs.map Prod.fst).Nodup → (∀ kv ∈ kvs, Writable P kv.2) → Writable P (.obj kvs)

/-- the assumption on `float.__repr__`, for the float `x`: `fr x` is a number with a fraction or an exponent which is read as `x` -/
def ReprOk (fr : K → List Char) (rd : ℚ → K) (x : K) : Prop := ∃ q, IsFloat q (fr x) ∧ rd q = x

end Verif.Spec.Json
