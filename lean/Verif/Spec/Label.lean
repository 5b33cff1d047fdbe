import Verif.Spec.Text
/-!
# What the text of a label file means, independently of the functions that read it
-/
namespace Verif.Spec

/-- the text `pre`, a number `ds`, `="`, a label, `"`, the text `rest` -/
def Mark (line pre ds lab rest : List Char) : Prop :=
  line = pre ++ (ds ++ '=' :: '"' :: (lab ++ '"' :: rest)) ∧ ds ≠ [] ∧ Digits ds ∧ ∀ c ∈ lab, c ≠ '"' ∧ c ≠ '\n'

/-- `Marks line ms`: reading from the left, `ms` are the numbers with their labels: first the leftmost `12="label"`, then those
of the text after it -/
inductive Marks : List Char → List (List Char × List Char) → Prop
  | nil {line : List Char} : (∀ pre ds lab rest, ¬ Mark line pre ds lab rest) → Marks line []
  | cons {line pre ds lab rest : List Char} {ms : List (List Char × List Char)} : Mark line pre ds lab rest →
      (∀ pre' ds' lab' rest', Mark line pre' ds' lab' rest' → pre.length ≤ pre'.length) → Marks rest ms →
      Marks line ((ds, lab) :: ms)

/-- the characters that may stand after the colon of a state line: neither letters nor `_` (nor any character
outside ASCII) -/
def AfterColon (c : Char) : Prop :=
  ¬ ('a' ≤ c ∧ c ≤ 'z' ∨ 'A' ≤ c ∧ c ≤ 'Z' ∨ c = '_' ∨ 128 ≤ c.toNat)

/-- the text `pre`, a number, a colon, a character that may follow it -/
def Colon (line pre ds : List Char) (c : Char) (rest : List Char) : Prop :=
  line = pre ++ (ds ++ ':' :: c :: rest) ∧ ds ≠ [] ∧ Digits ds ∧ AfterColon c

/-- `StateLine line ds g`: the leftmost number followed by a colon and such a character is `ds`; after the colon come the
characters `g`, as many as possible -/
def StateLine (line ds g : List Char) : Prop :=
  ∃ pre rest, line = pre ++ (ds ++ ':' :: (g ++ rest)) ∧ ds ≠ [] ∧ Digits ds ∧ g ≠ [] ∧ (∀ c ∈ g, AfterColon c) ∧
    (∀ c, rest.head? = some c → ¬ AfterColon c) ∧
    ∀ pre' ds' c' rest', Colon line pre' ds' c' rest' → pre.length ≤ pre'.length

end Verif.Spec
