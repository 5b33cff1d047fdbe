import Verif.Model.Text
import Mathlib.Algebra.Order.Floor.Semiring
import Mathlib.Algebra.Order.Field.Basic
import Mathlib.Data.Rat.Cast.Order
import Mathlib.Tactic.Linarith
import Mathlib.Tactic.NormNum
import Mathlib.Tactic.FieldSimp
import Mathlib.Tactic.Ring
/-! helper lemmas for the text primitives -/
set_option linter.unusedSectionVars false
namespace Verif.Proofs.Text
open Verif.Model Verif.Model.Text

/-! ## numbers -/

theorem fmtD_digit {n : Nat} {c : Char} (h : c ∈ fmtD n) : c.isDigit = true :=
  Nat.isDigit_of_mem_toDigits (by decide) (by decide) h

theorem fmtD_ne (n : Nat) : fmtD n ≠ [] := Nat.toDigits_ne_nil

theorem pyNat_fmtD (n : Nat) : pyNat (fmtD n) = .ok n := by
  unfold pyNat
  rw [if_pos ⟨fmtD_ne n, fun c hc => fmtD_digit hc⟩]
  rw [fmtD, Nat.ofDigitChars_ten_toDigits]

theorem digit_range {c : Char} (h : c.isDigit = true) : 48 ≤ c.toNat ∧ c.toNat ≤ 57 := by
  simp only [Char.isDigit, Bool.and_eq_true, decide_eq_true_eq] at h
  exact ⟨h.1, h.2⟩

theorem digit_not_space {c : Char} (h : c.isDigit = true) : isSpace c = false := by
  have := digit_range h
  unfold isSpace
  simp only [Bool.or_eq_false_iff, Bool.and_eq_false_iff, decide_eq_false_iff_not, beq_eq_false_iff_ne, ne_eq]
  omega

theorem takeWhile_append_stop {α : Type} {p : α → Bool} {l : List α} (h : ∀ x ∈ l, p x = true) {r : List α}
    (hr : ∀ x ∈ r.head?, p x = false) : (l ++ r).takeWhile p = l := by
  induction l with
  | nil =>
    cases r with
    | nil => rfl
    | cons x r => simp [hr x (by simp)]
  | cons a l ih =>
    simp [h a (by simp), ih fun x hx => h x (by simp [hx])]

theorem dropWhile_append_stop {α : Type} {p : α → Bool} {l : List α} (h : ∀ x ∈ l, p x = true) {r : List α}
    (hr : ∀ x ∈ r.head?, p x = false) : (l ++ r).dropWhile p = r := by
  induction l with
  | nil =>
    cases r with
    | nil => rfl
    | cons x r => simp [hr x (by simp)]
  | cons a l ih =>
    simp [h a (by simp), ih fun x hx => h x (by simp [hx])]

theorem mem_takeWhile_imp {α : Type} {p : α → Bool} {l : List α} {x : α} (h : x ∈ l.takeWhile p) : p x = true := by
  induction l with
  | nil => simp at h
  | cons a l ih =>
    rw [List.takeWhile_cons] at h
    split at h
    · rename_i hp
      rcases List.mem_cons.1 h with rfl | h
      · exact hp
      · exact ih h
    · simp at h

theorem leftpad_digits {n : Nat} (hn : n < 10 ^ 6) :
    (List.leftpad 6 '0' (fmtD n)).length = 6 ∧ (∀ c ∈ List.leftpad 6 '0' (fmtD n), c.isDigit = true) ∧
    Nat.ofDigitChars 10 (List.leftpad 6 '0' (fmtD n)) 0 = n := by
  refine ⟨?_, ?_, ?_⟩
  · have : (fmtD n).length ≤ 6 := (Nat.length_toDigits_le_iff (by decide) (by decide)).2 hn
    simp only [List.leftpad, List.length_append, List.length_replicate]
    omega
  · intro c hc
    simp only [List.leftpad, List.mem_append, List.mem_replicate] at hc
    rcases hc with ⟨_, rfl⟩ | hc
    · rfl
    · exact fmtD_digit hc
  · simp only [List.leftpad, Nat.ofDigitChars_append, Nat.ofDigitChars_replicate_zero, Nat.mul_zero]
    rw [fmtD, Nat.ofDigitChars_ten_toDigits]

theorem sign_digit {c : Char} {cs : List Char} (h : c.isDigit = true) : sign (c :: cs) = (false, c :: cs) := by
  have := digit_range h
  have h1 : c ≠ '-' := by rintro rfl; simp at this
  have h2 : c ≠ '+' := by rintro rfl; simp at this
  unfold sign
  split
  · rename_i h; cases h; exact absurd rfl h1
  · rename_i h; cases h; exact absurd rfl h2
  · rfl

theorem strip_word {w : List Char} (h : ∀ c ∈ w, isSpace c = false) : strip w = w := by
  have h1 : ∀ w : List Char, (∀ c ∈ w, isSpace c = false) → w.dropWhile isSpace = w := fun w h => by
    cases w with
    | nil => rfl
    | cons c w => simp [h c (by simp)]
  unfold strip
  rw [h1 w h, h1 w.reverse fun c hc => h c (by simpa using hc), List.reverse_reverse]

theorem ungroup_plain {w : List Char} (h : '_' ∉ w) : ∀ d, ungroup d w = some w := by
  induction w with
  | nil => intro d; rfl
  | cons c w ih =>
    intro d
    have hc : c ≠ '_' := by rintro rfl; simp at h
    rw [ungroup, if_neg hc, ih fun hm => h (by simp [hm])]
    rfl

/-- strings of digits, points and signs -/
theorem plain_word {w : List Char} (h : ∀ c ∈ w, c.isDigit = true ∨ c = '.') :
    (∀ c ∈ w, isSpace c = false) ∧ '_' ∉ w ∧ w.any (fun c => 128 ≤ c.toNat) = false := by
  refine ⟨fun c hc => ?_, fun hc => ?_, ?_⟩
  · rcases h c hc with h | rfl
    · exact digit_not_space h
    · rfl
  · rcases h _ hc with h | h
    · exact absurd h (by decide)
    · exact absurd h (by decide)
  · rw [List.any_eq_false]
    intro c hc
    rcases h c hc with h | rfl
    · have := digit_range h
      simp only [decide_eq_true_eq]; omega
    · decide

theorem pyInt_digits {w : List Char} (h : ∀ c ∈ w, c.isDigit = true) :
    pyInt w = (pyNat w).map fun n => (n : Int) := by
  obtain ⟨h1, h2, h3⟩ := plain_word fun c hc => Or.inl (h c hc)
  have hs : sign w = (false, w) := by
    cases w with
    | nil => rfl
    | cons c w => exact sign_digit (h c (by simp))
  unfold pyInt
  rw [strip_word h1, h3, ungroup_plain h2]
  simp only [Bool.false_eq_true, if_false, hs, bind, Except.bind, Except.map]
  cases pyNat w <;> rfl

theorem pyInt_fmtD (n : Nat) : pyInt (fmtD n) = .ok (n : Int) := by
  rw [pyInt_digits fun c hc => fmtD_digit hc, pyNat_fmtD]
  rfl

theorem pyFloat_plain {w : List Char} (h : ∀ c ∈ w, c.isDigit = true ∨ c = '.') : pyFloat w = decimal w := by
  obtain ⟨h1, h2, h3⟩ := plain_word h
  have hs : (sign w).2.map Char.toLower ∉ ["inf".toList, "infinity".toList, "nan".toList] := by
    have hw : sign w = (false, w) := by
      cases w with
      | nil => rfl
      | cons c w =>
        rcases h c (by simp) with hc | rfl
        · exact sign_digit hc
        · rfl
    rw [hw]
    intro hm
    have : ∃ c ∈ w, c.toLower = 'n' := by
      have : 'n' ∈ w.map Char.toLower := by
        simp only [List.mem_cons, List.mem_nil_iff, or_false] at hm
        rcases hm with hm | hm | hm <;> rw [hm] <;> decide
      simpa using this
    obtain ⟨c, hc, hn⟩ := this
    rcases h c hc with hd | rfl
    · have hr := digit_range hd
      have : c.toLower = c := by
        unfold Char.toLower
        have : ¬ (c.val ≥ 'A'.val ∧ c.val ≤ 'Z'.val) := by
          rintro ⟨k, -⟩
          have k : 65 ≤ c.toNat := k
          omega
        simp only [this, dite_false]
      rw [this] at hn
      subst hn
      exact absurd hd (by decide)
    · exact absurd hn (by decide)
  unfold pyFloat
  rw [strip_word h1, h3, ungroup_plain h2]
  simp only [Bool.false_eq_true, if_false, if_neg hs]

variable {K : Type} [Field K] [LinearOrder K] [IsStrictOrderedRing K] [FloorRing K]

theorem pyFloat_fmtF {p : K} (hp : 0 ≤ p) :
    pyFloat (fmtF p) = .ok ((roundEven (p * 10 ^ 6) : ℚ) / 10 ^ 6) := by
  have hneg : ¬ p < 0 := not_lt.2 hp
  simp only [fmtF, hneg, if_false, List.nil_append, abs_of_nonneg hp]
  generalize roundEven (p * 10 ^ 6) = r
  obtain ⟨l1, l2, l3⟩ := leftpad_digits (Nat.mod_lt r (show 0 < 10 ^ 6 by decide))
  generalize hf : List.leftpad 6 '0' (fmtD (r % 10 ^ 6)) = f at *
  obtain ⟨c, cs, hc⟩ := List.exists_cons_of_ne_nil (fmtD_ne (r / 10 ^ 6))
  have hcd : c.isDigit = true := fmtD_digit (n := r / 10 ^ 6) (by rw [hc]; simp)
  have hs : sign (fmtD (r / 10 ^ 6) ++ '.' :: f) = (false, fmtD (r / 10 ^ 6) ++ '.' :: f) := by
    rw [hc]; exact sign_digit hcd
  have ht : (fmtD (r / 10 ^ 6) ++ '.' :: f).takeWhile Char.isDigit = fmtD (r / 10 ^ 6) :=
    takeWhile_append_stop (fun c hc => fmtD_digit hc) (by intro x hx; simp at hx; subst hx; rfl)
  have hd : (fmtD (r / 10 ^ 6) ++ '.' :: f).dropWhile Char.isDigit = '.' :: f :=
    dropWhile_append_stop (fun c hc => fmtD_digit hc) (by intro x hx; simp at hx; subst hx; rfl)
  have ht2 : f.takeWhile Char.isDigit = f := by
    simpa using takeWhile_append_stop (r := []) l2 (by simp)
  have hd2 : f.dropWhile Char.isDigit = [] := by
    simpa using dropWhile_append_stop (r := []) l2 (by simp)
  rw [pyFloat_plain fun c hc => by
    rcases List.mem_append.1 hc with hc | hc
    · exact .inl (fmtD_digit hc)
    · rcases List.mem_cons.1 hc with rfl | hc
      · exact .inr rfl
      · exact .inl (l2 c hc)]
  unfold decimal
  have hfr : fraction ('.' :: f) = (f, []) := by rw [fraction, ht2, hd2]
  simp only [hs, ht, hd, hfr]
  rw [if_neg (fun h => fmtD_ne _ h.1)]
  simp only [exponent, bind, Except.bind, l1, Nat.ofDigitChars_append]
  rw [Nat.ofDigitChars_eq_ofDigitChars_zero, l3, l1, fmtD, Nat.ofDigitChars_ten_toDigits, Nat.div_add_mod]
  simp

/-- rounding moves a number by at most one half -/
theorem roundEven_close {x : K} (hx : 0 ≤ x) : |(roundEven x : K) - x| ≤ 1 / 2 := by
  have h1 := Nat.floor_le hx
  have h2 := Nat.lt_floor_add_one x
  unfold roundEven
  simp only
  rw [abs_le]
  split_ifs with a b c <;> push_cast <;> constructor <;> linarith

theorem roundEven_natCast (n : Nat) : roundEven (n : K) = n := by
  unfold roundEven
  simp

/-- a number is printed exactly iff it is a multiple of `10^-6` -/
theorem roundEven_eq_iff {x : K} : (roundEven x : K) = x ↔ ∃ n : Nat, x = n :=
  ⟨fun h => ⟨_, h.symm⟩, by rintro ⟨n, rfl⟩; rw [roundEven_natCast]⟩

theorem roundEven_le {x : K} {n : Nat} (hx : 0 ≤ x) (h : x ≤ n) : roundEven x ≤ n := by
  have h1 := roundEven_close hx
  rw [abs_le] at h1
  by_contra hc
  have : (n : K) + 1 ≤ roundEven x := by exact_mod_cast Nat.lt_of_not_le hc
  linarith

/-! ## words -/

theorem splitWith_word {w : List Char} (hw : ∀ c ∈ w, isSpace c = false) (v rest : List Char) :
    splitWith v (w ++ rest) = splitWith (v ++ w) rest := by
  induction w generalizing v with
  | nil => simp
  | cons c w ih =>
    simp only [List.cons_append, splitWith, hw c (by simp), Bool.false_eq_true, if_false]
    rw [ih fun x hx => hw x (by simp [hx])]
    simp

theorem split_space {c : Char} (hc : isSpace c = true) (rest : List Char) :
    split (c :: rest) = split rest := by
  simp [split, splitWith, hc]

theorem split_word {w : List Char} (hw : ∀ c ∈ w, isSpace c = false) (hne : w ≠ []) {c : Char}
    (hc : isSpace c = true) (rest : List Char) : split (w ++ c :: rest) = w :: split rest := by
  rw [split, splitWith_word hw]
  simp [splitWith, hc, hne, split]

theorem split_last {w : List Char} (hw : ∀ c ∈ w, isSpace c = false) (hne : w ≠ []) :
    split w = [w] := by
  have := splitWith_word hw [] []
  simp only [List.append_nil, List.nil_append] at this
  rw [split, this]
  simp [splitWith, hne]

theorem fmtD_word (n : Nat) : ∀ c ∈ fmtD n, isSpace c = false := fun _ hc => digit_not_space (fmtD_digit hc)

theorem fmtF_word {p : K} (hp : 0 ≤ p) : ∀ c ∈ fmtF p, isSpace c = false := by
  intro c hc
  have hneg : ¬ p < 0 := not_lt.2 hp
  simp only [fmtF, hneg, if_false, List.nil_append, List.mem_append, List.mem_cons] at hc
  rcases hc with hc | rfl | hc
  · exact fmtD_word _ c hc
  · rfl
  · exact digit_not_space ((leftpad_digits (Nat.mod_lt _ (show 0 < 10 ^ 6 by decide))).2.1 c hc)

theorem fmtF_ne (p : K) : fmtF p ≠ [] := by
  simp [fmtF]

theorem split_joinSp {ws : List (List Char)} (h1 : ∀ w ∈ ws, w ≠ [] ∧ ∀ c ∈ w, isSpace c = false) {c : Char}
    (hc : isSpace c = true) : split (joinSp ws ++ [c]) = ws := by
  induction ws with
  | nil => simp [joinSp, List.intercalate, split, splitWith, hc]
  | cons w ws ih =>
    have hw := h1 w (by simp)
    have ih := ih fun v hv => h1 v (by simp [hv])
    cases ws with
    | nil =>
      have := split_word hw.2 hw.1 hc []
      simpa [joinSp, List.intercalate, split, splitWith] using this
    | cons v vs =>
      have h2 : joinSp (w :: v :: vs) = w ++ ' ' :: joinSp (v :: vs) := by
        simp [joinSp, List.intercalate]
      rw [h2, List.append_assoc, List.cons_append, split_word hw.2 hw.1 (by decide), ih]

/-! ## lines -/

theorem universal_of_noCR {l : List Char} (h : '\r' ∉ l) : universal l = l := by
  induction l with
  | nil => rfl
  | cons c l ih =>
    have hc : c ≠ '\r' := by rintro rfl; simp at h
    have := ih fun hm => h (by simp [hm])
    unfold universal
    split
    · rename_i h; cases h
    · rename_i h; cases h; exact absurd rfl hc
    · rename_i h; cases h; exact absurd rfl hc
    · rename_i h; cases h; rw [this]

theorem noCR_universal (l : List Char) : '\r' ∉ universal l := by
  fun_induction universal l with
  | case1 => simp
  | case2 cs ih => simp [ih]
  | case3 cs _ ih => simp [ih]
  | case4 c cs h1 h2 ih =>
    intro hm
    rcases List.mem_cons.1 hm with h | h
    · exact h2 h.symm
    · exact ih h

theorem splitLines_line {l : List Char} (h : '\n' ∉ l) (rest : List Char) :
    splitLines (l ++ '\n' :: rest) = (l ++ ['\n']) :: splitLines rest := by
  induction l with
  | nil => simp [splitLines]
  | cons c l ih =>
    have hc : c ≠ '\n' := by rintro rfl; simp at h
    have := ih fun hm => h (by simp [hm])
    simp [splitLines, hc, this]

theorem splitLines_lines {ls : List (List Char)} (h : ∀ l ∈ ls, '\n' ∉ l) (rest : List Char) :
    splitLines ((ls.map fun l => l ++ ['\n']).flatten ++ rest) =
      ls.map (fun l => l ++ ['\n']) ++ splitLines rest := by
  induction ls with
  | nil => simp
  | cons l ls ih =>
    simp only [List.map_cons, List.flatten_cons, List.append_assoc, List.cons_append, List.nil_append]
    rw [splitLines_line (h l (by simp)), ih fun x hx => h x (by simp [hx])]

theorem digit_ne {c d : Char} (h : c.isDigit = true) (hd : d.isDigit = false) : c ≠ d := by
  rintro rfl; rw [h] at hd; cases hd

/-! ## regular expressions -/

theorem marks_nil (n : Nat) : marks n [] = [] := by
  cases n <;> rfl

theorem marks_skip {c : Char} (hc : c.isDigit = false) (n : Nat) (s : List Char) :
    marks (n + 1) (c :: s) = marks n s := by
  rw [marks]
  simp [hc]

theorem marks_match {ds lab : List Char} (h1 : ds ≠ []) (h2 : ∀ c ∈ ds, c.isDigit = true)
    (h3 : '"' ∉ lab) (h4 : '\n' ∉ lab) (n : Nat) (rest : List Char) :
    marks (n + 1) (ds ++ '=' :: '"' :: (lab ++ '"' :: rest)) = (ds, lab) :: marks n rest := by
  obtain ⟨d, ds', rfl⟩ := List.exists_cons_of_ne_nil h1
  have ht := takeWhile_append_stop (r := '=' :: '"' :: (lab ++ '"' :: rest)) h2
    (by intro x hx; simp at hx; subst hx; rfl)
  have hd := dropWhile_append_stop (r := '=' :: '"' :: (lab ++ '"' :: rest)) h2
    (by intro x hx; simp at hx; subst hx; rfl)
  have hl : ∀ x ∈ lab, (decide (x ≠ '"' ∧ x ≠ '\n')) = true := by
    intro x hx
    have a : x ≠ '"' := by rintro rfl; exact h3 hx
    have b : x ≠ '\n' := by rintro rfl; exact h4 hx
    simp [a, b]
  have ht2 := takeWhile_append_stop (p := fun x => decide (x ≠ '"' ∧ x ≠ '\n')) (r := '"' :: rest) hl
    (by intro x hx; simp at hx; subst hx; rfl)
  have hd2 := dropWhile_append_stop (p := fun x => decide (x ≠ '"' ∧ x ≠ '\n')) (r := '"' :: rest) hl
    (by intro x hx; simp at hx; subst hx; rfl)
  rw [List.cons_append] at ht hd ⊢
  rw [marks]
  simp only [ht, hd]
  simp only [ht2, hd2]

/-- the labels found never contain a quote or a newline -/
theorem marks_clean (n : Nat) (s : List Char) : ∀ m ∈ marks n s, '"' ∉ m.2 ∧ '\n' ∉ m.2 ∧ ∀ c ∈ m.2, c ∈ s := by
  induction n generalizing s with
  | zero => intro m hm; cases s <;> simp [marks] at hm
  | succ n ih =>
    cases s with
    | nil => intro m hm; simp [marks] at hm
    | cons c cs =>
      intro m hm
      rw [marks] at hm
      have hdrop : ∀ x ∈ (c :: cs).dropWhile Char.isDigit, x ∈ c :: cs := fun x hx =>
        (List.dropWhile_sublist _).mem hx
      have sub : ∀ m ∈ marks n cs, '"' ∉ m.2 ∧ '\n' ∉ m.2 ∧ ∀ x ∈ m.2, x ∈ c :: cs := fun m hm =>
        ⟨(ih cs m hm).1, (ih cs m hm).2.1, fun x hx => by simp [(ih cs m hm).2.2 x hx]⟩
      simp only at hm
      split at hm
      · rename_i r h1 h2
        have hr : ∀ x ∈ r, x ∈ c :: cs := fun x hx => hdrop x (by rw [h2]; simp [hx])
        split at hm
        · rename_i r' h3
          have hr' : ∀ x ∈ r', x ∈ c :: cs := fun x hx =>
            hr x ((List.dropWhile_sublist _).mem (by rw [h3]; simp [hx]))
          rcases List.mem_cons.1 hm with rfl | hm
          · refine ⟨fun hc => ?_, fun hc => ?_, fun x hx => hr x ((List.takeWhile_sublist _).mem hx)⟩
            · have := mem_takeWhile_imp hc
              simp at this
            · have := mem_takeWhile_imp hc
              simp at this
          · exact ⟨(ih _ m hm).1, (ih _ m hm).2.1, fun x hx => hr' x ((ih _ m hm).2.2 x hx)⟩
        · exact sub m hm
      · exact sub m hm

theorem searchLine_match {ds g : List Char} (h1 : ds ≠ []) (h2 : ∀ c ∈ ds, c.isDigit = true)
    (h3 : g ≠ []) (h4 : ∀ c ∈ g, inClass c = true) : searchLine (ds ++ ':' :: g) = some (ds, g) := by
  obtain ⟨d, ds', rfl⟩ := List.exists_cons_of_ne_nil h1
  have ht := takeWhile_append_stop (r := ':' :: g) h2 (by intro x hx; simp at hx; subst hx; rfl)
  have hd := dropWhile_append_stop (r := ':' :: g) h2 (by intro x hx; simp at hx; subst hx; rfl)
  have hg : g.takeWhile inClass = g := by
    simpa using takeWhile_append_stop (r := []) h4 (by simp)
  rw [List.cons_append] at ht hd ⊢
  rw [searchLine]
  simp only [ht, hd, hg, h3, ne_eq, not_false_eq_true, if_true]

end Verif.Proofs.Text
