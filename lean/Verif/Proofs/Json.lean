import Verif.Spec.Json
import Verif.Proofs.Text
import Mathlib.Tactic.IntervalCases
import Mathlib.Algebra.Order.Field.Power
/-! helper lemmas: reading and writing of JSON -/
set_option linter.unusedSectionVars false
namespace Verif.Proofs.Json
open Verif.Model Verif.Model.Json Verif.Spec.Json Verif.Model.Text Verif.Proofs.Text

variable {K : Type}

/-! ## strings -/

theorem hexDigit_iff {c : Char} {n : Nat} : hexDigit c = some n ↔ Hex c n := by
  constructor
  · intro h
    have hc : c = Char.ofNat c.toNat := (Char.ofNat_toNat c).symm
    generalize hm : c.toNat = m at hc
    unfold hexDigit at h
    simp only [hm] at h
    split at h
    · rename_i hr
      obtain ⟨h1, h2⟩ := hr
      cases h
      subst hc
      interval_cases m <;> exact ⟨by decide, Or.inl (by decide)⟩
    · split at h
      · rename_i hr
        obtain ⟨h1, h2⟩ := hr
        cases h
        subst hc
        interval_cases m <;> exact ⟨by decide, Or.inl (by decide)⟩
      · split at h
        · rename_i hr
          obtain ⟨h1, h2⟩ := hr
          cases h
          subst hc
          interval_cases m <;> exact ⟨by decide, Or.inr (by decide)⟩
        · cases h
  · rintro ⟨h, hc⟩
    interval_cases n <;> rcases hc with rfl | rfl <;> decide

theorem scanHex_append {n : Nat} {t : List Char} (h : Hex4 n t) (r : List Char) : scanHex (t ++ r) = some (n, r) := by
  obtain ⟨a, b, c, d, x, y, z, w, ha, hb, hc, hd, rfl, rfl⟩ := h
  simp only [List.cons_append, List.nil_append, scanHex, hexDigit_iff.2 ha, hexDigit_iff.2 hb, hexDigit_iff.2 hc, hexDigit_iff.2 hd,
    Option.some.injEq, Prod.mk.injEq, and_true]
  omega

theorem scanHex_some {s r : List Char} {n : Nat} (h : scanHex s = some (n, r)) : ∃ t, Hex4 n t ∧ s = t ++ r := by
  unfold scanHex at h
  split at h
  · rename_i a b c d r'
    split at h
    · rename_i x y z w h1 h2 h3 h4
      cases h
      exact ⟨[a, b, c, d], ⟨a, b, c, d, x, y, z, w, hexDigit_iff.1 h1, hexDigit_iff.1 h2, hexDigit_iff.1 h3, hexDigit_iff.1 h4, rfl,
        by omega⟩, rfl⟩
    · cases h
  · cases h

theorem hex4_lt {n : Nat} {t : List Char} (h : Hex4 n t) : n < 0x10000 ∧ t.length = 4 := by
  obtain ⟨a, b, c, d, x, y, z, w, ⟨ha, _⟩, ⟨hb, _⟩, ⟨hc, _⟩, ⟨hd, _⟩, rfl, rfl⟩ := h
  exact ⟨by omega, rfl⟩

/-- the code of a character is not that of a surrogate -/
theorem char_valid (c : Char) : c.toNat < 0xd800 ∨ 0xdfff < c.toNat ∧ c.toNat < 0x110000 := c.valid

theorem toNat_ofNat {n : Nat} (h : n < 0xd800 ∨ 0xdfff < n ∧ n < 0x110000) : (Char.ofNat n).toNat = n := by
  unfold Char.ofNat
  rw [dif_pos (show n.isValidChar from h)]
  rfl

theorem unescape_append {c : Char} {t : List Char} (h : ChrText c ('\\' :: t)) (r : List Char) :
    unescape (t ++ r) = .ok (c, r) := by
  cases h with
  | plain _ _ h => exact absurd rfl h
  | esc h =>
    simp only [escapes, List.mem_cons, Prod.mk.injEq, List.not_mem_nil, or_false] at h
    rcases h with ⟨rfl, rfl⟩ | ⟨rfl, rfl⟩ | ⟨rfl, rfl⟩ | ⟨rfl, rfl⟩ | ⟨rfl, rfl⟩ | ⟨rfl, rfl⟩ | ⟨rfl, rfl⟩ | ⟨rfl, rfl⟩ <;> rfl
  | uni h =>
    have hv := char_valid c
    rw [List.cons_append, unescape]
    simp only [scanHex_append h]
    rw [if_neg (by decide), if_neg (by decide), if_neg (by decide), if_neg (by decide), if_neg (by decide), if_neg (by decide),
      if_neg (by decide), if_neg (by decide), if_pos trivial, if_neg (by omega), if_neg (by omega), Char.ofNat_toNat]
  | @pair _ m n h h' h1 h2 a1 a2 a3 a4 hc =>
    rw [List.cons_append, List.append_assoc, unescape]
    simp only [scanHex_append h1, List.cons_append, scanHex_append h2]
    rw [if_neg (by decide), if_neg (by decide), if_neg (by decide), if_neg (by decide), if_neg (by decide), if_neg (by decide),
      if_neg (by decide), if_neg (by decide), if_pos trivial, if_pos ⟨a1, a2⟩, if_pos ⟨a3, a4⟩, ← hc, Char.ofNat_toNat]

theorem unescape_ok {s r : List Char} {c : Char} (h : unescape s = .ok (c, r)) : ∃ t, ChrText c ('\\' :: t) ∧ s = t ++ r := by
  unfold unescape at h
  split at h
  · cases h
  · rename_i d s
    by_cases hu : d = 'u'
    · subst hu
      rw [if_neg (by decide), if_neg (by decide), if_neg (by decide), if_neg (by decide), if_neg (by decide), if_neg (by decide),
        if_neg (by decide), if_neg (by decide), if_pos rfl] at h
      split at h
      · cases h
      · rename_i n r' hh
        obtain ⟨t1, g1, rfl⟩ := scanHex_some hh
        have g1' := hex4_lt g1
        split at h
        · rename_i hn
          split at h
          · rename_i r''
            split at h
            · cases h
            · rename_i m r3 hh'
              obtain ⟨t2, g2, rfl⟩ := scanHex_some hh'
              split at h
              · rename_i hm
                simp only [Except.ok.injEq, Prod.mk.injEq] at h
                obtain ⟨hc, hr⟩ := h
                subst hr
                refine ⟨'u' :: (t1 ++ '\\' :: 'u' :: t2), ?_, by simp⟩
                refine .pair g1 g2 hn.1 hn.2 hm.1 hm.2 ?_
                rw [← hc, toNat_ofNat (by omega)]
              · cases h
          · cases h
        · rename_i hn
          split at h
          · cases h
          · rename_i hn'
            cases h
            refine ⟨'u' :: t1, .uni ?_, by simp⟩
            rw [toNat_ofNat (by omega)]
            exact g1
    · rw [if_neg hu] at h
      have key : ∀ e : Char, (d, e) ∈ escapes → (∃ t, ChrText e ('\\' :: t) ∧ d :: s = t ++ s) := fun e he =>
        ⟨[d], .esc he, rfl⟩
      split at h
      · rename_i hd; subst hd; cases h; exact key _ (by decide)
      split at h
      · rename_i hd; subst hd; cases h; exact key _ (by decide)
      split at h
      · rename_i hd; subst hd; cases h; exact key _ (by decide)
      split at h
      · rename_i hd; subst hd; cases h; exact key _ (by decide)
      split at h
      · rename_i hd; subst hd; cases h; exact key _ (by decide)
      split at h
      · rename_i hd; subst hd; cases h; exact key _ (by decide)
      split at h
      · rename_i hd; subst hd; cases h; exact key _ (by decide)
      split at h
      · rename_i hd; subst hd; cases h; exact key _ (by decide)
      cases h

theorem chrText_cases {c : Char} {t : List Char} (h : ChrText c t) :
    (t = [c] ∧ 32 ≤ c.toNat ∧ c ≠ '"' ∧ c ≠ '\\') ∨ ∃ t', t = '\\' :: t' := by
  cases h with
  | plain h1 h2 h3 => exact Or.inl ⟨rfl, h1, h2, h3⟩
  | esc h => exact Or.inr ⟨_, rfl⟩
  | uni h => exact Or.inr ⟨_, rfl⟩
  | pair => exact Or.inr ⟨_, rfl⟩

theorem scanStr_append {cs t : List Char} (h : StrText cs t) : ∀ (n : Nat) (r : List Char), t.length < n →
    scanStr n (t ++ '"' :: r) = .ok (cs, r) := by
  induction h with
  | nil =>
    intro n r hn
    cases n with
    | zero => simp at hn
    | succ n => simp [scanStr]
  | @cons c cs t t' hc _ ih =>
    intro n r hn
    cases n with
    | zero => simp at hn
    | succ n =>
      rcases chrText_cases hc with ⟨rfl, h1, h2, h3⟩ | ⟨t1, rfl⟩
      · simp only [List.cons_append, List.nil_append, scanStr, if_neg h2, if_neg h3, if_neg (Nat.not_lt.2 h1)]
        rw [ih n r (by simpa using hn)]
        rfl
      · simp only [List.cons_append, List.append_assoc, scanStr]
        rw [if_neg (by decide), if_pos trivial, unescape_append hc]
        simp only [bind, Except.bind]
        rw [ih n r (by simp at hn; omega)]

theorem scanStr_ok : ∀ {n : Nat} {s cs r : List Char}, scanStr n s = .ok (cs, r) → ∃ t, StrText cs t ∧ s = t ++ '"' :: r := by
  intro n
  induction n with
  | zero => intro s cs r h; cases s <;> cases h
  | succ n ih =>
    intro s cs r h
    cases s with
    | nil => cases h
    | cons c s =>
      rw [scanStr] at h
      split at h
      · rename_i hc
        cases h
        exact ⟨[], .nil, by rw [hc]; rfl⟩
      · rename_i h1
        split at h
        · rename_i hc
          simp only [bind, Except.bind] at h
          split at h
          · cases h
          · rename_i p hp
            split at h
            · cases h
            · rename_i p' hp'
              cases h
              obtain ⟨t1, g1, g2⟩ := unescape_ok (r := p.2) (c := p.1) hp
              obtain ⟨t2, g3, g4⟩ := ih (cs := p'.1) (r := p'.2) hp'
              refine ⟨'\\' :: t1 ++ t2, .cons g1 g3, ?_⟩
              rw [hc, g2, g4]
              simp
        · rename_i h2
          split at h
          · cases h
          · rename_i h3
            simp only [bind, Except.bind] at h
            split at h
            · cases h
            · rename_i p' hp'
              cases h
              obtain ⟨t2, g3, g4⟩ := ih (cs := p'.1) (r := p'.2) hp'
              refine ⟨[c] ++ t2, .cons (.plain (by omega) h1 h2) g3, ?_⟩
              rw [g4]
              rfl

/-! ## writing strings -/

theorem hex4_spec {n : Nat} (h : n < 0x10000) : Hex4 n (hex4 n) := by
  refine ⟨_, _, _, _, n / 4096 % 16, n / 256 % 16, n / 16 % 16, n % 16, ⟨Nat.mod_lt _ (by decide), Or.inl rfl⟩,
    ⟨Nat.mod_lt _ (by decide), Or.inl rfl⟩, ⟨Nat.mod_lt _ (by decide), Or.inl rfl⟩, ⟨Nat.mod_lt _ (by decide), Or.inl rfl⟩, rfl, ?_⟩
  omega

theorem escape_spec (c : Char) : ChrText c (escape c) := by
  have hv := char_valid c
  unfold escape
  split
  · rename_i h; subst h; exact .esc (by decide)
  rename_i n1
  split
  · rename_i h; subst h; exact .esc (by decide)
  rename_i n2
  split
  · rename_i h; subst h; exact .esc (by decide)
  split
  · rename_i h; subst h; exact .esc (by decide)
  split
  · rename_i h; subst h; exact .esc (by decide)
  split
  · rename_i h; subst h; exact .esc (by decide)
  split
  · rename_i h; subst h; exact .esc (by decide)
  split
  · rename_i h; exact .plain h.1 n1 n2
  split
  · rename_i h; exact .uni (hex4_spec h)
  · rename_i h
    refine .pair (hex4_spec (by omega)) (hex4_spec (by omega)) (by omega) (by omega) (by omega) (by omega) (by omega)

theorem dumpStr_spec (s : String) : ∃ t, StrText s.toList t ∧ dumpStr s = '"' :: (t ++ ['"']) := by
  refine ⟨s.toList.flatMap escape, ?_, rfl⟩
  generalize s.toList = l
  induction l with
  | nil => exact .nil
  | cons c l ih => exact .cons (escape_spec c) ih

/-! ## numbers -/

theorem natOf_eq (w : List Char) : Nat.ofDigitChars 10 w 0 = natOf w := rfl

theorem natOf_append (w d : List Char) : natOf (w ++ d) = 10 ^ d.length * natOf w + natOf d := by
  rw [← natOf_eq, ← natOf_eq, ← natOf_eq, Nat.ofDigitChars_append, Nat.ofDigitChars_eq_ofDigitChars_zero]

theorem natOf_frac (w d : List Char) : ((natOf (w ++ d) : Nat) : ℚ) / 10 ^ d.length = natOf w + natOf d / 10 ^ d.length := by
  have : (10 : ℚ) ^ d.length ≠ 0 := pow_ne_zero _ (by norm_num)
  rw [natOf_append]
  push_cast
  field_simp

/-- what may follow a number -/
def Stop (r : List Char) : Prop := ∀ c ∈ r.head?, c.isDigit = false ∧ c ≠ '.' ∧ c ≠ 'e' ∧ c ≠ 'E'

theorem intPart_digits {w : List Char} (h : IntPart w) : Digits w := by
  rcases h with rfl | h
  · exact ⟨by simp, by simp⟩
  · exact h.1

theorem scanInt_append {w r : List Char} (h : IntPart w) (hr : ∀ c ∈ r.head?, c.isDigit = false) : scanInt (w ++ r) = some (w, r) := by
  rcases h with rfl | ⟨⟨h1, h2⟩, h3⟩
  · rfl
  · cases w with
    | nil => exact absurd rfl h1
    | cons c w =>
      have hc : c ≠ '0' := by rintro rfl; exact h3 rfl
      rw [List.cons_append, scanInt, if_neg hc, if_pos (h2 c (by simp)), ← List.cons_append, takeWhile_append_stop h2 hr,
        dropWhile_append_stop h2 hr]

theorem takeWhile_digits (s : List Char) : ∀ c ∈ s.takeWhile Char.isDigit, c.isDigit = true := fun _ => mem_takeWhile_imp

theorem scanInt_some {s w r : List Char} (h : scanInt s = some (w, r)) : IntPart w ∧ s = w ++ r := by
  cases s with
  | nil => cases h
  | cons c s =>
    rw [scanInt] at h
    split at h
    · rename_i hc
      cases h
      exact ⟨Or.inl rfl, by rw [hc]; rfl⟩
    · rename_i hc
      split at h
      · rename_i hd
        simp only [Option.some.injEq, Prod.mk.injEq] at h
        obtain ⟨rfl, rfl⟩ := h
        refine ⟨Or.inr ⟨⟨by simp [hd], takeWhile_digits _⟩, ?_⟩, List.takeWhile_append_dropWhile.symm⟩
        rw [List.takeWhile_cons, if_pos hd]
        simpa using hc
      · cases h

theorem minus_digits {w r : List Char} (h : Digits w) : minus (w ++ r) = (false, w ++ r) := by
  cases w with
  | nil => exact absurd rfl h.1
  | cons c w =>
    have hc : c ≠ '-' := digit_ne (h.2 c (by simp)) (by decide)
    rw [List.cons_append, minus]
    intro r' he
    exact hc (List.cons.inj he).1

theorem scanFrac_none {r : List Char} (h : ∀ c ∈ r.head?, c ≠ '.') : scanFrac r = (none, r) := by
  unfold scanFrac
  split
  · rename_i r'
    exact absurd rfl (h '.' (by simp))
  · rfl

theorem scanFrac_some {d r : List Char} (h : Digits d) (hr : ∀ c ∈ r.head?, c.isDigit = false) :
    scanFrac ('.' :: d ++ r) = (some d, r) := by
  rw [List.cons_append, scanFrac, takeWhile_append_stop h.2 hr, dropWhile_append_stop h.2 hr, if_neg h.1]

theorem scanFrac_spec {s r : List Char} {fp : Option (List Char)} (h : scanFrac s = (fp, r)) :
    (fp = none ∧ s = r) ∨ ∃ d, fp = some d ∧ Digits d ∧ s = '.' :: d ++ r := by
  unfold scanFrac at h
  split at h
  · rename_i r'
    split at h
    · cases h
      exact Or.inl ⟨rfl, rfl⟩
    · rename_i hd
      simp only [Prod.mk.injEq] at h
      obtain ⟨rfl, rfl⟩ := h
      refine Or.inr ⟨_, rfl, ⟨hd, takeWhile_digits _⟩, ?_⟩
      rw [List.cons_append, List.takeWhile_append_dropWhile]
  · cases h
    exact Or.inl ⟨rfl, rfl⟩

theorem scanExp_none {r : List Char} (h : ∀ c ∈ r.head?, c ≠ 'e' ∧ c ≠ 'E') : scanExp r = (none, r) := by
  cases r with
  | nil => rfl
  | cons c r =>
    have := h c (by simp)
    rw [scanExp, if_neg (fun hh => hh.1.elim this.1 this.2)]

theorem sign_digits {d r : List Char} (h : Digits d) : sign (d ++ r) = (false, d ++ r) := by
  cases d with
  | nil => exact absurd rfl h.1
  | cons c d => exact sign_digit (h.2 c (by simp))

theorem scanExp_some {e : Int} {et r : List Char} (h : Expo e et) (hne : et ≠ []) (hr : ∀ c ∈ r.head?, c.isDigit = false) :
    scanExp (et ++ r) = (some e, r) := by
  cases h with
  | none => exact absurd rfl hne
  | plain he hd =>
    rw [List.cons_append, scanExp, sign_digits hd]
    simp only [takeWhile_append_stop hd.2 hr, dropWhile_append_stop hd.2 hr]
    rw [if_pos ⟨he, hd.1⟩, natOf_eq]
    rfl
  | plus he hd =>
    rw [List.cons_append, List.cons_append, scanExp, show ∀ l, sign ('+' :: l) = (false, l) from fun _ => rfl]
    simp only [takeWhile_append_stop hd.2 hr, dropWhile_append_stop hd.2 hr]
    rw [if_pos ⟨he, hd.1⟩, natOf_eq]
    rfl
  | minus he hd =>
    rw [List.cons_append, List.cons_append, scanExp, show ∀ l, sign ('-' :: l) = (true, l) from fun _ => rfl]
    simp only [takeWhile_append_stop hd.2 hr, dropWhile_append_stop hd.2 hr]
    rw [if_pos ⟨he, hd.1⟩, natOf_eq]
    rfl

theorem scanExp_spec {s r : List Char} {ex : Option Int} (h : scanExp s = (ex, r)) :
    (ex = none ∧ s = r) ∨ ∃ e et, ex = some e ∧ et ≠ [] ∧ Expo e et ∧ s = et ++ r := by
  cases s with
  | nil => cases h; exact Or.inl ⟨rfl, rfl⟩
  | cons c s =>
    rw [scanExp] at h
    split at h
    · rename_i hc
      obtain ⟨he, hd⟩ := hc
      simp only [Prod.mk.injEq] at h
      obtain ⟨rfl, rfl⟩ := h
      have hD : Digits ((sign s).2.takeWhile Char.isDigit) := ⟨hd, takeWhile_digits _⟩
      refine Or.inr ⟨_, c :: (s.takeWhile (fun _ => true)).take (s.length - (sign s).2.length) ++ (sign s).2.takeWhile Char.isDigit,
        rfl, by simp, ?_, ?_⟩
      · rw [natOf_eq]
        unfold sign at hD ⊢
        split <;> rename_i cs
        · simpa using Expo.minus he hD
        · simpa using Expo.plus he hD
        · simpa using Expo.plain he hD
      · unfold sign
        split <;> simp [List.takeWhile_append_dropWhile]
    · cases h
      exact Or.inl ⟨rfl, rfl⟩

variable {rd : ℚ → K}

theorem scanNum_of {s w r r' r'' : List Char} {b : Bool} {fp : Option (List Char)} {ex : Option Int} (h1 : minus s = (b, w ++ r))
    (h2 : scanInt (w ++ r) = some (w, r)) (h3 : scanFrac r = (fp, r')) (h4 : scanExp r' = (ex, r'')) :
    scanNum rd s = if fp = none ∧ ex = none then .ok (.int (if b then -(natOf w : Int) else natOf w), r'')
      else .ok (.float (rd (if b then -((natOf (w ++ fp.getD []) : ℚ) / 10 ^ (fp.getD []).length * 10 ^ ex.getD 0)
        else ((natOf (w ++ fp.getD []) : ℚ) / 10 ^ (fp.getD []).length * 10 ^ ex.getD 0))), r'') := by
  unfold scanNum
  rw [h1]
  simp only [h2, h3, h4]
  rfl

theorem scanNum_int {i : Int} {t r : List Char} (h : IsInt i t) (hr : Stop r) : scanNum rd (t ++ r) = .ok (.int i, r) := by
  have h2 : scanFrac r = (none, r) := scanFrac_none fun c hc => (hr c hc).2.1
  have h3 : scanExp r = (none, r) := scanExp_none fun c hc => (hr c hc).2.2
  cases h with
  | pos hw =>
    rw [scanNum_of (minus_digits (intPart_digits hw)) (scanInt_append hw fun c hc => (hr c hc).1) h2 h3]
    rfl
  | neg hw =>
    rw [scanNum_of (b := true) rfl (scanInt_append hw fun c hc => (hr c hc).1) h2 h3]
    rfl

theorem posFloat_parts {q : ℚ} {t r : List Char} (h : PosFloat q t) (hr : Stop r) :
    ∃ w r1 r2 fp ex, IntPart w ∧ t ++ r = w ++ r1 ∧ scanInt (w ++ r1) = some (w, r1) ∧ scanFrac r1 = (fp, r2) ∧ scanExp r2 = (ex, r) ∧
      ¬ (fp = none ∧ ex = none) ∧ q = (natOf (w ++ fp.getD []) : ℚ) / 10 ^ (fp.getD []).length * 10 ^ ex.getD 0 := by
  obtain ⟨w, d, ft, et, e, hw, hf, he, hne, rfl, rfl⟩ := h
  have hr0 : ∀ c ∈ r.head?, c.isDigit = false := fun c hc => (hr c hc).1
  have e1 : ∃ ex : Option Int, scanExp (et ++ r) = (ex, r) ∧ ex.getD 0 = e ∧ (ex = none ↔ et = []) := by
    by_cases h0 : et = []
    · subst h0
      cases he
      exact ⟨none, scanExp_none fun c hc => (hr c hc).2.2, rfl, by simp⟩
    · exact ⟨some e, scanExp_some he h0 hr0, rfl, by simp [h0]⟩
  have e2 : ∀ c ∈ (et ++ r).head?, c.isDigit = false ∧ c ≠ '.' := by
    cases he with
    | none => exact fun c hc => ⟨(hr c hc).1, (hr c hc).2.1⟩
    | plain he _ => intro c hc; simp at hc; subst hc; rcases he with rfl | rfl <;> decide
    | plus he _ => intro c hc; simp at hc; subst hc; rcases he with rfl | rfl <;> decide
    | minus he _ => intro c hc; simp at hc; subst hc; rcases he with rfl | rfl <;> decide
  obtain ⟨ex, a1, a2, a3⟩ := e1
  cases hf with
  | none =>
    refine ⟨w, et ++ r, et ++ r, none, ex, hw, by simp, scanInt_append hw fun c hc => (e2 c hc).1,
      scanFrac_none fun c hc => (e2 c hc).2, a1, ?_, ?_⟩
    · rintro ⟨-, h⟩
      exact hne.elim (fun h' => h' rfl) fun h' => h' (a3.1 h)
    · rw [natOf_frac, a2]
      simp
  | some hd =>
    refine ⟨w, '.' :: d ++ (et ++ r), et ++ r, some d, ex, hw, by simp, scanInt_append hw ?_, scanFrac_some hd fun c hc => (e2 c hc).1, a1,
      by simp, ?_⟩
    · intro c hc
      simp at hc
      subst hc
      decide
    · rw [natOf_frac, a2]
      rfl

theorem scanNum_float {q : ℚ} {t r : List Char} (h : IsFloat q t) (hr : Stop r) : scanNum rd (t ++ r) = .ok (.float (rd q), r) := by
  cases h with
  | pos h =>
    obtain ⟨w, r1, r2, fp, ex, hw, h0, h1, h2, h3, h4, rfl⟩ := posFloat_parts h hr
    rw [h0, scanNum_of (minus_digits (intPart_digits hw)) h1 h2 h3, if_neg h4]
    rfl
  | neg h =>
    obtain ⟨w, r1, r2, fp, ex, hw, h0, h1, h2, h3, h4, rfl⟩ := posFloat_parts h hr
    rw [List.cons_append, h0, scanNum_of (b := true) rfl h1 h2 h3, if_neg h4]
    rfl

theorem minus_spec (s : List Char) : ((minus s).1 = false ∧ (minus s).2 = s) ∨ ((minus s).1 = true ∧ s = '-' :: (minus s).2) := by
  unfold minus
  split
  · exact Or.inr ⟨rfl, rfl⟩
  · exact Or.inl ⟨rfl, rfl⟩

theorem scanNum_ok {s r : List Char} {v : Value K} (h : scanNum rd s = .ok (v, r)) : ∃ t, Val rd v t ∧ s = t ++ r := by
  cases hi : scanInt (minus s).2 with
  | none =>
    unfold scanNum at h
    rw [hi] at h
    simp only at h
    split at h <;> cases h
  | some p =>
    obtain ⟨w, r1⟩ := p
    obtain ⟨hw, hs⟩ := scanInt_some hi
    cases hf : scanFrac r1 with
    | mk fp r2 =>
    cases hx : scanExp r2 with
    | mk ex r3 =>
    rw [scanNum_of (b := (minus s).1) (by rw [← hs]) (by rw [← hs]; exact hi) hf hx] at h
    have hs' : s = (if (minus s).1 then ['-'] else []) ++ (w ++ r1) := by
      rcases minus_spec s with ⟨a, b⟩ | ⟨a, b⟩
      · rw [a, ← hs, b]; rfl
      · rw [a, ← hs]; exact b
    split at h
    · rename_i hn
      obtain ⟨rfl, rfl⟩ := hn
      simp only [Except.ok.injEq, Prod.mk.injEq] at h
      obtain ⟨rfl, rfl⟩ := h
      have g1 : r1 = r2 := by
        rcases scanFrac_spec hf with ⟨_, h⟩ | ⟨d, h, _⟩
        · exact h
        · cases h
      have g2 : r2 = r3 := by
        rcases scanExp_spec hx with ⟨_, h⟩ | ⟨_, _, h, _⟩
        · exact h
        · cases h
      subst g1 g2
      cases hb : (minus s).1 with
      | false => exact ⟨w, .int (.pos hw), by rw [hs', hb]; rfl⟩
      | true => exact ⟨'-' :: w, .int (.neg hw), by rw [hs', hb]; rfl⟩
    · rename_i hn
      simp only [Except.ok.injEq, Prod.mk.injEq] at h
      obtain ⟨rfl, rfl⟩ := h
      have g1 : ∃ ft, Frac (fp.getD []) ft ∧ r1 = ft ++ r2 ∧ (fp ≠ none → ft ≠ []) := by
        rcases scanFrac_spec hf with ⟨rfl, h⟩ | ⟨d, rfl, h, h'⟩
        · exact ⟨[], .none, h, by simp⟩
        · exact ⟨'.' :: d, .some h, h', by simp⟩
      have g2 : ∃ et, Expo (ex.getD 0) et ∧ r2 = et ++ r3 ∧ (ex ≠ none → et ≠ []) := by
        rcases scanExp_spec hx with ⟨rfl, h⟩ | ⟨e, et, rfl, h, h', h''⟩
        · exact ⟨[], .none, h, by simp⟩
        · exact ⟨et, h', h'', fun _ => h⟩
      obtain ⟨ft, f1, rfl, f3⟩ := g1
      obtain ⟨et, x1, rfl, x3⟩ := g2
      have hp : PosFloat ((natOf (w ++ fp.getD []) : ℚ) / 10 ^ (fp.getD []).length * 10 ^ ex.getD 0) (w ++ ft ++ et) := by
        refine ⟨w, _, ft, et, _, hw, f1, x1, ?_, rfl, ?_⟩
        · by_cases h : fp = none
          · exact Or.inr (x3 fun h' => hn ⟨h, h'⟩)
          · exact Or.inl (f3 h)
        · rw [natOf_frac]
      cases hb : (minus s).1 with
      | false => exact ⟨w ++ ft ++ et, .float (.pos hp), by rw [hs', hb]; simp⟩
      | true => exact ⟨'-' :: (w ++ ft ++ et), .float (.neg hp), by rw [hs', hb]; simp⟩

/-! ## dictionaries -/

theorem dictOf_append (l : List (String × Value K)) (k : String) (v : Value K) :
    dictOf (l ++ [(k, v)]) = Dict.set (dictOf l) k v := by
  simp [dictOf]

theorem dictOf_keys (l : List (String × Value K)) : (dictOf l).map Prod.fst = (l.map Prod.fst).reverse.dedup.reverse := by
  induction l using List.reverseRecOn with
  | nil => rfl
  | append_singleton l kv ih =>
    obtain ⟨k, v⟩ := kv
    have hk : k ∈ (dictOf l).map Prod.fst ↔ k ∈ (l.map Prod.fst).reverse := by
      rw [ih, List.mem_reverse, List.mem_dedup]
    rw [dictOf_append, List.map_append, List.reverse_append]
    by_cases h : k ∈ (dictOf l).map Prod.fst
    · rw [show (Dict.set (dictOf l) k v).map Prod.fst = _ from Dict.keys_set_of_mem h]
      simp only [List.map_cons, List.map_nil, List.reverse_cons, List.reverse_nil, List.nil_append, List.singleton_append]
      rw [List.dedup_cons_of_mem (hk.1 h), ← ih]
      rfl
    · rw [show (Dict.set (dictOf l) k v).map Prod.fst = _ from Dict.keys_set_of_not_mem h]
      simp only [List.map_cons, List.map_nil, List.reverse_cons, List.reverse_nil, List.nil_append, List.singleton_append]
      rw [List.dedup_cons_of_notMem (fun h' => h (hk.2 h')), List.reverse_cons, ← ih]
      rfl

theorem dictOf_nodup (l : List (String × Value K)) : ((dictOf l).map Prod.fst).Nodup := by
  rw [dictOf_keys, List.nodup_reverse]
  exact List.nodup_dedup _

theorem dictOf_isDict (l : List (String × Value K)) : IsDict l (dictOf l) := by
  refine ⟨dictOf_keys l, ?_⟩
  intro k v
  rw [← Dict.get?_iff_mem (dictOf_nodup l)]
  induction l using List.reverseRecOn with
  | nil => simp [dictOf, Dict.get?]
  | append_singleton l kv ih =>
    obtain ⟨k0, v0⟩ := kv
    rw [dictOf_append, Dict.get?_set]
    by_cases h : k = k0
    · subst h
      simp only [if_true]
      constructor
      · rintro ⟨⟩
        exact ⟨l, [], rfl, by simp⟩
      · rintro ⟨l1, l2, h1, h2⟩
        rcases List.eq_nil_or_concat l2 with rfl | ⟨l3, x, rfl⟩
        · have := List.append_inj' h1 rfl
          cases this.2
          rfl
        · exfalso
          rw [List.concat_eq_append, ← List.cons_append, ← List.append_assoc] at h1
          have := List.append_inj' h1 rfl
          cases this.2
          simp at h2
    · have h' : ¬ k0 = k := fun e => h e.symm
      simp only [h', if_false]
      rw [ih]
      constructor
      · rintro ⟨l1, l2, rfl, h2⟩
        exact ⟨l1, l2 ++ [(k0, v0)], by simp, by simpa [h] using h2⟩
      · rintro ⟨l1, l2, h1, h2⟩
        rcases List.eq_nil_or_concat l2 with rfl | ⟨l3, x, rfl⟩
        · have := List.append_inj' h1 rfl
          cases this.2
          exact absurd rfl h
        · rw [List.concat_eq_append, ← List.cons_append, ← List.append_assoc] at h1
          have := List.append_inj' h1 rfl
          refine ⟨l1, l3, this.1, fun hm => h2 ?_⟩
          rw [List.concat_eq_append, List.map_append]
          exact List.mem_append_left _ hm

theorem eq_of_keys {α β : Type} : ∀ {d d' : List (α × β)}, (d.map Prod.fst).Nodup → d.map Prod.fst = d'.map Prod.fst →
    (∀ p ∈ d, p ∈ d') → d = d'
  | [], [], _, _, _ => rfl
  | [], _ :: _, _, h, _ => by simp at h
  | _ :: _, [], _, h, _ => by simp at h
  | (k, v) :: d, (k', v') :: d', hn, h, hm => by
    simp only [List.map_cons, List.cons.injEq, List.nodup_cons] at h hn
    obtain ⟨rfl, h⟩ := h
    have hv : v = v' := by
      rcases List.mem_cons.1 (hm (k, v) (by simp)) with e | e
      · cases e; rfl
      · exact absurd (h ▸ List.mem_map.2 ⟨_, e, rfl⟩) hn.1
    subst hv
    rw [eq_of_keys hn.2 h fun p hp => ?_]
    rcases List.mem_cons.1 (hm p (by simp [hp])) with rfl | e
    · exact absurd (List.mem_map.2 ⟨_, hp, rfl⟩) hn.1
    · exact e

theorem isDict_unique {l d : List (String × Value K)} (h : IsDict l d) : d = dictOf l :=
  have h' := dictOf_isDict l
  (eq_of_keys (dictOf_nodup l) (h'.1.trans h.1.symm) fun p hp => (h.2 p.1 p.2).2 ((h'.2 p.1 p.2).1 hp)).symm

theorem dictOf_self {l : List (String × Value K)} (h : (l.map Prod.fst).Nodup) : dictOf l = l := by
  induction l using List.reverseRecOn with
  | nil => rfl
  | append_singleton l kv ih =>
    obtain ⟨k, v⟩ := kv
    rw [List.map_append, List.nodup_append] at h
    rw [dictOf_append, ih h.1, Dict.set_of_not_mem]
    intro hk
    exact h.2.2 k hk k (by simp) rfl

/-! ## white space -/

theorem isWs_iff {c : Char} : isWs c = true ↔ c = ' ' ∨ c = '\t' ∨ c = '\n' ∨ c = '\r' := by
  simp [isWs, or_assoc]

theorem skip_append {w s : List Char} (hw : Ws w) (hs : ∀ c ∈ s.head?, isWs c = false) : skip (w ++ s) = s :=
  dropWhile_append_stop (fun c hc => isWs_iff.2 (hw c hc)) hs

theorem skip_cons {c : Char} {s : List Char} (h : isWs c = false) : skip (c :: s) = c :: s :=
  skip_append (w := []) (by simp [Ws]) (by simpa using h)

theorem skip_spec (s : List Char) : ∃ w, Ws w ∧ s = w ++ skip s :=
  ⟨s.takeWhile isWs, fun _ hc => isWs_iff.1 (mem_takeWhile_imp hc), List.takeWhile_append_dropWhile.symm⟩

theorem ws_nil : Ws [] := by simp [Ws]

theorem ws_append {w w' : List Char} (h : Ws w) (h' : Ws w') : Ws (w ++ w') := fun c hc =>
  (List.mem_append.1 hc).elim (h c) (h' c)

theorem digit_notWs {c : Char} (h : c.isDigit = true) : isWs c = false := by
  rw [Bool.eq_false_iff]
  intro hw
  rcases isWs_iff.1 hw with rfl | rfl | rfl | rfl <;> exact absurd h (by decide)

theorem stop_ws {w s : List Char} (hw : Ws w) (hs : Stop s) : Stop (w ++ s) := by
  cases w with
  | nil => exact hs
  | cons c w =>
    intro c' hc'
    simp at hc'
    subst hc'
    rcases hw c (by simp) with rfl | rfl | rfl | rfl <;> decide

theorem stop_cons {c : Char} {s : List Char} (h : c.isDigit = false ∧ c ≠ '.' ∧ c ≠ 'e' ∧ c ≠ 'E') : Stop (c :: s) := by
  intro c' hc'
  simp at hc'
  subst hc'
  exact h

/-! ## values: completeness -/

/-- the first character of a number -/
theorem int_head {i : Int} {t : List Char} (h : IsInt i t) : ∃ c t', t = c :: t' ∧ (c.isDigit = true ∨ c = '-') := by
  cases h with
  | pos hw =>
    obtain ⟨h1, h2⟩ := intPart_digits hw
    cases t with
    | nil => exact absurd rfl h1
    | cons c w => exact ⟨c, w, rfl, Or.inl (h2 c (by simp))⟩
  | neg hw => exact ⟨_, _, rfl, Or.inr rfl⟩

theorem float_head {q : ℚ} {t : List Char} (h : IsFloat q t) : ∃ c t', t = c :: t' ∧ (c.isDigit = true ∨ c = '-') := by
  cases h with
  | pos hw =>
    obtain ⟨w, d, ft, et, e, hw, _, _, _, rfl, _⟩ := hw
    obtain ⟨h1, h2⟩ := intPart_digits hw
    cases w with
    | nil => exact absurd rfl h1
    | cons c w => exact ⟨c, _, rfl, Or.inl (h2 c (by simp))⟩
  | neg hw => exact ⟨_, _, rfl, Or.inr rfl⟩

theorem val_head {v : Value K} {t : List Char} (h : Val rd v t) :
    ∃ c t', t = c :: t' ∧ isWs c = false ∧ c ≠ ']' ∧ c ≠ '}' := by
  have num : (∃ c t', t = c :: t' ∧ (c.isDigit = true ∨ c = '-')) → ∃ c t', t = c :: t' ∧ isWs c = false ∧ c ≠ ']' ∧ c ≠ '}' := by
    rintro ⟨c, t', rfl, hc | rfl⟩
    · exact ⟨c, t', rfl, digit_notWs hc, digit_ne hc (by decide), digit_ne hc (by decide)⟩
    · exact ⟨_, t', rfl, by decide⟩
  cases h with
  | null => exact ⟨'n', ['u', 'l', 'l'], by decide, by decide⟩
  | true => exact ⟨'t', ['r', 'u', 'e'], by decide, by decide⟩
  | false => exact ⟨'f', ['a', 'l', 's', 'e'], by decide, by decide⟩
  | int h => exact num (int_head h)
  | float h => exact num (float_head h)
  | str => exact ⟨_, _, rfl, by decide⟩
  | empty => exact ⟨_, _, rfl, by decide⟩
  | arr => exact ⟨_, _, rfl, by decide⟩
  | emptyObj => exact ⟨_, _, rfl, by decide⟩
  | obj => exact ⟨_, _, rfl, by decide⟩

theorem scan_num {n : Nat} {s : List Char} (h : ∃ c t', s = c :: t' ∧ (c.isDigit = true ∨ c = '-')) :
    scan rd (n + 1) s = scanNum rd s := by
  obtain ⟨c, t, rfl, hc⟩ := h
  have key : ∀ d : Char, d.isDigit = false → d ≠ '-' → c ≠ d := fun d h1 h2 => by
    rcases hc with hc | rfl
    · exact digit_ne hc h1
    · exact h2.symm
  rw [scan]
  all_goals (intro r' e; exact key _ (by decide) (by decide) (List.cons.inj e).1)

theorem skip_items {vs : List (Value K)} {t : List Char} (h : Items rd vs t) (r : List Char) :
    ∃ c s, skip (t ++ r) = c :: s ∧ c ≠ ']' := by
  have key : ∀ {v : Value K} {w t r : List Char}, Ws w → Val rd v t → ∃ c s, skip (w ++ (t ++ r)) = c :: s ∧ c ≠ ']' := by
    intro v w t r hw hv
    obtain ⟨c, t', rfl, h1, h2, _⟩ := val_head hv
    exact ⟨c, t' ++ r, skip_append hw (by simpa using h1), h2⟩
  cases h with
  | one hw hv _ => simpa using key hw hv
  | cons hw hv _ _ => simpa using key hw hv

theorem skip_members {kvs : List (String × Value K)} {t : List Char} (h : Members rd kvs t) (r : List Char) :
    ∃ s, skip (t ++ r) = '"' :: s := by
  cases h with
  | one hw => simpa using ⟨_, skip_append hw (by simp; decide)⟩
  | cons hw => simpa using ⟨_, skip_append hw (by simp; decide)⟩

mutual
theorem scan_append {v : Value K} {t : List Char} (h : Val rd v t) (n : Nat) (r : List Char) (hn : t.length ≤ n) (hr : Stop r) :
    scan rd n (t ++ r) = .ok (v, r) := by
  cases n with
  | zero =>
    obtain ⟨c, t', rfl, _⟩ := val_head h
    simp at hn
  | succ n =>
    match h with
    | .null => rfl
    | .true => rfl
    | .false => rfl
    | .int h =>
      rw [scan_num (by obtain ⟨c, t', rfl, hc⟩ := int_head h; exact ⟨c, t' ++ r, rfl, hc⟩), scanNum_int h hr]
    | .float h =>
      rw [scan_num (by obtain ⟨c, t', rfl, hc⟩ := float_head h; exact ⟨c, t' ++ r, rfl, hc⟩), scanNum_float h hr]
    | .str h =>
      simp only [List.cons_append, List.append_assoc, List.nil_append, scan]
      rw [scanStr_append h (n + 1) r (by simp at hn; omega)]
      simp [bind, Except.bind]
    | .empty hw =>
      simp only [List.cons_append, List.append_assoc, List.nil_append, scan]
      rw [skip_append hw (by simp; decide)]
      rfl
    | .arr h =>
      obtain ⟨c, s, hs, hc⟩ := skip_items h (']' :: r)
      have ih := items_append h n r (by simp at hn; omega)
      simp only [List.cons_append, List.append_assoc, List.nil_append, scan]
      rw [hs] at ih ⊢
      split
      · rename_i e; exact absurd (List.cons.inj e).1 hc
      · rw [ih]
        rfl
    | .emptyObj hw =>
      simp only [List.cons_append, List.append_assoc, List.nil_append, scan]
      rw [skip_append hw (by simp; decide)]
      rfl
    | .obj h hd =>
      obtain ⟨s, hs⟩ := skip_members h ('}' :: r)
      have ih := members_append h n r (by simp at hn; omega)
      simp only [List.cons_append, List.append_assoc, List.nil_append, scan]
      rw [hs] at ih ⊢
      split
      · rename_i e; exact absurd (List.cons.inj e).1 (by decide)
      · rw [ih, isDict_unique hd]
        rfl

theorem items_append {vs : List (Value K)} {t : List Char} (h : Items rd vs t) (n : Nat) (r : List Char) (hn : t.length < n) :
    scanItems rd n (skip (t ++ ']' :: r)) = .ok (vs, r) := by
  cases n with
  | zero => simp at hn
  | succ n =>
    match h with
    | .one (w := w) (t := t) (w' := w') hw hv hw' =>
      have hne := val_head hv
      have ih := scan_append hv n (w' ++ ']' :: r) (by simp at hn; omega) (stop_ws hw' (stop_cons (by decide)))
      have e : skip (w ++ t ++ w' ++ ']' :: r) = t ++ (w' ++ ']' :: r) := by
        rw [List.append_assoc, List.append_assoc]
        refine skip_append hw ?_
        obtain ⟨c, t', rfl, h1, _⟩ := hne
        simpa using h1
      rw [e, scanItems, ih]
      simp only [bind, Except.bind]
      rw [skip_append hw' (by simp; decide)]
      rfl
    | .cons (w := w) (t := t) (w' := w') (t' := t'') hw hv hw' ht =>
      have hne := val_head hv
      have ih := scan_append hv n (w' ++ ',' :: (t'' ++ ']' :: r)) (by simp at hn; omega) (stop_ws hw' (stop_cons (by decide)))
      have ih' := items_append ht n r (by simp at hn; omega)
      have e : skip (w ++ t ++ w' ++ ',' :: t'' ++ ']' :: r) = t ++ (w' ++ ',' :: (t'' ++ ']' :: r)) := by
        simp only [List.append_assoc, List.cons_append]
        refine skip_append hw ?_
        obtain ⟨c, t', rfl, h1, _⟩ := hne
        simpa using h1
      rw [e, scanItems, ih]
      simp only [bind, Except.bind]
      rw [skip_append hw' (by simp; decide)]
      simp only [ih']

theorem members_append {kvs : List (String × Value K)} {t : List Char} (h : Members rd kvs t) (n : Nat) (r : List Char) (hn : t.length < n) :
    scanMembers rd n (skip (t ++ '}' :: r)) = .ok (kvs, r) := by
  cases n with
  | zero => simp at hn
  | succ n =>
    match h with
    | .one (w1 := w1) (tk := tk) (w2 := w2) (w3 := w3) (t := t) (w4 := w4) h1 hk h2 h3 hv h4 =>
      have hne := val_head hv
      have ih := scan_append hv n (w4 ++ '}' :: r) (by simp at hn; omega) (stop_ws h4 (stop_cons (by decide)))
      have e : skip (w1 ++ '"' :: tk ++ '"' :: w2 ++ ':' :: w3 ++ t ++ w4 ++ '}' :: r) =
          '"' :: (tk ++ '"' :: (w2 ++ ':' :: (w3 ++ (t ++ (w4 ++ '}' :: r))))) := by
        simp only [List.append_assoc, List.cons_append]
        exact skip_append h1 (by simp; decide)
      have e3 : skip (w3 ++ (t ++ (w4 ++ '}' :: r))) = t ++ (w4 ++ '}' :: r) := by
        refine skip_append h3 ?_
        obtain ⟨c, t', rfl, h1, _⟩ := hne
        simpa using h1
      rw [e]
      simp only [scanMembers]
      rw [scanStr_append hk (n + 1) _ (by simp at hn; omega)]
      simp only [bind, Except.bind]
      rw [skip_append h2 (by simp; decide)]
      simp only [e3, ih]
      rw [skip_append h4 (by simp; decide)]
      simp
    | .cons (w1 := w1) (tk := tk) (w2 := w2) (w3 := w3) (t := t) (w4 := w4) (t' := t'') h1 hk h2 h3 hv h4 ht =>
      have hne := val_head hv
      have ih := scan_append hv n (w4 ++ ',' :: (t'' ++ '}' :: r)) (by simp at hn; omega) (stop_ws h4 (stop_cons (by decide)))
      have ih' := members_append ht n r (by simp at hn; omega)
      have e : skip (w1 ++ '"' :: tk ++ '"' :: w2 ++ ':' :: w3 ++ t ++ w4 ++ ',' :: t'' ++ '}' :: r) =
          '"' :: (tk ++ '"' :: (w2 ++ ':' :: (w3 ++ (t ++ (w4 ++ ',' :: (t'' ++ '}' :: r)))))) := by
        simp only [List.append_assoc, List.cons_append]
        exact skip_append h1 (by simp; decide)
      have e3 : skip (w3 ++ (t ++ (w4 ++ ',' :: (t'' ++ '}' :: r)))) = t ++ (w4 ++ ',' :: (t'' ++ '}' :: r)) := by
        refine skip_append h3 ?_
        obtain ⟨c, t', rfl, h1, _⟩ := hne
        simpa using h1
      rw [e]
      simp only [scanMembers]
      rw [scanStr_append hk (n + 1) _ (by simp at hn; omega)]
      simp only [bind, Except.bind]
      rw [skip_append h2 (by simp; decide)]
      simp only [e3, ih]
      rw [skip_append h4 (by simp; decide)]
      simp only [ih']
      simp
end

/-! ## values: soundness -/

theorem items_ws {vs : List (Value K)} {w t : List Char} (hw : Ws w) (h : Items rd vs t) : Items rd vs (w ++ t) := by
  cases h with
  | one h1 h2 h3 =>
    have := Items.one (ws_append hw h1) h2 h3
    simpa using this
  | cons h1 h2 h3 h4 =>
    have := Items.cons (ws_append hw h1) h2 h3 h4
    simpa using this

theorem members_ws {kvs : List (String × Value K)} {w t : List Char} (hw : Ws w) (h : Members rd kvs t) : Members rd kvs (w ++ t) := by
  cases h with
  | one h1 hk h2 h3 hv h4 =>
    have := Members.one (ws_append hw h1) hk h2 h3 hv h4
    simpa using this
  | cons h1 hk h2 h3 hv h4 ht =>
    have := Members.cons (ws_append hw h1) hk h2 h3 hv h4 ht
    simpa using this

theorem scan_sound : ∀ n : Nat,
    (∀ {s r : List Char} {v : Value K}, scan rd n s = .ok (v, r) → ∃ t, Val rd v t ∧ s = t ++ r) ∧
    (∀ {s r : List Char} {vs : List (Value K)}, scanItems rd n s = .ok (vs, r) → ∃ t, Items rd vs t ∧ s = t ++ ']' :: r) ∧
    (∀ {s r : List Char} {kvs : List (String × Value K)}, scanMembers rd n s = .ok (kvs, r) →
      ∃ t, Members rd kvs t ∧ s = t ++ '}' :: r) := by
  intro n
  induction n with
  | zero =>
    refine ⟨fun h => ?_, fun h => ?_, fun h => ?_⟩
    · rw [scan] at h; cases h
    · rw [scanItems] at h; cases h
    · rw [scanMembers] at h; cases h
  | succ n ih =>
    obtain ⟨ih1, ih2, ih3⟩ := ih
    refine ⟨?_, ?_, ?_⟩
    · intro s r v h
      rw [scan.eq_def] at h
      simp only at h
      split at h
      · rename_i s
        simp only [bind, Except.bind] at h
        split at h
        · cases h
        · rename_i p hp
          cases h
          obtain ⟨t, h1, rfl⟩ := scanStr_ok (cs := p.1) (r := p.2) hp
          exact ⟨_, .str (s := String.ofList p.1) (by simpa using h1), by simp⟩
      · rename_i s
        obtain ⟨w, hw, hs⟩ := skip_spec s
        split at h
        · rename_i r' e
          cases h
          exact ⟨_, .emptyObj hw, by rw [hs, e]; simp⟩
        · simp only [bind, Except.bind] at h
          split at h
          · cases h
          · rename_i p hp
            cases h
            obtain ⟨t, h1, h2⟩ := ih3 (kvs := p.1) (r := p.2) hp
            exact ⟨_, .obj (members_ws hw h1) (dictOf_isDict _), by rw [hs, h2]; simp⟩
      · rename_i s
        obtain ⟨w, hw, hs⟩ := skip_spec s
        split at h
        · rename_i r' e
          cases h
          exact ⟨_, .empty hw, by rw [hs, e]; simp⟩
        · simp only [bind, Except.bind] at h
          split at h
          · cases h
          · rename_i p hp
            cases h
            obtain ⟨t, h1, h2⟩ := ih2 (vs := p.1) (r := p.2) hp
            exact ⟨_, .arr (items_ws hw h1), by rw [hs, h2]; simp⟩
      · cases h; exact ⟨_, .null, rfl⟩
      · cases h; exact ⟨_, .true, rfl⟩
      · cases h; exact ⟨_, .false, rfl⟩
      · exact scanNum_ok h
    · intro s r vs h
      rw [scanItems] at h
      simp only [bind, Except.bind] at h
      split at h
      · cases h
      · rename_i p hp
        obtain ⟨t, h1, h2⟩ := ih1 (v := p.1) (r := p.2) hp
        obtain ⟨w, hw, hs⟩ := skip_spec p.2
        split at h
        · rename_i r' e
          cases h
          refine ⟨[] ++ t ++ w, .one ws_nil h1 hw, ?_⟩
          rw [h2, hs, e]; simp
        · rename_i r' e
          obtain ⟨w2, hw2, hs2⟩ := skip_spec r'
          split at h
          · cases h
          · rename_i p' hp'
            cases h
            obtain ⟨t', h1', h2'⟩ := ih2 (vs := p'.1) (r := p'.2) hp'
            refine ⟨[] ++ t ++ w ++ ',' :: (w2 ++ t'), .cons ws_nil h1 hw (items_ws hw2 h1'), ?_⟩
            rw [h2, hs, e, hs2, h2']; simp
        · cases h
    · intro s r kvs h
      rw [scanMembers.eq_def] at h
      simp only at h
      split at h
      · rename_i s
        simp only [bind, Except.bind] at h
        split at h
        · cases h
        · rename_i p hp
          obtain ⟨tk, hk1, rfl⟩ := scanStr_ok (cs := p.1) (r := p.2) hp
          have hk : StrText (String.ofList p.1).toList tk := by simpa using hk1
          obtain ⟨w2, hw2, hs2⟩ := skip_spec p.2
          split at h
          · rename_i r2 e2
            obtain ⟨w3, hw3, hs3⟩ := skip_spec r2
            split at h
            · cases h
            · rename_i q hq
              obtain ⟨t, h1, h2⟩ := ih1 (v := q.1) (r := q.2) hq
              obtain ⟨w4, hw4, hs4⟩ := skip_spec q.2
              split at h
              · rename_i r' e
                cases h
                refine ⟨_, .one ws_nil hk hw2 hw3 h1 hw4, ?_⟩
                rw [hs2, e2, hs3, h2, hs4, e]; simp
              · rename_i r' e
                obtain ⟨w5, hw5, hs5⟩ := skip_spec r'
                split at h
                · cases h
                · rename_i p' hp'
                  cases h
                  obtain ⟨t', h1', h2'⟩ := ih3 (kvs := p'.1) (r := p'.2) hp'
                  refine ⟨_, .cons ws_nil hk hw2 hw3 h1 hw4 (members_ws hw5 h1'), ?_⟩
                  rw [hs2, e2, hs3, h2, hs4, e, hs5, h2']; simp
              · cases h
          · cases h
      · cases h

/-- `json.load` accepts exactly the texts of the grammar -/
theorem load_iff {t : List Char} {v : Value K} : load rd t = .ok v ↔ Document rd v t := by
  unfold load
  constructor
  · intro h
    simp only [bind, Except.bind] at h
    split at h
    · cases h
    · rename_i p hp
      split at h
      · rename_i hs
        cases h
        obtain ⟨t', h1, h2⟩ := (scan_sound _).1 (v := p.1) (r := p.2) hp
        obtain ⟨w, hw, e⟩ := skip_spec t
        obtain ⟨w', hw', e'⟩ := skip_spec p.2
        rw [hs, List.append_nil] at e'
        exact ⟨w, t', p.2, hw, h1, e' ▸ hw', by rw [List.append_assoc, ← h2, ← e]⟩
      · cases h
  · rintro ⟨w, t', w', hw, hv, hw', rfl⟩
    have e : skip (w ++ t' ++ w') = t' ++ w' := by
      rw [List.append_assoc]
      obtain ⟨c, s, rfl, h1, _⟩ := val_head hv
      exact skip_append hw (by simpa using h1)
    have hs : Stop w' := by simpa using stop_ws hw' (s := []) (by simp [Stop])
    have e' : skip w' = [] := by simpa using skip_append hw' (s := []) (by simp)
    rw [e, scan_append hv _ w' (by simp; omega) hs]
    simp [bind, Except.bind, e']

/-! ## writing -/

theorem fmtD_head {n : Nat} (h : n ≠ 0) : (fmtD n).head? ≠ some '0' := by
  induction n using Nat.strongRecOn with
  | ind n ih =>
    by_cases hn : n < 10
    · rw [fmtD, Nat.toDigits_of_lt_base hn]
      interval_cases n <;> first | exact absurd rfl h | decide
    · have := ih (n / 10) (by omega) (by omega)
      rw [fmtD] at this ⊢
      rw [Nat.toDigits_of_base_le (by decide) (by omega), List.head?_append_of_ne_nil _ Nat.toDigits_ne_nil]
      exact this

theorem fmtD_intPart (n : Nat) : IntPart (fmtD n) := by
  by_cases h : n = 0
  · subst h; exact Or.inl rfl
  · refine Or.inr ⟨⟨fmtD_ne n, fun c hc => fmtD_digit hc⟩, ?_⟩
    exact fmtD_head h

theorem natOf_fmtD (n : Nat) : natOf (fmtD n) = n := Nat.ofDigitChars_ten_toDigits

theorem dumpInt_spec (i : Int) : IsInt i (dumpInt i) := by
  unfold dumpInt
  by_cases h : i < 0
  · rw [if_pos h]
    have := IsInt.neg (fmtD_intPart i.natAbs)
    rw [natOf_fmtD] at this
    rwa [show (-(i.natAbs : Int)) = i by omega] at this
  · rw [if_neg h]
    have := IsInt.pos (fmtD_intPart i.natAbs)
    rw [natOf_fmtD] at this
    rwa [show ((i.natAbs : Int)) = i by omega] at this

variable {fr : K → List Char}

theorem dumpItems_spec : ∀ {vs : List (Value K)}, vs ≠ [] → (∀ v ∈ vs, Val rd v (dump fr v)) → Items rd vs (dumpItems fr vs)
  | [], h, _ => absurd rfl h
  | [v], _, h => by
    have := Items.one ws_nil (h v (by simp)) ws_nil
    simpa [dumpItems] using this
  | v :: v' :: vs, _, h => by
    have ih := dumpItems_spec (vs := v' :: vs) (by simp) fun x hx => h x (List.mem_cons_of_mem _ hx)
    have := Items.cons ws_nil (h v (by simp)) ws_nil (items_ws (w := [' ']) (by simp [Ws]) ih)
    simpa [dumpItems] using this

theorem dumpMembers_spec : ∀ {kvs : List (String × Value K)}, kvs ≠ [] → (∀ kv ∈ kvs, Val rd kv.2 (dump fr kv.2)) →
    Members rd kvs (dumpMembers fr kvs)
  | [], h, _ => absurd rfl h
  | [(k, v)], _, h => by
    obtain ⟨t, h1, h2⟩ := dumpStr_spec k
    have := Members.one ws_nil h1 ws_nil (w3 := [' ']) (by simp [Ws]) (h (k, v) (by simp)) ws_nil
    simpa [dumpMembers, h2] using this
  | (k, v) :: kv' :: kvs, _, h => by
    obtain ⟨t, h1, h2⟩ := dumpStr_spec k
    have ih := dumpMembers_spec (kvs := kv' :: kvs) (by simp) fun x hx => h x (List.mem_cons_of_mem _ hx)
    have := Members.cons ws_nil h1 ws_nil (w3 := [' ']) (by simp [Ws]) (h (k, v) (by simp)) ws_nil (members_ws (w := [' ']) (by simp [Ws]) ih)
    simpa [dumpMembers, h2] using this

theorem dump_val {v : Value K} (h : Writable (ReprOk fr rd) v) : Val rd v (dump fr v) := by
  induction h with
  | null => rw [dump]; exact Val.null
  | bool b =>
    cases b
    · rw [dump]; exact Val.false
    · rw [dump]; exact Val.true
  | int i => simpa only [dump] using Val.int (dumpInt_spec i)
  | float hx =>
    obtain ⟨q, h1, rfl⟩ := hx
    simpa only [dump] using Val.float h1
  | str s =>
    obtain ⟨t, h1, h2⟩ := dumpStr_spec s
    simpa only [dump, h2] using Val.str h1
  | @arr vs _ ih =>
    by_cases hv : vs = []
    · subst hv
      simpa [dump, dumpItems] using Val.empty (rd := rd) ws_nil
    · simpa [dump] using Val.arr (dumpItems_spec hv ih)
  | @obj kvs hk _ ih =>
    by_cases hv : kvs = []
    · subst hv
      simpa [dump, dumpMembers] using Val.emptyObj (rd := rd) ws_nil
    · have := Val.obj (dumpMembers_spec hv ih) (dictOf_isDict kvs)
      rw [dictOf_self hk] at this
      simpa [dump] using this

theorem load_dump {v : Value K} (h : Writable (ReprOk fr rd) v) : load rd (dump fr v) = .ok v :=
  load_iff.2 ⟨[], _, [], ws_nil, dump_val h, ws_nil, by simp⟩

/-! ## only printable ASCII characters are written -/

def Printable (t : List Char) : Prop := ∀ c ∈ t, 32 ≤ c.toNat ∧ c.toNat ≤ 126

theorem printable_append {t t' : List Char} (h : Printable t) (h' : Printable t') : Printable (t ++ t') := fun c hc =>
  (List.mem_append.1 hc).elim (h c) (h' c)

theorem printable_cons {c : Char} {t : List Char} (h : 32 ≤ c.toNat ∧ c.toNat ≤ 126) (h' : Printable t) : Printable (c :: t) := by
  intro d hd
  rcases List.mem_cons.1 hd with rfl | hd
  · exact h
  · exact h' d hd

theorem printable_nil : Printable [] := by simp [Printable]

theorem printable_digits {w : List Char} (h : Digits w) : Printable w := fun c hc => by
  have := digit_range (h.2 c hc)
  omega

theorem printable_int {i : Int} {t : List Char} (h : IsInt i t) : Printable t := by
  cases h with
  | pos h => exact printable_digits (intPart_digits h)
  | neg h => exact printable_cons (by decide) (printable_digits (intPart_digits h))

theorem printable_float {q : ℚ} {t : List Char} (h : IsFloat q t) : Printable t := by
  have key : ∀ {q t}, PosFloat q t → Printable t := by
    rintro q t ⟨w, d, ft, et, e, hw, hf, he, _, rfl, _⟩
    refine printable_append (printable_append (printable_digits (intPart_digits hw)) ?_) ?_
    · cases hf with
      | none => exact printable_nil
      | some h => exact printable_cons (by decide) (printable_digits h)
    · cases he with
      | none => exact printable_nil
      | plain he hd => exact printable_cons (by rcases he with rfl | rfl <;> decide) (printable_digits hd)
      | plus he hd =>
        exact printable_cons (by rcases he with rfl | rfl <;> decide) (printable_cons (by decide) (printable_digits hd))
      | minus he hd =>
        exact printable_cons (by rcases he with rfl | rfl <;> decide) (printable_cons (by decide) (printable_digits hd))
  cases h with
  | pos h => exact key h
  | neg h => exact printable_cons (by decide) (key h)

theorem digitChar_printable (n : Nat) : 32 ≤ (Nat.digitChar (n % 16)).toNat ∧ (Nat.digitChar (n % 16)).toNat ≤ 126 := by
  have h : n % 16 < 16 := Nat.mod_lt _ (by decide)
  generalize n % 16 = m at h
  interval_cases m <;> decide

theorem hex4_printable (n : Nat) : Printable (hex4 n) :=
  printable_cons (digitChar_printable _) (printable_cons (digitChar_printable _) (printable_cons (digitChar_printable _)
    (printable_cons (digitChar_printable _) printable_nil)))

theorem escape_printable (c : Char) : Printable (escape c) := by
  have two : ∀ d : Char, 32 ≤ d.toNat ∧ d.toNat ≤ 126 → Printable ['\\', d] := fun d hd =>
    printable_cons (by decide) (printable_cons hd printable_nil)
  unfold escape
  split
  · exact two _ (by decide)
  split
  · exact two _ (by decide)
  split
  · exact two _ (by decide)
  split
  · exact two _ (by decide)
  split
  · exact two _ (by decide)
  split
  · exact two _ (by decide)
  split
  · exact two _ (by decide)
  split
  · rename_i h
    exact printable_cons h printable_nil
  split
  · exact printable_cons (by decide) (printable_cons (by decide) (hex4_printable _))
  · exact printable_cons (by decide) (printable_cons (by decide) (printable_append (hex4_printable _)
      (printable_cons (by decide) (printable_cons (by decide) (hex4_printable _)))))

theorem dumpStr_printable (s : String) : Printable (dumpStr s) := by
  refine printable_cons (by decide) (printable_append ?_ (printable_cons (by decide) printable_nil))
  intro c hc
  obtain ⟨d, _, hd⟩ := List.mem_flatMap.1 hc
  exact escape_printable d c hd

theorem dump_printable {v : Value K} (h : Writable (ReprOk fr rd) v) : Printable (dump fr v) := by
  induction h with
  | null => rw [dump]; unfold Printable; decide
  | bool b => cases b <;> rw [dump] <;> unfold Printable <;> decide
  | int i => rw [dump]; exact printable_int (dumpInt_spec i)
  | float hx =>
    obtain ⟨q, h1, _⟩ := hx
    rw [dump]; exact printable_float h1
  | str s => rw [dump]; exact dumpStr_printable s
  | @arr vs _ ih =>
    rw [dump]
    refine printable_cons (by decide) (printable_append ?_ (printable_cons (by decide) printable_nil))
    revert ih
    have key : ∀ vs : List (Value K), (∀ v ∈ vs, Printable (dump fr v)) → Printable (dumpItems fr vs) := by
      intro vs
      induction vs with
      | nil => intro _; exact printable_nil
      | cons v vs ih =>
        intro h
        cases vs with
        | nil => rw [dumpItems]; exact h v (by simp)
        | cons v' vs =>
          rw [dumpItems]
          exact printable_append (h v (by simp)) (printable_cons (by decide) (printable_cons (by decide)
            (ih fun x hx => h x (List.mem_cons_of_mem _ hx))))
    exact key vs
  | @obj kvs _ _ ih =>
    rw [dump]
    refine printable_cons (by decide) (printable_append ?_ (printable_cons (by decide) printable_nil))
    revert ih
    have key : ∀ kvs : List (String × Value K), (∀ kv ∈ kvs, Printable (dump fr kv.2)) → Printable (dumpMembers fr kvs) := by
      intro kvs
      induction kvs with
      | nil => intro _; exact printable_nil
      | cons kv kvs ih =>
        intro h
        obtain ⟨k, v⟩ := kv
        cases kvs with
        | nil =>
          rw [dumpMembers]
          exact printable_append (dumpStr_printable k) (printable_cons (by decide) (printable_cons (by decide) (h (k, v) (by simp))))
        | cons v' vs =>
          rw [dumpMembers]
          exact printable_append (printable_append (dumpStr_printable k) (printable_cons (by decide) (printable_cons (by decide)
            (h (k, v) (by simp))))) (printable_cons (by decide) (printable_cons (by decide)
            (ih fun x hx => h x (List.mem_cons_of_mem _ hx))))
    exact key kvs

end Verif.Proofs.Json
