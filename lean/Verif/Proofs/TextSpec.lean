import Verif.Spec.Text
import Verif.Proofs.Text
import Mathlib.Tactic.Ring
import Mathlib.Tactic.FieldSimp
/-!
# The readers of text files agree with `Spec/Text.lean`
-/
namespace Verif.Proofs.Text
open Verif.Model Verif.Model.Text Verif.Spec

/-! ## lines -/

theorem universal_plain {l : List Char} (h : ∀ c ∈ l, c ≠ '\n' ∧ c ≠ '\r') (r : List Char) :
    universal (l ++ r) = l ++ universal r := by
  induction l with
  | nil => rfl
  | cons c l ih =>
    have hc := (h c (by simp)).2
    have : universal (c :: (l ++ r)) = c :: universal (l ++ r) := by
      rw [universal]
      · intro cs e; exact absurd e hc
      · exact hc
    rw [List.cons_append, this, ih fun d hd => h d (by simp [hd]), List.cons_append]

theorem readLines_of_lines {text : List Char} {L : List (List Char)} (h : Lines text L) : readLines text = L := by
  unfold readLines
  induction h with
  | nil => rfl
  | @last l hne hl =>
    have := universal_plain hl []
    simp only [List.append_nil] at this
    rw [this]
    simp only [universal, List.append_nil]
    clear this
    induction l with
    | nil => exact absurd rfl hne
    | cons c l ih =>
      rw [splitLines, if_neg (hl c (by simp)).1]
      cases l with
      | nil => rfl
      | cons d l =>
        rw [ih (by simp) fun x hx => hl x (by simp [hx])]
  | @lf l rest L hl _ ih =>
    rw [universal_plain hl]
    have : universal ('\n' :: rest) = '\n' :: universal rest := by
      rw [universal]
      · intro cs e; exact absurd e (by decide)
      · decide
    rw [this, splitLines_line (fun hc => (hl _ hc).1 rfl), ih]
  | @crlf l rest L hl _ ih =>
    rw [universal_plain hl]
    have : universal ('\r' :: '\n' :: rest) = '\n' :: universal rest := by rw [universal]
    rw [this, splitLines_line (fun hc => (hl _ hc).1 rfl), ih]
  | @cr l rest L hl hh _ ih =>
    rw [universal_plain hl]
    have : universal ('\r' :: rest) = '\n' :: universal rest := by
      rw [universal]
      intro cs e; rw [e] at hh; exact hh rfl
    rw [this, splitLines_line (fun hc => (hl _ hc).1 rfl), ih]

theorem exists_lines (text : List Char) : ∃ L, Lines text L := by
  induction hn : text.length using Nat.strong_induction_on generalizing text with
  | _ n ih =>
    subst hn
    let p : Char → Bool := fun c => c ≠ '\n' ∧ c ≠ '\r'
    have hl : ∀ c ∈ text.takeWhile p, c ≠ '\n' ∧ c ≠ '\r' := by
      intro c hc
      have := mem_takeWhile_imp hc
      simpa [p] using this
    have e := List.takeWhile_append_dropWhile (p := p) (l := text)
    cases hd : text.dropWhile p with
    | nil =>
      rw [hd, List.append_nil] at e
      by_cases hne : text = []
      · exact ⟨[], hne ▸ .nil⟩
      · rw [e] at hl; exact ⟨[text], .last hne hl⟩
    | cons c r =>
      rw [hd] at e
      have hc : p c = false := by
        have := List.head?_dropWhile_not p text
        rw [hd] at this; simpa using this
      have hlen : r.length < text.length := by rw [← e]; simp; omega
      have hc' : c = '\n' ∨ c = '\r' := by
        by_contra hh
        rw [not_or] at hh
        simp [p, hh] at hc
      rcases hc' with rfl | rfl
      · obtain ⟨L, hL⟩ := ih _ hlen r rfl
        exact ⟨_, by rw [← e]; exact .lf hl hL⟩
      · by_cases hh : r.head? = some '\n'
        · obtain ⟨r', rfl⟩ : ∃ r', r = '\n' :: r' := by
            cases r with
            | nil => cases hh
            | cons d r' => exact ⟨r', by simpa using hh⟩
          obtain ⟨L, hL⟩ := ih r'.length (by simp at hlen; omega) r' rfl
          exact ⟨_, by rw [← e]; exact .crlf hl hL⟩
        · obtain ⟨L, hL⟩ := ih _ hlen r rfl
          exact ⟨_, by rw [← e]; exact .cr hl hh hL⟩

theorem lines_iff {text : List Char} {L : List (List Char)} : Lines text L ↔ readLines text = L := by
  refine ⟨readLines_of_lines, ?_⟩
  rintro rfl
  obtain ⟨L, hL⟩ := exists_lines text
  rwa [readLines_of_lines hL]

/-! ## words -/

theorem blank_iff {c : Char} : Blank c ↔ isSpace c = true := by
  unfold Blank isSpace
  generalize c.toNat = n
  simp only [List.mem_cons, List.mem_nil_iff, or_false, Bool.or_eq_true, Bool.and_eq_true, decide_eq_true_eq,
    beq_iff_eq]
  omega

theorem split_blanks {b : List Char} (hb : ∀ c ∈ b, Blank c) (rest : List Char) : split (b ++ rest) = split rest := by
  induction b with
  | nil => rfl
  | cons c b ih =>
    rw [List.cons_append, split_space (blank_iff.1 (hb c (by simp))), ih fun d hd => hb d (by simp [hd])]

theorem split_of_fields {l : List Char} {ws : List (List Char)} (h : Fields l ws) : split l = ws := by
  induction h with
  | @nil b hb =>
    have := split_blanks hb []
    rw [List.append_nil] at this
    rw [this]; rfl
  | @cons b w rest ws hb hne hw hh _ ih =>
    have hw' : ∀ c ∈ w, isSpace c = false := fun c hc => by
      have := hw c hc; rw [blank_iff] at this; simpa using this
    rw [List.append_assoc, split_blanks hb]
    cases rest with
    | nil => rw [List.append_nil, split_last hw' hne]; rw [← ih]; rfl
    | cons c r =>
      have hc := blank_iff.1 (hh c rfl)
      rw [split_word hw' hne hc, ← ih, split_space hc]

theorem exists_fields (l : List Char) : ∃ ws, Fields l ws := by
  induction hn : l.length using Nat.strong_induction_on generalizing l with
  | _ n ih =>
    subst hn
    have hb : ∀ c ∈ l.takeWhile isSpace, Blank c := fun c hc => blank_iff.2 (mem_takeWhile_imp hc)
    have e := List.takeWhile_append_dropWhile (p := isSpace) (l := l)
    cases hd : l.dropWhile isSpace with
    | nil =>
      rw [hd, List.append_nil] at e
      rw [e] at hb; exact ⟨[], .nil hb⟩
    | cons c r =>
      have hc : isSpace c = false := by
        have := List.head?_dropWhile_not isSpace l
        rw [hd] at this; simpa using this
      let q : Char → Bool := fun c => !isSpace c
      have e2 := List.takeWhile_append_dropWhile (p := q) (l := c :: r)
      have htw : (c :: r).takeWhile q = c :: r.takeWhile q := by
        rw [List.takeWhile_cons_of_pos]; simp [q, hc]
      obtain ⟨ws, hws⟩ := ih ((c :: r).dropWhile q).length (by
        have h1 : ((c :: r).takeWhile q).length + ((c :: r).dropWhile q).length = (c :: r).length := by
          rw [← List.length_append, e2]
        have h2 : (l.takeWhile isSpace).length + (c :: r).length = l.length := by
          rw [← hd, ← List.length_append, e]
        rw [htw, List.length_cons] at h1
        omega) _ rfl
      refine ⟨(c :: r).takeWhile q :: ws, ?_⟩
      rw [hd, ← e2, ← List.append_assoc] at e
      rw [← e]
      refine .cons hb (by rw [htw]; simp) (fun d hd' => ?_) (fun d hd' => ?_) hws
      · have := mem_takeWhile_imp hd'
        rw [blank_iff]; simpa [q] using this
      · have := List.head?_dropWhile_not q (c :: r)
        rw [hd'] at this
        rw [blank_iff]; simpa [q] using this

theorem fields_iff {l : List Char} {ws : List (List Char)} : Fields l ws ↔ split l = ws := by
  refine ⟨split_of_fields, ?_⟩
  rintro rfl
  obtain ⟨ws, hws⟩ := exists_fields l
  rwa [split_of_fields hws]

/-! ## numbers -/

theorem digits_iff {w : List Char} : Digits w ↔ ∀ c ∈ w, c.isDigit = true := by
  unfold Digits
  simp only [Char.isDigit, Bool.and_eq_true, decide_eq_true_eq]
  rfl

theorem ofDigitChars_eq (w : List Char) : Nat.ofDigitChars 10 w 0 = value w := by
  have : ∀ (w : List Char) (i : Nat), Nat.ofDigitChars 10 w i = Nat.ofDigits 10 (w.reverse.map fun c => c.toNat - '0'.toNat) + 10 ^ w.length * i := by
    intro w
    induction w with
    | nil => intro i; simp [Nat.ofDigitChars]
    | cons c w ih =>
      intro i
      rw [Nat.ofDigitChars_cons, ih, List.reverse_cons, List.map_append, Nat.ofDigits_append]
      simp only [List.map_cons, List.map_nil, Nat.ofDigits_singleton, List.length_map, List.length_reverse, List.length_cons]
      ring
  have := this w 0
  rw [this]; simp [value]

theorem value_append (v w : List Char) : value (v ++ w) = value v * 10 ^ w.length + value w := by
  simp only [value, List.reverse_append, List.map_append, Nat.ofDigits_append, List.length_map, List.length_reverse]
  ring

theorem isNat_iff {w : List Char} {n : Nat} : IsNat w n ↔ pyNat w = .ok n := by
  unfold IsNat pyNat
  rw [digits_iff, ofDigitChars_eq]
  constructor
  · rintro ⟨h1, h2, rfl⟩
    rw [if_pos ⟨h1, h2⟩]
  · intro h
    split at h
    · rename_i hc
      cases h; exact ⟨hc.1, hc.2, rfl⟩
    · cases h

/-- no digit, point or exponent letter is a sign -/
theorem sign_of_isSign {sg r : List Char} {v : ℚ} (h : IsSign sg v) (hr : r.head? ≠ some '+' ∧ r.head? ≠ some '-') :
    sign (sg ++ r) = (decide (v = -1), r) := by
  have h1 : decide ((1 : ℚ) = -1) = false := by decide
  rcases h with ⟨rfl, rfl⟩ | ⟨rfl, rfl⟩ | ⟨rfl, rfl⟩
  · rw [h1, List.nil_append]
    cases r with
    | nil => rfl
    | cons c r =>
      unfold sign
      split
      · rename_i e; exact absurd (by rw [e]; rfl) hr.2
      · rename_i e; exact absurd (by rw [e]; rfl) hr.1
      · rfl
  · rw [h1]; rfl
  · rfl

theorem isSign_sign (s : List Char) : ∃ sg v, s = sg ++ (sign s).2 ∧ IsSign sg v ∧ ((sign s).1 = true ↔ v = -1) := by
  unfold sign
  split
  · exact ⟨['-'], -1, rfl, Or.inr (Or.inr ⟨rfl, rfl⟩), by simp⟩
  · exact ⟨['+'], 1, rfl, Or.inr (Or.inl ⟨rfl, rfl⟩), by simp; decide⟩
  · exact ⟨[], 1, rfl, Or.inl ⟨rfl, rfl⟩, by simp; decide⟩

theorem isSign_val {sg : List Char} {v : ℚ} (h : IsSign sg v) : v = 1 ∨ v = -1 := by
  rcases h with ⟨-, rfl⟩ | ⟨-, rfl⟩ | ⟨-, rfl⟩ <;> simp

theorem isExp_iff {w : List Char} {e : ℚ} : IsExp w e ↔ exponent w = .ok e := by
  constructor
  · rintro (⟨rfl, rfl⟩ | ⟨c, sg, v, ds, n, rfl, hc, hs, hn, rfl⟩)
    · rfl
    · have hh : ds.head? ≠ some '+' ∧ ds.head? ≠ some '-' := by
        have := digits_iff.1 hn.2.1
        constructor <;>
        · intro hd
          have := this _ (List.mem_of_mem_head? hd)
          revert this; decide
      rw [exponent, if_pos hc, sign_of_isSign hs hh]
      simp only [isNat_iff.1 hn, bind, Except.bind]
      rcases isSign_val hs with rfl | rfl
      · have : ¬ ((1 : ℚ) = -1) := by decide
        simp [this]
      · have : ¬ ((-1 : ℚ) = 1) := by decide
        simp [this]
  · intro h
    cases w with
    | nil => left; cases h; exact ⟨rfl, rfl⟩
    | cons c cs =>
      right
      rw [exponent] at h
      split at h
      · rename_i hc
        simp only [bind, Except.bind] at h
        split at h
        · cases h
        · rename_i n hn
          obtain ⟨sg, v, h1, h2, h3⟩ := isSign_sign cs
          refine ⟨c, sg, v, (sign cs).2, n, by rw [← h1], hc, h2, isNat_iff.2 hn, ?_⟩
          cases h
          rcases isSign_val h2 with rfl | rfl
          · have : ¬ (sign cs).1 = true := by rw [h3]; decide
            simp [this]
          · have : ¬ ((-1 : ℚ) = 1) := by decide
            rw [if_pos (h3.2 rfl), if_neg this]
      · cases h

theorem exp_head {w : List Char} {e : ℚ} (h : IsExp w e) : ∀ c, w.head? = some c → c = 'e' ∨ c = 'E' := by
  rcases h with ⟨rfl, -⟩ | ⟨c, sg, v, ds, n, rfl, hc, -⟩
  · intro c hc; cases hc
  · intro d hd; cases hd; exact hc

theorem isDecimal_iff {w : List Char} {q : ℚ} : IsDecimal w q ↔ decimal w = .ok q := by
  constructor
  · rintro ⟨sg, v, ip, fp, dot, ep, e, rfl, hs, hip, hfp, hdot, hne, hep, rfl⟩
    rw [digits_iff] at hip hfp
    have hepd : ∀ c, ep.head? = some c → c.isDigit = false := by
      intro c hc; rcases exp_head hep c hc with rfl | rfl <;> decide
    have htail : ∀ c, (dot ++ fp ++ ep).head? = some c → c.isDigit = false := by
      rcases hdot with ⟨rfl, rfl⟩ | rfl
      · exact hepd
      · intro c hc; cases hc; decide
    have hh : (ip ++ (dot ++ fp ++ ep)).head? ≠ some '+' ∧ (ip ++ (dot ++ fp ++ ep)).head? ≠ some '-' := by
      cases ip with
      | cons c ip =>
        have := hip c (by simp)
        constructor <;> · intro h; cases h; revert this; decide
      | nil =>
        rcases hdot with ⟨rfl, rfl⟩ | rfl
        · exact absurd rfl hne
        · constructor <;> · intro h; revert h; simp
    unfold decimal
    rw [sign_of_isSign hs hh]
    simp only
    rw [takeWhile_append_stop hip htail, dropWhile_append_stop hip htail]
    have hm : fraction (dot ++ fp ++ ep) = (fp, ep) := by
      rcases hdot with ⟨rfl, rfl⟩ | rfl
      · simp only [List.nil_append]
        unfold fraction
        split
        · rcases exp_head hep '.' rfl with h | h
          · exact absurd h (by decide)
          · exact absurd h (by decide)
        · rfl
      · simp only [List.cons_append, List.nil_append, fraction]
        rw [takeWhile_append_stop hfp hepd, dropWhile_append_stop hfp hepd]
    rw [hm]
    simp only
    have hn : ¬ (ip = [] ∧ fp = []) := by
      rintro ⟨rfl, rfl⟩; exact hne rfl
    rw [if_neg hn, isExp_iff.1 hep]
    simp only [bind, Except.bind, ofDigitChars_eq, value_append]
    congr 1
    push_cast
    rcases isSign_val hs with rfl | rfl
    · have : ¬ ((1 : ℚ) = -1) := by decide
      simp only [this, decide_false, Bool.false_eq_true, if_false]
      field_simp
    · simp only [decide_true, if_true]
      field_simp
  · intro h
    unfold decimal at h
    obtain ⟨sg, v, h1, h2, h3⟩ := isSign_sign w
    generalize hs' : (sign w).2 = s' at h h1
    have e := List.takeWhile_append_dropWhile (p := Char.isDigit) (l := s')
    generalize hip : s'.takeWhile Char.isDigit = ip at h e
    generalize hr : s'.dropWhile Char.isDigit = r at h e
    obtain ⟨fp, dot, ep, hm, hre, hdot, hfp⟩ : ∃ fp dot ep, fraction r = (fp, ep) ∧ r = dot ++ fp ++ ep ∧ (dot = [] ∧ fp = [] ∨ dot = ['.']) ∧ Digits fp := by
      clear hr e h
      unfold fraction
      split
      · rename_i r'
        exact ⟨r'.takeWhile Char.isDigit, ['.'], r'.dropWhile Char.isDigit, rfl, by simp, Or.inr rfl,
          digits_iff.2 fun c hc => mem_takeWhile_imp hc⟩
      · exact ⟨[], [], r, rfl, rfl, Or.inl ⟨rfl, rfl⟩, by intro c hc; cases hc⟩
    simp only [hip, hr, hm] at h
    split at h
    · cases h
    · rename_i hn
      simp only [bind, Except.bind] at h
      split at h
      · cases h
      · rename_i x hx
        refine ⟨sg, v, ip, fp, dot, ep, x, by rw [← hre, e]; exact h1, h2, ?_, hfp, hdot, ?_, isExp_iff.2 hx, ?_⟩
        · rw [digits_iff, ← hip]; exact fun c hc => mem_takeWhile_imp hc
        · intro hc; exact hn (List.append_eq_nil_iff.1 hc)
        · simp only [ofDigitChars_eq, value_append, Except.ok.injEq] at h
          rw [← h]
          push_cast
          rcases isSign_val h2 with rfl | rfl
          · have : ¬ (sign w).1 = true := by rw [h3]; decide
            rw [if_neg this]; field_simp
          · rw [if_pos (h3.2 rfl)]; field_simp

/-! ## white space and underscores -/

theorem dropWhile_blank {b : List Char} (hb : ∀ c ∈ b, Blank c) {u : List Char} (hu : ∀ c, u.head? = some c → ¬ Blank c) :
    (b ++ u).dropWhile isSpace = u :=
  dropWhile_append_stop (fun c hc => blank_iff.1 (hb c hc)) fun c hc => by
    have := hu c (by simpa using hc)
    rw [blank_iff] at this
    simpa using this

theorem trim_iff {w u : List Char} : Trim w u ↔ strip w = u := by
  constructor
  · rintro ⟨b, b', rfl, h1, h2, h3, h4⟩
    unfold strip
    by_cases hu : u = []
    · subst hu
      have : (b ++ [] ++ b').dropWhile isSpace = [] := by
        have := dropWhile_blank (b := b ++ b') (fun c hc => (List.mem_append.1 hc).elim (h1 c) (h2 c)) (u := [])
          (by intro c hc; cases hc)
        simpa using this
      rw [this]; rfl
    · have e1 : (b ++ u ++ b').dropWhile isSpace = u ++ b' := by
        rw [List.append_assoc]
        refine dropWhile_blank h1 fun c hc => h3 c ?_
        cases u with
        | nil => exact absurd rfl hu
        | cons x u => exact hc
      rw [e1, List.reverse_append, dropWhile_blank (fun c hc => h2 c (by simpa using hc)), List.reverse_reverse]
      intro c hc
      exact h4 c (by rwa [List.head?_reverse] at hc)
  · rintro rfl
    have e1 := List.takeWhile_append_dropWhile (p := isSpace) (l := w)
    set v := w.dropWhile isSpace with hv
    have e2 := List.takeWhile_append_dropWhile (p := isSpace) (l := v.reverse)
    set x := v.reverse.dropWhile isSpace with hx
    have e3 : v = x.reverse ++ (v.reverse.takeWhile isSpace).reverse := by
      rw [← List.reverse_append, e2, List.reverse_reverse]
    refine ⟨w.takeWhile isSpace, (v.reverse.takeWhile isSpace).reverse, ?_, fun c hc => blank_iff.2 (mem_takeWhile_imp hc),
      fun c hc => blank_iff.2 (mem_takeWhile_imp (List.mem_reverse.1 hc)), fun c hc => ?_, fun c hc => ?_⟩
    · rw [List.append_assoc]
      change w = List.takeWhile isSpace w ++ (x.reverse ++ _)
      rw [← e3, e1]
    · change x.reverse.head? = some c at hc
      have h0 : v.head? = some c := by
        rw [e3]
        cases hxr : x.reverse with
        | nil => rw [hxr] at hc; cases hc
        | cons y l => rw [hxr] at hc; exact hc
      have := List.head?_dropWhile_not isSpace w
      rw [← hv, h0] at this
      rw [blank_iff]; simpa using this
    · change x.reverse.getLast? = some c at hc
      rw [List.getLast?_reverse] at hc
      have := List.head?_dropWhile_not isSpace v.reverse
      rw [← hx, hc] at this
      rw [blank_iff]; simpa using this

theorem ungroup_head {w : List Char} (h : w.head? ≠ some '_') (d : Bool) : ungroup d w = ungroup false w := by
  cases w with
  | nil => rfl
  | cons c w =>
    have hc : c ≠ '_' := by rintro rfl; exact h rfl
    rw [ungroup, ungroup, if_neg hc, if_neg hc]

theorem ungroup_iff {w u : List Char} : Ungroup w u ↔ ungroup false w = some u := by
  constructor
  · intro h
    induction h with
    | nil => rfl
    | @cons c w u hc h ih =>
      have hh : w.head? ≠ some '_' := by
        cases h with
        | nil => simp
        | cons h1 _ => simpa using h1
        | group h1 _ =>
          have := digits_iff.1 h1 _ (List.mem_cons_self)
          simp only [List.head?_cons, ne_eq, Option.some.injEq]
          rintro rfl
          exact absurd this (by decide)
      rw [ungroup, if_neg hc, ungroup_head hh, ih]; rfl
    | @group c d w u hd h ih =>
      have h1 := digits_iff.1 hd c (by simp)
      have h2 := digits_iff.1 hd d (by simp)
      have hc : c ≠ '_' := by rintro rfl; exact absurd h1 (by decide)
      rw [ungroup, if_neg hc, h1, ungroup, if_pos rfl, if_pos ⟨rfl, by simp [h2]⟩, ih]; rfl
  · induction hn : w.length using Nat.strong_induction_on generalizing w u with
    | _ n ih =>
      subst hn
      intro h
      cases w with
      | nil => cases h; exact .nil
      | cons c w =>
        rw [ungroup] at h
        split at h
        · simp at h
        · rename_i hc
          obtain ⟨u', h1, rfl⟩ := Option.map_eq_some_iff.1 h
          by_cases hh : w.head? = some '_'
          · obtain ⟨w, rfl⟩ : ∃ w', w = '_' :: w' := by
              cases w with
              | nil => cases hh
              | cons x w' => exact ⟨w', by simpa using hh⟩
            rw [ungroup, if_pos rfl] at h1
            split at h1
            · rename_i hd
              cases w with
              | nil => simp at hd
              | cons d w =>
                refine .group (digits_iff.2 fun x hx => ?_) (ih (d :: w).length (by simp) rfl h1)
                simp only [List.mem_cons, List.mem_nil_iff, or_false] at hx
                rcases hx with rfl | rfl
                · exact hd.1
                · simpa using hd.2
            · cases h1
          · rw [ungroup_head hh] at h1
            exact .cons hc (ih w.length (by simp) rfl h1)

theorem ungroup_mem {w u : List Char} (h : Ungroup w u) : ∀ c ∈ w, c = '_' ∨ c ∈ u := by
  induction h with
  | nil => intro c hc; cases hc
  | cons _ _ ih =>
    intro c hc
    rcases List.mem_cons.1 hc with rfl | hc
    · simp
    · exact (ih c hc).imp id fun h => by simp [h]
  | group _ _ ih =>
    intro c hc
    rcases List.mem_cons.1 hc with rfl | hc
    · simp
    · rcases List.mem_cons.1 hc with rfl | hc
      · simp
      · exact (ih c hc).imp id fun h => by simp [h]

theorem ascii_of_ungroup {w u : List Char} (h : Ungroup w u) (hu : ∀ c ∈ u, c.toNat < 128) :
    w.any (fun c => 128 ≤ c.toNat) = false := by
  rw [List.any_eq_false]
  intro c hc
  rcases ungroup_mem h c hc with rfl | h1
  · decide
  · have := hu c h1
    simp only [decide_eq_true_eq]; omega

theorem ascii_digits {w : List Char} (h : Digits w) : ∀ c ∈ w, c.toNat < 128 := fun c hc => by
  have := digit_range (digits_iff.1 h c hc)
  omega

theorem ascii_sign {w : List Char} {v : ℚ} (h : IsSign w v) : ∀ c ∈ w, c.toNat < 128 := by
  rcases h with ⟨rfl, -⟩ | ⟨rfl, -⟩ | ⟨rfl, -⟩ <;> simp

theorem digits_no_sign {ds : List Char} (h : Digits ds) : ds.head? ≠ some '+' ∧ ds.head? ≠ some '-' := by
  have := digits_iff.1 h
  constructor <;>
  · intro hd
    have := this _ (List.mem_of_mem_head? hd)
    revert this; decide

theorem isInt_iff {w : List Char} {i : Int} : IsInt w i ↔ pyInt w = .ok i := by
  constructor
  · rintro ⟨u, sg, v, ds, n, h1, h2, h3, h4, h5⟩
    have ha := ascii_of_ungroup h2 fun c hc => (List.mem_append.1 hc).elim (ascii_sign h3 c) (ascii_digits h4.2.1 c)
    unfold pyInt
    rw [trim_iff.1 h1, ha, ungroup_iff.1 h2]
    simp only [Bool.false_eq_true, if_false, sign_of_isSign h3 (digits_no_sign h4.2.1), isNat_iff.1 h4, bind, Except.bind]
    congr 1
    have : ((if decide (v = -1) = true then -(n : Int) else n : Int) : ℚ) = (i : ℚ) := by
      rw [h5]
      rcases isSign_val h3 with rfl | rfl
      · have : ¬ ((1 : ℚ) = -1) := by decide
        simp [this]
      · simp
    exact_mod_cast this
  · intro h
    unfold pyInt at h
    split at h
    · cases h
    split at h
    · cases h
    rename_i u hu
    simp only [bind, Except.bind] at h
    split at h
    · cases h
    rename_i n hn
    obtain ⟨sg, v, k1, k2, k3⟩ := isSign_sign u
    refine ⟨strip w, sg, v, (sign u).2, n, trim_iff.2 rfl, ?_, k2, isNat_iff.2 hn, ?_⟩
    · rw [← k1]; exact ungroup_iff.2 hu
    · cases h
      rcases isSign_val k2 with rfl | rfl
      · have : ¬ (sign u).1 = true := by rw [k3]; decide
        simp [this]
      · rw [if_pos (k3.2 rfl)]; simp

theorem ascii_decimal {w : List Char} {q : ℚ} (h : IsDecimal w q) : ∀ c ∈ w, c.toNat < 128 := by
  obtain ⟨sg, v, ip, fp, dot, ep, e, rfl, h1, h2, h3, h4, -, h5, -⟩ := h
  have k5 : ∀ c ∈ ep, c.toNat < 128 := by
    rcases h5 with ⟨rfl, -⟩ | ⟨c, sg, v, ds, n, rfl, hc, k1, k2, -⟩
    · simp
    · intro x hx
      rcases List.mem_cons.1 hx with rfl | hx
      · rcases hc with rfl | rfl <;> decide
      · exact (List.mem_append.1 hx).elim (ascii_sign k1 x) (ascii_digits k2.2.1 x)
  have k4 : ∀ c ∈ dot, c.toNat < 128 := by
    rcases h4 with ⟨rfl, -⟩ | rfl
    · simp
    · intro c hc; simp at hc; subst hc; decide
  intro c hc
  simp only [List.mem_append] at hc
  rcases hc with hc | hc | (hc | hc) | hc
  · exact ascii_sign h1 c hc
  · exact ascii_digits h2 c hc
  · exact k4 c hc
  · exact ascii_digits h3 c hc
  · exact k5 c hc

theorem decimal_bad {w r : List Char} {c : Char} (h : (sign w).2 = c :: r) (hd : c.isDigit = false) (hp : c ≠ '.') :
    decimal w = .error .valueError := by
  unfold decimal
  have : fraction (c :: r) = ([], c :: r) := by
    unfold fraction
    split
    · rename_i e; cases e; exact absurd rfl hp
    · rfl
  simp [h, hd, this]

/-- the first character after the sign stays -/
theorem sign_ungroup {u u' r : List Char} {c : Char} (h : ungroup false u = some u') (hs : (sign u).2 = c :: r)
    (hc : c ≠ '_') (h1 : c ≠ '+') (h2 : c ≠ '-') : ∃ r', (sign u').2 = c :: r' := by
  have key : ∀ d r u', ungroup d (c :: r) = some u' → ∃ r', u' = c :: r' := by
    intro d r u' h
    rw [ungroup, if_neg hc] at h
    obtain ⟨r', -, rfl⟩ := Option.map_eq_some_iff.1 h
    exact ⟨r', rfl⟩
  unfold sign at hs
  split at hs
  · rw [ungroup, if_neg (by decide)] at h
    obtain ⟨x, hx, rfl⟩ := Option.map_eq_some_iff.1 h
    dsimp only at hs
    subst hs
    obtain ⟨r', rfl⟩ := key _ _ _ hx
    exact ⟨r', rfl⟩
  · rw [ungroup, if_neg (by decide)] at h
    obtain ⟨x, hx, rfl⟩ := Option.map_eq_some_iff.1 h
    dsimp only at hs
    subst hs
    obtain ⟨r', rfl⟩ := key _ _ _ hx
    exact ⟨r', rfl⟩
  · dsimp only at hs
    subst hs
    obtain ⟨r', rfl⟩ := key _ _ _ h
    refine ⟨r', ?_⟩
    unfold sign
    split
    · rename_i e; cases e; exact absurd rfl h2
    · rename_i e; cases e; exact absurd rfl h1
    · rfl

theorem special_head {s : List Char} (h : s.map Char.toLower ∈ ["inf".toList, "infinity".toList, "nan".toList]) :
    ∃ c r, s = c :: r ∧ c.isDigit = false ∧ c ≠ '.' ∧ c ≠ '_' ∧ c ≠ '+' ∧ c ≠ '-' := by
  cases s with
  | nil => simp at h
  | cons c r =>
    have hc : c.toLower = 'i' ∨ c.toLower = 'n' := by
      simp only [List.map_cons, List.mem_cons, List.mem_nil_iff, or_false] at h
      rcases h with h | h | h
      · exact .inl (List.cons.inj h).1
      · exact .inl (List.cons.inj h).1
      · exact .inr (List.cons.inj h).1
    have key : ∀ d : Char, d.toLower = d → d ≠ 'i' → d ≠ 'n' → c ≠ d := by
      rintro d h1 h2 h3 rfl
      rw [h1] at hc
      exact hc.elim h2 h3
    refine ⟨c, r, rfl, ?_, key _ (by decide) (by decide) (by decide), key _ (by decide) (by decide) (by decide),
      key _ (by decide) (by decide) (by decide), key _ (by decide) (by decide) (by decide)⟩
    by_contra hd
    have hd : c.isDigit = true := by simpa using hd
    have hr := digit_range hd
    refine key c ?_ ?_ ?_ rfl
    · unfold Char.toLower
      have : ¬ (c.val ≥ 'A'.val ∧ c.val ≤ 'Z'.val) := by
        rintro ⟨k, -⟩
        have k : 65 ≤ c.toNat := k
        omega
      simp only [this, dite_false]
    · rintro rfl; exact absurd hd (by decide)
    · rintro rfl; exact absurd hd (by decide)

theorem isNumber_iff {w : List Char} {q : ℚ} : IsNumber w q ↔ pyFloat w = .ok q := by
  constructor
  · rintro ⟨u, u', h1, h2, h3⟩
    have ha := ascii_of_ungroup h2 (ascii_decimal h3)
    have hd := isDecimal_iff.1 h3
    have hu := ungroup_iff.1 h2
    have hs : (sign u).2.map Char.toLower ∉ ["inf".toList, "infinity".toList, "nan".toList] := fun hm => by
      obtain ⟨c, r, hs, k1, k2, k3, k4, k5⟩ := special_head hm
      obtain ⟨r', hr'⟩ := sign_ungroup hu hs k3 k4 k5
      rw [decimal_bad hr' k1 k2] at hd
      cases hd
    unfold pyFloat
    rw [trim_iff.1 h1, ha, hu]
    simp only [Bool.false_eq_true, if_false, if_neg hs, hd]
  · intro h
    unfold pyFloat at h
    split at h
    · cases h
    split at h
    · cases h
    split at h
    · cases h
    rename_i u hu
    exact ⟨strip w, u, trim_iff.2 rfl, ungroup_iff.2 hu, isDecimal_iff.2 h⟩

/-! ## exceptions -/

theorem pyNat_error {w : List Char} {x : Err} (h : pyNat w = .error x) : x = .valueError := by
  unfold pyNat at h
  split at h
  · cases h
  · cases h; rfl

theorem ascii_strip {w : List Char} (h : ∀ c ∈ w, c.toNat < 128) : (strip w).any (fun c => 128 ≤ c.toNat) = false := by
  obtain ⟨b, b', e, -⟩ := trim_iff.2 (rfl : strip w = strip w)
  rw [List.any_eq_false]
  intro c hc
  have := h c (by rw [e]; simp [hc])
  simp only [decide_eq_true_eq]; omega

theorem pyInt_error {w : List Char} (h : ∀ c ∈ w, c.toNat < 128) (hn : ∀ i, pyInt w ≠ .ok i) :
    pyInt w = .error .valueError := by
  cases hp : pyInt w with
  | ok i => exact absurd hp (hn i)
  | error x =>
    unfold pyInt at hp
    rw [ascii_strip h] at hp
    simp only [Bool.false_eq_true, if_false, bind, Except.bind] at hp
    split at hp
    · cases hp; rfl
    · split at hp
      · rename_i y hy
        cases hp
        rw [pyNat_error hy]
      · cases hp

theorem decimal_error {w : List Char} {x : Err} (h : decimal w = .error x) : x = .valueError := by
  unfold decimal at h
  simp only [bind, Except.bind] at h
  split at h
  · cases h; rfl
  · split at h
    · rename_i e he
      cases h
      unfold exponent at he
      split at he
      · cases he
      · simp only [bind, Except.bind] at he
        split at he
        · split at he
          · rename_i y hy
            cases he
            exact pyNat_error hy
          · cases he
        · cases he; rfl
    · cases h

theorem pyFloat_error {w : List Char} (h : ∀ c ∈ w, c.toNat < 128)
    (hs : (sign (strip w)).2.map Char.toLower ∉ ["inf".toList, "infinity".toList, "nan".toList])
    (hn : ∀ q, pyFloat w ≠ .ok q) : pyFloat w = .error .valueError := by
  cases hp : pyFloat w with
  | ok q => exact absurd hp (hn q)
  | error x =>
    unfold pyFloat at hp
    rw [ascii_strip h] at hp
    simp only [Bool.false_eq_true, if_false, if_neg hs] at hp
    split at hp
    · cases hp; rfl
    · rw [decimal_error hp]

/-! ## indices -/

theorem isIndex_iff {n : Nat} {w : List Char} {s : Nat} : IsIndex n w s ↔ ∃ i, pyInt w = .ok i ∧
    (0 ≤ i ∧ (s : Int) = i ∨ i < 0 ∧ (s : Int) = i + n) := by
  simp only [IsIndex, isInt_iff]

end Verif.Proofs.Text
