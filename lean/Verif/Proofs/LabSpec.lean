import Verif.Proofs.TextSpec
import Verif.Spec.Label
/-! helper lemmas: the two regular expressions of the label files find what `Spec.Label` says -/
namespace Verif.Proofs.Text
open Verif.Model Verif.Model.Text Verif.Spec

theorem isDigit_eq_of {c : Char} (h : '0' ≤ c ∧ c ≤ '9') : c.isDigit = true :=
  (digits_iff (w := [c])).1 (by intro x hx; simp at hx; subst hx; exact h) c (by simp)

/-- at the first position there is at most one match, and it is found by reading greedily -/
theorem mark_nil_iff {line ds lab rest : List Char} : Mark line [] ds lab rest ↔
    ds ≠ [] ∧ line.takeWhile Char.isDigit = ds ∧ ∃ r, line.dropWhile Char.isDigit = '=' :: '"' :: r ∧
      r.takeWhile (fun x => x ≠ '"' ∧ x ≠ '\n') = lab ∧ r.dropWhile (fun x => x ≠ '"' ∧ x ≠ '\n') = '"' :: rest := by
  constructor
  · rintro ⟨e, h1, h2, h3⟩
    rw [List.nil_append] at e
    have hd := digits_iff.1 h2
    have hst : ∀ x, ('=' :: '"' :: (lab ++ '"' :: rest)).head? = some x → Char.isDigit x = false := by
      intro x hx; simp at hx; subst hx; decide
    have hl : ∀ x ∈ lab, (fun x => decide (x ≠ '"' ∧ x ≠ '\n')) x = true := fun x hx => by simpa using h3 x hx
    refine ⟨h1, ?_, lab ++ '"' :: rest, ?_, ?_, ?_⟩
    · rw [e]; exact takeWhile_append_stop hd hst
    · rw [e]; exact dropWhile_append_stop hd hst
    · exact takeWhile_append_stop hl (by intro x hx; simp at hx; subst hx; decide)
    · exact dropWhile_append_stop hl (by intro x hx; simp at hx; subst hx; decide)
  · rintro ⟨h1, h2, r, h3, h4, h5⟩
    refine ⟨?_, h1, digits_iff.2 fun c hc => ?_, fun c hc => ?_⟩
    · have e1 := List.takeWhile_append_dropWhile (p := Char.isDigit) (l := line)
      have e2 := List.takeWhile_append_dropWhile (p := fun x => decide (x ≠ '"' ∧ x ≠ '\n')) (l := r)
      rw [h4, h5] at e2
      rw [h2, h3, ← e2] at e1
      exact e1.symm
    · rw [← h2] at hc; exact mem_takeWhile_imp hc
    · rw [← h4] at hc; simpa using mem_takeWhile_imp hc

theorem mark_cons {c : Char} {cs pre ds lab rest : List Char} :
    Mark (c :: cs) (c :: pre) ds lab rest ↔ Mark cs pre ds lab rest := by
  simp [Mark]

theorem mark_cons_cases {c : Char} {cs pre ds lab rest : List Char} (h : Mark (c :: cs) pre ds lab rest) :
    pre = [] ∨ ∃ p, pre = c :: p ∧ Mark cs p ds lab rest := by
  cases pre with
  | nil => exact .inl rfl
  | cons x p =>
    have : x = c := by have := h.1; simp at this; exact this.1.symm
    subst this
    exact .inr ⟨p, rfl, mark_cons.1 h⟩

theorem marks_shift {c : Char} {cs : List Char} {ms : List (List Char × List Char)}
    (h0 : ∀ ds lab rest, ¬ Mark (c :: cs) [] ds lab rest) (h : Marks cs ms) : Marks (c :: cs) ms := by
  cases h with
  | nil hn =>
    refine .nil fun pre ds lab rest hm => ?_
    rcases mark_cons_cases hm with rfl | ⟨p, rfl, h1⟩
    · exact h0 _ _ _ hm
    · exact hn _ _ _ _ h1
  | cons h1 h2 h3 =>
    refine .cons (mark_cons.2 h1) (fun pre' ds' lab' rest' hm => ?_) h3
    rcases mark_cons_cases hm with rfl | ⟨p, rfl, h4⟩
    · exact absurd hm (h0 _ _ _)
    · simpa using h2 _ _ _ _ h4

theorem marks_sound : ∀ (n : Nat) (line : List Char), line.length < n → Marks line (marks n line)
  | 0, _, h => absurd h (by simp)
  | n + 1, [], _ => by
    rw [marks_nil]
    refine .nil fun pre ds lab rest hm => ?_
    have := hm.1
    simp at this
  | n + 1, c :: cs, h => by
    have hcs := marks_sound n cs (by simpa using h)
    by_cases hm : ∃ ds lab rest, Mark (c :: cs) [] ds lab rest
    · obtain ⟨ds, lab, rest, hm⟩ := hm
      obtain ⟨h1, h2, r, h3, h4, h5⟩ := mark_nil_iff.1 hm
      have e : marks (n + 1) (c :: cs) = (ds, lab) :: marks n rest := by
        rw [marks]
        simp only [h2, h3]
        obtain ⟨d, ds', rfl⟩ := List.exists_cons_of_ne_nil h1
        simp only [h4, h5]
      rw [e]
      refine .cons hm (by simp) (marks_sound n rest ?_)
      have := hm.1
      have := congrArg List.length this
      simp only [List.length_append, List.length_cons, List.length_nil] at this h
      omega
    · push Not at hm
      have e : marks (n + 1) (c :: cs) = marks n cs := by
        rw [marks]
        cases ht : (c :: cs).takeWhile Char.isDigit with
        | nil => rfl
        | cons d ds =>
          cases hd : (c :: cs).dropWhile Char.isDigit with
          | nil => rfl
          | cons x r =>
            by_cases hx : x = '='
            · subst hx
              cases r with
              | nil => rfl
              | cons y r =>
                by_cases hy : y = '"'
                · subst hy
                  simp only
                  split
                  · rename_i rest hr
                    exact absurd (mark_nil_iff.2 ⟨by simp, ht, r, hd, rfl, hr⟩) (hm (d :: ds) _ rest)
                  · rfl
                · simp only
                  split
                  · rename_i _ _ _ _ h1; simp at h1; exact absurd h1.1 hy
                  · rfl
            · simp only
              split
              · rename_i _ _ _ _ h1; simp at h1; exact absurd h1.1 hx
              · rfl
      rw [e]
      exact marks_shift hm hcs

theorem marks_unique {line : List Char} {ms : List (List Char × List Char)} (h : Marks line ms) :
    ∀ {ms'}, Marks line ms' → ms = ms' := by
  induction h with
  | nil hn =>
    intro ms' h'
    cases h' with
    | nil => rfl
    | cons h1 => exact absurd h1 (hn _ _ _ _)
  | cons h1 h2 h3 ih =>
    rename_i line pre ds lab rest ms
    intro ms' h'
    cases h' with
    | nil hn => exact absurd h1 (hn _ _ _ _)
    | cons k1 k2 k3 =>
      rename_i pre' ds' lab' rest' ms'
      have hle := le_antisymm (h2 _ _ _ _ k1) (k2 _ _ _ _ h1)
      have e := h1.1.symm.trans k1.1
      obtain ⟨e1, e2⟩ := List.append_inj e hle
      have a := (mark_nil_iff (line := ds ++ '=' :: '"' :: (lab ++ '"' :: rest))).1 ⟨rfl, h1.2⟩
      have b := (mark_nil_iff (line := ds ++ '=' :: '"' :: (lab ++ '"' :: rest)) (ds := ds') (lab := lab') (rest := rest')).1
        ⟨(by rw [e2]; rfl), k1.2⟩
      obtain ⟨-, a2, r, a3, a4, a5⟩ := a
      obtain ⟨-, b2, r', b3, b4, b5⟩ := b
      rw [a3] at b3
      simp only [List.cons.injEq, true_and] at b3
      subst b3
      rw [a5] at b5
      simp only [List.cons.injEq, true_and] at b5
      subst b5
      rw [← a2, ← b2, ← a4, ← b4, ih k3]

theorem marks_iff {line : List Char} {ms : List (List Char × List Char)} :
    Marks line ms ↔ marks (line.length + 1) line = ms := by
  have h := marks_sound (line.length + 1) line (by simp)
  constructor
  · intro h'; exact marks_unique h h'
  · rintro rfl; exact h

theorem sep_iff {c : Char} : AfterColon c ↔ inClass c = true := by
  have e1 : c.isAlpha = true ↔ ('a' ≤ c ∧ c ≤ 'z' ∨ 'A' ≤ c ∧ c ≤ 'Z') := by
    simp only [Char.isAlpha, Char.isUpper, Char.isLower, Bool.or_eq_true, Bool.and_eq_true, decide_eq_true_eq, Char.le_def,
      UInt32.le_iff_toNat_le]
    exact or_comm
  have e2 : c.isDigit = true → ¬ (('a' ≤ c ∧ c ≤ 'z' ∨ 'A' ≤ c ∧ c ≤ 'Z') ∨ c = '_' ∨ 128 ≤ c.toNat) := by
    intro h
    have := digit_range h
    simp only [Char.le_def, UInt32.le_iff_toNat_le]
    rintro ((⟨h1, h2⟩ | ⟨h1, h2⟩) | h1 | h1)
    · have : 97 ≤ c.toNat := h1
      omega
    · have : 65 ≤ c.toNat := h1
      omega
    · subst h1; exact absurd h (by decide)
    · omega
  have e3 : c = ',' → ¬ (('a' ≤ c ∧ c ≤ 'z' ∨ 'A' ≤ c ∧ c ≤ 'Z') ∨ c = '_' ∨ 128 ≤ c.toNat) := by
    rintro rfl; decide
  simp only [AfterColon, inClass, isWord, Char.isAlphanum]
  rw [← or_assoc]
  simp only [Bool.or_eq_true, Bool.not_eq_true', Bool.or_eq_false_iff, beq_iff_eq, beq_eq_false_iff_ne, decide_eq_false_iff_not]
  constructor
  · intro h
    by_cases hd : c.isDigit = true
    · exact .inr hd
    · refine .inl (.inl ⟨⟨⟨?_, by simpa using hd⟩, fun e => h (.inr (.inl e))⟩, fun e => h (.inr (.inr e))⟩)
      cases ha : c.isAlpha with
      | false => rfl
      | true => exact absurd (.inl (e1.1 ha)) h
  · rintro ((⟨⟨⟨h1, h2⟩, h3⟩, h4⟩ | h) | h)
    · rintro (h | h | h)
      · rw [e1.2 h] at h1; cases h1
      · exact h3 h
      · exact h4 h
    · exact e3 h
    · exact e2 h

theorem colon_nil {line ds rest : List Char} {c : Char} (h : Colon line [] ds c rest) :
    line.takeWhile Char.isDigit = ds ∧ line.dropWhile Char.isDigit = ':' :: c :: rest := by
  obtain ⟨e, h1, h2, h3⟩ := h
  rw [List.nil_append] at e
  have hd := digits_iff.1 h2
  have hst : ∀ x, (':' :: c :: rest).head? = some x → Char.isDigit x = false := by
    intro x hx; simp at hx; subst hx; decide
  rw [e]
  exact ⟨takeWhile_append_stop hd hst, dropWhile_append_stop hd hst⟩

theorem colon_cons {c x : Char} {cs pre ds rest : List Char} :
    Colon (c :: cs) (c :: pre) ds x rest ↔ Colon cs pre ds x rest := by
  simp [Colon]

theorem colon_cons_cases {c x : Char} {cs pre ds rest : List Char} (h : Colon (c :: cs) pre ds x rest) :
    pre = [] ∨ ∃ p, pre = c :: p ∧ Colon cs p ds x rest := by
  cases pre with
  | nil => exact .inl rfl
  | cons y p =>
    have : y = c := by have := h.1; simp at this; exact this.1.symm
    subst this
    exact .inr ⟨p, rfl, colon_cons.1 h⟩

/-- the two cases of `searchLine` at one position -/
theorem searchLine_cases (c : Char) (cs : List Char) :
    (∃ ds g rest, c :: cs = ds ++ ':' :: (g ++ rest) ∧ ds ≠ [] ∧ Digits ds ∧ g ≠ [] ∧ (∀ x ∈ g, AfterColon x) ∧
      (∀ x, rest.head? = some x → ¬ AfterColon x) ∧ searchLine (c :: cs) = some (ds, g)) ∨
    ((∀ ds x rest, ¬ Colon (c :: cs) [] ds x rest) ∧ searchLine (c :: cs) = searchLine cs) := by
  by_cases hm : ∃ ds x rest, Colon (c :: cs) [] ds x rest
  · obtain ⟨ds, x, rest, hm⟩ := hm
    obtain ⟨h1, h2⟩ := colon_nil hm
    left
    refine ⟨ds, (x :: rest).takeWhile inClass, (x :: rest).dropWhile inClass, ?_, hm.2.1, hm.2.2.1, ?_, ?_, ?_, ?_⟩
    · rw [List.takeWhile_append_dropWhile]; exact hm.1
    · rw [List.takeWhile_cons, if_pos (sep_iff.1 hm.2.2.2)]; simp
    · intro y hy; exact sep_iff.2 (mem_takeWhile_imp hy)
    · intro y hy hs
      have := List.head?_dropWhile_not inClass (x :: rest)
      rw [hy] at this
      have hc := sep_iff.1 hs
      simp [hc] at this
    · rw [searchLine]
      simp only [h1, h2]
      obtain ⟨d, ds', rfl⟩ := List.exists_cons_of_ne_nil hm.2.1
      simp only
      rw [if_pos]
      rw [List.takeWhile_cons, if_pos (sep_iff.1 hm.2.2.2)]; simp
  · push Not at hm
    refine .inr ⟨hm, ?_⟩
    rw [searchLine]
    cases ht : (c :: cs).takeWhile Char.isDigit with
    | nil => rfl
    | cons d ds =>
      cases hd : (c :: cs).dropWhile Char.isDigit with
      | nil => rfl
      | cons x r =>
        by_cases hx : x = ':'
        · subst hx
          simp only
          rw [if_neg]
          intro hg
          cases r with
          | nil => exact hg rfl
          | cons y r =>
            have hy : inClass y = true := by
              cases hy : inClass y with
              | true => rfl
              | false => rw [List.takeWhile_cons, hy] at hg; exact absurd rfl hg
            refine hm (d :: ds) y r ⟨?_, by simp, digits_iff.2 fun z hz => ?_, sep_iff.2 hy⟩
            · rw [← ht, ← hd, List.takeWhile_append_dropWhile]; rfl
            · rw [← ht] at hz; exact mem_takeWhile_imp hz
        · simp only
          split
          · rename_i _ _ _ _ h1; simp at h1; exact absurd h1.1 hx
          · rfl

theorem searchLine_none {line : List Char} : searchLine line = none ↔ ∀ pre ds c rest, ¬ Colon line pre ds c rest := by
  induction line with
  | nil =>
    constructor
    · intro _ pre ds c rest h
      have := h.1; simp at this
    · intro _; rfl
  | cons c cs ih =>
    rcases searchLine_cases c cs with ⟨ds, g, rest, e, h1, h2, h3, h4, h5, h6⟩ | ⟨h1, h2⟩
    · rw [h6]
      refine ⟨fun h => (by cases h), fun h => ?_⟩
      obtain ⟨y, g', rfl⟩ := List.exists_cons_of_ne_nil h3
      exact absurd ⟨by simpa using e, h1, h2, h4 y (by simp)⟩ (h [] ds y (g' ++ rest))
    · rw [h2, ih]
      constructor
      · intro h pre ds x rest hc
        rcases colon_cons_cases hc with rfl | ⟨p, rfl, h3⟩
        · exact h1 _ _ _ hc
        · exact h _ _ _ _ h3
      · intro h pre ds x rest hc
        exact h (c :: pre) ds x rest (colon_cons.2 hc)

theorem stateLine_of_search {line ds g : List Char} (h : searchLine line = some (ds, g)) : StateLine line ds g := by
  induction line with
  | nil => cases h
  | cons c cs ih =>
    rcases searchLine_cases c cs with ⟨ds', g', rest, e, h1, h2, h3, h4, h5, h6⟩ | ⟨h1, h2⟩
    · rw [h6] at h
      cases h
      exact ⟨[], rest, e, h1, h2, h3, h4, h5, by simp⟩
    · rw [h2] at h
      obtain ⟨pre, rest, e, k1, k2, k3, k4, k5, k6⟩ := ih h
      refine ⟨c :: pre, rest, by rw [e]; rfl, k1, k2, k3, k4, k5, fun pre' ds' c' rest' hc => ?_⟩
      rcases colon_cons_cases hc with rfl | ⟨p, rfl, h3⟩
      · exact absurd hc (h1 _ _ _)
      · simpa using k6 _ _ _ _ h3

theorem stateLine_unique {line ds g ds' g' : List Char} (h : StateLine line ds g) (h' : StateLine line ds' g') :
    ds = ds' ∧ g = g' := by
  obtain ⟨pre, rest, e, k1, k2, k3, k4, k5, k6⟩ := h
  obtain ⟨pre', rest', e', k1', k2', k3', k4', k5', k6'⟩ := h'
  obtain ⟨y, t, rfl⟩ := List.exists_cons_of_ne_nil k3
  obtain ⟨y', t', rfl⟩ := List.exists_cons_of_ne_nil k3'
  have c1 : Colon line pre ds y (t ++ rest) := ⟨by simpa using e, k1, k2, k4 y (by simp)⟩
  have c2 : Colon line pre' ds' y' (t' ++ rest') := ⟨by simpa using e', k1', k2', k4' y' (by simp)⟩
  have hle := le_antisymm (k6 _ _ _ _ c2) (k6' _ _ _ _ c1)
  obtain ⟨-, e2⟩ := List.append_inj (e.symm.trans e') hle
  have a := colon_nil (line := ds ++ ':' :: (y :: t ++ rest)) ⟨by rfl, c1.2⟩
  have b := colon_nil (line := ds ++ ':' :: (y :: t ++ rest)) (ds := ds') (c := y') (rest := t' ++ rest') ⟨by rw [e2]; rfl, c2.2⟩
  refine ⟨a.1.symm.trans b.1, ?_⟩
  have e3 := a.2.symm.trans b.2
  have e4 : y :: t ++ rest = y' :: t' ++ rest' := by simpa using e3
  have p1 := takeWhile_append_stop (p := inClass) (l := y :: t) (r := rest) (fun x hx => sep_iff.1 (k4 x hx))
    (fun x hx => by have := k5 x hx; rw [sep_iff] at this; simpa using this)
  have p2 := takeWhile_append_stop (p := inClass) (l := y' :: t') (r := rest') (fun x hx => sep_iff.1 (k4' x hx))
    (fun x hx => by have := k5' x hx; rw [sep_iff] at this; simpa using this)
  rw [← p1, ← p2, e4]

theorem stateLine_iff {line ds g : List Char} : StateLine line ds g ↔ searchLine line = some (ds, g) := by
  refine ⟨fun h => ?_, stateLine_of_search⟩
  cases hs : searchLine line with
  | none =>
    obtain ⟨pre, rest, e, k1, k2, k3, k4, -⟩ := h
    obtain ⟨y, t, rfl⟩ := List.exists_cons_of_ne_nil k3
    exact absurd ⟨by simpa using e, k1, k2, k4 y (by simp)⟩ (searchLine_none.1 hs pre ds y (t ++ rest))
  | some x =>
    obtain ⟨a, b⟩ := x
    obtain ⟨rfl, rfl⟩ := stateLine_unique h (stateLine_of_search hs)
    rfl

end Verif.Proofs.Text
