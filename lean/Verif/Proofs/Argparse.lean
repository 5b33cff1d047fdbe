import Mathlib.Data.List.TakeWhile
import Verif.Model.Argparse
import Mathlib.Data.List.Nodup
import Mathlib.Data.List.Forall2
import Mathlib.Tactic.Tauto
import Mathlib.Tactic.ByContra
/-!
# `argparse` on command lines made of positional arguments and options
-/
set_option linter.unusedSectionVars false

namespace Verif.Proofs.Argparse
open Verif.Model Verif.Model.Argparse

/-- part of a command line: a positional argument; an option with its arguments as separate words; an option with one argument
in the same word, after `=` or immediately.  `name` is the option meant, `spelled` what is written. -/
inductive Item
  | pos (w : Word)
  | sep (spelled name : Word) (vs : List Word)
  | eq (spelled name v : Word)
  | glued (name v : Word)

def Item.words : Item → List Word
  | .pos w => [w]
  | .sep s _ vs => s :: vs
  | .eq s _ v => [s ++ '=' :: v]
  | .glued n v => [n ++ v]

/-- a negative number like `-5`, `-.5` or `-0.5` -/
def NegNumber (w : Word) : Prop :=
  (∃ a : Word, a ≠ [] ∧ (∀ c ∈ a, c.isDigit = true) ∧ w = '-' :: a) ∨
  ∃ a b : Word, b ≠ [] ∧ (∀ c ∈ a, c.isDigit = true) ∧ (∀ c ∈ b, c.isDigit = true) ∧ w = '-' :: (a ++ '.' :: b)

/-- no option: a word that does not begin with `-`, a single `-`, a negative number, or a word with a blank in which neither a
letter nor `-` follows `-` -/
def Plain (w : Word) : Prop := w.head? ≠ some '-' ∨ w = ['-'] ∨ NegNumber w ∨
  ∃ c r, w = '-' :: c :: r ∧ c.isAlpha = false ∧ c ≠ '-' ∧ ' ' ∈ w

/-- `s` is a spelling of the option `n`: `n` itself or an abbreviation that only `n` has -/
def Spelled (names : List Word) (s n : Word) : Prop :=
  s = n ∨ (s ≠ ['-', '-'] ∧ s ∉ names ∧ '=' ∉ s ∧ s.take 2 ∉ names ∧ 2 ≤ s.length ∧ ∀ m ∈ names, s <+: m ↔ m = n)

/-- the same before `=`: only the long options can be abbreviated -/
def SpelledEq (names : List Word) (s n : Word) : Prop :=
  s = n ∨ (s ≠ ['-', '-'] ∧ ['-', '-'] <+: s ∧ s ∉ names ∧ '=' ∉ s ∧ ∀ m ∈ names, s <+: m ↔ m = n)

def Nargs.count : Nargs → Nat → Prop
  | .zero, k => k = 0
  | .one, k => k = 1
  | .plus, k => 1 ≤ k

/-- an option and its arguments can be given in this way; `ar` says how many arguments an option takes -/
def Item.Fits (names : List Word) (ar : Word → Option Nargs) : Item → Prop
  | .pos w => Plain w
  | .sep s n vs => (∃ a, ar n = some a ∧ Nargs.count a vs.length) ∧ Spelled names s n ∧ ∀ v ∈ vs, Plain v
  | .eq s n _ => (∃ a, ar n = some a ∧ a ≠ .zero) ∧ SpelledEq names s n
  | .glued n v => (∃ a, ar n = some a ∧ a ≠ .zero) ∧ n.length = 2 ∧ n ++ v ∉ names ∧
      (n ++ v).takeWhile (· ≠ '=') ∉ names ∧ ∀ m ∈ names, ¬ n ++ v <+: m

/-- no option with any number of arguments is followed by a positional argument -/
def Apart (ar : Word → Option Nargs) : List Item → Prop
  | .sep _ n _ :: .pos w :: r => ar n ≠ some .plus ∧ Apart ar (.pos w :: r)
  | _ :: r => Apart ar r
  | [] => True

/-- how the spellings of the options look -/
structure Good (p : Parser) : Prop where
  nodup : (p.strings.map Prod.fst).Nodup
  dash : ∀ x ∈ p.strings, x.1[0]? = some '-' ∧ 2 ≤ x.1.length
  noEq : ∀ x ∈ p.strings, '=' ∉ x.1
  notDashes : ∀ x ∈ p.strings, x.1 ≠ ['-', '-']
  letter : ∀ x ∈ p.strings, ∀ c, x.1[1]? = some c → c.isAlpha = true ∨ c = '-'

def names (p : Parser) : List Word := p.strings.map Prod.fst
def arity (p : Parser) (n : Word) : Option Nargs := (p.find n).map Opt.nargs

def Item.tags (p : Parser) : Item → List (Tag × Word)
  | .pos w => [(.arg, w)]
  | .sep s n vs => (.opt (p.find n) n none, s) :: vs.map fun v => (.arg, v)
  | .eq s n v => [(.opt (p.find n) n (some (true, v)), s ++ '=' :: v)]
  | .glued n v => [(.opt (p.find n) n (some (false, v)), n ++ v)]

theorem get?_mem {β : Type} {d : Dict Word β} {k : Word} {v : β} (h : Dict.get? d k = some v) : (k, v) ∈ d := by
  induction d with
  | nil => cases h
  | cons x d ih =>
    obtain ⟨k', v'⟩ := x
    rw [Dict.get?] at h
    by_cases e : k' = k
    · rw [if_pos e] at h; cases h; cases e; exact List.mem_cons_self
    · rw [if_neg e] at h; exact List.mem_cons_of_mem _ (ih h)

theorem get?_none {β : Type} {d : Dict Word β} {k : Word} : Dict.get? d k = none ↔ k ∉ d.map Prod.fst := by
  induction d with
  | nil => simp [Dict.get?]
  | cons x d ih =>
    obtain ⟨k', v'⟩ := x
    rw [Dict.get?]
    by_cases e : k' = k
    · simp [e]
    · rw [if_neg e, ih]; simp [Ne.symm e]

theorem get?_of_mem {β : Type} {d : Dict Word β} {k : Word} {v : β} (hn : (d.map Prod.fst).Nodup) (h : (k, v) ∈ d) :
    Dict.get? d k = some v := by
  induction d with
  | nil => cases h
  | cons x d ih =>
    obtain ⟨k', v'⟩ := x
    rw [List.map_cons, List.nodup_cons] at hn
    rw [Dict.get?]
    rcases List.mem_cons.1 h with e | e
    · cases e; exact if_pos rfl
    · rw [if_neg, ih hn.2 e]
      rintro rfl
      exact hn.1 (List.mem_map.2 ⟨_, e, rfl⟩)

variable {p : Parser}

theorem find_mem {n : Word} {o : Opt} (h : p.find n = some o) : (n, o) ∈ p.strings := get?_mem h
theorem mem_names {n : Word} {o : Opt} (h : p.find n = some o) : n ∈ names p := List.mem_map.2 ⟨_, find_mem h, rfl⟩
theorem find_none {n : Word} (h : n ∉ names p) : p.find n = none := get?_none.2 h

theorem filter_single {β γ : Type} {d : List (Word × β)} {q : Word × β → Bool} {f : Word × β → γ} {n : Word} {o : β}
    (hn : (d.map Prod.fst).Nodup) (hm : (n, o) ∈ d) (h : ∀ x ∈ d, q x = true ↔ x.1 = n) : (d.filter q).map f = [f (n, o)] := by
  induction d with
  | nil => cases hm
  | cons x d ih =>
    rw [List.map_cons, List.nodup_cons] at hn
    rcases List.mem_cons.1 hm with e | e
    · cases e
      rw [List.filter_cons_of_pos ((h _ List.mem_cons_self).2 rfl), List.filter_eq_nil_iff.2]
      · rfl
      · intro y hy hq
        have := (h y (List.mem_cons_of_mem _ hy)).1 hq
        exact hn.1 (this ▸ List.mem_map.2 ⟨y, hy, rfl⟩)
    · rw [List.filter_cons_of_neg, ih hn.2 e fun y hy => h y (List.mem_cons_of_mem _ hy)]
      intro hq
      have := (h _ List.mem_cons_self).1 hq
      exact hn.1 (this ▸ List.mem_map.2 ⟨_, e, rfl⟩)

theorem filterMap_eq {β γ : Type} {d : List β} {f g : β → Option γ} (h : ∀ x ∈ d, f x = g x) : d.filterMap f = d.filterMap g := by
  induction d with
  | nil => rfl
  | cons x d ih =>
    rw [List.filterMap_cons, List.filterMap_cons, h x List.mem_cons_self, ih fun y hy => h y (List.mem_cons_of_mem _ hy)]

theorem filterMap_if {β γ : Type} {d : List β} {q : β → Bool} {f : β → γ} :
    (d.filterMap fun x => if q x then some (f x) else none) = (d.filter q).map f := by
  induction d with
  | nil => rfl
  | cons x d ih =>
    rw [List.filterMap_cons, ih]
    by_cases h : q x
    · rw [if_pos h, List.filter_cons_of_pos h]; rfl
    · rw [if_neg h, List.filter_cons_of_neg h]

theorem cutEq_none {w : Word} (h : '=' ∉ w) : cutEq w = none := by
  have : w.dropWhile (fun c => decide (c ≠ '=')) = [] := by
    induction w with
    | nil => rfl
    | cons c w ih =>
      have hc : c ≠ '=' := fun e => h (e ▸ List.mem_cons_self)
      rw [List.dropWhile_cons_of_pos (by simpa using hc), ih fun e => h (List.mem_cons_of_mem _ e)]
  rw [cutEq, this]

theorem takeWhile_eq {w v : Word} (h : '=' ∉ w) : (w ++ '=' :: v).takeWhile (fun c => decide (c ≠ '=')) = w ∧
    (w ++ '=' :: v).dropWhile (fun c => decide (c ≠ '=')) = '=' :: v := by
  induction w with
  | nil => simp
  | cons c w ih =>
    have hc : c ≠ '=' := fun e => h (e ▸ List.mem_cons_self)
    obtain ⟨a, b⟩ := ih fun e => h (List.mem_cons_of_mem _ e)
    rw [List.cons_append, List.takeWhile_cons_of_pos (by simpa using hc), List.dropWhile_cons_of_pos (by simpa using hc), a, b]
    exact ⟨rfl, rfl⟩

theorem cutEq_some {w v : Word} (h : '=' ∉ w) : cutEq (w ++ '=' :: v) = some (w, v) := by
  obtain ⟨a, b⟩ := takeWhile_eq (v := v) h
  rw [cutEq, b, a]

theorem cutEq_fst {w n v : Word} (h : cutEq w = some (n, v)) : n = w.takeWhile (fun c => decide (c ≠ '=')) := by
  rw [cutEq] at h
  cases hd : w.dropWhile (fun c => decide (c ≠ '=')) with
  | nil => rw [hd] at h; cases h
  | cons a b => rw [hd] at h; cases h; rfl

/-! ## the tags of the words -/

theorem prefix_of {s m : Word} : s.isPrefixOf m = true ↔ s <+: m := List.isPrefixOf_iff_prefix

theorem negNumber_of {w : Word} (h : NegNumber w) : negNumber w = true ∧ ∃ c r, w = '-' :: c :: r ∧ c.isAlpha = false ∧ c ≠ '-' := by
  have hd : ∀ c : Char, c.isDigit = true → c.isAlpha = false ∧ c ≠ '-' := by
    intro c hc
    refine ⟨?_, by rintro rfl; exact absurd hc (by decide)⟩
    simp only [Char.isDigit, Char.isAlpha, Char.isUpper, Char.isLower, Bool.and_eq_true, decide_eq_true_eq, Bool.or_eq_false_iff,
      Bool.and_eq_false_iff, decide_eq_false_iff_not, UInt32.le_iff_toNat_le, ge_iff_le] at hc ⊢
    have e1 : (48 : UInt32).toNat = 48 := rfl
    have e2 : (57 : UInt32).toNat = 57 := rfl
    have e3 : (65 : UInt32).toNat = 65 := rfl
    have e4 : (97 : UInt32).toNat = 97 := rfl
    have e5 : ('0'.val).toNat = 48 := rfl
    have e6 : ('9'.val).toNat = 57 := rfl
    have e7 : ('A'.val).toNat = 65 := rfl
    have e8 : ('a'.val).toNat = 97 := rfl
    constructor <;> omega
  rcases h with ⟨a, h0, h1, rfl⟩ | ⟨a, b, h0, h1, h2, rfl⟩
  · constructor
    · have : a.dropWhile Char.isDigit = [] := by rw [List.dropWhile_eq_nil_iff]; exact h1
      rw [negNumber, this]
      simpa using h0
    · cases a with
      | nil => exact absurd rfl h0
      | cons c r => exact ⟨c, r, rfl, hd c (h1 c List.mem_cons_self)⟩
  · constructor
    · have : (a ++ '.' :: b).dropWhile Char.isDigit = '.' :: b := by
        rw [List.dropWhile_append_of_pos h1]; rfl
      rw [negNumber, this]
      simp only [Bool.and_eq_true, List.all_eq_true, decide_eq_true_eq]
      exact ⟨h0, h2⟩
    · cases a with
      | nil => exact ⟨'.', b, rfl, by decide, by decide⟩
      | cons c r => exact ⟨c, r ++ '.' :: b, rfl, hd c (h1 c List.mem_cons_self)⟩

theorem plain_ne {w : Word} (h : Plain w) : w ≠ ['-', '-'] := by
  rcases h with h | h | h | ⟨c, r, rfl, _, h, _⟩
  · rintro rfl; exact h rfl
  · rw [h]; decide
  · obtain ⟨_, c, r, rfl, _, h'⟩ := negNumber_of h
    intro e; cases e; exact h' rfl
  · intro e; cases e; exact h rfl

theorem parse_odd {c : Char} {r : Word} (hg : Good p) (h1 : c.isAlpha = false) (h2 : c ≠ '-')
    (h3 : negNumber ('-' :: c :: r) = true ∨ ' ' ∈ '-' :: c :: r) : p.parseOptional ('-' :: c :: r) = .ok .arg := by
  have key : ∀ x ∈ p.strings, ∀ t, x.1 ≠ '-' :: c :: t := by
    intro x hx t e
    rcases hg.letter x hx c (by rw [e]; rfl) with h | h
    · rw [h1] at h; cases h
    · exact h2 h
  have hn : ∀ t, '-' :: c :: t ∉ names p := by
    intro t hm
    obtain ⟨x, hx, e⟩ := List.mem_map.1 hm
    exact key x hx t e
  have hcut : ((cutEq ('-' :: c :: r)).bind fun x => (p.find x.1).map fun o => Tag.opt (some o) x.1 (some (true, x.2))) = none := by
    cases hq : cutEq ('-' :: c :: r) with
    | none => rfl
    | some x =>
      have e := cutEq_fst (n := x.1) (v := x.2) hq
      change (p.find x.1).map _ = none
      rw [find_none]
      · rfl
      · intro hm
        rw [e, List.takeWhile_cons_of_pos (by decide)] at hm
        by_cases hc : c = '='
        · rw [List.takeWhile_cons_of_neg (by simp [hc])] at hm
          obtain ⟨y, hy, e⟩ := List.mem_map.1 hm
          have := (hg.dash y hy).2
          rw [e] at this
          exact absurd this (by decide)
        · rw [List.takeWhile_cons_of_pos (by simpa using hc)] at hm
          exact hn _ hm
  have htup : p.tuples ('-' :: c :: r) = [] := by
    rw [Parser.tuples.eq_def]
    split
    · rename_i e
      exact absurd (by cases e; rfl) h2
    · rw [List.filterMap_eq_nil_iff]
      intro x hx
      rw [if_neg (show ¬ x.1 = List.take 2 ('-' :: c :: r) from key x hx []), if_neg]
      intro hp
      obtain ⟨t, ht⟩ := prefix_of.1 hp
      exact key x hx (r ++ t) ht.symm
  rw [Parser.parseOptional, if_neg (by simp), find_none (hn r)]
  simp only [hcut, htup, reduceCtorEq, if_false]
  by_cases hneg : negNumber ('-' :: c :: r) = true
  · rw [if_pos hneg]
  · rw [if_neg hneg, if_pos (h3.resolve_left hneg)]

theorem parse_plain {w : Word} (h : Plain w) (hg : Good p) : p.parseOptional w = .ok .arg := by
  cases w with
  | nil => rfl
  | cons c r =>
    rcases h with h | h | h | ⟨c', r', h, h1, h2, h3⟩
    · have : c ≠ '-' := fun e => h (by rw [e]; rfl)
      rw [Parser.parseOptional, if_pos this]
    rotate_left
    · obtain ⟨h0, c', r', e, h1, h2⟩ := negNumber_of h
      rw [e] at h0 ⊢
      exact parse_odd hg h1 h2 (.inl h0)
    · rw [h] at h3 ⊢
      exact parse_odd hg h1 h2 (.inr h3)
    · cases h
      have : p.find ['-'] = none := by
        refine find_none fun hm => ?_
        obtain ⟨x, hx, e⟩ := List.mem_map.1 hm
        have := (hg.dash x hx).2
        rw [e] at this
        exact absurd this (by decide)
      rw [Parser.parseOptional, if_neg (by simp), this]
      rfl

theorem parse_name (hg : Good p) {n : Word} {o : Opt} (h : p.find n = some o) : p.parseOptional n = .ok (.opt (some o) n none) := by
  obtain ⟨h1, _⟩ := hg.dash _ (find_mem h)
  cases n with
  | nil => cases h1
  | cons c r =>
    have : c = '-' := by simpa using h1
    rw [Parser.parseOptional, if_neg (not_not.2 this), h]

/-- the part of `_parse_optional` after the exact spellings -/
theorem parse_tuples {w : Word} {t : Tag} (h0 : w[0]? = some '-') (h1 : 2 ≤ w.length) (h2 : w ∉ names p)
    (h3 : w.takeWhile (fun c => decide (c ≠ '=')) ∉ names p ∨ '=' ∉ w) (h4 : p.tuples w = [t]) : p.parseOptional w = .ok t := by
  cases w with
  | nil => cases h0
  | cons c r =>
    have hc : c = '-' := by simpa using h0
    have hr : r ≠ [] := by rintro rfl; exact absurd h1 (by simp)
    have : ((cutEq (c :: r)).bind fun x => (p.find x.1).map fun o => Tag.opt (some o) x.1 (some (true, x.2))) = none := by
      rcases h3 with h3 | h3
      · cases hq : cutEq (c :: r) with
        | none => rfl
        | some x =>
          have e := cutEq_fst (n := x.1) (v := x.2) hq
          change (p.find x.1).map _ = none
          rw [find_none (e ▸ h3)]
          rfl
      · rw [cutEq_none h3]; rfl
    rw [Parser.parseOptional, if_neg (not_not.2 hc), find_none h2]
    simp only [if_neg hr, this, h4]

theorem spelled_parse (hg : Good p) {s n : Word} {o : Opt} (hf : p.find n = some o) (h : Spelled (names p) s n) :
    p.parseOptional s = .ok (.opt (some o) n none) ∧ s ≠ ['-', '-'] := by
  rcases h with rfl | ⟨h1, h2, h3, h4, h5, h6⟩
  · exact ⟨parse_name hg hf, hg.notDashes _ (find_mem hf)⟩
  · refine ⟨?_, h1⟩
    have hpre : s <+: n := (h6 n (mem_names hf)).2 rfl
    have h0 : s[0]? = some '-' := by
      obtain ⟨t, ht⟩ := hpre
      have := (hg.dash _ (find_mem hf)).1
      cases s with
      | nil => simp at h5
      | cons c r => rw [← ht] at this; simpa using this
    refine parse_tuples h0 h5 h2 (.inr h3) ?_
    have hq : ∀ x ∈ p.strings, s.isPrefixOf x.1 = true ↔ x.1 = n := fun x hx =>
      prefix_of.trans (h6 x.1 (List.mem_map.2 ⟨x, hx, rfl⟩))
    rw [Parser.tuples.eq_def]
    split
    · rw [cutEq_none h3]
      exact filter_single (f := fun x => Tag.opt (some x.2) x.1 none) hg.nodup (find_mem hf) hq
    · rw [filterMap_eq (g := fun x => if s.isPrefixOf x.1 then some (.opt (some x.2) x.1 none) else none), filterMap_if]
      · exact filter_single (f := fun x => Tag.opt (some x.2) x.1 none) hg.nodup (find_mem hf) hq
      · intro x hx
        rw [if_neg]
        intro e
        exact h4 (e ▸ List.mem_map.2 ⟨x, hx, rfl⟩)

theorem spelledEq_parse (hg : Good p) {s n v : Word} {o : Opt} (hf : p.find n = some o) (h : SpelledEq (names p) s n) :
    p.parseOptional (s ++ '=' :: v) = .ok (.opt (some o) n (some (true, v))) ∧ s ++ '=' :: v ≠ ['-', '-'] := by
  have hne : ∀ m ∈ names p, m ≠ s ++ '=' :: v := by
    rintro m hm rfl
    obtain ⟨x, hx, e⟩ := List.mem_map.1 hm
    exact hg.noEq x hx (e ▸ by simp)
  have hnd : s ++ '=' :: v ≠ ['-', '-'] := by
    intro e
    have : '=' ∈ (['-', '-'] : Word) := e ▸ by simp
    exact absurd this (by decide)
  refine ⟨?_, hnd⟩
  rcases h with rfl | ⟨h1, h2, h3, h4, h5⟩
  · obtain ⟨h1, h2⟩ := hg.dash _ (find_mem hf)
    cases hs : s with
    | nil => rw [hs] at h1; cases h1
    | cons c r =>
      have hc : c = '-' := by rw [hs] at h1; simpa using h1
      have hm := hne
      rw [hs, List.cons_append] at hm
      rw [List.cons_append, Parser.parseOptional, if_neg (not_not.2 hc), find_none fun h => hm _ h rfl]
      have e := cutEq_some (v := v) (hg.noEq _ (find_mem hf))
      change cutEq (s ++ '=' :: v) = some (s, v) at e
      rw [hs, List.cons_append] at e
      rw [hs] at hf
      simp only [e, Option.bind_some, hf, Option.map_some]
      rw [if_neg (by cases r <;> simp)]
  · obtain ⟨t, rfl⟩ := h2
    have e := takeWhile_eq (v := v) h4
    refine parse_tuples rfl ?_ (fun hm => hne _ hm rfl) (.inl (by rw [e.1]; exact h3)) ?_
    · simp
    · have hq : ∀ x ∈ p.strings, (['-', '-'] ++ t).isPrefixOf x.1 = true ↔ x.1 = n := fun x hx =>
        prefix_of.trans (h5 x.1 (List.mem_map.2 ⟨x, hx, rfl⟩))
      have := filter_single (f := fun x => Tag.opt (some x.2) x.1 (some (true, v))) hg.nodup (find_mem hf) hq
      simp only [List.cons_append, List.nil_append, Parser.tuples] at this ⊢
      have e2 := cutEq_some (v := v) h4
      simp only [List.cons_append, List.nil_append] at e2
      rw [e2]
      exact this

theorem glued_parse (hg : Good p) {n v : Word} {o : Opt} (hf : p.find n = some o) (h1 : n.length = 2)
    (h3 : n ++ v ∉ names p) (h4 : (n ++ v).takeWhile (fun c => decide (c ≠ '=')) ∉ names p) (h5 : ∀ m ∈ names p, ¬ n ++ v <+: m) :
    p.parseOptional (n ++ v) = .ok (.opt (some o) n (some (false, v))) ∧ n ++ v ≠ ['-', '-'] := by
  obtain ⟨d1, d2⟩ := hg.dash _ (find_mem hf)
  have d3 := hg.notDashes _ (find_mem hf)
  match n, h1 with
  | [a, b], _ =>
    have ha : a = '-' := by simpa using d1
    subst ha
    have hb : b ≠ '-' := by rintro rfl; exact d3 rfl
    have hne : ['-', b] ++ v ≠ ['-', '-'] := by
      intro e; simp at e; exact hb e.1
    refine ⟨parse_tuples rfl (by simp) h3 (.inl h4) ?_, hne⟩
    rw [Parser.tuples.eq_def]
    split
    · rename_i e; simp at e; exact absurd e.1 hb
    · rw [filterMap_eq (g := fun x => if (decide (x.1 = ['-', b])) = true then some (.opt (some x.2) x.1 (some (false, v))) else none),
        filterMap_if]
      · exact filter_single (f := fun x => Tag.opt (some x.2) x.1 (some (false, v))) hg.nodup (find_mem hf) fun x _ => by simp
      · intro x hx
        have : ¬ (['-', b] ++ v).isPrefixOf x.1 = true := fun e => h5 _ (List.mem_map.2 ⟨x, hx, rfl⟩) (prefix_of.1 e)
        by_cases e : x.1 = ['-', b]
        · rw [if_pos (by simpa using e), if_pos (by simpa using e)]; rfl
        · rw [if_neg (by simpa using e), if_neg this, if_neg (by simpa using e)]

theorem arity_find {n : Word} {a : Nargs} (h : arity p n = some a) : ∃ o, p.find n = some o ∧ o.nargs = a := by
  rw [arity] at h
  cases hf : p.find n with
  | none => rw [hf] at h; cases h
  | some o => rw [hf] at h; cases h; exact ⟨o, rfl, rfl⟩

/-- a word and its tag -/
def Tagged (p : Parser) (w : Word) (x : Tag × Word) : Prop := w ≠ ['-', '-'] ∧ p.parseOptional w = .ok x.1 ∧ x.2 = w

theorem plain_tagged (hg : Good p) {w : Word} (h : Plain w) : Tagged p w (.arg, w) := ⟨plain_ne h, parse_plain h hg, rfl⟩

theorem plains_tagged (hg : Good p) {vs : List Word} (h : ∀ v ∈ vs, Plain v) :
    List.Forall₂ (Tagged p) vs (vs.map fun v => (Tag.arg, v)) := by
  induction vs with
  | nil => exact .nil
  | cons v vs ih => exact .cons (plain_tagged hg (h v List.mem_cons_self)) (ih fun u hu => h u (List.mem_cons_of_mem _ hu))

theorem item_tagged (hg : Good p) {i : Item} (h : i.Fits (names p) (arity p)) : List.Forall₂ (Tagged p) i.words (i.tags p) := by
  cases i with
  | pos w => exact .cons (plain_tagged hg h) .nil
  | sep s n vs =>
    obtain ⟨⟨a, ha, _⟩, hs, hv⟩ := h
    obtain ⟨o, hf, _⟩ := arity_find ha
    obtain ⟨h1, h2⟩ := spelled_parse hg hf hs
    exact .cons ⟨h2, by rw [h1, hf], rfl⟩ (plains_tagged hg hv)
  | eq s n v =>
    obtain ⟨⟨a, ha, _⟩, hs⟩ := h
    obtain ⟨o, hf, _⟩ := arity_find ha
    obtain ⟨h1, h2⟩ := spelledEq_parse (v := v) hg hf hs
    exact .cons ⟨h2, by rw [h1, hf], rfl⟩ .nil
  | glued n v =>
    obtain ⟨⟨a, ha, _⟩, k1, k3, k4, k5⟩ := h
    obtain ⟨o, hf, _⟩ := arity_find ha
    obtain ⟨h1, h2⟩ := glued_parse hg hf k1 k3 k4 k5
    exact .cons ⟨h2, by rw [h1, hf], rfl⟩ .nil

theorem tagAll_of {ws : List Word} {l : List (Tag × Word)} (h : List.Forall₂ (Tagged p) ws l) : p.tagAll ws = .ok l := by
  induction h with
  | nil => rfl
  | @cons w x ws l h _ ih =>
    rw [Parser.tagAll, if_neg h.1, h.2.1, ih]
    obtain ⟨t, w'⟩ := x
    cases h.2.2
    rfl

theorem items_tagged (hg : Good p) {items : List Item} (h : ∀ i ∈ items, i.Fits (names p) (arity p)) :
    p.tagAll (items.flatMap Item.words) = .ok (items.flatMap (Item.tags p)) := by
  refine tagAll_of ?_
  induction items with
  | nil => exact .nil
  | cons i items ih =>
    rw [List.flatMap_cons, List.flatMap_cons]
    exact List.rel_append (item_tagged hg (h i List.mem_cons_self)) (ih fun j hj => h j (List.mem_cons_of_mem _ hj))

/-! ## the loop -/

/-- what a command line means, read from left to right -/
def runItems (p : Parser) : List Item → List String → NS → Bool → Except End (List String × NS × Bool)
  | [], ds, ns, ex => .ok (ds, ns, ex)
  | .pos _ :: r, [], ns, _ => runItems p r [] ns true
  | .pos w :: r, d :: ds, ns, ex => (convert d w).bind fun _ => runItems p r ds (ns.set d [w]) ex
  | .sep _ n vs :: r, ds, ns, ex =>
    match p.find n with
    | none => .error .usage
    | some o => (take ns o vs).bind fun ns' => runItems p r ds ns' ex
  | .eq _ n v :: r, ds, ns, ex =>
    match p.find n with
    | none => .error .usage
    | some o => (take ns o [v]).bind fun ns' => runItems p r ds ns' ex
  | .glued n v :: r, ds, ns, ex =>
    match p.find n with
    | none => .error .usage
    | some o => (take ns o [v]).bind fun ns' => runItems p r ds ns' ex

theorem dropWhile_le {α : Type} (f : α → Bool) (l : List α) : (l.dropWhile f).length ≤ l.length := by
  induction l with
  | nil => exact le_rfl
  | cons x l ih =>
    rw [List.dropWhile_cons]
    split
    · exact ih.trans (Nat.le_succ _)
    · exact le_rfl

theorem bind_inv {α β : Type} {x : Except End α} {f : α → Except End β} {b : β} (h : (x >>= f) = .ok b) :
    ∃ a, x = .ok a ∧ f a = .ok b := by
  cases x with
  | error e => cases h
  | ok a => exact ⟨a, rfl, h⟩

theorem consumePlain_le {o : Opt} {l r : List (Tag × Word)} {ws : List Word} (h : consumePlain o l = .ok (ws, r)) :
    r.length ≤ l.length := by
  rw [consumePlain.eq_def] at h
  split at h
  · cases h; exact le_rfl
  · split at h
    · cases h; exact Nat.le_succ _
    · cases h
  · split at h
    · cases h
    · cases h; exact dropWhile_le _ _

theorem consumeExplicit_le : ∀ {v : Word} {o : Opt} {n : Word} {sep : Bool} {l r : List (Tag × Word)} {as : List (Opt × List Word)}
    {ex : Bool}, p.consumeExplicit l o n sep v = .ok (as, r, ex) → r.length ≤ l.length := by
  intro v
  induction hk : v.length using Nat.strong_induction_on generalizing v with
  | _ k ih =>
    intro o n sep l r as ex h
    subst hk
    rw [Parser.consumeExplicit.eq_def] at h
    split at h
    · split at h
      · cases h
      · cases h; exact le_rfl
    · split at h
      · split at h
        · cases h
        · split at h
          · cases h; exact le_rfl
          · split at h
            · obtain ⟨x, hc, h⟩ := bind_inv h
              cases h
              exact consumePlain_le hc
            · obtain ⟨x, hc, h⟩ := bind_inv h
              cases h
              exact ih _ (by simp only [List.length_cons]; omega) rfl hc
            · obtain ⟨x, hc, h⟩ := bind_inv h
              cases h
              exact ih _ (by simp only [List.length_cons]; omega) rfl hc
      · cases h; exact le_rfl

theorem consumeOptional_le {o : Opt} {n : Word} {e : Option (Bool × Word)} {l r : List (Tag × Word)} {ns ns' : NS} {ex : Bool}
    (h : p.consumeOptional o n e l ns = .ok (r, ns', ex)) : r.length ≤ l.length := by
  cases e with
  | none =>
    obtain ⟨x, hx, h⟩ := bind_inv h
    obtain ⟨y, hy, h⟩ := bind_inv h
    obtain ⟨z, hz, h⟩ := bind_inv h
    cases h
    cases hy
    exact consumePlain_le hx
  | some x =>
    obtain ⟨sep, v⟩ := x
    obtain ⟨x, hx, h⟩ := bind_inv h
    obtain ⟨y, hy, h⟩ := bind_inv h
    cases h
    exact consumeExplicit_le hx

theorem loop_fuel : ∀ {k n m : Nat} {l : List (Tag × Word)} {ds : List String} {ns : NS} {ex : Bool}, l.length ≤ k → l.length < n →
    l.length < m → p.loop n l ds ns ex = p.loop m l ds ns ex := by
  intro k
  induction k with
  | zero =>
    intro n m l ds ns ex hk hn hm
    have : l = [] := List.length_eq_zero_iff.1 (Nat.le_zero.1 hk)
    subst this
    obtain ⟨n, rfl⟩ := Nat.exists_eq_succ_of_ne_zero (Nat.ne_of_gt hn)
    obtain ⟨m, rfl⟩ := Nat.exists_eq_succ_of_ne_zero (Nat.ne_of_gt hm)
    rfl
  | succ k ih =>
    intro n m l ds ns ex hk hn hm
    obtain ⟨n, rfl⟩ := Nat.exists_eq_succ_of_ne_zero (Nat.ne_of_gt (Nat.zero_lt_of_lt hn))
    obtain ⟨m, rfl⟩ := Nat.exists_eq_succ_of_ne_zero (Nat.ne_of_gt (Nat.zero_lt_of_lt hm))
    simp only [Parser.loop]
    by_cases ho : l.any isOpt
    · rw [if_pos ho, if_pos ho]
      match l, ho with
      | (.opt none _ _, _) :: r, _ =>
        simp only [List.length_cons] at hk hn hm
        exact ih (by omega) (by omega) (by omega)
      | (.opt (some o) name e, _) :: r, _ =>
        simp only [List.length_cons] at hk hn hm
        simp only
        cases hc : p.consumeOptional o name e r ns with
        | error e => rfl
        | ok x =>
          obtain ⟨r', ns', ex'⟩ := x
          have := consumeOptional_le hc
          exact ih (l := r') (by omega) (by omega) (by omega)
      | (.dash, w) :: r, _ =>
        simp only
        cases hc : consumePos ds ((.dash, w) :: r) ns with
        | error e => rfl
        | ok x =>
          obtain ⟨ds', r', ns'⟩ := x
          have h2 := dropWhile_le (fun y => !isOpt y) r
          simp only [bind, Except.bind]
          by_cases h : r'.length < ((Tag.dash, w) :: r).length
          · rw [if_pos h, if_pos h]
            exact ih (by omega) (by omega) (by omega)
          · rw [if_neg h, if_neg h]
            have e : (((Tag.dash, w) :: r).dropWhile fun y => !isOpt y) = r.dropWhile fun y => !isOpt y := rfl
            rw [e]
            simp only [List.length_cons] at hk hn hm
            exact ih (by omega) (by omega) (by omega)
      | (.arg, w) :: r, _ =>
        simp only
        cases hc : consumePos ds ((.arg, w) :: r) ns with
        | error e => rfl
        | ok x =>
          obtain ⟨ds', r', ns'⟩ := x
          have h2 := dropWhile_le (fun y => !isOpt y) r
          simp only [bind, Except.bind]
          by_cases h : r'.length < ((Tag.arg, w) :: r).length
          · rw [if_pos h, if_pos h]
            exact ih (by omega) (by omega) (by omega)
          · rw [if_neg h, if_neg h]
            have e : (((Tag.arg, w) :: r).dropWhile fun y => !isOpt y) = r.dropWhile fun y => !isOpt y := rfl
            rw [e]
            simp only [List.length_cons] at hk hn hm
            exact ih (by omega) (by omega) (by omega)
    · rw [if_neg ho, if_neg ho]

theorem cp_or : ∀ {ds ds' : List String} {l r : List (Tag × Word)} {ns ns' : NS}, consumePos ds l ns = .ok (ds', r, ns') →
    (ds' = ds ∧ r = l ∧ ns' = ns) ∨ r.length < l.length := by
  intro ds
  induction ds with
  | nil => intro ds' l r ns ns' h; cases h; exact .inl ⟨rfl, rfl, rfl⟩
  | cons d ds ih =>
    intro ds' l r ns ns' h
    rw [consumePos.eq_def] at h
    simp only at h
    split at h
    · rename_i w t hl
      split at h
      · cases h
      · right
        have h1 := dropWhile_le isDash l
        rw [hl, List.length_cons] at h1
        have h2 := dropWhile_le isDash t
        rcases ih h with ⟨_, e, _⟩ | h3
        · rw [e]; omega
        · omega
    · cases h; exact .inl ⟨rfl, rfl, rfl⟩

/-- without `--` -/
def NoDash (l : List (Tag × Word)) : Prop := ∀ x ∈ l, isDash x = false

theorem takeWhile_dash {l : List (Tag × Word)} (h : NoDash l) : l.takeWhile isDash = [] ∧ l.dropWhile isDash = l := by
  cases l with
  | nil => exact ⟨rfl, rfl⟩
  | cons x l =>
    have := h x List.mem_cons_self
    rw [List.takeWhile_cons_of_neg (by simp [this]), List.dropWhile_cons_of_neg (by simp [this])]
    exact ⟨rfl, rfl⟩

theorem forM_single {d : String} {w : Word} : ([w] : List Word).forM (convert d) = convert d w := by
  change ((convert d w) >>= fun _ => (pure PUnit.unit : Except End PUnit)) = _
  cases convert d w <;> rfl

theorem cp_arg {d : String} {ds : List String} {w : Word} {l : List (Tag × Word)} {ns : NS} (hl : NoDash l) (hw : w ≠ ['-', '-']) :
    consumePos (d :: ds) ((.arg, w) :: l) ns = (convert d w).bind fun _ => consumePos ds l (ns.set d [w]) := by
  rw [consumePos]
  have e1 : List.dropWhile isDash ((Tag.arg, w) :: l) = (Tag.arg, w) :: l := rfl
  have e2 : List.takeWhile isDash ((Tag.arg, w) :: l) = [] := rfl
  rw [e1, e2]
  simp only [(takeWhile_dash hl).1, (takeWhile_dash hl).2, List.map_nil, List.nil_append]
  rw [List.erase_of_not_mem (by simpa using Ne.symm hw), forM_single]
  cases convert d w <;> rfl

theorem loop_arg {n m : Nat} {d : String} {ds : List String} {w : Word} {l : List (Tag × Word)} {ns : NS} {ex : Bool} (hl : NoDash l)
    (hw : w ≠ ['-', '-']) (hn : l.length < n) (hm : l.length < m) :
    p.loop (n + 1) ((.arg, w) :: l) (d :: ds) ns ex = (convert d w).bind fun _ => p.loop m l ds (ns.set d [w]) ex := by
  rw [Parser.loop.eq_def]; dsimp only
  have ea : List.any ((Tag.arg, w) :: l) isOpt = l.any isOpt := rfl
  by_cases ho : l.any isOpt
  · rw [if_pos (ea.trans ho)]
    simp only [cp_arg hl hw]
    cases hc : convert d w with
    | error e => rfl
    | ok u =>
      simp only [Except.bind, bind]
      cases hcp : consumePos ds l (ns.set d [w]) with
      | error e =>
        obtain ⟨m, rfl⟩ := Nat.exists_eq_succ_of_ne_zero (Nat.ne_of_gt (Nat.zero_lt_of_lt hm))
        simp only [Nat.succ_eq_add_one]
        rw [Parser.loop.eq_def]; dsimp only; rw [if_pos ho]
        match l, ho, hl, hcp with
        | (.opt o a b, w') :: r, _, _, hcp =>
          exfalso
          cases ds with
          | nil => cases hcp
          | cons d ds =>
            rw [consumePos] at hcp
            have e1 : List.dropWhile isDash ((Tag.opt o a b, w') :: r) = (Tag.opt o a b, w') :: r := rfl
            rw [e1] at hcp
            cases hcp
        | (.dash, w') :: r, _, hl, _ => exact absurd (hl _ List.mem_cons_self) (by simp [isDash])
        | (.arg, w') :: r, _, _, hcp =>
          simp only [hcp]
          rfl
      | ok x =>
        obtain ⟨ds', r, ns'⟩ := x
        simp only
        rcases cp_or hcp with ⟨rfl, rfl, rfl⟩ | hlt
        · rw [if_pos (by simp)]
          exact loop_fuel le_rfl hn hm
        · rw [if_pos (by simp only [List.length_cons]; omega)]
          obtain ⟨m, rfl⟩ := Nat.exists_eq_succ_of_ne_zero (Nat.ne_of_gt (Nat.zero_lt_of_lt hm))
          simp only [Nat.succ_eq_add_one]
          rw [Parser.loop.eq_def p (m + 1)]; dsimp only; rw [if_pos ho]
          match l, ho, hl, hcp, hlt with
          | (.opt o a b, w') :: t, _, _, hcp, hlt =>
            exfalso
            cases ds with
            | nil => cases hcp; exact absurd hlt (lt_irrefl _)
            | cons d ds =>
              rw [consumePos] at hcp
              have e1 : List.dropWhile isDash ((Tag.opt o a b, w') :: t) = (Tag.opt o a b, w') :: t := rfl
              rw [e1] at hcp
              cases hcp; exact absurd hlt (lt_irrefl _)
          | (.dash, w') :: t, _, hl, _, _ => exact absurd (hl _ List.mem_cons_self) (by simp [isDash])
          | (.arg, w') :: t, _, _, hcp, hlt =>
            simp only [hcp, bind, Except.bind]
            rw [if_pos hlt]
            exact loop_fuel le_rfl (by omega) (by omega)
  · rw [if_neg (by rw [ea]; exact ho), cp_arg hl hw]
    obtain ⟨m, rfl⟩ := Nat.exists_eq_succ_of_ne_zero (Nat.ne_of_gt (Nat.zero_lt_of_lt hm))
    simp only [Nat.succ_eq_add_one]
    cases convert d w with
    | error e => rfl
    | ok u =>
      simp only [Except.bind]
      rw [Parser.loop.eq_def]; dsimp only; rw [if_neg ho]

theorem loop_extra {n m : Nat} {w : Word} {l : List (Tag × Word)} {ns : NS} {ex : Bool} (hl : NoDash l)
    (hn : l.length < n) (hm : l.length < m) :
    p.loop (n + 1) ((.arg, w) :: l) [] ns ex = p.loop m l [] ns true := by
  rw [Parser.loop.eq_def]; dsimp only
  have ea : List.any ((Tag.arg, w) :: l) isOpt = l.any isOpt := rfl
  obtain ⟨m, rfl⟩ := Nat.exists_eq_succ_of_ne_zero (Nat.ne_of_gt (Nat.zero_lt_of_lt hm))
  by_cases ho : l.any isOpt
  · rw [if_pos (ea.trans ho)]
    simp only [consumePos, bind, Except.bind]
    rw [if_neg (lt_irrefl _)]
    have e : (((Tag.arg, w) :: l).dropWhile fun y => !isOpt y) = l.dropWhile fun y => !isOpt y := rfl
    rw [e]
    match l, ho, hl with
    | (.opt o a b, w') :: t, _, _ =>
      have e : (((Tag.opt o a b, w') :: t).dropWhile fun y => !isOpt y) = (Tag.opt o a b, w') :: t := rfl
      rw [e]
      exact loop_fuel le_rfl hn hm
    | (.dash, w') :: t, _, hl => exact absurd (hl _ List.mem_cons_self) (by simp [isDash])
    | (.arg, w') :: t, ho, _ =>
      simp only [Nat.succ_eq_add_one]
      rw [Parser.loop.eq_def p (m + 1)]; dsimp only; rw [if_pos ho]
      simp only [consumePos, bind, Except.bind]
      rw [if_neg (lt_irrefl _)]
      have e : (((Tag.arg, w') :: t).dropWhile fun y => !isOpt y) = t.dropWhile fun y => !isOpt y := rfl
      rw [e]
      have h2 := dropWhile_le (fun y => !isOpt y) t
      simp only [List.length_cons] at hn hm
      exact loop_fuel le_rfl (by omega) (by omega)
  · rw [if_neg (by rw [ea]; exact ho)]
    simp only [Nat.succ_eq_add_one]
    rw [Parser.loop.eq_def p (m + 1)]; dsimp only; rw [if_neg ho]
    simp [consumePos, bind, Except.bind]

/-- the next word is no argument -/
def Stops (l : List (Tag × Word)) : Prop := ∀ x, l.head? = some x → isArg x = false

theorem takeWhile_args {l : List (Tag × Word)} (h : Stops l) (vs : List Word) :
    ((vs.map fun v => (Tag.arg, v)) ++ l).takeWhile isArg = (vs.map fun v => (Tag.arg, v)) ∧
    ((vs.map fun v => (Tag.arg, v)) ++ l).dropWhile isArg = l := by
  induction vs with
  | nil =>
    cases l with
    | nil => exact ⟨rfl, rfl⟩
    | cons x l =>
      have := h x rfl
      simp [this]
  | cons v vs ih =>
    rw [List.map_cons, List.cons_append, List.takeWhile_cons_of_pos rfl, List.dropWhile_cons_of_pos rfl, ih.1, ih.2]
    exact ⟨rfl, rfl⟩

theorem consumePlain_of {o : Opt} {vs : List Word} {l : List (Tag × Word)} (hc : Nargs.count o.nargs vs.length)
    (h : o.nargs = .plus → Stops l) : consumePlain o ((vs.map fun v => (Tag.arg, v)) ++ l) = .ok (vs, l) := by
  cases hn : o.nargs with
  | zero =>
    rw [hn] at hc
    have : vs = [] := List.length_eq_zero_iff.1 hc
    subst this
    simp [consumePlain, hn]
  | one =>
    rw [hn] at hc
    obtain ⟨v, rfl⟩ := List.length_eq_one_iff.1 hc
    simp [consumePlain, hn]
  | plus =>
    rw [hn] at hc
    have hs := takeWhile_args (h hn) vs
    rw [consumePlain.eq_def]
    simp only [hn, hs.1, hs.2]
    have hne : vs ≠ [] := by rintro rfl; exact absurd hc (Nat.not_succ_le_zero 0)
    rw [if_neg (by simpa using hne), List.map_map]
    have : (Prod.snd ∘ fun v : Word => (Tag.arg, v)) = id := rfl
    rw [this, List.map_id]

theorem consumeExplicit_of {o : Opt} {n v : Word} {sep : Bool} {l : List (Tag × Word)} (h : o.nargs ≠ .zero) :
    p.consumeExplicit l o n sep v = .ok ([(o, [v])], l, false) := by
  cases v with
  | nil => rw [Parser.consumeExplicit]; split <;> tauto
  | cons c v => rw [Parser.consumeExplicit]; split <;> tauto

theorem foldlM_single {ns : NS} {o : Opt} {vs : List Word} :
    List.foldlM (fun ns (a : Opt × List Word) => take ns a.1 a.2) ns [(o, vs)] = take ns o vs := by
  simp only [List.foldlM]
  cases take ns o vs <;> rfl

theorem loop_plain {n : Nat} {o : Opt} {nm s : Word} {vs : List Word} {l : List (Tag × Word)} {ds : List String} {ns : NS} {ex : Bool}
    {l' : List (Tag × Word)} (h : consumePlain o l = .ok (vs, l')) :
    p.loop (n + 1) ((.opt (some o) nm none, s) :: l) ds ns ex = (take ns o vs).bind fun ns' => p.loop n l' ds ns' ex := by
  rw [Parser.loop.eq_def]; dsimp only; rw [if_pos (show List.any (_ :: l) isOpt = true from rfl)]
  simp only [Parser.consumeOptional, h, bind, Except.bind]
  have := foldlM_single (ns := ns) (o := o) (vs := vs)
  rw [this]
  cases take ns o vs with
  | error e => rfl
  | ok x => simp

theorem loop_explicit {n : Nat} {o : Opt} {nm s v : Word} {sep : Bool} {l : List (Tag × Word)} {ds : List String} {ns : NS} {ex : Bool}
    (h : o.nargs ≠ .zero) :
    p.loop (n + 1) ((.opt (some o) nm (some (sep, v)), s) :: l) ds ns ex = (take ns o [v]).bind fun ns' => p.loop n l ds ns' ex := by
  rw [Parser.loop.eq_def]; dsimp only; rw [if_pos (show List.any (_ :: l) isOpt = true from rfl)]
  simp only [Parser.consumeOptional, consumeExplicit_of h, bind, Except.bind]
  have := foldlM_single (ns := ns) (o := o) (vs := [v])
  rw [this]
  cases take ns o [v] with
  | error e => rfl
  | ok x => simp

theorem items_noDash (p : Parser) (items : List Item) : NoDash (items.flatMap (Item.tags p)) := by
  intro x hx
  obtain ⟨i, _, hi⟩ := List.mem_flatMap.1 hx
  cases i with
  | pos w => cases List.mem_singleton.1 hi; rfl
  | sep s n vs =>
    rcases List.mem_cons.1 hi with rfl | hi
    · rfl
    · obtain ⟨v, _, rfl⟩ := List.mem_map.1 hi; rfl
  | eq s n v => cases List.mem_singleton.1 hi; rfl
  | glued n v => cases List.mem_singleton.1 hi; rfl

theorem apart_tail {ar : Word → Option Nargs} {i : Item} {items : List Item} (h : Apart ar (i :: items)) : Apart ar items := by
  cases i with
  | sep s n vs =>
    cases items with
    | nil => trivial
    | cons j items => cases j <;> first | exact h.2 | exact h
  | pos w => exact h
  | eq s n v => exact h
  | glued n v => exact h

theorem loop_items {items : List Item} (h : ∀ i ∈ items, i.Fits (names p) (arity p)) (ha : Apart (arity p) items) :
    ∀ {n : Nat} {ds : List String} {ns : NS} {ex : Bool}, (items.flatMap (Item.tags p)).length < n →
      p.loop n (items.flatMap (Item.tags p)) ds ns ex = runItems p items ds ns ex := by
  induction items with
  | nil =>
    intro n ds ns ex hn
    obtain ⟨n, rfl⟩ := Nat.exists_eq_succ_of_ne_zero (Nat.ne_of_gt (Nat.zero_lt_of_lt hn))
    cases ds <;> simp [Parser.loop, runItems, consumePos, bind, Except.bind]
  | cons i items ih =>
    intro n ds ns ex hn
    have ih := @ih (fun j hj => h j (List.mem_cons_of_mem _ hj)) (apart_tail ha)
    have hi := h i List.mem_cons_self
    rw [List.flatMap_cons] at hn ⊢
    obtain ⟨n, rfl⟩ := Nat.exists_eq_succ_of_ne_zero (Nat.ne_of_gt (Nat.zero_lt_of_lt hn))
    have hnd := items_noDash p items
    cases i with
    | pos w =>
      have hw : w ≠ ['-', '-'] := plain_ne hi
      simp only [Item.tags, List.singleton_append, List.length_cons, Nat.succ_eq_add_one] at hn ⊢
      cases ds with
      | nil =>
        rw [loop_extra hnd (by omega) (by omega) (m := n)]
        exact ih (by omega)
      | cons d ds =>
        rw [loop_arg hnd hw (by omega) (by omega) (m := n), runItems]
        congr 1
        funext _
        exact ih (by omega)
    | sep s nm vs =>
      obtain ⟨⟨a, har, hcount⟩, hs, hv⟩ := hi
      obtain ⟨o, hf, rfl⟩ := arity_find har
      simp only [Item.tags, List.cons_append, List.length_cons, List.length_append, Nat.succ_eq_add_one, hf] at hn ⊢
      have hstop : o.nargs = .plus → Stops (items.flatMap (Item.tags p)) := by
        intro hp x hx
        cases items with
        | nil => cases hx
        | cons j items =>
          cases j with
          | pos w => exact absurd (hp ▸ har) ha.1
          | sep s n vs => cases hx; rfl
          | eq s n v => cases hx; rfl
          | glued n v => cases hx; rfl
      rw [loop_plain (consumePlain_of hcount hstop), runItems, hf]
      congr 1
      funext ns'
      exact ih (by omega)
    | eq s nm v =>
      obtain ⟨⟨a, har, hz⟩, hs⟩ := hi
      obtain ⟨o, hf, rfl⟩ := arity_find har
      simp only [Item.tags, List.singleton_append, List.length_cons, Nat.succ_eq_add_one, hf] at hn ⊢
      rw [loop_explicit hz, runItems, hf]
      congr 1
      funext ns'
      exact ih (by omega)
    | glued nm v =>
      obtain ⟨⟨a, har, hz⟩, hs⟩ := hi
      obtain ⟨o, hf, rfl⟩ := arity_find har
      simp only [Item.tags, List.singleton_append, List.length_cons, Nat.succ_eq_add_one, hf] at hn ⊢
      rw [loop_explicit hz, runItems, hf]
      congr 1
      funext ns'
      exact ih (by omega)

end Verif.Proofs.Argparse
