import Verif.Model.Treap
import Mathlib.Data.Finset.Card
import Mathlib.Data.Finset.Insert
import Mathlib.Tactic.Tauto
/-! treap invariants -/
set_option linter.unusedSectionVars false
namespace Verif.Proofs
open Verif.Model Verif.Model.Treap

variable {α : Type} [LinearOrder α]

/-- search tree with correct sizes -/
def TreapOK : Treap α → Prop
  | nil => True
  | node k _ n l r => TreapOK l ∧ TreapOK r ∧ (∀ x ∈ l.toList, x < k) ∧ (∀ x ∈ r.toList, k < x) ∧
      n = r.size + l.size + 1

theorem TreapOK.size_eq {t : Treap α} (h : TreapOK t) : t.size = t.toList.length := by
  induction t with
  | nil => rfl
  | node k hk n l r il ir =>
    obtain ⟨h1, h2, -, -, h5⟩ := h
    have a := il h1
    have b := ir h2
    show n = _
    simp only [Treap.toList, List.length_cons, List.length_append]
    omega

theorem TreapOK.nodup {t : Treap α} (h : TreapOK t) : t.toList.Nodup := by
  induction t with
  | nil => simp [Treap.toList]
  | node k hk n l r il ir =>
    obtain ⟨h1, h2, h3, h4, -⟩ := h
    simp only [Treap.toList, List.nodup_cons, List.mem_append, not_or]
    refine ⟨⟨fun hc => lt_irrefl _ (h3 k hc), fun hc => lt_irrefl _ (h4 k hc)⟩, ?_⟩
    refine List.Nodup.append (il h1) (ir h2) ?_
    intro x hx hx'
    exact lt_asymm (h3 x hx) (h4 x hx')

theorem TreapOK.mem_iff {t : Treap α} (h : TreapOK t) (x : α) : t.mem x = true ↔ x ∈ t.toList := by
  induction t with
  | nil => simp [Treap.mem, Treap.toList]
  | node k hk n l r il ir =>
    obtain ⟨h1, h2, h3, h4, -⟩ := h
    simp only [Treap.mem, Treap.toList, List.mem_cons, List.mem_append]
    by_cases e : x = k
    · simp [e]
    · by_cases lt : x < k
      · simp only [e, if_false, lt, if_true, il h1, false_or]
        constructor
        · exact Or.inl
        · rintro (h | h)
          · exact h
          · exact absurd (h4 x h) (lt_asymm lt)
      · simp only [e, if_false, lt, ir h2, false_or]
        constructor
        · exact Or.inr
        · rintro (h | h)
          · exact absurd (h3 x h) lt
          · exact h

theorem toList_mkNode (k : α) (h : Int) (l r : Treap α) (x : α) :
    x ∈ (mkNode k h l r).toList ↔ x = k ∨ x ∈ l.toList ∨ x ∈ r.toList := by
  simp [mkNode, Treap.toList]

theorem split_spec {t : Treap α} (h : TreapOK t) (x : α) :
    TreapOK (t.split x).1 ∧ TreapOK (t.split x).2 ∧
    (∀ y, y ∈ (t.split x).1.toList ↔ y ∈ t.toList ∧ y < x) ∧
    (∀ y, y ∈ (t.split x).2.toList ↔ y ∈ t.toList ∧ x < y) := by
  induction t with
  | nil => simp [Treap.split, TreapOK, Treap.toList]
  | node k hk n l r il ir =>
    obtain ⟨h1, h2, h3, h4, h5⟩ := h
    obtain ⟨a1, a2, a3, a4⟩ := il h1
    obtain ⟨b1, b2, b3, b4⟩ := ir h2
    by_cases e : x = k
    · subst e
      simp only [Treap.split, if_true, Treap.toList, List.mem_cons, List.mem_append]
      refine ⟨h1, h2, fun y => ⟨fun hy => ⟨Or.inr (Or.inl hy), h3 y hy⟩, ?_⟩,
        fun y => ⟨fun hy => ⟨Or.inr (Or.inr hy), h4 y hy⟩, ?_⟩⟩
      · rintro ⟨rfl | hy | hy, hlt⟩
        · exact absurd hlt (lt_irrefl _)
        · exact hy
        · exact absurd (h4 y hy) (lt_asymm hlt)
      · rintro ⟨rfl | hy | hy, hlt⟩
        · exact absurd hlt (lt_irrefl _)
        · exact absurd (h3 y hy) (lt_asymm hlt)
        · exact hy
    · by_cases lt : x < k
      · simp only [Treap.split, e, if_false, lt, if_true]
        refine ⟨a1, ⟨a2, h2, ?_, h4, rfl⟩, ?_, ?_⟩
        · intro y hy; exact h3 y ((a4 y).1 hy).1
        · intro y
          rw [a3]
          simp only [Treap.toList, List.mem_cons, List.mem_append]
          constructor
          · rintro ⟨hy, hl⟩; exact ⟨Or.inr (Or.inl hy), hl⟩
          · rintro ⟨rfl | hy | hy, hl⟩
            · exact absurd hl (lt_asymm lt)
            · exact ⟨hy, hl⟩
            · exact absurd (h4 y hy) (lt_asymm (hl.trans lt))
        · intro y
          rw [toList_mkNode, a4]
          simp only [Treap.toList, List.mem_cons, List.mem_append]
          constructor
          · rintro (rfl | ⟨hy, hl⟩ | hy)
            · exact ⟨Or.inl rfl, lt⟩
            · exact ⟨Or.inr (Or.inl hy), hl⟩
            · exact ⟨Or.inr (Or.inr hy), lt.trans (h4 y hy)⟩
          · rintro ⟨rfl | hy | hy, hl⟩
            · exact Or.inl rfl
            · exact Or.inr (Or.inl ⟨hy, hl⟩)
            · exact Or.inr (Or.inr hy)
      · have gt : k < x := lt_of_le_of_ne (not_lt.1 lt) (Ne.symm e)
        simp only [Treap.split, e, if_false, lt]
        refine ⟨⟨h1, b1, h3, ?_, rfl⟩, b2, ?_, ?_⟩
        · intro y hy; exact h4 y ((b3 y).1 hy).1
        · intro y
          rw [toList_mkNode, b3]
          simp only [Treap.toList, List.mem_cons, List.mem_append]
          constructor
          · rintro (rfl | hy | ⟨hy, hl⟩)
            · exact ⟨Or.inl rfl, gt⟩
            · exact ⟨Or.inr (Or.inl hy), (h3 y hy).trans gt⟩
            · exact ⟨Or.inr (Or.inr hy), hl⟩
          · rintro ⟨rfl | hy | hy, hl⟩
            · exact Or.inl rfl
            · exact Or.inr (Or.inl hy)
            · exact Or.inr (Or.inr ⟨hy, hl⟩)
        · intro y
          rw [b4]
          simp only [Treap.toList, List.mem_cons, List.mem_append]
          constructor
          · rintro ⟨hy, hl⟩; exact ⟨Or.inr (Or.inr hy), hl⟩
          · rintro ⟨rfl | hy | hy, hl⟩
            · exact absurd hl (lt_asymm gt)
            · exact absurd (h3 y hy) (lt_asymm (gt.trans hl))
            · exact ⟨hy, hl⟩

theorem insert_spec {t : Treap α} (h : TreapOK t) (x : α) (hx : Int) :
    TreapOK (t.insert x hx) ∧ ∀ y, y ∈ (t.insert x hx).toList ↔ y = x ∨ y ∈ t.toList := by
  induction t with
  | nil => simp [Treap.insert, TreapOK, Treap.toList, Treap.size]
  | node k hk n l r il ir =>
    have h' := h
    obtain ⟨h1, h2, h3, h4, h5⟩ := h
    obtain ⟨a1, a2⟩ := il h1
    obtain ⟨b1, b2⟩ := ir h2
    by_cases e : k = x
    · subst e
      simp only [Treap.insert, if_true]
      refine ⟨h', fun y => ?_⟩
      simp [Treap.toList]
    · by_cases hh : hk > hx
      · by_cases gt : k > x
        · simp only [Treap.insert, e, if_false, hh, if_true, gt]
          refine ⟨⟨a1, h2, ?_, h4, rfl⟩, fun y => ?_⟩
          · intro y hy
            rcases (a2 y).1 hy with rfl | hy
            · exact gt
            · exact h3 y hy
          · rw [toList_mkNode, a2]; simp only [Treap.toList, List.mem_cons, List.mem_append]; tauto
        · have lt : k < x := lt_of_le_of_ne (not_lt.1 gt) e
          simp only [Treap.insert, e, if_false, hh, if_true, gt]
          refine ⟨⟨h1, b1, h3, ?_, rfl⟩, fun y => ?_⟩
          · intro y hy
            rcases (b2 y).1 hy with rfl | hy
            · exact lt
            · exact h4 y hy
          · rw [toList_mkNode, b2]; simp only [Treap.toList, List.mem_cons, List.mem_append]; tauto
      · obtain ⟨s1, s2, s3, s4⟩ := split_spec h' x
        simp only [Treap.insert, e, if_false, hh]
        refine ⟨⟨s1, s2, fun y hy => ((s3 y).1 hy).2, fun y hy => ((s4 y).1 hy).2, rfl⟩, fun y => ?_⟩
        rw [toList_mkNode, s3, s4]
        constructor
        · rintro (h | h | h)
          · exact Or.inl h
          · exact Or.inr h.1
          · exact Or.inr h.1
        · rintro (h | h)
          · exact Or.inl h
          · rcases lt_trichotomy y x with hl | hl | hl
            · exact Or.inr (Or.inl ⟨h, hl⟩)
            · exact Or.inl hl
            · exact Or.inr (Or.inr ⟨h, hl⟩)

theorem addAll_spec {t : Treap α} (h : TreapOK t) (xs : List (α × Int)) :
    TreapOK (t.addAll xs) ∧ ∀ y, y ∈ (t.addAll xs).toList ↔ y ∈ t.toList ∨ y ∈ xs.map Prod.fst := by
  induction xs generalizing t with
  | nil => simp [Treap.addAll, h]
  | cons p xs ih =>
    obtain ⟨x, hx⟩ := p
    obtain ⟨a, b⟩ := insert_spec h x hx
    obtain ⟨c, d⟩ := ih a
    refine ⟨c, fun y => ?_⟩
    simp only [Treap.addAll, d, b, List.map_cons, List.mem_cons]
    tauto

end Verif.Proofs
