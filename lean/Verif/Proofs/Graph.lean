import Verif.Model.Graph
import Verif.Spec.Graph
import Verif.Proofs.Treap
import Mathlib.Data.Finset.Card
import Mathlib.Data.Finset.Range
import Mathlib.Data.Finset.Filter
import Mathlib.Tactic.Tauto
/-! construction of the graph and depth-first reachability -/
set_option linter.unusedSectionVars false
namespace Verif.Proofs
open Verif.Model Verif.Spec

variable {K : Type}

/-- transitions leaving `s` according to the items of the matrix -/
def outOf (inv : Nat → Option (Nat × Nat)) (s : Nat) (it : (Nat × Nat) × K) : Option (Nat × Nat × K) :=
  match inv it.1.1 with
  | some (s', a) => if s' = s then some (it.1.2, a, it.2) else none
  | none => none

def inTo (inv : Nat → Option (Nat × Nat)) (d : Nat) (it : (Nat × Nat) × K) : Option (Nat × Nat × K) :=
  match inv it.1.1 with
  | some (s, a) => if it.1.2 = d then some (s, a, it.2) else none
  | none => none

theorem build_spec {n : Nat} {inv : Nat → Option (Nat × Nat)} (items : List ((Nat × Nat) × K))
    (g g' : Graph K) (h : Graph.build n inv items g = .ok g') :
    g'.n = g.n ∧ (∀ s, g'.succ s = g.succ s ++ items.filterMap (outOf inv s)) ∧
    (∀ d, g'.pred d = g.pred d ++ items.filterMap (inTo inv d)) ∧
    (∀ it ∈ items, ∃ s a, inv it.1.1 = some (s, a) ∧ s < n ∧ it.1.2 < n) := by
  induction items generalizing g with
  | nil => simp only [Graph.build, Except.ok.injEq] at h; subst h; simp
  | cons it items ih =>
    obtain ⟨⟨i, d⟩, p⟩ := it
    simp only [Graph.build] at h
    cases hi : inv i with
    | none => simp [hi] at h
    | some sa =>
      obtain ⟨s, a⟩ := sa
      simp only [hi] at h
      by_cases hs : s < n ∧ d < n
      · rw [if_pos hs] at h
        obtain ⟨h1, h2, h3, h4⟩ := ih _ h
        refine ⟨h1, ?_, ?_, ?_⟩
        · intro s'
          rw [h2]
          by_cases e : s' = s
          · subst e
            simp [Graph.addSuccessor, outOf, hi]
          · simp [Graph.addSuccessor, outOf, hi, Function.update_of_ne e, Ne.symm e]
        · intro d'
          rw [h3]
          by_cases e : d' = d
          · subst e
            simp [Graph.addSuccessor, inTo, hi]
          · simp [Graph.addSuccessor, inTo, hi, Function.update_of_ne e, Ne.symm e]
        · intro it hit
          rcases List.mem_cons.1 hit with rfl | hit
          · exact ⟨s, a, hi, hs⟩
          · exact h4 it hit
      · rw [if_neg hs] at h; cases h

theorem build_ok {n : Nat} {inv : Nat → Option (Nat × Nat)} (items : List ((Nat × Nat) × K))
    (g : Graph K) (h : ∀ it ∈ items, ∃ s a, inv it.1.1 = some (s, a) ∧ s < n ∧ it.1.2 < n) :
    ∃ g', Graph.build n inv items g = .ok g' := by
  induction items generalizing g with
  | nil => exact ⟨g, rfl⟩
  | cons it items ih =>
    obtain ⟨⟨i, d⟩, p⟩ := it
    obtain ⟨s, a, hi, hs, hd⟩ := h _ (List.mem_cons_self)
    simp only at hi hd
    obtain ⟨g', hg'⟩ := ih (g.addSuccessor s a p d) fun it hit => h it (List.mem_cons_of_mem _ hit)
    refine ⟨g', ?_⟩
    simp only [Graph.build, hi]
    rw [if_pos ⟨hs, hd⟩, hg']

/-! ### reachability -/
open Graph

theorem initStack_spec (vs : List Nat) (st : RState) :
    (∀ x, x ∈ (initStack vs st).stack ↔ x ∈ vs ∨ x ∈ st.stack) ∧
    (∀ x, (initStack vs st).instack x = (decide (x ∈ vs) || st.instack x)) ∧
    (initStack vs st).mark = st.mark ∧
    (initStack vs st).stack = vs.reverse ++ st.stack := by
  induction vs generalizing st with
  | nil => simp [initStack]
  | cons v vs ih =>
    obtain ⟨a, b, c, d⟩ := ih { st with stack := v :: st.stack, instack := Function.update st.instack v true }
    refine ⟨fun x => ?_, fun x => ?_, c, ?_⟩
    · rw [initStack, a]; simp only [List.mem_cons]; tauto
    · rw [initStack, b]
      by_cases e : x = v
      · subst e; simp
      · simp [Function.update_of_ne e, e]
    · rw [initStack, d]; simp

/-- invariant of the search loop -/
structure RInv (n : Nat) (nbr : Nat → List Nat) (block : Nat → Bool) (F : List Nat) (st : RState) :
    Prop where
  nodup : st.stack.Nodup
  instack : ∀ x, st.instack x = true ↔ x ∈ st.stack
  unmarked : ∀ x ∈ st.stack, st.mark x = false
  range : ∀ x ∈ st.stack, x < n
  rangem : ∀ x, st.mark x = true → x < n
  from_ : ∀ x ∈ F, st.mark x = true ∨ x ∈ st.stack
  closed : ∀ x, st.mark x = true → block x = false → ∀ y ∈ nbr x, st.mark y = true ∨ y ∈ st.stack
  sound : ∀ x, st.mark x = true ∨ x ∈ st.stack →
    ReachAvoid (fun u v => v ∈ nbr u) {x | x ∈ F} {x | block x = true} x

theorem pushNeighbours_spec (ws : List Nat) (st : RState) (hnd : st.stack.Nodup)
    (hin : ∀ x, st.instack x = true ↔ x ∈ st.stack) (hun : ∀ x ∈ st.stack, st.mark x = false) :
    let st' := pushNeighbours ws st
    st'.mark = st.mark ∧ st'.stack.Nodup ∧ (∀ x, st'.instack x = true ↔ x ∈ st'.stack) ∧
    (∀ x ∈ st'.stack, st.mark x = false) ∧
    (∀ x, x ∈ st'.stack ↔ x ∈ st.stack ∨ (x ∈ ws ∧ st.mark x = false)) := by
  induction ws generalizing st with
  | nil => simp [pushNeighbours, hnd, hin]; exact hun
  | cons w ws ih =>
    simp only [pushNeighbours]
    by_cases hc : (!st.mark w && !st.instack w) = true
    · rw [if_pos hc]
      simp only [Bool.and_eq_true, Bool.not_eq_true'] at hc
      have hw : w ∉ st.stack := fun h => by have := (hin w).2 h; simp [hc.2] at this
      obtain ⟨a, b, c, d, e⟩ := ih { st with stack := w :: st.stack, instack := Function.update st.instack w true }
        (by simp [hw, hnd])
        (by
          intro x
          by_cases hx : x = w
          · subst hx; simp
          · simp [Function.update_of_ne hx, hin, hx])
        (by
          intro x hx
          rcases List.mem_cons.1 hx with rfl | hx
          · exact hc.1
          · exact hun x hx)
      refine ⟨a, b, c, d, fun x => ?_⟩
      rw [e]
      simp only [List.mem_cons]
      constructor
      · rintro ((rfl | h) | h)
        · exact Or.inr ⟨Or.inl rfl, hc.1⟩
        · exact Or.inl h
        · exact Or.inr ⟨Or.inr h.1, h.2⟩
      · rintro (h | ⟨rfl | h, h'⟩)
        · exact Or.inl (Or.inr h)
        · exact Or.inl (Or.inl rfl)
        · exact Or.inr ⟨h, h'⟩
    · rw [if_neg hc]
      obtain ⟨a, b, c, d, e⟩ := ih st hnd hin hun
      refine ⟨a, b, c, d, fun x => ?_⟩
      rw [e]
      simp only [List.mem_cons]
      constructor
      · rintro (h | h)
        · exact Or.inl h
        · exact Or.inr ⟨Or.inr h.1, h.2⟩
      · rintro (h | ⟨rfl | h, h'⟩)
        · exact Or.inl h
        · left
          rw [← hin]
          simp only [h', Bool.not_false, Bool.true_and, Bool.not_eq_true', Bool.not_eq_false] at hc
          exact hc
        · exact Or.inr ⟨h, h'⟩

/-- number of unmarked nodes -/
def unmarkedCount (n : Nat) (mark : Nat → Bool) : Nat :=
  ((Finset.range n).filter fun x => mark x = false).card

theorem reachLoop_spec {n : Nat} {nbr : Nat → List Nat} {block : Nat → Bool} {F : List Nat}
    (hn : ∀ x < n, ∀ y ∈ nbr x, y < n) (fuel : Nat) (st : RState) (h : RInv n nbr block F st)
    (hf : unmarkedCount n st.mark ≤ fuel) :
    ∃ mark, reachLoop nbr block fuel st = some mark ∧
      ∀ x, mark x = true ↔ ReachAvoid (fun u v => v ∈ nbr u) {x | x ∈ F} {x | block x = true} x := by
  induction fuel generalizing st with
  | zero =>
    obtain ⟨stack, instack, mark⟩ := st
    cases stack with
    | nil =>
      refine ⟨mark, rfl, fun x => ⟨fun hx => h.sound x (Or.inl hx), ?_⟩⟩
      rintro ⟨f, hf, hp⟩
      induction hp with
      | refl => rcases h.from_ f hf with h | h; exacts [h, by simp at h]
      | tail _ e ih =>
        rcases h.closed _ ih (by simpa using e.1) _ e.2 with h | h
        exacts [h, by simp at h]
    | cons v stack =>
      exfalso
      have hv : mark v = false := h.unmarked v (by simp)
      have hr := h.range v (by simp)
      have : v ∈ (Finset.range n).filter fun x => mark x = false := by simp [hr, hv]
      have := Finset.card_pos.2 ⟨v, this⟩
      simp only [unmarkedCount] at hf
      omega
  | succ fuel ih =>
    obtain ⟨stack, instack, mark⟩ := st
    cases stack with
    | nil =>
      refine ⟨mark, rfl, fun x => ⟨fun hx => h.sound x (Or.inl hx), ?_⟩⟩
      rintro ⟨f, hf, hp⟩
      induction hp with
      | refl => rcases h.from_ f hf with h | h; exacts [h, by simp at h]
      | tail _ e ih =>
        rcases h.closed _ ih (by simpa using e.1) _ e.2 with h | h
        exacts [h, by simp at h]
    | cons v stack =>
      have hv : mark v = false := h.unmarked v (by simp)
      have hr : v < n := h.range v (by simp)
      have hnd := h.nodup
      simp only [List.nodup_cons] at hnd
      have hcount : ∀ m : Nat → Bool, m = Function.update mark v true → unmarkedCount n m ≤ fuel := by
        rintro m rfl
        have hlt : unmarkedCount n (Function.update mark v true) < unmarkedCount n mark := by
          refine Finset.card_lt_card (Finset.ssubset_iff_of_subset ?_ |>.2 ⟨v, by simp [hr, hv], by simp⟩)
          intro x hx
          simp only [Finset.mem_filter, Finset.mem_range] at hx ⊢
          by_cases e : x = v
          · subst e; simp at hx
          · rw [Function.update_of_ne e] at hx; exact hx
        simp only at hf
        omega
      -- invariant after popping, with neighbours still to be inspected
      have hin0 : ∀ x, Function.update instack v false x = true ↔ x ∈ stack := by
        intro x
        by_cases e : x = v
        · subst e; simp [hnd.1]
        · rw [Function.update_of_ne e, h.instack]; simp [e]
      have hun0 : ∀ x ∈ stack, Function.update mark v true x = false := by
        intro x hx
        have e : x ≠ v := fun e => hnd.1 (e ▸ hx)
        rw [Function.update_of_ne e]; exact h.unmarked x (by simp [hx])
      simp only [reachLoop]
      by_cases hb : block v = true
      · rw [if_pos hb]
        refine ih _ ?_ (hcount _ rfl)
        refine ⟨hnd.2, hin0, hun0, fun x hx => h.range x (by simp [hx]), ?_, ?_, ?_, ?_⟩
        · intro x hx
          by_cases e : x = v
          · subst e; exact hr
          · simp only [Function.update_of_ne e] at hx; exact h.rangem x hx
        · intro x hx
          by_cases e : x = v
          · subst e; simp
          · simp only [Function.update_of_ne e]
            rcases h.from_ x hx with h | h
            · exact Or.inl h
            · simp [e] at h; exact Or.inr h
        · intro x hx hbx y hy
          have e : x ≠ v := by rintro rfl; simp [hb] at hbx
          simp only [Function.update_of_ne e] at hx
          rcases h.closed x hx hbx y hy with h | h
          · left
            by_cases e : y = v
            · subst e; simp
            · simp only [Function.update_of_ne e]; exact h
          · simp only [List.mem_cons] at h
            rcases h with rfl | h
            · left; simp
            · exact Or.inr h
        · intro x hx
          apply h.sound x
          by_cases e : x = v
          · subst e; right; simp
          · simp only [Function.update_of_ne e] at hx
            rcases hx with h | h
            · exact Or.inl h
            · right; simp [h]
      · rw [if_neg hb]
        have hbf : block v = false := by simpa using hb
        obtain ⟨a, b, c, d, e⟩ := pushNeighbours_spec (nbr v)
          ⟨stack, Function.update instack v false, Function.update mark v true⟩ hnd.2 hin0 hun0
        simp only at a b c d e
        refine ih _ ?_ (hcount _ a)
        refine ⟨b, c, fun x hx => by rw [a]; exact d x hx, ?_, ?_, ?_, ?_, ?_⟩
        · intro x hx
          rcases (e x).1 hx with h' | h'
          · exact h.range x (by simp [h'])
          · exact hn v hr x h'.1
        · intro x hx
          rw [a] at hx
          by_cases e : x = v
          · subst e; exact hr
          · simp only [Function.update_of_ne e] at hx; exact h.rangem x hx
        · intro x hx
          rw [a]
          by_cases ex : x = v
          · subst ex; simp
          · simp only [Function.update_of_ne ex]
            rcases h.from_ x hx with h | h
            · exact Or.inl h
            · simp [ex] at h; exact Or.inr ((e x).2 (Or.inl h))
        · intro x hx hbx y hy
          rw [a] at hx ⊢
          by_cases ey : y = v
          · left; subst ey; simp
          · by_cases ex : x = v
            · subst ex
              by_cases hm : mark y = true
              · left; simp only [Function.update_of_ne ey]; exact hm
              · right
                exact (e y).2 (Or.inr ⟨hy, by simp only [Function.update_of_ne ey]; simpa using hm⟩)
            · simp only [Function.update_of_ne ex] at hx
              rcases h.closed x hx hbx y hy with h | h
              · left; simp only [Function.update_of_ne ey]; exact h
              · right; simp [ey] at h; exact (e y).2 (Or.inl h)
        · intro x hx
          rw [a] at hx
          have hvs := h.sound v (Or.inr (by simp))
          by_cases ex : x = v
          · subst ex; exact hvs
          · simp only [Function.update_of_ne ex] at hx
            rcases hx with h' | h'
            · exact h.sound x (Or.inl h')
            · rcases (e x).1 h' with h' | h'
              · exact h.sound x (Or.inr (by simp [h']))
              · obtain ⟨f, hf, hp⟩ := hvs
                exact ⟨f, hf, hp.tail ⟨by simp [hbf], h'.1⟩⟩

theorem reachable_spec (g : Graph K) {F B : List Nat} {forward : Bool} (hF : F ≠ [])
    (hnd : F.Nodup) (hFn : ∀ x ∈ F, x < g.n)
    (hn : ∀ x < g.n, ∀ t ∈ (if forward then g.succ x else g.pred x), t.1 < g.n) :
    ∃ mask, g.reachable F forward B = .ok (some mask) ∧ mask.length = g.n ∧
      ∀ x (hx : x < mask.length), mask[x] = true ↔
        ReachAvoid (fun u v => ∃ t ∈ (if forward then g.succ u else g.pred u), t.1 = v)
          {x | x ∈ F} {x | x ∈ B} x := by
  let nbr := fun v => ((if forward then g.succ v else g.pred v).map Prod.fst)
  have h0 := initStack_spec F ⟨[], fun _ => false, fun _ => false⟩
  obtain ⟨a, b, c, d⟩ := h0
  have hinv : RInv g.n nbr (fun v => decide (v ∈ B)) F
      (initStack F ⟨[], fun _ => false, fun _ => false⟩) := by
    refine ⟨?_, ?_, ?_, ?_, ?_, ?_, ?_, ?_⟩
    · rw [d]; simpa using hnd
    · intro x; rw [a, b]; simp
    · intro x _; rw [c]
    · intro x hx; rw [a] at hx; simp at hx; exact hFn x hx
    · intro x hx; rw [c] at hx; simp at hx
    · intro x hx; right; rw [a]; exact Or.inl hx
    · intro x hx; rw [c] at hx; simp at hx
    · intro x hx
      rw [c, a] at hx
      simp at hx
      exact ⟨x, hx, Relation.ReflTransGen.refl⟩
  obtain ⟨mark, hm, hs⟩ := reachLoop_spec (n := g.n) (nbr := nbr)
    (fun x hx y hy => by
      simp only [nbr, List.mem_map] at hy
      obtain ⟨t, ht, rfl⟩ := hy
      exact hn x hx t ht) g.n _ hinv (by
      refine le_trans (Finset.card_le_card (Finset.filter_subset _ _)) (by simp))
  refine ⟨(List.range g.n).map mark, ?_, by simp, ?_⟩
  · have hpos : F.length > 0 := List.length_pos_iff.2 hF
    simp only [reachable, hpos, if_true]
    rw [hm]; rfl
  · intro x hx
    simp only [List.getElem_map, List.getElem_range]
    rw [hs]
    have e1 : (fun u v => v ∈ nbr u) =
        (fun u v => ∃ t ∈ (if forward then g.succ u else g.pred u), t.1 = v) := by
      funext u v; simp only [nbr, List.mem_map]
    rw [e1]
    simp

end Verif.Proofs
