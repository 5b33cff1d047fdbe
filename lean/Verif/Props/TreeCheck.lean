import Verif.Model.GraphUtils
import Verif.Props.TreeAlgo
import Mathlib.Data.Set.Card
import Mathlib.Data.Set.Card.Arithmetic
/-!
# C119: the check that a partition is a tree
-/
set_option linter.unusedSectionVars false

namespace Verif.Props
open Verif.Model Verif.Model.GraphUtils Verif.Model.TreeDecomp Verif.Proofs.Tree Verif.Spec Verif.Proofs Relation

/-! ## trees -/

/-- the vertices passed on a walk from `r`, the last one first -/
inductive Walk (E : Nat → Nat → Prop) (r : Nat) : List Nat → Nat → Prop
  | nil : Walk E r [] r
  | snoc {l : List Nat} {u w : Nat} : Walk E r l u → E u w → Walk E r (u :: l) w

/-- the vertices below `n` form a tree with root `r`: exactly one walk leads from the root to each of them -/
def TreeFrom (n : Nat) (E : Nat → Nat → Prop) (r : Nat) : Prop := ∀ w < n, ∃! l, Walk E r l w

/-- two trees beside each other are no tree, but a forest: no vertex has two predecessors, and there are no cycles -/
def Forest (E : Nat → Nat → Prop) : Prop := (∀ p, ¬ TransGen E p p) ∧ ∀ p p' q, E p q → E p' q → p = p'

section
variable {E : Nat → Nat → Prop} {r n : Nat}

theorem Walk.reach {l : List Nat} {w : Nat} (h : Walk E r l w) : ReflTransGen E r w := by
  induction h with
  | nil => exact .refl
  | snoc _ h ih => exact ih.tail h

theorem walk_of_reach {w : Nat} (h : ReflTransGen E r w) : ∃ l, Walk E r l w := by
  induction h with
  | refl => exact ⟨[], .nil⟩
  | tail _ h ih => obtain ⟨l, hl⟩ := ih; exact ⟨_, hl.snoc h⟩

theorem walk_unique (hF : Forest E) : ∀ {l l' : List Nat} {w : Nat}, Walk E r l w → Walk E r l' w → l = l'
  | [], [], _, _, _ => rfl
  | [], _ :: _, _, h, h' => by
    cases h
    cases h' with
    | snoc h1 h2 => exact absurd (TransGen.tail' h1.reach h2) (hF.1 r)
  | _ :: _, [], _, h, h' => by
    cases h'
    cases h with
    | snoc h1 h2 => exact absurd (TransGen.tail' h1.reach h2) (hF.1 r)
  | u :: l, u' :: l', w, h, h' => by
    cases h with
    | snoc h1 h2 =>
      cases h' with
      | snoc g1 g2 =>
        obtain rfl := hF.2 _ _ _ h2 g2
        rw [walk_unique hF h1 g1]

theorem walk_longer {u w : Nat} (h : TransGen E u w) {l : List Nat} (hl : Walk E r l u) : ∃ l', Walk E r l' w ∧ l.length < l'.length := by
  induction h with
  | single h => exact ⟨_, hl.snoc h, by simp⟩
  | tail _ h ih =>
    obtain ⟨l', h1, h2⟩ := ih
    exact ⟨_, h1.snoc h, by simp; omega⟩

theorem tree_forest (hE : ∀ p q, E p q → p < n ∧ q < n) (h : TreeFrom n E r) : Forest E := by
  refine ⟨fun p hp => ?_, fun p p' q h1 h2 => ?_⟩
  · have hpn : p < n := by
      cases hp with
      | single h => exact (hE _ _ h).1
      | tail _ h => exact (hE _ _ h).2
    obtain ⟨l, hl, hu⟩ := h p hpn
    obtain ⟨l', h1, h2⟩ := walk_longer hp hl
    rw [hu l' h1] at h2
    omega
  · obtain ⟨l, hl, -⟩ := h p (hE _ _ h1).1
    obtain ⟨l', hl', -⟩ := h p' (hE _ _ h2).1
    have := (h q (hE _ _ h1).2).unique (hl.snoc h1) (hl'.snoc h2)
    exact (List.cons.inj this).1

/-- a tree is a forest all of which is reached from one vertex -/
theorem treeFrom_iff (hE : ∀ p q, E p q → p < n ∧ q < n) : TreeFrom n E r ↔ Forest E ∧ ∀ w < n, ReflTransGen E r w := by
  refine ⟨fun h => ⟨tree_forest hE h, fun w hw => ?_⟩, fun h w hw => ?_⟩
  · obtain ⟨l, hl, -⟩ := h w hw
    exact hl.reach
  · obtain ⟨l, hl⟩ := walk_of_reach (h.2 w hw)
    exact ⟨l, hl, fun l' hl' => walk_unique h.1 hl' hl⟩

end

/-! ## graph-tool -/

/-- what is assumed of `extract_largest_component`: it finds a largest set of vertices that are reachable from each other -/
def SccOK (scc : GT → Nat) : Prop := ∀ G : GT, 0 < G.n →
  (∃ u < G.n, scc G = {v | v < G.n ∧ ReflTransGen (fun a b => (a, b) ∈ G.edges) u v ∧ ReflTransGen (fun a b => (a, b) ∈ G.edges) v u}.ncard) ∧
  ∀ u < G.n, {v | v < G.n ∧ ReflTransGen (fun a b => (a, b) ∈ G.edges) u v ∧ ReflTransGen (fun a b => (a, b) ∈ G.edges) v u}.ncard ≤ scc G

theorem le_foldl_max : ∀ (l : List Nat) (a x : Nat), a ≤ l.foldl max a ∧ (x ∈ l → x ≤ l.foldl max a)
  | [], a, x => ⟨le_refl _, nofun⟩
  | y :: l, a, x => by
    rw [List.foldl_cons]
    refine ⟨(le_max_left a y).trans (le_foldl_max l _ x).1, fun h => ?_⟩
    rcases List.mem_cons.1 h with rfl | h
    · exact (le_max_right a x).trans (le_foldl_max l _ x).1
    · exact (le_foldl_max l _ x).2 h

theorem foldl_max_mem : ∀ (l : List Nat) (a : Nat), l.foldl max a = a ∨ l.foldl max a ∈ l
  | [], a => .inl rfl
  | y :: l, a => by
    rw [List.foldl_cons]
    rcases foldl_max_mem l (max a y) with h | h
    · rcases max_choice a y with h' | h'
      · left; rw [h, h']
      · right; rw [h, h']; exact List.mem_cons_self
    · right; exact List.mem_cons_of_mem _ h

/-- the edges of a graph that is not a multigraph, between its vertices and without loops -/
structure Simple (G : GT) : Prop where
  nodup : G.edges.Nodup
  lt : ∀ p q, (p, q) ∈ G.edges → p < G.n ∧ q < G.n
  ne : ∀ p q, (p, q) ∈ G.edges → p ≠ q

theorem inDegree_le {G : GT} (h : Simple G) : (∀ v, (G.edges.filter fun e => e.2 == v).length ≤ 1) ↔
    ∀ p p' q, (p, q) ∈ G.edges → (p', q) ∈ G.edges → p = p' := by
  refine ⟨fun h1 p p' q hp hp' => ?_, fun h1 v => ?_⟩
  · by_contra hne
    have h2 : [(p, q), (p', q)].Subperm (G.edges.filter fun e => e.2 == q) := by
      refine List.Nodup.subperm (by simp [hne]) ?_
      intro e he
      simp only [List.mem_cons, List.not_mem_nil, or_false] at he
      rcases he with rfl | rfl <;> simp [hp, hp']
    have := h2.length_le
    have := h1 q
    simp only [List.length_cons, List.length_nil] at *
    omega
  · by_contra hlt
    obtain ⟨a, b, l, hl⟩ : ∃ a b l, (G.edges.filter fun e => e.2 == v) = a :: b :: l := by
      rcases hm : (G.edges.filter fun e => e.2 == v) with _ | ⟨a, _ | ⟨b, l⟩⟩
      · rw [hm] at hlt; simp at hlt
      · rw [hm] at hlt; simp at hlt
      · exact ⟨a, b, l, hm⟩
    have hn := h.nodup.filter fun e => e.2 == v
    rw [hl] at hn
    have ha : a ∈ G.edges.filter fun e => e.2 == v := by rw [hl]; simp
    have hb : b ∈ G.edges.filter fun e => e.2 == v := by rw [hl]; simp
    simp only [List.mem_filter, beq_iff_eq] at ha hb
    obtain ⟨a1, a2⟩ := a
    obtain ⟨b1, b2⟩ := b
    simp only at ha hb
    obtain ⟨ha, rfl⟩ := ha
    obtain ⟨hb, rfl⟩ := hb
    have := h1 _ _ _ ha hb
    subst this
    simp at hn

theorem maxInDegree_one {G : GT} (h : Simple G) : maxInDegree G = 1 ↔
    (∀ p p' q, (p, q) ∈ G.edges → (p', q) ∈ G.edges → p = p') ∧ ∃ p q, (p, q) ∈ G.edges := by
  unfold maxInDegree
  rw [← inDegree_le h]
  refine ⟨fun h1 => ⟨fun v => ?_, ?_⟩, fun ⟨h1, p, q, h2⟩ => ?_⟩
  · by_cases hv : v < G.n
    · rw [← h1]
      exact (le_foldl_max _ 0 _).2 (List.mem_map.2 ⟨v, List.mem_range.2 hv, rfl⟩)
    · have : (G.edges.filter fun e => e.2 == v) = [] := by
        rw [List.filter_eq_nil_iff]
        rintro ⟨a, b⟩ hab hb
        simp only [beq_iff_eq] at hb
        subst hb
        exact hv (h.lt _ _ hab).2
      rw [this]; simp
  · rcases foldl_max_mem ((List.range G.n).map fun v => (G.edges.filter fun e => e.2 == v).length) 0 with h2 | h2
    · omega
    · rw [h1] at h2
      obtain ⟨v, -, hv⟩ := List.mem_map.1 h2
      obtain ⟨e, he⟩ := List.length_eq_one_iff.1 hv
      have : e ∈ G.edges.filter fun e => e.2 == v := by rw [he]; simp
      exact ⟨e.1, e.2, (List.mem_filter.1 this).1⟩
  · refine le_antisymm ?_ ?_
    · rcases foldl_max_mem ((List.range G.n).map fun v => (G.edges.filter fun e => e.2 == v).length) 0 with h3 | h3
      · omega
      · obtain ⟨v, -, hv⟩ := List.mem_map.1 h3
        rw [← hv]; exact h1 v
    · have h3 : (G.edges.filter fun e => e.2 == q).length ≤ _ :=
        (le_foldl_max ((List.range G.n).map fun v => (G.edges.filter fun e => e.2 == v).length) 0 _).2
          (List.mem_map.2 ⟨q, List.mem_range.2 (h.lt _ _ h2).2, rfl⟩)
      have h4 : 0 < (G.edges.filter fun e => e.2 == q).length := List.length_pos_of_mem (List.mem_filter.2 ⟨h2, by simp⟩)
      omega

theorem scc_one {scc : GT → Nat} (hs : SccOK scc) {G : GT} (h : Simple G) (hn : 0 < G.n) : scc G = 1 ↔
    ∀ p, ¬ TransGen (fun a b => (a, b) ∈ G.edges) p p := by
  obtain ⟨⟨u, hu, h1⟩, h2⟩ := hs G hn
  have hfin : ∀ u, {v | v < G.n ∧ ReflTransGen (fun a b => (a, b) ∈ G.edges) u v ∧
      ReflTransGen (fun a b => (a, b) ∈ G.edges) v u}.Finite := fun u =>
    (Set.finite_lt_nat G.n).subset fun v hv => hv.1
  constructor
  · intro h3 p hp
    obtain ⟨q, hpq, hq⟩ : ∃ q, (p, q) ∈ G.edges ∧ ReflTransGen (fun a b => (a, b) ∈ G.edges) q p := by
      obtain ⟨q, h4, h5⟩ := TransGen.head'_iff.1 hp
      exact ⟨q, h4, h5⟩
    obtain ⟨hp1, hq1⟩ := h.lt _ _ hpq
    have h4 : ({p, q} : Set Nat).ncard ≤ 1 := by
      refine le_trans (Set.ncard_le_ncard ?_ (hfin p)) (h3 ▸ h2 p hp1)
      rintro v (rfl | rfl)
      · exact ⟨hp1, .refl, .refl⟩
      · exact ⟨hq1, .single hpq, hq⟩
    rw [Set.ncard_pair (h.ne _ _ hpq)] at h4
    omega
  · intro h3
    rw [h1, Set.ncard_eq_one]
    refine ⟨u, Set.eq_singleton_iff_unique_mem.2 ⟨⟨hu, .refl, .refl⟩, ?_⟩⟩
    rintro v ⟨-, h4, h5⟩
    by_contra hne
    rcases reflTransGen_iff_eq_or_transGen.1 h4 with h6 | h6
    · exact hne h6
    · exact h3 u (h6.trans_left h5)

theorem isTree_iff {scc : GT → Nat} (hs : SccOK scc) {G : GT} (h : Simple G) (hn : 0 < G.n) : isTree scc G = .ok true ↔
    Forest (fun a b => (a, b) ∈ G.edges) ∧ ∃ p q, (p, q) ∈ G.edges := by
  unfold isTree
  rw [if_neg (by omega), Except.ok.injEq, Bool.and_eq_true, decide_eq_true_iff, decide_eq_true_iff, scc_one hs h hn, maxInDegree_one h, Forest,
    and_assoc]

/-! ## the graph of the parts -/

theorem quotient_edges (lab : Nat → Nat) (n : Nat) (hl : ∀ v, lab v < n) : ∀ (es : List (Nat × Nat)) (g : GT), g.n = n → Simple g →
    (es.foldl (quotientStep lab) g).n = n ∧ Simple (es.foldl (quotientStep lab) g) ∧
    ∀ p q, (p, q) ∈ (es.foldl (quotientStep lab) g).edges ↔ (p, q) ∈ g.edges ∨ (p ≠ q ∧ ∃ e ∈ es, lab e.1 = p ∧ lab e.2 = q)
  | [], g, hn, hg => ⟨hn, hg, by simp⟩
  | e :: es, g, hn, hg => by
    rw [List.foldl_cons]
    have hstep : (quotientStep lab g e).n = n ∧ Simple (quotientStep lab g e) ∧
        ∀ p q, (p, q) ∈ (quotientStep lab g e).edges ↔ (p, q) ∈ g.edges ∨ (p ≠ q ∧ lab e.1 = p ∧ lab e.2 = q) := by
      unfold quotientStep
      split
      · rename_i h
        refine ⟨hn, hg, fun p q => ⟨.inl, ?_⟩⟩
        rintro (h' | ⟨h1, rfl, rfl⟩)
        · exact h'
        · exact absurd h h1
      · rename_i h
        split
        · rename_i h'
          refine ⟨hn, hg, fun p q => ⟨.inl, ?_⟩⟩
          rintro (h'' | ⟨h1, rfl, rfl⟩)
          · exact h''
          · exact h'
        · rename_i h'
          refine ⟨hn, ⟨?_, ?_, ?_⟩, fun p q => ?_⟩
          · rw [List.nodup_append]
            refine ⟨hg.nodup, by simp, ?_⟩
            rintro a ha b hb rfl
            simp only [List.mem_cons, List.not_mem_nil, or_false] at hb
            subst hb
            exact h' ha
          · intro p q hpq
            simp only [List.mem_append, List.mem_cons, List.not_mem_nil, or_false, Prod.mk.injEq] at hpq
            rcases hpq with hpq | ⟨rfl, rfl⟩
            · exact hg.lt _ _ hpq
            · simp only [hn]; exact ⟨hl _, hl _⟩
          · intro p q hpq
            simp only [List.mem_append, List.mem_cons, List.not_mem_nil, or_false, Prod.mk.injEq] at hpq
            rcases hpq with hpq | ⟨rfl, rfl⟩
            · exact hg.ne _ _ hpq
            · exact h
          · simp only [List.mem_append, List.mem_cons, List.not_mem_nil, or_false, Prod.mk.injEq]
            refine or_congr_right ⟨?_, ?_⟩
            · rintro ⟨rfl, rfl⟩; exact ⟨h, rfl, rfl⟩
            · rintro ⟨-, rfl, rfl⟩; exact ⟨rfl, rfl⟩
    obtain ⟨h1, h2, h3⟩ := hstep
    obtain ⟨g1, g2, g3⟩ := quotient_edges lab n hl es _ h1 h2
    refine ⟨g1, g2, fun p q => ?_⟩
    rw [g3, h3]
    constructor
    · rintro ((h | ⟨a, b, c⟩) | ⟨a, e', he', b, c⟩)
      · exact .inl h
      · exact .inr ⟨a, e, List.mem_cons_self, b, c⟩
      · exact .inr ⟨a, e', List.mem_cons_of_mem _ he', b, c⟩
    · rintro (h | ⟨a, e', he', b, c⟩)
      · exact .inl (.inl h)
      · rcases List.mem_cons.1 he' with rfl | he'
        · exact .inl (.inr ⟨a, b, c⟩)
        · exact .inr ⟨a, e', he', b, c⟩

theorem underlying_ok {K : Type} : ∀ (items : Dict (Nat × Nat) K) (g : GT), (∀ e ∈ items, e.1.1 < g.n ∧ e.1.2 < g.n) →
    items.foldlM (fun (g : GT) e => if e.1.1 < g.n ∧ e.1.2 < g.n then .ok ⟨g.n, g.edges ++ [e.1]⟩ else (.error .valueError : Except Err GT)) g =
      .ok ⟨g.n, g.edges ++ items.map Prod.fst⟩
  | [], g, _ => by simp [pure, Except.pure]
  | e :: items, g, h => by
    rw [List.foldlM_cons, if_pos (h e List.mem_cons_self)]
    simp only [bind, Except.bind]
    refine (underlying_ok items ⟨g.n, g.edges ++ [e.1]⟩ fun e' he' => h e' (List.mem_cons_of_mem _ he')).trans ?_
    simp

section
variable {K : Type}

/-- the parts are disjoint sets of states that cover all states -/
structure Parts (n : Nat) (parts : List (List Nat)) : Prop where
  states : ∀ l ∈ parts, ∀ v ∈ l, v < n
  cover : ∀ v < n, ∃ (p : Nat) (l : List Nat), parts[p]? = some l ∧ v ∈ l
  disj : ∀ (p q : Nat) (l l' : List Nat) (v : Nat), parts[p]? = some l → parts[q]? = some l' → v ∈ l → v ∈ l' → p = q

/-- an entry of the matrix leads from one part to another one -/
def Leads (P : Dok K) (parts : List (List Nat)) (p q : Nat) : Prop :=
  p ≠ q ∧ ∃ u v l l', parts[p]? = some l ∧ parts[q]? = some l' ∧ u ∈ l ∧ v ∈ l' ∧ (u, v) ∈ P.items.map Prod.fst

theorem Parts.label {n : Nat} {parts : List (List Nat)} (H : Parts n parts) {v p : Nat} (hv : v < n) :
    label parts v = p ↔ ∃ l, parts[p]? = some l ∧ v ∈ l := by
  have key : ∀ {p l}, parts[p]? = some l → v ∈ l → TreeDecomp.label parts v = p := by
    intro p l h1 h2
    have hm : ∀ q, v ∈ parts.getD q [] ↔ ∃ l, parts[q]? = some l ∧ v ∈ l := fun q => by
      rw [List.getD_eq_getElem?_getD]
      cases h : parts[q]? with
      | none => simp
      | some l => simp
    refine foldl_last (fun q => v ∈ parts.getD q []) p ((hm p).2 ⟨l, h1, h2⟩) _ _ (fun q _ hq => ?_) (Or.inl ?_)
    · obtain ⟨l', h3, h4⟩ := (hm q).1 hq
      exact H.disj _ _ _ _ v h3 h1 h4 h2
    · exact List.mem_range.2 (List.getElem?_eq_some_iff.1 h1).1
  refine ⟨fun h => ?_, fun ⟨l, h1, h2⟩ => key h1 h2⟩
  obtain ⟨q, l, h1, h2⟩ := H.cover v hv
  exact ⟨l, by rw [← h, key h1 h2]; exact h1, h2⟩

theorem leads_lt {P : Dok K} {parts : List (List Nat)} {p q : Nat} (h : Leads P parts p q) : p < parts.length ∧ q < parts.length := by
  obtain ⟨-, u, v, l, l', h1, h2, -⟩ := h
  exact ⟨(List.getElem?_eq_some_iff.1 h1).1, (List.getElem?_eq_some_iff.1 h2).1⟩

variable {P : Dok K} {parts : List (List Nat)} {scc : GT → Nat}

theorem treeDecomp_graph (hP : ∀ e ∈ P.items, e.1.1 < P.cols ∧ e.1.2 < P.cols) (H : Parts P.cols parts) (h0 : parts ≠ []) :
    ∃ G : GT, (underlyingGraph P = .ok G ∧ G.edges = P.items.map Prod.fst) ∧ ∃ D : GT, Simple D ∧ D.n = parts.length ∧
      (∀ p q, (p, q) ∈ D.edges ↔ Leads P parts p q) ∧
      quotient G parts = .ok (D, label parts, fun v => G.edges.any fun e => e.2 == v && label parts e.1 != label parts v) := by
  have hlen : 0 < parts.length := List.length_pos_of_ne_nil h0
  have hlab : ∀ v, TreeDecomp.label parts v < parts.length := by
    intro v
    unfold TreeDecomp.label
    have : ∀ (l : List Nat) (a : Nat), (∀ x ∈ l, x < parts.length) → a < parts.length →
        l.foldl (fun l p => if v ∈ parts.getD p [] then p else l) a < parts.length := by
      intro l
      induction l with
      | nil => intro a _ h; exact h
      | cons x l ih =>
        intro a h ha
        rw [List.foldl_cons]
        refine ih _ (fun y hy => h y (List.mem_cons_of_mem _ hy)) ?_
        split
        · exact h x List.mem_cons_self
        · exact ha
    exact this _ _ (fun x hx => List.mem_range.1 hx) hlen
  obtain ⟨h1, h2, h3⟩ := quotient_edges (TreeDecomp.label parts) parts.length hlab (P.items.map Prod.fst) ⟨parts.length, []⟩ rfl
    ⟨by simp, by simp, by simp⟩
  have hG : underlyingGraph P = .ok ⟨P.cols, P.items.map Prod.fst⟩ := underlying_ok _ _ hP
  refine ⟨_, ⟨hG, rfl⟩, _, h2, h1, fun p q => ?_, if_pos H.states⟩
  · rw [h3]
    simp only [List.not_mem_nil, false_or]
    refine and_congr_right fun _ => ⟨?_, ?_⟩
    · rintro ⟨⟨u, v⟩, he, e1, e2⟩
      obtain ⟨x, hx, hxe⟩ := List.mem_map.1 he
      have hlt := hP x hx
      rw [hxe] at hlt
      obtain ⟨l, g1, g2⟩ := (H.label hlt.1).1 e1
      obtain ⟨l', g3, g4⟩ := (H.label hlt.2).1 e2
      exact ⟨u, v, l, l', g1, g3, g2, g4, he⟩
    · rintro ⟨u, v, l, l', g1, g3, g2, g4, he⟩
      obtain ⟨x, hx, hxe⟩ := List.mem_map.1 he
      have hlt := hP x hx
      rw [hxe] at hlt
      exact ⟨(u, v), he, (H.label hlt.1).2 ⟨l, g1, g2⟩, (H.label hlt.2).2 ⟨l', g3, g4⟩⟩

theorem treeDecomp_eq (hP : ∀ e ∈ P.items, e.1.1 < P.cols ∧ e.1.2 < P.cols) (H : Parts P.cols parts) (h0 : parts ≠ []) :
    ∃ D : GT, Simple D ∧ D.n = parts.length ∧ (∀ p q, (p, q) ∈ D.edges ↔ Leads P parts p q) ∧
      treeDecompFromPartition scc P parts = (isTree scc D >>= fun b => if b then .ok () else .error .assertion) := by
  obtain ⟨G, hG, D, h1, h2, h3, h4⟩ := treeDecomp_graph hP H h0
  refine ⟨D, h1, h2, h3, ?_⟩
  unfold treeDecompFromPartition
  rw [hG.1]
  simp only [bind, Except.bind, h4]

/-- **C119.** `tree_decomp_from_partition_graphtool` accepts a partition exactly if there is a transition between two parts, no
part is entered from two others, and one never returns to a part; every other partition with at least one part is refused with
an `AssertionError`. -/
theorem C119_accepts_partial (hs : SccOK scc) (hP : ∀ e ∈ P.items, e.1.1 < P.cols ∧ e.1.2 < P.cols) (H : Parts P.cols parts) (h0 : parts ≠ []) :
    (treeDecompFromPartition scc P parts = .ok () ↔ Forest (Leads P parts) ∧ ∃ p q, Leads P parts p q) ∧
    (treeDecompFromPartition scc P parts ≠ .ok () → treeDecompFromPartition scc P parts = .error .assertion) := by
  obtain ⟨D, h1, h2, h3, h4⟩ := treeDecomp_eq (scc := scc) hP H h0
  have hn : 0 < D.n := h2 ▸ List.length_pos_of_ne_nil h0
  have h5 := isTree_iff hs h1 hn
  simp only [h3] at h5
  change _ ↔ Forest (Leads P parts) ∧ _ at h5
  rw [h4]
  have h7 : ∃ b, isTree scc D = .ok b := by unfold isTree; rw [if_neg (by omega)]; exact ⟨_, rfl⟩
  obtain ⟨b, h7⟩ := h7
  rw [h7] at h5 ⊢
  rw [← h5]
  cases b <;> simp [bind, Except.bind]

end

/-! ## reachability forms -/

section
variable {K : Type} [Field K] [LinearOrder K] [IsStrictOrderedRing K]
variable {ρ : Graph.Rnd} {M : Sys K} {il tl fl : String} {rf : RF K} {parts : List (List Nat)} {scc : GT → Nat}

/-- some state of the one part goes to a state of the other part with positive probability -/
def PartEdge (M : Sys K) (parts : List (List Nat)) (p q : Nat) : Prop :=
  p ≠ q ∧ ∃ u v l l', parts[p]? = some l ∧ parts[q]? = some l' ∧ u ∈ l ∧ v ∈ l' ∧ 0 < M.P.get u v

theorem square (h : RFOK rf) (hidx : RowsAreStates rf.sys) : rf.sys.C = rf.sys.N := by
  obtain ⟨a, ha⟩ := h.goalRow
  have := (hidx _ _ _ ha).2
  have := h.hN
  have := h.hC
  omega

theorem matrix_range (h : RFOK rf) (hidx : RowsAreStates rf.sys) : ∀ e ∈ rf.matrix.items, e.1.1 < rf.matrix.cols ∧ e.1.2 < rf.matrix.cols := by
  intro e he
  have := (List.mem_filter.1 he).2
  simp only [Bool.and_eq_true, decide_eq_true_iff, square h hidx] at this
  exact this

theorem leads_iff (h : RFOK rf) (hidx : RowsAreStates rf.sys) (H : Parts (rf.sys.N - 2) parts) : Leads rf.matrix parts = PartEdge rf.sys parts := by
  funext p q
  refine propext (and_congr_right fun _ => ?_)
  refine exists_congr fun u => exists_congr fun v => exists_congr fun l => exists_congr fun l' => and_congr_right fun h1 =>
    and_congr_right fun h2 => and_congr_right fun h3 => and_congr_right fun h4 => ?_
  rw [WF.get_pos_iff h.wf, List.mem_map]
  have hu := H.states l (List.mem_of_getElem? h1) u h3
  have hv := H.states l' (List.mem_of_getElem? h2) v h4
  constructor
  · rintro ⟨⟨k, x⟩, h5, h6⟩
    simp only at h6
    subst h6
    exact ⟨x, (List.mem_filter.1 h5).1⟩
  · rintro ⟨x, hx⟩
    exact ⟨((u, v), x), List.mem_filter.2 ⟨hx, by simp only [square h hidx, hu, hv, decide_true, Bool.and_self]⟩, rfl⟩

/-- walks of the system to other states than goal and fail only pass such states -/
theorem reach_inner (h : RFOK rf) (hidx : RowsAreStates rf.sys) {s t : Nat} (hr : ReflTransGen (Edge rf.sys) s t) (ht : t < rf.sys.N - 2) :
    ReflTransGen (fun u v => u < rf.sys.N - 2 ∧ v < rf.sys.N - 2 ∧ 0 < rf.sys.P.get u v) s t ∧ s < rf.sys.N - 2 := by
  induction hr using ReflTransGen.head_induction_on with
  | refl => exact ⟨.refl, ht⟩
  | head he _ ih =>
    rename_i u w
    obtain ⟨ih1, hw⟩ := ih
    obtain ⟨a, i, h1, h2, h3⟩ := he
    obtain ⟨-, rfl⟩ := hidx _ _ _ h1
    have hsq := square h hidx
    have hN := h.hN
    have hu : i < rf.sys.N - 2 := by
      by_contra hlt
      have : i = rf.sys.N - 2 ∨ i = rf.sys.N - 1 := by omega
      rcases this with e | e
      · have hg := h.goalP
        rw [hsq, ← e] at hg
        rw [WF.other_zero h.wf h2 (by omega) hg (by omega)] at h3
        exact lt_irrefl _ h3
      · have hg := h.failP
        rw [hsq, ← e] at hg
        rw [WF.other_zero h.wf h2 (by omega) hg (by omega)] at h3
        exact lt_irrefl _ h3
    exact ⟨.head ⟨hu, hw, h3⟩ ih1, hu⟩

theorem reach_parts (H : Parts (rf.sys.N - 2) parts) {s t : Nat}
    (hr : ReflTransGen (fun u v => u < rf.sys.N - 2 ∧ v < rf.sys.N - 2 ∧ 0 < rf.sys.P.get u v) s t) :
    ReflTransGen (PartEdge rf.sys parts) (label parts s) (label parts t) := by
  induction hr with
  | refl => exact .refl
  | tail hh he ih =>
    rename_i u v
    obtain ⟨hu, hv, hp⟩ := he
    by_cases hne : label parts u = label parts v
    · rw [← hne]; exact ih
    · obtain ⟨l, h1, h2⟩ := (H.label hu).1 rfl
      obtain ⟨l', h3, h4⟩ := (H.label hv).1 rfl
      exact ih.tail ⟨hne, u, v, l, l', h1, h3, h2, h4, hp⟩

/-- **C119 (partial).** For a reachability form of a Markov chain and a partition of its states into at least two non-empty parts,
`tree_decomp_from_partition_graphtool` accepts exactly if the parts form a tree: there is a part from which exactly one sequence of
transitions leads to each part.  Otherwise it raises an `AssertionError`. -/
theorem C119_tree_partial (hs : SccOK scc) (hM : M.WF) (hrf : RF.make ρ M il tl fl false = .ok rf) (hidx : RowsAreStates M)
    (H : Parts (M.N - 2) parts) (hne : ∀ l ∈ parts, l ≠ []) (h2 : 2 ≤ parts.length) :
    (treeDecompFromPartition scc rf.matrix parts = .ok () ↔ ∃ r, TreeFrom parts.length (PartEdge M parts) r) ∧
    ((¬ ∃ r, TreeFrom parts.length (PartEdge M parts) r) → treeDecompFromPartition scc rf.matrix parts = .error .assertion) := by
  obtain ⟨e, -⟩ := make_fields hrf
  have hlive := rflive_built hM hrf
  subst e
  have h := hlive.toRFOK
  have h0 : parts ≠ [] := by rintro rfl; simp at h2
  have hacc := C119_accepts_partial (scc := scc) hs (matrix_range h hidx) H h0
  have hlt : ∀ p q, PartEdge rf.sys parts p q → p < parts.length ∧ q < parts.length := by
    rintro p q ⟨-, u, v, l, l', h1, h2, -⟩
    exact ⟨(List.getElem?_eq_some_iff.1 h1).1, (List.getElem?_eq_some_iff.1 h2).1⟩
  rw [leads_iff h hidx H] at hacc
  have hreach : ∀ w < parts.length, ReflTransGen (PartEdge rf.sys parts) (label parts rf.initial) w := by
    intro w hw
    obtain ⟨v, hv⟩ := List.exists_mem_of_ne_nil _ (hne _ (List.getElem_mem hw))
    have hvN := H.states _ (List.getElem_mem hw) v hv
    have hlab : label parts v = w := (H.label hvN).2 ⟨_, List.getElem?_eq_getElem hw, hv⟩
    rw [← hlab]
    exact reach_parts H (reach_inner h hidx (hlive.reach v (by omega) (by omega)) hvN).1
  have key : (Forest (PartEdge rf.sys parts) ∧ ∃ p q, PartEdge rf.sys parts p q) ↔ ∃ r, TreeFrom parts.length (PartEdge rf.sys parts) r := by
    constructor
    · rintro ⟨h1, -⟩
      exact ⟨_, (treeFrom_iff hlt).2 ⟨h1, hreach⟩⟩
    · rintro ⟨r, hr⟩
      refine ⟨((treeFrom_iff hlt).1 hr).1, ?_⟩
      have : ∃ w < parts.length, w ≠ label parts rf.initial := by
        by_cases h3 : label parts rf.initial = 0
        · exact ⟨1, by omega, by omega⟩
        · exact ⟨0, by omega, by omega⟩
      obtain ⟨w, hw, hwne⟩ := this
      rcases ReflTransGen.cases_tail (hreach w hw) with h4 | ⟨u, -, h4⟩
      · exact absurd h4 hwne
      · exact ⟨u, w, h4⟩
  rw [key] at hacc
  exact ⟨hacc.1, fun hn => hacc.2 fun h3 => hn (hacc.1.1 h3)⟩

/-- **C119, negative.** A partition with a single part is refused, although its graph - one vertex without edges - is a tree. -/
theorem C119_single_false (hs : SccOK scc) (hM : M.WF) (hrf : RF.make ρ M il tl fl false = .ok rf) (hidx : RowsAreStates M)
    {l : List Nat} (H : Parts (M.N - 2) [l]) : treeDecompFromPartition scc rf.matrix [l] = .error .assertion ∧
      TreeFrom 1 (PartEdge M [l]) 0 := by
  obtain ⟨e, -⟩ := make_fields hrf
  have h := (rflive_built hM hrf).toRFOK
  subst e
  have hno : ∀ p q, ¬ PartEdge rf.sys [l] p q := by
    rintro p q ⟨h1, u, v, l, l', h2, h3, -⟩
    have h4 := (List.getElem?_eq_some_iff.1 h2).1
    have h5 := (List.getElem?_eq_some_iff.1 h3).1
    simp only [List.length_cons, List.length_nil] at h4 h5
    omega
  have hacc := C119_accepts_partial (scc := scc) hs (matrix_range h hidx) H (by simp)
  rw [leads_iff h hidx H] at hacc
  refine ⟨hacc.2 fun h1 => ?_, fun w hw => ?_⟩
  · obtain ⟨-, p, q, h2⟩ := hacc.1.1 h1
    exact hno p q h2
  · obtain rfl : w = 0 := by omega
    refine ⟨[], .nil, fun l' hl' => ?_⟩
    cases hl' with
    | nil => rfl
    | snoc _ he => exact absurd he (hno _ _)

end

theorem leads_aux {p u : Nat} {l : List Nat} (h1 : ([[0], [1], [2]] : List (List Nat))[p]? = some l) (h2 : u ∈ l) : u = p := by
  have hp : p < 3 := (List.getElem?_eq_some_iff.1 h1).1
  have : ∀ p < 3, ([[0], [1], [2]] : List (List Nat))[p]? = some [p] := by decide
  rw [this p hp] at h1
  cases h1
  simpa using h2

/-- **C119, negative.** Two trees beside each other are accepted: the matrix has a transition from 0 to 1 and none to 2. -/
theorem C119_forest_false {scc : GT → Nat} (hs : SccOK scc) :
    treeDecompFromPartition scc (⟨3, 3, [((0, 1), 1)]⟩ : Dok ℚ) [[0], [1], [2]] = .ok () ∧
    ¬ ∃ r, TreeFrom 3 (Leads (⟨3, 3, [((0, 1), 1)]⟩ : Dok ℚ) [[0], [1], [2]]) r := by
  have hl : ∀ p q, Leads (⟨3, 3, [((0, 1), 1)]⟩ : Dok ℚ) [[0], [1], [2]] p q ↔ p = 0 ∧ q = 1 := by
    intro p q
    constructor
    · rintro ⟨-, u, v, l, l', h1, h2, h3, h4, h5⟩
      simp only [List.map_cons, List.map_nil, List.mem_cons, List.not_mem_nil, or_false, Prod.mk.injEq] at h5
      obtain ⟨rfl, rfl⟩ := h5
      have a1 := leads_aux h1 h3
      have a2 := leads_aux h2 h4
      exact ⟨a1.symm, a2.symm⟩
    · rintro ⟨rfl, rfl⟩
      exact ⟨by decide, 0, 1, [0], [1], rfl, rfl, by simp, by simp, by simp⟩
  have H : Parts 3 [[0], [1], [2]] := by
    refine ⟨by decide, fun v hv => ⟨v, [v], ?_, by simp⟩, fun p q l l' v h1 h2 h3 h4 => ?_⟩
    · have : ∀ v < 3, ([[0], [1], [2]] : List (List Nat))[v]? = some [v] := by decide
      exact this v hv
    · exact (leads_aux h1 h3).symm.trans (leads_aux h2 h4)
  have hacc := C119_accepts_partial (scc := scc) (P := (⟨3, 3, [((0, 1), 1)]⟩ : Dok ℚ)) hs (by decide) H (by simp)
  have hno : ∀ u w, TransGen (Leads (⟨3, 3, [((0, 1), 1)]⟩ : Dok ℚ) [[0], [1], [2]]) u w → u = 0 ∧ w = 1 := by
    intro u w h
    induction h with
    | single h => exact (hl _ _).1 h
    | tail _ h ih =>
      have := (hl _ _).1 h
      omega
  refine ⟨hacc.1.2 ⟨⟨fun p hp => ?_, fun p p' q h1 h2 => ?_⟩, 0, 1, (hl _ _).2 ⟨rfl, rfl⟩⟩, ?_⟩
  · have := hno _ _ hp; omega
  · have := (hl _ _).1 h1; have := (hl _ _).1 h2; omega
  · rintro ⟨r, hr⟩
    obtain ⟨l0, h0, -⟩ := hr 0 (by decide)
    obtain ⟨l2, h2, -⟩ := hr 2 (by decide)
    rcases reflTransGen_iff_eq_or_transGen.1 h0.reach with e | e
    · rcases reflTransGen_iff_eq_or_transGen.1 h2.reach with e' | e'
      · omega
      · have := hno _ _ e'; omega
    · have := hno _ _ e; omega

/-- **C119, negative.** The empty partition of the matrix without states is not refused with an `AssertionError`: `max` fails. -/
theorem C119_empty_false {K : Type} (scc : GT → Nat) {P : Dok K} (hP : ∀ e ∈ P.items, e.1.1 < P.cols ∧ e.1.2 < P.cols) :
    treeDecompFromPartition scc P [] = .error .valueError := by
  have hlab : ∀ v, label [] v = 0 := fun v => rfl
  have hq : ∀ (es : List (Nat × Nat)), es.foldl (quotientStep (label [])) ⟨0, []⟩ = ⟨0, []⟩ := by
    intro es
    induction es with
    | nil => rfl
    | cons e es ih => rw [List.foldl_cons, quotientStep, if_pos (by rw [hlab, hlab])]; exact ih
  unfold treeDecompFromPartition underlyingGraph
  rw [underlying_ok _ _ hP]
  simp only [bind, Except.bind, quotient, List.not_mem_nil, false_implies, implies_true, if_true, List.length_nil, hq, isTree]

theorem nodeMap_get {ns : List Nat} (hnd : ns.Nodup) {n i : Nat} : Dict.get? (nodeMap ns) n = some i ↔ ns[i]? = some n := by
  have key : ∀ (ns : List Nat) (k : Nat) (d : Dict Nat Nat), ns.Nodup → ∀ n i,
      (Dict.get? ((ns.zipIdx k).foldl (fun d e => Dict.set d e.1 e.2) d) n = some i ↔
        (k ≤ i ∧ ns[i - k]? = some n) ∨ (n ∉ ns ∧ Dict.get? d n = some i)) := by
    intro ns
    induction ns with
    | nil => intro k d _ n i; simp
    | cons a ns ih =>
      intro k d hnd n i
      rw [List.nodup_cons] at hnd
      rw [List.zipIdx_cons, List.foldl_cons, ih _ _ hnd.2, get?_set]
      by_cases hn : n = a
      · subst hn
        simp only [if_true, hnd.1, not_false_eq_true, true_and, List.mem_cons, not_true_eq_false, false_and, or_false,
          Option.some.injEq]
        constructor
        · rintro (⟨h1, h2⟩ | rfl)
          · exact absurd (List.mem_of_getElem? h2) hnd.1
          · simp
        · rintro ⟨h1, h2⟩
          by_cases hk : i = k
          · exact Or.inr hk.symm
          · refine Or.inl ⟨by omega, ?_⟩
            rw [show i - k = (i - (k + 1)) + 1 by omega, List.getElem?_cons_succ] at h2
            exact h2
      · simp only [Ne.symm hn, hn, if_false, List.mem_cons, false_or]
        refine or_congr ?_ Iff.rfl
        constructor
        · rintro ⟨h1, h2⟩
          refine ⟨by omega, ?_⟩
          rw [show i - k = (i - (k + 1)) + 1 by omega, List.getElem?_cons_succ]
          exact h2
        · rintro ⟨h1, h2⟩
          by_cases hk : i = k
          · subst hk
            rw [Nat.sub_self, List.getElem?_cons_zero, Option.some.injEq] at h2
            exact absurd h2.symm hn
          · rw [show i - k = (i - (k + 1)) + 1 by omega, List.getElem?_cons_succ] at h2
            exact ⟨by omega, h2⟩
  have := key ns 0 [] hnd n i
  simpa [nodeMap, Dict.get?] using this

/-- **C119, negative.** `interface` returns a matrix only if there is nothing to put into it: for an entry of the matrix between the
two sets it raises `NameError`.  Otherwise it returns the zero matrix with the right shape and the numbering of the two sets. -/
theorem C119_interface_false {K : Type} {ns1 ns2 : List Nat} (h1 : ns1.Nodup) (h2 : ns2.Nodup) {P : Dok K} :
    ((∃ u v x, ((u, v), x) ∈ P.items ∧ u ∈ ns1 ∧ v ∈ ns2) → interface ns1 ns2 P = .error .nameError) ∧
    ((¬ ∃ u v x, ((u, v), x) ∈ P.items ∧ u ∈ ns1 ∧ v ∈ ns2) → ∃ Q m1 m2, interface ns1 ns2 P = .ok (Q, m1, m2) ∧
      Q.items = [] ∧ Q.rows = ns1.length ∧ Q.cols = ns2.length ∧
      (∀ n i, Dict.get? m1 n = some i ↔ ns1[i]? = some n) ∧ ∀ n i, Dict.get? m2 n = some i ↔ ns2[i]? = some n) := by
  constructor
  · rintro ⟨u, v, x, h1, h2, h3⟩
    exact if_pos (List.any_eq_true.2 ⟨_, h1, by simp [h2, h3]⟩)
  · intro h
    refine ⟨_, _, _, if_neg fun h3 => ?_, rfl, rfl, rfl, fun n i => nodeMap_get h1, fun n i => nodeMap_get h2⟩
    obtain ⟨⟨⟨u, v⟩, x⟩, h4, h5⟩ := List.any_eq_true.1 h3
    simp only [Bool.and_eq_true, decide_eq_true_iff] at h5
    exact h ⟨u, v, x, h4, h5⟩

/-- `interface` fails for the states {1, 2} and {3} of the chain `forkSys` -/
example : interface [1, 2] [3] forkSys.P = .error .nameError :=
  (C119_interface_false (by decide) (by decide)).1 ⟨1, 3, 1, by decide +kernel, by decide, by decide⟩

/-- **C119.** `quotient(underlying_graph(P), partition)` has one vertex per part and exactly one edge from a part to another one into
which some transition leads; the labelling gives the part of each state; and exactly the states entered from another part are marked. -/
theorem C119_quotient {K : Type} {P : Dok K} {parts : List (List Nat)} (hP : ∀ e ∈ P.items, e.1.1 < P.cols ∧ e.1.2 < P.cols)
    (H : Parts P.cols parts) (h0 : parts ≠ []) :
    ∃ G D lab mark, underlyingGraph P = .ok G ∧ quotient G parts = .ok (D, lab, mark) ∧ D.n = parts.length ∧ D.edges.Nodup ∧
      (∀ p q, (p, q) ∈ D.edges ↔ Leads P parts p q) ∧
      (∀ v < P.cols, ∀ p, lab v = p ↔ ∃ l, parts[p]? = some l ∧ v ∈ l) ∧
      ∀ v < P.cols, mark v = true ↔ ∃ u x, ((u, v), x) ∈ P.items ∧ ¬ ∃ l ∈ parts, u ∈ l ∧ v ∈ l := by
  obtain ⟨G, hG, D, h1, h2, h3, h4⟩ := treeDecomp_graph hP H h0
  refine ⟨G, D, _, _, hG.1, h4, h2, h1.1, h3, fun v hv p => H.label hv, fun v hv => ?_⟩
  rw [List.any_eq_true, hG.2]
  have hpart : ∀ u < P.cols, label parts u = label parts v ↔ ∃ l ∈ parts, u ∈ l ∧ v ∈ l := by
    intro u hu
    rw [H.label hu]
    constructor
    · rintro ⟨l, h5, h6⟩
      obtain ⟨l', h7, h8⟩ := (H.label hv).1 rfl
      rw [h7] at h5
      cases h5
      exact ⟨_, List.mem_of_getElem? h7, h6, h8⟩
    · rintro ⟨l, h5, h6, h7⟩
      obtain ⟨p, h8⟩ := List.mem_iff_getElem?.1 h5
      rw [(H.label hv).2 ⟨l, h8, h7⟩]
      exact ⟨l, h8, h6⟩
  constructor
  · rintro ⟨e, he, h5⟩
    obtain ⟨⟨⟨u, w⟩, x⟩, h6, rfl⟩ := List.mem_map.1 he
    simp only [Bool.and_eq_true, beq_iff_eq, bne_iff_ne] at h5
    obtain ⟨rfl, h7⟩ := h5
    exact ⟨u, x, h6, fun h8 => h7 ((hpart u (hP _ h6).1).2 h8)⟩
  · rintro ⟨u, x, h5, h6⟩
    refine ⟨(u, v), List.mem_map.2 ⟨_, h5, rfl⟩, ?_⟩
    simp only [Bool.and_eq_true, beq_iff_eq, bne_iff_ne, true_and]
    exact fun h7 => h6 ((hpart u (hP _ h5).1).1 h7)

/-! ## the hypotheses can be met -/

/-- the component of a vertex -/
def component (G : GT) (u : Nat) : Set Nat :=
  {v | v < G.n ∧ ReflTransGen (fun a b => (a, b) ∈ G.edges) u v ∧ ReflTransGen (fun a b => (a, b) ∈ G.edges) v u}

theorem scc_exists : ∃ scc, SccOK scc := by
  classical
  refine ⟨fun G => (Finset.range G.n).sup fun u => (component G u).ncard, fun G hn => ⟨?_, fun u hu => ?_⟩⟩
  · obtain ⟨u, hu, h⟩ := Finset.exists_mem_eq_sup (Finset.range G.n) ⟨0, by simpa using hn⟩ fun u => (component G u).ncard
    exact ⟨u, by simpa using hu, h⟩
  · exact Finset.le_sup (f := fun u => (component G u).ncard) (by simpa using hu)

theorem fork_parts : Parts (forkSys.N - 2) [[0, 1, 2], [3]] := by
  have hN : forkSys.N - 2 = 4 := by decide +kernel
  rw [hN]
  have key : ∀ p (l : List Nat), ([[0, 1, 2], [3]] : List (List Nat))[p]? = some l → p = 0 ∧ l = [0, 1, 2] ∨ p = 1 ∧ l = [3] := by
    rintro (_ | _ | p) l h
    · left; simpa [eq_comm] using h
    · right; simpa [eq_comm] using h
    · simp at h
  refine ⟨by decide, fun v hv => ?_, fun p q l l' v h1 h2 h3 h4 => ?_⟩
  · have : v ≤ 2 ∨ v = 3 := by omega
    rcases this with h | rfl
    · exact ⟨0, [0, 1, 2], rfl, by simp; omega⟩
    · exact ⟨1, [3], rfl, by simp⟩
  · rcases key p l h1 with ⟨rfl, rfl⟩ | ⟨rfl, rfl⟩ <;> rcases key q l' h2 with ⟨rfl, rfl⟩ | ⟨rfl, rfl⟩ <;> simp at h3 h4 <;> omega

/-- the parts {0,1,2} and {3} of `forkSys` form a tree -/
example : ∃ rf scc, SccOK scc ∧ RF.make exRnd forkSys "init" "goal" "fail" false = .ok rf ∧
    treeDecompFromPartition scc rf.matrix [[0, 1, 2], [3]] = .ok () := by
  obtain ⟨rf, h⟩ := fork_ex
  obtain ⟨scc, hs⟩ := scc_exists
  refine ⟨rf, scc, hs, h.make, (C119_tree_partial hs h.wf h.make h.rows fork_parts (by decide) (by decide)).1.2 ⟨0, ?_⟩⟩
  have key : ∀ p (l : List Nat), ([[0, 1, 2], [3]] : List (List Nat))[p]? = some l → p = 0 ∧ l = [0, 1, 2] ∨ p = 1 ∧ l = [3] := by
    rintro (_ | _ | p) l h
    · left; simpa [eq_comm] using h
    · right; simpa [eq_comm] using h
    · simp at h
  have hno : ∀ v ∈ [0, 1, 2], ¬ 0 < forkSys.P.get 3 v := by decide +kernel
  have hE : ∀ p q, PartEdge forkSys [[0, 1, 2], [3]] p q ↔ p = 0 ∧ q = 1 := by
    intro p q
    constructor
    · rintro ⟨hne, u, v, l, l', h1, h2, h3, h4, h5⟩
      rcases key p l h1 with ⟨rfl, rfl⟩ | ⟨rfl, rfl⟩ <;> rcases key q l' h2 with ⟨rfl, rfl⟩ | ⟨rfl, rfl⟩
      · exact absurd rfl hne
      · exact ⟨rfl, rfl⟩
      · obtain rfl : u = 3 := by simpa using h3
        exact absurd h5 (hno v h4)
      · exact absurd rfl hne
    · rintro ⟨rfl, rfl⟩
      exact ⟨by decide, 1, 3, [0, 1, 2], [3], rfl, rfl, by simp, by simp, by decide +kernel⟩
  refine (treeFrom_iff (n := 2) fun p q h => ?_).2 ⟨⟨fun p hp => ?_, fun p p' q h1 h2 => ?_⟩, fun w hw => ?_⟩
  · have := (hE p q).1 h; simp; omega
  · have h1 : ∀ u w, TransGen (PartEdge forkSys [[0, 1, 2], [3]]) u w → u = 0 ∧ w = 1 := by
      intro u w h
      induction h with
      | single h => exact (hE _ _).1 h
      | tail _ h ih => have := (hE _ _).1 h; omega
    have := h1 p p hp; omega
  · have := (hE _ _).1 h1; have := (hE _ _).1 h2; omega
  · rcases (by omega : w = 0 ∨ w = 1) with rfl | rfl
    · exact .refl
    · exact .single ((hE _ _).2 ⟨rfl, rfl⟩)

/-- the single states of `forkSys` do not: 3 is entered from 1 and from 2 -/
example : ∃ rf scc, SccOK scc ∧ RF.make exRnd forkSys "init" "goal" "fail" false = .ok rf ∧
    treeDecompFromPartition scc rf.matrix [[0], [1], [2], [3]] = .error .assertion := by
  obtain ⟨rf, h⟩ := fork_ex
  obtain ⟨scc, hs⟩ := scc_exists
  have hget : ∀ p < 4, ([[0], [1], [2], [3]] : List (List Nat))[p]? = some [p] := by decide
  have aux : ∀ {p u : Nat} {l : List Nat}, ([[0], [1], [2], [3]] : List (List Nat))[p]? = some l → u ∈ l → u = p := by
    intro p u l h1 h2
    rw [hget p (List.getElem?_eq_some_iff.1 h1).1] at h1
    cases h1
    simpa using h2
  have hN : forkSys.N - 2 = 4 := by decide +kernel
  have H : Parts (forkSys.N - 2) [[0], [1], [2], [3]] := by
    rw [hN]
    exact ⟨by decide, fun v hv => ⟨v, [v], hget v hv, by simp⟩, fun p q l l' v h1 h2 h3 h4 => (aux h1 h3).symm.trans (aux h2 h4)⟩
  refine ⟨rf, scc, hs, h.make, (C119_tree_partial hs h.wf h.make h.rows H (by decide) (by decide)).2 ?_⟩
  rintro ⟨r, hr⟩
  have hF := ((treeFrom_iff (n := 4) fun p q h => ?_).1 hr).1
  · have := hF.2 1 2 3 ⟨by decide, 1, 3, [1], [3], rfl, rfl, by simp, by simp, by decide +kernel⟩
      ⟨by decide, 2, 3, [2], [3], rfl, rfl, by simp, by simp, by decide +kernel⟩
    omega
  · obtain ⟨-, u, v, l, l', h1, h2, -⟩ := h
    exact ⟨(List.getElem?_eq_some_iff.1 h1).1, (List.getElem?_eq_some_iff.1 h2).1⟩

/-- the hypotheses of `C119_single_false` -/
example : ∃ rf scc, SccOK scc ∧ RF.make exRnd forkSys "init" "goal" "fail" false = .ok rf ∧
    treeDecompFromPartition scc rf.matrix [[0, 1, 2, 3]] = .error .assertion := by
  obtain ⟨rf, h⟩ := fork_ex
  obtain ⟨scc, hs⟩ := scc_exists
  have hN : forkSys.N - 2 = 4 := by decide +kernel
  refine ⟨rf, scc, hs, h.make, (C119_single_false hs h.wf h.make h.rows ?_).1⟩
  rw [hN]
  refine ⟨by decide, fun v hv => ⟨0, _, rfl, by simp; omega⟩, fun p q l l' v h1 h2 _ _ => ?_⟩
  have h3 := (List.getElem?_eq_some_iff.1 h1).1
  have h4 := (List.getElem?_eq_some_iff.1 h2).1
  simp at h3 h4
  omega

/-- the graph of the parts {0} and {1} of a matrix with two states: an edge, and the state 1 is marked -/
example : ∃ G D lab mark, underlyingGraph (⟨2, 2, [((0, 0), 1/2), ((0, 1), 1/2)]⟩ : Dok ℚ) = .ok G ∧
    quotient G [[0], [1]] = .ok (D, lab, mark) ∧ D.n = 2 ∧ mark 1 = true := by
  have hget : ∀ p < 2, ([[0], [1]] : List (List Nat))[p]? = some [p] := by decide
  have aux : ∀ {p u : Nat} {l : List Nat}, ([[0], [1]] : List (List Nat))[p]? = some l → u ∈ l → u = p := by
    intro p u l h1 h2
    rw [hget p (List.getElem?_eq_some_iff.1 h1).1] at h1
    cases h1
    simpa using h2
  obtain ⟨G, D, lab, mark, h1, h2, h3, -, -, -, h6⟩ := C119_quotient (P := (⟨2, 2, [((0, 0), 1/2), ((0, 1), 1/2)]⟩ : Dok ℚ))
    (parts := [[0], [1]]) (by decide) ⟨by decide, fun v hv => ⟨v, [v], hget v hv, by simp⟩,
      fun p q l l' v h1 h2 h3 h4 => (aux h1 h3).symm.trans (aux h2 h4)⟩ (by decide)
  exact ⟨G, D, lab, mark, h1, h2, h3, (h6 1 (by decide)).2 ⟨0, 1/2, by simp, by decide⟩⟩

end Verif.Props
