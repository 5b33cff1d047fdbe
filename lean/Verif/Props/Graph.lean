import Verif.Proofs.Graph
/-! # C04, C05: graph views of the transition matrix, reachability masks -/
namespace Verif.Props
open Verif.Model Verif.Spec Verif.Proofs

variable {K : Type}

/-- **C04.** Whenever the graph of a matrix (distinct keys) with a bidirectional state-action index is
constructed: `successors(s, a)` yields each stored entry of the rows of `s` (filtered by the action)
exactly once and nothing else, `predecessors` yields exactly the same transitions seen from the
destination, and all node numbers are in range. -/
theorem C04_neighbours {n : Nat} {inv : Nat → Option (Nat × Nat)} {items : List ((Nat × Nat) × K)}
    {g : Graph K} (hkeys : (items.map Prod.fst).Nodup)
    (hinv : ∀ i j sa, inv i = some sa → inv j = some sa → i = j)
    (h : Graph.build n inv items (Graph.empty n) = .ok g) :
    (∀ s d a p act, (d, a, p) ∈ g.successors s act ↔
      (∃ i, inv i = some (s, a) ∧ ((i, d), p) ∈ items) ∧ (act = none ∨ act = some a)) ∧
    (∀ s d a p act, (s, a, p) ∈ g.predecessors d act ↔
      (∃ i, inv i = some (s, a) ∧ ((i, d), p) ∈ items) ∧ (act = none ∨ act = some a)) ∧
    (∀ s act, (g.successors s act).Nodup ∧ (g.predecessors s act).Nodup) ∧
    (∀ s d a p, (d, a, p) ∈ g.successors s none → s < n ∧ d < n) := by
  obtain ⟨hn, hs, hp, hr⟩ := build_spec items _ _ h
  have hs : ∀ s, g.succ s = items.filterMap (outOf inv s) := by simpa [Graph.empty] using hs
  have hp : ∀ s, g.pred s = items.filterMap (inTo inv s) := by simpa [Graph.empty] using hp
  have hnd : items.Nodup := hkeys.of_map _
  have hmem : ∀ s d a p, (d, a, p) ∈ g.succ s ↔ ∃ i, inv i = some (s, a) ∧ ((i, d), p) ∈ items := by
    intro s d a p
    rw [hs, List.mem_filterMap]
    constructor
    · rintro ⟨⟨⟨i, d'⟩, p'⟩, hi, ho⟩
      simp only [outOf] at ho
      split at ho
      · rename_i s' a' e
        split at ho
        · rename_i es; subst es
          simp only [Option.some.injEq, Prod.mk.injEq] at ho
          obtain ⟨rfl, rfl, rfl⟩ := ho
          exact ⟨i, e, hi⟩
        · cases ho
      · cases ho
    · rintro ⟨i, e, hi⟩
      exact ⟨_, hi, by simp [outOf, e]⟩
  have hmem' : ∀ s d a p, (s, a, p) ∈ g.pred d ↔ ∃ i, inv i = some (s, a) ∧ ((i, d), p) ∈ items := by
    intro s d a p
    rw [hp, List.mem_filterMap]
    constructor
    · rintro ⟨⟨⟨i, d'⟩, p'⟩, hi, ho⟩
      simp only [inTo] at ho
      split at ho
      · rename_i s' a' e
        split at ho
        · rename_i es; subst es
          simp only [Option.some.injEq, Prod.mk.injEq] at ho
          obtain ⟨rfl, rfl, rfl⟩ := ho
          exact ⟨i, e, hi⟩
        · cases ho
      · cases ho
    · rintro ⟨i, e, hi⟩
      exact ⟨_, hi, by simp [inTo, e]⟩
  refine ⟨?_, ?_, ?_, ?_⟩
  · intro s d a p act
    simp only [Graph.successors, List.mem_filter, hmem, Bool.or_eq_true, Option.isNone_iff_eq_none,
      beq_iff_eq]
  · intro s d a p act
    simp only [Graph.predecessors, List.mem_filter, hmem', Bool.or_eq_true, Option.isNone_iff_eq_none,
      beq_iff_eq]
  · intro s act
    have hkey : ∀ x ∈ items, ∀ y ∈ items, x.1 = y.1 → x = y := fun x hx y hy e =>
      List.inj_on_of_nodup_map hkeys hx hy e
    constructor
    · refine List.Nodup.filter _ ?_
      rw [hs]
      refine List.Nodup.filterMap ?_ hnd
      rintro ⟨⟨i, d⟩, p⟩ ⟨⟨i', d'⟩, p'⟩ ⟨d2, a2, p2⟩ h1 h2
      simp only [outOf, Option.mem_def] at h1 h2
      split at h1
      · rename_i s1 a1 e1
        split at h1
        · split at h2
          · rename_i s3 a3 e3
            split at h2
            · subst_vars
              simp only [Option.some.injEq, Prod.mk.injEq] at h1 h2
              obtain ⟨rfl, rfl, rfl⟩ := h1
              obtain ⟨rfl, rfl, rfl⟩ := h2
              rw [hinv _ _ _ e1 e3]
            · cases h2
          · cases h2
        · cases h1
      · cases h1
    · refine List.Nodup.filter _ ?_
      rw [hp]
      refine List.Nodup.filterMap ?_ hnd
      rintro ⟨⟨i, d⟩, p⟩ ⟨⟨i', d'⟩, p'⟩ ⟨d2, a2, p2⟩ h1 h2
      simp only [inTo, Option.mem_def] at h1 h2
      split at h1
      · rename_i s1 a1 e1
        split at h1
        · split at h2
          · rename_i s3 a3 e3
            split at h2
            · subst_vars
              simp only [Option.some.injEq, Prod.mk.injEq] at h1 h2
              obtain ⟨rfl, rfl, rfl⟩ := h1
              obtain ⟨rfl, rfl, rfl⟩ := h2
              rw [hinv _ _ _ e1 e3]
            · cases h2
          · cases h2
        · cases h1
      · cases h1
  · intro s d a p hm
    simp only [Graph.successors, List.mem_filter, hmem] at hm
    obtain ⟨⟨i, e, hi⟩, _⟩ := hm
    obtain ⟨s', a', e', h1, h2⟩ := hr _ hi
    simp only [e, Option.some.injEq, Prod.mk.injEq] at e'
    obtain ⟨rfl, rfl⟩ := e'
    exact ⟨h1, h2⟩

/-- construction succeeds exactly on inputs whose entries have an indexed row and in-range states -/
theorem C04_build_iff {n : Nat} {inv : Nat → Option (Nat × Nat)} {items : List ((Nat × Nat) × K)} :
    (∃ g, Graph.build n inv items (Graph.empty n) = .ok g) ↔
    ∀ i d p, ((i, d), p) ∈ items → ∃ s a, inv i = some (s, a) ∧ s < n ∧ d < n :=
  ⟨fun ⟨g, h⟩ i d p hi => (build_spec items _ g h).2.2.2 _ hi,
   fun h => build_ok items _ fun ⟨⟨i, d⟩, p⟩ hi => h i d p hi⟩

/-- two states, state 0 with two actions -/
def exInv : Nat → Option (Nat × Nat) := fun i => [(0, 0), (0, 1), (1, 0)][i]?
def exItems : List ((Nat × Nat) × Nat) := [((0, 0), 5), ((0, 1), 5), ((2, 1), 10), ((1, 0), 10)]

example : (exItems.map Prod.fst).Nodup ∧ (∃ g, Graph.build 2 exInv exItems (Graph.empty 2) = .ok g ∧
    g.successors 0 none = [(0, 0, 5), (1, 0, 5), (0, 1, 10)] ∧
    g.predecessors 1 none = [(0, 0, 5), (1, 0, 10)] ∧ g.successors 0 (some 1) = [(0, 1, 10)]) ∧
    (∀ i j sa, exInv i = some sa → exInv j = some sa → i = j) := by
  refine ⟨by decide, ⟨_, rfl, by decide, by decide, by decide⟩, ?_⟩
  intro i j sa hi hj
  simp only [exInv] at hi hj
  rw [List.getElem?_eq_some_iff] at hi hj
  obtain ⟨h1, e1⟩ := hi
  obtain ⟨h2, e2⟩ := hj
  exact (List.Nodup.getElem_inj_iff (by decide)).1 (e1.trans e2.symm)

/-- **C05.** On every constructed graph, for every non-empty from-set and every blocklist: the search
terminates with a mask of length `n`, marking `x` iff there is a path from the from-set to `x` (along
the matrix entries, or against them) all of whose states before the last are not blocked.  Members of
the sets may come in any order. -/
theorem C05_reachable {n : Nat} {inv : Nat → Option (Nat × Nat)} {items : List ((Nat × Nat) × K)}
    {g : Graph K} (h : Graph.build n inv items (Graph.empty n) = .ok g)
    {F B : List Nat} (forward : Bool) (hF : F ≠ []) (hnd : F.Nodup) (hFn : ∀ x ∈ F, x < n) :
    ∃ mask, g.reachable F forward B = .ok (some mask) ∧ mask.length = n ∧
      ∀ x (hx : x < mask.length), mask[x] = true ↔
        ReachAvoid (fun u v =>
            if forward then ∃ i a p, inv i = some (u, a) ∧ ((i, v), p) ∈ items
            else ∃ i a p, inv i = some (v, a) ∧ ((i, u), p) ∈ items)
          {x | x ∈ F} {x | x ∈ B} x := by
  obtain ⟨hn, hs, hp, hr⟩ := build_spec items _ _ h
  have hn : g.n = n := hn
  have hs : ∀ s, g.succ s = items.filterMap (outOf inv s) := by simpa [Graph.empty] using hs
  have hp : ∀ s, g.pred s = items.filterMap (inTo inv s) := by simpa [Graph.empty] using hp
  have key : ∀ u v, (∃ t ∈ (if forward then g.succ u else g.pred u), t.1 = v) ↔
      (if forward then ∃ i a p, inv i = some (u, a) ∧ ((i, v), p) ∈ items
            else ∃ i a p, inv i = some (v, a) ∧ ((i, u), p) ∈ items) := by
    intro u v
    cases forward
    · simp only [Bool.false_eq_true, if_false, hp, List.mem_filterMap]
      constructor
      · rintro ⟨t, ⟨⟨⟨i, d⟩, p⟩, hi, ho⟩, rfl⟩
        simp only [inTo] at ho
        split at ho
        · rename_i s a e
          split at ho
          · rename_i ed; subst ed
            simp only [Option.some.injEq] at ho; subst ho
            exact ⟨i, a, p, e, hi⟩
          · cases ho
        · cases ho
      · rintro ⟨i, a, p, e, hi⟩
        exact ⟨(v, a, p), ⟨_, hi, by simp [inTo, e]⟩, rfl⟩
    · simp only [if_true, hs, List.mem_filterMap]
      constructor
      · rintro ⟨t, ⟨⟨⟨i, d⟩, p⟩, hi, ho⟩, rfl⟩
        simp only [outOf] at ho
        split at ho
        · rename_i s a e
          split at ho
          · rename_i ed; subst ed
            simp only [Option.some.injEq] at ho; subst ho
            exact ⟨i, a, p, e, hi⟩
          · cases ho
        · cases ho
      · rintro ⟨i, a, p, e, hi⟩
        exact ⟨(v, a, p), ⟨_, hi, by simp [outOf, e]⟩, rfl⟩
  obtain ⟨mask, h1, h2, h3⟩ := reachable_spec g (F := F) (B := B) (forward := forward) hF hnd
    (fun x hx => hn ▸ hFn x hx) (by
      intro x _ t ht
      have := (key x t.1).1 ⟨t, ht, rfl⟩
      rw [hn]
      cases forward
      · simp only [Bool.false_eq_true, if_false] at this
        obtain ⟨i, a, p, e, hi⟩ := this
        obtain ⟨s', a', e', h1, _⟩ := hr _ hi
        simp only [e, Option.some.injEq, Prod.mk.injEq] at e'
        obtain ⟨rfl, rfl⟩ := e'; exact h1
      · simp only [if_true] at this
        obtain ⟨i, a, p, e, hi⟩ := this
        obtain ⟨s', a', e', _, h1⟩ := hr _ hi
        exact h1)
  refine ⟨mask, h1, by rw [h2, hn], fun x hx => ?_⟩
  rw [h3 x hx]
  simp only [ReachAvoid, key]

/-- the empty from-set is rejected -/
theorem C05_empty (g : Graph K) (forward : Bool) (B : List Nat) :
    g.reachable [] forward B = .error .assertion := by
  simp [Graph.reachable]

/-- blocked states are marked but not passed: 0 → 1 → 2 with 1 blocked -/
example : ∃ g, Graph.build 3 (fun i => [(0, 0), (1, 0), (2, 0)][i]?)
      [((0, 1), 1), ((1, 2), 1), ((2, 2), 1)] (Graph.empty 3 : Graph Nat) = .ok g ∧
    g.reachable [0] true [1] = .ok (some [true, true, false]) ∧
    g.reachable [2] false [] = .ok (some [true, true, true]) := ⟨_, rfl, by decide, by decide⟩

end Verif.Props
