import Verif.Spec.Loss
import Verif.Proofs.ReduceRF
/-! # `reduce` adds the missing probability to `fail` -/
set_option linter.unusedSectionVars false

namespace Verif.Proofs
open Verif.Model Verif.Spec Verif.Props Reduce Finset Verif.Proofs.IDict Verif.Model.IDict

variable {K : Type} [Field K] [LinearOrder K] [IsStrictOrderedRing K]

theorem dict_get?_append {α β : Type} [DecidableEq α] (d e : Dict α β) (k : α) :
    Dict.get? (d ++ e) k = (Dict.get? d k).or (Dict.get? e k) := by
  induction d with
  | nil => simp [Dict.get?]
  | cons a d ih =>
    obtain ⟨k', v⟩ := a
    simp only [List.cons_append, Dict.get?]
    split
    · simp
    · exact ih

namespace Loss
variable {M : Sys K}

theorem mem_lossItems {i j : Nat} {p : K} : ((i, j), p) ∈ M.lossItems ↔
    j = M.N ∧ ((i < M.C ∧ p = M.missing i ∧ 0 < p) ∨ (i = M.C ∧ p = 1)) := by
  unfold Sys.lossItems
  simp only [List.mem_append, List.mem_map, List.mem_filter, List.mem_range, decide_eq_true_eq, Prod.mk.injEq,
    List.mem_singleton]
  constructor
  · rintro (⟨i', ⟨h1, h2⟩, ⟨rfl, rfl⟩, rfl⟩ | ⟨⟨rfl, rfl⟩, rfl⟩)
    · exact ⟨rfl, Or.inl ⟨h1, rfl, h2⟩⟩
    · exact ⟨rfl, Or.inr ⟨rfl, rfl⟩⟩
  · rintro ⟨rfl, ⟨h1, rfl, h2⟩ | ⟨rfl, rfl⟩⟩
    · exact Or.inl ⟨i, ⟨h1, h2⟩, ⟨rfl, rfl⟩, rfl⟩
    · exact Or.inr ⟨⟨rfl, rfl⟩, rfl⟩

theorem lossItems_nodup : (M.lossItems.map Prod.fst).Nodup := by
  unfold Sys.lossItems
  rw [List.map_append, List.map_map]
  refine List.nodup_append.2 ⟨?_, by simp, ?_⟩
  · refine List.Nodup.map_on ?_ (List.nodup_range.filter _)
    intro a _ b _ h
    simpa using h
  · intro a ha b hb
    obtain ⟨i, hi, rfl⟩ := List.mem_map.1 ha
    have := List.mem_range.1 (List.mem_filter.1 hi).1
    simp only [List.map_cons, List.map_nil, List.mem_singleton] at hb
    subst hb
    simp only [Function.comp, ne_eq, Prod.mk.injEq, not_and]
    omega

variable (h : M.Substochastic)
include h

theorem cover {i : Nat} (hi : i < M.C) : ∃ s a, invGet? M.idx i = some (s, a) ∧ s < M.N := by
  obtain ⟨j, -, hj⟩ := Finset.exists_ne_zero_of_sum_ne_zero (h.sum i hi).1.ne'
  obtain ⟨s, a, h1, h2, -⟩ := (build_spec _ _ _ h.stored.graph).2.2.2 _ (mem_of_get_ne hj)
  exact ⟨s, a, h1, h2⟩

theorem state_lt {s a i : Nat} (hm : ((s, a), i) ∈ M.idx) : s < M.N := by
  obtain ⟨s', a', h1, h2⟩ := cover h (h.index _ hm)
  rw [(invGet?_iff h.stored.vals).2 hm] at h1
  cases h1
  exact h2

theorem vals : ((M.idx ++ [((M.N, 0), M.C)]).map Prod.snd).Nodup := by
  rw [List.map_append]
  refine List.nodup_append.2 ⟨h.stored.vals, by simp, ?_⟩
  intro a ha b hb
  obtain ⟨e, he, rfl⟩ := List.mem_map.1 ha
  have := h.index e he
  simp only [List.map_cons, List.map_nil, List.mem_singleton] at hb
  omega

theorem keys : ((M.idx ++ [((M.N, 0), M.C)]).map Prod.fst).Nodup := by
  rw [List.map_append]
  refine List.nodup_append.2 ⟨h.stored.keys, by simp, ?_⟩
  rintro a ha b hb rfl
  obtain ⟨⟨⟨s, c⟩, i⟩, he, rfl⟩ := List.mem_map.1 ha
  have := state_lt h he
  simp only [List.map_cons, List.map_nil, List.mem_singleton, Prod.mk.injEq] at hb
  omega

theorem inv_lt {i : Nat} (hi : i < M.C) : invGet? (M.idx ++ [((M.N, 0), M.C)]) i = invGet? M.idx i := by
  obtain ⟨s, a, h1, -⟩ := cover h hi
  rw [h1]
  exact (invGet?_iff (vals h)).2 (List.mem_append_left _ (mem_of_invGet? h1))

theorem inv_C : invGet? (M.idx ++ [((M.N, 0), M.C)]) M.C = some (M.N, 0) :=
  (invGet?_iff (vals h)).2 (by simp)

omit h in
theorem idx_get (k : Nat × Nat) (hk : k.1 ≠ M.N) : Dict.get? (M.idx ++ [((M.N, 0), M.C)]) k = M.idx.get? k := by
  rw [dict_get?_append]
  have : Dict.get? [((M.N, 0), M.C)] k = none := by
    simp only [Dict.get?]
    rw [if_neg]
    rintro rfl
    exact hk rfl
  rw [this]; simp

omit h in
theorem get_lt {i j : Nat} (hj : j ≠ M.N) : M.withLoss.P.get i j = M.P.get i j := by
  unfold Dok.get Sys.withLoss
  simp only
  rw [dict_get?_append]
  have : Dict.get? M.lossItems (i, j) = none := by
    rw [Dict.get?_eq_none]
    intro hm
    obtain ⟨⟨⟨i', j'⟩, p⟩, hm, e⟩ := List.mem_map.1 hm
    cases e
    exact hj (mem_lossItems.1 hm).1
  rw [this]; simp

theorem not_mem {i : Nat} {p : K} : ((i, M.N), p) ∉ M.P.items := fun hm => by
  have := (h.stored.range _ _ _ hm).2; omega

theorem nodup : (M.withLoss.P.items.map Prod.fst).Nodup := by
  show ((M.P.items ++ M.lossItems).map Prod.fst).Nodup
  rw [List.map_append]
  refine List.nodup_append.2 ⟨h.stored.nodup, lossItems_nodup, ?_⟩
  rintro a ha b hb rfl
  obtain ⟨⟨⟨i, j⟩, p⟩, he, rfl⟩ := List.mem_map.1 ha
  obtain ⟨⟨⟨i', j'⟩, p'⟩, he', e⟩ := List.mem_map.1 hb
  cases e
  obtain rfl := (mem_lossItems.1 he').1
  exact not_mem h he

theorem missing_nonneg {i : Nat} (hi : i < M.C) : 0 ≤ M.missing i := by
  have := (h.sum i hi).2
  unfold Sys.missing; linarith

theorem get_N {i : Nat} (hi : i < M.C) : M.withLoss.P.get i M.N = M.missing i := by
  rcases (missing_nonneg h hi).lt_or_eq with hp | hp
  · exact get_of_mem (nodup h) (List.mem_append_right _ (mem_lossItems.2 ⟨rfl, Or.inl ⟨hi, rfl, hp⟩⟩))
  · rw [← hp]
    refine get_eq_zero fun p hm => ?_
    rcases List.mem_append.1 hm with hm | hm
    · exact not_mem h hm
    · rcases (mem_lossItems.1 hm).2 with ⟨-, rfl, h0⟩ | ⟨rfl, -⟩
      · rw [← hp] at h0; exact lt_irrefl _ h0
      · omega

theorem get_C (j : Nat) : M.withLoss.P.get M.C j = if j = M.N then 1 else 0 := by
  split
  · rename_i hj
    subst hj
    exact get_of_mem (nodup h) (List.mem_append_right _ (mem_lossItems.2 ⟨rfl, Or.inr ⟨rfl, rfl⟩⟩))
  · rename_i hj
    rw [get_lt hj]
    refine get_eq_zero fun p hm => ?_
    have := (h.stored.range _ _ _ hm).1; omega

theorem graph : Graph.build M.withLoss.N (invGet? M.withLoss.idx) M.withLoss.P.items (Graph.empty M.withLoss.N) =
    .ok M.withLoss.graph := by
  obtain ⟨g, hg⟩ := build_ok (n := M.N + 1) (inv := invGet? (M.idx ++ [((M.N, 0), M.C)])) (M.P.items ++ M.lossItems)
    (Graph.empty (M.N + 1)) (by
      rintro ⟨⟨i, j⟩, p⟩ hm
      rcases List.mem_append.1 hm with hm | hm
      · obtain ⟨s, a, h1, h2, h3⟩ := (build_spec _ _ _ h.stored.graph).2.2.2 _ hm
        refine ⟨s, a, ?_, by omega, Nat.lt_succ_of_lt h3⟩
        rw [inv_lt h (h.stored.range _ _ _ hm).1]; exact h1
      · obtain ⟨rfl, ⟨hi, -⟩ | ⟨rfl, -⟩⟩ := mem_lossItems.1 hm
        · obtain ⟨s, a, h1, h2⟩ := cover h hi
          exact ⟨s, a, by rw [inv_lt h hi]; exact h1, by omega, by simp⟩
        · exact ⟨M.N, 0, inv_C h, by omega, by simp⟩)
  have e : M.withLoss.graph = g := by
    unfold Sys.withLoss
    simp only [hg]
  rw [e]
  exact hg

theorem wf : M.withLoss.WF where
  nodup := nodup h
  range i j p hm := by
    show i < M.C + 1 ∧ j < M.N + 1
    rcases List.mem_append.1 hm with hm | hm
    · have := h.stored.range _ _ _ hm; omega
    · obtain ⟨rfl, ⟨hi, -⟩ | ⟨rfl, -⟩⟩ := mem_lossItems.1 hm <;> omega
  pos i j p hm := by
    rcases List.mem_append.1 hm with hm | hm
    · exact h.stored.pos _ _ _ hm
    · obtain ⟨rfl, ⟨hi, -, hp⟩ | ⟨rfl, rfl⟩⟩ := mem_lossItems.1 hm
      · exact hp
      · exact one_pos
  sum i hi := by
    have hi : i < M.C + 1 := hi
    show ∑ j ∈ range (M.N + 1), M.withLoss.P.get i j = 1
    rw [Finset.sum_range_succ, Finset.sum_congr rfl fun j hj => get_lt (i := i) (Finset.mem_range.1 hj).ne]
    by_cases hi' : i < M.C
    · rw [get_N h hi']; unfold Sys.missing; ring
    · obtain rfl : i = M.C := by omega
      rw [get_C h, if_pos rfl, Finset.sum_eq_zero, zero_add]
      intro j hj
      refine get_eq_zero fun p hm => ?_
      have := (h.stored.range _ _ _ hm).1; omega
  keys := keys h
  vals := vals h
  graph := graph h

omit h in
theorem N_eq : M.withLoss.N = M.N + 1 := rfl
omit h in
theorem C_eq : M.withLoss.C = M.C + 1 := rfl

/-- the transitions between the old states -/
theorem tr_lt {u v a i : Nat} {p : K} (hv : v ≠ M.N) :
    invGet? M.withLoss.idx i = some (u, a) ∧ ((i, v), p) ∈ M.withLoss.P.items ↔
    invGet? M.idx i = some (u, a) ∧ ((i, v), p) ∈ M.P.items := by
  have e : ((i, v), p) ∈ M.withLoss.P.items ↔ ((i, v), p) ∈ M.P.items := by
    constructor
    · intro hm
      rcases List.mem_append.1 hm with hm | hm
      · exact hm
      · exact absurd (mem_lossItems.1 hm).1 hv
    · exact fun hm => List.mem_append_left _ hm
  rw [e]
  constructor
  · rintro ⟨h1, h2⟩
    exact ⟨by rw [← inv_lt h (h.stored.range _ _ _ h2).1]; exact h1, h2⟩
  · rintro ⟨h1, h2⟩
    exact ⟨(inv_lt h (h.stored.range _ _ _ h2).1).trans h1, h2⟩

theorem tr_states {u v a i : Nat} {p : K} (h1 : invGet? M.idx i = some (u, a)) (h2 : ((i, v), p) ∈ M.P.items) :
    u < M.N ∧ v < M.N := ⟨state_lt h (mem_of_invGet? h1), (h.stored.range _ _ _ h2).2⟩

/-- the masks agree on the old states; the new state is not backward reachable -/
theorem mask {F B : List Nat} {fwd : Bool} (hF : F ≠ []) (hnd : F.Nodup) (hFn : ∀ x ∈ F, x < M.N) :
    ∃ m b, M.reachableMask F fwd B = .ok m ∧ M.withLoss.reachableMask F fwd B = .ok (m ++ [b]) ∧ m.length = M.N ∧
      (fwd = false → b = false) := by
  have hFn' : ∀ x ∈ F, x < M.withLoss.N := fun x hx => Nat.lt_succ_of_lt (hFn x hx)
  obtain ⟨m, e, l, hm⟩ := C05_reachable h.stored.graph (B := B) fwd hF hnd hFn
  obtain ⟨m', e', l', hm'⟩ := C05_reachable (graph h) (B := B) fwd hF hnd hFn'
  have l1 : m'.length = M.N + 1 := l'
  set R : Nat → Nat → Prop := fun u v => if fwd = true then ∃ i a p, invGet? M.idx i = some (u, a) ∧ ((i, v), p) ∈ M.P.items
            else ∃ i a p, invGet? M.idx i = some (v, a) ∧ ((i, u), p) ∈ M.P.items with hR
  set R' : Nat → Nat → Prop := fun u v => if fwd = true then
      ∃ i a p, invGet? M.withLoss.idx i = some (u, a) ∧ ((i, v), p) ∈ M.withLoss.P.items
            else ∃ i a p, invGet? M.withLoss.idx i = some (v, a) ∧ ((i, u), p) ∈ M.withLoss.P.items with hR'
  have hle : ∀ {u v}, R u v → R' u v := by
    intro u v huv
    cases fwd with
    | true =>
      simp only [hR, hR', if_true] at huv ⊢
      obtain ⟨i, a, p, h1, h2⟩ := huv
      exact ⟨i, a, p, (tr_lt h (tr_states h h1 h2).2.ne).2 ⟨h1, h2⟩⟩
    | false =>
      simp only [hR, hR', Bool.false_eq_true, if_false] at huv ⊢
      obtain ⟨i, a, p, h1, h2⟩ := huv
      exact ⟨i, a, p, (tr_lt h (tr_states h h1 h2).2.ne).2 ⟨h1, h2⟩⟩
  have key : ∀ {x}, x < M.N → (ReachAvoid R {x | x ∈ F} {x | x ∈ B} x ↔ ReachAvoid R' {x | x ∈ F} {x | x ∈ B} x) := by
    intro x hx
    constructor
    · rintro ⟨f, hf, hp⟩
      exact ⟨f, hf, Relation.ReflTransGen.mono (fun u v huv => ⟨huv.1, hle huv.2⟩) _ _ hp⟩
    · rintro ⟨f, hf, hp⟩
      refine ⟨f, hf, ?_⟩
      cases fwd with
      | true =>
        induction hp with
        | refl => exact .refl
        | tail _ hs ih =>
          obtain ⟨hb, hs⟩ := hs
          simp only [hR', if_true] at hs
          obtain ⟨i, a, p, hs⟩ := hs
          have hs := (tr_lt h hx.ne).1 hs
          refine (ih (tr_states h hs.1 hs.2).1).tail ⟨hb, ?_⟩
          simp only [hR, if_true]
          exact ⟨i, a, p, hs⟩
      | false =>
        replace hf : f < M.N := hFn f hf
        clear hx
        induction hp using Relation.ReflTransGen.head_induction_on with
        | refl => exact .refl
        | head hs _ ih =>
          obtain ⟨hb, hs⟩ := hs
          simp only [hR', Bool.false_eq_true, if_false] at hs
          obtain ⟨i, a, p, hs⟩ := hs
          have hs := (tr_lt h hf.ne).1 hs
          refine Relation.ReflTransGen.head ⟨hb, ?_⟩ (ih (tr_states h hs.1 hs.2).1)
          simp only [hR, Bool.false_eq_true, if_false]
          exact ⟨i, a, p, hs⟩
  have hN : M.N < m'.length := by omega
  refine ⟨m, m'[M.N], ?_, ?_, l, ?_⟩
  · simp only [Sys.reachableMask]; rw [if_pos hFn, e]
  · simp only [Sys.reachableMask]; rw [if_pos hFn', e']
    simp only [Except.ok.injEq]
    refine List.ext_getElem (by simp; omega) fun x h1 h2 => ?_
    by_cases hx : x < m.length
    · rw [List.getElem_append_left hx, Bool.eq_iff_iff, hm x hx, hm' x h1]
      exact (key (by omega)).symm
    · rw [List.getElem_append_right (by omega)]
      have : x = M.N := by omega
      subst this
      simp
  · intro hfwd
    rw [← Bool.not_eq_true, hm' _ hN]
    subst hfwd
    rintro ⟨f, hf, hp⟩
    have hf : f < M.N := hFn f hf
    have : ∀ y, Relation.ReflTransGen (fun u v => u ∉ {x | x ∈ B} ∧ R' u v) f y → y < M.N := by
      intro y hy
      induction hy with
      | refl => exact hf
      | tail _ hs ih =>
        obtain ⟨-, hs⟩ := hs
        simp only [hR', Bool.false_eq_true, if_false] at hs
        obtain ⟨i, a, p, hs⟩ := hs
        have hs := (tr_lt h ih.ne).1 hs
        exact (tr_states h hs.1 hs.2).1
    exact absurd (this _ hp) (lt_irrefl _)

theorem mapStep_eq {m : List Bool} (hm : m.length = M.N) {i : Nat} (hi : i < M.C) (st : MapState) :
    mapStep M.withLoss (m ++ [false]) st i = mapStep M m st i := by
  obtain ⟨s, a, h1, h2⟩ := cover h hi
  unfold mapStep
  have e : invGet? M.withLoss.idx i = some (s, a) := (inv_lt h hi).trans h1
  rw [h1, e]
  simp only
  rw [List.getElem?_append_left (by omega)]

theorem maps_eq {m : List Bool} (hm : m.length = M.N) : maps M.withLoss (m ++ [false]) = maps M m := by
  have hl : ∀ st, mapStep M.withLoss (m ++ [false]) st M.C = .ok st := by
    intro st
    unfold mapStep
    have e : invGet? M.withLoss.idx M.C = some (M.N, 0) := inv_C h
    rw [e]
    simp only
    rw [List.getElem?_append_right (by omega), hm]
    simp
  have key : ∀ (l : List Nat) (st : MapState), (∀ i ∈ l, i < M.C) →
      l.foldlM (mapStep M.withLoss (m ++ [false])) st = l.foldlM (mapStep M m) st := by
    intro l
    induction l with
    | nil => intros; rfl
    | cons i l ih =>
      intro st hl
      simp only [List.foldlM_cons, mapStep_eq h hm (hl i (by simp))]
      congr 1
      funext st'
      exact ih st' fun j hj => hl j (by simp [hj])
  unfold maps
  have hC : List.range M.withLoss.C = List.range M.C ++ [M.C] := by rw [C_eq, List.range_succ]
  rw [hC, List.foldlM_append, key _ _ fun i hi => List.mem_range.1 hi]
  cases (List.range M.C).foldlM (mapStep M m) ⟨[], 0, [], []⟩ with
  | error e => rfl
  | ok st => simp only [bind, Except.bind, List.foldlM_cons, List.foldlM_nil, hl]; rfl

theorem successors_eq (s : Nat) : ∃ l : List (Nat × Nat × K),
    M.withLoss.graph.successors s = M.graph.successors s ++ l ∧ ∀ t ∈ l, t.1 = M.N := by
  have e : ∀ {L : Sys K}, Graph.build L.N (invGet? L.idx) L.P.items (Graph.empty L.N) = .ok L.graph →
      L.graph.successors s = L.P.items.filterMap (outOf (invGet? L.idx) s) := by
    intro L hL
    have := (build_spec _ _ _ hL).2.1 s
    unfold Graph.successors
    rw [this]
    simp [Graph.empty]
  rw [e (graph h), e h.stored.graph]
  refine ⟨M.lossItems.filterMap (outOf (invGet? M.withLoss.idx) s), ?_, ?_⟩
  · show (M.P.items ++ M.lossItems).filterMap _ = _
    rw [List.filterMap_append]
    congr 1
    refine List.filterMap_congr fun it hit => ?_
    unfold outOf
    rw [show invGet? M.withLoss.idx it.1.1 = invGet? M.idx it.1.1 from inv_lt h (h.stored.range it.1.1 it.1.2 it.2 hit).1]
  · intro t ht
    obtain ⟨⟨⟨i, j⟩, p⟩, hm, he⟩ := List.mem_filterMap.1 ht
    obtain rfl := (mem_lossItems.1 hm).1
    unfold outOf at he
    split at he
    · split at he
      · cases he; rfl
      · cases he
    · cases he

omit h [IsStrictOrderedRing K] in
theorem foldl_skip {β : Type} {f : β → Nat → β} {n : Nat} (hf : ∀ b, f b n = b) : ∀ (l : List Nat) (b : β),
    (∀ x ∈ l, x = n) → l.foldl f b = b
  | [], _, _ => rfl
  | x :: l, b, hl => by
    rw [List.foldl_cons, hl x (by simp), hf]
    exact foldl_skip hf l b fun y hy => hl y (by simp [hy])

theorem newRow_eq (T : List Nat) {cols : Dict Nat Nat} (hc : M.N ∉ cols.map Prod.fst) {e : ((Nat × Nat) × (Nat × Nat)) × Nat}
    (he : e.1.1.1 ≠ M.N) (m : Dok K) : newRow M.withLoss T cols m e = newRow M T cols m e := by
  unfold newRow
  split
  · rfl
  rw [show M.withLoss.idx.get? e.1.1 = M.idx.get? e.1.1 from idx_get _ he]
  split
  · rfl
  rename_i idx _
  congr 1
  obtain ⟨l, h1, h2⟩ := successors_eq h e.1.1.1
  have hN : cols.get? M.N = none := Dict.get?_eq_none.2 hc
  rw [h1, List.filter_append, List.map_append, List.foldl_append, foldl_skip (n := M.N) (fun b => by simp only [hN])]
  · congr 1
    funext m d
    cases hd : cols.get? d with
    | none => rfl
    | some nd =>
      simp only
      rw [get_lt]
      rintro rfl
      rw [hN] at hd; cases hd
  · intro x hx
    obtain ⟨t, ht, rfl⟩ := List.mem_map.1 hx
    exact h2 t (List.mem_filter.1 ht).1

theorem newP_eq (T : List Nat) {cols : Dict Nat Nat} {rows : Dict (Nat × Nat) (Nat × Nat)} (hc : M.N ∉ cols.map Prod.fst)
    (hr : ∀ e ∈ rows, e.1.1 ≠ M.N) : newP M.withLoss T cols rows = newP M T cols rows := by
  unfold newP
  have key : ∀ (l : List (((Nat × Nat) × (Nat × Nat)) × Nat)) (m : Dok K), (∀ e ∈ l, e.1.1.1 ≠ M.N) →
      l.foldlM (newRow M.withLoss T cols) m = l.foldlM (newRow M T cols) m := by
    intro l
    induction l with
    | nil => intros; rfl
    | cons e l ih =>
      intro m hl
      simp only [List.foldlM_cons, newRow_eq h T hc (hl e (by simp))]
      congr 1
      funext m'
      exact ih m' fun x hx => hl x (by simp [hx])
  refine key _ _ fun e he => hr e.1 ?_
  obtain ⟨x, i⟩ := e
  exact List.mem_of_getElem? (mem_zipIdx.1 he)

theorem labelStep_eq (index : Dict (Nat × Nat) Nat) {rows : Dict (Nat × Nat) (Nat × Nat)} (hr : ∀ e ∈ rows, e.1.1 ≠ M.N)
    (st : Dict String (List Nat) × Dict String (List (Nat × Nat)) × Option (List K)) (idx : Nat) :
    labelStep M.withLoss index rows st idx = labelStep M index rows st idx := by
  unfold labelStep
  split
  · rfl
  split
  · rfl
  rename_i ss sa hss
  have hne : ss ≠ M.N := hr _ (mem_of_invGet? hss)
  rw [show M.withLoss.labelsByState ss = M.labelsByState ss from rfl,
    show M.withLoss.labelsByAction (ss, sa) = M.labelsByAction (ss, sa) from rfl]
  congr 1
  funext ls
  congr 1
  funext las
  simp only
  rw [show M.withLoss.rew = M.rew.map (· ++ [0]) from rfl,
    show M.withLoss.idx.get? (ss, sa) = M.idx.get? (ss, sa) from idx_get _ hne]
  cases hrew : M.rew with
  | none => rfl
  | some r =>
    cases st.2.2 with
    | none => rfl
    | some nr =>
      simp only [Option.map_some]
      cases hi : M.idx.get? (ss, sa) with
      | none => rfl
      | some si =>
        simp only
        have hlt : si < r.length := by
          rw [h.rew r hrew]
          exact h.index _ (Dict.mem_of_get? hi)
        rw [List.getElem?_append_left hlt]

theorem initializeSystem_eq (P : Dok K) (index : Dict (Nat × Nat) Nat) (tt : List K) {rows : Dict (Nat × Nat) (Nat × Nat)}
    (hr : ∀ e ∈ rows, e.1.1 ≠ M.N) (tl fl : String) :
    initializeSystem P index tt rows M.withLoss tl fl = initializeSystem P index tt rows M tl fl := by
  have e : labelStep M.withLoss index rows = labelStep M index rows := by
    funext st idx; exact labelStep_eq h index hr st idx
  unfold initializeSystem
  rw [e]
  have er : (M.withLoss.rew.map fun _ => List.replicate (P.rows + 2) (0 : K)) = M.rew.map fun _ => List.replicate (P.rows + 2) 0 := by
    show ((M.rew.map (· ++ [0])).map fun _ => List.replicate (P.rows + 2) (0 : K)) = _
    rw [Option.map_map]; rfl
  rw [er]
  rfl

/-- `reduce` does not see the difference -/
theorem reduce_eq (hS : Inv M.labS) {ρ : Graph.Rnd} {il tl ntl nfl : String} {res : Result K}
    (hr : M.reduce ρ il tl ntl nfl = .ok res) : M.withLoss.reduce ρ il tl ntl nfl = .ok res := by
  unfold Sys.reduce at hr ⊢
  simp only [bind, Except.bind] at hr ⊢
  rw [show M.withLoss.labS = M.labS from rfl, show M.withLoss.statesByLabel = M.statesByLabel from rfl]
  split at hr
  · cases hr
  rename_i h0
  rw [if_neg h0]
  split at hr
  · cases hr
  rename_i T hT
  split at hr
  · cases hr
  rename_i hTne
  rw [if_neg hTne]
  split at hr
  · cases hr
  rename_i is his
  match is, his, hr with
  | [], _, hr => cases hr
  | _ :: _ :: _, _, hr => cases hr
  | [i], his, hr => ?_
  simp only at hr ⊢
  have hTne' : T ≠ [] := by
    rintro rfl
    simp at hTne
  split at hr
  · cases hr
  rename_i bwd hb
  split at hr
  · cases hr
  rename_i fwd hf
  have hTN : ∀ t ∈ T, t < M.N := by
    unfold Sys.reachableMask at hb
    split at hb
    · assumption
    · cases hb
  have hiN : i < M.N := by
    unfold Sys.reachableMask at hf
    split at hf
    · rename_i hh; exact hh i (by simp)
    · cases hf
  obtain ⟨m1, b1, e1, e1', l1, hb1⟩ := mask h (B := []) (fwd := false) hTne' (statesByLabel_nodup hS hT) hTN
  obtain ⟨m2, b2, e2, e2', l2, -⟩ := mask h (F := [i]) (B := T) (fwd := true) (by simp) (by simp) (by simpa using hiN)
  rw [hb] at e1; cases e1
  rw [hf] at e2; cases e2
  obtain rfl := hb1 rfl
  rw [e1', e2']
  simp only
  set mk := (List.range M.N).map fun s => bwd.getD s false && fwd.getD s false with hmk
  have em : ((List.range M.withLoss.N).map fun s => (bwd ++ [false]).getD s false && (fwd ++ [b2]).getD s false) =
      mk ++ [false] := by
    rw [N_eq, List.range_succ, List.map_append, hmk]
    congr 1
    · refine List.map_congr_left fun s hs => ?_
      have := List.mem_range.1 hs
      rw [List.getD_append _ _ _ _ (by omega), List.getD_append _ _ _ _ (by omega)]
    · simp only [List.map_cons, List.map_nil]
      rw [List.getD_append_right _ _ _ _ (by omega), l1]
      simp
  have lm : mk.length = M.N := by simp [hmk]
  rw [em, maps_eq h lm]
  split at hr
  · cases hr
  rename_i cr hm
  obtain ⟨cols, rows⟩ := cr
  simp only at hr ⊢
  obtain ⟨cols', rows', hm', hmaps⟩ := maps_ok (wf h) (mask := mk ++ [false]) (by rw [N_eq]; simp [lm])
  rw [maps_eq h lm, hm] at hm'
  cases hm'
  have hfN : (mk ++ [false]).getD M.N false = false := by
    rw [List.getD_append_right _ _ _ _ (by omega), lm]; simp
  have hc : M.N ∉ cols.map Prod.fst := by
    intro hc
    have := ((hmaps.memS _).1 hc).1
    rw [hfN] at this; cases this
  have hrw : ∀ e ∈ rows, e.1.1 ≠ M.N := by
    intro e he hn
    have := ((hmaps.memR _).1 (List.mem_map_of_mem (f := Prod.fst) he)).1
    rw [hn, hfN] at this; cases this
  rw [newP_eq h T hc hrw]
  split at hr
  · cases hr
  split at hr
  · cases hr
  rw [initializeSystem_eq h _ _ _ hrw]
  exact hr

end Loss
end Verif.Proofs
