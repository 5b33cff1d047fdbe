import Verif.Proofs.ReduceMaps
/-! # The matrix built by `reduce` -/
set_option linter.unusedSectionVars false

namespace Verif.Proofs
open Verif.Model Verif.Spec Verif.Props Reduce Finset

variable {K : Type} [Field K] [LinearOrder K] [IsStrictOrderedRing K]

/-- a sequence of assignments -/
def setAll (m : Dok K) (ts : List ((Nat × Nat) × K)) : Dok K := ts.foldl (fun m t => m.set t.1.1 t.1.2 t.2) m

theorem setAll_append (m : Dok K) (a b : List ((Nat × Nat) × K)) : setAll m (a ++ b) = setAll (setAll m a) b := by
  simp [setAll]

theorem set_new {α β : Type} [DecidableEq α] {k : α} (v : β) : ∀ {d : Dict α β}, k ∉ Dict.keys d → d.set k v = d ++ [(k, v)]
  | [], _ => rfl
  | (k', v') :: d, h => by
    simp only [Dict.keys, List.map_cons, List.mem_cons, not_or] at h
    simp only [Dict.set]
    rw [if_neg (Ne.symm h.1), set_new v h.2]; rfl

/-- assignments only add keys they name -/
theorem mem_setAll_keys {k : Nat × Nat} : ∀ (ts : List ((Nat × Nat) × K)) (m : Dok K),
    k ∈ (setAll m ts).items.map Prod.fst → k ∈ m.items.map Prod.fst ∨ k ∈ ts.map Prod.fst := by
  intro ts
  induction ts with
  | nil => intro m h; exact Or.inl h
  | cons t ts ih =>
    intro m h
    rcases ih (m.set t.1.1 t.1.2 t.2) h with h | h
    · unfold Dok.set at h
      split at h
      · exact Or.inl (((del_sublist _ _).map Prod.fst).mem h)
      · have h' : k ∈ Dict.keys (m.items.set (t.1.1, t.1.2) t.2) := h
        rw [← Dict.get?_isSome, Dict.get?_set] at h'
        split at h'
        · rename_i he; right; simp [← he]
        · left; exact Dict.get?_isSome.1 h'
    · right; simp [List.mem_cons] at h ⊢; right; exact h

/-- the first entry stays the first one if it is not assigned again -/
theorem setAll_head {q : (Nat × Nat) × K} : ∀ (ts : List ((Nat × Nat) × K)) (m : Dok K) (l : List ((Nat × Nat) × K)),
    m.items = q :: l → (∀ t ∈ ts, t.1 ≠ q.1) → ∃ l', (setAll m ts).items = q :: l' := by
  intro ts
  induction ts with
  | nil => intro m l h _; exact ⟨l, h⟩
  | cons t ts ih =>
    intro m l h hne
    have hq : q.1 ≠ (t.1.1, t.1.2) := fun he => hne t (by simp) he.symm
    obtain ⟨q1, q2⟩ := q
    have : ∃ l', (m.set t.1.1 t.1.2 t.2).items = (q1, q2) :: l' := by
      unfold Dok.set
      split
      · simp only [h, Dict.del, if_neg hq]; exact ⟨_, rfl⟩
      · simp only [h, Dict.set, if_neg hq]; exact ⟨_, rfl⟩
    obtain ⟨l', hl'⟩ := this
    exact ih _ l' hl' fun t' ht' => hne t' (by simp [ht'])

theorem setAll_spec : ∀ (ts : List ((Nat × Nat) × K)) (m : Dok K), (m.items.map Prod.fst).Nodup →
    (∀ t ∈ ts, t.2 ≠ 0) →
    (∀ t ∈ ts, ∀ t' ∈ m.items ++ ts, t.1 = t'.1 → t = t') →
    (setAll m ts).rows = m.rows ∧ (setAll m ts).cols = m.cols ∧ ((setAll m ts).items.map Prod.fst).Nodup ∧
      ∀ t, t ∈ (setAll m ts).items ↔ t ∈ m.items ∨ t ∈ ts := by
  intro ts
  induction ts with
  | nil => intro m h _ _; exact ⟨rfl, rfl, h, by simp [setAll]⟩
  | cons t ts ih =>
    intro m hn hz hf
    have e : m.set t.1.1 t.1.2 t.2 = { m with items := m.items.set t.1 t.2 } := by
      unfold Dok.set
      rw [if_neg (hz t (by simp))]
    have hmem : ∀ t', t' ∈ m.items.set t.1 t.2 ↔ t' ∈ m.items ∨ t' = t := by
      intro t'
      by_cases hin : t.1 ∈ Dict.keys m.items
      · obtain ⟨e', he', hee⟩ := List.mem_map.1 hin
        have := hf t (by simp) e' (by simp [he']) hee.symm
        subst this
        have hset : m.items.set t.1 t.2 = m.items := by
          have : ∀ l : Dict (Nat × Nat) K, (l.map Prod.fst).Nodup → t ∈ l → l.set t.1 t.2 = l := by
            intro l
            induction l with
            | nil => intro _ h; simp at h
            | cons p l ihl =>
              obtain ⟨a, b⟩ := p
              intro hnd h
              simp only [List.map_cons, List.nodup_cons] at hnd
              simp only [Dict.set]
              split
              · rename_i hat
                rcases List.mem_cons.1 h with h | h
                · rw [h]
                · exact absurd (hat ▸ List.mem_map_of_mem (f := Prod.fst) h) hnd.1
              · rename_i hat
                rcases List.mem_cons.1 h with h | h
                · exact absurd (by rw [h]) hat
                · rw [ihl hnd.2 h]
          exact this _ hn he'
        rw [hset]
        constructor
        · exact Or.inl
        · rintro (h | rfl)
          · exact h
          · exact he'
      · rw [Dict.set_of_not_mem hin]
        simp
    have hn' : ((m.items.set t.1 t.2).map Prod.fst).Nodup := Dict.nodup_set hn _ _
    obtain ⟨i1, i2, i3, i4⟩ := ih { m with items := m.items.set t.1 t.2 } hn' (fun t' h' => hz t' (by simp [h'])) (by
      intro t1 h1 t2 h2
      refine hf t1 (by simp [h1]) t2 ?_
      rcases List.mem_append.1 h2 with h2 | h2
      · rcases (hmem t2).1 h2 with h2 | rfl
        · simp [h2]
        · simp
      · simp [h2])
    have e2 : setAll m (t :: ts) = setAll { m with items := m.items.set t.1 t.2 } ts := by
      simp only [setAll, List.foldl_cons, e]
    rw [e2]
    refine ⟨i1, i2, i3, fun t' => ?_⟩
    rw [i4, hmem, List.mem_cons, or_assoc]

/-! ### the new index -/

theorem zipIdx_snd_nodup {α : Type} (l : List α) : (l.zipIdx.map Prod.snd).Nodup := by
  rw [List.zipIdx_map_snd]
  exact List.nodup_range'

theorem newIndex_ok {M : Sys K} {mask : List Bool} {cols rows} (h : Maps M mask cols rows) :
    newIndex rows = .ok (rows.zipIdx.map fun e => (e.1.2, e.2)) := by
  have hk : (Dict.keys (rows.zipIdx.map fun e => (e.1.2, e.2))).Nodup := by
    have : Dict.keys (rows.zipIdx.map fun e => (e.1.2, e.2)) = rows.map Prod.snd := by
      unfold Dict.keys
      rw [List.map_map]
      conv_rhs => rw [← List.zipIdx_map_fst 0 rows, List.map_map]
      rfl
    rw [this]; exact h.rvals
  have hv : ((rows.zipIdx.map fun e => (e.1.2, e.2)).map Prod.snd).Nodup := by
    rw [List.map_map]
    exact zipIdx_snd_nodup rows
  rw [← ((mkBidict_iff (d' := rows.zipIdx.map fun e => (e.1.2, e.2)) hk).2 ⟨rfl, hv⟩)]
  unfold newIndex mkBidict
  rw [List.foldlM_map]

theorem mem_zipIdx {α : Type} {l : List α} {x : α} {i : Nat} : (x, i) ∈ l.zipIdx ↔ l[i]? = some x :=
  List.mem_zipIdx_iff_getElem?

theorem mem_newIndex {rows : Dict (Nat × Nat) (Nat × Nat)} {sa : Nat × Nat} {k : Nat} :
    (sa, k) ∈ (rows.zipIdx.map fun e => (e.1.2, e.2)) ↔ ∃ o, rows[k]? = some (o, sa) := by
  simp only [List.mem_map, Prod.mk.injEq]
  constructor
  · rintro ⟨⟨⟨o, n⟩, j⟩, h1, rfl, rfl⟩
    exact ⟨o, mem_zipIdx.1 h1⟩
  · rintro ⟨o, h⟩
    exact ⟨((o, sa), k), mem_zipIdx.2 h, rfl, rfl⟩

/-! ### the new matrix -/

theorem valueCount_of_nodup {α β : Type} [DecidableEq β] {d : Dict α β} (h : (d.map Prod.snd).Nodup) :
    valueCount d = d.length := by
  unfold valueCount
  rw [List.Nodup.dedup h]
  simp

/-- the assignments of one row -/
def rowTriples (M : Sys K) (T : List Nat) (cols : Dict Nat Nat) (e : ((Nat × Nat) × (Nat × Nat)) × Nat) :
    List ((Nat × Nat) × K) :=
  if e.1.1.1 ∈ T then [] else
    match M.idx.get? e.1.1 with
    | none => []
    | some idx =>
      (((M.graph.successors e.1.1.1).filter fun t => t.2.1 = e.1.1.2).map fun t => t.1).filterMap fun d =>
        (cols.get? d).map fun nd => ((e.2, nd), M.P.get idx d)

theorem newRow_ok {M : Sys K} {T : List Nat} {cols : Dict Nat Nat} {e : ((Nat × Nat) × (Nat × Nat)) × Nat} {i : Nat}
    (hi : M.idx.get? e.1.1 = some i) (m : Dok K) :
    newRow M T cols m e = .ok (setAll m (rowTriples M T cols e)) := by
  unfold newRow rowTriples
  split
  · rfl
  · simp only [hi]
    congr 1
    generalize (((M.graph.successors e.1.1.1).filter fun t => t.2.1 = e.1.1.2).map fun t => t.1) = l
    induction l generalizing m with
    | nil => rfl
    | cons d l ih =>
      rw [List.foldl_cons, ih, List.filterMap_cons]
      cases hc : cols.get? d with
      | none => simp
      | some nd => simp [setAll]

theorem mem_rowTriples {M : Sys K} (hM : M.WF) {T : List Nat} {cols : Dict Nat Nat} (hc : (cols.map Prod.fst).Nodup)
    {s a n b k : Nat} {t : (Nat × Nat) × K} : t ∈ rowTriples M T cols (((s, a), (n, b)), k) ↔
      s ∉ T ∧ t.1.1 = k ∧ ∃ i d, ((s, a), i) ∈ M.idx ∧ (d, t.1.2) ∈ cols ∧ ((i, d), t.2) ∈ M.P.items := by
  unfold rowTriples
  by_cases hT : s ∈ T
  · simp [hT]
  · rw [if_neg hT]
    cases hi : M.idx.get? (s, a) with
    | none =>
      simp only [List.not_mem_nil, false_iff]
      rintro ⟨-, -, i, d, h1, -⟩
      rw [Dict.get?_of_mem hM.keys h1] at hi
      cases hi
    | some i =>
      have him := Dict.mem_of_get? hi
      obtain ⟨⟨k', nd⟩, p⟩ := t
      simp only [List.mem_filterMap, Option.map_eq_some_iff, List.mem_map, List.mem_filter]
      constructor
      · rintro ⟨d, ⟨⟨d', a', p'⟩, ⟨h1, h2⟩, rfl⟩, nd', h3, h4⟩
        simp only [decide_eq_true_eq] at h2
        subst h2
        obtain ⟨i', h5, h6⟩ := (WF.successors_mem hM).1 h1
        obtain rfl := WF.idx_inj' hM h5 him
        have hg := get_of_mem hM.nodup h6
        simp only [Prod.mk.injEq] at h4
        obtain ⟨⟨rfl, rfl⟩, rfl⟩ := h4
        refine ⟨hT, rfl, i', d', him, Dict.mem_of_get? h3, ?_⟩
        rw [hg]; exact h6
      · rintro ⟨-, rfl, i', d, h1, h2, h3⟩
        obtain rfl := WF.idx_inj' hM h1 him
        exact ⟨d, ⟨(d, a, p), ⟨(WF.successors_mem hM).2 ⟨i', him, h3⟩, by simp⟩, rfl⟩, nd,
          Dict.get?_of_mem hc h2, by simp [get_of_mem hM.nodup h3]⟩

/-- specification of the reduced matrix -/
theorem newP_ok {M : Sys K} (hM : M.WF) {mask : List Bool} {cols rows} (h : Maps M mask cols rows) (T : List Nat) :
    ∃ P, newP M T cols rows = .ok P ∧ P.rows = rows.length ∧ P.cols = cols.length ∧ (P.items.map Prod.fst).Nodup ∧
      ∀ k nd p, ((k, nd), p) ∈ P.items ↔ ∃ s a n b i d, rows[k]? = some ((s, a), (n, b)) ∧ s ∉ T ∧
        ((s, a), i) ∈ M.idx ∧ (d, nd) ∈ cols ∧ ((i, d), p) ∈ M.P.items := by
  have hcv : (cols.map Prod.snd).Nodup := by rw [h.vals]; exact List.nodup_range
  have e1 : valueCount rows = rows.length := valueCount_of_nodup h.rvals
  have e2 : valueCount cols = cols.length := valueCount_of_nodup hcv
  have hrow : ∀ e ∈ rows, ∃ i, M.idx.get? e.1 = some i := by
    intro e he
    obtain ⟨-, i, hi, -⟩ := (h.memR e.1).1 (List.mem_map_of_mem he)
    exact ⟨i, Dict.get?_of_mem hM.keys hi⟩
  have hfold : ∀ (l : List (((Nat × Nat) × (Nat × Nat)) × Nat)) (m : Dok K), (∀ e ∈ l, e.1 ∈ rows) →
      l.foldlM (newRow M T cols) m = .ok (setAll m (l.flatMap (rowTriples M T cols))) := by
    intro l
    induction l with
    | nil => intro m _; rfl
    | cons e l ih =>
      intro m hl
      obtain ⟨i, hi⟩ := hrow e.1 (hl e (by simp))
      rw [foldlM_cons_ok (newRow_ok hi m), ih _ fun e' he' => hl e' (by simp [he']), List.flatMap_cons, setAll_append]
  have hmem : ∀ t : (Nat × Nat) × K, t ∈ rows.zipIdx.flatMap (rowTriples M T cols) ↔
      ∃ s a n b i d, rows[t.1.1]? = some ((s, a), (n, b)) ∧ s ∉ T ∧
        ((s, a), i) ∈ M.idx ∧ (d, t.1.2) ∈ cols ∧ ((i, d), t.2) ∈ M.P.items := by
    intro t
    rw [List.mem_flatMap]
    constructor
    · rintro ⟨⟨⟨⟨s, a⟩, ⟨n, b⟩⟩, k⟩, h1, h2⟩
      obtain ⟨h3, rfl, i, d, h4, h5, h6⟩ := (mem_rowTriples hM h.nd).1 h2
      exact ⟨s, a, n, b, i, d, mem_zipIdx.1 h1, h3, h4, h5, h6⟩
    · rintro ⟨s, a, n, b, i, d, h1, h3, h4, h5, h6⟩
      exact ⟨(((s, a), (n, b)), t.1.1), mem_zipIdx.2 h1, (mem_rowTriples hM h.nd).2 ⟨h3, rfl, i, d, h4, h5, h6⟩⟩
  obtain ⟨s1, s2, s3, s4⟩ := setAll_spec (rows.zipIdx.flatMap (rowTriples M T cols))
    (Dok.zero (valueCount rows) (valueCount cols)) (by simp [Dok.zero]) (by
      intro t ht
      obtain ⟨s, a, n, b, i, d, -, -, -, -, h6⟩ := (hmem t).1 ht
      exact (hM.pos _ _ _ h6).ne') (by
      intro t ht t' ht' heq
      simp only [Dok.zero, List.nil_append] at ht'
      obtain ⟨s, a, n, b, i, d, g1, -, g3, g4, g5⟩ := (hmem t).1 ht
      obtain ⟨s', a', n', b', i', d', g1', -, g3', g4', g5'⟩ := (hmem t').1 ht'
      rw [heq, g1'] at g1
      simp only [Option.some.injEq, Prod.mk.injEq] at g1
      obtain ⟨⟨rfl, rfl⟩, -, -⟩ := g1
      obtain rfl := WF.idx_inj' hM g3 g3'
      rw [heq] at g4
      have := List.inj_on_of_nodup_map hcv g4 g4' rfl
      simp only [Prod.mk.injEq, and_true] at this
      subst this
      refine Prod.ext heq ?_
      rw [← get_of_mem hM.nodup g5, ← get_of_mem hM.nodup g5'])
  refine ⟨_, hfold rows.zipIdx _ ?_, s1.trans e1, s2.trans e2, s3, ?_⟩
  · rintro ⟨e, k⟩ he
    exact List.mem_of_getElem? (mem_zipIdx.1 he)
  · intro k nd p
    rw [s4, hmem]
    simp [Dok.zero]

/-! ### the completed matrix -/

theorem rowSum_nonneg {P : Dok K} (hpos : ∀ e ∈ P.items, 0 ≤ e.2) (i : Nat) : 0 ≤ P.rowSum i := by
  unfold Dok.rowSum
  refine List.sum_nonneg ?_
  intro x hx
  obtain ⟨e, he, rfl⟩ := List.mem_map.1 hx
  exact hpos e (List.mem_filter.1 he).1

/-- the assignments to the last two columns -/
def tailTriples (P : Dok K) (e : K × Nat) : List ((Nat × Nat) × K) :=
  (if 0 < e.1 then [((e.2, P.cols), e.1)] else []) ++
  (if 0 < 1 - (e.1 + P.rowSum e.2) then [((e.2, P.cols + 1), 1 - (e.1 + P.rowSum e.2))] else [])

theorem complete_eq (P : Dok K) (tt : List K) : complete P tt = setAll (Dok.zero (P.rows + 2) (P.cols + 2))
    (P.items ++ tt.zipIdx.flatMap (tailTriples P) ++ [((P.rows, P.cols), 1), ((P.rows + 1, P.cols + 1), 1)]) := by
  rw [setAll_append, setAll_append]
  unfold complete
  simp only
  have : ∀ (l : List (K × Nat)) (m : Dok K), l.foldl (fun m e =>
      if 0 < 1 - (e.1 + P.rowSum e.2) then
        (if 0 < e.1 then m.set e.2 P.cols e.1 else m).set e.2 (P.cols + 1) (1 - (e.1 + P.rowSum e.2))
      else (if 0 < e.1 then m.set e.2 P.cols e.1 else m)) m = setAll m (l.flatMap (tailTriples P)) := by
    intro l
    induction l with
    | nil => intro m; rfl
    | cons e l ih =>
      intro m
      rw [List.foldl_cons, ih, List.flatMap_cons, setAll_append]
      congr 1
      unfold tailTriples
      split <;> split <;> simp [setAll]
  rw [this]
  rfl

/-- the entries of the two new rows are stored last -/
theorem complete_last {P : Dok K} {tt : List K} (hr : ∀ i j p, ((i, j), p) ∈ P.items → i < P.rows)
    (hl : tt.length = P.rows) :
    ∃ l, (complete P tt).items = l ++ [((P.rows, P.cols), 1), ((P.rows + 1, P.cols + 1), 1)] ∧
      ∀ e ∈ l, e.1.1 < P.rows := by
  rw [complete_eq, setAll_append]
  obtain ⟨m, hm⟩ : ∃ m, m = setAll (Dok.zero (P.rows + 2) (P.cols + 2)) (P.items ++ tt.zipIdx.flatMap (tailTriples P)) := ⟨_, rfl⟩
  rw [← hm]
  have hk : ∀ k ∈ m.items.map Prod.fst, k.1 < P.rows := by
    intro k hk
    rw [hm] at hk
    rcases mem_setAll_keys _ _ hk with h | h
    · simp [Dok.zero] at h
    · obtain ⟨⟨⟨i, j⟩, p⟩, h1, rfl⟩ := List.mem_map.1 h
      rcases List.mem_append.1 h1 with h1 | h1
      · exact hr _ _ _ h1
      · obtain ⟨⟨q, k⟩, h2, h3⟩ := List.mem_flatMap.1 h1
        have hk : k < P.rows := by
          rw [← hl]
          exact (List.getElem?_eq_some_iff.1 (mem_zipIdx.1 h2)).1
        unfold tailTriples at h3
        simp only [List.mem_append] at h3
        rcases h3 with h3 | h3 <;> split at h3 <;> simp at h3 <;> obtain ⟨⟨rfl, -⟩, -⟩ := h3 <;> exact hk
  have h1 : (P.rows, P.cols) ∉ Dict.keys m.items := fun h => lt_irrefl _ (hk _ h)
  have h2 : (P.rows + 1, P.cols + 1) ∉ Dict.keys (m.items ++ [((P.rows, P.cols), (1 : K))]) := by
    unfold Dict.keys
    rw [List.map_append, List.mem_append]
    rintro (h | h)
    · have := hk _ h; simp at this
    · simp at h
  refine ⟨m.items, ?_, fun e he => hk _ (List.mem_map_of_mem he)⟩
  simp only [setAll, List.foldl_cons, List.foldl_nil, Dok.set, if_neg one_ne_zero]
  rw [set_new _ h1, set_new _ h2]
  simp

/-- specification of the completed matrix -/
theorem complete_spec {P : Dok K} {tt : List K} (hnd : (P.items.map Prod.fst).Nodup)
    (hr : ∀ i j p, ((i, j), p) ∈ P.items → i < P.rows ∧ j < P.cols) (hz : ∀ e ∈ P.items, e.2 ≠ 0)
    (hl : tt.length = P.rows) :
    (complete P tt).rows = P.rows + 2 ∧ (complete P tt).cols = P.cols + 2 ∧
    ((complete P tt).items.map Prod.fst).Nodup ∧
    ∀ i j p, ((i, j), p) ∈ (complete P tt).items ↔ ((i, j), p) ∈ P.items ∨
      (j = P.cols ∧ tt[i]? = some p ∧ 0 < p) ∨
      (j = P.cols + 1 ∧ ∃ q, tt[i]? = some q ∧ p = 1 - (q + P.rowSum i) ∧ 0 < p) ∨
      (i = P.rows ∧ j = P.cols ∧ p = 1) ∨ (i = P.rows + 1 ∧ j = P.cols + 1 ∧ p = 1) := by
  rw [complete_eq]
  have hmem : ∀ t : (Nat × Nat) × K,
      t ∈ (P.items ++ tt.zipIdx.flatMap (tailTriples P) ++ [((P.rows, P.cols), 1), ((P.rows + 1, P.cols + 1), 1)]) ↔
      t ∈ P.items ∨ (t.1.2 = P.cols ∧ tt[t.1.1]? = some t.2 ∧ 0 < t.2) ∨
      (t.1.2 = P.cols + 1 ∧ ∃ q, tt[t.1.1]? = some q ∧ t.2 = 1 - (q + P.rowSum t.1.1) ∧ 0 < t.2) ∨
      (t.1.1 = P.rows ∧ t.1.2 = P.cols ∧ t.2 = 1) ∨ (t.1.1 = P.rows + 1 ∧ t.1.2 = P.cols + 1 ∧ t.2 = 1) := by
    rintro ⟨⟨i, j⟩, p⟩
    simp only [List.mem_append, List.mem_flatMap, tailTriples, List.mem_cons, List.not_mem_nil, or_false, Prod.mk.injEq]
    rw [or_assoc]
    refine or_congr Iff.rfl ?_
    constructor
    · rintro (⟨⟨q, k⟩, h1, h2⟩ | h)
      · have hq := mem_zipIdx.1 h1
        rcases h2 with h2 | h2
        · simp only at h2
          split at h2
          · rename_i hpos
            simp only [List.mem_singleton, Prod.mk.injEq] at h2
            obtain ⟨⟨rfl, rfl⟩, rfl⟩ := h2
            exact Or.inl ⟨rfl, hq, hpos⟩
          · simp at h2
        · simp only at h2
          split at h2
          · rename_i hpos
            simp only [List.mem_singleton, Prod.mk.injEq] at h2
            obtain ⟨⟨rfl, rfl⟩, rfl⟩ := h2
            exact Or.inr (Or.inl ⟨rfl, q, hq, rfl, hpos⟩)
          · simp at h2
      · rcases h with ⟨⟨rfl, rfl⟩, rfl⟩ | ⟨⟨rfl, rfl⟩, rfl⟩
        · exact Or.inr (Or.inr (Or.inl ⟨rfl, rfl, rfl⟩))
        · exact Or.inr (Or.inr (Or.inr ⟨rfl, rfl, rfl⟩))
    · rintro (⟨rfl, h2, h3⟩ | ⟨rfl, q, h2, h3, h4⟩ | ⟨rfl, rfl, rfl⟩ | ⟨rfl, rfl, rfl⟩)
      · left
        refine ⟨(p, i), mem_zipIdx.2 h2, Or.inl ?_⟩
        simp only
        rw [if_pos h3]; simp
      · left
        refine ⟨(q, i), mem_zipIdx.2 h2, Or.inr ?_⟩
        simp only
        rw [if_pos (by rw [← h3]; exact h4)]; simp [h3]
      · right; simp
      · right; simp
  have hlt : ∀ {i : Nat} {q : K}, tt[i]? = some q → i < P.rows := by
    intro i q h
    obtain ⟨h1, -⟩ := List.getElem?_eq_some_iff.1 h
    omega
  obtain ⟨s1, s2, s3, s4⟩ := setAll_spec
    (P.items ++ tt.zipIdx.flatMap (tailTriples P) ++ [((P.rows, P.cols), 1), ((P.rows + 1, P.cols + 1), 1)])
    (Dok.zero (P.rows + 2) (P.cols + 2)) (by simp [Dok.zero]) (by
      intro t ht
      rcases (hmem t).1 ht with h | ⟨-, -, h⟩ | ⟨-, q, -, -, h⟩ | ⟨-, -, h⟩ | ⟨-, -, h⟩
      · exact hz t h
      · exact h.ne'
      · exact h.ne'
      · rw [h]; exact one_ne_zero
      · rw [h]; exact one_ne_zero) (by
      rintro ⟨⟨i, j⟩, p⟩ ht ⟨⟨i', j'⟩, p'⟩ ht' heq
      simp only [Dok.zero, List.nil_append] at ht'
      simp only [Prod.mk.injEq] at heq
      obtain ⟨rfl, rfl⟩ := heq
      have g := (hmem _).1 ht
      have g' := (hmem _).1 ht'
      simp only at g g'
      congr 1
      rcases g with h | ⟨h1, h2, h3⟩ | ⟨h1, q, h2, h3, h4⟩ | ⟨h1, h2, h3⟩ | ⟨h1, h2, h3⟩ <;>
      rcases g' with h' | ⟨h1', h2', h3'⟩ | ⟨h1', q', h2', h3', h4'⟩ | ⟨h1', h2', h3'⟩ | ⟨h1', h2', h3'⟩
      all_goals first
        | rw [← get_of_mem hnd h, ← get_of_mem hnd h']
        | (have := hr _ _ _ h; omega)
        | (have := hr _ _ _ h'; omega)
        | omega
        | (rw [h2'] at h2; cases h2; first | rfl | rw [h3, h3'])
        | (have := hlt h2; omega)
        | (have := hlt h2'; omega))
  refine ⟨s1, s2, s3, fun i j p => ?_⟩
  rw [s4, hmem]
  simp [Dok.zero]

end Verif.Proofs
