import Verif.Model.Reduce
import Verif.Proofs.RFSem
/-! # The maps built by `reduce` -/
set_option linter.unusedSectionVars false

namespace Verif.Proofs
open Verif.Model Verif.Spec Verif.Props Reduce

variable {K : Type} [Field K] [LinearOrder K] [IsStrictOrderedRing K]

section
variable {α β : Type} [DecidableEq α] [DecidableEq β]

theorem bput_new {d : Dict α β} {k : α} {v : β} (hk : k ∉ d.map Prod.fst) (hv : v ∉ d.map Prod.snd) :
    bput d k v = .ok (d ++ [(k, v)]) := by
  unfold bput
  rw [invGet?_eq_none.2 hv]
  simp only
  rw [Dict.set_of_not_mem hk]

theorem bput_old {d : Dict α β} {k : α} {v : β} (hn : (d.map Prod.snd).Nodup) (hm : (k, v) ∈ d) :
    bput d k v = .ok d := by
  unfold bput
  rw [(invGet?_iff hn).2 hm]
  simp

theorem foldlM_cons_ok {σ ι : Type} {f : σ → ι → Except Err σ} {a : ι} {l : List ι} {s s' : σ} (h : f s a = .ok s') :
    (a :: l).foldlM f s = l.foldlM f s' := by
  simp [List.foldlM_cons, h, bind, Except.bind]

/-- an invariant of a successful loop -/
theorem foldlM_inv {σ ι : Type} {f : σ → ι → Except Err σ} {I : List ι → σ → Prop} :
    ∀ (l pre : List ι) (s s' : σ), (∀ pre a s s', a ∈ l → I pre s → f s a = .ok s' → I (pre ++ [a]) s') →
      I pre s → l.foldlM f s = .ok s' → I (pre ++ l) s' := by
  intro l
  induction l with
  | nil =>
    intro pre s s' _ h0 h
    simp only [List.foldlM_nil, pure, Except.pure, Except.ok.injEq] at h
    subst h; simpa using h0
  | cons a l ih =>
    intro pre s s' hstep h0 h
    simp only [List.foldlM_cons, bind, Except.bind] at h
    split at h
    · cases h
    · rename_i s1 h1
      have := ih (pre ++ [a]) s1 s' (fun p b t t' hb => hstep p b t t' (List.mem_cons_of_mem _ hb))
        (hstep _ _ _ _ (by simp) h0 h1) h
      simpa using this

end

/-- invariant of the loop after the rows in `l` -/
structure MapInv (M : Sys K) (mask : List Bool) (l : List Nat) (st : MapState) : Prop where
  cols : st.cols = st.map
  vals : st.map.map Prod.snd = List.range st.next
  nd : (st.map.map Prod.fst).Nodup
  memS : ∀ s, s ∈ st.map.map Prod.fst ↔ mask.getD s false = true ∧ ∃ i ∈ l, ∃ a, ((s, a), i) ∈ M.idx
  rnd : (st.rows.map Prod.fst).Nodup
  memR : ∀ sa, sa ∈ st.rows.map Prod.fst ↔ mask.getD sa.1 false = true ∧ ∃ i ∈ l, (sa, i) ∈ M.idx
  rowsV : ∀ e ∈ st.rows, e.2.2 = e.1.2 ∧ (e.1.1, e.2.1) ∈ st.map

theorem MapInv.valsNodup {M : Sys K} {mask : List Bool} {l : List Nat} {st : MapState} (h : MapInv M mask l st) :
    (st.map.map Prod.snd).Nodup := by rw [h.vals]; exact List.nodup_range

theorem MapInv.rowValsNodup {M : Sys K} {mask : List Bool} {l : List Nat} {st : MapState} (h : MapInv M mask l st) :
    (st.rows.map Prod.snd).Nodup := by
  refine List.Nodup.map_on ?_ (List.Nodup.of_map _ h.rnd)
  intro e he e' he' heq
  obtain ⟨h1, h2⟩ := h.rowsV e he
  obtain ⟨h3, h4⟩ := h.rowsV e' he'
  obtain ⟨⟨s, a⟩, ⟨n, b⟩⟩ := e
  obtain ⟨⟨s', a'⟩, ⟨n', b'⟩⟩ := e'
  simp only [Prod.mk.injEq] at heq h1 h2 h3 h4
  obtain ⟨rfl, rfl⟩ := heq
  have := List.inj_on_of_nodup_map h.valsNodup h2 h4 rfl
  simp only [Prod.mk.injEq, and_true] at this
  subst this; subst h1; subst h3
  rfl

theorem mapStep_ok {M : Sys K} (hM : M.WF) {mask : List Bool} (hm : mask.length = M.N) {l : List Nat} {st : MapState}
    (h : MapInv M mask l st) {i : Nat} (hi : i < M.C) (hil : i ∉ l) :
    ∃ st', mapStep M mask st i = .ok st' ∧ MapInv M mask (l ++ [i]) st' := by
  obtain ⟨s, a, hsa, hs⟩ := WF.cover hM hi
  have hget := (invGet?_iff hM.vals).2 hsa
  have huniq : ∀ sa', (sa', i) ∈ M.idx → sa' = (s, a) := fun sa' h' => WF.idx_inj hM h' hsa
  have hmask : mask[s]? = some (mask.getD s false) := by
    rw [List.getD_eq_getElem _ _ (by omega), List.getElem?_eq_getElem (by omega)]
  unfold mapStep
  simp only [hget, hmask]
  cases hb : mask.getD s false with
  | false =>
    refine ⟨st, rfl, h.cols, h.vals, h.nd, ?_, h.rnd, ?_, h.rowsV⟩
    · intro s'
      rw [h.memS]
      refine and_congr_right fun hs' => ?_
      constructor
      · rintro ⟨j, hj, a', h'⟩; exact ⟨j, by simp [hj], a', h'⟩
      · rintro ⟨j, hj, a', h'⟩
        rcases List.mem_append.1 hj with hj | hj
        · exact ⟨j, hj, a', h'⟩
        · obtain rfl : j = i := by simpa using hj
          obtain ⟨rfl, rfl⟩ := Prod.mk.inj (huniq _ h')
          rw [hb] at hs'; cases hs'
    · intro sa
      rw [h.memR]
      refine and_congr_right fun hs' => ?_
      constructor
      · rintro ⟨j, hj, h'⟩; exact ⟨j, by simp [hj], h'⟩
      · rintro ⟨j, hj, h'⟩
        rcases List.mem_append.1 hj with hj | hj
        · exact ⟨j, hj, h'⟩
        · obtain rfl : j = i := by simpa using hj
          obtain rfl := huniq _ h'
          rw [hb] at hs'; cases hs'
  | true =>
    -- the numbering after the conditional extension
    set st1 : MapState := if st.map.has s then st else { st with map := st.map.set s st.next, next := st.next + 1 } with hst1
    have key : ∃ n, (s, n) ∈ st1.map ∧ st1.map.map Prod.snd = List.range st1.next ∧ (st1.map.map Prod.fst).Nodup ∧
        (∀ s', s' ∈ st1.map.map Prod.fst ↔ s' = s ∨ s' ∈ st.map.map Prod.fst) ∧ (∀ e ∈ st.map, e ∈ st1.map) ∧
        st1.rows = st.rows ∧ st1.cols = st.cols ∧ bput st.cols s n = .ok st1.map := by
      by_cases hin : st.map.has s = true
      · have e1 : st1 = st := by rw [hst1, if_pos hin]
        have hk : s ∈ st.map.map Prod.fst := Dict.get?_isSome.1 hin
        obtain ⟨⟨s', n⟩, hn, rfl⟩ := List.mem_map.1 hk
        rw [e1]
        refine ⟨n, hn, h.vals, h.nd, ?_, fun _ he => he, rfl, rfl, ?_⟩
        · intro s''
          constructor
          · exact Or.inr
          · rintro (rfl | h')
            · exact hk
            · exact h'
        · rw [h.cols]; exact bput_old h.valsNodup hn
      · have hk : s ∉ st.map.map Prod.fst := fun hk => hin (Dict.get?_isSome.2 hk)
        have e1 : st1 = { st with map := st.map ++ [(s, st.next)], next := st.next + 1 } := by
          rw [hst1, if_neg hin, Dict.set_of_not_mem hk]
        rw [e1]
        refine ⟨st.next, by simp, ?_, ?_, ?_, fun e he => by simp [he], rfl, rfl, ?_⟩
        · simp [h.vals, List.range_succ]
        · simp only [List.map_append, List.map_cons, List.map_nil]
          exact List.Nodup.append h.nd (by simp) (by simpa using hk)
        · intro s'; simp [or_comm]
        · rw [h.cols]; exact bput_new hk (by rw [h.vals]; simp)
    obtain ⟨n, hn, k1, k2, k3, k4, k5, k6, k7⟩ := key
    have hg : st1.map.get? s = some n := Dict.get?_of_mem k2 hn
    simp only [hg]
    -- the row is new
    have hr1 : (s, a) ∉ st1.rows.map Prod.fst := by
      rw [k5, h.memR]
      rintro ⟨-, j, hj, hj'⟩
      exact hil (WF.idx_inj' hM hj' hsa ▸ hj)
    have hr2 : (n, a) ∉ st1.rows.map Prod.snd := by
      intro hmem
      obtain ⟨e, he, heq⟩ := List.mem_map.1 hmem
      rw [k5] at he
      obtain ⟨v1, v2⟩ := h.rowsV e he
      have v3 := k4 _ v2
      have en : e.2.1 = n := by rw [heq]
      have ea : e.2.2 = a := by rw [heq]
      have := List.inj_on_of_nodup_map (by rw [k1]; exact List.nodup_range) v3 hn en
      simp only [Prod.mk.injEq] at this
      apply hr1
      rw [k5]
      refine List.mem_map.2 ⟨e, he, ?_⟩
      exact Prod.ext this.1 (by rw [← v1, ea])
    rw [bput_new hr1 hr2]
    simp only [bind, Except.bind, k6, k7]
    refine ⟨_, rfl, rfl, k1, k2, ?_, ?_, ?_, ?_⟩
    · intro s'
      rw [k3, h.memS]
      constructor
      · rintro (rfl | ⟨h1, j, hj, a', h'⟩)
        · exact ⟨hb, i, by simp, a, hsa⟩
        · exact ⟨h1, j, by simp [hj], a', h'⟩
      · rintro ⟨h1, j, hj, a', h'⟩
        rcases List.mem_append.1 hj with hj | hj
        · exact Or.inr ⟨h1, j, hj, a', h'⟩
        · obtain rfl : j = i := by simpa using hj
          exact Or.inl (Prod.mk.inj (huniq _ h')).1
    · simp only [List.map_append, List.map_cons, List.map_nil]
      exact List.Nodup.append (by rw [k5]; exact h.rnd) (by simp) (by simpa using hr1)
    · intro sa
      simp only [List.map_append, List.map_cons, List.map_nil, List.mem_append, List.mem_singleton]
      rw [k5, h.memR]
      constructor
      · rintro (⟨h1, j, hj, h'⟩ | rfl)
        · exact ⟨h1, j, Or.inl hj, h'⟩
        · exact ⟨hb, i, Or.inr rfl, hsa⟩
      · rintro ⟨h1, j, hj | rfl, h'⟩
        · exact Or.inl ⟨h1, j, hj, h'⟩
        · exact Or.inr (huniq _ h')
    · intro e he
      rcases List.mem_append.1 he with he | he
      · rw [k5] at he
        exact ⟨(h.rowsV e he).1, k4 _ (h.rowsV e he).2⟩
      · obtain rfl : e = ((s, a), (n, a)) := by simpa using he
        exact ⟨rfl, hn⟩

/-- what `reduce` knows about its maps -/
structure Maps (M : Sys K) (mask : List Bool) (cols : Dict Nat Nat) (rows : Dict (Nat × Nat) (Nat × Nat)) : Prop where
  vals : cols.map Prod.snd = List.range cols.length
  nd : (cols.map Prod.fst).Nodup
  memS : ∀ s, s ∈ cols.map Prod.fst ↔ mask.getD s false = true ∧ ∃ a i, ((s, a), i) ∈ M.idx ∧ i < M.C
  rnd : (rows.map Prod.fst).Nodup
  rvals : (rows.map Prod.snd).Nodup
  memR : ∀ sa, sa ∈ rows.map Prod.fst ↔ mask.getD sa.1 false = true ∧ ∃ i, (sa, i) ∈ M.idx ∧ i < M.C
  rowsV : ∀ e ∈ rows, e.2.2 = e.1.2 ∧ (e.1.1, e.2.1) ∈ cols

theorem maps_ok {M : Sys K} (hM : M.WF) {mask : List Bool} (hm : mask.length = M.N) :
    ∃ cols rows, maps M mask = .ok (cols, rows) ∧ Maps M mask cols rows := by
  have key : ∀ (l pre : List Nat) (st : MapState), MapInv M mask pre st → (∀ i ∈ l, i < M.C) → (pre ++ l).Nodup →
      ∃ st', l.foldlM (mapStep M mask) st = .ok st' ∧ MapInv M mask (pre ++ l) st' := by
    intro l
    induction l with
    | nil => intro pre st h _ _; exact ⟨st, rfl, by simpa using h⟩
    | cons i l ih =>
      intro pre st h hl hnd
      have hi : i ∉ pre := by
        intro hmem
        exact (List.nodup_append.1 hnd).2.2 _ hmem _ (by simp) rfl
      obtain ⟨st1, h1, h2⟩ := mapStep_ok hM hm h (hl i (by simp)) hi
      obtain ⟨st2, h3, h4⟩ := ih (pre ++ [i]) st1 h2 (fun j hj => hl j (by simp [hj])) (by simpa using hnd)
      exact ⟨st2, by rw [foldlM_cons_ok h1, h3], by simpa using h4⟩
  obtain ⟨st, h1, h2⟩ := key (List.range M.C) [] ⟨[], 0, [], []⟩
    ⟨rfl, rfl, by simp, by simp, by simp, by simp, by simp⟩ (fun i hi => List.mem_range.1 hi) (by simpa using List.nodup_range)
  refine ⟨st.cols, st.rows, by simp [maps, h1, bind, Except.bind], ?_⟩
  have hlen : st.next = st.map.length := by
    have := congrArg List.length h2.vals
    simpa using this.symm
  refine ⟨?_, ?_, ?_, h2.rnd, h2.rowValsNodup, ?_, ?_⟩
  · rw [h2.cols, ← hlen]; exact h2.vals
  · rw [h2.cols]; exact h2.nd
  · intro s
    rw [h2.cols, h2.memS]
    refine and_congr_right fun _ => ?_
    constructor
    · rintro ⟨i, hi, a, h⟩; exact ⟨a, i, h, by simpa using hi⟩
    · rintro ⟨a, i, h, hi⟩; exact ⟨i, by simpa using hi, a, h⟩
  · intro sa
    rw [h2.memR]
    refine and_congr_right fun _ => ?_
    constructor
    · rintro ⟨i, hi, h⟩; exact ⟨i, h, by simpa using hi⟩
    · rintro ⟨i, h, hi⟩; exact ⟨i, by simpa using hi, h⟩
  · intro e he
    rw [h2.cols]
    exact h2.rowsV e he

end Verif.Proofs
