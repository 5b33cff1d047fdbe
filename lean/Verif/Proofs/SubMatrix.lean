import Verif.Proofs.SubMaps
/-! # `Subsystem`: the new matrix -/
set_option linter.unusedSectionVars false

namespace Verif.Proofs
open Verif.Model Verif.Spec Verif.Props Subsystem Finset Verif.Proofs.IDict

variable {K : Type} [Field K] [LinearOrder K] [IsStrictOrderedRing K]

theorem del_of_not_mem {α β : Type} [DecidableEq α] {d : Dict α β} {k : α} (h : k ∉ d.map Prod.fst) : d.del k = d := by
  induction d with
  | nil => rfl
  | cons p d ih =>
    obtain ⟨a, b⟩ := p
    simp only [List.map_cons, List.mem_cons, not_or] at h
    simp only [Dict.del]
    rw [if_neg (Ne.symm h.1), ih h.2]

/-- assigning zeros to entries that are not stored has no effect -/
theorem setAll_spec0 : ∀ (ts : List ((Nat × Nat) × K)) (m : Dok K), (m.items.map Prod.fst).Nodup →
    (∀ t ∈ m.items, t.2 ≠ 0) →
    (∀ t ∈ ts, ∀ t' ∈ m.items ++ ts, t.1 = t'.1 → t = t') →
    (setAll m ts).rows = m.rows ∧ (setAll m ts).cols = m.cols ∧ ((setAll m ts).items.map Prod.fst).Nodup ∧
      ∀ t, t ∈ (setAll m ts).items ↔ t ∈ m.items ∨ (t ∈ ts ∧ t.2 ≠ 0) := by
  intro ts m hn hz hf
  have key : setAll m ts = setAll m (ts.filter fun t => decide (t.2 ≠ 0)) := by
    induction ts generalizing m with
    | nil => rfl
    | cons t ts ih =>
      by_cases ht : t.2 = 0
      · have hnm : t.1 ∉ m.items.map Prod.fst := by
          intro hm
          obtain ⟨e, he, hee⟩ := List.mem_map.1 hm
          have := hf t (by simp) e (by simp [he]) hee.symm
          subst this
          exact hz _ he ht
        have e : m.set t.1.1 t.1.2 t.2 = m := by
          unfold Dok.set
          rw [if_pos ht]
          have := del_of_not_mem hnm
          rw [show ((t.1.1, t.1.2) : Nat × Nat) = t.1 from rfl, this]
        rw [List.filter_cons_of_neg (by simpa using ht)]
        show setAll (m.set t.1.1 t.1.2 t.2) ts = _
        rw [e]
        refine ih m hn hz fun t1 h1 t2 h2 => hf t1 (by simp [h1]) t2 ?_
        rcases List.mem_append.1 h2 with h2 | h2
        · simp [h2]
        · simp [h2]
      · rw [List.filter_cons_of_pos (by simpa using ht)]
        show setAll (m.set t.1.1 t.1.2 t.2) ts = setAll (m.set t.1.1 t.1.2 t.2) _
        obtain ⟨s1, s2, s3, s4⟩ := setAll_spec [t] m hn (by simpa using ht) (by
          intro t1 h1 t2 h2
          refine hf t1 ?_ t2 ?_
          · rw [List.mem_singleton] at h1; simp [h1]
          · rcases List.mem_append.1 h2 with h2 | h2
            · simp [h2]
            · rw [List.mem_singleton] at h2; simp [h2])
        have e : setAll m [t] = m.set t.1.1 t.1.2 t.2 := rfl
        rw [e] at s1 s2 s3 s4
        refine ih _ s3 ?_ ?_
        · intro t' ht'
          rcases (s4 t').1 ht' with h | h
          · exact hz _ h
          · rw [List.mem_singleton] at h; rw [h]; exact ht
        · intro t1 h1 t2 h2
          refine hf t1 (by simp [h1]) t2 ?_
          rcases List.mem_append.1 h2 with h2 | h2
          · rcases (s4 t2).1 h2 with h2 | h2
            · simp [h2]
            · rw [List.mem_singleton] at h2; simp [h2]
          · simp [h2]
  rw [key]
  obtain ⟨s1, s2, s3, s4⟩ := setAll_spec (ts.filter fun t => decide (t.2 ≠ 0)) m hn (by simp) (by
    intro t1 h1 t2 h2
    refine hf t1 (List.mem_filter.1 h1).1 t2 ?_
    rcases List.mem_append.1 h2 with h2 | h2
    · simp [h2]
    · simp [(List.mem_filter.1 h2).1])
  refine ⟨s1, s2, s3, fun t => ?_⟩
  rw [s4, List.mem_filter]
  simp

/-- a loop each of whose steps is a sequence of assignments -/
theorem foldlM_setAll {ι : Type} {f : Dok K → ι → Except Err (Dok K)} {g : ι → List ((Nat × Nat) × K)} :
    ∀ (l : List ι) (m : Dok K), (∀ a ∈ l, ∀ m, f m a = .ok (setAll m (g a))) → l.foldlM f m = .ok (setAll m (l.flatMap g)) := by
  intro l
  induction l with
  | nil => intro m _; rfl
  | cons a l ih =>
    intro m h
    rw [foldlM_cons_ok (h a (by simp) m), ih _ fun b hb => h b (by simp [hb]), List.flatMap_cons, setAll_append]

/-- an index that numbers the rows of the kept states -/
def IndexOK (m : List Bool) (rows : Dict (Nat × Nat) (Nat × Nat)) (index : Dict (Nat × Nat) Nat) : Prop :=
  ∀ n a k : Nat, n < (kept m).length → (index.get? (n, a) = some k ↔ ∃ o, rows[k]? = some (o, (n, a)))

theorem subCols_length (m : List Bool) : (subCols m).length = (kept m).length := by simp [subCols]

/-- the assignment for one stored entry -/
def entryTr (M : Sys K) (m : List Bool) (index : Dict (Nat × Nat) Nat) (e : (Nat × Nat) × K) : List ((Nat × Nat) × K) :=
  match invGet? M.idx e.1.1 with
  | none => []
  | some (s, a) =>
    if m.getD s false = true ∧ m.getD e.1.2 false = true then
      match newState m s, newState m e.1.2 with
      | some n, some t =>
        match index.get? (n, a) with
        | none => []
        | some k => [((k, t), e.2)]
      | _, _ => []
    else []

/-- the assignments to the last two columns for one row -/
def tailTr (rf : RF K) (m : List Bool) (index : Dict (Nat × Nat) Nat) (inner : Dok K) (i : Nat) : List ((Nat × Nat) × K) :=
  match invGet? rf.sys.idx i with
  | none => []
  | some (s, a) =>
    if m.getD s false = true then
      match newState m s with
      | none => []
      | some n =>
        match index.get? (n, a) with
        | none => []
        | some k => [((k, (kept m).length), rf.b i), ((k, (kept m).length + 1), 1 - (rf.b i + inner.rowSum k))]
    else []

section
variable {rf : RF K} (h : RFOK rf) {m : List Bool} (hm : m.length = rf.N) {index : Dict (Nat × Nat) Nat}
  (hx : IndexOK m (subRows rf.sys m rf.C) index)
include h hm hx

theorem mask_lt {s : Nat} (hs : m.getD s false = true) : s < rf.N := by
  by_contra hn
  rw [List.getD_eq_default _ _ (by omega)] at hs
  cases hs

theorem new_row {s a i : Nat} (hi : ((s, a), i) ∈ rf.sys.idx) (hiC : i < rf.sys.C) (hs : m.getD s false = true) :
    ∃ n k, newState m s = some n ∧ index.get? (n, a) = some k ∧ (subRows rf.sys m rf.C)[k]? = some ((s, a), (n, a)) := by
  have hM := subMaps h hm
  obtain ⟨k, n, hk⟩ := hM.row_exists hs hi hiC
  have hc := mem_subCols.1 (hM.row_spec hk).2.1
  exact ⟨n, k, newState_iff.2 hc, (hx n a k (List.getElem?_eq_some_iff.1 hc).1).2 ⟨_, hk⟩, hk⟩

theorem entryStep_eq {e : (Nat × Nat) × K} (he : e ∈ rf.sys.P.items) (P : Dok K) :
    entryStep rf.sys m index P e = .ok (setAll P (entryTr rf.sys m index e)) := by
  obtain ⟨⟨i, d⟩, p⟩ := e
  obtain ⟨hi, hd⟩ := h.wf.range _ _ _ he
  obtain ⟨s, a, hsa, hs⟩ := WF.cover h.wf hi
  unfold entryStep entryTr
  simp only [(invGet?_iff h.wf.vals).2 hsa]
  by_cases hb : m.getD s false = true ∧ m.getD d false = true
  · have h1 := mask_lt h hm hx hb.1
    have h2 := mask_lt h hm hx hb.2
    unfold RF.N at h1 h2
    rw [if_neg (by omega)]
    simp only [hb, and_self, if_true]
    obtain ⟨n, k, g1, g2, -⟩ := new_row h hm hx hsa hi hb.1
    obtain ⟨t, g3⟩ := exists_newState hb.2
    simp only [g1, g3, g2]
    rfl
  · rw [if_neg hb]
    split
    · rfl
    · rfl

theorem tailStep_eq (inner : Dok K) {i : Nat} (hi : i < rf.C) (P : Dok K) :
    tailStep rf m index inner P i = .ok (setAll P (tailTr rf m index inner i)) := by
  obtain ⟨s, a, hsa, hs⟩ := RFOK.exists_state h hi
  unfold tailStep tailTr
  simp only [(invGet?_iff h.wf.vals).2 hsa]
  have hms : m[s]? = some (m.getD s false) := by
    rw [List.getD_eq_getElem?_getD, List.getElem?_eq_getElem (by omega)]; rfl
  rw [hms]
  cases hb : m.getD s false with
  | false => rfl
  | true =>
    obtain ⟨n, k, g1, g2, -⟩ := new_row h hm hx hsa (RFOK.lt_C hi) hb
    simp only [g1, g2, if_true]
    rfl

theorem mem_entryTr {t : (Nat × Nat) × K} : t ∈ rf.sys.P.items.flatMap (entryTr rf.sys m index) ↔
    ∃ s a n i d, (subRows rf.sys m rf.C)[t.1.1]? = some ((s, a), (n, a)) ∧ ((s, a), i) ∈ rf.sys.idx ∧
      (d, t.1.2) ∈ subCols m ∧ ((i, d), t.2) ∈ rf.sys.P.items := by
  have hM := subMaps h hm
  rw [List.mem_flatMap]
  constructor
  · rintro ⟨⟨⟨i, d⟩, p⟩, he, ht⟩
    obtain ⟨hi, hd⟩ := h.wf.range _ _ _ he
    obtain ⟨s, a, hsa, hs⟩ := WF.cover h.wf hi
    unfold entryTr at ht
    simp only [(invGet?_iff h.wf.vals).2 hsa] at ht
    split at ht
    swap
    · simp at ht
    rename_i hb
    obtain ⟨n, k, g1, g2, g4⟩ := new_row h hm hx hsa hi hb.1
    obtain ⟨d', g3⟩ := exists_newState hb.2
    simp only [g1, g3, g2, List.mem_singleton] at ht
    subst ht
    exact ⟨s, a, n, i, d, g4, hsa, mem_subCols.2 (newState_iff.1 g3), he⟩
  · rintro ⟨s, a, n, i, d, h1, h2, h3, h4⟩
    refine ⟨_, h4, ?_⟩
    obtain ⟨-, hc, hms, -, -⟩ := hM.row_spec h1
    have hmd := mem_kept.1 (List.mem_of_getElem? (mem_subCols.1 h3))
    unfold entryTr
    simp only [(invGet?_iff h.wf.vals).2 h2, hms, hmd, and_self, if_true, newState_iff.2 (mem_subCols.1 hc),
      newState_iff.2 (mem_subCols.1 h3)]
    have := (hx n a t.1.1 (List.getElem?_eq_some_iff.1 (mem_subCols.1 hc)).1).2 ⟨_, h1⟩
    rw [this]
    simp

theorem mem_tailTr {inner : Dok K} {t : (Nat × Nat) × K} : t ∈ (List.range rf.C).flatMap (tailTr rf m index inner) ↔
    ∃ s a n i, (subRows rf.sys m rf.C)[t.1.1]? = some ((s, a), (n, a)) ∧ ((s, a), i) ∈ rf.sys.idx ∧
      ((t.1.2 = (kept m).length ∧ t.2 = rf.b i) ∨
       (t.1.2 = (kept m).length + 1 ∧ t.2 = 1 - (rf.b i + inner.rowSum t.1.1))) := by
  have hM := subMaps h hm
  rw [List.mem_flatMap]
  constructor
  · rintro ⟨i, hi, ht⟩
    rw [List.mem_range] at hi
    obtain ⟨s, a, hsa, hs⟩ := RFOK.exists_state h hi
    unfold tailTr at ht
    simp only [(invGet?_iff h.wf.vals).2 hsa] at ht
    split at ht
    swap
    · simp at ht
    rename_i hb
    obtain ⟨n, k, g1, g2, g4⟩ := new_row h hm hx hsa (RFOK.lt_C hi) hb
    simp only [g1, g2, List.mem_cons, List.not_mem_nil, or_false] at ht
    rcases ht with rfl | rfl
    · exact ⟨s, a, n, i, g4, hsa, Or.inl ⟨rfl, rfl⟩⟩
    · exact ⟨s, a, n, i, g4, hsa, Or.inr ⟨rfl, rfl⟩⟩
  · rintro ⟨s, a, n, i, h1, h2, h3⟩
    obtain ⟨-, hc, hms, ⟨i', hi', hiC⟩, -⟩ := hM.row_spec h1
    obtain rfl := WF.idx_inj' h.wf hi' h2
    refine ⟨i', List.mem_range.2 (RFOK.row_lt h (mask_lt h hm hx hms) hiC h2), ?_⟩
    unfold tailTr
    have := (hx n a t.1.1 (List.getElem?_eq_some_iff.1 (mem_subCols.1 hc)).1).2 ⟨_, h1⟩
    simp only [(invGet?_iff h.wf.vals).2 h2, hms, if_true, newState_iff.2 (mem_subCols.1 hc), this]
    obtain ⟨⟨k, j⟩, p⟩ := t
    simp only at h3 ⊢
    rcases h3 with ⟨rfl, rfl⟩ | ⟨rfl, rfl⟩
    · simp
    · simp

/-- specification of the new matrix -/
theorem sub_matrix : ∃ P, matrix rf m index (subRows rf.sys m rf.C).length = .ok P ∧ InShape P ∧
    P.rows = (subRows rf.sys m rf.C).length + 2 ∧ P.cols = (subCols m).length + 2 ∧
    (∀ e ∈ P.items, 0 < e.2) ∧
    (∀ i < (subRows rf.sys m rf.C).length + 2, ∑ j ∈ range ((subCols m).length + 2), P.get i j = 1) ∧
    (∀ k s a n i d nd : Nat, (subRows rf.sys m rf.C)[k]? = some ((s, a), (n, a)) → ((s, a), i) ∈ rf.sys.idx →
      (d, nd) ∈ subCols m → P.get k nd = rf.sys.P.get i d) ∧
    (∀ k s a n i : Nat, (subRows rf.sys m rf.C)[k]? = some ((s, a), (n, a)) → ((s, a), i) ∈ rf.sys.idx →
      P.get k (subCols m).length = rf.b i) ∧
    P.get (subRows rf.sys m rf.C).length (subCols m).length = 1 ∧
    P.get ((subRows rf.sys m rf.C).length + 1) ((subCols m).length + 1) = 1 ∧
    ∃ l, P.items = (((subRows rf.sys m rf.C).length + 1, (subCols m).length + 1), 1) :: l := by
  have hM := subMaps h hm
  have hcl := subCols_length m
  generalize hrows : subRows rf.sys m rf.C = rows at *
  have hL1 : ∀ {t : (Nat × Nat) × K}, t ∈ rf.sys.P.items.flatMap (entryTr rf.sys m index) ↔
      ∃ s a n i d, rows[t.1.1]? = some ((s, a), (n, a)) ∧ ((s, a), i) ∈ rf.sys.idx ∧
      (d, t.1.2) ∈ subCols m ∧ ((i, d), t.2) ∈ rf.sys.P.items := by
    intro t; rw [mem_entryTr h hm (by rw [hrows]; exact hx), hrows]
  have hL2 : ∀ {inner : Dok K} {t : (Nat × Nat) × K}, t ∈ (List.range rf.C).flatMap (tailTr rf m index inner) ↔
    ∃ s a n i, rows[t.1.1]? = some ((s, a), (n, a)) ∧ ((s, a), i) ∈ rf.sys.idx ∧
      ((t.1.2 = (kept m).length ∧ t.2 = rf.b i) ∨
       (t.1.2 = (kept m).length + 1 ∧ t.2 = 1 - (rf.b i + inner.rowSum t.1.1))) := by
    intro inner t; rw [mem_tailTr h hm (by rw [hrows]; exact hx), hrows]
  set n := (kept m).length with hn
  set C := rows.length with hCdef
  set h0 : List ((Nat × Nat) × K) := [((C + 1, n + 1), 1), ((C, n), 1)] with hh0
  set L1 := rf.sys.P.items.flatMap (entryTr rf.sys m index) with hL1d
  set inner := setAll (Dok.zero (C + 2) (n + 2)) (h0 ++ L1) with hinner
  set L2 := (List.range rf.C).flatMap (tailTr rf m index inner) with hL2d
  have hmat : matrix rf m index C = .ok (setAll (Dok.zero (C + 2) (n + 2)) (h0 ++ L1 ++ L2)) := by
    unfold matrix
    have e0 : ((Dok.zero (C + 2) (n + 2)).set (C + 1) (n + 1) (1 : K)).set C n 1 = setAll (Dok.zero (C + 2) (n + 2)) h0 := rfl
    simp only [bind, Except.bind]
    rw [← hn, e0, foldlM_setAll (g := entryTr rf.sys m index) _ _ fun e he P => entryStep_eq h hm (by rw [hrows]; exact hx) he P]
    simp only
    rw [← setAll_append]
    rw [foldlM_setAll (g := tailTr rf m index inner)]
    · rw [← setAll_append]
      rfl
    · intro i hi P
      exact tailStep_eq h hm (by rw [hrows]; exact hx) inner (List.mem_range.1 hi) P
  -- entries
  have hm0 : ∀ t : (Nat × Nat) × K, t ∈ h0 ↔ (t.1.1 = C + 1 ∧ t.1.2 = n + 1 ∧ t.2 = 1) ∨ (t.1.1 = C ∧ t.1.2 = n ∧ t.2 = 1) := by
    rintro ⟨⟨i, j⟩, p⟩
    simp [hh0, and_assoc]
  have hrl : ∀ {k : Nat} {x : (Nat × Nat) × (Nat × Nat)}, rows[k]? = some x → k < C := fun h => (List.getElem?_eq_some_iff.1 h).1
  have hcons1 : ∀ t ∈ h0 ++ L1, ∀ t' ∈ h0 ++ L1, t.1 = t'.1 → t = t' := by
    have hc01 : ∀ t ∈ h0, ∀ t' ∈ L1, t.1 = t'.1 → False := by
      intro t ht t' ht' heq
      obtain ⟨s, a, n', i, d, g1, g2, g3, g4⟩ := hL1.1 ht'
      have := hrl g1
      have := congrArg Prod.fst heq
      rcases (hm0 t).1 ht with g | g <;> omega
    intro t ht t' ht' heq
    rcases List.mem_append.1 ht with ht | ht <;> rcases List.mem_append.1 ht' with ht' | ht'
    · have e1 := congrArg Prod.fst heq
      have e2 := congrArg Prod.snd heq
      refine Prod.ext heq ?_
      rcases (hm0 t).1 ht with g | g <;> rcases (hm0 t').1 ht' with g' | g' <;> rw [g.2.2, g'.2.2]
    · exact (hc01 _ ht _ ht' heq).elim
    · exact (hc01 _ ht' _ ht heq.symm).elim
    · obtain ⟨s, a, n', i, d, g1, g2, g3, g4⟩ := hL1.1 ht
      obtain ⟨s', a', n'', i', d', g1', g2', g3', g4'⟩ := hL1.1 ht'
      rw [heq, g1'] at g1
      simp only [Option.some.injEq, Prod.mk.injEq] at g1
      obtain ⟨⟨rfl, rfl⟩, -⟩ := g1
      obtain rfl := WF.idx_inj' h.wf g2 g2'
      rw [heq] at g3
      obtain rfl := hM.col_inj g3 g3'
      refine Prod.ext heq ?_
      rw [← get_of_mem h.wf.nodup g4, ← get_of_mem h.wf.nodup g4']
  have hz1 : ∀ t ∈ h0 ++ L1, 0 < t.2 := by
    intro t ht
    rcases List.mem_append.1 ht with ht | ht
    · rcases (hm0 t).1 ht with g | g <;> rw [g.2.2] <;> exact one_pos
    · obtain ⟨s, a, n', i, d, g1, g2, g3, g4⟩ := hL1.1 ht
      exact h.wf.pos _ _ _ g4
  obtain ⟨i1, i2, i3, i4⟩ := setAll_spec0 (h0 ++ L1) (Dok.zero (C + 2) (n + 2)) (by simp [Dok.zero]) (by simp [Dok.zero])
    (by intro t ht t' ht'; exact hcons1 t ht t' (by simpa [Dok.zero] using ht'))
  rw [← hinner] at i1 i2 i3 i4
  have i4' : ∀ t, t ∈ inner.items ↔ t ∈ h0 ++ L1 := by
    intro t
    rw [i4]
    simp only [Dok.zero, List.not_mem_nil, false_or]
    exact ⟨fun h => h.1, fun h => ⟨h, (hz1 t h).ne'⟩⟩
  have hL1c : ∀ t ∈ L1, t.1.1 < C ∧ t.1.2 < n := by
    intro t ht
    obtain ⟨s, a, n', i, d, g1, g2, g3, g4⟩ := hL1.1 ht
    exact ⟨hrl g1, by have := hM.col_lt g3; omega⟩
  have hirange : ∀ e ∈ inner.items, e.1.2 < inner.cols := by
    intro e he
    rw [i2]
    simp only [Dok.zero]
    rcases List.mem_append.1 ((i4' e).1 he) with g | g
    · rcases (hm0 e).1 g with g | g <;> omega
    · have := hL1c e g; omega
  -- entries of the old columns
  have higet : ∀ k s a n' i d nd : Nat, rows[k]? = some ((s, a), (n', a)) → ((s, a), i) ∈ rf.sys.idx →
      (d, nd) ∈ subCols m → inner.get k nd = rf.sys.P.get i d := by
    intro k s a n' i d nd g1 g2 g3
    by_cases hz : rf.sys.P.get i d = 0
    · rw [hz]
      refine get_eq_zero fun p hp => ?_
      rcases List.mem_append.1 ((i4' _).1 hp) with g | g
      · have := hrl g1
        rcases (hm0 _).1 g with g | g <;> simp only at g <;> omega
      · obtain ⟨s', a', n'', i', d', g1', g2', g3', g4'⟩ := hL1.1 g
        simp only at g1' g3' g4'
        rw [g1] at g1'
        simp only [Option.some.injEq, Prod.mk.injEq] at g1'
        obtain ⟨⟨rfl, rfl⟩, -⟩ := g1'
        obtain rfl := WF.idx_inj' h.wf g2 g2'
        obtain rfl := hM.col_inj g3 g3'
        rw [get_of_mem h.wf.nodup g4'] at hz
        exact (h.wf.pos _ _ _ g4').ne' hz
    · exact get_of_mem i3 ((i4' _).2 (List.mem_append_right _ (hL1.2 ⟨s, a, n', i, d, g1, g2, g3, mem_of_get_ne hz⟩)))
  have hinon : ∀ k j, k < C → n ≤ j → inner.get k j = 0 := by
    intro k j hk hj
    refine get_eq_zero fun p hp => ?_
    rcases List.mem_append.1 ((i4' _).1 hp) with g | g
    · rcases (hm0 _).1 g with g | g <;> simp only at g <;> omega
    · have := hL1c _ g; simp only at this; omega
  have hisum : ∀ k s a n' i : Nat, rows[k]? = some ((s, a), (n', a)) → ((s, a), i) ∈ rf.sys.idx →
      inner.rowSum k = ∑ nd ∈ range n, inner.get k nd ∧ rf.b i + inner.rowSum k ≤ 1 := by
    intro k s a n' i g1 g2
    have e : inner.rowSum k = ∑ nd ∈ range n, inner.get k nd := by
      rw [rowSum_eq i3 hirange, i2]
      simp only [Dok.zero]
      rw [Finset.sum_range_succ, Finset.sum_range_succ, hinon k n (hrl g1) le_rfl, hinon k (n + 1) (hrl g1) (by omega),
        add_zero, add_zero]
    refine ⟨e, ?_⟩
    obtain ⟨-, -, -, ⟨i', hi', hiC⟩, -⟩ := hM.row_spec g1
    obtain rfl := WF.idx_inj' h.wf hi' g2
    rw [e, ← hcl, hM.sum_cols (f := fun d => rf.sys.P.get i' d) fun d nd hd => higet k s a n' i' d nd g1 g2 hd]
    have hN := h.hN
    have hsub : insert (rf.sys.N - 2) ((subCols m).map Prod.fst).toFinset ⊆ range rf.sys.N := by
      refine Finset.insert_subset (Finset.mem_range.2 (by omega)) ?_
      intro d hd
      rw [List.mem_toFinset] at hd
      obtain ⟨⟨d', nd⟩, hdm, rfl⟩ := List.mem_map.1 hd
      exact Finset.mem_range.2 (hM.col_state_lt h.wf hdm)
    have hnotin : rf.sys.N - 2 ∉ ((subCols m).map Prod.fst).toFinset := by
      intro hd
      rw [List.mem_toFinset, hM.memS] at hd
      have := mask_lt h hm (by rw [hrows]; exact hx) hd.1
      unfold RF.N at this
      omega
    have := Finset.sum_le_sum_of_subset_of_nonneg (f := fun d => rf.sys.P.get i' d) hsub fun d _ _ => WF.get_nonneg h.wf _ _
    rw [Finset.sum_insert hnotin, h.wf.sum i' hiC] at this
    exact this
  -- the whole matrix
  have hL2c : ∀ t ∈ L2, t.1.1 < C ∧ (t.1.2 = n ∨ t.1.2 = n + 1) ∧ 0 ≤ t.2 := by
    intro t ht
    obtain ⟨s, a, n', i, g1, g2, g3⟩ := hL2.1 ht
    refine ⟨hrl g1, ?_⟩
    rcases g3 with ⟨g3, g4⟩ | ⟨g3, g4⟩
    · exact ⟨Or.inl g3, by rw [g4]; exact RFOK.b_nonneg h _⟩
    · refine ⟨Or.inr g3, ?_⟩
      rw [g4]
      have := (hisum _ _ _ _ _ g1 g2).2
      linarith
  have hcons2 : ∀ t ∈ h0 ++ L1 ++ L2, ∀ t' ∈ h0 ++ L1 ++ L2, t.1 = t'.1 → t = t' := by
    have hc : ∀ t ∈ h0 ++ L1, ∀ t' ∈ L2, t.1 = t'.1 → False := by
      intro t ht t' ht' heq
      have g' := hL2c t' ht'
      have e1 := congrArg Prod.fst heq
      have e2 := congrArg Prod.snd heq
      rcases List.mem_append.1 ht with ht | ht
      · rcases (hm0 t).1 ht with g | g <;> omega
      · have g := hL1c t ht
        omega
    intro t ht t' ht' heq
    rcases List.mem_append.1 ht with ht | ht <;> rcases List.mem_append.1 ht' with ht' | ht'
    · exact hcons1 t ht t' ht' heq
    · exact (hc _ ht _ ht' heq).elim
    · exact (hc _ ht' _ ht heq.symm).elim
    · obtain ⟨s, a, n', i, g1, g2, g3⟩ := hL2.1 ht
      obtain ⟨s', a', n'', i', g1', g2', g3'⟩ := hL2.1 ht'
      rw [heq, g1'] at g1
      simp only [Option.some.injEq, Prod.mk.injEq] at g1
      obtain ⟨⟨rfl, rfl⟩, -⟩ := g1
      obtain rfl := WF.idx_inj' h.wf g2 g2'
      refine Prod.ext heq ?_
      have e1 := congrArg Prod.fst heq
      have e2 := congrArg Prod.snd heq
      rcases g3 with ⟨g3, g4⟩ | ⟨g3, g4⟩ <;> rcases g3' with ⟨g3', g4'⟩ | ⟨g3', g4'⟩
      · rw [g4, g4']
      · omega
      · omega
      · rw [g4, g4', e1]
  obtain ⟨j1, j2, j3, j4⟩ := setAll_spec0 (h0 ++ L1 ++ L2) (Dok.zero (C + 2) (n + 2)) (by simp [Dok.zero]) (by simp [Dok.zero])
    (by intro t ht t' ht'; exact hcons2 t ht t' (by simpa [Dok.zero] using ht'))
  set P := setAll (Dok.zero (C + 2) (n + 2)) (h0 ++ L1 ++ L2) with hP
  have j4' : ∀ t, t ∈ P.items ↔ t ∈ inner.items ∨ (t ∈ L2 ∧ t.2 ≠ 0) := by
    intro t
    rw [j4, i4']
    simp only [Dok.zero, List.not_mem_nil, false_or]
    rw [List.mem_append (t := L2)]
    constructor
    · rintro ⟨g | g, g'⟩
      · exact Or.inl g
      · exact Or.inr ⟨g, g'⟩
    · rintro (g | ⟨g, g'⟩)
      · exact ⟨Or.inl g, (hz1 t g).ne'⟩
      · exact ⟨Or.inr g, g'⟩
  have hin : ∀ k j, (k < C → j < n) → P.get k j = inner.get k j := by
    intro k j hkj
    by_cases hz : inner.get k j = 0
    · rw [hz]
      refine get_eq_zero fun p hp => ?_
      rcases (j4' _).1 hp with g | ⟨g, -⟩
      · rw [get_of_mem i3 g] at hz
        exact (hz1 _ ((i4' _).1 g)).ne' hz
      · have := hL2c _ g
        simp only at this
        have := hkj this.1
        omega
    · exact get_of_mem j3 ((j4' _).2 (Or.inl (mem_of_get_ne hz)))
  have htl : ∀ k j p, ((k, j), p) ∈ L2 → P.get k j = p := by
    intro k j p ht
    by_cases hz : p = 0
    · rw [hz]
      refine get_eq_zero fun q hq => ?_
      have hq' : ((k, j), q) ∈ h0 ++ L1 ++ L2 ∧ q ≠ 0 := by
        rcases (j4 _).1 hq with g | g
        · simp [Dok.zero] at g
        · exact g
      have := hcons2 _ hq'.1 _ (List.mem_append_right _ ht) rfl
      simp only [Prod.mk.injEq, true_and] at this
      exact hq'.2 (this.trans hz)
    · exact get_of_mem j3 ((j4' _).2 (Or.inr ⟨ht, hz⟩))
  have ggoal : ∀ k s a n' i : Nat, rows[k]? = some ((s, a), (n', a)) → ((s, a), i) ∈ rf.sys.idx → P.get k n = rf.b i := by
    intro k s a n' i g1 g2
    exact htl _ _ _ (hL2.2 ⟨s, a, n', i, g1, g2, Or.inl ⟨rfl, rfl⟩⟩)
  have gfail : ∀ k s a n' i : Nat, rows[k]? = some ((s, a), (n', a)) → ((s, a), i) ∈ rf.sys.idx →
      P.get k (n + 1) = 1 - (rf.b i + inner.rowSum k) := by
    intro k s a n' i g1 g2
    exact htl _ _ _ (hL2.2 ⟨s, a, n', i, g1, g2, Or.inr ⟨rfl, rfl⟩⟩)
  have grow : P.get C n = 1 := by
    rw [hin C n (by omega)]
    exact get_of_mem i3 ((i4' _).2 (List.mem_append_left _ ((hm0 _).2 (Or.inr ⟨rfl, rfl, rfl⟩))))
  have frow : P.get (C + 1) (n + 1) = 1 := by
    rw [hin (C + 1) (n + 1) (by omega)]
    exact get_of_mem i3 ((i4' _).2 (List.mem_append_left _ ((hm0 _).2 (Or.inl ⟨rfl, rfl, rfl⟩))))
  have gz : ∀ k j, C ≤ k → ¬ (k = C ∧ j = n) → ¬ (k = C + 1 ∧ j = n + 1) → P.get k j = 0 := by
    intro k j hk e1 e2
    refine get_eq_zero fun p hp => ?_
    rcases (j4' _).1 hp with g | ⟨g, -⟩
    · rcases List.mem_append.1 ((i4' _).1 g) with g | g
      · rcases (hm0 _).1 g with g | g <;> simp only at g <;> omega
      · have := hL1c _ g; simp only at this; omega
    · have := hL2c _ g; simp only at this; omega
  refine ⟨P, hmat, ⟨j3, ?_⟩, j1, ?_, ?_, ?_, ?_, ?_, ?_, ?_, ?_⟩
  · intro i j p hp
    rw [j1, j2]
    simp only [Dok.zero]
    rcases (j4' _).1 hp with g | ⟨g, -⟩
    · rcases List.mem_append.1 ((i4' _).1 g) with g | g
      · rcases (hm0 _).1 g with g | g <;> simp only at g <;> omega
      · have := hL1c _ g; simp only at this; omega
    · have := hL2c _ g; simp only at this; omega
  · rw [j2, hcl]; rfl
  · intro e he
    rcases (j4' _).1 he with g | ⟨g, g'⟩
    · exact hz1 _ ((i4' _).1 g)
    · exact lt_of_le_of_ne (hL2c _ g).2.2 (Ne.symm g')
  · intro k hk
    rw [hcl, Finset.sum_range_succ, Finset.sum_range_succ]
    by_cases hk1 : k < C
    · obtain ⟨s, a, n', g1⟩ := hM.row_of_lt hk1
      obtain ⟨-, -, -, ⟨i, hi, hiC⟩, -⟩ := hM.row_spec g1
      rw [Finset.sum_congr rfl fun j hj => hin k j fun _ => Finset.mem_range.1 hj, ← (hisum k s a n' i g1 hi).1,
        ggoal k s a n' i g1 hi, gfail k s a n' i g1 hi]
      ring
    · rw [Finset.sum_eq_zero fun j hj => gz k j (by omega) (by have := Finset.mem_range.1 hj; omega)
        (by have := Finset.mem_range.1 hj; omega), zero_add]
      rcases (show k = C ∨ k = C + 1 by omega) with rfl | rfl
      · rw [grow, gz _ _ le_rfl (by omega) (by omega), add_zero]
      · rw [frow, gz _ _ (by omega) (by omega) (by omega), zero_add]
  · intro k s a n' i d nd g1 g2 g3
    rw [hin k nd fun _ => by have := hM.col_lt g3; omega]
    exact higet k s a n' i d nd g1 g2 g3
  · rw [hcl]; exact ggoal
  · rw [hcl]; exact grow
  · rw [hcl]; exact frow
  · rw [hcl, hP, List.append_assoc, setAll_append]
    refine setAll_head _ _ [((C, n), 1)] (by simp [setAll, hh0, Dok.set, Dok.zero, Dict.set]) ?_
    intro t ht heq
    have e := congrArg Prod.fst heq
    simp only at e
    rcases List.mem_append.1 ht with g | g
    · have := hL1c t g; omega
    · have := hL2c t g; omega

end
end Verif.Proofs
