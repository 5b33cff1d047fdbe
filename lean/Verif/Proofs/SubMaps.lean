import Verif.Model.Subsystem
import Verif.Proofs.RFSem
import Verif.Proofs.ReduceSem
/-! # `Subsystem`: mask, state and row numbering -/
set_option linter.unusedSectionVars false

namespace Verif.Proofs
open Verif.Model Verif.Spec Verif.Props Subsystem Finset Verif.Proofs.IDict

variable {K : Type} [Field K] [LinearOrder K] [IsStrictOrderedRing K]

/-- the states a certificate keeps -/
def InMask (rf : RF K) (mode : Mode) (cert : List K) (s : Nat) : Prop :=
  match mode with
  | .min => 0 < cert.getD s 0
  | .max => ∃ i < rf.C, 0 < cert.getD i 0 ∧ rf.rowState i = some s

theorem maskFold {rf : RF K} (h : RFOK rf) (cert : List K) : ∀ (l : List Nat) (m : List Bool), m.length = rf.N →
    (∀ i ∈ l, i < rf.C) → ∃ m', l.foldlM (maskStep rf.sys cert) m = .ok m' ∧ m'.length = rf.N ∧
      ∀ s, m'.getD s false = true ↔ m.getD s false = true ∨ ∃ i ∈ l, 0 < cert.getD i 0 ∧ rf.rowState i = some s := by
  intro l
  induction l with
  | nil => intro m hm _; exact ⟨m, rfl, hm, by simp⟩
  | cons i l ih =>
    intro m hm hl
    have hi := hl i (by simp)
    by_cases hc : 0 < cert.getD i 0
    · obtain ⟨s, a, h1, h2⟩ := RFOK.exists_state h hi
      have e : maskStep rf.sys cert m i = .ok (m.set s true) := by
        unfold maskStep
        rw [if_pos hc, (invGet?_iff h.wf.vals).2 h1]
        simp only
        rw [if_pos (by omega)]
      obtain ⟨m', e1, e2, e3⟩ := ih (m.set s true) (by simpa using hm) fun j hj => hl j (by simp [hj])
      refine ⟨m', by rw [foldlM_cons_ok e, e1], e2, fun t => ?_⟩
      rw [e3]
      have hrow : ∀ t, rf.rowState i = some t ↔ t = s := by
        intro t
        have hs : rf.rowState i = some s := (RFOK.rowState_iff h hi).2 ⟨a, h1⟩
        rw [hs]
        simp [eq_comm]
      have : (m.set s true).getD t false = true ↔ m.getD t false = true ∨ t = s := by
        simp only [List.getD_eq_getElem?_getD, List.getElem?_set]
        by_cases hts : s = t
        · subst hts
          simp only [if_true, show s < m.length by omega]
          simp
        · simp [hts, Ne.symm hts]
      rw [this]
      simp only [List.mem_cons, exists_eq_or_imp, hrow, hc, true_and]
      rw [or_assoc]
    · have e : maskStep rf.sys cert m i = .ok m := by unfold maskStep; rw [if_neg hc]
      obtain ⟨m', e1, e2, e3⟩ := ih m hm fun j hj => hl j (by simp [hj])
      refine ⟨m', by rw [foldlM_cons_ok e, e1], e2, fun t => ?_⟩
      rw [e3]
      simp only [List.mem_cons, exists_eq_or_imp, hc, false_and, false_or]

/-- `subsystem_mask` -/
theorem mask_spec {rf : RF K} (h : RFOK rf) {cert : List K} {mode : Mode} {ig : Bool} {x : Subsystem K}
    (hx : Subsystem.make rf cert mode ig = .ok x) : x = ⟨rf, cert, mode, ig⟩ ∧ ∃ m, x.mask = .ok m ∧ m.length = rf.N ∧
      ∀ s, m.getD s false = true ↔ InMask rf mode cert s := by
  unfold Subsystem.make at hx
  cases mode with
  | max =>
    simp only at hx
    split at hx
    swap
    · cases hx
    cases hx
    refine ⟨rfl, ?_⟩
    obtain ⟨m, e1, e2, e3⟩ := maskFold h cert (List.range rf.C) (List.replicate rf.N false) (by simp) (by simp)
    refine ⟨m, e1, e2, fun s => ?_⟩
    rw [e3]
    simp only [InMask, List.mem_range]
    constructor
    · rintro (h1 | h1)
      · simp [List.getD_eq_getElem?_getD, List.getElem?_replicate] at h1
        split at h1 <;> simp at h1
      · exact h1
    · exact Or.inr
  | min =>
    simp only at hx
    split at hx
    swap
    · cases hx
    rename_i hl
    cases hx
    refine ⟨rfl, _, rfl, by simpa [RF.N] using hl, fun s => ?_⟩
    simp only [InMask, List.getD_eq_getElem?_getD, List.getElem?_map]
    cases cert[s]? <;> simp

/-! ### numbering -/

theorem mem_kept {m : List Bool} {s : Nat} : s ∈ kept m ↔ m.getD s false = true := by
  unfold kept
  rw [List.mem_filter, List.mem_range]
  constructor
  · exact fun h => h.2
  · intro h
    refine ⟨?_, h⟩
    by_contra hn
    rw [List.getD_eq_default _ _ (by omega)] at h
    cases h

theorem kept_nodup (m : List Bool) : (kept m).Nodup := List.nodup_range.filter _

theorem newState_iff {m : List Bool} {s n : Nat} : newState m s = some n ↔ (kept m)[n]? = some s := by
  unfold newState
  have hn := kept_nodup m
  rw [List.idxOf?, List.findIdx?_eq_some_iff_getElem]
  constructor
  · rintro ⟨h1, h2, -⟩
    rw [List.getElem?_eq_getElem h1]
    simpa using h2
  · intro h
    obtain ⟨h1, h2⟩ := List.getElem?_eq_some_iff.1 h
    refine ⟨h1, by simpa using h2, ?_⟩
    intro j hj
    have hjl : j < (kept m).length := by omega
    have : (kept m)[j] ≠ s := by
      intro hc
      have := (List.Nodup.getElem_inj_iff hn (hi := hjl) (hj := h1)).1 (hc.trans h2.symm)
      omega
    simpa using this

theorem exists_newState {m : List Bool} {s : Nat} (hs : m.getD s false = true) : ∃ n, newState m s = some n := by
  obtain ⟨n, hn⟩ := List.mem_iff_getElem?.1 (mem_kept.2 hs)
  exact ⟨n, newState_iff.2 hn⟩

/-- the old and new state-action pair of row `i` -/
def subRow (M : Sys K) (m : List Bool) (i : Nat) : Option ((Nat × Nat) × (Nat × Nat)) :=
  match invGet? M.idx i with
  | none => none
  | some (s, a) => if m.getD s false then (newState m s).map fun n => ((s, a), (n, a)) else none

theorem subRow_iff {M : Sys K} (hM : M.WF) {m : List Bool} {i s a n b : Nat} :
    subRow M m i = some ((s, a), (n, b)) ↔ ((s, a), i) ∈ M.idx ∧ b = a ∧ (kept m)[n]? = some s := by
  unfold subRow
  cases hg : invGet? M.idx i with
  | none =>
    simp only [reduceCtorEq, false_iff]
    rintro ⟨h, -⟩
    rw [(invGet?_iff hM.vals).2 h] at hg
    cases hg
  | some sa =>
    obtain ⟨s', a'⟩ := sa
    have h1 := (invGet?_iff hM.vals).1 hg
    simp only
    constructor
    · intro h
      split at h
      · rename_i hm
        obtain ⟨n', h2, h3⟩ := Option.map_eq_some_iff.1 h
        simp only [Prod.mk.injEq] at h3
        obtain ⟨⟨rfl, rfl⟩, rfl, rfl⟩ := h3
        exact ⟨h1, rfl, newState_iff.1 h2⟩
      · cases h
    · rintro ⟨h2, rfl, h3⟩
      have := WF.idx_inj hM h1 h2
      simp only [Prod.mk.injEq] at this
      obtain ⟨rfl, rfl⟩ := this
      rw [if_pos (mem_kept.1 (List.mem_of_getElem? h3)), newState_iff.2 h3]
      rfl

/-- `new_to_old_states`, seen from the old states -/
def subCols (m : List Bool) : Dict Nat Nat := (kept m).zipIdx

def subRows (M : Sys K) (m : List Bool) (C : Nat) : Dict (Nat × Nat) (Nat × Nat) :=
  (List.range C).filterMap (subRow M m)

theorem mem_subCols {m : List Bool} {s n : Nat} : (s, n) ∈ subCols m ↔ (kept m)[n]? = some s := mem_zipIdx

theorem filterMap_nodup {α β γ : Type} {f : α → Option β} {g : β → γ} {l : List α} (hl : l.Nodup)
    (hinj : ∀ a ∈ l, ∀ a' ∈ l, ∀ b b', f a = some b → f a' = some b' → g b = g b' → a = a') :
    ((l.filterMap f).map g).Nodup := by
  induction l with
  | nil => simp
  | cons a l ih =>
    have hn := List.nodup_cons.1 hl
    have ih' := ih hn.2 fun a ha a' ha' => hinj a (by simp [ha]) a' (by simp [ha'])
    rw [List.filterMap_cons]
    cases hf : f a with
    | none => simpa using ih'
    | some b =>
      simp only [List.map_cons, List.nodup_cons]
      refine ⟨?_, ih'⟩
      intro hm
      obtain ⟨b', h1, h2⟩ := List.mem_map.1 hm
      obtain ⟨a', h3, h4⟩ := List.mem_filterMap.1 h1
      have := hinj a (by simp) a' (by simp [h3]) b b' hf h4 h2.symm
      subst this
      exact hn.1 h3

theorem kept_inj {m : List Bool} {n n' s : Nat} (h1 : (kept m)[n]? = some s) (h2 : (kept m)[n']? = some s) : n = n' := by
  have := newState_iff.2 h1
  rw [newState_iff.2 h2] at this
  exact (Option.some.inj this).symm

theorem subMaps {rf : RF K} (h : RFOK rf) {m : List Bool} (hm : m.length = rf.N) :
    Maps rf.sys m (subCols m) (subRows rf.sys m rf.C) := by
  have hlt : ∀ s, m.getD s false = true → s < rf.N := by
    intro s hs
    by_contra hn
    rw [List.getD_eq_default _ _ (by omega)] at hs
    cases hs
  have hfst : (subCols m).map Prod.fst = kept m := List.zipIdx_map_fst 0 _
  refine ⟨?_, ?_, ?_, ?_, ?_, ?_, ?_⟩
  · unfold subCols
    rw [List.zipIdx_map_snd, List.length_zipIdx, List.range_eq_range']
  · rw [hfst]; exact kept_nodup m
  · intro s
    rw [hfst, mem_kept]
    constructor
    · intro hs
      refine ⟨hs, ?_⟩
      obtain ⟨a, i, h1, h2⟩ := RFOK.exists_row h (hlt s hs)
      exact ⟨a, i, h1, RFOK.lt_C h2⟩
    · exact fun h => h.1
  · refine filterMap_nodup List.nodup_range ?_
    rintro i _ i' _ ⟨⟨s, a⟩, n, b⟩ ⟨⟨s', a'⟩, n', b'⟩ h1 h2 he
    simp only [Prod.mk.injEq] at he
    obtain ⟨rfl, rfl⟩ := he
    exact WF.idx_inj' h.wf ((subRow_iff h.wf).1 h1).1 ((subRow_iff h.wf).1 h2).1
  · refine filterMap_nodup List.nodup_range ?_
    rintro i _ i' _ ⟨⟨s, a⟩, n, b⟩ ⟨⟨s', a'⟩, n', b'⟩ h1 h2 he
    simp only [Prod.mk.injEq] at he
    obtain ⟨rfl, rfl⟩ := he
    obtain ⟨g1, rfl, g3⟩ := (subRow_iff h.wf).1 h1
    obtain ⟨g1', rfl, g3'⟩ := (subRow_iff h.wf).1 h2
    rw [g3] at g3'
    cases g3'
    exact WF.idx_inj' h.wf g1 g1'
  · rintro ⟨s, a⟩
    constructor
    · intro hmem
      obtain ⟨⟨⟨s', a'⟩, n, b⟩, h1, h2⟩ := List.mem_map.1 hmem
      simp only [Prod.mk.injEq] at h2
      obtain ⟨rfl, rfl⟩ := h2
      obtain ⟨i, h3, h4⟩ := List.mem_filterMap.1 h1
      obtain ⟨g1, rfl, g3⟩ := (subRow_iff h.wf).1 h4
      exact ⟨mem_kept.1 (List.mem_of_getElem? g3), i, g1, RFOK.lt_C (List.mem_range.1 h3)⟩
    · rintro ⟨h1, i, h2, h3⟩
      obtain ⟨n, hn⟩ := exists_newState h1
      exact List.mem_map.2 ⟨((s, a), (n, a)), List.mem_filterMap.2 ⟨i,
        List.mem_range.2 (RFOK.row_lt h (hlt s h1) h3 h2), (subRow_iff h.wf).2 ⟨h2, rfl, newState_iff.1 hn⟩⟩, rfl⟩
  · rintro ⟨⟨s, a⟩, n, b⟩ he
    obtain ⟨i, h3, h4⟩ := List.mem_filterMap.1 he
    obtain ⟨g1, rfl, g3⟩ := (subRow_iff h.wf).1 h4
    exact ⟨rfl, mem_subCols.2 g3⟩

/-! ### the loop over the rows -/

/-- the new index -/
def rowIndex (rows : Dict (Nat × Nat) (Nat × Nat)) : Dict (Nat × Nat) Nat := rows.zipIdx.map fun e => (e.1.2, e.2)

theorem rowIndex_append (r : Dict (Nat × Nat) (Nat × Nat)) (e : (Nat × Nat) × (Nat × Nat)) :
    rowIndex (r ++ [e]) = rowIndex r ++ [(e.2, r.length)] := by
  simp [rowIndex, List.zipIdx_append]

theorem rowFold {rf : RF K} (h : RFOK rf) {m : List Bool} (hm : m.length = rf.N)
    (hA : ∀ s a i, ((s, a), i) ∈ rf.sys.idx → i < rf.C → m.getD s false = true → ∃ ls, rf.sys.labelsByAction (s, a) = .ok ls) :
    ∀ (l pre : List Nat) (st : RowState), pre ++ l = List.range rf.C → st.index = rowIndex (pre.filterMap (subRow rf.sys m)) →
      st.newC = (pre.filterMap (subRow rf.sys m)).length →
      (∀ sa ls, st.labT.get? sa = some ls ↔ ∃ o, (o, sa) ∈ pre.filterMap (subRow rf.sys m) ∧ rf.sys.labelsByAction o = .ok ls) →
      ∃ st', l.foldlM (rowStep rf.sys m) st = .ok st' ∧ st'.index = rowIndex (subRows rf.sys m rf.C) ∧
        st'.newC = (subRows rf.sys m rf.C).length ∧
        (∀ sa ls, st'.labT.get? sa = some ls ↔ ∃ o, (o, sa) ∈ subRows rf.sys m rf.C ∧ rf.sys.labelsByAction o = .ok ls) := by
  intro l
  induction l with
  | nil =>
    intro pre st hl h1 h2 h3
    rw [List.append_nil] at hl
    subst hl
    exact ⟨st, rfl, h1, h2, h3⟩
  | cons i l ih =>
    intro pre st hl h1 h2 h3
    have hi : i < rf.C := by
      have : i ∈ List.range rf.C := by rw [← hl]; simp
      exact List.mem_range.1 this
    have hnd : (pre ++ i :: l).Nodup := by rw [hl]; exact List.nodup_range
    have hpre : i ∉ pre := fun hmem => (List.nodup_append.1 hnd).2.2 _ hmem _ (by simp) rfl
    obtain ⟨s, a, hs, hsN⟩ := RFOK.exists_state h hi
    have hinv := (invGet?_iff h.wf.vals).2 hs
    have hms : m[s]? = some (m.getD s false) := by
      rw [List.getD_eq_getElem?_getD, List.getElem?_eq_getElem (by omega)]; rfl
    cases hb : m.getD s false with
    | false =>
      have e : rowStep rf.sys m st i = .ok st := by
        unfold rowStep
        simp only [hinv, hms, hb]
      have e' : subRow rf.sys m i = none := by
        unfold subRow
        simp only [hinv, hb]
        rfl
      have ef : (pre ++ [i]).filterMap (subRow rf.sys m) = pre.filterMap (subRow rf.sys m) := by
        simp [List.filterMap_append, e']
      rw [foldlM_cons_ok e]
      exact ih (pre ++ [i]) st (by simpa using hl) (by rw [ef]; exact h1) (by rw [ef]; exact h2) (by rw [ef]; exact h3)
    | true =>
      obtain ⟨n, hn⟩ := exists_newState hb
      obtain ⟨ls, hls⟩ := hA s a i hs hi hb
      have e' : subRow rf.sys m i = some ((s, a), (n, a)) := (subRow_iff h.wf).2 ⟨hs, rfl, newState_iff.1 hn⟩
      have ef : (pre ++ [i]).filterMap (subRow rf.sys m) = pre.filterMap (subRow rf.sys m) ++ [((s, a), (n, a))] := by
        simp [List.filterMap_append, e']
      have hfresh : ∀ o : Nat × Nat, (o, (n, a)) ∉ pre.filterMap (subRow rf.sys m) := by
        rintro ⟨s', a'⟩ hmem
        obtain ⟨j, g1, g2⟩ := List.mem_filterMap.1 hmem
        obtain ⟨g3, rfl, g5⟩ := (subRow_iff h.wf).1 g2
        rw [newState_iff.1 hn] at g5
        cases g5
        exact hpre (WF.idx_inj' h.wf g3 hs ▸ g1)
      have e : rowStep rf.sys m st i = .ok ⟨st.index ++ [((n, a), st.newC)], st.labT.set (n, a) ls, st.newC + 1⟩ := by
        unfold rowStep
        simp only [hinv, hms, hb, hls, hn, bind, Except.bind]
        rw [bput_new]
        · rw [h1]
          intro hmem
          obtain ⟨⟨k, v⟩, g1, g2⟩ := List.mem_map.1 hmem
          simp only at g2
          subst g2
          obtain ⟨o, ho⟩ := mem_newIndex.1 g1
          exact hfresh o (List.mem_of_getElem? ho)
        · rw [h1, h2]
          intro hmem
          obtain ⟨⟨k, v⟩, g1, g2⟩ := List.mem_map.1 hmem
          simp only at g2
          subst g2
          obtain ⟨o, ho⟩ := mem_newIndex.1 g1
          exact lt_irrefl _ (List.getElem?_eq_some_iff.1 ho).1
      rw [foldlM_cons_ok e]
      refine ih (pre ++ [i]) _ (by simpa using hl) ?_ ?_ ?_
      · rw [ef, rowIndex_append, h1, h2]
      · rw [ef, h2]; simp
      · intro sa ls'
        rw [ef]
        simp only [Dict.get?_set, List.mem_append, List.mem_singleton]
        by_cases hsa : (n, a) = sa
        · subst hsa
          rw [if_pos rfl]
          constructor
          · rintro ⟨rfl⟩; exact ⟨(s, a), Or.inr rfl, hls⟩
          · rintro ⟨o, g1 | g1, g2⟩
            · exact absurd g1 (hfresh o)
            · cases g1; rw [hls] at g2; cases g2; rfl
        · rw [if_neg hsa, h3]
          constructor
          · rintro ⟨o, g1, g2⟩; exact ⟨o, Or.inl g1, g2⟩
          · rintro ⟨o, g1 | g1, g2⟩
            · exact ⟨o, g1, g2⟩
            · cases g1; exact absurd rfl hsa

end Verif.Proofs
