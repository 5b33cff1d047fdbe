import Verif.Proofs.SubMatrix
/-! # `Subsystem`: the system that `subsys` builds -/
set_option linter.unusedSectionVars false

namespace Verif.Proofs
open Verif.Model Verif.Spec Verif.Props Subsystem Finset Verif.Proofs.IDict Verif.Model.IDict

variable {K : Type} [Field K] [LinearOrder K] [IsStrictOrderedRing K]

/-- what `subsys` builds from the mask `m` -/
structure SubSys (rf : RF K) (m : List Bool) (M' : Sys K) : Prop where
  wf : M'.WF
  hN : M'.N = (subCols m).length + 2
  hC : M'.C = (subRows rf.sys m rf.C).length + 2
  idx : ∀ s a k : Nat, ((s, a), k) ∈ M'.idx ↔ (∃ o, (subRows rf.sys m rf.C)[k]? = some (o, (s, a))) ∨
    (s = (subCols m).length ∧ a = 0 ∧ k = (subRows rf.sys m rf.C).length) ∨
    (s = (subCols m).length + 1 ∧ a = 0 ∧ k = (subRows rf.sys m rf.C).length + 1)
  kept : ∀ k s a n i d nd : Nat, (subRows rf.sys m rf.C)[k]? = some ((s, a), (n, a)) → ((s, a), i) ∈ rf.sys.idx →
    (d, nd) ∈ subCols m → M'.P.get k nd = rf.sys.P.get i d
  goal : ∀ k s a n i : Nat, (subRows rf.sys m rf.C)[k]? = some ((s, a), (n, a)) → ((s, a), i) ∈ rf.sys.idx →
    M'.P.get k (subCols m).length = rf.b i
  goalRow : M'.P.get (subRows rf.sys m rf.C).length (subCols m).length = 1
  failRow : M'.P.get ((subRows rf.sys m rf.C).length + 1) ((subCols m).length + 1) = 1
  dtmc : M'.dtmc = rf.sys.dtmc
  labI : Inv M'.labS
  labSd : M'.labS.dflt = true
  labS : ∀ l s', Has M'.labS.d l s' ↔ (∃ s, (s, s') ∈ subCols m ∧ Has rf.sys.labS.d l s) ∨
    (l = rf.targetL ∧ s' = (subCols m).length) ∨ (l = rf.failL ∧ s' = (subCols m).length + 1)
  labSm : M'.labS = IDict.mk' M'.labS.d true
  labA : M'.labA = IDict.mk' [] true
  rew : M'.rew = none
  first : ∃ l, M'.P.items = (((subRows rf.sys m rf.C).length + 1, (subCols m).length + 1), 1) :: l

theorem foldlM_each {σ ι : Type} {f : σ → ι → Except Err σ} : ∀ (l : List ι) (s s' : σ),
    l.foldlM f s = .ok s' → ∀ a ∈ l, ∃ s1 s2, f s1 a = .ok s2 := by
  intro l
  induction l with
  | nil => simp
  | cons b l ih =>
    intro s s' h a ha
    cases hb : f s b with
    | error e => simp [List.foldlM_cons, hb, bind, Except.bind] at h
    | ok s1 =>
      rw [foldlM_cons_ok hb] at h
      rcases List.mem_cons.1 ha with rfl | ha
      · exact ⟨_, _, hb⟩
      · exact ih _ _ h a ha

/-- as many rows as columns if every state has the one action 0 -/
theorem maps_square {M : Sys K} {mask : List Bool} {cols rows} (h : Maps M mask cols rows)
    (hd : ∀ s a i, ((s, a), i) ∈ M.idx → a = 0) : rows.length = cols.length := by
  have hsub : ∀ e ∈ rows, e.1.2 = 0 := by
    intro e he
    obtain ⟨-, i, hi, -⟩ := (h.memR e.1).1 (List.mem_map_of_mem he)
    exact hd _ _ _ hi
  have hinj : (rows.map fun e => e.1.1).Nodup := by
    have e0 : (rows.map fun e => e.1.1) = (rows.map Prod.fst).map fun e : Nat × Nat => e.1 := by
      rw [List.map_map]; rfl
    rw [e0]
    refine List.Nodup.map_on ?_ h.rnd
    rintro ⟨a, b⟩ hx ⟨c, d⟩ hy hxy
    obtain ⟨e, he, e1⟩ := List.mem_map.1 hx
    obtain ⟨e', he', e1'⟩ := List.mem_map.1 hy
    have g1 := hsub e he
    have g2 := hsub e' he'
    rw [e1] at g1
    rw [e1'] at g2
    simp only at g1 g2 hxy
    rw [hxy, g1, g2]
  have hperm : (rows.map fun e => e.1.1).Perm (cols.map Prod.fst) := by
    rw [List.perm_ext_iff_of_nodup hinj h.nd]
    intro s
    rw [h.memS]
    constructor
    · intro hm
      obtain ⟨e, he, rfl⟩ := List.mem_map.1 hm
      obtain ⟨g1, i, g2, g3⟩ := (h.memR e.1).1 (List.mem_map_of_mem he)
      exact ⟨g1, e.1.2, i, g2, g3⟩
    · rintro ⟨g1, a, i, g2, g3⟩
      obtain ⟨e, he, e1⟩ := List.mem_map.1 ((h.memR (s, a)).2 ⟨g1, i, g2, g3⟩)
      exact List.mem_map.2 ⟨e, he, by rw [e1]⟩
  simpa using hperm.length_eq

/-! ### labels -/

theorem labelFold {M : Sys K} (hS : Inv M.labS) {m : List Bool} {d : Dict String (List Nat)}
    (h : (kept m).zipIdx.foldlM (Subsystem.labelStep M) [] = .ok d) :
    SetsOK d ∧ ∀ l s', Has d l s' ↔ ∃ s, (s, s') ∈ subCols m ∧ Has M.labS.d l s := by
  have := foldlM_inv (I := fun pre d => SetsOK d ∧ ∀ l s', Has d l s' ↔ ∃ s, (s, s') ∈ pre ∧ Has M.labS.d l s)
    _ [] _ _ ?_ ?_ h
  · simpa [subCols] using this
  · rintro pre ⟨s, n⟩ d d' - ⟨h1, h2⟩ he
    unfold Subsystem.labelStep at he
    simp only [bind, Except.bind] at he
    split at he
    · cases he
    rename_i ls hls
    cases he
    refine ⟨ok_foldl_add _ _ _ h1, fun l s' => ?_⟩
    rw [has_foldl_add, h2, inv_getItem hS hls]
    constructor
    · rintro (⟨rfl, g⟩ | ⟨s0, g1, g2⟩)
      · exact ⟨s, by simp, g⟩
      · exact ⟨s0, by simp [g1], g2⟩
    · rintro ⟨s0, g1, g2⟩
      rcases List.mem_append.1 g1 with g1 | g1
      · exact Or.inr ⟨s0, g1, g2⟩
      · simp only [List.mem_singleton, Prod.mk.injEq] at g1
        obtain ⟨rfl, rfl⟩ := g1
        exact Or.inl ⟨rfl, g2⟩
  · refine ⟨⟨by simp [Dict.keys], by simp [Dict.get?]⟩, by simp [Has, Dict.get?]⟩

theorem has_set {α β : Type} [DecidableEq α] [DecidableEq β] (d : Dict α (List β)) (k l : α) (vs : List β) (v : β) :
    Has (d.set k vs) l v ↔ if k = l then v ∈ vs else Has d l v := by
  unfold Has
  rw [Dict.get?_set]
  split <;> simp

theorem setsOK_set {α β : Type} [DecidableEq α] [DecidableEq β] {d : Dict α (List β)} (h : SetsOK d) (k : α) {vs : List β}
    (hv : vs.Nodup) : SetsOK (d.set k vs) := by
  refine ⟨Dict.nodup_set h.1 _ _, ?_⟩
  intro k' s hs
  rw [Dict.get?_set] at hs
  split at hs
  · cases hs; exact hv
  · exact h.2 _ _ hs

/-! ### the index -/

theorem sub_bput {M : Sys K} {mask : List Bool} {cols rows} (h : Maps M mask cols rows) :
    ∃ i1, bput (rowIndex rows) (cols.length + 1, 0) (rows.length + 1) = .ok i1 ∧
      bput i1 (cols.length, 0) rows.length = .ok (rowIndex rows ++ [((cols.length + 1, 0), rows.length + 1),
        ((cols.length, 0), rows.length)]) := by
  have hks : ∀ s a, (s, a) ∈ (rowIndex rows).map Prod.fst → s < cols.length := by
    intro s a hm
    obtain ⟨⟨sa, k⟩, h1, h2⟩ := List.mem_map.1 hm
    simp only at h2
    subst h2
    obtain ⟨⟨s', a'⟩, ho⟩ := mem_newIndex.1 h1
    exact h.col_lt (h.row_spec ho).2.1
  have hvs : ∀ k, k ∈ (rowIndex rows).map Prod.snd → k < rows.length := by
    intro k hm
    obtain ⟨⟨sa, k'⟩, h1, h2⟩ := List.mem_map.1 hm
    simp only at h2
    subst h2
    obtain ⟨o, ho⟩ := mem_newIndex.1 h1
    exact (List.getElem?_eq_some_iff.1 ho).1
  refine ⟨_, bput_new ?_ ?_, ?_⟩
  · intro hm; have := hks _ _ hm; omega
  · intro hm; have := hvs _ hm; omega
  · rw [bput_new, List.append_assoc]; rfl
    · rw [List.map_append]
      intro hm
      rcases List.mem_append.1 hm with hm | hm
      · have := hks _ _ hm; omega
      · simp at hm
    · rw [List.map_append]
      intro hm
      rcases List.mem_append.1 hm with hm | hm
      · have := hvs _ hm; omega
      · simp at hm

theorem sub_keys {M : Sys K} {mask : List Bool} {cols rows} (h : Maps M mask cols rows) :
    ((rowIndex rows ++ [((cols.length + 1, 0), rows.length + 1), ((cols.length, 0), rows.length)]).map Prod.fst).Nodup ∧
    ((rowIndex rows ++ [((cols.length + 1, 0), rows.length + 1), ((cols.length, 0), rows.length)]).map Prod.snd).Nodup := by
  have hks : ∀ s a, (s, a) ∈ (rowIndex rows).map Prod.fst → s < cols.length := by
    intro s a hm
    obtain ⟨⟨sa, k⟩, h1, h2⟩ := List.mem_map.1 hm
    simp only at h2
    subst h2
    obtain ⟨⟨s', a'⟩, ho⟩ := mem_newIndex.1 h1
    exact h.col_lt (h.row_spec ho).2.1
  have hvs : ∀ k, k ∈ (rowIndex rows).map Prod.snd → k < rows.length := by
    intro k hm
    obtain ⟨⟨sa, k'⟩, h1, h2⟩ := List.mem_map.1 hm
    simp only at h2
    subst h2
    obtain ⟨o, ho⟩ := mem_newIndex.1 h1
    exact (List.getElem?_eq_some_iff.1 ho).1
  constructor
  · rw [List.map_append, List.nodup_append]
    refine ⟨?_, by simp, ?_⟩
    · have : (rowIndex rows).map Prod.fst = rows.map Prod.snd := by
        unfold rowIndex
        rw [List.map_map]
        conv_rhs => rw [← List.zipIdx_map_fst 0 rows, List.map_map]
        rfl
      rw [this]; exact h.rvals
    · rintro ⟨s, a⟩ h1 x h2 rfl
      have := hks _ _ h1
      simp only [List.map_cons, List.map_nil, List.mem_cons, Prod.mk.injEq, List.not_mem_nil, or_false] at h2
      omega
  · rw [List.map_append, List.nodup_append]
    refine ⟨?_, by simp, ?_⟩
    · unfold rowIndex; rw [List.map_map]; exact zipIdx_snd_nodup rows
    · rintro k h1 x h2 rfl
      have := hvs _ h1
      simp only [List.map_cons, List.map_nil, List.mem_cons, List.not_mem_nil, or_false] at h2
      omega

/-- the new index -/
def subIndex (cols : Dict Nat Nat) (rows : Dict (Nat × Nat) (Nat × Nat)) : Dict (Nat × Nat) Nat :=
  rowIndex rows ++ [((cols.length + 1, 0), rows.length + 1), ((cols.length, 0), rows.length)]

theorem mem_subIndex {cols : Dict Nat Nat} {rows : Dict (Nat × Nat) (Nat × Nat)} {s a k : Nat} :
    ((s, a), k) ∈ subIndex cols rows ↔ (∃ o, rows[k]? = some (o, (s, a))) ∨
      (s = cols.length ∧ a = 0 ∧ k = rows.length) ∨ (s = cols.length + 1 ∧ a = 0 ∧ k = rows.length + 1) := by
  unfold subIndex
  rw [List.mem_append]
  unfold rowIndex
  rw [mem_newIndex]
  simp only [List.mem_cons, Prod.mk.injEq, List.not_mem_nil, or_false, and_assoc]
  tauto

theorem subIndex_ok {M : Sys K} {m : List Bool} {rows} (h : Maps M m (subCols m) rows) :
    IndexOK m rows (subIndex (subCols m) rows) := by
  intro n a k hn
  have hk := (sub_keys h).1
  rw [← subCols_length] at hn
  constructor
  · intro hg
    rcases mem_subIndex.1 (Dict.mem_of_get? hg) with g | g | g
    · exact g
    · omega
    · omega
  · intro hg
    exact Dict.get?_of_mem hk (mem_subIndex.2 (Or.inl hg))

/-! ### the whole computation -/

/-- conditions under which all lookups of labels succeed -/
structure LabOK (rf : RF K) (m : List Bool) : Prop where
  S : ∀ s, m.getD s false = true → ∃ ls, rf.sys.labelsByState s = .ok ls
  A : ∀ s a i, ((s, a), i) ∈ rf.sys.idx → i < rf.C → m.getD s false = true → ∃ ls, rf.sys.labelsByAction (s, a) = .ok ls

/-- the arguments of the constructor calls -/
structure Args (rf : RF K) (m : List Bool) (labS : Dict String (List Nat)) (labT : Dict (Nat × Nat) (List String))
    (P : Dok K) : Prop where
  okS : SetsOK labS
  hasS : ∀ l s', Has labS l s' ↔ ∃ s, (s, s') ∈ subCols m ∧ Has rf.sys.labS.d l s
  labT : ∀ sa ls, labT.get? sa = some ls ↔ ∃ o, (o, sa) ∈ subRows rf.sys m rf.C ∧ rf.sys.labelsByAction o = .ok ls
  P : matrix rf m (subIndex (subCols m) (subRows rf.sys m rf.C)) (subRows rf.sys m rf.C).length = .ok P

theorem subsys_eq {rf : RF K} (h : RFOK rf) (hS : Inv rf.sys.labS) {cert : List K} {mode : Mode} {ig : Bool} {m : List Bool}
    (hm : (⟨rf, cert, mode, ig⟩ : Subsystem K).mask = .ok m) (hml : m.length = rf.N) (hL : LabOK rf m) :
    ∃ labS labT P, Args rf m labS labT P ∧ ∀ ρ, subsys ρ ⟨rf, cert, mode, ig⟩ = (do
      let M' ← Sys.remake rf.sys.dtmc P (subIndex (subCols m) (subRows rf.sys m rf.C)) (IDict.mk' [] true)
        (IDict.mk' ((labS.set rf.targetL [(subCols m).length]).set rf.failL [(subCols m).length + 1]) true) none
      let rf' ← RF.make ρ M' rf.initL rf.targetL rf.failL ig
      .ok ⟨rf', labT⟩) := by
  have hM := subMaps h hml
  obtain ⟨labS, hlabS⟩ := foldlM_total (f := Subsystem.labelStep rf.sys) (kept m).zipIdx [] (by
    rintro d ⟨s, n⟩ hsn
    obtain ⟨ls, hls⟩ := hL.S s (mem_kept.1 (List.mem_of_getElem? (mem_zipIdx.1 hsn)))
    exact ⟨ls.foldl (fun d l => IDict.addTo d l n) d, by simp [Subsystem.labelStep, hls, bind, Except.bind]⟩)
  obtain ⟨okS, hasS⟩ := labelFold hS hlabS
  obtain ⟨st, hst, s1, s2, s3⟩ := rowFold h hml hL.A (List.range rf.C) [] ⟨[], [], 0⟩ (by simp) rfl rfl (by simp [Dict.get?])
  obtain ⟨i1, b1, b2⟩ := sub_bput hM
  obtain ⟨P, hP, -⟩ := sub_matrix h hml (subIndex_ok hM)
  refine ⟨labS, st.labT, P, ⟨okS, hasS, s3, hP⟩, fun ρ => ?_⟩
  unfold subsys
  rw [hm]
  have hcl := subCols_length m
  have hst' : (List.range (rf.sys.C - 2)).foldlM (rowStep rf.sys m) ⟨[], [], 0⟩ = .ok st := hst
  have hP' : matrix rf m (rowIndex (subRows rf.sys m rf.C) ++
    [((List.length (subCols m) + 1, 0), List.length (subRows rf.sys m rf.C) + 1),
      ((List.length (subCols m), 0), List.length (subRows rf.sys m rf.C))]) (subRows rf.sys m rf.C).length = .ok P := hP
  simp only [bind, Except.bind, hlabS, hst', s1, s2, ← hcl, b1, b2, hP']
  rfl

section
variable {rf : RF K} (h : RFOK rf) {m : List Bool} (hml : m.length = rf.N)
  {labS : Dict String (List Nat)} {labT : Dict (Nat × Nat) (List String)} {P : Dok K} (hA : Args rf m labS labT P)
include h hml hA

theorem remake_spec {M' : Sys K}
    (hr : Sys.remake rf.sys.dtmc P (subIndex (subCols m) (subRows rf.sys m rf.C)) (IDict.mk' [] true)
      (IDict.mk' ((labS.set rf.targetL [(subCols m).length]).set rf.failL [(subCols m).length + 1]) true) none = .ok M') :
    SubSys rf m M' := by
  have hM := subMaps h hml
  obtain ⟨P', hP, q1, q2, q3, q4, q5, q6, q7, q8, q9, q10⟩ := sub_matrix h hml (subIndex_ok hM)
  rw [hA.P] at hP
  cases hP
  obtain ⟨hk, hv⟩ := sub_keys hM
  have hmake : Sys.make rf.sys.dtmc P (subIndex (subCols m) (subRows rf.sys m rf.C)) (IDict.mk' [] true)
      (IDict.mk' ((labS.set rf.targetL [(subCols m).length]).set rf.failL [(subCols m).length + 1]) true) none = .ok M' := by
    unfold Sys.remake at hr
    split at hr
    · rename_i hd
      unfold Sys.makeDTMC at hr
      split at hr
      swap
      · cases hr
      simp only at hr
      split at hr
      swap
      · cases hr
      rw [hd]
      exact hr
    · rename_i hd
      simp only [Bool.not_eq_true] at hd
      rw [hd]
      exact hr
  have hwf : M'.WF := by
    refine wf_of_make q1 hk hmake (fun e he => (q4 e he).ne') ?_
    rw [q2, q3]; exact q5
  obtain ⟨-, -, g, -, rfl⟩ := (make_iff hk).1 hmake
  have hne : rf.targetL ≠ rf.failL := by
    intro he
    have h1 := h.target
    rw [he, h.fail] at h1
    have : rf.sys.N - 1 ∈ ({rf.sys.N - 2} : Set Nat) := by rw [← h1]; rfl
    have := Set.mem_singleton_iff.1 this
    have := h.hN
    omega
  have hold : ∀ s s', (s, s') ∈ subCols m → s < rf.sys.N - 2 := by
    intro s s' hs
    have := ((hM.memS s).1 (List.mem_map_of_mem (f := Prod.fst) hs)).1
    exact mask_lt h hml (subIndex_ok hM) this
  refine ⟨hwf, q3, q2, fun s a k => mem_subIndex, q6, q7, q8, q9, rfl, ⟨?_, by simp [IDict.mk'], by simp [IDict.mk']⟩, rfl, ?_, rfl, rfl, rfl, q10⟩
  · exact setsOK_set (setsOK_set hA.okS _ (by simp)) _ (by simp)
  · intro l s'
    simp only [IDict.mk']
    rw [has_set, has_set, hA.hasS]
    have hT : ∀ s, Has rf.sys.labS.d rf.targetL s → s = rf.sys.N - 2 := by
      intro s hs
      have := labelled_iff.2 hs
      rw [h.target] at this
      exact this
    have hF : ∀ s, Has rf.sys.labS.d rf.failL s → s = rf.sys.N - 1 := by
      intro s hs
      have := labelled_iff.2 hs
      rw [h.fail] at this
      exact this
    split
    · rename_i hl
      subst hl
      constructor
      · intro hs; exact Or.inr (Or.inr ⟨rfl, by simpa using hs⟩)
      · rintro (⟨s, g1, g2⟩ | ⟨g1, -⟩ | ⟨-, rfl⟩)
        · have := hF s g2; have := hold s s' g1; omega
        · exact absurd g1.symm hne
        · simp
    · rename_i hl
      split
      · rename_i hl'
        subst hl'
        constructor
        · intro hs; exact Or.inr (Or.inl ⟨rfl, by simpa using hs⟩)
        · rintro (⟨s, g1, g2⟩ | ⟨-, rfl⟩ | ⟨g1, -⟩)
          · have := hT s g2; have := hold s s' g1; omega
          · simp
          · exact absurd g1 hne
      · rename_i hl'
        constructor
        · exact Or.inl
        · rintro (g | ⟨g, -⟩ | ⟨g, -⟩)
          · exact g
          · exact absurd g.symm hl'
          · exact absurd g.symm hl

theorem remake_total (hd : rf.sys.dtmc = true → ∀ s a i, ((s, a), i) ∈ rf.sys.idx → a = 0) : ∃ M',
    Sys.remake rf.sys.dtmc P (subIndex (subCols m) (subRows rf.sys m rf.C)) (IDict.mk' [] true)
      (IDict.mk' ((labS.set rf.targetL [(subCols m).length]).set rf.failL [(subCols m).length + 1]) true) none = .ok M' := by
  have hM := subMaps h hml
  obtain ⟨P', hP, q1, q2, q3, q4, q5, q6, q7, q8, q9, q10⟩ := sub_matrix h hml (subIndex_ok hM)
  rw [hA.P] at hP
  cases hP
  obtain ⟨hk, hv⟩ := sub_keys hM
  have hmake : ∀ dt labA' labS', ∃ M', Sys.make dt P (subIndex (subCols m) (subRows rf.sys m rf.C)) labA' labS' none = .ok M' := by
    intro dt labA' labS'
    have hnn : ∀ i j, 0 ≤ P.get i j := by
      intro i j
      by_cases hz : P.get i j = 0
      · rw [hz]
      · exact (q4 _ (mem_of_get_ne hz)).le
    refine (make_accepts q1 hk labA' labS' none).2 ⟨⟨?_, ?_, by simp⟩, ⟨?_, ?_⟩⟩
    · rw [q2, q3]
      intro i hi
      rw [q5 i hi, sub_self, abs_zero]
      positivity
    · rw [q2, q3]
      intro i hi j hj
      refine ⟨hnn i j, ?_⟩
      rw [← q5 i hi]
      exact Finset.single_le_sum (f := fun j => P.get i j) (fun j _ => hnn i j) (Finset.mem_range.2 hj)
    · intro e he e' he' hee
      exact List.inj_on_of_nodup_map hv he he' hee
    · rw [q2, q3]
      intro i hi
      by_cases hi' : i < (subRows rf.sys m rf.C).length
      · obtain ⟨s, a, n, hk'⟩ := hM.row_of_lt hi'
        refine ⟨n, a, mem_subIndex.2 (Or.inl ⟨_, hk'⟩), ?_⟩
        have := hM.col_lt (hM.row_spec hk').2.1
        omega
      · rcases (show i = (subRows rf.sys m rf.C).length ∨ i = (subRows rf.sys m rf.C).length + 1 by omega) with rfl | rfl
        · exact ⟨(subCols m).length, 0, mem_subIndex.2 (Or.inr (Or.inl ⟨rfl, rfl, rfl⟩)), by omega⟩
        · exact ⟨(subCols m).length + 1, 0, mem_subIndex.2 (Or.inr (Or.inr ⟨rfl, rfl, rfl⟩)), by omega⟩
  unfold Sys.remake
  split
  · rename_i hdt
    unfold Sys.makeDTMC
    rw [if_pos (by rw [q2, q3, maps_square hM (hd hdt)])]
    simp only
    rw [if_pos]
    · exact hmake _ _ _
    · rintro ⟨⟨s, a⟩, k⟩ he
      rcases mem_subIndex.1 he with ⟨⟨s', a'⟩, g⟩ | g | g
      · obtain ⟨e1, -, -, ⟨i, e3, -⟩, -⟩ := hM.row_spec g
        rw [e1]
        exact hd hdt _ _ _ e3
      · exact g.2.1
      · exact g.2.1
  · exact hmake _ _ _

end

/-- what a successful call of `subsys` yields -/
theorem subsys_spec {ρ : Graph.Rnd} {rf : RF K} (h : RFOK rf) (hS : Inv rf.sys.labS) {cert : List K} {mode : Mode} {ig : Bool}
    {x : Subsystem K} (hx : Subsystem.make rf cert mode ig = .ok x) {res : Result K} (hr : subsys ρ x = .ok res) :
    ∃ m, m.length = rf.N ∧ (∀ s, m.getD s false = true ↔ InMask rf mode cert s) ∧ SubSys rf m res.rf.sys ∧
      RF.make ρ res.rf.sys rf.initL rf.targetL rf.failL ig = .ok res.rf ∧
      ∀ sa ls, res.labT.get? sa = some ls ↔ ∃ o, (o, sa) ∈ subRows rf.sys m rf.C ∧ rf.sys.labelsByAction o = .ok ls := by
  obtain ⟨rfl, m, hm, hml, hms⟩ := mask_spec h hx
  have hL : LabOK rf m := by
    have hr' := hr
    unfold subsys at hr'
    simp only [hm, bind, Except.bind] at hr'
    split at hr'
    · cases hr'
    rename_i labS hlabS
    split at hr'
    · cases hr'
    rename_i st hst
    constructor
    · intro s hs
      obtain ⟨n, hn⟩ := exists_newState hs
      obtain ⟨s1, s2, e⟩ := foldlM_each _ _ _ hlabS (s, n) (mem_zipIdx.2 (newState_iff.1 hn))
      unfold Subsystem.labelStep at e
      simp only [bind, Except.bind] at e
      split at e
      · cases e
      · exact ⟨_, by assumption⟩
    · intro s a i hi hiC hs
      have hsN := RFOK.state_lt h hiC hi
      obtain ⟨s1, s2, e⟩ := foldlM_each _ _ _ hst i (List.mem_range.2 hiC)
      unfold rowStep at e
      have hms' : m[s]? = some true := by
        rw [List.getD_eq_getElem?_getD, List.getElem?_eq_getElem (by omega)] at hs
        rw [List.getElem?_eq_getElem (by omega)]
        simpa using hs
      simp only [(invGet?_iff h.wf.vals).2 hi, hms', bind, Except.bind] at e
      split at e
      · cases e
      · exact ⟨_, by assumption⟩
  obtain ⟨labS, labT, P, hA, he⟩ := subsys_eq h hS hm hml hL
  rw [he] at hr
  obtain ⟨M', h1, h2⟩ := bind_ok hr
  obtain ⟨rf', h3, h4⟩ := bind_ok h2
  cases h4
  obtain rfl := rf_sys h3
  exact ⟨m, hml, hms, remake_spec h hml hA h1, h3, hA.labT⟩

end Verif.Proofs
