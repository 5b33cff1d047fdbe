import Verif.Proofs.ReduceSys
/-! # Labels and rewards of the system built by `reduce` -/
set_option linter.unusedSectionVars false

namespace Verif.Proofs
open Verif.Model Verif.Spec Verif.Props Reduce Finset Verif.Proofs.IDict Verif.Model.IDict

variable {K : Type} [Field K] [LinearOrder K] [IsStrictOrderedRing K]

/-- a lookup of `.inv` after forcing it -/
theorem inv_getItem {α β : Type} [DecidableEq α] [DecidableEq β] {x : IDict α β} (h : Inv x) {v : β} {ls : List α}
    (hl : (x.force id).flip.getItem v = .ok ls) (k : α) : k ∈ ls ↔ Has x.d k v := by
  obtain ⟨a, b, c, i, hi⟩ := h.force (π := id) (fun l => List.Perm.refl _)
  obtain ⟨fa, fb, fc⟩ := a.flip hi
  rw [← b, a.conv i hi k v]
  unfold Has
  unfold getItem at hl
  rw [fb] at hl
  cases hg : i.get? v with
  | none =>
    rw [hg] at hl
    simp only at hl
    split at hl
    · cases hl; simp
    · cases hl
  | some s =>
    rw [hg] at hl
    cases hl
    simp

theorem inv_getItem_ok {α β : Type} [DecidableEq α] [DecidableEq β] {x : IDict α β} (h : Inv x) {v : β}
    (hv : x.dflt = true ∨ ∃ k, Has x.d k v) : ∃ ls, (x.force id).flip.getItem v = .ok ls := by
  obtain ⟨a, b, c, i, hi⟩ := h.force (π := id) (fun l => List.Perm.refl _)
  obtain ⟨fa, fb, fc⟩ := a.flip hi
  have fd : (x.force id).flip.dflt = x.dflt := by
    rw [← c]
    unfold IDict.flip
    split <;> rfl
  unfold getItem
  rw [fb]
  cases hg : i.get? v with
  | some s => exact ⟨s, rfl⟩
  | none =>
    rcases hv with hv | ⟨k, hk⟩
    · simp only [fd, hv, if_true]; exact ⟨_, rfl⟩
    · rw [← b, a.conv i hi k v] at hk
      unfold Has at hk
      rw [hg] at hk
      simp at hk

theorem has_foldl_add {α β : Type} [DecidableEq α] [DecidableEq β] (ls : List α) (v : β) :
    ∀ (d : Dict α (List β)) (l : α) (v' : β), Has (ls.foldl (fun d l => addTo d l v) d) l v' ↔
      (v' = v ∧ l ∈ ls) ∨ Has d l v' := by
  induction ls with
  | nil => simp
  | cons x ls ih =>
    intro d l v'
    rw [List.foldl_cons, ih, has_addTo, List.mem_cons]
    tauto

theorem ok_foldl_add {α β : Type} [DecidableEq α] [DecidableEq β] (ls : List α) (v : β) :
    ∀ (d : Dict α (List β)), SetsOK d → SetsOK (ls.foldl (fun d l => addTo d l v) d) := by
  induction ls with
  | nil => exact fun _ h => h
  | cons x ls ih => exact fun d h => ih _ (ok_addTo h _ _)

/-- state of the label loop after the rows `pre` -/
structure LabInv (M : Sys K) (rows : Dict (Nat × Nat) (Nat × Nat)) (C : Nat) (pre : List Nat)
    (st : Dict String (List Nat) × Dict String (List (Nat × Nat)) × Option (List K)) : Prop where
  okS : SetsOK st.1
  okA : SetsOK st.2.1
  hasS : ∀ l s', Has st.1 l s' ↔ ∃ k ∈ pre, ∃ s a b : Nat, rows[k]? = some ((s, a), (s', b)) ∧ Has M.labS.d l s
  hasA : ∀ l sa', Has st.2.1 l sa' ↔ ∃ k ∈ pre, ∃ sa : Nat × Nat, rows[k]? = some (sa, sa') ∧ Has M.labA.d l sa
  rewN : M.rew = none → st.2.2 = none
  rewS : ∀ r, M.rew = some r → ∃ nr, st.2.2 = some nr ∧ nr.length = C + 2 ∧
    (∀ k ∈ pre, ∀ sa sa' i, rows[k]? = some (sa, sa') → (sa, i) ∈ M.idx → nr[k]? = r[i]?) ∧
    ∀ k < C + 2, k ∉ pre → nr[k]? = some 0

theorem labelStep_spec {M : Sys K} (hM : M.WF) (hS : Inv M.labS) (hA : Inv M.labA) {mask : List Bool} {cols rows}
    (h : Maps M mask cols rows) {pre : List Nat} {k : Nat} (hkl : k < rows.length) {st st'}
    (hI : LabInv M rows rows.length pre st)
    (hs : labelStep M (rows.zipIdx.map fun e => (e.1.2, e.2)) rows st k = .ok st') :
    LabInv M rows rows.length (pre ++ [k]) st' := by
  have hvals : ((rows.zipIdx.map fun e => (e.1.2, e.2)).map Prod.snd).Nodup := by
    rw [List.map_map]; exact zipIdx_snd_nodup rows
  obtain ⟨ss, sa, n, hk⟩ := h.row_of_lt hkl
  have hm := List.mem_of_getElem? hk
  unfold labelStep at hs
  rw [(invGet?_iff hvals).2 (mem_newIndex.2 ⟨_, hk⟩)] at hs
  simp only [(invGet?_iff h.rvals).2 hm, bind, Except.bind] at hs
  split at hs
  · cases hs
  rename_i ls hls
  split at hs
  · cases hs
  rename_i las hlas
  have hls' := fun l => inv_getItem hS hls l
  have hlas' := fun l => inv_getItem hA hlas l
  have key : ∀ o : Option (List K), (M.rew = none → o = none) →
      (∀ r, M.rew = some r → ∃ nr, o = some nr ∧ nr.length = rows.length + 2 ∧
        (∀ k' ∈ pre ++ [k], ∀ sa sa' i, rows[k']? = some (sa, sa') → (sa, i) ∈ M.idx → nr[k']? = r[i]?) ∧
        ∀ k' < rows.length + 2, k' ∉ pre ++ [k] → nr[k']? = some 0) →
      LabInv M rows rows.length (pre ++ [k]) (ls.foldl (fun d l => addTo d l n) st.1,
        las.foldl (fun d l => addTo d l (n, sa)) st.2.1, o) := by
    intro o h1 h2
    refine ⟨ok_foldl_add _ _ _ hI.okS, ok_foldl_add _ _ _ hI.okA, ?_, ?_, h1, h2⟩
    · intro l s'
      simp only
      rw [has_foldl_add, hI.hasS, hls']
      constructor
      · rintro (⟨rfl, h3⟩ | ⟨k', h3, h4⟩)
        · exact ⟨k, by simp, ss, sa, sa, hk, h3⟩
        · exact ⟨k', by simp [h3], h4⟩
      · rintro ⟨k', h3, s, a, b, h4, h5⟩
        rcases List.mem_append.1 h3 with h3 | h3
        · exact Or.inr ⟨k', h3, s, a, b, h4, h5⟩
        · rw [List.mem_singleton] at h3
          subst h3
          rw [hk] at h4
          simp only [Option.some.injEq, Prod.mk.injEq] at h4
          obtain ⟨⟨rfl, -⟩, rfl, -⟩ := h4
          exact Or.inl ⟨rfl, h5⟩
    · intro l s'
      simp only
      rw [has_foldl_add, hI.hasA, hlas']
      constructor
      · rintro (⟨rfl, h3⟩ | ⟨k', h3, h4⟩)
        · exact ⟨k, by simp, (ss, sa), hk, h3⟩
        · exact ⟨k', by simp [h3], h4⟩
      · rintro ⟨k', h3, s, h4, h5⟩
        rcases List.mem_append.1 h3 with h3 | h3
        · exact Or.inr ⟨k', h3, s, h4, h5⟩
        · rw [List.mem_singleton] at h3
          subst h3
          rw [hk] at h4
          simp only [Option.some.injEq, Prod.mk.injEq] at h4
          obtain ⟨rfl, rfl⟩ := h4
          exact Or.inl ⟨rfl, h5⟩
  cases hr : M.rew with
  | none =>
    rw [hr] at hs
    simp only [Except.ok.injEq] at hs
    subst hs
    exact key _ hI.rewN (fun r e => by rw [hr] at e; cases e)
  | some r =>
    obtain ⟨nr, e1, e2, e3, e4⟩ := hI.rewS r hr
    rw [hr, e1] at hs
    simp only at hs
    split at hs
    · cases hs
    rename_i si hsi
    split at hs
    · cases hs
    rename_i x hx
    simp only [Except.ok.injEq] at hs
    subst hs
    refine key _ (fun e => by rw [hr] at e; cases e) ?_
    intro r' e
    rw [hr] at e
    cases e
    refine ⟨_, rfl, by simp [e2], ?_, ?_⟩
    · intro k' hk' sa0 sa1 i g1 g2
      by_cases hkk : k' = k
      · subst hkk
        rw [hk] at g1
        simp only [Option.some.injEq, Prod.mk.injEq] at g1
        obtain ⟨rfl, rfl⟩ := g1
        have := Dict.get?_of_mem hM.keys g2
        rw [hsi] at this
        cases this
        rw [hx, List.getElem?_set_self (by omega)]
      · rw [List.getElem?_set_ne (Ne.symm hkk)]
        refine e3 k' ?_ sa0 sa1 i g1 g2
        simpa [hkk] using hk'
    · intro k' hk' hn
      simp only [List.mem_append, List.mem_singleton, not_or] at hn
      rw [List.getElem?_set_ne (Ne.symm hn.2)]
      exact e4 k' hk' hn.1

theorem foldlM_total {σ ι : Type} {f : σ → ι → Except Err σ} : ∀ (l : List ι) (s : σ),
    (∀ s, ∀ a ∈ l, ∃ s', f s a = .ok s') → ∃ s', l.foldlM f s = .ok s' := by
  intro l
  induction l with
  | nil => intro s _; exact ⟨s, rfl⟩
  | cons a l ih =>
    intro s h
    obtain ⟨s1, h1⟩ := h s a (by simp)
    rw [foldlM_cons_ok h1]
    exact ih s1 fun s a ha => h s a (by simp [ha])

theorem labelStep_total {M : Sys K} (hM : M.WF) {mask : List Bool} {cols rows}
    (h : Maps M mask cols rows) (hS : ∀ s < M.N, ∃ ls, M.labelsByState s = .ok ls)
    (hA : ∀ sa i, (sa, i) ∈ M.idx → ∃ ls, M.labelsByAction sa = .ok ls)
    (hr : ∀ r, M.rew = some r → ∀ i < M.C, i < r.length) {k : Nat} (hkl : k < rows.length) (st) :
    ∃ st', labelStep M (rows.zipIdx.map fun e => (e.1.2, e.2)) rows st k = .ok st' := by
  have hvals : ((rows.zipIdx.map fun e => (e.1.2, e.2)).map Prod.snd).Nodup := by
    rw [List.map_map]; exact zipIdx_snd_nodup rows
  obtain ⟨ss, sa, n, hk⟩ := h.row_of_lt hkl
  have hm := List.mem_of_getElem? hk
  obtain ⟨-, hc, -, ⟨i, hi, hiC⟩, -⟩ := h.row_spec hk
  obtain ⟨ls, hls⟩ := hS ss (h.col_state_lt hM hc)
  obtain ⟨las, hlas⟩ := hA _ _ hi
  unfold labelStep
  rw [(invGet?_iff hvals).2 (mem_newIndex.2 ⟨_, hk⟩)]
  simp only [(invGet?_iff h.rvals).2 hm, bind, Except.bind, hls, hlas]
  split
  · rename_i r nr e1 e2
    rw [Dict.get?_of_mem hM.keys hi]
    simp only [List.getElem?_eq_getElem (hr r e1 i hiC)]
    exact ⟨_, rfl⟩
  · exact ⟨_, rfl⟩

/-! ### the whole system -/

/-- what `__initialize_system` yields -/
structure RedSys (M : Sys K) (T : List Nat) (mask : List Bool) (cols : Dict Nat Nat)
    (rows : Dict (Nat × Nat) (Nat × Nat)) (ntl nfl : String) (M' : Sys K) : Prop where
  maps : Maps M mask cols rows
  wf : M'.WF
  hN : M'.N = cols.length + 2
  hC : M'.C = rows.length + 2
  idx : ∀ s a k : Nat, ((s, a), k) ∈ M'.idx ↔ (∃ o, rows[k]? = some (o, (s, a))) ∨
    (s = cols.length ∧ a = 0 ∧ k = rows.length) ∨ (s = cols.length + 1 ∧ a = 0 ∧ k = rows.length + 1)
  kept : ∀ k s a n i d nd : Nat, rows[k]? = some ((s, a), (n, a)) → s ∉ T → ((s, a), i) ∈ M.idx → (d, nd) ∈ cols →
    M'.P.get k nd = M.P.get i d
  keptT : ∀ k s a n nd : Nat, rows[k]? = some ((s, a), (n, a)) → s ∈ T → nd < cols.length → M'.P.get k nd = 0
  goal : ∀ k s a n : Nat, rows[k]? = some ((s, a), (n, a)) → M'.P.get k cols.length = if s ∈ T then 1 else 0
  goalRow : M'.P.get rows.length cols.length = 1
  failRow : M'.P.get (rows.length + 1) (cols.length + 1) = 1
  dtmc : M'.dtmc = M.dtmc
  labI : Inv M'.labS
  labSd : M'.labS.dflt = true
  labS : ∀ l s', Has M'.labS.d l s' ↔ (∃ s, (s, s') ∈ cols ∧ Has M.labS.d l s) ∨ (l = ntl ∧ s' = cols.length) ∨
    (l = nfl ∧ s' = cols.length + 1)
  labA : M.dtmc = false → Inv M'.labA ∧ ∀ l sa', Has M'.labA.d l sa' ↔ ∃ sa, (sa, sa') ∈ rows ∧ Has M.labA.d l sa
  rewN : M.rew = none → M'.rew = none
  rewS : ∀ r, M.rew = some r → ∃ nr, M'.rew = some nr ∧ nr.length = rows.length + 2 ∧
    (∀ (k : Nat) (sa sa' : Nat × Nat) (i : Nat), rows[k]? = some (sa, sa') → (sa, i) ∈ M.idx → nr[k]? = r[i]?) ∧
    nr[rows.length]? = some 0 ∧ nr[rows.length + 1]? = some 0
  last : ∃ l, M'.P.items = l ++ [((rows.length, cols.length), 1), ((rows.length + 1, cols.length + 1), 1)] ∧
    ∀ e ∈ l, e.1.1 < rows.length
  noInv : M'.labS.i = none
  labAI : Inv M'.labA
  noInvA : M'.labA.i = none
  labAd : M'.labA.dflt = true
  act0 : M'.dtmc = true → ∀ e ∈ M'.idx, e.1.2 = 0

/-- the two new index entries -/
theorem bput_two {M : Sys K} {mask : List Bool} {cols rows} (h : Maps M mask cols rows) :
    bput (rows.zipIdx.map fun e => (e.1.2, e.2)) (cols.length, 0) rows.length =
      .ok ((rows.zipIdx.map fun e => (e.1.2, e.2)) ++ [((cols.length, 0), rows.length)]) ∧
    bput ((rows.zipIdx.map fun e => (e.1.2, e.2)) ++ [((cols.length, 0), rows.length)]) (cols.length + 1, 0)
      (rows.length + 1) = .ok ((rows.zipIdx.map fun e => (e.1.2, e.2)) ++ [((cols.length, 0), rows.length),
        ((cols.length + 1, 0), rows.length + 1)]) := by
  have hks : ∀ s a, (s, a) ∈ (rows.zipIdx.map fun e => (e.1.2, e.2)).map Prod.fst → s < cols.length := by
    intro s a hm
    obtain ⟨⟨sa, k⟩, h1, h2⟩ := List.mem_map.1 hm
    simp only at h2
    subst h2
    obtain ⟨⟨s', a'⟩, ho⟩ := mem_newIndex.1 h1
    exact h.col_lt (h.row_spec ho).2.1
  have hvs : ∀ k, k ∈ (rows.zipIdx.map fun e => (e.1.2, e.2)).map Prod.snd → k < rows.length := by
    intro k hm
    obtain ⟨⟨sa, k'⟩, h1, h2⟩ := List.mem_map.1 hm
    simp only at h2
    subst h2
    obtain ⟨o, ho⟩ := mem_newIndex.1 h1
    exact (List.getElem?_eq_some_iff.1 ho).1
  refine ⟨bput_new ?_ ?_, ?_⟩
  · intro hm; exact lt_irrefl _ (hks _ _ hm)
  · intro hm; exact lt_irrefl _ (hvs _ hm)
  · rw [bput_new, List.append_assoc]; rfl
    · rw [List.map_append]
      intro hm
      rcases List.mem_append.1 hm with hm | hm
      · have := hks _ _ hm; omega
      · simp at hm
    · rw [List.map_append]
      intro hm
      rcases List.mem_append.1 hm with hm | hm
      · have := hvs _ hm; omega
      · simp at hm

theorem initializeSystem_spec {M : Sys K} (hM : M.WF) (hS : Inv M.labS) (hA : Inv M.labA) {mask : List Bool} {cols rows}
    (h : Maps M mask cols rows) {T : List Nat} {P : Dok K} (hP : newP M T cols rows = .ok P) {ntl nfl : String} {M' : Sys K}
    (hi : initializeSystem P (rows.zipIdx.map fun e => (e.1.2, e.2)) (toTarget T rows) rows M ntl nfl = .ok M') :
    RedSys M T mask cols rows ntl nfl M' := by
  obtain ⟨pr, pc, q1, q2, q3, q4, q5, q6, q7, q8, q9, q10, q11⟩ := reduced_matrix hM h T hP
  obtain ⟨b1, b2⟩ := bput_two h
  unfold initializeSystem at hi
  rw [pr, pc] at hi
  simp only [b1, b2, bind, Except.bind] at hi
  split at hi
  · cases hi
  rename_i st hst
  obtain ⟨labS, labA, rew⟩ := st
  have hL : LabInv M rows rows.length ([] ++ List.range rows.length) (labS, labA, rew) := by
    refine foldlM_inv (I := LabInv M rows rows.length) _ _ _ _ ?_ ?_ hst
    · intro pre a s s' ha hI hs
      exact labelStep_spec hM hS hA h (by simpa using ha) hI hs
    · refine ⟨⟨by simp [Dict.keys], by simp [Dict.get?]⟩, ⟨by simp [Dict.keys], by simp [Dict.get?]⟩, by simp [Has, Dict.get?],
        by simp [Has, Dict.get?], ?_, ?_⟩
      · intro e; simp [e]
      · intro r e
        refine ⟨List.replicate (rows.length + 2) 0, by simp [e], by simp, by simp, ?_⟩
        intro k hk _
        rw [List.getElem?_replicate, if_pos hk]
  simp only [List.nil_append] at hL
  simp only at hi
  -- all constructors end in `make`
  obtain ⟨labA', hmake, hA'⟩ : ∃ labA', Sys.make M.dtmc (complete P (toTarget T rows))
      ((rows.zipIdx.map fun e => (e.1.2, e.2)) ++ [((cols.length, 0), rows.length),
        ((cols.length + 1, 0), rows.length + 1)]) labA'
      (IDict.mk' (addTo (addTo labS nfl (cols.length + 1)) ntl cols.length) true) rew = .ok M' ∧
      (M.dtmc = false → labA' = IDict.mk' labA true) ∧ (M.dtmc = true → labA' = IDict.mk' [] true) ∧
      (M.dtmc = true → ∀ e ∈ (rows.zipIdx.map fun e => (e.1.2, e.2)) ++ [((cols.length, 0), rows.length),
        ((cols.length + 1, 0), rows.length + 1)], e.1.2 = 0) := by
    unfold Sys.remake at hi
    split at hi
    · rename_i hd
      unfold Sys.makeDTMC at hi
      split at hi
      swap
      · cases hi
      simp only at hi
      split at hi
      swap
      · cases hi
      rename_i h0
      rw [hd]
      exact ⟨_, hi, by simp, fun _ => rfl, fun _ => h0⟩
    · rename_i hd
      simp only [Bool.not_eq_true] at hd
      rw [hd]
      exact ⟨_, hi, fun _ => rfl, by simp, by simp⟩
  have hk : (((rows.zipIdx.map fun e : ((Nat × Nat) × (Nat × Nat)) × Nat => (e.1.2, e.2)) ++ [((cols.length, 0), rows.length),
        ((cols.length + 1, 0), rows.length + 1)]).map Prod.fst).Nodup := by
    have hks : ∀ s a, (s, a) ∈ (rows.zipIdx.map fun e => (e.1.2, e.2)).map Prod.fst → s < cols.length := by
      intro s a hm
      obtain ⟨⟨sa, k⟩, h1, h2⟩ := List.mem_map.1 hm
      simp only at h2
      subst h2
      obtain ⟨⟨s', a'⟩, ho⟩ := mem_newIndex.1 h1
      exact h.col_lt (h.row_spec ho).2.1
    rw [List.map_append, List.nodup_append]
    refine ⟨?_, by simp, ?_⟩
    · have : (rows.zipIdx.map fun e => (e.1.2, e.2)).map Prod.fst = rows.map Prod.snd := by
        rw [List.map_map]
        conv_rhs => rw [← List.zipIdx_map_fst 0 rows, List.map_map]
        rfl
      rw [this]; exact h.rvals
    · rintro ⟨s, a⟩ h1 x h2 rfl
      have := hks _ _ h1
      simp only [List.map_cons, List.map_nil, List.mem_cons, Prod.mk.injEq, List.not_mem_nil, or_false] at h2
      omega
  have hwf : M'.WF := by
    refine wf_of_make q1 hk hmake (fun e he => (q4 e he).ne') ?_
    rw [q2, q3]; exact q5
  obtain ⟨-, -, g, -, rfl⟩ := (make_iff hk).1 hmake
  obtain ⟨hA', hA0, h0⟩ := hA'
  have hAA : Inv labA' ∧ labA'.i = none ∧ labA'.dflt = true := by
    cases hd : M.dtmc with
    | false => rw [hA' hd]; exact ⟨⟨hL.okA, by simp [IDict.mk'], by simp [IDict.mk']⟩, rfl, rfl⟩
    | true => rw [hA0 hd]; exact ⟨⟨⟨by simp [IDict.mk', Dict.keys], by simp [IDict.mk', Dict.get?]⟩, by simp [IDict.mk'], by simp [IDict.mk']⟩, rfl, rfl⟩
  refine ⟨h, hwf, q3, q2, ?_, q6, q7, q8, q9, q10, rfl, ⟨?_, by simp [IDict.mk'], by simp [IDict.mk']⟩, rfl, ?_, ?_, ?_, ?_, q11,
    rfl, hAA.1, hAA.2.1, hAA.2.2, h0⟩
  · intro s a k
    simp only
    rw [List.mem_append, mem_newIndex]
    simp [and_assoc]
  · exact ok_addTo (ok_addTo hL.okS _ _) _ _
  · intro l s'
    simp only [IDict.mk']
    rw [has_addTo, has_addTo, hL.hasS]
    constructor
    · rintro (h1 | h1 | ⟨k, -, s, a, b, h1, h2⟩)
      · exact Or.inr (Or.inl h1)
      · exact Or.inr (Or.inr h1)
      · exact Or.inl ⟨s, (h.row_spec h1).2.1, h2⟩
    · rintro (⟨s, h1, h2⟩ | h1 | h1)
      · obtain ⟨h3, a, i, h4, h5⟩ := (h.memS s).1 (List.mem_map_of_mem (f := Prod.fst) h1)
        obtain ⟨k, n, hk⟩ := h.row_exists h3 h4 h5
        obtain rfl := h.col_fun (h.row_spec hk).2.1 h1
        exact Or.inr (Or.inr ⟨k, List.mem_range.2 (h.row_spec hk).2.2.2.2, s, a, a, hk, h2⟩)
      · exact Or.inl h1
      · exact Or.inr (Or.inl h1)
  · intro hd
    rw [hA' hd]
    refine ⟨⟨hL.okA, by simp [IDict.mk'], by simp [IDict.mk']⟩, ?_⟩
    intro l sa'
    simp only [IDict.mk']
    rw [hL.hasA]
    constructor
    · rintro ⟨k, -, sa, h1, h2⟩
      exact ⟨sa, List.mem_of_getElem? h1, h2⟩
    · rintro ⟨sa, h1, h2⟩
      obtain ⟨k, hk⟩ := List.mem_iff_getElem?.1 h1
      exact ⟨k, List.mem_range.2 (List.getElem?_eq_some_iff.1 hk).1, sa, hk, h2⟩
  · exact hL.rewN
  · intro r hr
    obtain ⟨nr, e1, e2, e3, e4⟩ := hL.rewS r hr
    refine ⟨nr, e1, e2, ?_, e4 _ (by omega) (by simp), e4 _ (by omega) (by simp)⟩
    intro k sa sa' i h1 h2
    exact e3 k (List.mem_range.2 (List.getElem?_eq_some_iff.1 h1).1) sa sa' i h1 h2

/-- sufficient conditions for `__initialize_system` to succeed -/
theorem initializeSystem_total {M : Sys K} (hM : M.WF) {mask : List Bool} {cols rows}
    (h : Maps M mask cols rows) (hS : ∀ s < M.N, ∃ ls, M.labelsByState s = .ok ls)
    (hA : ∀ sa i, (sa, i) ∈ M.idx → ∃ ls, M.labelsByAction sa = .ok ls)
    (hr : ∀ r, M.rew = some r → ∀ i < M.C, ∃ x, r[i]? = some x ∧ 0 ≤ x)
    (hsA : Inv M.labS) (hsI : Inv M.labA)
    (hd : M.dtmc = true → ∀ s a i, ((s, a), i) ∈ M.idx → a = 0)
    {T : List Nat} {P : Dok K} (hP : newP M T cols rows = .ok P) (ntl nfl : String) :
    ∃ M', initializeSystem P (rows.zipIdx.map fun e => (e.1.2, e.2)) (toTarget T rows) rows M ntl nfl = .ok M' := by
  obtain ⟨pr, pc, q1, q2, q3, q4, q5, q6, q7, q8, q9, q10, q11⟩ := reduced_matrix hM h T hP
  obtain ⟨b1, b2⟩ := bput_two h
  unfold initializeSystem
  rw [pr, pc]
  simp only [b1, b2, bind, Except.bind]
  obtain ⟨⟨labS, labA, rew⟩, hst⟩ := foldlM_total (f := labelStep M (rows.zipIdx.map fun e => (e.1.2, e.2)) rows)
    (List.range rows.length) ([], [], M.rew.map fun _ => List.replicate (rows.length + 2) (0 : K)) (by
      intro s a ha
      refine labelStep_total hM h hS hA ?_ (by simpa using ha) s
      intro r e i hi
      obtain ⟨x, hx, -⟩ := hr r e i hi
      exact (List.getElem?_eq_some_iff.1 hx).1)
  have hL : LabInv M rows rows.length ([] ++ List.range rows.length) (labS, labA, rew) := by
    refine foldlM_inv (I := LabInv M rows rows.length) _ _ _ _ ?_ ?_ hst
    · intro pre a s s' ha hI hs
      exact labelStep_spec hM hsA hsI h (by simpa using ha) hI hs
    · refine ⟨⟨by simp [Dict.keys], by simp [Dict.get?]⟩, ⟨by simp [Dict.keys], by simp [Dict.get?]⟩, by simp [Has, Dict.get?],
        by simp [Has, Dict.get?], ?_, ?_⟩
      · intro e; simp [e]
      · intro r e
        refine ⟨List.replicate (rows.length + 2) 0, by simp [e], by simp, by simp, ?_⟩
        intro k hk _
        rw [List.getElem?_replicate, if_pos hk]
  simp only [List.nil_append] at hL
  rw [hst]
  simp only
  have hkk : ∀ s a, (s, a) ∈ (rows.zipIdx.map fun e : ((Nat × Nat) × (Nat × Nat)) × Nat => (e.1.2, e.2)).map Prod.fst →
      s < cols.length ∧ ∃ s' i, ((s', a), i) ∈ M.idx := by
    intro s a hm
    obtain ⟨⟨sa, k⟩, h1, h2⟩ := List.mem_map.1 hm
    simp only at h2
    subst h2
    obtain ⟨⟨s', a'⟩, ho⟩ := mem_newIndex.1 h1
    obtain ⟨e1, e2, -, ⟨i, e3, -⟩, -⟩ := h.row_spec ho
    subst e1
    exact ⟨h.col_lt e2, s', i, e3⟩
  have hvv : ∀ k, k ∈ (rows.zipIdx.map fun e : ((Nat × Nat) × (Nat × Nat)) × Nat => (e.1.2, e.2)).map Prod.snd →
      k < rows.length := by
    intro k hm
    obtain ⟨⟨sa, k'⟩, h1, h2⟩ := List.mem_map.1 hm
    simp only at h2
    subst h2
    obtain ⟨o, ho⟩ := mem_newIndex.1 h1
    exact (List.getElem?_eq_some_iff.1 ho).1
  have hk : (((rows.zipIdx.map fun e : ((Nat × Nat) × (Nat × Nat)) × Nat => (e.1.2, e.2)) ++ [((cols.length, 0), rows.length),
        ((cols.length + 1, 0), rows.length + 1)]).map Prod.fst).Nodup := by
    rw [List.map_append, List.nodup_append]
    refine ⟨?_, by simp, ?_⟩
    · have : (rows.zipIdx.map fun e : ((Nat × Nat) × (Nat × Nat)) × Nat => (e.1.2, e.2)).map Prod.fst = rows.map Prod.snd := by
        rw [List.map_map]
        conv_rhs => rw [← List.zipIdx_map_fst 0 rows, List.map_map]
        rfl
      rw [this]; exact h.rvals
    · rintro ⟨s, a⟩ h1 x h2 rfl
      have := (hkk _ _ h1).1
      simp only [List.map_cons, List.map_nil, List.mem_cons, Prod.mk.injEq, List.not_mem_nil, or_false] at h2
      omega
  have hv : (((rows.zipIdx.map fun e : ((Nat × Nat) × (Nat × Nat)) × Nat => (e.1.2, e.2)) ++ [((cols.length, 0), rows.length),
        ((cols.length + 1, 0), rows.length + 1)]).map Prod.snd).Nodup := by
    rw [List.map_append, List.nodup_append]
    refine ⟨?_, by simp, ?_⟩
    · rw [List.map_map]; exact zipIdx_snd_nodup rows
    · rintro k h1 x h2 rfl
      have := hvv _ h1
      simp only [List.map_cons, List.map_nil, List.mem_cons, List.not_mem_nil, or_false] at h2
      omega
  have hmake : ∀ dt labA' labS', ∃ M', Sys.make dt (complete P (toTarget T rows))
      ((rows.zipIdx.map fun e : ((Nat × Nat) × (Nat × Nat)) × Nat => (e.1.2, e.2)) ++ [((cols.length, 0), rows.length),
        ((cols.length + 1, 0), rows.length + 1)]) labA' labS' rew = .ok M' := by
    intro dt labA' labS'
    have hnn : ∀ i j, 0 ≤ (complete P (toTarget T rows)).get i j := by
      intro i j
      by_cases hz : (complete P (toTarget T rows)).get i j = 0
      · rw [hz]
      · exact (q4 _ (mem_of_get_ne hz)).le
    refine (make_accepts q1 hk labA' labS' rew).2 ⟨⟨?_, ?_, ?_⟩, ⟨?_, ?_⟩⟩
    · rw [q2, q3]
      intro i hi
      rw [q5 i hi, sub_self, abs_zero]
      positivity
    · rw [q2, q3]
      intro i hi j hj
      refine ⟨hnn i j, ?_⟩
      rw [← q5 i hi]
      exact Finset.single_le_sum (f := fun j => (complete P (toTarget T rows)).get i j) (fun j _ => hnn i j)
        (Finset.mem_range.2 hj)
    · rw [q2]
      intro r hr' i hi
      cases e : M.rew with
      | none =>
        have := hL.rewN e
        simp only at this
        rw [this] at hr'; cases hr'
      | some r0 =>
        obtain ⟨nr, e1, e2, e3, e4⟩ := hL.rewS r0 e
        simp only at e1
        rw [hr'] at e1
        cases e1
        by_cases hi' : i < rows.length
        · obtain ⟨s, a, n, hk'⟩ := h.row_of_lt hi'
          obtain ⟨-, -, -, ⟨j, hj, hjC⟩, -⟩ := h.row_spec hk'
          rw [e3 i (List.mem_range.2 hi') _ _ j hk' hj]
          exact hr r0 e j hjC
        · exact ⟨0, e4 i hi (by simpa using hi'), le_refl _⟩
    · intro e he e' he' hee
      exact List.inj_on_of_nodup_map hv he he' hee
    · rw [q2, q3]
      intro i hi
      by_cases hi' : i < rows.length
      · obtain ⟨s, a, n, hk'⟩ := h.row_of_lt hi'
        refine ⟨n, a, List.mem_append_left _ (mem_newIndex.2 ⟨_, hk'⟩), ?_⟩
        have := h.col_lt (h.row_spec hk').2.1
        omega
      · rcases (show i = rows.length ∨ i = rows.length + 1 by omega) with rfl | rfl
        · exact ⟨cols.length, 0, by simp, by omega⟩
        · exact ⟨cols.length + 1, 0, by simp, by omega⟩
  unfold Sys.remake
  split
  · rename_i hdt
    unfold Sys.makeDTMC
    have hsq : rows.length = cols.length := by
      have hsub : ∀ e ∈ rows, e.1.2 = 0 := by
        intro e he
        obtain ⟨-, i, hi, -⟩ := (h.memR e.1).1 (List.mem_map_of_mem he)
        exact hd hdt _ _ _ hi
      have hinj : (rows.map fun e => e.1.1).Nodup := by
        have e0 : (rows.map fun e => e.1.1) = (rows.map Prod.fst).map fun e : Nat × Nat => e.1 := by
          rw [List.map_map]; rfl
        rw [e0]
        refine List.Nodup.map_on ?_ h.rnd
        rintro ⟨a, b⟩ hx ⟨c, d⟩ hy hxy
        obtain ⟨e, he, e1⟩ := List.mem_map.1 hx
        obtain ⟨e', he', e1'⟩ := List.mem_map.1 hy
        have g1 := hsub e he
        have g2 := hsub e' he'
        rw [e1] at g1
        rw [e1'] at g2
        simp only at g1 g2 hxy
        rw [hxy, g1, g2]
      have hperm : (rows.map fun e => e.1.1).Perm (cols.map Prod.fst) := by
        rw [List.perm_ext_iff_of_nodup hinj h.nd]
        intro s
        rw [h.memS]
        constructor
        · intro hm
          obtain ⟨e, he, rfl⟩ := List.mem_map.1 hm
          obtain ⟨g1, i, g2, g3⟩ := (h.memR e.1).1 (List.mem_map_of_mem he)
          exact ⟨g1, e.1.2, i, g2, g3⟩
        · rintro ⟨g1, a, i, g2, g3⟩
          obtain ⟨e, he, e1⟩ := List.mem_map.1 ((h.memR (s, a)).2 ⟨g1, i, g2, g3⟩)
          exact List.mem_map.2 ⟨e, he, by rw [e1]⟩
      simpa using hperm.length_eq
    rw [if_pos (by rw [q2, q3, hsq])]
    simp only
    rw [if_pos]
    · exact hmake _ _ _
    · rintro ⟨⟨s, a⟩, k⟩ he
      rcases List.mem_append.1 he with he | he
      · obtain ⟨-, s', i, hi⟩ := hkk s a (List.mem_map_of_mem (f := Prod.fst) he)
        exact hd hdt _ _ _ hi
      · simp only [List.mem_cons, Prod.mk.injEq, List.not_mem_nil, or_false] at he
        rcases he with he | he
        · exact he.1.2
        · exact he.1.2
  · exact hmake _ _ _

end Verif.Proofs
