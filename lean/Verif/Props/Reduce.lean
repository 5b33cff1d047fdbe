import Verif.Proofs.ReduceSem
import Verif.Props.Cert
import Verif.Props.ExampleTools
/-!
# C13–C17, C57: `ReachabilityForm.reduce`

`M` is any well-formed system in which every state has an action; its label maps are in any state that
their methods can produce.
-/
set_option linter.unusedSectionVars false

namespace Verif.Props
open Verif.Model Verif.Spec Verif.Proofs Verif.Proofs.IDict Finset

variable {K : Type} [Field K] [LinearOrder K] [IsStrictOrderedRing K]

/-- a label map after any history of calls -/
def LabelMap {α β : Type} [DecidableEq α] [DecidableEq β] (x : IDict α β) : Prop :=
  ∃ (π : List β → List β) (d : Dict α (List β)) (dflt : Bool) (os : List (MapOp α β)),
    (∀ l, (π l).Perm l) ∧ IsPyDict d ∧ x = ((IDict.mk' d dflt).run π os).2

theorem LabelMap.inv {α β : Type} [DecidableEq α] [DecidableEq β] {x : IDict α β} (h : LabelMap x) : Inv x := by
  obtain ⟨π, d, dflt, os, h1, h2, rfl⟩ := h
  exact (run_spec h1 (inv_of_isPyDict h2 dflt) os).1

/-- what `reduce` may be applied to -/
structure Input (M : Sys K) : Prop where
  wf : M.WF
  total : M.Total
  labS : LabelMap M.labS
  labA : LabelMap M.labA

/-- `u` has an action that leads to `v` with positive probability -/
def Step (M : Sys K) (u v : Nat) : Prop := ∃ a i, ((u, a), i) ∈ M.idx ∧ i < M.C ∧ 0 < M.P.get i v

/-- `s` can reach a state labelled `tl`, and the initial state can reach `s` without passing one before -/
def Needed (M : Sys K) (il tl : String) (s : Nat) : Prop :=
  (∃ t ∈ M.labelled tl, Relation.ReflTransGen (Step M) s t) ∧
  ∃ i ∈ M.labelled il, Relation.ReflTransGen (fun u v => u ∉ M.labelled tl ∧ Step M u v) i s

variable {ρ : Graph.Rnd} {M : Sys K} {il tl ntl nfl : String} {res : Reduce.Result K}

theorem mem_T {T : List Nat} (h : M.statesByLabel tl = .ok T) (s : Nat) : s ∈ T ↔ s ∈ M.labelled tl := by
  rw [labelled_iff, has_of_statesByLabel h]

theorem kept_needed {T : List Nat} {i : Nat} (hT : M.statesByLabel tl = .ok T) (hi : M.statesByLabel il = .ok [i]) (s : Nat) :
    Kept M T i s ↔ Needed M il tl s := by
  unfold Kept Needed ReachAvoid
  have e : {x | x ∈ T} = M.labelled tl := by ext x; exact mem_T hT x
  have e' : {x | x ∈ [i]} = M.labelled il := by ext x; exact mem_T hi x
  rw [e, e']
  refine and_congr ?_ Iff.rfl
  constructor
  · rintro ⟨t, h1, h2⟩; exact ⟨t, (mem_T hT t).1 h1, h2⟩
  · rintro ⟨t, h1, h2⟩; exact ⟨t, (mem_T hT t).2 h1, h2⟩

/-! ### C13 -/

/-- **C13.** The system of a reachability form returned by `reduce` passes `assert_consistency`, i.e.: one
initial, target and fail state; target and fail are absorbing, in the last two rows and columns; every state
but fail is reachable from the initial state and reaches the target. -/
theorem C13_reduce_consistent (hM : Input M) (hne : ntl ≠ nfl) (h : M.reduce ρ il tl ntl nfl = .ok res) :
    res.rf.sys.assertConsistency il ntl nfl = .ok () ∧
    ∃ i, res.rf.sys.statesByLabel il = .ok [i] ∧ i < res.rf.sys.N - 2 ∧
      res.rf.sys.statesByLabel ntl = .ok [res.rf.sys.N - 2] ∧ res.rf.sys.statesByLabel nfl = .ok [res.rf.sys.N - 1] ∧
      2 ≤ res.rf.sys.N ∧ 2 ≤ res.rf.sys.C ∧
      (∀ a r, ((res.rf.sys.N - 2, a), r) ∈ res.rf.sys.idx ↔ a = 0 ∧ r = res.rf.sys.C - 2) ∧
      (∀ a r, ((res.rf.sys.N - 1, a), r) ∈ res.rf.sys.idx ↔ a = 0 ∧ r = res.rf.sys.C - 1) ∧
      res.rf.sys.P.get (res.rf.sys.C - 2) (res.rf.sys.N - 2) = 1 ∧
      res.rf.sys.P.get (res.rf.sys.C - 1) (res.rf.sys.N - 1) = 1 ∧
      (∀ s < res.rf.sys.N, s ≠ res.rf.sys.N - 1 → Relation.ReflTransGen (Step res.rf.sys) i s ∧
        Relation.ReflTransGen (Step res.rf.sys) s (res.rf.sys.N - 2)) ∧
      ¬ Relation.ReflTransGen (Step res.rf.sys) (res.rf.sys.N - 1) (res.rf.sys.N - 2) := by
  obtain ⟨T, i0, mask, hR, hrf⟩ := reduce_spec hM.wf hM.labS.inv hM.labA.inv h
  obtain ⟨i', hi'⟩ := hR.init_kept hrf
  have hc := hR.consistent hM.wf hM.total hne hi'
  refine ⟨hc, ?_⟩
  obtain ⟨i, l1, l2, l3, hN, hC, -, -, -, -, -, p1, p2, r1, r2⟩ := assertConsistency_ok hR.red.wf hc
  have eN := hR.red.hN
  have eC := hR.red.hC
  have e1 : res.rf.sys.N - 2 = res.cols.length := by omega
  have e2 : res.rf.sys.N - 1 = res.cols.length + 1 := by omega
  have e3 : res.rf.sys.C - 2 = res.rows.length := by omega
  have e4 : res.rf.sys.C - 1 = res.rows.length + 1 := by omega
  have hii : i = i' := by
    have := (hR.labels hne).2.2.2.2 i' hi'
    rw [l1] at this
    cases this; rfl
  refine ⟨i, l1, ?_, l2, l3, hN, hC, ?_, ?_, p1, p2, fun s hs hne => ⟨r2 s hs hne, r1 s hs hne⟩, ?_⟩
  · rw [hii, e1]; exact hR.red.maps.col_lt hi'
  · intro a r
    rw [e1, e3]
    exact ⟨hR.goal_idx, fun h => (hR.red.idx _ _ _).2 (Or.inr (Or.inl ⟨rfl, h.1, h.2⟩))⟩
  · intro a r
    rw [e2, e4]
    exact ⟨hR.fail_idx, fun h => (hR.red.idx _ _ _).2 (Or.inr (Or.inr ⟨rfl, h.1, h.2⟩))⟩
  · rw [e1, e2]
    intro hr
    have := hR.fail_stuck hr
    omega

/-- **C13**, existence: `reduce` returns whenever the single initial state reaches a target state, the new
labels are unused, states can be asked for their labels and rewards were accepted by the constructor. -/
theorem C13_reduce_returns (hM : Input M) (hne : ntl ≠ nfl) {i : Nat} (hi : M.statesByLabel il = .ok [i])
    (hreach : ∃ t ∈ M.labelled tl, Relation.ReflTransGen (Step M) i t) (hTN : ∀ t ∈ M.labelled tl, t < M.N)
    (h1 : ntl ∉ M.labS.d.keys) (h2 : nfl ∉ M.labS.d.keys)
    (hlS : M.labS.dflt = true ∨ ∀ s < M.N, ∃ l, s ∈ M.labelled l)
    (hlA : M.labA.dflt = true)
    (hr : ∀ r, M.rew = some r → ∀ i < M.C, ∃ x, r[i]? = some x ∧ 0 ≤ x)
    (hd : M.dtmc = true → ∀ s a i, ((s, a), i) ∈ M.idx → a = 0) :
    ∃ res, M.reduce ρ il tl ntl nfl = .ok res := by
  obtain ⟨T, hT⟩ : ∃ T, M.statesByLabel tl = .ok T := by
    obtain ⟨t, ⟨T, hT, -⟩, -⟩ := hreach
    exact ⟨T, hT⟩
  refine reduce_total hM.wf hM.total hM.labS.inv hM.labA.inv hT (fun t ht => hTN t ((mem_T hT t).1 ht)) hi h1 h2 hne ?_ ?_ ?_ hr hd
  · obtain ⟨t, h1, h2⟩ := hreach
    exact ⟨t, (mem_T hT t).2 h1, h2⟩
  · intro s hs
    refine inv_getItem_ok hM.labS.inv ?_
    rcases hlS with h | h
    · exact Or.inl h
    · obtain ⟨l, hl⟩ := h s hs
      exact Or.inr ⟨l, labelled_iff.1 hl⟩
  · intro sa i _
    exact inv_getItem_ok hM.labA.inv (Or.inl hlA)

/-- **C13**, the other case: if the initial state cannot reach a target state, `reduce` raises an exception
(it never returns a wrong form). -/
theorem C13_reduce_unreachable (hM : Input M) (hun : ∀ i ∈ M.labelled il, ∀ t ∈ M.labelled tl,
    ¬ Relation.ReflTransGen (Step M) i t) : ∀ res, M.reduce ρ il tl ntl nfl ≠ .ok res := by
  intro res h
  obtain ⟨T, i0, mask, hR, hrf⟩ := reduce_spec hM.wf hM.labS.inv hM.labA.inv h
  obtain ⟨⟨t, h1, h2⟩, -⟩ := (hR.kept_iff hM.wf hM.total i0).1 (hR.init_kept hrf)
  exact hun i0 ((mem_T hR.hi i0).1 (by simp)) t ((mem_T hR.hT t).1 h1) h2

/-! ### C14 -/

/-- **C14.** For every state that `reduce` keeps, the minimal and the maximal probability over all
schedulers of reaching the targets equals that of its image reaching the new target. -/
theorem C14_reduce_probabilities (hM : Input M) (hne : ntl ≠ nfl) (h : M.reduce ρ il tl ntl nfl = .ok res)
    (φ : K →+*o ℝ) {s s' : Nat} (hs : res.cols.get? s = some s') :
    res.rf.sys.prMin φ (res.rf.sys.labelled ntl) s' = M.prMin φ (M.labelled tl) s ∧
    res.rf.sys.prMax φ (res.rf.sys.labelled ntl) s' = M.prMax φ (M.labelled tl) s := by
  obtain ⟨T, i0, mask, hR, hrf⟩ := reduce_spec hM.wf hM.labS.inv hM.labA.inv h
  obtain ⟨i', hi'⟩ := hR.init_kept hrf
  have hc := hR.consistent hM.wf hM.total hne hi'
  have ho := rfok_of_make hR.red.wf hc hrf
  have hm := Dict.mem_of_get? hs
  have e := (make_fields hrf).2.2.1
  have h1 := hR.prMin_eq hM.wf hM.total ho φ hm
  have h2 := hR.prMax_eq hM.wf hM.total ho φ hm
  unfold RF.prMin at h1
  unfold RF.prMax at h2
  rw [e] at h1 h2
  exact ⟨h1, h2⟩

/-! ### C15 -/

/-- **C15.** Rows of the reduced system sum to one; rows of kept non-target states carry the old
probabilities to kept states and the mass of all dropped successors to fail (nothing to the new target);
rows of old target states lead to the new target with probability one. -/
theorem C15_reduce_matrix (hM : Input M) (h : M.reduce ρ il tl ntl nfl = .ok res) :
    (∀ r < res.rf.sys.C, ∑ j ∈ range res.rf.sys.N, res.rf.sys.P.get r j = 1) ∧
    ∀ s a s' a', res.rows.get? (s, a) = some (s', a') → ∃ i r, ((s, a), i) ∈ M.idx ∧ ((s', a'), r) ∈ res.rf.sys.idx ∧
      (s ∉ M.labelled tl →
        (∀ d d', res.cols.get? d = some d' → res.rf.sys.P.get r d' = M.P.get i d) ∧
        res.rf.sys.P.get r (res.rf.sys.N - 2) = 0 ∧
        res.rf.sys.P.get r (res.rf.sys.N - 1) = ∑ d ∈ (range M.N).filter (fun d => res.cols.get? d = none), M.P.get i d) ∧
      (s ∈ M.labelled tl → res.rf.sys.P.get r (res.rf.sys.N - 2) = 1 ∧
        ∀ j, j ≠ res.rf.sys.N - 2 → res.rf.sys.P.get r j = 0) := by
  obtain ⟨T, i0, mask, hR, hrf⟩ := reduce_spec hM.wf hM.labS.inv hM.labA.inv h
  refine ⟨hR.red.wf.sum, ?_⟩
  intro s a s' a' hsa
  obtain ⟨k, hk⟩ := List.mem_iff_getElem?.1 (Dict.mem_of_get? hsa)
  have eN := hR.red.hN
  have eC := hR.red.hC
  have e1 : res.rf.sys.N - 2 = res.cols.length := by omega
  have e2 : res.rf.sys.N - 1 = res.cols.length + 1 := by omega
  obtain ⟨rfl, hc, -, ⟨i, hi, hiC⟩, hkl⟩ := hR.red.maps.row_spec hk
  refine ⟨i, k, hi, (hR.red.idx _ _ _).2 (Or.inl ⟨_, hk⟩), ?_, ?_⟩
  · intro hs
    have hsT : s ∉ T := fun h => hs ((mem_T hR.hT s).1 h)
    have hkept : ∀ d d', (d, d') ∈ res.cols → res.rf.sys.P.get k d' = M.P.get i d :=
      fun d d' hd => hR.red.kept k s a' s' i d d' hk hsT hi hd
    have hg := hR.red.goal k s a' s' hk
    rw [if_neg hsT] at hg
    refine ⟨fun d d' hd => hkept d d' (Dict.mem_of_get? hd), by rw [e1, hg], ?_⟩
    have hsum := hR.red.wf.sum k (by omega)
    rw [eN, Finset.sum_range_succ, Finset.sum_range_succ, hg, add_zero,
      hR.red.maps.sum_cols (f := fun d => M.P.get i d) hkept] at hsum
    have hold := hM.wf.sum i hiC
    rw [← Finset.sum_filter_add_sum_filter_not (range M.N) (fun d => res.cols.get? d = none)] at hold
    have hset : (range M.N).filter (fun d => ¬ res.cols.get? d = none) = (res.cols.map Prod.fst).toFinset := by
      ext d
      rw [Finset.mem_filter, List.mem_toFinset, Finset.mem_range]
      constructor
      · rintro ⟨-, hd⟩
        by_contra hcon
        exact hd (Dict.get?_eq_none.2 hcon)
      · intro hd
        obtain ⟨⟨d0, d'⟩, hm, rfl⟩ := List.mem_map.1 hd
        exact ⟨hR.red.maps.col_state_lt hM.wf hm, fun hcon => (Dict.get?_eq_none.1 hcon) hd⟩
    rw [hset] at hold
    rw [e2]
    linarith
  · intro hs
    have hsT : s ∈ T := (mem_T hR.hT s).2 hs
    have hg := hR.red.goal k s a' s' hk
    rw [if_pos hsT] at hg
    rw [e1]
    refine ⟨hg, fun j hj => ?_⟩
    exact WF.other_zero hR.red.wf (by omega) (by omega) hg hj

/-! ### C16 -/

/-- **C16.** The state map is a bijection between the states that are needed and `0 … N'-3`; the
state-action map is a bijection between their state-action pairs and the pairs of rows `0 … C'-3`; it keeps
the action and acts on the state as the state map. -/
theorem C16_reduce_maps (hM : Input M) (h : M.reduce ρ il tl ntl nfl = .ok res) :
    (∀ s, (∃ s', res.cols.get? s = some s') ↔ Needed M il tl s) ∧
    (∀ s', s' < res.rf.sys.N - 2 ↔ ∃ s, res.cols.get? s = some s') ∧
    (∀ s₁ s₂ s', res.cols.get? s₁ = some s' → res.cols.get? s₂ = some s' → s₁ = s₂) ∧
    (∀ s a, (∃ p, res.rows.get? (s, a) = some p) ↔ Needed M il tl s ∧ ∃ i, ((s, a), i) ∈ M.idx ∧ i < M.C) ∧
    (∀ s' a', (∃ r < res.rf.sys.C - 2, ((s', a'), r) ∈ res.rf.sys.idx) ↔ ∃ p, res.rows.get? p = some (s', a')) ∧
    (∀ p₁ p₂ q, res.rows.get? p₁ = some q → res.rows.get? p₂ = some q → p₁ = p₂) ∧
    (∀ s a s' a', res.rows.get? (s, a) = some (s', a') → a' = a ∧ res.cols.get? s = some s') := by
  obtain ⟨T, i0, mask, hR, hrf⟩ := reduce_spec hM.wf hM.labS.inv hM.labA.inv h
  have hm := hR.red.maps
  have eN := hR.red.hN
  have eC := hR.red.hC
  have hc : ∀ s s', res.cols.get? s = some s' ↔ (s, s') ∈ res.cols :=
    fun s s' => ⟨Dict.mem_of_get?, Dict.get?_of_mem hm.nd⟩
  have hr : ∀ p q, res.rows.get? p = some q ↔ (p, q) ∈ res.rows :=
    fun s s' => ⟨Dict.mem_of_get?, Dict.get?_of_mem hm.rnd⟩
  simp only [hc, hr]
  have hkn := fun s => kept_needed hR.hT hR.hi s
  refine ⟨?_, ?_, ?_, ?_, ?_, ?_, ?_⟩
  · intro s; rw [hR.kept_iff hM.wf hM.total, hkn]
  · intro s'
    constructor
    · intro hs; exact hm.col_of_lt (by omega)
    · rintro ⟨s, hs⟩; have := hm.col_lt hs; omega
  · intro s₁ s₂ s' h1 h2; exact hm.col_inj h1 h2
  · intro s a
    have : (∃ p, ((s, a), p) ∈ res.rows) ↔ (s, a) ∈ res.rows.map Prod.fst := by simp
    rw [this, hm.memR, hR.hmask, hkn]
  · intro s' a'
    constructor
    · rintro ⟨r, hr, hi⟩
      rcases (hR.red.idx _ _ _).1 hi with ⟨o, ho⟩ | h1 | h1
      · exact ⟨o, List.mem_of_getElem? ho⟩
      · omega
      · omega
    · rintro ⟨p, hp⟩
      obtain ⟨k, hk⟩ := List.mem_iff_getElem?.1 hp
      have := (List.getElem?_eq_some_iff.1 hk).1
      exact ⟨k, by omega, (hR.red.idx _ _ _).2 (Or.inl ⟨p, hk⟩)⟩
  · intro p₁ p₂ q h1 h2
    obtain ⟨k1, hk1⟩ := List.mem_iff_getElem?.1 h1
    obtain ⟨k2, hk2⟩ := List.mem_iff_getElem?.1 h2
    exact (hm.row_inj hk1 hk2).2
  · intro s a s' a' h1
    exact hm.rowsV _ h1

/-! ### C17 -/

/-- **C17.** A kept state has exactly the labels of its image (state and action labels), the image of a row
has its reward, and the new target and fail state carry only their own label and reward 0. -/
theorem C17_reduce_labels (hM : Input M) (hne : ntl ≠ nfl) (h : M.reduce ρ il tl ntl nfl = .ok res) :
    (∀ s s', res.cols.get? s = some s' → ∀ l, s ∈ M.labelled l ↔ s' ∈ res.rf.sys.labelled l) ∧
    (∀ l, res.rf.sys.N - 2 ∈ res.rf.sys.labelled l ↔ l = ntl) ∧
    (∀ l, res.rf.sys.N - 1 ∈ res.rf.sys.labelled l ↔ l = nfl) ∧
    (M.dtmc = false → ∀ p p', res.rows.get? p = some p' → ∀ l, sees M.labA l p ↔ sees res.rf.sys.labA l p') ∧
    (M.dtmc = false → ∀ l a, ¬ sees res.rf.sys.labA l (res.rf.sys.N - 2, a) ∧
      ¬ sees res.rf.sys.labA l (res.rf.sys.N - 1, a)) ∧
    (M.rew = none → res.rf.sys.rew = none) ∧
    (∀ r, M.rew = some r → ∃ r', res.rf.sys.rew = some r' ∧ r'.length = res.rf.sys.C ∧
      r'[res.rf.sys.C - 2]? = some 0 ∧ r'[res.rf.sys.C - 1]? = some 0 ∧
      ∀ p p' i i', res.rows.get? p = some p' → (p, i) ∈ M.idx → (p', i') ∈ res.rf.sys.idx → r'[i']? = r[i]?) := by
  obtain ⟨T, i0, mask, hR, hrf⟩ := reduce_spec hM.wf hM.labS.inv hM.labA.inv h
  have hm := hR.red.maps
  have eN := hR.red.hN
  have eC := hR.red.hC
  have e1 : res.rf.sys.N - 2 = res.cols.length := by omega
  have e2 : res.rf.sys.N - 1 = res.cols.length + 1 := by omega
  have e3 : res.rf.sys.C - 2 = res.rows.length := by omega
  have e4 : res.rf.sys.C - 1 = res.rows.length + 1 := by omega
  simp only [labelled_iff, sees_iff]
  rw [e1, e2, e3, e4, eC]
  refine ⟨?_, ?_, ?_, ?_, ?_, hR.red.rewN, ?_⟩
  · intro s s' hs l
    have hs := Dict.mem_of_get? hs
    rw [hR.red.labS]
    constructor
    · intro h1; exact Or.inl ⟨s, hs, h1⟩
    · rintro (⟨s0, h1, h2⟩ | h1 | h1)
      · rw [hm.col_inj hs h1]; exact h2
      · have := hm.col_lt hs; omega
      · have := hm.col_lt hs; omega
  · intro l
    rw [hR.red.labS]
    constructor
    · rintro (⟨s0, h1, h2⟩ | h1 | h1)
      · have := hm.col_lt h1; omega
      · exact h1.1
      · omega
    · rintro rfl; exact Or.inr (Or.inl ⟨rfl, rfl⟩)
  · intro l
    rw [hR.red.labS]
    constructor
    · rintro (⟨s0, h1, h2⟩ | h1 | h1)
      · have := hm.col_lt h1; omega
      · omega
      · exact h1.1
    · rintro rfl; exact Or.inr (Or.inr ⟨rfl, rfl⟩)
  · intro hd p p' hp l
    rw [(hR.red.labA hd).2]
    have hp := Dict.mem_of_get? hp
    constructor
    · intro h1; exact ⟨p, hp, h1⟩
    · rintro ⟨q, h1, h2⟩
      obtain ⟨k1, hk1⟩ := List.mem_iff_getElem?.1 hp
      obtain ⟨k2, hk2⟩ := List.mem_iff_getElem?.1 h1
      rw [(hm.row_inj hk1 hk2).2]; exact h2
  · intro hd l a
    rw [(hR.red.labA hd).2, (hR.red.labA hd).2]
    constructor
    · rintro ⟨⟨s, b⟩, h1, -⟩
      have := hm.col_lt (hm.rowsV _ h1).2
      simp at this
    · rintro ⟨⟨s, b⟩, h1, -⟩
      have := hm.col_lt (hm.rowsV _ h1).2
      simp at this
  · intro r hr
    obtain ⟨nr, h1, h2, h3, h4, h5⟩ := hR.red.rewS r hr
    refine ⟨nr, h1, h2, h4, h5, ?_⟩
    rintro p ⟨s', a'⟩ i i' hp hi hi'
    obtain ⟨k, hk⟩ := List.mem_iff_getElem?.1 (Dict.mem_of_get? hp)
    have : k = i' := WF.idx_inj' hR.red.wf ((hR.red.idx _ _ _).2 (Or.inl ⟨p, hk⟩)) hi'
    subst this
    exact h3 k p _ i hk hi

/-! ### C57 -/

/-- **C57.** A certificate accepted (with tolerance 0) for the reachability form of `reduce` proves the
bound for the targets and the initial state of the original system. -/
theorem C57_verdict (hM : Input M) (hne : ntl ≠ nfl) (h : M.reduce ρ il tl ntl nfl = .ok res) (φ : K →+*o ℝ)
    {t : K} {v : List K} {i : Nat} (hi : i ∈ M.labelled il) :
    (check res.rf .min .ge t v 0 = .ok true → φ t ≤ M.prMin φ (M.labelled tl) i) ∧
    (check res.rf .min .gt t v 0 = .ok true → φ t < M.prMin φ (M.labelled tl) i) ∧
    (check res.rf .max .le t v 0 = .ok true → M.prMax φ (M.labelled tl) i ≤ φ t) ∧
    (check res.rf .max .lt t v 0 = .ok true → M.prMax φ (M.labelled tl) i < φ t) ∧
    ((∀ x ∈ v, 0 ≤ x) →
      (check res.rf .max .ge t v 0 = .ok true → φ t ≤ M.prMax φ (M.labelled tl) i) ∧
      (check res.rf .max .gt t v 0 = .ok true → φ t < M.prMax φ (M.labelled tl) i) ∧
      (check res.rf .min .le t v 0 = .ok true → M.prMin φ (M.labelled tl) i ≤ φ t) ∧
      (check res.rf .min .lt t v 0 = .ok true → M.prMin φ (M.labelled tl) i < φ t)) := by
  obtain ⟨T, i0, mask, hR, hrf⟩ := reduce_spec hM.wf hM.labS.inv hM.labA.inv h
  obtain ⟨i', hi'⟩ := hR.init_kept hrf
  have hc := hR.consistent hM.wf hM.total hne hi'
  have hi0 : i = i0 := by simpa using (mem_T hR.hi i).2 hi
  subst hi0
  have hil : i' ∈ res.rf.sys.labelled il := by
    rw [← mem_T ((hR.labels hne).2.2.2.2 i' hi')]; simp
  rw [make_false_of_true hc] at hrf
  obtain ⟨e1, e2⟩ := C14_reduce_probabilities hM hne h φ (Dict.get?_of_mem hR.red.maps.nd hi')
  rw [← e1, ← e2]
  have wf := hR.red.wf
  exact ⟨fun h => C20_min_ge_sound wf hrf φ h hil, fun h => C20_min_gt_sound wf hrf φ h hil,
    fun h => C21_max_le_sound wf hrf φ h hil, fun h => C21_max_lt_sound wf hrf φ h hil,
    fun hv => ⟨fun h => C22_max_ge_sound_partial wf hrf φ hv h hil, fun h => C22_max_gt_sound_partial wf hrf φ hv h hil,
      fun h => C23_min_le_sound_partial wf hrf φ hv h hil, fun h => C23_min_lt_sound_partial wf hrf φ hv h hil⟩⟩


/-! ### A concrete system

State 0 is initial: action 0 leads to 1 and to the target 3, action 1 to the dead end 4.  State 1 leads back to 0
and to the target 2.  State 5 is only reachable through target 3. -/

def redP : Dok ℚ := ⟨7, 6, [((0, 1), 1/2), ((0, 3), 1/2), ((1, 4), 1), ((2, 2), 1/3), ((2, 0), 2/3), ((3, 2), 1),
  ((4, 5), 1), ((5, 4), 1), ((6, 2), 1)]⟩
def redI : Dict (Nat × Nat) Nat := [((0, 0), 0), ((0, 1), 1), ((1, 0), 2), ((2, 0), 3), ((3, 0), 4), ((4, 0), 5), ((5, 0), 6)]
def redSys : Sys ℚ :=
  { mkSys redP redI (IDict.mk' [("start", [0]), ("goal", [2, 3]), ("odd", [1, 3, 5])] true) with
    rew := some [1, 2, 3, 4, 5, 6, 7]
    labA := IDict.mk' [("go", [(0, 1), (1, 0)]), ("stay", [(2, 0)])] true }

theorem redSys_wf : redSys.WF :=
  have w : (mkSys redP redI redSys.labS).WF :=
    mkSys_wf (by decide +kernel) (by decide +kernel) (by decide +kernel) (by decide +kernel) (by decide +kernel) (by decide +kernel)
  ⟨w.nodup, w.range, w.pos, w.sum, w.keys, w.vals, w.graph⟩

theorem isPyDict_of {α β : Type} [DecidableEq α] [DecidableEq β] {d : Dict α (List β)}
    (h1 : (d.map Prod.fst).Nodup) (h2 : ∀ e ∈ d, e.2.Nodup) : IsPyDict d := ⟨h1, h2⟩

theorem redSys_input : Input redSys where
  wf := redSys_wf
  total := by
    intro s hs
    have hs : s < 6 := hs
    have : ∀ s < 6, ∃ e ∈ redSys.idx, e.1.1 = s ∧ e.2 < redSys.C := by decide +kernel
    obtain ⟨⟨⟨s', a⟩, i⟩, h1, rfl, h2⟩ := this s hs
    exact ⟨a, i, h1, h2⟩
  labS := ⟨id, [("start", [0]), ("goal", [2, 3]), ("odd", [1, 3, 5])], true, [], fun _ => List.Perm.refl _,
    isPyDict_of (by decide +kernel) (by decide +kernel), rfl⟩
  labA := ⟨id, [("go", [(0, 1), (1, 0)]), ("stay", [(2, 0)])], true, [], fun _ => List.Perm.refl _,
    isPyDict_of (by decide +kernel) (by decide +kernel), rfl⟩

/-- `reduce` keeps 0, 1, 2, 3 and drops 4 and 5 -/
theorem redSys_ok : ∃ res, redSys.reduce exRnd "start" "goal" "target" "fail" = .ok res ∧
    (res.cols = [(0, 0), (1, 1), (2, 2), (3, 3)] ∧ res.rf.sys.rew = some [1, 2, 3, 4, 5, 0, 0] ∧
      check res.rf .max .ge 1 [3/2, 0, 3/4, 1/4, 3/4] 0 = .ok true) := by
  obtain ⟨r, h1, h2⟩ := exists_of_ok_and (x := redSys.reduce exRnd "start" "goal" "target" "fail")
    (p := fun res => decide (res.cols = [(0, 0), (1, 1), (2, 2), (3, 3)]) && decide (res.rf.sys.rew = some [1, 2, 3, 4, 5, 0, 0]) &&
      yes (check res.rf .max .ge 1 [3/2, 0, 3/4, 1/4, 3/4] 0)) (by decide +kernel)
  simp only [Bool.and_eq_true, decide_eq_true_eq, yes_iff] at h2
  exact ⟨r, h1, h2.1.1, h2.1.2, h2.2⟩

/-- the theorems above apply to it: its target is reached with probability one under the best scheduler -/
example (φ : ℚ →+*o ℝ) : 1 ≤ redSys.prMax φ (redSys.labelled "goal") 0 := by
  obtain ⟨res, h, -, -, hc⟩ := redSys_ok
  have := ((C57_verdict redSys_input (by decide) h φ (i := 0) ⟨[0], by decide +kernel, by decide⟩ (t := 1)
    (v := [3/2, 0, 3/4, 1/4, 3/4])).2.2.2.2 (by decide +kernel)).1 hc
  rwa [map_one] at this

/-- the hypotheses of `C13_reduce_unreachable` are met by a system whose initial state is a dead end -/
def deadSys : Sys ℚ := mkSys ⟨2, 2, [((0, 0), 1), ((1, 1), 1)]⟩ [((0, 0), 0), ((1, 0), 1)]
  (IDict.mk' [("start", [0]), ("goal", [1])] true)

theorem deadSys_input : Input deadSys where
  wf := mkSys_wf (by decide +kernel) (by decide +kernel) (by decide +kernel) (by decide +kernel)
    (by decide +kernel) (by decide +kernel)
  total := by
    intro s hs
    have hs : s < 2 := hs
    have : ∀ s < 2, ∃ e ∈ deadSys.idx, e.1.1 = s ∧ e.2 < deadSys.C := by decide +kernel
    obtain ⟨⟨⟨s', a⟩, i⟩, h1, rfl, h2⟩ := this s hs
    exact ⟨a, i, h1, h2⟩
  labS := ⟨id, [("start", [0]), ("goal", [1])], true, [], fun _ => List.Perm.refl _,
    isPyDict_of (by decide +kernel) (by decide +kernel), rfl⟩
  labA := ⟨id, [], true, [], fun _ => List.Perm.refl _, isPyDict_of (by decide +kernel) (by decide +kernel), rfl⟩

example (res : Reduce.Result ℚ) : deadSys.reduce exRnd "start" "goal" "target" "fail" ≠ .ok res := by
  refine C13_reduce_unreachable deadSys_input ?_ res
  rintro i ⟨I, hI, hi⟩ t ⟨T, hT, ht⟩ hr
  have e1 : deadSys.statesByLabel "start" = .ok [0] := by decide +kernel
  have e2 : deadSys.statesByLabel "goal" = .ok [1] := by decide +kernel
  rw [e1] at hI; rw [e2] at hT
  cases hI; cases hT
  simp only [List.mem_singleton] at hi ht
  subst hi; subst ht
  have : ∀ v, Relation.ReflTransGen (Step deadSys) 0 v → v = 0 := by
    intro v hv
    induction hv with
    | refl => rfl
    | tail _ h ih =>
      subst ih
      obtain ⟨a, i, h1, -, h3⟩ := h
      have hlt := (WF.get_range deadSys_input.wf h3).2
      have h4 : ∀ e ∈ deadSys.idx, e.1.1 = 0 → e.2 = 0 := by decide +kernel
      have h5 := h4 _ h1 rfl
      simp only at h5
      subst h5
      have h6 : ∀ v < 2, 0 < deadSys.P.get 0 v → v = 0 := by decide +kernel
      exact h6 _ hlt h3
  exact absurd (this _ hr) (by decide)

/-! ### Target states without actions

The constructor accepts systems in which a state has no action.  `reduce` drops such a target state, although it is
reachable, and redirects the transitions into it to fail. -/

def gapSys : Sys ℚ := mkSys ⟨1, 2, [((0, 1), 1)]⟩ [((0, 0), 0)] (IDict.mk' [("start", [0]), ("goal", [1])] true)

theorem gapSys_wf : gapSys.WF := mkSys_wf (by decide +kernel) (by decide +kernel) (by decide +kernel) (by decide +kernel)
  (by decide +kernel) (by decide +kernel)

/-- **C13** without "every state has an action" is false: the initial state goes to the target with
probability one, `reduce` returns, and in the result the initial state goes to fail with probability one, so
that `assert_consistency` fails. -/
theorem C13_actionless_target_false : gapSys.WF ∧ gapSys.P.get 0 1 = 1 ∧ gapSys.statesByLabel "goal" = .ok [1] ∧
    ∃ res, gapSys.reduce exRnd "start" "goal" "target" "fail" = .ok res ∧
      res.cols = [(0, 0)] ∧ res.rf.sys.P.get 0 (res.rf.sys.N - 1) = 1 ∧
      (res.rf.sys.assertConsistency "start" "target" "fail").isOk = false := by
  refine ⟨gapSys_wf, by decide +kernel, by decide +kernel, ?_⟩
  obtain ⟨r, h1, h2⟩ := exists_of_ok_and (x := gapSys.reduce exRnd "start" "goal" "target" "fail")
    (p := fun res => decide (res.cols = [(0, 0)]) && decide (res.rf.sys.P.get 0 (res.rf.sys.N - 1) = 1) &&
      decide ((res.rf.sys.assertConsistency "start" "target" "fail").isOk = false)) (by decide +kernel)
  simp only [Bool.and_eq_true, decide_eq_true_eq] at h2
  exact ⟨r, h1, h2.1.1, h2.1.2, h2.2⟩

end Verif.Props
