import Verif.Proofs.ReduceMatrix
import Verif.Proofs.InvertibleDict
/-! # The system built by `reduce` -/
set_option linter.unusedSectionVars false

namespace Verif.Proofs
open Verif.Model Verif.Spec Verif.Props Reduce Finset

variable {K : Type} [Field K] [LinearOrder K] [IsStrictOrderedRing K]

namespace Maps
variable {M : Sys K} {mask : List Bool} {cols : Dict Nat Nat} {rows : Dict (Nat × Nat) (Nat × Nat)}

theorem cvals (h : Maps M mask cols rows) : (cols.map Prod.snd).Nodup := by rw [h.vals]; exact List.nodup_range

theorem col_lt (h : Maps M mask cols rows) {d nd : Nat} (hm : (d, nd) ∈ cols) : nd < cols.length := by
  have : nd ∈ cols.map Prod.snd := List.mem_map_of_mem (f := Prod.snd) hm
  rw [h.vals] at this
  simpa using this

theorem col_of_lt (h : Maps M mask cols rows) {nd : Nat} (hlt : nd < cols.length) : ∃ d, (d, nd) ∈ cols := by
  have : nd ∈ cols.map Prod.snd := by rw [h.vals]; simpa using hlt
  obtain ⟨⟨d, nd'⟩, hm, rfl⟩ := List.mem_map.1 this
  exact ⟨d, hm⟩

theorem col_inj (h : Maps M mask cols rows) {d d' nd : Nat} (h1 : (d, nd) ∈ cols) (h2 : (d', nd) ∈ cols) : d = d' := by
  have := List.inj_on_of_nodup_map h.cvals h1 h2 rfl
  simpa using this

theorem col_fun (h : Maps M mask cols rows) {d nd nd' : Nat} (h1 : (d, nd) ∈ cols) (h2 : (d, nd') ∈ cols) : nd = nd' := by
  have := List.inj_on_of_nodup_map h.nd h1 h2 rfl
  simpa using this

/-- a new row index belongs to an old row -/
theorem row_spec (h : Maps M mask cols rows) {k s a n b : Nat} (hk : rows[k]? = some ((s, a), (n, b))) :
    b = a ∧ (s, n) ∈ cols ∧ mask.getD s false = true ∧ (∃ i, ((s, a), i) ∈ M.idx ∧ i < M.C) ∧ k < rows.length := by
  have hm := List.mem_of_getElem? hk
  obtain ⟨h1, h2⟩ := h.rowsV _ hm
  obtain ⟨h3, h4⟩ := (h.memR (s, a)).1 (List.mem_map_of_mem (f := Prod.fst) hm)
  exact ⟨h1, h2, h3, h4, (List.getElem?_eq_some_iff.1 hk).1⟩

theorem row_of_lt (h : Maps M mask cols rows) {k : Nat} (hk : k < rows.length) :
    ∃ s a n : Nat, rows[k]? = some ((s, a), (n, a)) := by
  obtain ⟨⟨⟨s, a⟩, ⟨n, b⟩⟩, he⟩ : ∃ e, rows[k]? = some e := ⟨_, List.getElem?_eq_getElem hk⟩
  obtain ⟨rfl, -⟩ := h.row_spec he
  exact ⟨s, b, n, he⟩

/-- an old row of a kept state has a new row -/
theorem row_exists (h : Maps M mask cols rows) {s a i : Nat} (hm : mask.getD s false = true) (hi : ((s, a), i) ∈ M.idx)
    (hiC : i < M.C) : ∃ k n : Nat, rows[k]? = some ((s, a), (n, a)) := by
  have := (h.memR (s, a)).2 ⟨hm, i, hi, hiC⟩
  obtain ⟨⟨⟨s', a'⟩, ⟨n, b⟩⟩, hm', e⟩ := List.mem_map.1 this
  simp only [Prod.mk.injEq] at e
  obtain ⟨rfl, rfl⟩ := e
  obtain ⟨k, hk⟩ := List.mem_iff_getElem?.1 hm'
  obtain ⟨rfl, -⟩ := h.row_spec hk
  exact ⟨k, n, hk⟩

theorem row_inj (h : Maps M mask cols rows) {k k' : Nat} {o o' : Nat × Nat} {n : Nat × Nat}
    (h1 : rows[k]? = some (o, n)) (h2 : rows[k']? = some (o', n)) : k = k' ∧ o = o' := by
  have l1 := (List.getElem?_eq_some_iff.1 h1).1
  have l2 := (List.getElem?_eq_some_iff.1 h2).1
  have e : k = k' := by
    refine (List.Nodup.getElem_inj_iff h.rvals (hi := by simpa using l1) (hj := by simpa using l2)).1 ?_
    rw [List.getElem_map, List.getElem_map, (List.getElem?_eq_some_iff.1 h1).2, (List.getElem?_eq_some_iff.1 h2).2]
  subst e
  rw [h1] at h2
  simp only [Option.some.injEq, Prod.mk.injEq] at h2
  exact ⟨rfl, h2.1⟩

theorem row_inj' (h : Maps M mask cols rows) {k k' : Nat} {o : Nat × Nat} {n n' : Nat × Nat}
    (h1 : rows[k]? = some (o, n)) (h2 : rows[k']? = some (o, n')) : k = k' ∧ n = n' := by
  have l1 := (List.getElem?_eq_some_iff.1 h1).1
  have l2 := (List.getElem?_eq_some_iff.1 h2).1
  have e : k = k' := by
    refine (List.Nodup.getElem_inj_iff h.rnd (hi := by simpa using l1) (hj := by simpa using l2)).1 ?_
    rw [List.getElem_map, List.getElem_map, (List.getElem?_eq_some_iff.1 h1).2, (List.getElem?_eq_some_iff.1 h2).2]
  subst e
  rw [h1] at h2
  simp only [Option.some.injEq, Prod.mk.injEq] at h2
  exact ⟨rfl, h2.2⟩

theorem col_state_lt (h : Maps M mask cols rows) (hM : M.WF) {d nd : Nat} (hm : (d, nd) ∈ cols) : d < M.N := by
  obtain ⟨-, a, i, h1, h2⟩ := (h.memS d).1 (List.mem_map_of_mem (f := Prod.fst) hm)
  exact WF.state_lt hM h1 h2

theorem sum_cols {R : Type} [AddCommMonoid R] (h : Maps M mask cols rows) {f g : Nat → R}
    (hfg : ∀ d nd, (d, nd) ∈ cols → g nd = f d) :
    ∑ nd ∈ range cols.length, g nd = ∑ d ∈ (cols.map Prod.fst).toFinset, f d := by
  rw [List.sum_toFinset _ h.nd]
  have : ∑ nd ∈ range cols.length, g nd = ((List.range cols.length).map g).sum := by
    rw [← List.toFinset_range, List.sum_toFinset _ List.nodup_range]
  rw [this, ← h.vals, List.map_map, List.map_map]
  congr 1
  refine List.map_congr_left fun e he => ?_
  exact hfg e.1 e.2 he

end Maps

/-! ### the completed matrix is a proper transition matrix -/

theorem reduced_matrix {M : Sys K} (hM : M.WF) {mask : List Bool} {cols rows} (h : Maps M mask cols rows) (T : List Nat)
    {P : Dok K} (hP : newP M T cols rows = .ok P) :
    P.rows = rows.length ∧ P.cols = cols.length ∧ InShape (complete P (toTarget T rows)) ∧
    (complete P (toTarget T rows)).rows = rows.length + 2 ∧ (complete P (toTarget T rows)).cols = cols.length + 2 ∧
    (∀ e ∈ (complete P (toTarget T rows)).items, 0 < e.2) ∧
    (∀ i < rows.length + 2, ∑ j ∈ range (cols.length + 2), (complete P (toTarget T rows)).get i j = 1) ∧
    (∀ k s a n i d nd : Nat, rows[k]? = some ((s, a), (n, a)) → s ∉ T → ((s, a), i) ∈ M.idx → (d, nd) ∈ cols →
      (complete P (toTarget T rows)).get k nd = M.P.get i d) ∧
    (∀ k s a n nd : Nat, rows[k]? = some ((s, a), (n, a)) → s ∈ T → nd < cols.length →
      (complete P (toTarget T rows)).get k nd = 0) ∧
    (∀ k s a n : Nat, rows[k]? = some ((s, a), (n, a)) →
      (complete P (toTarget T rows)).get k cols.length = if s ∈ T then 1 else 0) ∧
    (complete P (toTarget T rows)).get rows.length cols.length = 1 ∧
    (complete P (toTarget T rows)).get (rows.length + 1) (cols.length + 1) = 1 ∧
    ∃ l, (complete P (toTarget T rows)).items = l ++ [((rows.length, cols.length), 1), ((rows.length + 1, cols.length + 1), 1)] ∧
      ∀ e ∈ l, e.1.1 < rows.length := by
  obtain ⟨P', hP', pr, pc, pn, pm⟩ := newP_ok hM h T
  rw [hP'] at hP
  cases hP
  have hrange : ∀ i j p, ((i, j), p) ∈ P.items → i < P.rows ∧ j < P.cols := by
    intro k nd p hp
    obtain ⟨s, a, n, b, i, d, h1, -, -, h4, -⟩ := (pm _ _ _).1 hp
    rw [pr, pc]
    exact ⟨(List.getElem?_eq_some_iff.1 h1).1, h.col_lt h4⟩
  have hpos : ∀ e ∈ P.items, 0 < e.2 := by
    rintro ⟨⟨k, nd⟩, p⟩ hp
    obtain ⟨s, a, n, b, i, d, -, -, -, -, h5⟩ := (pm _ _ _).1 hp
    exact hM.pos _ _ _ h5
  have hlen : (toTarget (K := K) T rows).length = P.rows := by simp [toTarget, pr]
  obtain ⟨c1, c2, c3, c4⟩ := complete_spec (tt := toTarget T rows) pn hrange (fun e he => (hpos e he).ne') hlen
  have hlast := complete_last (tt := toTarget (K := K) T rows) (fun i j p hp => (hrange i j p hp).1) hlen
  rw [pr, pc] at hlast
  generalize hQ : complete P (toTarget T rows) = Q at *
  rw [pr] at c1; rw [pc] at c2
  have htt : ∀ {k s a n b : Nat}, rows[k]? = some ((s, a), (n, b)) →
      (toTarget (K := K) T rows)[k]? = some (if s ∈ T then 1 else 0) := by
    intro k s a n b hk
    simp [toTarget, hk]
  have httlt : ∀ {k : Nat} {q : K}, (toTarget (K := K) T rows)[k]? = some q → k < rows.length := by
    intro k q hk
    have := (List.getElem?_eq_some_iff.1 hk).1
    omega
  have hin : InShape Q := by
    refine ⟨c3, ?_⟩
    intro i j p hp
    rw [c1, c2]
    rcases (c4 i j p).1 hp with h' | ⟨rfl, h', -⟩ | ⟨rfl, q, h', -⟩ | ⟨rfl, rfl, -⟩ | ⟨rfl, rfl, -⟩
    · have := hrange _ _ _ h'; omega
    · have := httlt h'; omega
    · have := httlt h'; omega
    · omega
    · omega
  have hQpos : ∀ e ∈ Q.items, 0 < e.2 := by
    rintro ⟨⟨i, j⟩, p⟩ hp
    rcases (c4 i j p).1 hp with h' | ⟨rfl, -, h'⟩ | ⟨rfl, q, -, -, h'⟩ | ⟨rfl, rfl, rfl⟩ | ⟨rfl, rfl, rfl⟩
    · exact hpos _ h'
    · exact h'
    · exact h'
    · exact one_pos
    · exact one_pos
  -- entries
  have gkept : ∀ k nd, nd < cols.length → Q.get k nd = P.get k nd := by
    intro k nd hnd
    by_cases hz : P.get k nd = 0
    · rw [hz]
      refine get_eq_zero fun p hp => ?_
      rcases (c4 _ _ _).1 hp with h' | ⟨h', -⟩ | ⟨h', -⟩ | ⟨-, h', -⟩ | ⟨-, h', -⟩
      · rw [get_of_mem pn h'] at hz
        exact (hpos _ h').ne' hz
      all_goals omega
    · exact get_of_mem c3 ((c4 _ _ _).2 (Or.inl (mem_of_get_ne hz)))
  have pkept : ∀ k s a n i d nd : Nat, rows[k]? = some ((s, a), (n, a)) → s ∉ T → ((s, a), i) ∈ M.idx → (d, nd) ∈ cols →
      P.get k nd = M.P.get i d := by
    intro k s a n i d nd h1 h2 h3 h4
    by_cases hz : M.P.get i d = 0
    · rw [hz]
      refine get_eq_zero fun p hp => ?_
      obtain ⟨s', a', n', b', i', d', g1, -, g3, g4, g5⟩ := (pm _ _ _).1 hp
      rw [h1] at g1
      simp only [Option.some.injEq, Prod.mk.injEq] at g1
      obtain ⟨⟨rfl, rfl⟩, -⟩ := g1
      obtain rfl := WF.idx_inj' hM h3 g3
      obtain rfl := h.col_inj h4 g4
      rw [get_of_mem hM.nodup g5] at hz
      exact (hM.pos _ _ _ g5).ne' hz
    · exact get_of_mem pn ((pm _ _ _).2 ⟨s, a, n, a, i, d, h1, h2, h3, h4, mem_of_get_ne hz⟩)
  have pkeptT : ∀ k s a n nd : Nat, rows[k]? = some ((s, a), (n, a)) → s ∈ T → P.get k nd = 0 := by
    intro k s a n nd h1 h2
    refine get_eq_zero fun p hp => ?_
    obtain ⟨s', a', n', b', i', d', g1, g2, -⟩ := (pm _ _ _).1 hp
    rw [h1] at g1
    simp only [Option.some.injEq, Prod.mk.injEq] at g1
    obtain ⟨⟨rfl, rfl⟩, -⟩ := g1
    exact g2 h2
  have ggoal : ∀ k s a n : Nat, rows[k]? = some ((s, a), (n, a)) → Q.get k cols.length = if s ∈ T then 1 else 0 := by
    intro k s a n h1
    by_cases hs : s ∈ T
    · rw [if_pos hs]
      refine get_of_mem c3 ((c4 _ _ _).2 (Or.inr (Or.inl ⟨pc.symm, ?_, one_pos⟩)))
      rw [htt h1, if_pos hs]
    · rw [if_neg hs]
      refine get_eq_zero fun p hp => ?_
      rcases (c4 _ _ _).1 hp with h' | ⟨-, h', h''⟩ | ⟨h', -⟩ | ⟨h', -⟩ | ⟨-, h', -⟩
      · have := (hrange _ _ _ h').2; omega
      · rw [htt h1, if_neg hs] at h'
        cases h'
        exact lt_irrefl _ h''
      · omega
      · have := (List.getElem?_eq_some_iff.1 h1).1; omega
      · omega
  have hsumP : ∀ k s a n : Nat, rows[k]? = some ((s, a), (n, a)) → P.rowSum k ≤ 1 ∧ (s ∈ T → P.rowSum k = 0) ∧
      P.rowSum k = ∑ nd ∈ range cols.length, P.get k nd := by
    intro k s a n h1
    have e : P.rowSum k = ∑ nd ∈ range cols.length, P.get k nd := by
      rw [rowSum_eq pn (fun e he => (hrange e.1.1 e.1.2 e.2 he).2), pc]
    by_cases hs : s ∈ T
    · have : P.rowSum k = 0 := by
        rw [e]; exact Finset.sum_eq_zero fun nd _ => pkeptT k s a n nd h1 hs
      rw [this] at e ⊢
      exact ⟨zero_le_one, fun _ => rfl, e⟩
    · refine ⟨?_, fun h' => absurd h' hs, e⟩
      obtain ⟨-, -, -, ⟨i, hi, hiC⟩, -⟩ := h.row_spec h1
      rw [e, h.sum_cols (f := fun d => M.P.get i d) fun d nd hd => pkept k s a n i d nd h1 hs hi hd, ← hM.sum i hiC]
      refine Finset.sum_le_sum_of_subset_of_nonneg ?_ fun d _ _ => WF.get_nonneg hM _ _
      intro d hd
      rw [List.mem_toFinset] at hd
      obtain ⟨⟨d', nd⟩, hm, rfl⟩ := List.mem_map.1 hd
      rw [Finset.mem_range]
      exact h.col_state_lt hM hm
  have grow : Q.get rows.length cols.length = 1 :=
    get_of_mem c3 ((c4 _ _ _).2 (Or.inr (Or.inr (Or.inr (Or.inl ⟨pr.symm, pc.symm, rfl⟩)))))
  have frow : Q.get (rows.length + 1) (cols.length + 1) = 1 :=
    get_of_mem c3 ((c4 _ _ _).2 (Or.inr (Or.inr (Or.inr (Or.inr ⟨by rw [pr], by rw [pc], rfl⟩)))))
  refine ⟨pr, pc, hin, c1, c2, hQpos, ?_, ?_, ?_, ggoal, grow, frow, hlast⟩
  · intro k hk
    rw [Finset.sum_range_succ, Finset.sum_range_succ]
    by_cases hk1 : k < rows.length
    · obtain ⟨s, a, n, h1⟩ := h.row_of_lt hk1
      obtain ⟨s1, s2, s3⟩ := hsumP k s a n h1
      have e1 : ∑ x ∈ range cols.length, Q.get k x = P.rowSum k := by
        rw [s3]; exact Finset.sum_congr rfl fun nd hnd => gkept k nd (Finset.mem_range.1 hnd)
      have e3 : Q.get k (cols.length + 1) = 1 - ((if s ∈ T then 1 else 0) + P.rowSum k) := by
        by_cases hz : 0 < 1 - ((if s ∈ T then 1 else 0) + P.rowSum k)
        · exact get_of_mem c3 ((c4 _ _ _).2 (Or.inr (Or.inr (Or.inl ⟨by rw [pc], _, htt h1, rfl, hz⟩))))
        · have hz' : 1 - ((if s ∈ T then 1 else 0) + P.rowSum k) = 0 := by
            refine le_antisymm (not_lt.1 hz) ?_
            by_cases hs : s ∈ T
            · rw [if_pos hs, s2 hs]; simp
            · rw [if_neg hs]; linarith
          rw [hz']
          refine get_eq_zero fun p hp => ?_
          rcases (c4 _ _ _).1 hp with h' | ⟨h', -⟩ | ⟨-, q, h', h'', h3⟩ | ⟨h', -⟩ | ⟨h', -⟩
          · have := (hrange _ _ _ h').2; omega
          · omega
          · rw [htt h1] at h'
            cases h'
            rw [h''] at h3
            exact hz h3
          · omega
          · omega
      rw [e1, ggoal k s a n h1, e3]
      ring
    · have z : ∀ j < cols.length, Q.get k j = 0 := by
        intro j hj
        rw [gkept k j hj]
        refine get_eq_zero fun p hp => ?_
        have := (hrange _ _ _ hp).1; omega
      rw [Finset.sum_eq_zero fun j hj => z j (Finset.mem_range.1 hj), zero_add]
      rcases (show k = rows.length ∨ k = rows.length + 1 by omega) with rfl | rfl
      · rw [grow, get_eq_zero (j := cols.length + 1), add_zero]
        intro p hp
        rcases (c4 _ _ _).1 hp with h' | ⟨h', -⟩ | ⟨-, q, h', -⟩ | ⟨-, h', -⟩ | ⟨h', -⟩
        · have := (hrange _ _ _ h').2; omega
        · omega
        · have := httlt h'; omega
        · omega
        · omega
      · rw [frow, get_eq_zero (j := cols.length), zero_add]
        intro p hp
        rcases (c4 _ _ _).1 hp with h' | ⟨-, h', -⟩ | ⟨h', -⟩ | ⟨h', -⟩ | ⟨-, h', -⟩
        · have := (hrange _ _ _ h').2; omega
        · have := httlt h'; omega
        · omega
        · omega
        · omega
  · intro k s a n i d nd h1 h2 h3 h4
    rw [gkept k nd (h.col_lt h4)]
    exact pkept k s a n i d nd h1 h2 h3 h4
  · intro k s a n nd h1 h2 h3
    rw [gkept k nd h3]
    exact pkeptT k s a n nd h1 h2

end Verif.Proofs
