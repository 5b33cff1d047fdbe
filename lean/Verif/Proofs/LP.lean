import Verif.Proofs.CertSem
import Verif.Proofs.Milp
/-! # The linear programs of the reachability form -/
set_option linter.unusedSectionVars false

namespace Verif.Proofs
open Verif.Model Verif.Model.Milp Finset

variable {K : Type} [Field K] [LinearOrder K] [IsStrictOrderedRing K]

theorem lp_ok {A : Mat K} {b opt : List K} {s : CSense} {mx : Bool}
    {cs : List (List (Nat × K) × CSense × K)}
    (hb : A.rows ≤ b.length) (ho : A.cols ≤ opt.length) (hv : ∀ c ∈ cs, ∀ t ∈ c.1, t.1 < A.cols)
    (hg : ∀ c ∈ cs, c.1 ≠ []) (hn : ∀ c ∈ cs, (c.1.map Prod.fst).Nodup) :
    ∃ lp m, lpFromCoefficients A b opt s mx = .ok lp ∧ lp.addConstraints cs = .ok m ∧ KeysLt m ∧
      m.vars.length = A.cols ∧ m.maximize = mx ∧
      (∀ x, m.objVal x = ∑ j ∈ range A.cols, opt.getD j 0 * x j) ∧
      ∀ x, m.Feasible x ↔
        (∀ i < A.rows, CSense.holds s (∑ j ∈ range A.cols, A.at_ i j * x j) (b.getD i 0)) ∧
        ∀ c ∈ cs, CSense.holds c.2.1 (terms c.1 x) c.2.2 := by
  obtain ⟨lp, h1, hk, _, hl, hm, hobj, hf⟩ := fromCoefficients_ok (be := .pulp) (A := A) (b := b) (opt := opt)
    (doms := List.replicate A.cols .real) (s := s) (mx := mx) (bounds := none) hb ho (by simp) (by simp) (by simp)
  obtain ⟨m, h2, hk2, _, hvars, hobj2, hm2, hf2⟩ := addConstraints_ok hk cs (by rw [hl]; exact hv) hg hn
  refine ⟨lp, m, h1, h2, hk2, by rw [hvars, hl], by rw [hm2, hm], fun x => ?_, fun x => ?_⟩
  · rw [← hobj x]; unfold objVal; rw [hobj2]
  · rw [hf2, hf]
    refine and_congr ?_ Iff.rfl
    constructor
    · exact fun h => h.2
    · refine fun h => ⟨fun j hj => ?_, h⟩
      simp [DomOK, List.getD, hj]

theorem terms_single (i : Nat) (c : K) (x : Nat → K) : terms [(i, c)] x = c * x i := by
  simp [terms]

theorem terms_pair (i j : Nat) (c d : K) (x : Nat → K) : terms [(i, c), (j, d)] x = c * x i + d * x j := by
  simp [terms]

/-- the rows of the z-system -/
theorem farkZ_rows {rf : RF K} {t : K} {m : Mat K} {rhs : List K} (h : rf.farkZ t = .ok (m, rhs)) :
    rf.initial < rf.N ∧ m.rows = rf.C + 1 ∧ m.cols = rf.N ∧ rhs.length = rf.C + 1 ∧ ∀ x : Nat → K,
    (∀ i < rf.C, ∑ j ∈ range m.cols, m.at_ i j * x j = zrow rf x i ∧ rhs.getD i 0 = rf.b i) ∧
    ∑ j ∈ range m.cols, m.at_ rf.C j * x j = - x rf.initial ∧ rhs.getD rf.C 0 = -t := by
  unfold RF.farkZ at h
  split at h
  swap
  · cases h
  rename_i hi
  cases h
  refine ⟨hi, rfl, rfl, by simp, fun x => ⟨fun i hic => ⟨?_, ?_⟩, ?_, ?_⟩⟩
  · simp only [hic, if_true, zrow]
  · exact getD_map_range_append hic _ _ _
  · simp only [lt_irrefl, if_false, RF.delta]
    rw [Finset.sum_eq_single rf.initial]
    · simp
    · intro j _ hj; simp [hj]
    · intro hn; exact absurd (Finset.mem_range.2 hi) hn
  · exact getD_map_range_last _ _ _

/-- the rows of the y-system -/
theorem farkY_rows {rf : RF K} {t : K} {m : Mat K} {rhs : List K} (h : rf.farkY t = .ok (m, rhs)) :
    rf.initial < rf.N ∧ m.rows = rf.N + 1 ∧ m.cols = rf.C ∧ rhs.length = rf.N + 1 ∧ ∀ x : Nat → K,
    (∀ j < rf.N, ∑ i ∈ range m.cols, m.at_ j i * x i = yrow rf x j ∧ rhs.getD j 0 = rf.delta j) ∧
    ∑ i ∈ range m.cols, m.at_ rf.N i * x i = - ygain rf x ∧ rhs.getD rf.N 0 = -t := by
  unfold RF.farkY at h
  split at h
  swap
  · cases h
  rename_i hi
  cases h
  refine ⟨hi, rfl, rfl, by simp, fun x => ⟨fun i hic => ⟨?_, ?_⟩, ?_, ?_⟩⟩
  · simp only [hic, if_true, yrow]
  · exact getD_map_range_append hic _ _ _
  · simp only [lt_irrefl, if_false, ygain, neg_mul, Finset.sum_neg_distrib]
  · exact getD_map_range_last _ _ _

/-- `max_z_state` -/
theorem maxZLP_ok {rf : RF K} (hi : rf.initial < rf.N) :
    ∃ lp, rf.maxZLP = .ok lp ∧ lp.maximize = true ∧ (∀ x, lp.objVal x = ∑ s ∈ range rf.N, x s) ∧
      ∀ x, lp.Feasible x ↔ (∀ i < rf.C, zrow rf x i ≤ rf.b i) ∧ 0 ≤ x rf.initial ∧
        ∀ s < rf.N, if rf.inProperEC s = true then x s = 0 else 0 ≤ x s ∧ x s ≤ 1 := by
  obtain ⟨m, rhs, hz⟩ := farkZ_some (0 : K) hi
  obtain ⟨-, hr, hc, hl, hrow⟩ := farkZ_rows hz
  obtain ⟨lp, mm, h1, h2, -, -, h3, h4, h5⟩ := lp_ok (A := m) (b := rhs) (opt := List.replicate rf.N 1) (s := .le)
    (mx := true) (cs := (List.range rf.N).flatMap fun s =>
      if rf.inProperEC s then [([(s, 1)], .eq, 0)] else [([(s, 1)], .ge, 0), ([(s, 1)], .le, 1)])
    (by rw [hr, hl]) (by rw [hc]; simp) (by
      intro c hcc t ht
      obtain ⟨s, hs, hcc⟩ := List.mem_flatMap.1 hcc
      rw [hc]
      have := List.mem_range.1 hs
      split at hcc <;> simp only [List.mem_cons, List.not_mem_nil, or_false] at hcc
      · subst hcc; simp at ht; subst ht; exact this
      · rcases hcc with rfl | rfl <;> (simp at ht; subst ht; exact this)) (by
      intro c hcc
      obtain ⟨s, hs, hcc⟩ := List.mem_flatMap.1 hcc
      split at hcc <;> simp only [List.mem_cons, List.not_mem_nil, or_false] at hcc
      · subst hcc; simp
      · rcases hcc with rfl | rfl <;> simp) (by
      intro c hcc
      obtain ⟨s, hs, hcc⟩ := List.mem_flatMap.1 hcc
      split at hcc <;> simp only [List.mem_cons, List.not_mem_nil, or_false] at hcc
      · subst hcc; simp
      · rcases hcc with rfl | rfl <;> simp)
  refine ⟨mm, ?_, h3, fun x => ?_, fun x => ?_⟩
  · simp only [RF.maxZLP, hz, bind, Except.bind, h1]
    exact h2
  · rw [h4, hc]
    refine Finset.sum_congr rfl fun j hj => ?_
    rw [List.getD_replicate _ (Finset.mem_range.1 hj), one_mul]
  · rw [h5, hr, forall_lt_succ']
    obtain ⟨r1, r2, r3⟩ := hrow x
    rw [r2, r3, and_assoc]
    refine and_congr ?_ (and_congr ?_ ?_)
    · refine forall_congr' fun i => forall_congr' fun hic => ?_
      rw [(r1 i hic).1, (r1 i hic).2]; rfl
    · simp [CSense.holds]
    · constructor
      · intro h s hs
        split
        · rename_i he
          have := h ([(s, 1)], .eq, 0) (List.mem_flatMap.2 ⟨s, List.mem_range.2 hs, by simp [he]⟩)
          simpa [CSense.holds, terms] using this
        · rename_i he
          have a := h ([(s, 1)], .ge, 0) (List.mem_flatMap.2 ⟨s, List.mem_range.2 hs, by simp [he]⟩)
          have b := h ([(s, 1)], .le, 1) (List.mem_flatMap.2 ⟨s, List.mem_range.2 hs, by simp [he]⟩)
          exact ⟨by simpa [CSense.holds, terms] using a, by simpa [CSense.holds, terms] using b⟩
      · intro h c hcc
        obtain ⟨s, hs, hcc⟩ := List.mem_flatMap.1 hcc
        have := h s (List.mem_range.1 hs)
        split at hcc <;> rename_i he <;> simp only [List.mem_cons, List.not_mem_nil, or_false] at hcc
        · rw [if_pos he] at this
          subst hcc; simpa [CSense.holds, terms] using this
        · rw [if_neg he] at this
          rcases hcc with rfl | rfl
          · simpa [CSense.holds, terms] using this.1
          · simpa [CSense.holds, terms] using this.2

/-- `pr_max` -/
theorem prMaxLP_ok {rf : RF K} (hi : rf.initial < rf.N) :
    ∃ lp, rf.prMaxLP = .ok lp ∧ lp.maximize = false ∧ (∀ x, lp.objVal x = ∑ s ∈ range rf.N, x s) ∧
      ∀ x, lp.Feasible x ↔ (∀ i < rf.C, rf.b i ≤ zrow rf x i) ∧ x rf.initial ≤ 1 ∧
        ∀ s < rf.N, 0 ≤ x s ∧ x s ≤ 1 := by
  obtain ⟨m, rhs, hz⟩ := farkZ_some (1 : K) hi
  obtain ⟨-, hr, hc, hl, hrow⟩ := farkZ_rows hz
  obtain ⟨lp, mm, h1, h2, -, -, h3, h4, h5⟩ := lp_ok (A := m) (b := rhs) (opt := List.replicate rf.N 1) (s := .ge)
    (mx := false) (cs := (List.range rf.N).flatMap fun s => [([(s, 1)], .ge, 0), ([(s, 1)], .le, 1)])
    (by rw [hr, hl]) (by rw [hc]; simp) (by
      intro c hcc t ht
      obtain ⟨s, hs, hcc⟩ := List.mem_flatMap.1 hcc
      rw [hc]
      have := List.mem_range.1 hs
      simp only [List.mem_cons, List.not_mem_nil, or_false] at hcc
      rcases hcc with rfl | rfl <;> (simp at ht; subst ht; exact this)) (by
      intro c hcc
      obtain ⟨s, hs, hcc⟩ := List.mem_flatMap.1 hcc
      simp only [List.mem_cons, List.not_mem_nil, or_false] at hcc
      rcases hcc with rfl | rfl <;> simp) (by
      intro c hcc
      obtain ⟨s, hs, hcc⟩ := List.mem_flatMap.1 hcc
      simp only [List.mem_cons, List.not_mem_nil, or_false] at hcc
      rcases hcc with rfl | rfl <;> simp)
  refine ⟨mm, ?_, h3, fun x => ?_, fun x => ?_⟩
  · simp only [RF.prMaxLP, hz, bind, Except.bind, h1]
    exact h2
  · rw [h4, hc]
    refine Finset.sum_congr rfl fun j hj => ?_
    rw [List.getD_replicate _ (Finset.mem_range.1 hj), one_mul]
  · rw [h5, hr, forall_lt_succ']
    obtain ⟨r1, r2, r3⟩ := hrow x
    rw [r2, r3, and_assoc]
    refine and_congr ?_ (and_congr ?_ ?_)
    · refine forall_congr' fun i => forall_congr' fun hic => ?_
      rw [(r1 i hic).1, (r1 i hic).2]; rfl
    · simp [CSense.holds]
    · constructor
      · intro h s hs
        have a := h ([(s, 1)], .ge, 0) (List.mem_flatMap.2 ⟨s, List.mem_range.2 hs, by simp⟩)
        have b := h ([(s, 1)], .le, 1) (List.mem_flatMap.2 ⟨s, List.mem_range.2 hs, by simp⟩)
        exact ⟨by simpa [CSense.holds, terms] using a, by simpa [CSense.holds, terms] using b⟩
      · intro h c hcc
        obtain ⟨s, hs, hcc⟩ := List.mem_flatMap.1 hcc
        have := h s (List.mem_range.1 hs)
        simp only [List.mem_cons, List.not_mem_nil, or_false] at hcc
        rcases hcc with rfl | rfl
        · simpa [CSense.holds, terms] using this.1
        · simpa [CSense.holds, terms] using this.2

/-- `max_y_state_action` -/
theorem maxYLP_ok {rf : RF K} (hi : rf.initial < rf.N) :
    ∃ lp, rf.maxYLP = .ok lp ∧ lp.maximize = true ∧ (∀ x, lp.objVal x = ygain rf x) ∧
      ∀ x, lp.Feasible x ↔ (∀ j < rf.N, yrow rf x j ≤ rf.delta j) ∧ 0 ≤ ygain rf x ∧
        ∀ i < rf.C, 0 ≤ x i := by
  obtain ⟨m, rhs, hz⟩ := farkY_some (0 : K) hi
  obtain ⟨-, hr, hc, hl, hrow⟩ := farkY_rows hz
  obtain ⟨lp, mm, h1, h2, -, -, h3, h4, h5⟩ := lp_ok (A := m) (b := rhs) (opt := (List.range rf.C).map rf.b) (s := .le)
    (mx := true) (cs := (List.range rf.C).map fun i => ([(i, 1)], .ge, 0))
    (by rw [hr, hl]) (by rw [hc]; simp) (by
      intro c hcc t ht
      obtain ⟨s, hs, rfl⟩ := List.mem_map.1 hcc
      rw [hc]
      simp at ht; subst ht; exact List.mem_range.1 hs) (by
      intro c hcc
      obtain ⟨s, hs, rfl⟩ := List.mem_map.1 hcc
      simp) (by
      intro c hcc
      obtain ⟨s, hs, rfl⟩ := List.mem_map.1 hcc
      simp)
  refine ⟨mm, ?_, h3, fun x => ?_, fun x => ?_⟩
  · simp only [RF.maxYLP, hz, bind, Except.bind, h1]
    exact h2
  · rw [h4, hc]
    refine Finset.sum_congr rfl fun j hj => ?_
    rw [getD_map_range (Finset.mem_range.1 hj)]
  · rw [h5, hr, forall_lt_succ']
    obtain ⟨r1, r2, r3⟩ := hrow x
    rw [r2, r3, and_assoc]
    refine and_congr ?_ (and_congr ?_ ?_)
    · refine forall_congr' fun i => forall_congr' fun hic => ?_
      rw [(r1 i hic).1, (r1 i hic).2]; rfl
    · simp [CSense.holds]
    · constructor
      · intro h s hs
        have a := h ([(s, 1)], .ge, 0) (List.mem_map.2 ⟨s, List.mem_range.2 hs, rfl⟩)
        simpa [CSense.holds, terms] using a
      · intro h c hcc
        obtain ⟨s, hs, rfl⟩ := List.mem_map.1 hcc
        simpa [CSense.holds, terms] using h s (List.mem_range.1 hs)

/-- `find_interior_point` -/
theorem interiorLP_ok {A : Mat K} {b : List K} {zero : List Nat} (hb : A.rows ≤ b.length)
    (hz : ∀ i ∈ zero, i < A.cols) :
    ∃ lp, interiorLP A b true zero = .ok lp ∧ lp.vars.length = A.cols + 1 ∧ lp.maximize = false ∧
      (∀ x, lp.objVal x = x A.cols) ∧
      ∀ x, lp.Feasible x ↔ (∀ i < A.rows, ∑ j ∈ range A.cols, A.at_ i j * x j ≤ b.getD i 0 + x A.cols) ∧
        (∀ j < A.cols, 0 ≤ x j + x A.cols) ∧ ∀ i ∈ zero, x i = 0 := by
  let cs : List (List (Nat × K) × CSense × K) :=
    (List.range A.cols).map fun i => ([(i, 1), (A.cols, 1)], .ge, 0)
  let A' : Mat K := ⟨A.rows, A.cols + 1, fun i j => if j = A.cols then -1 else A.at_ i j⟩
  obtain ⟨lp, m, h1, h2, hk, hl, h3, h4, h5⟩ := lp_ok (A := A') (b := b) (opt := List.replicate A.cols 0 ++ [1])
    (s := .le) (mx := false) (cs := cs) hb (by simp [A']) (by
      intro c hcc t ht
      obtain ⟨s, hs, rfl⟩ := List.mem_map.1 hcc
      have := List.mem_range.1 hs
      simp only [List.mem_cons, List.not_mem_nil, or_false] at ht
      show t.1 < A.cols + 1
      rcases ht with rfl | rfl <;> simp only <;> omega) (by
      intro c hcc
      obtain ⟨s, hs, rfl⟩ := List.mem_map.1 hcc
      simp) (by
      intro c hcc
      obtain ⟨s, hs, rfl⟩ := List.mem_map.1 hcc
      have := List.mem_range.1 hs
      simp; omega)
  obtain ⟨m2, g1, -, -, gv, go, gm, gf⟩ := addConstraints_ok hk
    (zero.map fun i => ([(i, (1 : K))], CSense.eq, (0 : K))) (by
      intro c hcc t ht
      obtain ⟨s, hs, rfl⟩ := List.mem_map.1 hcc
      simp at ht; subst ht
      rw [hl]
      have := hz s hs
      show s < A.cols + 1
      omega) (by
      intro c hcc
      obtain ⟨s, hs, rfl⟩ := List.mem_map.1 hcc
      simp) (by
      intro c hcc
      obtain ⟨s, hs, rfl⟩ := List.mem_map.1 hcc
      simp)
  refine ⟨m2, ?_, by rw [gv, hl], by rw [gm, h3], fun x => ?_, fun x => ?_⟩
  · simp only [interiorLP, bind, Except.bind, if_true]
    have h1' : lpFromCoefficients (⟨A.rows, A.cols + 1, fun i j => if j = A.cols then -1 else A.at_ i j⟩ : Mat K) b
      (List.replicate A.cols 0 ++ [1]) CSense.le false = .ok lp := h1
    have h2' : lp.addConstraints ((List.range A.cols).map fun i => ([(i, 1), (A.cols, 1)], .ge, 0)) = .ok m := h2
    simp only [h1', h2']
    exact g1
  · have e : m2.objVal x = m.objVal x := by unfold objVal; rw [go]
    rw [e, h4]
    show ∑ j ∈ range (A.cols + 1), _ = _
    rw [sum_range_succ, Finset.sum_eq_zero, zero_add]
    · rw [List.getD_append_right _ _ _ _ (by simp)]; simp
    · intro j hj
      rw [List.getD_append _ _ _ _ (by simpa using Finset.mem_range.1 hj),
        List.getD_replicate _ (Finset.mem_range.1 hj), zero_mul]
  · rw [gf, h5, and_assoc]
    refine and_congr ?_ (and_congr ?_ ?_)
    · refine forall_congr' fun i => forall_congr' fun hic => ?_
      have : ∑ j ∈ range A'.cols, A'.at_ i j * x j = ∑ j ∈ range A.cols, A.at_ i j * x j - x A.cols := by
        show ∑ j ∈ range (A.cols + 1), (if j = A.cols then -1 else A.at_ i j) * x j = _
        rw [sum_range_succ]
        simp only [if_true]
        have : ∑ j ∈ range A.cols, (if j = A.cols then -1 else A.at_ i j) * x j = ∑ j ∈ range A.cols, A.at_ i j * x j :=
          Finset.sum_congr rfl fun j hj => by rw [if_neg (by have := Finset.mem_range.1 hj; omega)]
        rw [this]; ring
      rw [this]
      exact sub_le_iff_le_add
    · constructor
      · intro h j hj
        have a := h ([(j, 1), (A.cols, 1)], .ge, 0) (List.mem_map.2 ⟨j, List.mem_range.2 hj, rfl⟩)
        simpa [CSense.holds, terms] using a
      · intro h c hcc
        obtain ⟨s, hs, rfl⟩ := List.mem_map.1 hcc
        simpa [CSense.holds, terms] using h s (List.mem_range.1 hs)
    · constructor
      · intro h j hj
        have a := h ([(j, 1)], .eq, 0) (List.mem_map.2 ⟨j, hj, rfl⟩)
        simpa [CSense.holds, terms] using a
      · intro h c hcc
        obtain ⟨s, hs, rfl⟩ := List.mem_map.1 hcc
        simpa [CSense.holds, terms] using h s hs

end Verif.Proofs
