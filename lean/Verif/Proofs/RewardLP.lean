import Verif.Proofs.RewardSem
import Verif.Proofs.LP
/-! # The linear programs of the reward form -/
set_option linter.unusedSectionVars false

namespace Verif.Theory.Core
variable {S R : Type} [Fintype S] [DecidableEq S] [DecidableEq R] {M : Core S R}

/-- an optimal flow in transient cores -/
theorem exists_dual_max_transient (h : M.QSub) (ht : M.Transient) {B : S → ℝ} (b : M.Bound B) (i : S) :
    ∃ y : S → R → ℝ, (∀ s r, 0 ≤ y s r) ∧ (∀ t, M.bal y t = if t = i then 1 else 0) ∧
      M.gain y = M.Vmax i := by
  choose f hf hfx using exists_step_Vmax h.toOK b
  obtain ⟨Y, hY0, -, hY⟩ := exists_visits_on h hf Finset.univ
    (fun B _ hB => ht.choice hf hB) (Finset.mem_univ i)
  have hbal : ∀ t, M.bal (flow f Y) t = if t = i then 1 else 0 := fun t => by
    rw [bal_flow hf]; have := hY t (Finset.mem_univ t); linarith
  refine ⟨flow f Y, flow_nonneg hY0, hbal, ?_⟩
  have hd := duality M (flow f Y) M.Vmax
  have e : ∑ s, ∑ r ∈ M.rows s, flow f Y s r * (M.Vmax s - M.step M.Vmax s r) = 0 :=
    Finset.sum_eq_zero fun s _ => by
      rw [flow_sum hf Y s fun r => M.Vmax s - M.step M.Vmax s r, hfx s]; simp
  rw [e] at hd
  simp only [hbal] at hd
  simp at hd
  linarith

/-- two transient cores that differ in the gains of the rows that leave only: there the gains are `c` and `0` -/
theorem shift {A A' : Core S R} {B B' : S → ℝ} {c : ℝ} (hq : A.QSub) (t1 : A.Transient) (hB : A.Bound B)
    (hq' : A'.QSub) (t2 : A'.Transient) (hB' : A'.Bound B') (hrows : ∀ u, A'.rows u = A.rows u)
    (hQ : ∀ u r t, A'.Q u r t = A.Q u r t)
    (key : ∀ u, ∀ r ∈ A.rows u, (A.g u r = c ∧ A'.g u r = 0 ∧ ∀ t, A.Q u r t = 0) ∨
      (A.g u r = A'.g u r ∧ ∑ t, A.Q u r t = 1)) (s : S) :
    A.Vmax s = A'.Vmax s + c ∧ A.Vmin s = A'.Vmin s + c := by
  have hstep : ∀ (z : S → ℝ) (d : ℝ) (u r), ∑ t, A.Q u r t * (z t + d) =
      ∑ t, A.Q u r t * z t + (∑ t, A.Q u r t) * d := by
    intro z d u r
    simp only [mul_add, Finset.sum_add_distrib, Finset.sum_mul]
  have v1 : ∀ u, ∀ r ∈ A.rows u, A.step A.Vmax u r ≤ A.Vmax u := fun u r hr => Core.step_Vmax_le hq.toOK hB hr
  have v2 : ∀ u, ∀ r ∈ A.rows u, A'.step A'.Vmax u r ≤ A'.Vmax u := fun u r hr =>
    Core.step_Vmax_le hq'.toOK hB' (by rw [hrows]; exact hr)
  have w1 : ∀ u, ∀ r ∈ A.rows u, A.Vmin u ≤ A.step A.Vmin u r := fun u r hr => Core.Vmin_le_step hq.toOK hB hr
  have w2 : ∀ u, ∀ r ∈ A.rows u, A'.Vmin u ≤ A'.step A'.Vmin u r := fun u r hr =>
    Core.Vmin_le_step hq'.toOK hB' (by rw [hrows]; exact hr)
  unfold step at v1 v2 w1 w2
  simp only [hQ] at v2 w2
  have a1 : ∀ u, A.Vmax u ≤ A'.Vmax u + c := Core.Vmax_le_of_transient hq t1 hB (z := fun u => A'.Vmax u + c) fun u r hr => by
    have := v2 u r hr
    unfold Core.step
    beta_reduce
    rw [hstep]
    rcases key u r hr with ⟨k1, k2, k3⟩ | ⟨k1, k2⟩
    · simp only [k3, zero_mul, Finset.sum_const_zero] at this ⊢; linarith
    · rw [k2, k1]; linarith
  have a2 : ∀ u, A'.Vmax u ≤ A.Vmax u + -c := Core.Vmax_le_of_transient hq' t2 hB' (z := fun u => A.Vmax u + -c) fun u r hr => by
    rw [hrows] at hr
    have := v1 u r hr
    unfold Core.step
    simp only [hQ]
    rw [hstep]
    rcases key u r hr with ⟨k1, k2, k3⟩ | ⟨k1, k2⟩
    · simp only [k3, zero_mul, Finset.sum_const_zero] at this ⊢; linarith
    · rw [k2, ← k1]; linarith
  have a3 : ∀ u, A'.Vmin u + c ≤ A.Vmin u := Core.le_Vmin_of_transient hq t1 hB (z := fun u => A'.Vmin u + c) fun u r hr => by
    have := w2 u r hr
    unfold Core.step
    beta_reduce
    rw [hstep]
    rcases key u r hr with ⟨k1, k2, k3⟩ | ⟨k1, k2⟩
    · simp only [k3, zero_mul, Finset.sum_const_zero] at this ⊢; linarith
    · rw [k2, k1]; linarith
  have a4 : ∀ u, A.Vmin u + -c ≤ A'.Vmin u := Core.le_Vmin_of_transient hq' t2 hB' (z := fun u => A.Vmin u + -c) fun u r hr => by
    rw [hrows] at hr
    have := w1 u r hr
    unfold Core.step
    simp only [hQ]
    rw [hstep]
    rcases key u r hr with ⟨k1, k2, k3⟩ | ⟨k1, k2⟩
    · simp only [k3, zero_mul, Finset.sum_const_zero] at this ⊢; linarith
    · rw [k2, ← k1]; linarith
  constructor
  · have := a1 s
    have := a2 s
    linarith
  · have := a3 s
    have := a4 s
    linarith

end Verif.Theory.Core

namespace Verif.Proofs
open Verif.Model Verif.Model.Milp Verif.Theory Finset

variable {K : Type} [Field K] [LinearOrder K] [IsStrictOrderedRing K] {x : RRF K}

/-- reward collected by a flow -/
def rgain (x : RRF K) (y : Nat → K) : K := ∑ i ∈ range x.rf.C, x.rew.getD i 0 * y i

section
variable (h : RRFOK x) (φ : K →+*o ℝ)
include h

theorem RRFOK.zrow_eq (v : Nat → K) {i : Fin x.rf.C} {s : Fin x.rf.N} (hi : i ∈ (h.core φ).rows s) :
    φ (x.rew.getD i.1 0) - φ (zrow x.rf v i.1) = (h.core φ).step (RFOK.vec φ v) s i - RFOK.vec φ v s := by
  have h1 := RFOK.zrow_eq h.ok φ v hi
  have h2 : (h.ok.core φ).step (RFOK.vec φ v) s i =
    φ (x.rf.b i.1) + ∑ t : Fin x.rf.N, φ (x.rf.P i.1 t.1) * RFOK.vec φ v t := rfl
  have h3 : (h.core φ).step (RFOK.vec φ v) s i =
    φ (x.rew.getD i.1 0) + ∑ t : Fin x.rf.N, φ (x.rf.P i.1 t.1) * RFOK.vec φ v t := rfl
  rw [h2] at h1
  rw [h3]
  linarith

theorem RRFOK.zrow_le_iff (v : Nat → K) : (∀ i < x.rf.C, zrow x.rf v i ≤ x.rew.getD i 0) ↔
    ∀ s, ∀ r ∈ (h.core φ).rows s, RFOK.vec φ v s ≤ (h.core φ).step (RFOK.vec φ v) s r := by
  constructor
  · intro hh s r hr
    have h1 := h.zrow_eq φ v hr
    have h2 := OrderHomClass.mono φ (hh r.1 r.2)
    linarith
  · intro hh i hi
    obtain ⟨s, hs, e⟩ := h.ok.exists_rowState hi
    have hr : (⟨i, hi⟩ : Fin x.rf.C) ∈ (h.core φ).rows ⟨s, hs⟩ := (h.ok.mem_rows φ).2 e
    have h1 := h.zrow_eq φ v hr
    have h2 := hh _ _ hr
    rw [← (phi_strict φ).le_iff_le]
    simp only at h1
    linarith

theorem RRFOK.zrow_ge_iff (v : Nat → K) : (∀ i < x.rf.C, x.rew.getD i 0 ≤ zrow x.rf v i) ↔
    ∀ s, ∀ r ∈ (h.core φ).rows s, (h.core φ).step (RFOK.vec φ v) s r ≤ RFOK.vec φ v s := by
  constructor
  · intro hh s r hr
    have h1 := h.zrow_eq φ v hr
    have h2 := OrderHomClass.mono φ (hh r.1 r.2)
    linarith
  · intro hh i hi
    obtain ⟨s, hs, e⟩ := h.ok.exists_rowState hi
    have hr : (⟨i, hi⟩ : Fin x.rf.C) ∈ (h.core φ).rows ⟨s, hs⟩ := (h.ok.mem_rows φ).2 e
    have h1 := h.zrow_eq φ v hr
    have h2 := hh _ _ hr
    rw [← (phi_strict φ).le_iff_le]
    simp only at h1
    linarith

theorem RRFOK.rgain_eq (y : Nat → K) : φ (rgain x y) = (h.core φ).gain (RFOK.vecY φ y) := by
  unfold rgain Core.gain
  have := h.ok.sum_rows φ (fun r => φ (y r.1) * φ (x.rew.getD r.1 0))
  rw [map_sum, ← Fin.sum_univ_eq_sum_range (fun i => φ (x.rew.getD i 0 * y i))]
  refine Eq.trans ?_ this.symm
  exact Finset.sum_congr rfl fun r _ => by rw [map_mul, mul_comm]
end

/-- the rows of the z-system -/
theorem rfarkZ_rows {t : K} {m : Mat K} {rhs : List K} (h : x.farkZ t = .ok (m, rhs)) :
    x.rf.initial < x.rf.N ∧ m.rows = x.rf.C + 1 ∧ m.cols = x.rf.N ∧ rhs.length = x.rf.C + 1 ∧ ∀ z : Nat → K,
    (∀ i < x.rf.C, ∑ j ∈ range m.cols, m.at_ i j * z j = zrow x.rf z i ∧ rhs.getD i 0 = x.rew.getD i 0) ∧
    ∑ j ∈ range m.cols, m.at_ x.rf.C j * z j = - z x.rf.initial ∧ rhs.getD x.rf.C 0 = -t := by
  unfold RRF.farkZ at h
  split at h
  swap
  · cases h
  rename_i hi
  cases h
  refine ⟨hi, rfl, rfl, by simp [RRF.C], fun z => ⟨fun i hic => ⟨?_, ?_⟩, ?_, ?_⟩⟩
  · simp only [RRF.C, RRF.N, hic, if_true, zrow]
  · exact getD_map_range_append hic _ _ _
  · simp only [RRF.C, RRF.N, lt_irrefl, if_false, RF.delta]
    rw [Finset.sum_eq_single x.rf.initial]
    · simp
    · intro j _ hj; simp [hj]
    · intro hn; exact absurd (Finset.mem_range.2 hi) hn
  · exact getD_map_range_last _ _ _

/-- the rows of the y-system -/
theorem rfarkY_rows {t : K} {m : Mat K} {rhs : List K} (h : x.farkY t = .ok (m, rhs)) :
    x.rf.initial < x.rf.N ∧ m.rows = x.rf.N + 1 ∧ m.cols = x.rf.C ∧ rhs.length = x.rf.N + 1 ∧ ∀ y : Nat → K,
    (∀ j < x.rf.N, ∑ i ∈ range m.cols, m.at_ j i * y i = yrow x.rf y j ∧ rhs.getD j 0 = x.rf.delta j) ∧
    ∑ i ∈ range m.cols, m.at_ x.rf.N i * y i = - rgain x y ∧ rhs.getD x.rf.N 0 = -t := by
  unfold RRF.farkY at h
  split at h
  swap
  · cases h
  rename_i hi
  split at h
  swap
  · cases h
  cases h
  refine ⟨hi, rfl, rfl, by simp [RRF.N], fun z => ⟨fun i hic => ⟨?_, ?_⟩, ?_, ?_⟩⟩
  · simp only [RRF.C, RRF.N, hic, if_true, yrow]
  · exact getD_map_range_append hic _ _ _
  · simp only [RRF.C, RRF.N, lt_irrefl, if_false, rgain, neg_mul, Finset.sum_neg_distrib]
  · exact getD_map_range_last _ _ _

theorem rfarkZ_some (t : K) (hi : x.rf.initial < x.rf.N) : ∃ m rhs, x.farkZ t = .ok (m, rhs) := by
  unfold RRF.farkZ; rw [if_pos (by exact hi)]; exact ⟨_, _, rfl⟩

theorem rfarkY_some (t : K) (hi : x.rf.initial < x.rf.N) (hl : x.rew.length = x.rf.C) :
    ∃ m rhs, x.farkY t = .ok (m, rhs) := by
  unfold RRF.farkY; rw [if_pos (by exact hi), if_pos (by exact hl)]; exact ⟨_, _, rfl⟩

/-- non-negativity constraints -/
theorem nonneg_cs {n : Nat} {z : Nat → K} :
    (∀ c ∈ (List.range n).map (fun s => (([(s, 1)] : List (Nat × K)), CSense.ge, (0 : K))),
      CSense.holds c.2.1 (terms c.1 z) c.2.2) ↔ ∀ s < n, 0 ≤ z s := by
  constructor
  · intro h s hs
    have a := h ([(s, 1)], .ge, 0) (List.mem_map.2 ⟨s, List.mem_range.2 hs, rfl⟩)
    simpa [CSense.holds, terms] using a
  · intro h c hcc
    obtain ⟨s, hs, rfl⟩ := List.mem_map.1 hcc
    simpa [CSense.holds, terms] using h s (List.mem_range.1 hs)

theorem nonneg_cs_ok {n m : Nat} (hnm : n = m) :
    (∀ c ∈ (List.range n).map (fun s => (([(s, 1)] : List (Nat × K)), CSense.ge, (0 : K))), ∀ t ∈ c.1, t.1 < m) ∧
    (∀ c ∈ (List.range n).map (fun s => (([(s, 1)] : List (Nat × K)), CSense.ge, (0 : K))), c.1 ≠ []) ∧
    (∀ c ∈ (List.range n).map (fun s => (([(s, 1)] : List (Nat × K)), CSense.ge, (0 : K))), (c.1.map Prod.fst).Nodup) := by
  refine ⟨fun c hc t ht => ?_, fun c hc => ?_, fun c hc => ?_⟩
  · obtain ⟨s, hs, rfl⟩ := List.mem_map.1 hc
    simp at ht; subst ht; rw [← hnm]; exact List.mem_range.1 hs
  · obtain ⟨s, hs, rfl⟩ := List.mem_map.1 hc; simp
  · obtain ⟨s, hs, rfl⟩ := List.mem_map.1 hc; simp

/-- `max_z_state` / `rew_min` -/
theorem rmaxZLP_ok (hi : x.rf.initial < x.rf.N) :
    ∃ lp, x.maxZLP = .ok lp ∧ lp.maximize = true ∧ (∀ z, lp.objVal z = ∑ s ∈ range x.rf.N, z s) ∧
      ∀ z, lp.Feasible z ↔ (∀ i < x.rf.C, zrow x.rf z i ≤ x.rew.getD i 0) ∧ ∀ s < x.rf.N, 0 ≤ z s := by
  obtain ⟨m, rhs, hz⟩ := rfarkZ_some (0 : K) hi
  obtain ⟨-, hr, hc, hl, hrow⟩ := rfarkZ_rows hz
  obtain ⟨c1, c2, c3⟩ := nonneg_cs_ok (K := K) (n := x.N) (m := m.cols) hc.symm
  obtain ⟨lp, mm, h1, h2, -, -, h3, h4, h5⟩ := lp_ok (A := m) (b := rhs) (opt := List.replicate x.N 1) (s := .le)
    (mx := true) (by rw [hr, hl]) (by rw [hc]; simp [RRF.N]) c1 c2 c3
  refine ⟨mm, ?_, h3, fun z => ?_, fun z => ?_⟩
  · simp only [RRF.maxZLP, hz, bind, Except.bind, h1]
    exact h2
  · rw [h4, hc]
    refine Finset.sum_congr rfl fun j hj => ?_
    rw [List.getD_replicate (n := x.N) _ (Finset.mem_range.1 hj), one_mul]
  · rw [h5, nonneg_cs, hr, forall_lt_succ']
    obtain ⟨r1, r2, r3⟩ := hrow z
    rw [r2, r3, and_assoc]
    refine and_congr ?_ ?_
    · refine forall_congr' fun i => forall_congr' fun hic => ?_
      rw [(r1 i hic).1, (r1 i hic).2]; rfl
    · simp only [CSense.holds, neg_zero, neg_nonpos]
      exact ⟨fun hh => hh.2, fun hh => ⟨hh _ hi, hh⟩⟩

/-- `rew_max` -/
theorem rewMaxLP_ok (hlen : x.rew.length = x.rf.C) :
    ∃ lp, x.rewMaxLP = .ok lp ∧ lp.maximize = false ∧ (∀ z, lp.objVal z = ∑ s ∈ range x.rf.N, z s) ∧
      ∀ z, lp.Feasible z ↔ (∀ i < x.rf.C, x.rew.getD i 0 ≤ zrow x.rf z i) ∧ ∀ s < x.rf.N, 0 ≤ z s := by
  obtain ⟨c1, c2, c3⟩ := nonneg_cs_ok (K := K) (n := x.N) (m := x.N) rfl
  obtain ⟨lp, mm, h1, h2, -, -, h3, h4, h5⟩ := lp_ok (A := ⟨x.C, x.N, x.rf.A⟩) (b := x.rew)
    (opt := List.replicate x.N 1) (s := .ge)
    (mx := false) (by rw [hlen]; exact le_rfl) (by simp) c1 c2 c3
  refine ⟨mm, ?_, h3, fun z => ?_, fun z => ?_⟩
  · simp only [RRF.rewMaxLP, bind, Except.bind, h1]
    exact h2
  · rw [h4]
    refine Finset.sum_congr rfl fun j hj => ?_
    rw [List.getD_replicate (n := x.N) _ (Finset.mem_range.1 hj), one_mul]
  · rw [h5, nonneg_cs]
    rfl

/-- `max_y_state_action` -/
theorem rmaxYLP_ok (hi : x.rf.initial < x.rf.N) (hlen : x.rew.length = x.rf.C) :
    ∃ lp, x.maxYLP = .ok lp ∧ lp.maximize = true ∧ (∀ y, lp.objVal y = rgain x y) ∧
      ∀ y, lp.Feasible y ↔ (∀ j < x.rf.N, yrow x.rf y j ≤ x.rf.delta j) ∧ 0 ≤ rgain x y ∧
        ∀ i < x.rf.C, 0 ≤ y i := by
  obtain ⟨m, rhs, hz⟩ := rfarkY_some (0 : K) hi hlen
  obtain ⟨-, hr, hc, hl, hrow⟩ := rfarkY_rows hz
  obtain ⟨c1, c2, c3⟩ := nonneg_cs_ok (K := K) (n := x.C) (m := m.cols) hc.symm
  obtain ⟨lp, mm, h1, h2, -, -, h3, h4, h5⟩ := lp_ok (A := m) (b := rhs) (opt := x.rew) (s := .le)
    (mx := true) (by rw [hr, hl]) (by rw [hc, hlen]) c1 c2 c3
  refine ⟨mm, ?_, h3, fun z => ?_, fun z => ?_⟩
  · simp only [RRF.maxYLP, hz, bind, Except.bind, h1]
    exact h2
  · rw [h4, hc]; rfl
  · rw [h5, nonneg_cs, hr, forall_lt_succ']
    obtain ⟨r1, r2, r3⟩ := hrow z
    rw [r2, r3, and_assoc]
    refine and_congr ?_ (and_congr ?_ Iff.rfl)
    · refine forall_congr' fun i => forall_congr' fun hic => ?_
      rw [(r1 i hic).1, (r1 i hic).2]; rfl
    · simp [CSense.holds]

end Verif.Proofs
