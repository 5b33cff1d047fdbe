import Verif.Proofs.RewardLP
import Verif.Proofs.LPTol
/-! # The linear programs of the reward form, with constraints that are met up to a tolerance -/
set_option linter.unusedSectionVars false

namespace Verif.Theory.Core
open Finset
variable {S R : Type} [Fintype S] [DecidableEq S] {M : Core S R}

/-- a vector below all its lookaheads up to `tol` -/
theorem le_Vmin_transient_tol (h : M.QSub) (ht : M.Transient) {B : S → ℝ} (b : M.Bound B) {w : S → ℝ}
    (hw : ∀ s, ∀ r ∈ M.rows s, 1 + ∑ t, M.Q s r t * w t ≤ w s) {tol : ℝ} (h0 : 0 ≤ tol) {z : S → ℝ}
    (hz : ∀ s, ∀ r ∈ M.rows s, z s ≤ M.step z s r + tol) (s : S) : z s ≤ M.Vmin s + tol * w s := by
  have := le_Vmin_of_transient h ht b (z := fun s => z s - tol * w s) (fun s r hr => by
    have h1 := hz s r hr
    have h2 := mul_le_mul_of_nonneg_left (hw s r hr) h0
    have h3 : ∑ t, M.Q s r t * (z t - tol * w t) = ∑ t, M.Q s r t * z t - tol * ∑ t, M.Q s r t * w t := by
      rw [Finset.mul_sum, ← Finset.sum_sub_distrib]
      exact Finset.sum_congr rfl fun t _ => by ring
    simp only [step] at h1 ⊢
    rw [h3]
    linarith) s
  linarith

/-- a vector above all its lookaheads up to `tol` -/
theorem Vmax_le_transient_tol (h : M.QSub) (ht : M.Transient) {B : S → ℝ} (b : M.Bound B) {w : S → ℝ}
    (hw : ∀ s, ∀ r ∈ M.rows s, 1 + ∑ t, M.Q s r t * w t ≤ w s) {tol : ℝ} (h0 : 0 ≤ tol) {z : S → ℝ}
    (hz : ∀ s, ∀ r ∈ M.rows s, M.step z s r ≤ z s + tol) (s : S) : M.Vmax s ≤ z s + tol * w s := by
  refine Vmax_le_of_transient h ht b (z := fun s => z s + tol * w s) (fun s r hr => ?_) s
  have h1 := hz s r hr
  have h2 := mul_le_mul_of_nonneg_left (hw s r hr) h0
  have h3 : ∑ t, M.Q s r t * (z t + tol * w t) = ∑ t, M.Q s r t * z t + tol * ∑ t, M.Q s r t * w t := by
    rw [Finset.mul_sum, ← Finset.sum_add_distrib]
    exact Finset.sum_congr rfl fun t _ => by ring
  simp only [step] at h1 ⊢
  rw [h3]
  linarith

/-- a flow that meets its constraints up to `e` gains little more than the maximal value -/
theorem gain_le_Vmax_tol (h : M.OK) {b : S → ℝ} (hb : M.Bound b) {y : S → R → ℝ} {e : ℝ} (he : 0 ≤ e)
    (hy : ∀ s, ∀ r ∈ M.rows s, -e ≤ y s r) {i : S} (hbal : ∀ t, M.bal y t ≤ (if t = i then 1 else 0) + e)
    {B : ℝ} (hB : ∀ s, M.Vmax s ≤ B) :
    M.gain y ≤ M.Vmax i + e * (Fintype.card S + ∑ s, ((M.rows s).card : ℝ)) * B := by
  have h1 : 0 ≤ ∑ s, ∑ r ∈ M.rows s, (y s r + e) * (M.Vmax s - M.step M.Vmax s r) :=
    Finset.sum_nonneg fun s _ => Finset.sum_nonneg fun r hr =>
      mul_nonneg (by linarith [hy s r hr]) (sub_nonneg.2 (step_Vmax_le h hb hr))
  rw [duality M (fun s r => y s r + e)] at h1
  have h2 : M.gain y ≤ M.gain fun s r => y s r + e := by
    unfold gain
    exact Finset.sum_le_sum fun s _ => Finset.sum_le_sum fun r hr =>
      mul_le_mul_of_nonneg_right (by linarith) (h.g0 s r hr)
  have h3 : ∀ t, M.bal (fun s r => y s r + e) t ≤ (if t = i then 1 else 0) + e * (1 + (M.rows t).card) := by
    intro t
    have g1 := hbal t
    have g2 : ∑ r ∈ M.rows t, (y t r + e) = ∑ r ∈ M.rows t, y t r + e * (M.rows t).card := by
      rw [sum_add_distrib, sum_const, nsmul_eq_mul]; ring
    have g3 : ∑ s, ∑ r ∈ M.rows s, y s r * M.Q s r t ≤ ∑ s, ∑ r ∈ M.rows s, (y s r + e) * M.Q s r t :=
      sum_le_sum fun s _ => sum_le_sum fun r hr => mul_le_mul_of_nonneg_right (by linarith) (h.Q0 s r hr t)
    unfold bal at g1 ⊢
    rw [g2]
    linarith
  have h4 : ∑ t, M.Vmax t * M.bal (fun s r => y s r + e) t ≤
      ∑ t, (M.Vmax t * (if t = i then 1 else 0) + e * (1 + (M.rows t).card) * B) :=
    Finset.sum_le_sum fun t _ => by
      have g0 := Vmax_nonneg h hb t
      have g1 := mul_le_mul_of_nonneg_left (h3 t) g0
      have g2 : M.Vmax t * (e * (1 + (M.rows t).card)) ≤ B * (e * (1 + (M.rows t).card)) :=
        mul_le_mul_of_nonneg_right (hB t) (by positivity)
      linarith
  rw [Finset.sum_add_distrib] at h4
  simp only [mul_ite, mul_one, mul_zero, Finset.sum_ite_eq', Finset.mem_univ, if_true] at h4
  rw [← Finset.sum_mul, ← Finset.mul_sum, Finset.sum_add_distrib, Finset.sum_const, Finset.card_univ, nsmul_eq_mul, mul_one] at h4
  linarith

end Verif.Theory.Core

namespace Verif.Proofs
open Verif.Model Verif.Model.Milp Verif.Theory Finset

variable {K : Type} [Field K] [LinearOrder K] [IsStrictOrderedRing K] {x : RRF K}

section
variable (h : RRFOK x) (φ : K →+*o ℝ)
include h

theorem RRFOK.zrow_le_tol {v : Nat → K} {ε : K} (hh : ∀ i < x.rf.C, zrow x.rf v i ≤ x.rew.getD i 0 + ε) :
    ∀ s, ∀ r ∈ (h.core φ).rows s, RFOK.vec φ v s ≤ (h.core φ).step (RFOK.vec φ v) s r + φ ε := by
  intro s r hr
  have h1 := h.zrow_eq φ v hr
  have h2 := OrderHomClass.mono φ (hh r.1 r.2)
  rw [map_add] at h2
  linarith

theorem RRFOK.zrow_ge_tol {v : Nat → K} {ε : K} (hh : ∀ i < x.rf.C, x.rew.getD i 0 ≤ zrow x.rf v i + ε) :
    ∀ s, ∀ r ∈ (h.core φ).rows s, (h.core φ).step (RFOK.vec φ v) s r ≤ RFOK.vec φ v s + φ ε := by
  intro s r hr
  have h1 := h.zrow_eq φ v hr
  have h2 := OrderHomClass.mono φ (hh r.1 r.2)
  rw [map_add] at h2
  linarith

/-- expected numbers of steps, bounded by the smallest positive probability -/
theorem RRFOK.exists_w {p : K} (hp : 0 < p)
    (hmin : ∀ i < x.rf.sys.C, ∀ j < x.rf.sys.N, 0 < x.rf.sys.P.get i j → p ≤ x.rf.sys.P.get i j) :
    ∃ w : Fin x.rf.N → ℝ, (∀ s, 0 ≤ w s) ∧ (∀ s, w s ≤ φ (x.rf.sys.N / p ^ x.rf.sys.N)) ∧
      ∀ s, ∀ r ∈ (h.core φ).rows s, 1 + ∑ t, (h.core φ).Q s r t * w t ≤ w s := by
  have ho := h.ok
  have hN := ho.hN
  have hC := ho.hC
  have e0 : φ (x.rf.sys.N / p ^ x.rf.sys.N) = x.rf.sys.N / (φ p) ^ x.rf.sys.N := by
    rw [map_div₀, map_pow, map_natCast]
  rw [e0]
  refine Core.exists_w_eps (h.qsub φ) (h.transient φ) (ε := φ p) (by simpa using phi_strict φ hp) ?_ ?_ ?_ ?_
  · have := hmin (x.rf.sys.C - 2) (by omega) (x.rf.sys.N - 2) (by omega) (by rw [ho.goalP]; exact one_pos)
    rw [ho.goalP] at this
    simpa using OrderHomClass.mono φ this
  · intro s r _ u hq
    have hq : 0 < φ (x.rf.P r.1 u.1) := hq
    have hq' : 0 < x.rf.P r.1 u.1 := (phi_strict φ).lt_iff_lt.1 (by rwa [map_zero])
    exact OrderHomClass.mono φ (hmin _ (RFOK.lt_C r.2) _ (by have := u.2; unfold RF.N at this; omega) hq')
  · intro s r _
    have e := RFOK.row_sum ho φ (RFOK.lt_C r.2)
    rw [h.noFail r.1 r.2, map_zero, add_zero] at e
    have g0 : 0 ≤ x.rf.b r.1 := RFOK.b_nonneg ho _
    show ∑ u : Fin x.rf.N, φ (x.rf.P r.1 u.1) = 1 ∨ ∑ u : Fin x.rf.N, φ (x.rf.P r.1 u.1) ≤ 1 - φ p
    rcases g0.eq_or_lt with hg | hg
    · left
      rw [← hg, map_zero] at e
      linarith
    · right
      have := OrderHomClass.mono φ (hmin r.1 (RFOK.lt_C r.2) (x.rf.sys.N - 2) (by omega) hg)
      have e' : φ (x.rf.b r.1) = φ (x.rf.sys.P.get r.1 (x.rf.sys.N - 2)) := rfl
      linarith
  · rw [Fintype.card_fin]; unfold RF.N; omega
end

theorem nonneg_nodup {n : Nat} :
    ∀ c ∈ (List.range n).map (fun s => (([(s, 1)] : List (Nat × K)), CSense.ge, (0 : K))), (c.1.map Prod.fst).Nodup := by
  intro c hc
  obtain ⟨s, hs, rfl⟩ := List.mem_map.1 hc
  simp

theorem nonneg_tol {n : Nat} {ε : K} {z : Nat → K}
    (h : ∀ c ∈ (List.range n).map (fun s => (([(s, 1)] : List (Nat × K)), CSense.ge, (0 : K))),
      CSense.holdsTol ε c.2.1 (terms c.1 z) c.2.2) : ∀ s < n, -ε ≤ z s := by
  intro s hs
  have := h ([(s, 1)], .ge, 0) (List.mem_map.2 ⟨s, List.mem_range.2 hs, rfl⟩)
  simp only [CSense.holdsTol, terms_single, one_mul] at this
  linarith

/-- `max_z_state` / `rew_min` -/
theorem rmaxZLP_tol {lp : Milp K} (h : x.maxZLP = .ok lp) {ε : K} {z : Nat → K} (hz : lp.FeasibleTol ε z) :
    (∀ i < x.rf.C, zrow x.rf z i ≤ x.rew.getD i 0 + ε) ∧ (∀ s < x.rf.N, -ε ≤ z s) ∧ lp.vars.length = x.rf.N := by
  simp only [RRF.maxZLP, bind, Except.bind] at h
  split at h
  · cases h
  rename_i mr hf
  obtain ⟨m, rhs⟩ := mr
  obtain ⟨-, hr, hc, hl, hrow⟩ := rfarkZ_rows hf
  simp only at h
  split at h
  · cases h
  rename_i lp0 h1
  obtain ⟨a, b⟩ := lp_tol h1 h nonneg_nodup hz
  refine ⟨fun i hic => ?_, nonneg_tol b, ?_⟩
  · have := a i (by omega)
    rwa [((hrow z).1 i hic).1, ((hrow z).1 i hic).2] at this
  · obtain ⟨k0, -, k2, -⟩ := fromCoefficients_inv h1
    rw [addConstraints_vars _ k0 h, k2, hc]

/-- `rew_max` -/
theorem rewMaxLP_tol {lp : Milp K} (h : x.rewMaxLP = .ok lp) {ε : K} {z : Nat → K} (hz : lp.FeasibleTol ε z) :
    (∀ i < x.rf.C, x.rew.getD i 0 ≤ zrow x.rf z i + ε) ∧ (∀ s < x.rf.N, -ε ≤ z s) ∧ lp.vars.length = x.rf.N := by
  simp only [RRF.rewMaxLP, bind, Except.bind] at h
  split at h
  · cases h
  rename_i lp0 h1
  obtain ⟨a, b⟩ := lp_tol h1 h nonneg_nodup hz
  refine ⟨fun i hic => a i hic, nonneg_tol b, ?_⟩
  obtain ⟨k0, -, k2, -⟩ := fromCoefficients_inv h1
  rw [addConstraints_vars _ k0 h, k2]
  rfl

/-- `max_y_state_action` -/
theorem rmaxYLP_tol {lp : Milp K} (h : x.maxYLP = .ok lp) {ε : K} {z : Nat → K} (hz : lp.FeasibleTol ε z) :
    (∀ j < x.rf.N, yrow x.rf z j ≤ x.rf.delta j + ε) ∧ (∀ i < x.rf.C, -ε ≤ z i) ∧ lp.vars.length = x.rf.C := by
  simp only [RRF.maxYLP, bind, Except.bind] at h
  split at h
  · cases h
  rename_i mr hf
  obtain ⟨m, rhs⟩ := mr
  obtain ⟨-, hr, hc, hl, hrow⟩ := rfarkY_rows hf
  simp only at h
  split at h
  · cases h
  rename_i lp0 h1
  obtain ⟨a, b⟩ := lp_tol h1 h nonneg_nodup hz
  refine ⟨fun j hj => ?_, nonneg_tol b, ?_⟩
  · have := a j (by omega)
    rwa [((hrow z).1 j hj).1, ((hrow z).1 j hj).2] at this
  · obtain ⟨k0, -, k2, -⟩ := fromCoefficients_inv h1
    rw [addConstraints_vars _ k0 h, k2, hc]

end Verif.Proofs
