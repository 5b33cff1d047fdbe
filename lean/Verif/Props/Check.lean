import Verif.Props.Fark
import Verif.Props.RFInfo
/-!
# C68: which vectors `check_farkas_certificate` accepts, and when it raises
-/
set_option linter.unusedSectionVars false

namespace Verif.Props
open Verif.Model Verif.Spec Verif.Proofs Verif.Theory Finset

variable {K : Type} [Field K] [LinearOrder K] [IsStrictOrderedRing K]
variable {ρ : Graph.Rnd} {M : Sys K} {il tl fl : String} {rf : RF K}

open Classical in
/-- rows of `Aᵀ y`, in terms of the system -/
theorem yrow_sys (h : RFOK rf) (y : Nat → K) (s : Nat) :
    yrow rf y s = ∑ k ∈ (range (rf.sys.C - 2)).filter (fun k => ∃ a, ((s, a), k) ∈ rf.sys.idx), y k
          - ∑ k ∈ range (rf.sys.C - 2), rf.sys.P.get k s * y k := by
  unfold yrow RF.A
  rw [Finset.sum_filter, ← Finset.sum_sub_distrib]
  refine Finset.sum_congr rfl fun k hk => ?_
  have hk := Finset.mem_range.1 hk
  by_cases hc : rf.rowState k = some s
  · rw [if_pos hc, if_pos ((h.rowState_iff hk).1 hc), sub_mul, one_mul]; rfl
  · rw [if_neg hc, if_neg fun hx => hc ((h.rowState_iff hk).2 hx), sub_mul, zero_mul]; rfl

/-- the length of the vectors: states for `min >=` and `max <=`, state-action pairs otherwise -/
def vecLen (M : Sys K) (mode : Mode) (sense : Sense) : Nat :=
  match mode, sense with
  | .min, .ge | .min, .gt | .max, .le | .max, .lt => M.N - 2
  | _, _ => M.C - 2

section
variable (hM : M.WF) (hrf : RF.make ρ M il tl fl false = .ok rf) {i : Nat}
  (hi : i ∈ M.labelled il) (hit : i ∉ M.labelled tl)
include hM hrf hi hit

/-- **C68.** `check_farkas_certificate` raises `AssertionError` exactly for a threshold outside `[0,1]` or a vector of
wrong length; in all other cases it answers. -/
theorem C68_exceptions (mode : Mode) (sense : Sense) (t tol : K) (v : List K) :
    (check rf mode sense t v tol = .error .assertion ↔ ¬ (0 ≤ t ∧ t ≤ 1) ∨ v.length ≠ vecLen M mode sense) ∧
    ((∃ b, check rf mode sense t v tol = .ok b) ↔ (0 ≤ t ∧ t ≤ 1) ∧ v.length = vecLen M mode sense) := by
  have h := rfok_built hM hrf
  have hin := initial_lt hM hrf hi hit
  have e := (make_fields hrf).1
  obtain ⟨m, rhs, hcs, hcols⟩ : ∃ m rhs, constraintSet rf mode sense t = .ok (m, rhs) ∧ m.cols = vecLen M mode sense := by
    obtain ⟨m, rhs, hz⟩ := farkZ_some t hin
    obtain ⟨m', rhs', hy⟩ := farkY_some t hin
    have hz' := (farkZ_dot hz []).2.2.1
    have hy' := (farkY_dot hy []).2.2.1
    unfold RF.N at hz'
    unfold RF.C at hy'
    rw [e] at hz' hy'
    cases mode <;> cases sense
    · exact ⟨m', rhs', hy, hy'⟩
    · exact ⟨m', rhs', hy, hy'⟩
    · exact ⟨m, rhs, hz, hz'⟩
    · exact ⟨m, rhs, hz, hz'⟩
    · exact ⟨m, rhs, hz, hz'⟩
    · exact ⟨m, rhs, hz, hz'⟩
    · exact ⟨m', rhs', hy, hy'⟩
    · exact ⟨m', rhs', hy, hy'⟩
  have hec : ∃ b, ecCheck rf mode sense v (List.range m.cols) = .ok b := by
    cases mode with
    | max => exact ⟨_, ecCheck_max _ _ _ _⟩
    | min =>
      cases hs : sense.isLe with
      | false => exact ⟨_, ecCheck_min_z hs _ _⟩
      | true =>
        refine ⟨_, ecCheck_min_y hs _ _ ?_⟩
        intro k hk
        have hk : k < rf.C := by
          have hk := List.mem_range.1 hk
          rw [hcols] at hk
          unfold RF.C
          rw [e]
          cases sense <;> first | exact hk | cases hs
        obtain ⟨s, a, hs, -⟩ := h.exists_state hk
        rw [(h.rowState_iff hk).2 ⟨a, hs⟩]; rfl
  obtain ⟨b, hb⟩ := hec
  unfold check
  by_cases ht : 0 ≤ t ∧ t ≤ 1
  · rw [if_pos ht]
    simp only [hcs, bind, Except.bind]
    by_cases hl : v.length = m.cols
    · rw [if_pos hl, hb]
      rw [hcols] at hl
      cases b <;> cases sense <;> simp [ht, hl]
    · rw [if_neg hl]
      rw [hcols] at hl
      simp [hl]
  · rw [if_neg ht]
    simp [ht]

/-- **C68.** What is accepted for `min` and `>=` or `>`. -/
theorem C68_min_ge (strict : Bool) {t tol : K} {v : List K} :
    check rf .min (if strict then .gt else .ge) t v tol = .ok true ↔
      (0 ≤ t ∧ t ≤ 1) ∧ v.length = M.N - 2 ∧
      (∀ s < M.N - 2, (∃ E, IsEC M E ∧ s ∈ E) → v.getD s 0 = 0) ∧
      (∀ s a k, ((s, a), k) ∈ M.idx → k < M.C - 2 →
        v.getD s 0 - ∑ j ∈ range (M.N - 2), M.P.get k j * v.getD j 0 ≤ M.P.get k (M.N - 2) + tol) ∧
      (if strict then t - tol < v.getD i 0 else t - tol ≤ v.getD i 0) := by
  have h := rfok_built hM hrf
  have hin := initial_lt hM hrf hi hit
  have e := (make_fields hrf).1
  have hie := (initial_eq hM hrf hi).symm
  rw [check_min_ge, hie]
  have hrows : (∀ k < rf.C, zrow rf (fun j => v.getD j 0) k - tol ≤ rf.b k) ↔
      ∀ s a k, ((s, a), k) ∈ M.idx → k < M.C - 2 →
        v.getD s 0 - ∑ j ∈ range (M.N - 2), M.P.get k j * v.getD j 0 ≤ M.P.get k (M.N - 2) + tol := by
    subst e
    constructor
    · intro hh s a k hk hkC
      have := hh k hkC
      rw [zrow_sys h _ hkC hk, sub_le_iff_le_add] at this
      exact this
    · intro hh k hk
      obtain ⟨s, a, hs, -⟩ := h.exists_state hk
      rw [zrow_sys h _ hk hs, sub_le_iff_le_add]
      exact hh s a k hs hk
  have hec : (∀ s < rf.N, rf.inProperEC s = true → v.getD s 0 = 0) ↔
      ∀ s < M.N - 2, (∃ E, IsEC M E ∧ s ∈ E) → v.getD s 0 = 0 := by
    unfold RF.N
    rw [e]
    exact forall₂_congr fun s hs => by rw [info_ec hM hrf (by omega)]
  have hst : t - tol ≤ v.getD i 0 ∧ (strict = true → t - tol < v.getD i 0) ↔
      (if strict then t - tol < v.getD i 0 else t - tol ≤ v.getD i 0) := by
    cases strict
    · simp
    · simp only [if_true, true_imp_iff]
      exact ⟨fun h => h.2, fun h => ⟨h.le, h⟩⟩
  rw [hrows, hec, hst]
  have hN : rf.N = M.N - 2 := by unfold RF.N; rw [e]
  rw [hie] at hin
  rw [hN] at hin ⊢
  exact ⟨fun ⟨a, _, b⟩ => ⟨a, b⟩, fun ⟨a, b⟩ => ⟨a, hin, b⟩⟩

/-- **C68.** What is accepted for `max` and `<=` or `<`. -/
theorem C68_max_le (strict : Bool) {t tol : K} {v : List K} :
    check rf .max (if strict then .lt else .le) t v tol = .ok true ↔
      (0 ≤ t ∧ t ≤ 1) ∧ v.length = M.N - 2 ∧
      (∀ s a k, ((s, a), k) ∈ M.idx → k < M.C - 2 →
        M.P.get k (M.N - 2) ≤ v.getD s 0 - ∑ j ∈ range (M.N - 2), M.P.get k j * v.getD j 0 + tol) ∧
      (if strict then v.getD i 0 < t + tol else v.getD i 0 ≤ t + tol) := by
  have h := rfok_built hM hrf
  have hin := initial_lt hM hrf hi hit
  have e := (make_fields hrf).1
  have hie := (initial_eq hM hrf hi).symm
  rw [check_max_le, hie]
  have hrows : (∀ k < rf.C, rf.b k ≤ zrow rf (fun j => v.getD j 0) k + tol) ↔
      ∀ s a k, ((s, a), k) ∈ M.idx → k < M.C - 2 →
        M.P.get k (M.N - 2) ≤ v.getD s 0 - ∑ j ∈ range (M.N - 2), M.P.get k j * v.getD j 0 + tol := by
    subst e
    constructor
    · intro hh s a k hk hkC
      have := hh k hkC
      rw [zrow_sys h _ hkC hk] at this
      exact this
    · intro hh k hk
      obtain ⟨s, a, hs, -⟩ := h.exists_state hk
      rw [zrow_sys h _ hk hs]
      exact hh s a k hs hk
  have hst : v.getD i 0 ≤ t + tol ∧ (strict = true → v.getD i 0 < t + tol) ↔
      (if strict then v.getD i 0 < t + tol else v.getD i 0 ≤ t + tol) := by
    cases strict
    · simp
    · simp only [if_true, true_imp_iff]
      exact ⟨fun h => h.2, fun h => ⟨h.le, h⟩⟩
  rw [hrows, hst]
  have hN : rf.N = M.N - 2 := by unfold RF.N; rw [e]
  rw [hie] at hin
  rw [hN] at hin ⊢
  exact ⟨fun ⟨a, _, b⟩ => ⟨a, b⟩, fun ⟨a, b⟩ => ⟨a, hin, b⟩⟩

open Classical in
/-- **C68.** What is accepted for `max` and `>=` or `>`; note that nothing is said about signs. -/
theorem C68_max_ge (strict : Bool) {t tol : K} {v : List K} :
    check rf .max (if strict then .gt else .ge) t v tol = .ok true ↔
      (0 ≤ t ∧ t ≤ 1) ∧ v.length = M.C - 2 ∧
      (∀ s < M.N - 2, ∑ k ∈ (range (M.C - 2)).filter (fun k => ∃ a, ((s, a), k) ∈ M.idx), v.getD k 0
          - ∑ k ∈ range (M.C - 2), M.P.get k s * v.getD k 0 ≤ (if s = i then 1 else 0) + tol) ∧
      (if strict then t - tol < ∑ k ∈ range (M.C - 2), M.P.get k (M.N - 2) * v.getD k 0
        else t - tol ≤ ∑ k ∈ range (M.C - 2), M.P.get k (M.N - 2) * v.getD k 0) := by
  have h := rfok_built hM hrf
  have hin := initial_lt hM hrf hi hit
  have e := (make_fields hrf).1
  have hie := (initial_eq hM hrf hi).symm
  rw [check_max_ge]
  have hgain : ygain rf (fun k => v.getD k 0) = ∑ k ∈ range (M.C - 2), M.P.get k (M.N - 2) * v.getD k 0 := by
    subst e; rfl
  have hrows : (∀ s < rf.N, yrow rf (fun k => v.getD k 0) s - tol ≤ rf.delta s) ↔
      ∀ s < M.N - 2, ∑ k ∈ (range (M.C - 2)).filter (fun k => ∃ a, ((s, a), k) ∈ M.idx), v.getD k 0
          - ∑ k ∈ range (M.C - 2), M.P.get k s * v.getD k 0 ≤ (if s = i then 1 else 0) + tol := by
    subst e
    refine forall₂_congr fun s hs => ?_
    rw [yrow_sys h, sub_le_iff_le_add, RF.delta, hie]
  rw [hgain, hrows]
  generalize ∑ k ∈ range (M.C - 2), M.P.get k (M.N - 2) * v.getD k 0 = g
  have hst : t - tol ≤ g ∧ (strict = true → t - tol < g) ↔ (if strict then t - tol < g else t - tol ≤ g) := by
    cases strict
    · simp
    · simp only [if_true, true_imp_iff]
      exact ⟨fun h => h.2, fun h => ⟨h.le, h⟩⟩
  rw [hst]
  have hC : rf.C = M.C - 2 := by unfold RF.C; rw [e]
  rw [hC]
  exact ⟨fun ⟨a, _, b⟩ => ⟨a, b⟩, fun ⟨a, b⟩ => ⟨a, hin, b⟩⟩

open Classical in
/-- **C68.** What is accepted for `min` and `<=` or `<`; again nothing is said about signs. -/
theorem C68_min_le (strict : Bool) {t tol : K} {v : List K} :
    check rf .min (if strict then .lt else .le) t v tol = .ok true ↔
      (0 ≤ t ∧ t ≤ 1) ∧ v.length = M.C - 2 ∧
      (∀ s a k, ((s, a), k) ∈ M.idx → k < M.C - 2 → (∃ E, IsEC M E ∧ s ∈ E) → v.getD k 0 = 0) ∧
      (∀ s < M.N - 2, (if s = i then 1 else 0) ≤
        ∑ k ∈ (range (M.C - 2)).filter (fun k => ∃ a, ((s, a), k) ∈ M.idx), v.getD k 0
          - ∑ k ∈ range (M.C - 2), M.P.get k s * v.getD k 0 + tol) ∧
      (if strict then ∑ k ∈ range (M.C - 2), M.P.get k (M.N - 2) * v.getD k 0 < t + tol
        else ∑ k ∈ range (M.C - 2), M.P.get k (M.N - 2) * v.getD k 0 ≤ t + tol) := by
  have h := rfok_built hM hrf
  have hin := initial_lt hM hrf hi hit
  have e := (make_fields hrf).1
  have hie := (initial_eq hM hrf hi).symm
  rw [check_min_le fun k hk => by
    obtain ⟨s, a, hs, -⟩ := h.exists_state hk
    rw [(h.rowState_iff hk).2 ⟨a, hs⟩]; rfl]
  have hgain : ygain rf (fun k => v.getD k 0) = ∑ k ∈ range (M.C - 2), M.P.get k (M.N - 2) * v.getD k 0 := by
    subst e; rfl
  have hrows : (∀ s < rf.N, rf.delta s ≤ yrow rf (fun k => v.getD k 0) s + tol) ↔
      ∀ s < M.N - 2, (if s = i then 1 else 0) ≤
        ∑ k ∈ (range (M.C - 2)).filter (fun k => ∃ a, ((s, a), k) ∈ M.idx), v.getD k 0
          - ∑ k ∈ range (M.C - 2), M.P.get k s * v.getD k 0 + tol := by
    subst e
    refine forall₂_congr fun s hs => ?_
    rw [yrow_sys h, RF.delta, hie]
  have hec : (∀ k < rf.C, ∀ s ∈ rf.rowState k, rf.inProperEC s = true → v.getD k 0 = 0) ↔
      ∀ s a k, ((s, a), k) ∈ M.idx → k < M.C - 2 → (∃ E, IsEC M E ∧ s ∈ E) → v.getD k 0 = 0 := by
    subst e
    constructor
    · intro hh s a k hk hkC hE
      exact hh k hkC s ((h.rowState_iff hkC).2 ⟨a, hk⟩)
        ((info_ec hM hrf (by have := h.state_lt hkC hk; unfold RF.N at this; omega)).2 hE)
    · intro hh k hkC s hs hE
      obtain ⟨a, hk⟩ := (h.rowState_iff hkC).1 hs
      exact hh s a k hk hkC
        ((info_ec hM hrf (by have := h.state_lt hkC hk; unfold RF.N at this; omega)).1 hE)
  rw [hgain, hrows, hec]
  generalize ∑ k ∈ range (M.C - 2), M.P.get k (M.N - 2) * v.getD k 0 = g
  have hst : g ≤ t + tol ∧ (strict = true → g < t + tol) ↔ (if strict then g < t + tol else g ≤ t + tol) := by
    cases strict
    · simp
    · simp only [if_true, true_imp_iff]
      exact ⟨fun h => h.2, fun h => ⟨h.le, h⟩⟩
  rw [hst]
  have hC : rf.C = M.C - 2 := by unfold RF.C; rw [e]
  rw [hC]
  exact ⟨fun ⟨a, _, b⟩ => ⟨a, b⟩, fun ⟨a, b⟩ => ⟨a, hin, b⟩⟩

end

/-! ### examples: the hypotheses are those of the example system -/

example : check (exRF ℚ) .min .ge (1/2) [1/2] 0 = .error .assertion ∧ check (exRF ℚ) .min .ge 2 [1/2, 0] 0 = .error .assertion ∧
    check (exRF ℚ) .min .ge (1/2) [1/2, 1/3] 0 = .ok false := by
  refine ⟨?_, ?_, ?_⟩ <;> decide +kernel

end Verif.Props
