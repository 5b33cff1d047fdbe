import Verif.Model.Single
import Verif.Proofs.Double
/-! # The error of single precision -/
set_option linter.unusedSectionVars false
set_option exponentiation.threshold 2000

namespace Verif.Proofs
open Verif.Model Verif.Spec Verif.Model.Text Verif.Proofs.Text

variable {K : Type} [Field K] [LinearOrder K] [IsStrictOrderedRing K] [FloorRing K]

theorem ulp32_pos (x : K) : 0 < ulp32 x := by unfold ulp32; exact zpow_pos (by norm_num) _

theorem half_ulp32 {x : K} (hx : x ≠ 0) : ulp32 x / 2 ≤ max (1 / 2 ^ 24 * |x|) (1 / 2 ^ 150) := by
  have h0 : 0 < |x| := abs_pos.2 hx
  have hl := Int.zpow_log_le_self (b := 2) (r := |x|) (by norm_num) h0
  rw [Nat.cast_ofNat] at hl
  unfold ulp32
  rcases le_total (-126) (Int.log 2 |x|) with h | h
  · rw [max_eq_left h, zpow_sub₀ (by norm_num)]
    have e : (2 : K) ^ (23 : ℤ) = 2 ^ 23 := by exact_mod_cast zpow_natCast (2 : K) 23
    rw [e]
    refine le_max_of_le_left ?_
    calc (2 : K) ^ Int.log 2 |x| / 2 ^ 23 / 2 = 1 / 2 ^ 24 * 2 ^ Int.log 2 |x| := by ring
      _ ≤ 1 / 2 ^ 24 * |x| := mul_le_mul_of_nonneg_left hl (by positivity)
  · rw [max_eq_right h]
    have e : (2 : K) ^ (-126 - 23 : ℤ) = 1 / 2 ^ 149 := by
      rw [show (-126 - 23 : ℤ) = -((149 : ℕ) : ℤ) by norm_num, zpow_neg, zpow_natCast, one_div]
    rw [e]
    refine le_max_of_le_right (le_of_eq ?_)
    rw [div_div, ← pow_succ]

theorem single_of_nonneg {x : K} (hx : 0 ≤ x) : single x = roundEven (x / ulp32 x) * ulp32 x := by
  unfold single
  rw [if_neg (not_lt.2 hx), one_mul, abs_of_nonneg hx]

theorem single_nonneg {x : K} (hx : 0 ≤ x) : 0 ≤ single x := by
  rw [single_of_nonneg hx]
  exact mul_nonneg (Nat.cast_nonneg _) (ulp32_pos x).le

theorem single_zero : single (0 : K) = 0 := by
  rw [single_of_nonneg le_rfl]
  have := roundEven_natCast (K := K) 0
  simp only [Nat.cast_zero] at this
  simp [this]

theorem single_close {x : K} (hx : 0 ≤ x) : |single x - x| ≤ max (1 / 2 ^ 24 * x) (1 / 2 ^ 150) := by
  rcases hx.eq_or_lt with rfl | hp
  · rw [single_zero, sub_zero, abs_zero]
    exact le_max_of_le_right (by positivity)
  · have hu := ulp32_pos x
    have h := roundEven_close (x := x / ulp32 x) (by positivity)
    have e : (roundEven (x / ulp32 x) : K) * ulp32 x - x = (roundEven (x / ulp32 x) - x / ulp32 x) * ulp32 x := by
      field_simp
    rw [single_of_nonneg hx, e, abs_mul, abs_of_pos hu]
    have h1 := mul_le_mul_of_nonneg_right h hu.le
    have h2 := half_ulp32 hp.ne'
    rw [abs_of_pos hp] at h2
    linarith

/-- `x` is a multiple of its unit in the last place exactly if it is a number with 24 bits -/
theorem single_eq_iff {x : K} (hx : 0 ≤ x) : single x = x ↔ ∃ (m : Nat) (e : Int), m < 2 ^ 24 ∧ -149 ≤ e ∧ x = m * 2 ^ e := by
  have hu := ulp32_pos x
  rcases hx.eq_or_lt with rfl | hp
  · exact ⟨fun _ => ⟨0, 0, by norm_num, by norm_num, by simp⟩, fun _ => single_zero⟩
  have hlt := Int.lt_zpow_succ_log_self (b := 2) (by norm_num) x
  rw [Nat.cast_ofNat] at hlt
  constructor
  · intro h
    rw [single_of_nonneg hx] at h
    refine ⟨roundEven (x / ulp32 x), max (Int.log 2 |x|) (-126) - 23, ?_, by have := le_max_right (Int.log 2 |x|) (-126); omega,
      h.symm⟩
    have h1 : (roundEven (x / ulp32 x) : K) * ulp32 x < 2 ^ 24 * ulp32 x := by
      rw [h]
      refine hlt.trans_le ?_
      unfold ulp32
      have e : (2 : K) ^ (24 : ℤ) = 2 ^ 24 := by exact_mod_cast zpow_natCast (2 : K) 24
      rw [← e, ← zpow_add₀ (by norm_num), abs_of_pos hp]
      refine zpow_le_zpow_right₀ (by norm_num) ?_
      have := le_max_left (Int.log 2 x) (-126)
      omega
    have := lt_of_mul_lt_mul_right h1 hu.le
    exact_mod_cast this
  · rintro ⟨m, e, hm, he, hxe⟩
    have hlog : Int.log 2 x < e + 24 := by
      rw [← Int.lt_zpow_iff_log_lt (b := 2) (by norm_num) hp, Nat.cast_ofNat, hxe, add_comm, zpow_add₀ (by norm_num)]
      refine mul_lt_mul_of_pos_right ?_ (zpow_pos (by norm_num) _)
      have e2 : (2 : K) ^ (24 : ℤ) = 2 ^ 24 := by exact_mod_cast zpow_natCast (2 : K) 24
      rw [e2]
      exact_mod_cast hm
    have hE : max (Int.log 2 |x|) (-126) - 23 ≤ e := by
      rw [abs_of_pos hp]
      have : max (Int.log 2 x) (-126) ≤ e + 23 := max_le (by omega) (by omega)
      omega
    obtain ⟨j, hj⟩ := Int.le.dest hE
    have hq : x / ulp32 x = ((m * 2 ^ j : Nat) : K) := by
      rw [div_eq_iff hu.ne']
      push_cast
      unfold ulp32
      rw [mul_assoc, ← zpow_natCast, ← zpow_add₀ (by norm_num)]
      conv_lhs => rw [hxe]
      congr 2
      omega
    rw [single_of_nonneg hx, hq, roundEven_natCast, ← hq, div_mul_cancel₀ _ hu.ne']

/-- only tiny numbers become zero -/
theorem single_eq_zero_iff {x : K} (hx : 0 ≤ x) : single x = 0 ↔ x ≤ 1 / 2 ^ 150 := by
  have hu := ulp32_pos x
  rcases hx.eq_or_lt with rfl | hp
  · exact ⟨fun _ => by positivity, fun _ => single_zero⟩
  have h0 : single x = 0 ↔ x / ulp32 x ≤ 1 / 2 := by
    rw [single_of_nonneg hx, mul_eq_zero, or_iff_left hu.ne', Nat.cast_eq_zero]
    have hq : 0 ≤ x / ulp32 x := by positivity
    constructor
    · intro h
      have := roundEven_close hq
      rw [h, Nat.cast_zero, zero_sub, abs_neg, abs_of_nonneg hq] at this
      exact this
    · intro h
      have hf : ⌊x / ulp32 x⌋₊ = 0 := Nat.floor_eq_zero.2 (h.trans_lt (by norm_num))
      unfold roundEven
      simp only [hf, Nat.cast_zero, sub_zero]
      rcases h.lt_or_eq with h | h
      · rw [if_pos h]
      · rw [if_neg (by rw [h]; exact lt_irrefl _), if_neg (by rw [h]; exact lt_irrefl _)]
        simp
  rw [h0, div_le_iff₀ hu]
  have hl := Int.zpow_log_le_self (b := 2) (r := x) (by norm_num) hp
  rw [Nat.cast_ofNat] at hl
  have e150 : (1 : K) / 2 ^ 150 = 2 ^ (-150 : ℤ) := by
    rw [show (-150 : ℤ) = -((150 : ℕ) : ℤ) by norm_num, zpow_neg, zpow_natCast, one_div]
  have hhalf : ∀ z : ℤ, (1 : K) / 2 * 2 ^ z = 2 ^ (z - 1) := by
    intro z
    rw [zpow_sub_one₀ (by norm_num)]
    ring
  unfold ulp32
  rw [abs_of_pos hp, hhalf, e150]
  rcases le_or_gt (-126) (Int.log 2 x) with h | h
  · have h2 : ¬ x ≤ 2 ^ (max (Int.log 2 x) (-126) - 23 - 1) := by
      rw [max_eq_left h, not_le]
      exact (zpow_lt_zpow_right₀ (by norm_num) (by omega)).trans_le hl
    have h3 : ¬ x ≤ (2 : K) ^ (-150 : ℤ) := by
      rw [not_le]
      exact (zpow_lt_zpow_right₀ (by norm_num) (by omega)).trans_le hl
    exact iff_of_false h2 h3
  · rw [max_eq_right h.le]
    norm_num

/-- the two lists of neighbours of the stored graph -/
theorem build32_eq {n : Nat} {inv : Nat → Option (Nat × Nat)} {items : List ((Nat × Nat) × K)} {g : Graph K}
    (h : Graph.build n inv items (Graph.empty n) = .ok g) : ∃ g', Graph.build32 n inv items = .ok g' ∧
      (∀ s, g'.succ s = (g.succ s).map fun t => (t.1, t.2.1, single t.2.2)) ∧
      (∀ s, g'.pred s = (g.pred s).map fun t => (t.1, t.2.1, single t.2.2)) := by
  have gen : ∀ (items : List ((Nat × Nat) × K)) (a a' g : Graph K),
      (∀ s, a'.succ s = (a.succ s).map fun t => (t.1, t.2.1, single t.2.2)) →
      (∀ s, a'.pred s = (a.pred s).map fun t => (t.1, t.2.1, single t.2.2)) →
      Graph.build n inv items a = .ok g →
      ∃ g', Graph.build n inv (items.map fun e => (e.1, single e.2)) a' = .ok g' ∧
        (∀ s, g'.succ s = (g.succ s).map fun t => (t.1, t.2.1, single t.2.2)) ∧
        (∀ s, g'.pred s = (g.pred s).map fun t => (t.1, t.2.1, single t.2.2)) := by
    intro items
    induction items with
    | nil =>
      intro a a' g h1 h2 hb
      simp only [Graph.build, Except.ok.injEq] at hb
      subst hb
      exact ⟨a', rfl, h1, h2⟩
    | cons e items ih =>
      obtain ⟨⟨i, d⟩, p⟩ := e
      intro a a' g h1 h2 hb
      simp only [Graph.build, List.map_cons] at hb ⊢
      cases hi : inv i with
      | none => rw [hi] at hb; cases hb
      | some sa =>
        rw [hi] at hb
        simp only at hb ⊢
        split at hb
        · rename_i hlt
          rw [if_pos hlt]
          refine ih (a.addSuccessor sa.1 sa.2 p d) _ g ?_ ?_ hb
          · intro s
            simp only [Graph.addSuccessor, Function.update_apply]
            split
            · simp [h1]
            · exact h1 s
          · intro s
            simp only [Graph.addSuccessor, Function.update_apply]
            split
            · simp [h2]
            · exact h2 s
        · cases hb
  exact gen items _ _ g (fun s => by simp [Graph.empty]) (fun s => by simp [Graph.empty]) h

end Verif.Proofs
