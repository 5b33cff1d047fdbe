import Verif.Proofs.Float
import Mathlib.Algebra.Order.Ring.Pow
import Mathlib.Tactic.NormNum
import Mathlib.Tactic.FieldSimp
/-! # The error of double precision -/
set_option linter.unusedSectionVars false
set_option exponentiation.threshold 2000

namespace Verif.Proofs
open Verif.Model Verif.Spec Verif.Model.Text Verif.Proofs.Text Finset

variable {K : Type} [Field K] [LinearOrder K] [IsStrictOrderedRing K] [FloorRing K]

theorem ulp_pos (x : K) : 0 < ulp x := by unfold ulp; exact zpow_pos (by norm_num) _

theorem half_ulp {x : K} (hx : x ≠ 0) : ulp x / 2 ≤ 1 / 2 ^ 53 * |x| + 1 / 2 ^ 1075 := by
  have h0 : 0 < |x| := abs_pos.2 hx
  have hl := Int.zpow_log_le_self (b := 2) (r := |x|) (by norm_num) h0
  rw [Nat.cast_ofNat] at hl
  unfold ulp
  rcases le_total (-1022) (Int.log 2 |x|) with h | h
  · rw [max_eq_left h, zpow_sub₀ (by norm_num)]
    have e : (2 : K) ^ (52 : ℤ) = 2 ^ 52 := by exact_mod_cast zpow_natCast (2 : K) 52
    rw [e]
    have : (0 : K) ≤ 1 / 2 ^ 1075 := by positivity
    calc (2 : K) ^ Int.log 2 |x| / 2 ^ 52 / 2 = 1 / 2 ^ 53 * 2 ^ Int.log 2 |x| := by ring
      _ ≤ 1 / 2 ^ 53 * |x| := mul_le_mul_of_nonneg_left hl (by positivity)
      _ ≤ _ := by linarith
  · rw [max_eq_right h]
    have e : (2 : K) ^ (-1022 - 52 : ℤ) = 1 / 2 ^ 1074 := by
      rw [show (-1022 - 52 : ℤ) = -((1074 : ℕ) : ℤ) by norm_num, zpow_neg, zpow_natCast, one_div]
    rw [e]
    have : (0 : K) ≤ 1 / 2 ^ 53 * |x| := by positivity
    have e2 : (1 : K) / 2 ^ 1074 / 2 = 1 / 2 ^ 1075 := by
      rw [div_div, ← pow_succ]
    rw [e2]
    linarith

theorem double_close (x : K) : |double x - x| ≤ 1 / 2 ^ 53 * |x| + 1 / 2 ^ 1075 := by
  by_cases hx : x = 0
  · subst hx
    have : double (0 : K) = 0 := by
      unfold double
      have := roundEven_natCast (K := K) 0
      simp only [Nat.cast_zero] at this
      simp [this]
    rw [this]
    simp
  · have hu := ulp_pos x
    have h1 : abs ((roundEven (|x| / ulp x) : K) * ulp x - abs x) ≤ ulp x / 2 := by
      have h := roundEven_close (x := |x| / ulp x) (by positivity)
      have e : (roundEven (|x| / ulp x) : K) * ulp x - |x| = (roundEven (|x| / ulp x) - |x| / ulp x) * ulp x := by
        field_simp
      rw [e, abs_mul, abs_of_pos hu]
      have := mul_le_mul_of_nonneg_right h hu.le
      linarith
    refine le_trans ?_ (half_ulp hx)
    unfold double
    split
    · rename_i hn
      rw [abs_of_neg hn] at h1 ⊢
      rw [← abs_neg]
      convert h1 using 2
      ring
    · rename_i hn
      rw [abs_of_nonneg (not_lt.1 hn)] at h1 ⊢
      rw [one_mul]
      exact h1

/-- double precision satisfies the standard model -/
theorem rounds_double (fma : Bool) : Rounds (⟨double, fma⟩ : Arith K) (1 / 2 ^ 53) (1 / 2 ^ 1075) :=
  ⟨by positivity, by positivity, double_close⟩

theorem tiny : (1 : K) / 2 ^ 1075 ≤ 1 / 2 ^ 100 :=
  one_div_le_one_div_of_le (by positivity) (pow_le_pow_right₀ (by norm_num) (by norm_num))

theorem pow_bound {n : Nat} (hn : n ≤ 2 ^ 20 + 4) : (1 + 1 / 2 ^ 53 + 1 / 2 ^ 1075 : K) ^ n ≤ 1 + 1 / 2 ^ 32 / 2 * (33 / 32) := by
  set w : K := 1 / 2 ^ 53 + 1 / 2 ^ 1075 with hw
  have hw0 : 0 ≤ w := by positivity
  have ht := tiny (K := K)
  have hw1 : w ≤ 1 / 2 ^ 53 * (65 / 64) := by
    rw [hw]
    have : (1 : K) / 2 ^ 53 + 1 / 2 ^ 100 ≤ 1 / 2 ^ 53 * (65 / 64) := by norm_num
    linarith
  have hwl : w ≤ 1 := hw1.trans (by norm_num)
  have hb := one_add_mul_le_pow (a := -w) (by linarith) n
  have h1 : (1 + w) ^ n * (1 + -w) ^ n ≤ 1 := by
    rw [← mul_pow]
    exact pow_le_one₀ (mul_nonneg (by linarith) (by linarith)) (by nlinarith)
  have hn' : (n : K) ≤ 2 ^ 20 + 4 := by exact_mod_cast hn
  have hx : (n : K) * w ≤ 1 / 2 ^ 33 * (33 / 32 - 1 / 1024) := by
    calc (n : K) * w ≤ (2 ^ 20 + 4) * (1 / 2 ^ 53 * (65 / 64)) := mul_le_mul hn' hw1 hw0 (by positivity)
      _ ≤ _ := by norm_num
  have hg : 0 ≤ (1 + w) ^ n := pow_nonneg (by linarith) _
  have h2 : (1 + w) ^ n * (1 - n * w) ≤ 1 :=
    (mul_le_mul_of_nonneg_left (by linarith) hg).trans h1
  rw [add_assoc, ← hw]
  by_contra hc
  push Not at hc
  have h3 : (1 + 1 / 2 ^ 32 / 2 * (33 / 32)) * (1 - 1 / 2 ^ 33 * (33 / 32 - 1 / 1024)) < (1 + w) ^ n * (1 - n * w) :=
    mul_lt_mul hc (by linarith) (by norm_num) hg
  have h4 : (1 : K) < (1 + 1 / 2 ^ 32 / 2 * (33 / 32)) * (1 - 1 / 2 ^ 33 * (33 / 32 - 1 / 1024)) := by norm_num
  exact absurd ((h4.trans h3).trans_le h2) (lt_irrefl _)

/-- for vectors with at most `2^20` entries rounding adds at most `2^-32` times one plus the sizes of the numbers -/
theorem flErr_double {D : Nat} (hD : D ≤ 2 ^ 20) {V tol : K} (hV : 0 ≤ V) :
    flErr (1 / 2 ^ 53) (1 / 2 ^ 1075) D V tol ≤ 1 / 2 ^ 32 * (1 + V + |tol|) := by
  unfold flErr
  have h1 := pow_bound (K := K) (n := D + 3) (by omega)
  have h2 := pow_bound (K := K) (n := D + 1) (by omega)
  have h3 : (1 + 1 / 2 ^ 53 + 1 / 2 ^ 1075 : K) ^ (D + 3) - 1 ≤ 1 / 2 ^ 32 := by
    have : (1 : K) / 2 ^ 32 / 2 * (33 / 32) ≤ 1 / 2 ^ 32 := by norm_num
    linarith
  have hD' : (D : K) ≤ 2 ^ 20 := by exact_mod_cast hD
  have h4 : (2 * (D : K) + 1) * (1 + 1 / 2 ^ 53 + 1 / 2 ^ 1075) ^ (D + 1) * (1 / 2 ^ 1075) ≤ 1 / 2 ^ 32 := by
    calc _ ≤ (2 * 2 ^ 20 + 1) * 2 * (1 / 2 ^ 100) := by
          refine mul_le_mul (mul_le_mul (by linarith) ?_ (by positivity) (by positivity)) tiny (by positivity) (by positivity)
          have : (1 : K) + 1 / 2 ^ 32 / 2 * (33 / 32) ≤ 2 := by norm_num
          linarith
      _ ≤ (1 : K) / 2 ^ 32 := by norm_num
  have h5 := mul_le_mul_of_nonneg_right h3 (add_nonneg hV (abs_nonneg tol))
  linarith

/-- the check of a row sum in double precision -/
theorem rowOk_double {fma : Bool} {es : List K} (hn : es.length ≤ 2 ^ 20) (hnn : ∀ p ∈ es, 0 ≤ p)
    (h : (⟨double, fma⟩ : Arith K).rowOk es) : |es.sum - 1| ≤ 1 / 10 ^ 9 := by
  unfold Arith.rowOk at h
  simp only at h
  have h1 := sumProd_err (rounds_double (K := K) fma) (es.map fun p => (p, 1))
  simp only [List.map_map, Function.comp_def, mul_one, List.length_map, List.map_id'] at h1
  have e1 : (es.map fun p => |p|).sum = es.sum := by
    congr 1
    conv_rhs => rw [← List.map_id es]
    exact List.map_congr_left fun p hp => abs_of_nonneg (hnn p hp)
  rw [e1] at h1
  have hS : 0 ≤ es.sum := List.sum_nonneg hnn
  generalize (⟨double, fma⟩ : Arith K).sumProd (es.map fun p => (p, 1)) = a at *
  have h2 := double_close (a * 10 ^ 9)
  have hle : (1 + 1 / 2 ^ 53 : K) ≤ 1 + 1 / 2 ^ 53 + 1 / 2 ^ 1075 := by
    have : (0 : K) ≤ 1 / 2 ^ 1075 := by positivity
    linarith
  have g0 : (0 : K) ≤ 1 + 1 / 2 ^ 53 := by positivity
  have p1 := (pow_le_pow_left₀ g0 hle (es.length + 1)).trans (pow_bound (K := K) (n := es.length + 1) (by omega))
  have p2 := (pow_le_pow_left₀ g0 hle es.length).trans (pow_bound (K := K) (n := es.length) (by omega))
  have hl : (es.length : K) ≤ 2 ^ 20 := by exact_mod_cast hn
  have q1 : ((1 + 1 / 2 ^ 53 : K) ^ (es.length + 1) - 1) * es.sum ≤ 1 / 2 ^ 32 / 2 * (33 / 32) * es.sum :=
    mul_le_mul_of_nonneg_right (by linarith) hS
  have q2 : 2 * (es.length : K) * (1 + 1 / 2 ^ 53) ^ es.length * (1 / 2 ^ 1075) ≤ 1 / 10 ^ 20 := by
    calc _ ≤ 2 * 2 ^ 20 * 2 * (1 / 2 ^ 100) := by
          refine mul_le_mul (mul_le_mul (by linarith) ?_ (by positivity) (by positivity)) tiny (by positivity) (by positivity)
          have : (1 : K) + 1 / 2 ^ 32 / 2 * (33 / 32) ≤ 2 := by norm_num
          linarith
      _ ≤ (1 : K) / 10 ^ 20 := by norm_num
  have q3 : (1 : K) / 2 ^ 1075 ≤ 1 / 10 ^ 20 := tiny.trans (by norm_num)
  have h3 : |a - es.sum| ≤ 1 / 2 ^ 32 / 2 * (33 / 32) * es.sum + 1 / 10 ^ 20 := by linarith
  have h4 : |a * 10 ^ 9| ≤ (es.sum + (1 / 2 ^ 32 / 2 * (33 / 32) * es.sum + 1 / 10 ^ 20)) * 10 ^ 9 := by
    rw [abs_mul, abs_of_nonneg (show (0 : K) ≤ 10 ^ 9 by positivity)]
    refine mul_le_mul_of_nonneg_right ?_ (by positivity)
    have := abs_add_le es.sum (a - es.sum)
    rw [add_sub_cancel, abs_of_nonneg hS] at this
    linarith
  have h5 := mul_le_mul_of_nonneg_left h4 (show (0 : K) ≤ 1 / 2 ^ 53 by positivity)
  rw [abs_le] at h h2 h3 ⊢
  generalize double (a * 10 ^ 9) = d at *
  generalize es.sum = S at *
  generalize |a * 10 ^ 9| = b at *
  norm_num at h h2 h3 h5 q3 ⊢
  constructor <;> linarith

end Verif.Proofs
