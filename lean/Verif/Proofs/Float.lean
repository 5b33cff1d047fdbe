import Verif.Spec.Float
import Verif.Proofs.Text
import Verif.Proofs.Cert
import Mathlib.Algebra.Order.BigOperators.Ring.Finset
import Mathlib.Algebra.BigOperators.Intervals
import Mathlib.Tactic.Linarith
import Mathlib.Tactic.Ring
import Mathlib.Tactic.Positivity
/-! # Errors of rounded sums of products -/
set_option linter.unusedSectionVars false

namespace Verif.Proofs
open Verif.Model Verif.Spec Finset

variable {K : Type} [Field K] [LinearOrder K] [IsStrictOrderedRing K] {ar : Arith K} {u ν : K}

theorem step_err (h : Rounds ar u ν) (s : K) (e : K × K) :
    |ar.step s e - (s + e.1 * e.2)| ≤ u * |s| + ((1 + u) ^ 2 - 1) * |e.1 * e.2| + (2 + u) * ν := by
  have hu := h.hu
  have hν := h.hν
  unfold Arith.step
  generalize e.1 * e.2 = x
  have ht := abs_add_le s x
  have hx := abs_nonneg x
  have hs := abs_nonneg s
  have huν : 0 ≤ u * ν := mul_nonneg hu hν
  have h2 : 0 ≤ u * u * |x| := mul_nonneg (mul_nonneg hu hu) hx
  have h3 : 0 ≤ u * |x| := mul_nonneg hu hx
  split
  · have h1 := h.close (s + x)
    have := mul_le_mul_of_nonneg_left ht hu
    nlinarith
  · have h1 := h.close x
    have h4 := h.close (s + ar.fl x)
    have h5 : |ar.fl x| ≤ |x| + (u * |x| + ν) := by
      have := abs_add_le x (ar.fl x - x)
      rw [add_sub_cancel] at this
      linarith
    have h6 := mul_le_mul_of_nonneg_left ((abs_add_le s (ar.fl x)).trans (add_le_add_right h5 _)) hu
    have h7 := abs_sub_le (ar.fl (s + ar.fl x)) (s + ar.fl x) (s + x)
    rw [add_sub_add_left_eq_sub] at h7
    nlinarith

theorem foldl_err (h : Rounds ar u ν) : ∀ (l : List (K × K)) (s : K),
    |l.foldl ar.step s - (s + (l.map fun e => e.1 * e.2).sum)| ≤
      ((1 + u) ^ l.length - 1) * |s| + ((1 + u) ^ (l.length + 1) - 1) * (l.map fun e => |e.1 * e.2|).sum +
        2 * l.length * (1 + u) ^ l.length * ν
  | [], s => by simp
  | e :: l, s => by
    have hu := h.hu
    have hν := h.hν
    have ih := foldl_err h l (ar.step s e)
    have h1 := step_err h s e
    have hS : 0 ≤ (l.map fun e => |e.1 * e.2|).sum := List.sum_nonneg (by
      intro x hx
      obtain ⟨y, -, rfl⟩ := List.mem_map.1 hx
      exact abs_nonneg _)
    simp only [List.foldl_cons, List.map_cons, List.sum_cons, List.length_cons]
    generalize e.1 * e.2 = x at *
    generalize (l.map fun e => |e.1 * e.2|).sum = S at *
    generalize (l.map fun e => e.1 * e.2).sum = T at *
    generalize l.foldl ar.step (ar.step s e) = r at *
    generalize ar.step s e = s1 at *
    have hs1 : |s1| ≤ |s| + |x| + (u * |s| + ((1 + u) ^ 2 - 1) * |x| + (2 + u) * ν) := by
      have := abs_add_le (s + x) (s1 - (s + x))
      rw [add_sub_cancel] at this
      have := abs_add_le s x
      linarith
    have hG : 1 ≤ (1 + u) ^ l.length := one_le_pow₀ (by linarith)
    have hGs := mul_le_mul_of_nonneg_left hs1 (sub_nonneg.2 hG)
    have h7 : |r - (s + (x + T))| ≤ |r - (s1 + T)| + |s1 - (s + x)| := by
      have := abs_sub_le r (s1 + T) (s + (x + T))
      have e1 : s1 + T - (s + (x + T)) = s1 - (s + x) := by ring
      rwa [e1] at this
    have e2 : (1 + u) ^ (l.length + 1) = (1 + u) ^ l.length * (1 + u) := pow_succ _ _
    have e3 : (1 + u) ^ (l.length + 1 + 1) = (1 + u) ^ l.length * (1 + u) * (1 + u) := by rw [pow_succ, pow_succ]
    rw [e2] at ih ⊢
    rw [e3]
    generalize (1 + u) ^ l.length = G at *
    push_cast
    have hn : (0 : K) ≤ l.length := Nat.cast_nonneg _
    generalize (l.length : K) = n at *
    have a1 : 0 ≤ G * u * (1 + u) * S := by positivity
    have a2 : 0 ≤ G * u * ν := by positivity
    have a3 : 0 ≤ n * G * u * ν := by positivity
    nlinarith

/-- error of a rounded scalar product -/
theorem sumProd_err (h : Rounds ar u ν) (l : List (K × K)) :
    |ar.sumProd l - (l.map fun e => e.1 * e.2).sum| ≤
      ((1 + u) ^ (l.length + 1) - 1) * (l.map fun e => |e.1 * e.2|).sum + 2 * l.length * (1 + u) ^ l.length * ν := by
  have := foldl_err h l 0
  simpa [Arith.sumProd] using this

theorem sum_visits {l : List Nat} {n : Nat} (hl : l.Nodup) (hlt : ∀ j ∈ l, j < n) {f : Nat → K}
    (hf : ∀ j < n, f j ≠ 0 → j ∈ l) : (l.map f).sum = ∑ j ∈ range n, f j := by
  rw [← List.sum_toFinset f hl]
  refine Finset.sum_subset (fun j hj => by simpa using hlt j (by simpa using hj)) fun j hj hn => ?_
  by_contra hc
  exact hn (by simpa using hf j (by simpa using hj) hc)

/-- error of one component of the product of a rounded matrix and a vector -/
theorem dot_err (h : Rounds ar u ν) {m m' : Mat K} {ord : Nat → List Nat} (ho : Visits m' ord)
    (hr : m'.rows = m.rows) (hc : m'.cols = m.cols) {i : Nat} (hi : i < m.rows)
    (h1 : ∀ j < m.cols, |m.at_ i j| ≤ 1) (h2 : ∀ j < m.cols, |m'.at_ i j - m.at_ i j| ≤ u + ν) {v : List K}
    (hv : v.length = m.cols) :
    |(ar.dot m' ord v).getD i 0 - (m.dot v).getD i 0| ≤
      ((1 + u + ν) ^ (v.length + 2) - 1) * (v.map fun x => |x|).sum +
        2 * v.length * (1 + u + ν) ^ v.length * ν := by
  have hu := h.hu
  have hν := h.hν
  have hi' : i < m'.rows := by omega
  have e1 : (ar.dot m' ord v).getD i 0 = ar.sumProd ((ord i).map fun j => (m'.at_ i j, v.getD j 0)) := by
    unfold Arith.dot
    rw [List.getD_eq_getElem?_getD, List.getElem?_map, List.getElem?_range hi']
    rfl
  have e2 : (m.dot v).getD i 0 = ∑ j ∈ range m.cols, m.at_ i j * v.getD j 0 := dot_getD hi
  have hlen : (ord i).length ≤ v.length := by
    have : (ord i).toFinset ⊆ range m'.cols := fun j hj => by simpa using ho.lt i hi' j (by simpa using hj)
    have := Finset.card_le_card this
    rw [List.toFinset_card_of_nodup (ho.nodup i hi'), card_range] at this
    omega
  have hV : ∑ j ∈ range m.cols, |v.getD j 0| = (v.map fun x => |x|).sum := by
    rw [← hv]
    clear hv e2 hlen e1
    induction v with
    | nil => simp
    | cons a v ih =>
      rw [List.length_cons, Finset.sum_range_succ']
      simp only [List.getD_cons_succ, List.getD_cons_zero, List.map_cons, List.sum_cons]
      rw [ih, add_comm]
  have hV0 : 0 ≤ (v.map fun x => |x|).sum := by rw [← hV]; exact Finset.sum_nonneg fun _ _ => abs_nonneg _
  have e3 := sumProd_err h ((ord i).map fun j => (m'.at_ i j, v.getD j 0))
  simp only [List.map_map, Function.comp_def, List.length_map] at e3
  rw [sum_visits (ho.nodup i hi') (ho.lt i hi') (f := fun j => m'.at_ i j * v.getD j 0) (fun j hj hne =>
      ho.all i hi' j hj (left_ne_zero_of_mul hne)),
    sum_visits (ho.nodup i hi') (ho.lt i hi') (f := fun j => |m'.at_ i j * v.getD j 0|) (fun j hj hne =>
      ho.all i hi' j hj (left_ne_zero_of_mul (abs_ne_zero.1 hne))), hc] at e3
  have hm' : ∀ j < m.cols, |m'.at_ i j| ≤ 1 + u + ν := fun j hj => by
    have := abs_add_le (m.at_ i j) (m'.at_ i j - m.at_ i j)
    rw [add_sub_cancel] at this
    have := h1 j hj
    have := h2 j hj
    linarith
  have hS : ∑ j ∈ range m.cols, |m'.at_ i j * v.getD j 0| ≤ (1 + u + ν) * (v.map fun x => |x|).sum := by
    rw [← hV, Finset.mul_sum]
    refine Finset.sum_le_sum fun j hj => ?_
    rw [abs_mul]
    exact mul_le_mul_of_nonneg_right (hm' j (by simpa using hj)) (abs_nonneg _)
  have hD : |∑ j ∈ range m.cols, m'.at_ i j * v.getD j 0 - ∑ j ∈ range m.cols, m.at_ i j * v.getD j 0| ≤
      (u + ν) * (v.map fun x => |x|).sum := by
    rw [← Finset.sum_sub_distrib, ← hV, Finset.mul_sum]
    refine (Finset.abs_sum_le_sum_abs _ _).trans (Finset.sum_le_sum fun j hj => ?_)
    rw [← sub_mul, abs_mul]
    exact mul_le_mul_of_nonneg_right (h2 j (by simpa using hj)) (abs_nonneg _)
  rw [e1, e2]
  have e4 := abs_sub_le (ar.sumProd ((ord i).map fun j => (m'.at_ i j, v.getD j 0)))
    (∑ j ∈ range m.cols, m'.at_ i j * v.getD j 0) (∑ j ∈ range m.cols, m.at_ i j * v.getD j 0)
  have hg : 1 ≤ 1 + u + ν := by linarith
  have p1 : (1 + u) ^ ((ord i).length + 1) ≤ (1 + u + ν) ^ (v.length + 1) :=
    (pow_le_pow_left₀ (by linarith) (by linarith) _).trans (pow_le_pow_right₀ hg (by omega))
  have p2 : (1 + u) ^ (ord i).length ≤ (1 + u + ν) ^ v.length :=
    (pow_le_pow_left₀ (by linarith) (by linarith) _).trans (pow_le_pow_right₀ hg hlen)
  have p3 : (1 : K) ≤ (1 + u + ν) ^ (v.length + 1) := one_le_pow₀ hg
  have q1 : ((1 + u) ^ ((ord i).length + 1) - 1) * ∑ j ∈ range m.cols, |m'.at_ i j * v.getD j 0| ≤
      ((1 + u + ν) ^ (v.length + 1) - 1) * ((1 + u + ν) * (v.map fun x => |x|).sum) :=
    mul_le_mul (by linarith) hS (Finset.sum_nonneg fun _ _ => abs_nonneg _) (by linarith)
  have q2 : 2 * ((ord i).length : K) * (1 + u) ^ (ord i).length * ν ≤ 2 * v.length * (1 + u + ν) ^ v.length * ν := by
    have : ((ord i).length : K) ≤ v.length := by exact_mod_cast hlen
    have h0 : (0 : K) ≤ (1 + u) ^ (ord i).length := pow_nonneg (by linarith) _
    refine mul_le_mul_of_nonneg_right (mul_le_mul (by linarith) p2 h0 (by positivity)) hν
  have e5 : (1 + u + ν) ^ (v.length + 2) = (1 + u + ν) ^ (v.length + 1) * (1 + u + ν) := by rw [← pow_succ]
  rw [e5]
  generalize (1 + u + ν) ^ (v.length + 1) = G at *
  generalize (v.map fun x => |x|).sum = V at *
  nlinarith

/-- what the vector has to satisfy beyond the signs of end components -/
def Cond (sense : Sense) (n : Nat) (lo hi : Nat → K) (rhs : List K) : Prop :=
  match sense with
  | .le => ∀ i < n, rhs.getD i 0 ≤ hi i
  | .lt => (∀ i < n, rhs.getD i 0 ≤ hi i) ∧ rhs.getD (n - 1) 0 < hi (n - 1)
  | .ge => ∀ i < n, lo i ≤ rhs.getD i 0
  | .gt => (∀ i < n, lo i ≤ rhs.getD i 0) ∧ lo (n - 1) < rhs.getD (n - 1) 0

theorem cond_mono {sense : Sense} {n : Nat} (hn : 0 < n) {lo hi lo' hi' : Nat → K} {rhs : List K}
    (h1 : ∀ i < n, lo' i ≤ lo i) (h2 : ∀ i < n, hi i ≤ hi' i) (h : Cond sense n lo hi rhs) : Cond sense n lo' hi' rhs := by
  cases sense
  · exact fun i hi => (h i hi).trans (h2 i hi)
  · exact ⟨fun i hi => (h.1 i hi).trans (h2 i hi), h.2.trans_le (h2 _ (by omega))⟩
  · exact fun i hi => (h1 i hi).trans (h i hi)
  · exact ⟨fun i hi => (h1 i hi).trans (h.1 i hi), (h1 _ (by omega)).trans_lt h.2⟩

theorem check_iff (rf : RF K) (mode : Mode) (sense : Sense) (t : K) (v : List K) (tol : K) :
    check rf mode sense t v tol = .ok true ↔ (0 ≤ t ∧ t ≤ 1) ∧ ∃ m rhs, constraintSet rf mode sense t = .ok (m, rhs) ∧
      v.length = m.cols ∧ ecCheck rf mode sense v (List.range m.cols) = .ok true ∧
      Cond sense m.rows (fun i => (m.dot v).getD i 0 - tol) (fun i => (m.dot v).getD i 0 + tol) rhs := by
  unfold check
  by_cases ht : 0 ≤ t ∧ t ≤ 1
  · rw [if_pos ht]
    cases hc : constraintSet rf mode sense t with
    | error e => simp [bind, Except.bind]
    | ok p =>
      obtain ⟨m, rhs⟩ := p
      simp only [bind, Except.bind]
      by_cases hl : v.length = m.cols
      · rw [if_pos hl]
        cases he : ecCheck rf mode sense v (List.range m.cols) with
        | error e => simp [he]
        | ok b =>
          cases b with
          | false => simp [he]
          | true => cases sense <;> simp [Cond, ht, hl, he]
      · rw [if_neg hl]
        simp [hl]
  · simp [ht]

theorem flcheck_iff (ar : Arith K) (ord : Nat → List Nat) (rf : RF K) (mode : Mode) (sense : Sense) (t : K) (v : List K)
    (tol : K) : ar.check ord rf mode sense t v tol = .ok true ↔ (0 ≤ t ∧ t ≤ 1) ∧ ∃ m rhs,
      ar.constraintSet rf mode sense t = .ok (m, rhs) ∧ v.length = m.cols ∧
      ecCheck rf mode sense v (List.range m.cols) = .ok true ∧
      Cond sense m.rows (fun i => ar.fl ((ar.dot m ord v).getD i 0 - tol)) (fun i => ar.fl ((ar.dot m ord v).getD i 0 + tol))
        rhs := by
  unfold Arith.check
  by_cases ht : 0 ≤ t ∧ t ≤ 1
  · rw [if_pos ht]
    cases hc : ar.constraintSet rf mode sense t with
    | error e => simp [bind, Except.bind]
    | ok p =>
      obtain ⟨m, rhs⟩ := p
      simp only [bind, Except.bind]
      by_cases hl : v.length = m.cols
      · rw [if_pos hl]
        cases he : ecCheck rf mode sense v (List.range m.cols) with
        | error e => simp [he]
        | ok b =>
          cases b with
          | false => simp [he]
          | true => cases sense <;> simp [Cond, ht, hl, he]
      · rw [if_neg hl]
        simp [hl]
  · simp [ht]

/-- the rounded and the exact constraint system -/
theorem constraintSet_fl (h : Rounds ar u ν) {rf : RF K} (hP : ∀ i j, 0 ≤ rf.P i j ∧ rf.P i j ≤ 1)
    (hb : ∀ i, 0 ≤ rf.b i ∧ rf.b i ≤ 1) (mode : Mode) (sense : Sense) (t : K) :
    (∃ e, ar.constraintSet rf mode sense t = .error e ∧ constraintSet rf mode sense t = .error e) ∨
    ∃ m m' rhs, ar.constraintSet rf mode sense t = .ok (m', rhs) ∧ constraintSet rf mode sense t = .ok (m, rhs) ∧
      m'.rows = m.rows ∧ m'.cols = m.cols ∧ 0 < m.rows ∧ (∀ i j, |m.at_ i j| ≤ 1) ∧
      ∀ i j, |m'.at_ i j - m.at_ i j| ≤ u + ν := by
  have hu := h.hu
  have hν := h.hν
  have hA1 : ∀ i j, |rf.A i j| ≤ 1 := by
    intro i j
    have := hP i j
    unfold RF.A
    split <;> rw [abs_le] <;> constructor <;> linarith
  have hA2 : ∀ i j, |ar.A rf i j - rf.A i j| ≤ u + ν := by
    intro i j
    have hp := hP i j
    unfold RF.A Arith.A
    split
    · split
      · rename_i h0
        rw [h0]; simp; linarith
      · have h1 := h.close (1 - rf.P i j)
        have h2 : |1 - rf.P i j| ≤ 1 := by rw [abs_le]; constructor <;> linarith
        have := mul_le_mul_of_nonneg_left h2 hu
        linarith
    · simp; linarith
  have hb1 : ∀ i, |-rf.b i| ≤ 1 := fun i => by have := hb i; rw [abs_le]; constructor <;> linarith
  have hd1 : ∀ i, |-rf.delta i| ≤ 1 := fun i => by unfold RF.delta; split <;> simp
  have hz : (∃ e, ar.farkZ rf t = .error e ∧ rf.farkZ t = .error e) ∨
      ∃ m m' rhs, ar.farkZ rf t = .ok (m', rhs) ∧ rf.farkZ t = .ok (m, rhs) ∧
      m'.rows = m.rows ∧ m'.cols = m.cols ∧ 0 < m.rows ∧ (∀ i j, |m.at_ i j| ≤ 1) ∧
      ∀ i j, |m'.at_ i j - m.at_ i j| ≤ u + ν := by
    unfold Arith.farkZ RF.farkZ
    by_cases hi : rf.initial < rf.N
    · simp only [if_pos hi]
      refine Or.inr ⟨_, _, _, rfl, rfl, rfl, rfl, Nat.succ_pos _, fun i j => ?_, fun i j => ?_⟩
      · simp only; split
        · exact hA1 i j
        · exact hd1 j
      · simp only; split
        · exact hA2 i j
        · simp; linarith
    · simp only [if_neg hi]
      exact Or.inl ⟨_, rfl, rfl⟩
  have hy : (∃ e, ar.farkY rf t = .error e ∧ rf.farkY t = .error e) ∨
      ∃ m m' rhs, ar.farkY rf t = .ok (m', rhs) ∧ rf.farkY t = .ok (m, rhs) ∧
      m'.rows = m.rows ∧ m'.cols = m.cols ∧ 0 < m.rows ∧ (∀ i j, |m.at_ i j| ≤ 1) ∧
      ∀ i j, |m'.at_ i j - m.at_ i j| ≤ u + ν := by
    unfold Arith.farkY RF.farkY
    by_cases hi : rf.initial < rf.N
    · simp only [if_pos hi]
      refine Or.inr ⟨_, _, _, rfl, rfl, rfl, rfl, Nat.succ_pos _, fun i j => ?_, fun i j => ?_⟩
      · simp only; split
        · exact hA1 j i
        · exact hb1 j
      · simp only; split
        · exact hA2 j i
        · simp; linarith
    · simp only [if_neg hi]
      exact Or.inl ⟨_, rfl, rfl⟩
  cases mode <;> cases sense <;> first | exact hz | exact hy

/-- what rounding can add to the tolerance for a vector of length `D` with absolute sum `V` -/
def flErr (u ν : K) (D : Nat) (V tol : K) : K :=
  ((1 + u + ν) ^ (D + 3) - 1) * (V + |tol|) + (2 * D + 1) * (1 + u + ν) ^ (D + 1) * ν

theorem flErr_row (h : Rounds ar u ν) {D : Nat} {V tol x y : K} (hx : |x - y| ≤ ((1 + u + ν) ^ (D + 2) - 1) * V +
    2 * D * (1 + u + ν) ^ D * ν) (hy : |y| ≤ V) (hV : 0 ≤ V) :
    |ar.fl (x - tol) - (y - tol)| ≤ flErr u ν D V tol ∧ |ar.fl (x + tol) - (y + tol)| ≤ flErr u ν D V tol := by
  have hu := h.hu
  have hν := h.hν
  have key : ∀ s : K, |s| = |tol| → |ar.fl (x + s) - (y + s)| ≤ flErr u ν D V tol := by
    intro s hs
    have h1 := h.close (x + s)
    have h2 : |x + s| ≤ |y| + |x - y| + |tol| := by
      have a := abs_add_le x s
      have b := abs_add_le y (x - y)
      rw [add_sub_cancel] at b
      linarith
    have h3 := abs_sub_le (ar.fl (x + s)) (x + s) (y + s)
    rw [add_sub_add_right_eq_sub] at h3
    have h4 := mul_le_mul_of_nonneg_left h2 hu
    have ht := abs_nonneg tol
    unfold flErr
    have e1 : (1 + u + ν) ^ (D + 3) = (1 + u + ν) ^ (D + 2) * (1 + u + ν) := by rw [← pow_succ]
    have e2 : (1 + u + ν) ^ (D + 1) = (1 + u + ν) ^ D * (1 + u + ν) := by rw [← pow_succ]
    have g1 : 1 ≤ (1 + u + ν) ^ (D + 2) := one_le_pow₀ (by linarith)
    have g2 : 1 ≤ (1 + u + ν) ^ D := one_le_pow₀ (by linarith)
    rw [e1, e2]
    generalize (1 + u + ν) ^ (D + 2) = G at *
    generalize (1 + u + ν) ^ D = H at *
    have hD : (0 : K) ≤ D := Nat.cast_nonneg _
    generalize (D : K) = d at *
    generalize |x - y| = e at *
    generalize |tol| = T at *
    have k1 : e * (1 + u) ≤ ((G - 1) * V + 2 * d * H * ν) * (1 + u) := mul_le_mul_of_nonneg_right hx (by linarith)
    have k2 : 0 ≤ (G - 1) * V := mul_nonneg (by linarith) hV
    have k3 : 0 ≤ 2 * d * H * ν := by positivity
    have k4 : 0 ≤ (G - 1) * T * (1 + u + ν) := mul_nonneg (mul_nonneg (by linarith) ht) (by linarith)
    have k5 : u * |y| ≤ u * V := mul_le_mul_of_nonneg_left hy hu
    have k6 : 0 ≤ ν * V := mul_nonneg hν hV
    have k7 : 0 ≤ ν * T := mul_nonneg hν ht
    have k8 : 0 ≤ (H - 1) * ν := mul_nonneg (by linarith) hν
    have k9 : 0 ≤ H * ν * (u + ν) := by positivity
    have k10 : 0 ≤ (G - 1) * V * ν := mul_nonneg k2 hν
    have k11 : 0 ≤ 2 * d * H * ν * ν := by positivity
    have goal1 : |ar.fl (x + s) - (y + s)| ≤ e * (1 + u) + u * V + u * T + ν := by linarith
    refine goal1.trans ?_
    nlinarith
  refine ⟨?_, key tol rfl⟩
  have := key (-tol) (abs_neg _)
  rwa [← sub_eq_add_neg, ← sub_eq_add_neg] at this

end Verif.Proofs
