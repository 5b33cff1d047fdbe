import Mathlib.Algebra.Order.Field.Basic
import Mathlib.Algebra.BigOperators.Group.Finset.Basic
import Mathlib.Algebra.BigOperators.Ring.Finset
import Mathlib.Algebra.BigOperators.Intervals
import Mathlib.Tactic.Linarith
import Mathlib.Tactic.Ring
/-!
# Linear programs attain their optimum

Fourier–Motzkin elimination, over any ordered field: a linear function that is bounded below on a non-empty set given
by finitely many linear inequalities has a minimum there.
-/
set_option linter.unusedSectionVars false
namespace Verif.Theory.LP
open Finset

variable {K : Type} [Field K] [LinearOrder K] [IsStrictOrderedRing K]

/-- an inequality: coefficients and right side -/
abbrev Ineq (K : Type) := (Nat → K) × K

/-- the inequality holds, in `n` variables -/
def Holds (n : Nat) (c : Ineq K) (x : Nat → K) : Prop := ∑ j ∈ range n, c.1 j * x j ≤ c.2

theorem Holds.congr {n : Nat} {c : Ineq K} {x y : Nat → K} (e : ∀ j < n, x j = y j) : Holds n c x ↔ Holds n c y := by
  unfold Holds
  rw [sum_congr rfl fun j hj => by rw [e j (mem_range.1 hj)]]

/-- a finite set of lower bounds below a finite set of upper bounds: there is something in between -/
theorem exists_between (lo up : List K) (h : ∀ a ∈ lo, ∀ b ∈ up, a ≤ b) : ∃ z, (∀ a ∈ lo, a ≤ z) ∧ ∀ b ∈ up, z ≤ b := by
  induction lo with
  | nil =>
    induction up with
    | nil => exact ⟨0, by simp, by simp⟩
    | cons b up ih =>
      obtain ⟨z, -, hz⟩ := ih (by simp)
      exact ⟨min z b, by simp, fun b' hb' => by
        rcases List.mem_cons.1 hb' with rfl | hb'
        · exact min_le_right _ _
        · exact le_trans (min_le_left _ _) (hz b' hb')⟩
  | cons a lo ih =>
    obtain ⟨z, h1, h2⟩ := ih fun a' ha' b hb => h a' (by simp [ha']) b hb
    refine ⟨max z a, fun a' ha' => ?_, fun b hb => max_le (h2 b hb) (h a (by simp) b hb)⟩
    rcases List.mem_cons.1 ha' with rfl | ha'
    · exact le_max_right _ _
    · exact le_trans (h1 a' ha') (le_max_left _ _)

/-- eliminate variable `n` -/
def elim (n : Nat) (L : List (Ineq K)) : List (Ineq K) :=
  L.filter (fun c => decide (c.1 n = 0)) ++
    (L.filter fun c => decide (0 < c.1 n)).flatMap fun p => (L.filter fun c => decide (c.1 n < 0)).map fun q =>
      (fun j => p.1 j * (-q.1 n) + q.1 j * p.1 n, p.2 * (-q.1 n) + q.2 * p.1 n)

theorem elim_iff (n : Nat) (L : List (Ineq K)) (x : Nat → K) :
    (∀ c ∈ elim n L, Holds n c x) ↔ ∃ z, ∀ c ∈ L, Holds (n + 1) c (Function.update x n z) := by
  have split : ∀ (c : Ineq K) z, Holds (n + 1) c (Function.update x n z) ↔ ∑ j ∈ range n, c.1 j * x j + c.1 n * z ≤ c.2 := by
    intro c z
    unfold Holds
    rw [sum_range_succ, Function.update_self]
    rw [sum_congr rfl fun j hj => by rw [Function.update_of_ne (mem_range.1 hj).ne]]
  have comb : ∀ p q : Ineq K, Holds n (fun j => p.1 j * (-q.1 n) + q.1 j * p.1 n, p.2 * (-q.1 n) + q.2 * p.1 n) x ↔
      (∑ j ∈ range n, p.1 j * x j) * (-q.1 n) + (∑ j ∈ range n, q.1 j * x j) * p.1 n ≤ p.2 * (-q.1 n) + q.2 * p.1 n := by
    intro p q
    unfold Holds
    simp only
    rw [sum_mul, sum_mul, ← sum_add_distrib]
    rw [sum_congr rfl fun j _ => show (p.1 j * (-q.1 n) + q.1 j * p.1 n) * x j = p.1 j * x j * (-q.1 n) + q.1 j * x j * p.1 n by ring]
  simp only [split]
  constructor
  · intro h
    have hz : ∀ c ∈ L, c.1 n = 0 → ∑ j ∈ range n, c.1 j * x j ≤ c.2 := fun c hc h0 =>
      h c (List.mem_append_left _ (List.mem_filter.2 ⟨hc, by simpa using h0⟩))
    have hpq : ∀ p ∈ L, 0 < p.1 n → ∀ q ∈ L, q.1 n < 0 →
        (∑ j ∈ range n, p.1 j * x j) * (-q.1 n) + (∑ j ∈ range n, q.1 j * x j) * p.1 n ≤ p.2 * (-q.1 n) + q.2 * p.1 n := by
      intro p hp h1 q hq h2
      rw [← comb]
      refine h _ (List.mem_append_right _ (List.mem_flatMap.2 ⟨p, List.mem_filter.2 ⟨hp, by simpa using h1⟩,
        List.mem_map.2 ⟨q, List.mem_filter.2 ⟨hq, by simpa using h2⟩, rfl⟩⟩))
    obtain ⟨z, z1, z2⟩ := exists_between
      ((L.filter fun c => decide (c.1 n < 0)).map fun q => (q.2 - ∑ j ∈ range n, q.1 j * x j) / q.1 n)
      ((L.filter fun c => decide (0 < c.1 n)).map fun p => (p.2 - ∑ j ∈ range n, p.1 j * x j) / p.1 n) (by
        intro a ha b hb
        obtain ⟨q, hq, rfl⟩ := List.mem_map.1 ha
        obtain ⟨p, hp, rfl⟩ := List.mem_map.1 hb
        obtain ⟨hq, h2⟩ := List.mem_filter.1 hq
        obtain ⟨hp, h1⟩ := List.mem_filter.1 hp
        have h1 : 0 < p.1 n := by simpa using h1
        have h2 : q.1 n < 0 := by simpa using h2
        have := hpq p hp h1 q hq h2
        rw [le_div_iff₀ h1, div_mul_eq_mul_div, div_le_iff_of_neg h2]
        linarith)
    refine ⟨z, fun c hc => ?_⟩
    rcases lt_trichotomy (c.1 n) 0 with h0 | h0 | h0
    · have := z1 _ (List.mem_map.2 ⟨c, List.mem_filter.2 ⟨hc, by simpa using h0⟩, rfl⟩)
      rw [div_le_iff_of_neg h0] at this
      linarith
    · rw [h0, zero_mul, add_zero]
      exact hz c hc h0
    · have := z2 _ (List.mem_map.2 ⟨c, List.mem_filter.2 ⟨hc, by simpa using h0⟩, rfl⟩)
      rw [le_div_iff₀ h0] at this
      linarith
  · rintro ⟨z, hz⟩ c hc
    rcases List.mem_append.1 hc with hc | hc
    · obtain ⟨hc, h0⟩ := List.mem_filter.1 hc
      have h0 : c.1 n = 0 := by simpa using h0
      have := hz c hc
      rw [h0, zero_mul, add_zero] at this
      exact this
    · obtain ⟨p, hp, hc⟩ := List.mem_flatMap.1 hc
      obtain ⟨q, hq, rfl⟩ := List.mem_map.1 hc
      obtain ⟨hq, h2⟩ := List.mem_filter.1 hq
      obtain ⟨hp, h1⟩ := List.mem_filter.1 hp
      have h1 : 0 < p.1 n := by simpa using h1
      have h2 : q.1 n < 0 := by simpa using h2
      rw [comb]
      have a1 := mul_le_mul_of_nonneg_right (hz p hp) (neg_pos.2 h2).le
      have a2 := mul_le_mul_of_nonneg_right (hz q hq) h1.le
      linarith

/-- eliminate all variables but the first -/
theorem project (n : Nat) (L : List (Ineq K)) :
    ∃ L' : List (Ineq K), ∀ z, (∀ c ∈ L', c.1 0 * z ≤ c.2) ↔ ∃ x : Nat → K, x 0 = z ∧ ∀ c ∈ L, Holds (n + 1) c x := by
  induction n generalizing L with
  | zero =>
    refine ⟨L, fun z => ⟨fun h => ⟨fun _ => z, rfl, fun c hc => ?_⟩, fun ⟨x, hx, h⟩ c hc => ?_⟩⟩
    · simpa [Holds] using h c hc
    · simpa [Holds, hx] using h c hc
  | succ n ih =>
    obtain ⟨L', h⟩ := ih (elim (n + 1) L)
    refine ⟨L', fun z => (h z).trans ⟨?_, ?_⟩⟩
    · rintro ⟨x, hx, hc⟩
      obtain ⟨y, hy⟩ := (elim_iff (n + 1) L x).1 hc
      exact ⟨Function.update x (n + 1) y, by rw [Function.update_of_ne (by omega), hx], hy⟩
    · rintro ⟨x, hx, hc⟩
      refine ⟨x, hx, (elim_iff (n + 1) L x).2 ⟨x (n + 1), ?_⟩⟩
      rw [Function.update_eq_self]
      exact hc

/-- a set of numbers given by finitely many inequalities, not empty and bounded below, has a least element -/
theorem exists_least (L : List (Ineq K)) {z B : K} (hz : ∀ c ∈ L, c.1 0 * z ≤ c.2)
    (hB : ∀ z, (∀ c ∈ L, c.1 0 * z ≤ c.2) → B ≤ z) :
    ∃ z, (∀ c ∈ L, c.1 0 * z ≤ c.2) ∧ ∀ z', (∀ c ∈ L, c.1 0 * z' ≤ c.2) → z ≤ z' := by
  -- the largest lower bound
  have hmax : ∀ l : List K, l ≠ [] → ∃ a ∈ l, ∀ b ∈ l, b ≤ a := by
    intro l
    induction l with
    | nil => intro h; exact absurd rfl h
    | cons a l ih =>
      intro _
      rcases eq_or_ne l [] with rfl | hl
      · exact ⟨a, by simp, by simp⟩
      · obtain ⟨m, h1, h2⟩ := ih hl
        rcases le_total m a with h | h
        · refine ⟨a, by simp, fun b hb => ?_⟩
          rcases List.mem_cons.1 hb with rfl | hb
          · exact le_rfl
          · exact le_trans (h2 b hb) h
        · refine ⟨m, by simp [h1], fun b hb => ?_⟩
          rcases List.mem_cons.1 hb with rfl | hb
          · exact h
          · exact h2 b hb
  have hne : (L.filter fun c => decide (c.1 0 < 0)) ≠ [] := by
    intro he
    have hp : ∀ c ∈ L, 0 ≤ c.1 0 := fun c hc => by
      by_contra hn
      have : c ∈ L.filter fun c => decide (c.1 0 < 0) := List.mem_filter.2 ⟨hc, by simpa using hn⟩
      rw [he] at this
      simp at this
    have := hB (min z (B - 1)) fun c hc => le_trans (mul_le_mul_of_nonneg_left (min_le_left _ _) (hp c hc)) (hz c hc)
    have := min_le_right z (B - 1)
    linarith
  obtain ⟨m, hm, hmx⟩ := hmax ((L.filter fun c => decide (c.1 0 < 0)).map fun c => c.2 / c.1 0) (by simpa using hne)
  have hlow : ∀ z', (∀ c ∈ L, c.1 0 * z' ≤ c.2) → m ≤ z' := by
    intro z' h
    obtain ⟨c, hc, rfl⟩ := List.mem_map.1 hm
    obtain ⟨hc, h0⟩ := List.mem_filter.1 hc
    have h0 : c.1 0 < 0 := by simpa using h0
    rw [div_le_iff_of_neg h0]
    have := h c hc
    linarith
  refine ⟨m, fun c hc => ?_, hlow⟩
  rcases lt_or_ge (c.1 0) 0 with h0 | h0
  · have := hmx _ (List.mem_map.2 ⟨c, List.mem_filter.2 ⟨hc, by simpa using h0⟩, rfl⟩)
    rw [div_le_iff_of_neg h0] at this
    linarith
  · exact le_trans (mul_le_mul_of_nonneg_left (hlow z hz) h0) (hz c hc)

/-- sets given by finitely many linear inequalities in `n` variables -/
def Poly (n : Nat) (P : (Nat → K) → Prop) : Prop := ∃ L : List (Ineq K), ∀ x, P x ↔ ∀ c ∈ L, Holds n c x

theorem Poly.and {n : Nat} {P Q : (Nat → K) → Prop} (hP : Poly n P) (hQ : Poly n Q) : Poly n fun x => P x ∧ Q x := by
  obtain ⟨L, hL⟩ := hP
  obtain ⟨L', hL'⟩ := hQ
  refine ⟨L ++ L', fun x => ?_⟩
  beta_reduce
  rw [hL, hL']
  simp only [List.mem_append, or_imp, forall_and]

theorem Poly.true {n : Nat} : Poly n fun _ : Nat → K => True := ⟨[], fun x => by simp⟩

theorem Poly.congr {n : Nat} {P Q : (Nat → K) → Prop} (hP : Poly n P) (h : ∀ x, Q x ↔ P x) : Poly n Q := by
  obtain ⟨L, hL⟩ := hP
  exact ⟨L, fun x => (h x).trans (hL x)⟩

theorem Poly.imp {n : Nat} {P : (Nat → K) → Prop} (p : Prop) (hP : p → Poly n P) : Poly n fun x => p → P x := by
  by_cases h : p
  · exact (hP h).congr fun x => ⟨fun g => g h, fun g _ => g⟩
  · exact Poly.true.congr fun x => ⟨fun _ => trivial, fun _ g => absurd g h⟩

theorem Poly.forall_list {n : Nat} {α : Type} (l : List α) {P : α → (Nat → K) → Prop} (hP : ∀ a ∈ l, Poly n (P a)) :
    Poly n fun x => ∀ a ∈ l, P a x := by
  induction l with
  | nil => exact Poly.true.congr fun x => by simp
  | cons a l ih =>
    refine ((hP a (by simp)).and (ih fun b hb => hP b (by simp [hb]))).congr fun x => ?_
    simp

theorem Poly.forall_lt {n : Nat} (k : Nat) {P : Nat → (Nat → K) → Prop} (hP : ∀ i < k, Poly n (P i)) :
    Poly n fun x => ∀ i < k, P i x :=
  (Poly.forall_list (List.range k) fun i hi => hP i (List.mem_range.1 hi)).congr fun x => by simp

/-- linear functions of `n` variables -/
def Lin (n : Nat) (f : (Nat → K) → K) : Prop := ∃ (a : Nat → K) (d : K), ∀ x, f x = ∑ j ∈ range n, a j * x j + d

theorem Lin.const {n : Nat} (d : K) : Lin n fun _ : Nat → K => d := ⟨fun _ => 0, d, fun x => by simp⟩

theorem Lin.var {n : Nat} {j : Nat} (hj : j < n) : Lin n fun x : Nat → K => x j := by
  refine ⟨fun i => if i = j then 1 else 0, 0, fun x => ?_⟩
  simp [ite_mul, hj]

theorem Lin.add {n : Nat} {f g : (Nat → K) → K} (hf : Lin n f) (hg : Lin n g) : Lin n fun x => f x + g x := by
  obtain ⟨a, d, h⟩ := hf
  obtain ⟨a', d', h'⟩ := hg
  refine ⟨fun j => a j + a' j, d + d', fun x => ?_⟩
  beta_reduce
  rw [h, h']
  simp only [add_mul, sum_add_distrib]
  ring

theorem Lin.smul {n : Nat} {f : (Nat → K) → K} (hf : Lin n f) (c : K) : Lin n fun x => c * f x := by
  obtain ⟨a, d, h⟩ := hf
  refine ⟨fun j => c * a j, c * d, fun x => ?_⟩
  beta_reduce
  rw [h, mul_add, mul_sum]
  simp only [mul_assoc]

theorem Lin.congr {n : Nat} {f g : (Nat → K) → K} (hf : Lin n f) (h : ∀ x, g x = f x) : Lin n g := by
  obtain ⟨a, d, h'⟩ := hf
  exact ⟨a, d, fun x => (h x).trans (h' x)⟩

theorem Lin.sum {n : Nat} {ι : Type} (s : Finset ι) {f : ι → (Nat → K) → K} (hf : ∀ i ∈ s, Lin n (f i)) :
    Lin n fun x => ∑ i ∈ s, f i x := by
  classical
  induction s using Finset.induction_on with
  | empty => exact (Lin.const 0).congr fun x => by simp
  | insert i s hi ih =>
    refine ((hf i (by simp)).add (ih fun j hj => hf j (by simp [hj]))).congr fun x => ?_
    rw [sum_insert hi]

theorem Poly.le {n : Nat} {f g : (Nat → K) → K} (hf : Lin n f) (hg : Lin n g) : Poly n fun x => f x ≤ g x := by
  obtain ⟨a, d, h⟩ := hf
  obtain ⟨a', d', h'⟩ := hg
  refine ⟨[(fun j => a j - a' j, d' - d)], fun x => ?_⟩
  simp only [List.mem_singleton, forall_eq, Holds, h, h', sub_mul, sum_sub_distrib]
  constructor <;> intro h <;> linarith

theorem Poly.eq {n : Nat} {f g : (Nat → K) → K} (hf : Lin n f) (hg : Lin n g) : Poly n fun x => f x = g x :=
  ((Poly.le hf hg).and (Poly.le hg hf)).congr fun _ => le_antisymm_iff

/-- **a linear program that is feasible and bounded has an optimum** -/
theorem attains {n : Nat} {P : (Nat → K) → Prop} {f : (Nat → K) → K} (hP : Poly n P) (hf : Lin n f)
    (hne : ∃ x, P x) {B : K} (hB : ∀ x, P x → B ≤ f x) :
    ∃ x, P x ∧ (∀ j, n ≤ j → x j = 0) ∧ ∀ y, P y → f x ≤ f y := by
  obtain ⟨L, hL⟩ := hP
  obtain ⟨a, d, hf⟩ := hf
  -- a new first variable is the value
  let sh : Ineq K → Ineq K := fun c => (fun j => if j = 0 then 0 else c.1 (j - 1), c.2)
  let lo : Ineq K := (fun j => if j = 0 then 1 else -a (j - 1), d)
  let hi : Ineq K := (fun j => if j = 0 then -1 else a (j - 1), -d)
  obtain ⟨L', h⟩ := project n (lo :: hi :: L.map sh)
  have key : ∀ x : Nat → K, (∀ c ∈ lo :: hi :: L.map sh, Holds (n + 1) c x) ↔
      x 0 = f (fun j => x (j + 1)) ∧ P fun j => x (j + 1) := by
    intro x
    have s1 : ∀ c : Ineq K, Holds (n + 1) (sh c) x ↔ Holds n c fun j => x (j + 1) := by
      intro c
      unfold Holds
      rw [sum_range_succ']
      simp [sh]
    have s2 : (Holds (n + 1) lo x ∧ Holds (n + 1) hi x) ↔ x 0 = f fun j => x (j + 1) := by
      unfold Holds
      rw [sum_range_succ', sum_range_succ', hf]
      simp only [lo, hi, Nat.add_eq_zero_iff, Nat.one_ne_zero, and_false, if_false, if_true, Nat.add_sub_cancel, neg_mul, sum_neg_distrib, one_mul]
      constructor
      · rintro ⟨h1, h2⟩
        linarith
      · intro h
        constructor <;> linarith
    rw [hL]
    simp only [List.mem_cons, forall_eq_or_imp, List.mem_map, forall_exists_index, and_imp, forall_apply_eq_imp_iff₂, s1]
    rw [← s2, and_assoc]
  have key' : ∀ z, (∀ c ∈ L', c.1 0 * z ≤ c.2) ↔ ∃ x, P x ∧ f x = z := by
    intro z
    rw [h]
    constructor
    · rintro ⟨x, rfl, hx⟩
      obtain ⟨h1, h2⟩ := (key x).1 hx
      exact ⟨_, h2, h1.symm⟩
    · rintro ⟨x, hx, rfl⟩
      exact ⟨fun j => if j = 0 then f x else x (j - 1), by simp, (key _).2 (by simpa using hx)⟩
  obtain ⟨x0, hx0⟩ := hne
  obtain ⟨z, h1, h2⟩ := exists_least L' (z := f x0) (B := B) ((key' _).2 ⟨x0, hx0, rfl⟩) (fun z hz => by
    obtain ⟨x, hx, rfl⟩ := (key' z).1 hz
    exact hB x hx)
  obtain ⟨x, hx, rfl⟩ := (key' z).1 h1
  have e : ∀ j < n, (if j < n then x j else 0) = x j := fun j hj => if_pos hj
  refine ⟨fun j => if j < n then x j else 0, ?_, fun j hj => if_neg (by omega), fun y hy => ?_⟩
  · rw [hL] at hx ⊢
    exact fun c hc => (Holds.congr e).2 (hx c hc)
  · have : f (fun j => if j < n then x j else 0) = f x := by
      rw [hf, hf, sum_congr rfl fun j hj => by rw [e j (mem_range.1 hj)]]
    rw [this]
    exact h2 _ ((key' _).2 ⟨y, hy, rfl⟩)

end Verif.Theory.LP
