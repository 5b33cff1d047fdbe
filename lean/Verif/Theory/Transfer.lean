import Mathlib.Algebra.Order.BigOperators.Group.Finset
import Mathlib.Algebra.BigOperators.Ring.Finset
import Mathlib.Algebra.BigOperators.Intervals
import Mathlib.Algebra.Order.Hom.Ring
import Mathlib.Algebra.Order.Field.Basic
import Mathlib.Data.Real.Basic
import Mathlib.Algebra.Order.Archimedean.Real.Basic
import Mathlib.Data.Fintype.EquivFin
import Mathlib.Algebra.BigOperators.Fin
import Mathlib.Data.Fintype.BigOperators
import Mathlib.Tactic.Linarith
import Mathlib.Tactic.Ring
import Mathlib.Tactic.FieldSimp
import Mathlib.Algebra.GroupWithZero.Units.Basic
import Mathlib.RingTheory.SimpleRing.Basic
/-!
# Linear inequalities with coefficients in an ordered field

A finite system of strict and non-strict linear inequalities with coefficients in `K` that has a solution in a larger
ordered field has one in `K`, and a linear function that is bounded on the solutions attains its maximum
(Fourier-Motzkin elimination).
-/
set_option linter.unusedSectionVars false
namespace Verif.Theory
open Finset

variable {K : Type} [Field K] [LinearOrder K] [IsStrictOrderedRing K]
variable {F : Type} [Field F] [LinearOrder F] [IsStrictOrderedRing F]

/-- the inequality `∑ a j * x j ≤ b`, or `<` -/
structure LinC (K : Type) where
  a : ℕ → K
  b : K
  strict : Bool

/-- the inequality holds for the values `x` of the first `n` variables -/
def LinC.Holds (ψ : K →+*o F) (n : ℕ) (c : LinC K) (x : ℕ → F) : Prop :=
  ∑ j ∈ range n, ψ (c.a j) * x j ≤ ψ c.b ∧ (c.strict = true → ∑ j ∈ range n, ψ (c.a j) * x j < ψ c.b)

/-- the sum of `l` and `u`, scaled such that variable `n` cancels -/
def LinC.comb (n : ℕ) (l u : LinC K) : LinC K :=
  ⟨fun j => u.a j * -l.a n + l.a j * u.a n, u.b * -l.a n + l.b * u.a n, l.strict || u.strict⟩

/-- elimination of variable `n` -/
def LinC.elim (n : ℕ) (cs : List (LinC K)) : List (LinC K) :=
  cs.filter (fun c => c.a n = 0) ++
    (cs.filter fun c => c.a n < 0).flatMap fun l => (cs.filter fun c => 0 < c.a n).map fun u => l.comb n u

theorem LinC.comb_sum (ψ : K →+*o F) (n m : ℕ) (l u : LinC K) (x : ℕ → F) :
    ∑ j ∈ range m, ψ ((l.comb n u).a j) * x j =
      (∑ j ∈ range m, ψ (u.a j) * x j) * -ψ (l.a n) + (∑ j ∈ range m, ψ (l.a j) * x j) * ψ (u.a n) := by
  simp only [LinC.comb, map_add, map_mul, map_neg, Finset.sum_mul, ← Finset.sum_add_distrib]
  exact Finset.sum_congr rfl fun j _ => by ring

/-- what holds, holds after elimination -/
theorem LinC.elim_of {ψ : K →+*o F} (hψ : StrictMono ψ) {n : ℕ} {cs : List (LinC K)} {x : ℕ → F} (h : ∀ c ∈ cs, c.Holds ψ (n + 1) x) :
    ∀ c ∈ LinC.elim n cs, c.Holds ψ n x := by
  intro c hc
  rcases List.mem_append.1 hc with hc | hc
  · rw [List.mem_filter, decide_eq_true_eq] at hc
    have := h c hc.1
    simpa [LinC.Holds, Finset.sum_range_succ, hc.2] using this
  · rw [List.mem_flatMap] at hc
    obtain ⟨l, hl, hc⟩ := hc
    rw [List.mem_map] at hc
    obtain ⟨u, hu, rfl⟩ := hc
    rw [List.mem_filter, decide_eq_true_eq] at hl hu
    obtain ⟨l1, l2⟩ := h l hl.1
    obtain ⟨u1, u2⟩ := h u hu.1
    rw [Finset.sum_range_succ] at l1 l2 u1 u2
    have hl0 : 0 < -ψ (l.a n) := by
      have := hψ hl.2
      rw [map_zero] at this
      linarith
    have hu0 : 0 < ψ (u.a n) := by
      have := hψ hu.2
      rwa [map_zero] at this
    have e : ψ (l.comb n u).b = ψ u.b * -ψ (l.a n) + ψ l.b * ψ (u.a n) := by simp [LinC.comb]
    unfold LinC.Holds
    rw [LinC.comb_sum, e]
    set S := ∑ j ∈ range n, ψ (l.a j) * x j
    set T := ∑ j ∈ range n, ψ (u.a j) * x j
    have cancel : T * -ψ (l.a n) + S * ψ (u.a n) =
        (T + ψ (u.a n) * x n) * -ψ (l.a n) + (S + ψ (l.a n) * x n) * ψ (u.a n) := by ring
    rw [cancel]
    have k1 := mul_le_mul_of_nonneg_right u1 hl0.le
    have k2 := mul_le_mul_of_nonneg_right l1 hu0.le
    refine ⟨add_le_add k1 k2, fun hs => ?_⟩
    simp only [LinC.comb, Bool.or_eq_true] at hs
    rcases hs with hs | hs
    · exact add_lt_add_of_le_of_lt k1 (mul_lt_mul_of_pos_right (l2 hs) hu0)
    · exact add_lt_add_of_lt_of_le (mul_lt_mul_of_pos_right (u2 hs) hl0) k2

/-- a value between finitely many lower and upper bounds -/
theorem exists_between_bounds (L U : List (K × Bool))
    (h : ∀ l ∈ L, ∀ u ∈ U, l.1 ≤ u.1 ∧ (l.2 = true ∨ u.2 = true → l.1 < u.1)) :
    ∃ v, (∀ l ∈ L, l.1 ≤ v ∧ (l.2 = true → l.1 < v)) ∧ ∀ u ∈ U, v ≤ u.1 ∧ (u.2 = true → v < u.1) := by
  have top : ∀ L : List (K × Bool), L ≠ [] → ∃ m ∈ L, ∀ l ∈ L, l.1 ≤ m.1 := by
    intro L
    induction L with
    | nil => intro h; exact absurd rfl h
    | cons a L ih =>
      intro _
      by_cases hL : L = []
      · subst hL; exact ⟨a, by simp, by simp⟩
      · obtain ⟨m, h1, h2⟩ := ih hL
        rcases le_total a.1 m.1 with hm | hm
        · exact ⟨m, by simp [h1], fun l hl => by
            rcases List.mem_cons.1 hl with rfl | hl
            · exact hm
            · exact h2 l hl⟩
        · exact ⟨a, by simp, fun l hl => by
            rcases List.mem_cons.1 hl with rfl | hl
            · exact le_rfl
            · exact (h2 l hl).trans hm⟩
  have bot : ∀ L : List (K × Bool), L ≠ [] → ∃ m ∈ L, ∀ l ∈ L, m.1 ≤ l.1 := by
    intro L hL
    obtain ⟨m, h1, h2⟩ := top (L.map fun l => (-l.1, l.2)) (by simpa using hL)
    obtain ⟨m', h3, rfl⟩ := List.mem_map.1 h1
    exact ⟨m', h3, fun l hl => neg_le_neg_iff.1 (h2 _ (List.mem_map_of_mem hl))⟩
  by_cases hL : L = []
  · subst hL
    by_cases hU : U = []
    · subst hU; exact ⟨0, by simp, by simp⟩
    · obtain ⟨m, h1, h2⟩ := bot U hU
      exact ⟨m.1 - 1, by simp, fun u hu => ⟨by linarith [h2 u hu], fun _ => by linarith [h2 u hu]⟩⟩
  · obtain ⟨m, h1, h2⟩ := top L hL
    by_cases hU : U = []
    · subst hU
      exact ⟨m.1 + 1, fun l hl => ⟨by linarith [h2 l hl], fun _ => by linarith [h2 l hl]⟩, by simp⟩
    · obtain ⟨m', h3, h4⟩ := bot U hU
      rcases lt_or_eq_of_le (h m h1 m' h3).1 with hlt | heq
      · refine ⟨(m.1 + m'.1) / 2, fun l hl => ?_, fun u hu => ?_⟩
        · have := h2 l hl
          exact ⟨by linarith, fun _ => by linarith⟩
        · have := h4 u hu
          exact ⟨by linarith, fun _ => by linarith⟩
      · refine ⟨m.1, fun l hl => ⟨h2 l hl, fun hs => ?_⟩, fun u hu => ⟨heq ▸ h4 u hu, fun hs => ?_⟩⟩
        · rw [heq]; exact (h l hl m' h3).2 (Or.inl hs)
        · exact (h m h1 u hu).2 (Or.inr hs)

/-- a solution after elimination extends to one before -/
theorem LinC.exists_of_elim {n : ℕ} {cs : List (LinC K)} {x : ℕ → K}
    (h : ∀ c ∈ LinC.elim n cs, c.Holds (OrderRingHom.id K) n x) :
    ∃ v, ∀ c ∈ cs, c.Holds (OrderRingHom.id K) (n + 1) (Function.update x n v) := by
  have hsum : ∀ (c : LinC K) v, ∑ j ∈ range (n + 1), c.a j * Function.update x n v j = ∑ j ∈ range n, c.a j * x j + c.a n * v := by
    intro c v
    rw [Finset.sum_range_succ, Function.update_self]
    congr 1
    refine Finset.sum_congr rfl fun j hj => ?_
    rw [Function.update_of_ne (by have := Finset.mem_range.1 hj; omega)]
  let bd : LinC K → K × Bool := fun c => ((c.b - ∑ j ∈ range n, c.a j * x j) / c.a n, c.strict)
  obtain ⟨v, hl, hu⟩ := exists_between_bounds ((cs.filter fun c => c.a n < 0).map bd) ((cs.filter fun c => 0 < c.a n).map bd) (by
    intro l hl' u hu'
    obtain ⟨l, hl, rfl⟩ := List.mem_map.1 hl'
    obtain ⟨u, hu, rfl⟩ := List.mem_map.1 hu'
    have hc := h (l.comb n u) (List.mem_append.2 (Or.inr (List.mem_flatMap.2 ⟨l, hl, List.mem_map.2 ⟨u, hu, rfl⟩⟩)))
    rw [List.mem_filter, decide_eq_true_eq] at hl hu
    obtain ⟨c1, c2⟩ := hc
    rw [LinC.comb_sum] at c1 c2
    simp only [OrderRingHom.id_apply] at c1 c2
    simp only [LinC.comb, Bool.or_eq_true] at c1 c2
    have hl0 : 0 < -l.a n := by linarith [hl.2]
    set S := ∑ j ∈ range n, l.a j * x j
    set T := ∑ j ∈ range n, u.a j * x j
    have e1 : (l.b - S) / l.a n = (S - l.b) / -l.a n := by rw [div_neg, ← neg_div]; congr 1; ring
    show (l.b - S) / l.a n ≤ (u.b - T) / u.a n ∧ (_ → (l.b - S) / l.a n < (u.b - T) / u.a n)
    rw [e1]
    refine ⟨?_, fun hs => ?_⟩
    · rw [div_le_div_iff₀ hl0 hu.2]; linarith
    · rw [div_lt_div_iff₀ hl0 hu.2]; linarith [c2 hs])
  refine ⟨v, fun c hc => ?_⟩
  unfold LinC.Holds
  simp only [OrderRingHom.id_apply, hsum]
  rcases lt_trichotomy (c.a n) 0 with hlt | heq | hgt
  · obtain ⟨h1, h2⟩ := hl (bd c) (List.mem_map_of_mem (List.mem_filter.2 ⟨hc, by simpa using hlt⟩))
    simp only [bd] at h1 h2
    rw [div_le_iff_of_neg hlt] at h1
    rw [div_lt_iff_of_neg hlt] at h2
    exact ⟨by linarith, fun hs => by linarith [h2 hs]⟩
  · have := h c (List.mem_append.2 (Or.inl (List.mem_filter.2 ⟨hc, by simpa using heq⟩)))
    simpa [LinC.Holds, heq] using this
  · obtain ⟨h1, h2⟩ := hu (bd c) (List.mem_map_of_mem (List.mem_filter.2 ⟨hc, by simpa using hgt⟩))
    simp only [bd] at h1 h2
    rw [le_div_iff₀ hgt] at h1
    rw [lt_div_iff₀ hgt] at h2
    exact ⟨by linarith, fun hs => by linarith [h2 hs]⟩

/-- **Transfer.** A finite system of linear inequalities over `K` with a solution in a larger field has one in `K`. -/
theorem LinC.transfer {ψ : K →+*o F} (hψ : StrictMono ψ) (n : ℕ) (cs : List (LinC K)) {x : ℕ → F}
    (h : ∀ c ∈ cs, c.Holds ψ n x) : ∃ y : ℕ → K, ∀ c ∈ cs, c.Holds (OrderRingHom.id K) n y := by
  induction n generalizing cs with
  | zero =>
    refine ⟨fun _ => 0, fun c hc => ?_⟩
    obtain ⟨h1, h2⟩ := h c hc
    simp only [LinC.Holds, Finset.range_zero, Finset.sum_empty, OrderRingHom.id_apply] at h1 h2 ⊢
    rw [← map_zero ψ, hψ.le_iff_le] at h1
    rw [← map_zero ψ, hψ.lt_iff_lt] at h2
    exact ⟨h1, h2⟩
  | succ n ih =>
    obtain ⟨y, hy⟩ := ih (LinC.elim n cs) (LinC.elim_of hψ h)
    obtain ⟨v, hv⟩ := LinC.exists_of_elim hy
    exact ⟨_, hv⟩

/-! ### maxima -/

theorem LinC.elim_closed {n : ℕ} {cs : List (LinC K)} (h : ∀ c ∈ cs, c.strict = false) :
    ∀ c ∈ LinC.elim n cs, c.strict = false := by
  intro c hc
  rcases List.mem_append.1 hc with hc | hc
  · exact h c (List.mem_filter.1 hc).1
  · rw [List.mem_flatMap] at hc
    obtain ⟨l, hl, hc⟩ := hc
    rw [List.mem_map] at hc
    obtain ⟨u, hu, rfl⟩ := hc
    simp [LinC.comb, h l (List.mem_filter.1 hl).1, h u (List.mem_filter.1 hu).1]

/-- all variables but the first can be eliminated -/
theorem LinC.project (n : ℕ) (cs : List (LinC K)) (h : ∀ c ∈ cs, c.strict = false) :
    ∃ ds : List (K × K), ∀ v : K, (∃ x : ℕ → K, x 0 = v ∧ ∀ c ∈ cs, c.Holds (OrderRingHom.id K) (n + 1) x) ↔ ∀ d ∈ ds, d.1 * v ≤ d.2 := by
  induction n generalizing cs with
  | zero =>
    refine ⟨cs.map fun c => (c.a 0, c.b), fun v => ⟨?_, fun hd => ⟨fun _ => v, rfl, fun c hc => ?_⟩⟩⟩
    · rintro ⟨x, rfl, hx⟩ d hd
      obtain ⟨c, hc, rfl⟩ := List.mem_map.1 hd
      simpa using (hx c hc).1
    · refine ⟨by simpa using hd _ (List.mem_map_of_mem hc), fun hs => ?_⟩
      rw [h c hc] at hs
      cases hs
  | succ n ih =>
    obtain ⟨ds, hds⟩ := ih (LinC.elim (n + 1) cs) (LinC.elim_closed h)
    refine ⟨ds, fun v => (Iff.trans ⟨?_, ?_⟩ (hds v))⟩
    · rintro ⟨x, hv, hx⟩
      exact ⟨x, hv, LinC.elim_of (ψ := OrderRingHom.id K) (fun _ _ h => h) hx⟩
    · rintro ⟨x, hv, hx⟩
      obtain ⟨w, hw⟩ := LinC.exists_of_elim hx
      exact ⟨_, by rw [Function.update_of_ne (by omega)]; exact hv, hw⟩

/-- finitely many bounds on a number: if they bound it from above they have a greatest solution -/
theorem exists_greatest (ds : List (K × K)) {v0 B : K} (h0 : ∀ d ∈ ds, d.1 * v0 ≤ d.2)
    (hB : ∀ v, (∀ d ∈ ds, d.1 * v ≤ d.2) → v ≤ B) :
    ∃ m, (∀ d ∈ ds, d.1 * m ≤ d.2) ∧ ∀ v, (∀ d ∈ ds, d.1 * v ≤ d.2) → v ≤ m := by
  have bot : ∀ L : List (K × K), L ≠ [] → ∃ m ∈ L, ∀ l ∈ L, m.2 / m.1 ≤ l.2 / l.1 := by
    intro L
    induction L with
    | nil => intro h; exact absurd rfl h
    | cons a L ih =>
      intro _
      by_cases hL : L = []
      · subst hL; exact ⟨a, by simp, by simp⟩
      · obtain ⟨m, h1, h2⟩ := ih hL
        rcases le_total (m.2 / m.1) (a.2 / a.1) with hm | hm
        · exact ⟨m, by simp [h1], fun l hl => by
            rcases List.mem_cons.1 hl with rfl | hl
            · exact hm
            · exact h2 l hl⟩
        · exact ⟨a, by simp, fun l hl => by
            rcases List.mem_cons.1 hl with rfl | hl
            · exact le_rfl
            · exact hm.trans (h2 l hl)⟩
  by_cases hU : ds.filter (fun d => 0 < d.1) = []
  · have hn : ∀ d ∈ ds, d.1 ≤ 0 := fun d hd => by
      by_contra hc
      have : d ∈ ds.filter (fun d => 0 < d.1) := List.mem_filter.2 ⟨hd, by simpa using hc⟩
      rw [hU] at this
      simp at this
    have := hB (max v0 B + 1) fun d hd => le_trans
      (mul_le_mul_of_nonpos_left (by linarith [le_max_left v0 B]) (hn d hd)) (h0 d hd)
    linarith [le_max_right v0 B]
  · obtain ⟨m, h1, h2⟩ := bot _ hU
    rw [List.mem_filter, decide_eq_true_eq] at h1
    have hle : ∀ v, (∀ d ∈ ds, d.1 * v ≤ d.2) → v ≤ m.2 / m.1 := fun v hv => by
      rw [le_div_iff₀ h1.2, mul_comm]; exact hv m h1.1
    refine ⟨m.2 / m.1, fun d hd => ?_, hle⟩
    rcases lt_or_ge 0 d.1 with hp | hn
    · have := h2 d (List.mem_filter.2 ⟨hd, by simpa using hp⟩)
      rwa [le_div_iff₀ hp, mul_comm] at this
    · exact le_trans (mul_le_mul_of_nonpos_left (hle v0 h0) hn) (h0 d hd)

/-- **Maxima.** A linear function that is bounded on the solutions of finitely many non-strict linear inequalities attains
its maximum there. -/
theorem LinC.exists_max {n : ℕ} {cs : List (LinC K)} (h : ∀ c ∈ cs, c.strict = false) (o : ℕ → K) {x0 : ℕ → K}
    (hx0 : ∀ c ∈ cs, c.Holds (OrderRingHom.id K) n x0) {B : K}
    (hB : ∀ x : ℕ → K, (∀ c ∈ cs, c.Holds (OrderRingHom.id K) n x) → ∑ j ∈ range n, o j * x j ≤ B) :
    ∃ x : ℕ → K, (∀ c ∈ cs, c.Holds (OrderRingHom.id K) n x) ∧
      ∀ y : ℕ → K, (∀ c ∈ cs, c.Holds (OrderRingHom.id K) n y) → ∑ j ∈ range n, o j * y j ≤ ∑ j ∈ range n, o j * x j := by
  let cs' : List (LinC K) := ⟨fun j => if j = 0 then 1 else - o (j - 1), 0, false⟩ ::
    ⟨fun j => if j = 0 then -1 else o (j - 1), 0, false⟩ :: cs.map fun c => ⟨fun j => if j = 0 then 0 else c.a (j - 1), c.b, c.strict⟩
  have key : ∀ x : ℕ → K, (∀ c ∈ cs', c.Holds (OrderRingHom.id K) (n + 1) x) ↔
      x 0 = ∑ j ∈ range n, o j * x (j + 1) ∧ ∀ c ∈ cs, c.Holds (OrderRingHom.id K) n fun j => x (j + 1) := by
    intro x
    simp only [cs', List.forall_mem_cons, List.forall_mem_map]
    simp only [LinC.Holds, OrderRingHom.id_apply, Finset.sum_range_succ', if_true, Nat.add_sub_cancel,
      Nat.add_eq_zero_iff, one_ne_zero, and_false, if_false, neg_mul, Finset.sum_neg_distrib, one_mul, zero_mul, add_zero,
      Bool.false_eq_true, false_imp_iff, and_true]
    rw [← and_assoc]
    refine and_congr_left fun _ => ⟨fun g => by linarith [g.1, g.2], fun g => by rw [g]; constructor <;> simp⟩
  have hs' : ∀ c ∈ cs', c.strict = false := by
    simp only [cs', List.forall_mem_cons, List.forall_mem_map]
    exact ⟨trivial, trivial, h⟩
  obtain ⟨ds, hds⟩ := LinC.project n cs' hs'
  have hiff : ∀ v, (∀ d ∈ ds, d.1 * v ≤ d.2) ↔ ∃ x : ℕ → K, (∀ c ∈ cs, c.Holds (OrderRingHom.id K) n x) ∧
      ∑ j ∈ range n, o j * x j = v := by
    intro v
    rw [← hds]
    constructor
    · rintro ⟨x, rfl, hx⟩
      obtain ⟨e, hx⟩ := (key x).1 hx
      exact ⟨_, hx, e.symm⟩
    · rintro ⟨x, hx, rfl⟩
      refine ⟨fun j => if j = 0 then ∑ j ∈ range n, o j * x j else x (j - 1), by simp, (key _).2 ?_⟩
      simpa using hx
  obtain ⟨m, h1, h2⟩ := exists_greatest ds ((hiff _).2 ⟨x0, hx0, rfl⟩) (B := B) fun v hv => by
    obtain ⟨x, hx, rfl⟩ := (hiff v).1 hv
    exact hB x hx
  obtain ⟨x, hx, rfl⟩ := (hiff m).1 h1
  exact ⟨x, hx, fun y hy => h2 _ ((hiff _).2 ⟨y, hy, rfl⟩)⟩

/-! ### conditions given by finitely many linear inequalities -/

variable {ι : Type} [Fintype ι]

/-- an affine function with coefficients in `K` -/
def Aff (φ : K →+*o F) (f : (ι → F) → F) : Prop := ∃ (a : ι → K) (b : K), ∀ x, f x = ∑ i, φ (a i) * x i + φ b

namespace Aff
variable {φ : K →+*o F} {f g : (ι → F) → F}

theorem const {b : F} (hb : b ∈ Set.range φ) : Aff φ fun _ : ι → F => b := by
  obtain ⟨b, rfl⟩ := hb
  exact ⟨fun _ => 0, b, fun x => by simp⟩

theorem zero : Aff φ fun _ : ι → F => 0 := const ⟨0, map_zero φ⟩
theorem one : Aff φ fun _ : ι → F => 1 := const ⟨1, map_one φ⟩

theorem var (i : ι) : Aff φ fun x : ι → F => x i := by
  classical
  exact ⟨fun j => if j = i then 1 else 0, 0, fun x => by simp [apply_ite φ]⟩

theorem add (hf : Aff φ f) (hg : Aff φ g) : Aff φ fun x => f x + g x := by
  obtain ⟨a, b, h⟩ := hf
  obtain ⟨a', b', h'⟩ := hg
  exact ⟨fun i => a i + a' i, b + b', fun x => by simp only [h, h', map_add, add_mul, Finset.sum_add_distrib]; ring⟩

theorem neg (hf : Aff φ f) : Aff φ fun x => - f x := by
  obtain ⟨a, b, h⟩ := hf
  exact ⟨fun i => - a i, - b, fun x => by simp only [h, map_neg, neg_mul, Finset.sum_neg_distrib]; ring⟩

theorem sub (hf : Aff φ f) (hg : Aff φ g) : Aff φ fun x => f x - g x := by
  simpa only [sub_eq_add_neg] using hf.add hg.neg

theorem mul {c : F} (hc : c ∈ Set.range φ) (hf : Aff φ f) : Aff φ fun x => c * f x := by
  obtain ⟨c, rfl⟩ := hc
  obtain ⟨a, b, h⟩ := hf
  exact ⟨fun i => c * a i, c * b, fun x => by simp only [h, map_mul, mul_add, Finset.mul_sum, mul_assoc]⟩

theorem mul' {c : F} (hc : c ∈ Set.range φ) (hf : Aff φ f) : Aff φ fun x => f x * c := by
  simpa only [mul_comm] using hf.mul hc

theorem sum {α : Type} (s : Finset α) {f : α → (ι → F) → F} (h : ∀ a ∈ s, Aff φ (f a)) : Aff φ fun x => ∑ a ∈ s, f a x := by
  classical
  induction s using Finset.induction_on with
  | empty => simpa using zero
  | insert a s ha ih =>
    simp only [Finset.sum_insert ha]
    exact (h a (by simp)).add (ih fun b hb => h b (by simp [hb]))

end Aff

/-- a condition given by finitely many linear inequalities with coefficients in `K`; strict ones only if `st` -/
def Lin (φ : K →+*o F) (st : Bool) (q : (ι → F) → Prop) : Prop :=
  ∃ cs : List ((ι → K) × K × Bool), (st = false → ∀ c ∈ cs, c.2.2 = false) ∧ ∀ x, q x ↔ ∀ c ∈ cs,
    ∑ i, φ (c.1 i) * x i ≤ φ c.2.1 ∧ (c.2.2 = true → ∑ i, φ (c.1 i) * x i < φ c.2.1)

namespace Lin
variable {φ : K →+*o F} {st : Bool} {q q' : (ι → F) → Prop} {f g : (ι → F) → F}

theorem and (h : Lin φ st q) (h' : Lin φ st q') : Lin φ st (fun x => q x ∧ q' x) := by
  obtain ⟨cs, h1, h2⟩ := h
  obtain ⟨cs', h1', h2'⟩ := h'
  refine ⟨cs ++ cs', fun e => List.forall_mem_append.2 ⟨h1 e, h1' e⟩, fun x => ?_⟩
  simp only [h2, h2', List.forall_mem_append]

theorem true : Lin φ st (fun _ : ι → F => True) := ⟨[], by simp, fun x => by simp⟩

theorem congr (h : Lin φ st q) (hq : ∀ x, q' x ↔ q x) : Lin φ st q' := by
  obtain ⟨cs, h1, h2⟩ := h
  exact ⟨cs, h1, fun x => (hq x).trans (h2 x)⟩

theorem imp (P : Prop) (h : P → Lin φ st q) : Lin φ st (fun x => P → q x) := by
  by_cases hP : P
  · exact (h hP).congr (fun x => by simp [hP])
  · exact true.congr (fun x => by simp [hP])

theorem forall_mem {α : Type} (s : Finset α) {q : α → (ι → F) → Prop} (h : ∀ a ∈ s, Lin φ st (q a)) :
    Lin φ st (fun x => ∀ a ∈ s, q a x) := by
  classical
  induction s using Finset.induction_on with
  | empty => exact true.congr (fun x => by simp)
  | insert a s ha ih =>
    exact ((h a (by simp)).and (ih fun b hb => h b (by simp [hb]))).congr (fun x => by simp)

theorem all {α : Type} [Finite α] {q : α → (ι → F) → Prop} (h : ∀ a, Lin φ st (q a)) : Lin φ st (fun x => ∀ a, q a x) := by
  have := Fintype.ofFinite α
  exact (forall_mem Finset.univ fun a _ => h a).congr (fun x => by simp)

theorem forall_lt (m : ℕ) {q : ℕ → (ι → F) → Prop} (h : ∀ a < m, Lin φ st (q a)) :
    Lin φ st (fun x => ∀ a < m, q a x) :=
  (forall_mem (range m) fun a ha => h a (Finset.mem_range.1 ha)).congr (fun x => by simp)

theorem le (hf : Aff φ f) (hg : Aff φ g) : Lin φ st (fun x => f x ≤ g x) := by
  obtain ⟨a, b, h⟩ := hf
  obtain ⟨a', b', h'⟩ := hg
  refine ⟨[(fun i => a i - a' i, b' - b, false)], by simp, fun x => ?_⟩
  simp only [h, h', List.mem_singleton, forall_eq, map_sub, sub_mul, Finset.sum_sub_distrib, Bool.false_eq_true, false_imp_iff, and_true]
  constructor <;> intro hh <;> linarith

theorem lt (hf : Aff φ f) (hg : Aff φ g) : Lin φ Bool.true (fun x => f x < g x) := by
  obtain ⟨a, b, h⟩ := hf
  obtain ⟨a', b', h'⟩ := hg
  refine ⟨[(fun i => a i - a' i, b' - b, Bool.true)], by simp, fun x => ?_⟩
  simp only [h, h', List.mem_singleton, forall_eq, map_sub, sub_mul, Finset.sum_sub_distrib, true_imp_iff]
  constructor
  · intro hh; constructor <;> linarith
  · intro hh; linarith [hh.2]

theorem eq (hf : Aff φ f) (hg : Aff φ g) : Lin φ st (fun x => f x = g x) :=
  ((le hf hg).and (le hg hf)).congr fun _ => le_antisymm_iff

/-- the code's numbering of the variables -/
theorem num (K : Type) [Field K] [LinearOrder K] [IsStrictOrderedRing K] : ∃ (n : ℕ) (num : ((ι → K) × K × Bool) → LinC K), (∀ c, (num c).strict = c.2.2) ∧
    ∀ (F' : Type) [Field F'] [LinearOrder F'] [IsStrictOrderedRing F'] (ψ : K →+*o F'),
      ∃ e : (ι → F') → ℕ → F', (∀ y : ℕ → F', ∃ x, ∀ j < n, e x j = y j) ∧
      (∀ c x, ∑ j ∈ range n, ψ ((num c).a j) * e x j = ∑ i, ψ (c.1 i) * x i) ∧ ∀ c, ψ (num c).b = ψ c.2.1 := by
  classical
  let e := Fintype.equivFin ι
  refine ⟨Fintype.card ι, fun c => ⟨fun j => if h : j < Fintype.card ι then c.1 (e.symm ⟨j, h⟩) else 0, c.2.1, c.2.2⟩,
    fun _ => rfl, fun F' _ _ _ ψ => ?_⟩
  refine ⟨fun x j => if h : j < Fintype.card ι then x (e.symm ⟨j, h⟩) else 0, fun y => ⟨fun i => y (e i).1, fun j hj => ?_⟩,
    fun c x => ?_, fun _ => rfl⟩
  · simp [hj]
  · rw [Finset.sum_range]
    simp only [Fin.is_lt, dif_pos, Fin.eta]
    exact Equiv.sum_comp e.symm fun i => ψ (c.1 i) * x i

/-- a condition that can be met can be met by numbers of `K` -/
theorem exists_mem (h : Lin φ st q) {x : ι → F} (hx : q x) : ∃ y : ι → K, q fun i => φ (y i) := by
  classical
  have hφ : StrictMono φ := (OrderHomClass.mono φ).strictMono_of_injective (φ : K →+* F).injective
  obtain ⟨cs, -, h2⟩ := h
  obtain ⟨n, num, hs, hn⟩ := num (ι := ι) K
  obtain ⟨e, he1, he2, he3⟩ := hn F φ
  obtain ⟨e', he1', he2', he3'⟩ := hn K (OrderRingHom.id K)
  obtain ⟨y, hy⟩ := LinC.transfer hφ n (cs.map num) (x := e x) (by
    intro c' hc'
    obtain ⟨c, hc, rfl⟩ := List.mem_map.1 hc'
    unfold LinC.Holds
    rw [he2, he3, hs]
    exact (h2 x).1 hx c hc)
  obtain ⟨x', hx'⟩ := he1' y
  refine ⟨x', (h2 _).2 fun c hc => ?_⟩
  have := hy _ (List.mem_map_of_mem hc)
  unfold LinC.Holds at this
  rw [Finset.sum_congr rfl fun j hj => by rw [← hx' j (Finset.mem_range.1 hj)], he2', he3', hs] at this
  simp only [OrderRingHom.id_apply] at this
  simp only [← map_mul, ← map_sum, hφ.le_iff_le, hφ.lt_iff_lt]
  exact this

/-- the maximum of an affine function on a closed condition over `K` -/
theorem exists_max {q : (ι → K) → Prop} {f : (ι → K) → K} (h : Lin (OrderRingHom.id K) false q) (hf : Aff (OrderRingHom.id K) f)
    {x0 : ι → K} (hx0 : q x0) {B : K} (hB : ∀ x, q x → f x ≤ B) : ∃ x, q x ∧ ∀ y, q y → f y ≤ f x := by
  obtain ⟨cs, h1, h2⟩ := h
  obtain ⟨a, b, hf⟩ := hf
  obtain ⟨n, num, hs, hn⟩ := num (ι := ι) K
  obtain ⟨e, he1, he2, he3⟩ := hn K (OrderRingHom.id K)
  have hiff : ∀ x, q x ↔ ∀ c ∈ cs.map num, c.Holds (OrderRingHom.id K) n (e x) := fun x => by
    rw [h2, List.forall_mem_map]
    simp only [LinC.Holds, he2, he3, hs]
  have hiff' : ∀ y : ℕ → K, ∃ x, (∀ j < n, e x j = y j) ∧ (q x ↔ ∀ c ∈ cs.map num, c.Holds (OrderRingHom.id K) n y) := fun y => by
    obtain ⟨x, hx⟩ := he1 y
    refine ⟨x, hx, (hiff x).trans (forall₂_congr fun c _ => ?_)⟩
    unfold LinC.Holds
    rw [Finset.sum_congr rfl fun j hj => by rw [hx j (Finset.mem_range.1 hj)]]
  have hfe : ∀ x, f x = ∑ j ∈ range n, (num (a, b, false)).a j * e x j + b := fun x => by
    rw [hf]
    have := he2 (a, b, false) x
    simp only [OrderRingHom.id_apply] at this ⊢
    rw [this]
  have hfy : ∀ (x : ι → K) (y : ℕ → K), (∀ j < n, e x j = y j) → f x = ∑ j ∈ range n, (num (a, b, false)).a j * y j + b := fun x y hxy => by
    rw [hfe, Finset.sum_congr rfl fun j hj => by rw [hxy j (Finset.mem_range.1 hj)]]
  obtain ⟨y, hy, hmax⟩ := LinC.exists_max (cs := cs.map num) (n := n) (by
      intro c' hc'
      obtain ⟨c, hc, rfl⟩ := List.mem_map.1 hc'
      rw [hs]
      exact h1 rfl c hc) (num (a, b, false)).a ((hiff x0).1 hx0) (B := B - b) (fun y hy => by
      obtain ⟨x, hx, hq⟩ := hiff' y
      have := hB x (hq.2 hy)
      rw [hfy x y hx] at this
      linarith)
  obtain ⟨x, hx, hq⟩ := hiff' y
  refine ⟨x, hq.2 hy, fun z hz => ?_⟩
  rw [hfy x y hx, hfe]
  have := hmax (e z) ((hiff z).1 hz)
  linarith

/-- an affine function that attains its maximum on a closed condition over the reals attains it at numbers of `K`; in
particular the maximum is a number of `K` -/
theorem max_mem {φ : K →+*o ℝ} {q : (ι → ℝ) → Prop} {f : (ι → ℝ) → ℝ} (h : Lin φ false q) (hf : Aff φ f) {x : ι → ℝ}
    (hx : q x) (hmax : ∀ y, q y → f y ≤ f x) : f x ∈ Set.range φ := by
  have hφ : StrictMono φ := (OrderHomClass.mono φ).strictMono_of_injective (φ : K →+* ℝ).injective
  obtain ⟨cs, h1, h2⟩ := id h
  obtain ⟨a, b, hfa⟩ := id hf
  obtain ⟨N, hN⟩ := exists_nat_ge (f x)
  let qK : (ι → K) → Prop := fun y => ∀ c ∈ cs, ∑ i, c.1 i * y i ≤ c.2.1 ∧ (c.2.2 = Bool.true → ∑ i, c.1 i * y i < c.2.1)
  have hq : ∀ y : ι → K, qK y ↔ q fun i => φ (y i) := fun y => by
    rw [h2]
    simp only [qK, ← map_mul, ← map_sum, hφ.le_iff_le, hφ.lt_iff_lt]
  have hfK : ∀ y : ι → K, f (fun i => φ (y i)) = φ (∑ i, a i * y i + b) := fun y => by
    rw [hfa]; simp only [map_add, map_sum, map_mul]
  obtain ⟨y0, hy0⟩ := h.exists_mem hx
  obtain ⟨y, hy, hm⟩ := exists_max (q := qK) (f := fun y => ∑ i, a i * y i + b) ⟨cs, h1, fun y => Iff.rfl⟩
    ⟨a, b, fun y => rfl⟩ ((hq y0).2 hy0) (B := (N : K)) (fun y hy => by
      have := (hmax _ ((hq y).1 hy)).trans hN
      rw [hfK, ← map_natCast φ, hφ.le_iff_le] at this
      exact this)
  refine ⟨∑ i, a i * y i + b, le_antisymm ?_ ?_⟩
  · rw [← hfK]; exact hmax _ ((hq y).1 hy)
  · by_contra hlt
    push Not at hlt
    have hst : Lin φ Bool.true q := ⟨cs, by simp, h2⟩
    obtain ⟨z, hz1, hz2⟩ := (hst.and (lt (Aff.const ⟨_, rfl⟩) hf)).exists_mem ⟨hx, hlt⟩
    rw [hfK, hφ.lt_iff_lt] at hz2
    exact absurd (hm z ((hq z).2 hz1)) (not_le.2 hz2)

end Lin

/-- order-preserving ring homomorphisms of fields are strictly monotone -/
theorem strictMono_hom (ψ : K →+*o F) : StrictMono ψ :=
  (OrderHomClass.mono ψ).strictMono_of_injective (ψ : K →+* F).injective

end Verif.Theory
