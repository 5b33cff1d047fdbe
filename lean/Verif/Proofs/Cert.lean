import Verif.Proofs.EC
import Verif.Model.Cert
/-! # `check_farkas_certificate` spelled out -/
set_option linter.unusedSectionVars false

namespace Verif.Proofs
open Verif.Model Verif.Spec Verif.Props Verif.Theory Finset

variable {K : Type} [Field K] [LinearOrder K] [IsStrictOrderedRing K]

theorem list_sum_range {β : Type} [AddCommMonoid β] (n : Nat) (f : Nat → β) :
    ((List.range n).map f).sum = ∑ i ∈ range n, f i := by
  induction n with
  | zero => simp
  | succ n ih => rw [List.range_succ, List.map_append, List.sum_append, ih, sum_range_succ]; simp

theorem getD_map_range {β : Type} {n i : Nat} (hi : i < n) (f : Nat → β) (d : β) :
    ((List.range n).map f).getD i d = f i := by
  rw [List.getD_eq_getElem _ _ (by simpa using hi)]; simp

theorem getD_map_range_append {β : Type} {n i : Nat} (hi : i < n) (f : Nat → β) (x d : β) :
    ((List.range n).map f ++ [x]).getD i d = f i := by
  rw [List.getD_append _ _ _ _ (by simpa using hi), getD_map_range hi]

theorem getD_map_range_last {β : Type} {n : Nat} (f : Nat → β) (x d : β) :
    ((List.range n).map f ++ [x]).getD n d = x := by
  rw [List.getD_append_right _ _ _ _ (by simp)]; simp

/-- `A z` -/
def zrow (rf : RF K) (v : Nat → K) (i : Nat) : K := ∑ j ∈ range rf.N, rf.A i j * v j
/-- `Aᵀ y` -/
def yrow (rf : RF K) (y : Nat → K) (j : Nat) : K := ∑ i ∈ range rf.C, rf.A i j * y i
/-- `b · y` -/
def ygain (rf : RF K) (y : Nat → K) : K := ∑ i ∈ range rf.C, rf.b i * y i

theorem ecCheck_max (rf : RF K) (sense : Sense) (v : List K) (is : List Nat) :
    ecCheck rf .max sense v is = .ok true := by cases is <;> rfl

theorem ecCheck_min_z {rf : RF K} {sense : Sense} (hs : sense.isLe = false) (v : List K) (is : List Nat) :
    ecCheck rf .min sense v is = .ok (decide (∀ s ∈ is, rf.inProperEC s = true → v.getD s 0 = 0)) := by
  induction is with
  | nil => simp [ecCheck]
  | cons i is ih =>
    simp only [ecCheck, hs, Bool.false_eq_true, if_false, ih]
    split
    · rename_i hc
      have : ¬ ∀ s ∈ i :: is, rf.inProperEC s = true → v.getD s 0 = 0 := by
        intro hall; exact hc.2 (hall i (by simp) hc.1)
      exact congrArg _ (decide_eq_false this).symm
    · rename_i hc
      push Not at hc
      congr 1
      simp only [List.forall_mem_cons, decide_eq_decide]
      exact ⟨fun hh => ⟨hc, hh⟩, fun hh => hh.2⟩

theorem ecCheck_min_y {rf : RF K} {sense : Sense} (hs : sense.isLe = true) (v : List K) (is : List Nat)
    (hi : ∀ i ∈ is, (rf.rowState i).isSome) :
    ecCheck rf .min sense v is = .ok (decide (∀ i ∈ is, ∀ s ∈ rf.rowState i, rf.inProperEC s = true → v.getD i 0 = 0)) := by
  induction is with
  | nil => simp [ecCheck]
  | cons i is ih =>
    have ih := ih fun j hj => hi j (List.mem_cons_of_mem _ hj)
    obtain ⟨s, hs'⟩ := Option.isSome_iff_exists.1 (hi i (by simp))
    simp only [ecCheck, hs, if_true, ih, hs']
    split
    · rename_i hc
      have : ¬ ∀ k ∈ i :: is, ∀ s ∈ rf.rowState k, rf.inProperEC s = true → v.getD k 0 = 0 := by
        intro hall; exact hc.2 (hall i (by simp) s hs' hc.1)
      refine congrArg Except.ok ?_
      symm
      rw [decide_eq_false_iff_not]
      exact this
    · rename_i hc
      push Not at hc
      congr 1
      simp only [List.forall_mem_cons, decide_eq_decide]
      refine ⟨fun hh => ⟨?_, hh⟩, fun hh => hh.2⟩
      intro s' hs'' 
      rw [hs'] at hs''
      cases hs''
      exact hc

theorem dot_getD {m : Mat K} {v : List K} {i : Nat} (hi : i < m.rows) :
    (m.dot v).getD i 0 = ∑ j ∈ range m.cols, m.at_ i j * v.getD j 0 := by
  unfold Mat.dot
  rw [getD_map_range hi, list_sum_range]

theorem farkZ_dot {rf : RF K} {t : K} {m : Mat K} {rhs : List K} (h : rf.farkZ t = .ok (m, rhs)) (v : List K) :
    rf.initial < rf.N ∧ m.rows = rf.C + 1 ∧ m.cols = rf.N ∧
    (∀ i < rf.C, (m.dot v).getD i 0 = zrow rf (fun j => v.getD j 0) i ∧ rhs.getD i 0 = rf.b i) ∧
    (m.dot v).getD rf.C 0 = - v.getD rf.initial 0 ∧ rhs.getD rf.C 0 = -t := by
  unfold RF.farkZ at h
  split at h
  · rename_i hi
    simp only [Except.ok.injEq, Prod.mk.injEq] at h
    obtain ⟨rfl, rfl⟩ := h
    refine ⟨hi, rfl, rfl, ?_, ?_, getD_map_range_last _ _ _⟩
    · intro i hiC
      refine ⟨?_, getD_map_range_append hiC _ _ _⟩
      rw [dot_getD (by simp only; omega)]
      simp only [hiC, if_true]; rfl
    · rw [dot_getD (by simp only; omega)]
      simp only [lt_irrefl, if_false, RF.delta]
      rw [Finset.sum_eq_single rf.initial]
      · simp
      · intro j _ hj; simp [hj]
      · intro hn; exact absurd (Finset.mem_range.2 hi) hn
  · cases h

theorem farkY_dot {rf : RF K} {t : K} {m : Mat K} {rhs : List K} (h : rf.farkY t = .ok (m, rhs)) (v : List K) :
    rf.initial < rf.N ∧ m.rows = rf.N + 1 ∧ m.cols = rf.C ∧
    (∀ j < rf.N, (m.dot v).getD j 0 = yrow rf (fun i => v.getD i 0) j ∧ rhs.getD j 0 = rf.delta j) ∧
    (m.dot v).getD rf.N 0 = - ygain rf (fun i => v.getD i 0) ∧ rhs.getD rf.N 0 = -t := by
  unfold RF.farkY at h
  split at h
  · rename_i hi
    simp only [Except.ok.injEq, Prod.mk.injEq] at h
    obtain ⟨rfl, rfl⟩ := h
    refine ⟨hi, rfl, rfl, ?_, ?_, getD_map_range_last _ _ _⟩
    · intro j hj
      refine ⟨?_, getD_map_range_append hj _ _ _⟩
      rw [dot_getD (by simp only; omega)]
      simp only [hj, if_true]; rfl
    · rw [dot_getD (by simp only; omega)]
      simp only [lt_irrefl, if_false, ygain, neg_mul, Finset.sum_neg_distrib]
  · cases h

theorem forall_lt_succ' {n : Nat} {p : Nat → Prop} : (∀ i < n + 1, p i) ↔ (∀ i < n, p i) ∧ p n :=
  ⟨fun h => ⟨fun i hi => h i (by omega), h n (by omega)⟩, fun h i hi => by
    rcases Nat.lt_succ_iff_lt_or_eq.1 hi with h' | rfl
    · exact h.1 i h'
    · exact h.2⟩

theorem farkZ_some {rf : RF K} (t : K) (hi : rf.initial < rf.N) : ∃ m rhs, rf.farkZ t = .ok (m, rhs) := by
  unfold RF.farkZ; rw [if_pos hi]; exact ⟨_, _, rfl⟩

theorem farkY_some {rf : RF K} (t : K) (hi : rf.initial < rf.N) : ∃ m rhs, rf.farkY t = .ok (m, rhs) := by
  unfold RF.farkY; rw [if_pos hi]; exact ⟨_, _, rfl⟩

theorem check_min_ge {rf : RF K} {strict : Bool} {t tol : K} {v : List K} :
    check rf .min (if strict then .gt else .ge) t v tol = .ok true ↔
      (0 ≤ t ∧ t ≤ 1) ∧ rf.initial < rf.N ∧ v.length = rf.N ∧
      (∀ s < rf.N, rf.inProperEC s = true → v.getD s 0 = 0) ∧
      (∀ i < rf.C, zrow rf (fun j => v.getD j 0) i - tol ≤ rf.b i) ∧
      t - tol ≤ v.getD rf.initial 0 ∧ (strict = true → t - tol < v.getD rf.initial 0) := by
  unfold check
  by_cases ht : 0 ≤ t ∧ t ≤ 1
  swap
  · rw [if_neg ht]; exact iff_of_false (by simp) fun h => ht h.1
  rw [if_pos ht]
  have hset : constraintSet rf .min (if strict then .gt else .ge) t = rf.farkZ t := by cases strict <;> rfl
  have hle : Sense.isLe (if strict = true then Sense.gt else .ge) = false := by cases strict <;> rfl
  rw [hset]
  by_cases hi : rf.initial < rf.N
  swap
  · unfold RF.farkZ; rw [if_neg hi]
    exact iff_of_false (by simp [bind, Except.bind]) fun h => hi h.2.1
  obtain ⟨m, rhs, hz⟩ := farkZ_some t hi
  obtain ⟨-, e1, e2, e3, e4, e5⟩ := farkZ_dot hz v
  simp only [hz, bind, Except.bind]
  by_cases hl : v.length = m.cols
  swap
  · rw [if_neg hl]; exact iff_of_false (by simp) fun h => hl (by rw [e2]; exact h.2.2.1)
  rw [if_pos hl, ecCheck_min_z hle, e2]
  simp only [List.mem_range]
  by_cases hec : ∀ s < rf.N, rf.inProperEC s = true → v.getD s 0 = 0
  swap
  · rw [decide_eq_false hec]
    exact iff_of_false (by simp) fun h => hec h.2.2.2.1
  rw [decide_eq_true hec]
  have hrows : (∀ i < m.rows, (m.dot v).getD i 0 - tol ≤ rhs.getD i 0) ↔
      (∀ i < rf.C, zrow rf (fun j => v.getD j 0) i - tol ≤ rf.b i) ∧ t - tol ≤ v.getD rf.initial 0 := by
    rw [e1, forall_lt_succ', e4, e5]
    refine and_congr (forall₂_congr fun i hi => by rw [(e3 i hi).1, (e3 i hi).2]) ?_
    constructor <;> intro h <;> linarith
  have hlen := hl.trans e2
  cases strict
  · simp only [Bool.false_eq_true, if_false, Except.ok.injEq, decide_eq_true_eq, hrows]
    tauto
  · have hlast : (m.dot v).getD (m.rows - 1) 0 - tol < rhs.getD (m.rows - 1) 0 ↔ t - tol < v.getD rf.initial 0 := by
      rw [e1, Nat.add_sub_cancel, e4, e5]
      constructor <;> intro h <;> linarith
    simp only [if_true, Except.ok.injEq, decide_eq_true_eq, hrows, hlast]
    tauto

theorem check_max_le {rf : RF K} {strict : Bool} {t tol : K} {v : List K} :
    check rf .max (if strict then .lt else .le) t v tol = .ok true ↔
      (0 ≤ t ∧ t ≤ 1) ∧ rf.initial < rf.N ∧ v.length = rf.N ∧
      (∀ i < rf.C, rf.b i ≤ zrow rf (fun j => v.getD j 0) i + tol) ∧
      v.getD rf.initial 0 ≤ t + tol ∧ (strict = true → v.getD rf.initial 0 < t + tol) := by
  unfold check
  by_cases ht : 0 ≤ t ∧ t ≤ 1
  swap
  · rw [if_neg ht]; exact iff_of_false (by simp) fun h => ht h.1
  rw [if_pos ht]
  have hset : constraintSet rf .max (if strict then .lt else .le) t = rf.farkZ t := by cases strict <;> rfl
  rw [hset]
  by_cases hi : rf.initial < rf.N
  swap
  · unfold RF.farkZ; rw [if_neg hi]
    exact iff_of_false (by simp [bind, Except.bind]) fun h => hi h.2.1
  obtain ⟨m, rhs, hz⟩ := farkZ_some t hi
  obtain ⟨-, e1, e2, e3, e4, e5⟩ := farkZ_dot hz v
  simp only [hz, bind, Except.bind]
  by_cases hl : v.length = m.cols
  swap
  · rw [if_neg hl]; exact iff_of_false (by simp) fun h => hl (by rw [e2]; exact h.2.2.1)
  rw [if_pos hl, ecCheck_max]
  have hrows : (∀ i < m.rows, rhs.getD i 0 ≤ (m.dot v).getD i 0 + tol) ↔
      (∀ i < rf.C, rf.b i ≤ zrow rf (fun j => v.getD j 0) i + tol) ∧ v.getD rf.initial 0 ≤ t + tol := by
    rw [e1, forall_lt_succ', e4, e5]
    refine and_congr (forall₂_congr fun i hi => by rw [(e3 i hi).1, (e3 i hi).2]) ?_
    constructor <;> intro h <;> linarith
  have hlen := hl.trans e2
  cases strict
  · simp only [Bool.false_eq_true, if_false, Except.ok.injEq, decide_eq_true_eq, hrows]
    tauto
  · have hlast : rhs.getD (m.rows - 1) 0 < (m.dot v).getD (m.rows - 1) 0 + tol ↔ v.getD rf.initial 0 < t + tol := by
      rw [e1, Nat.add_sub_cancel, e4, e5]
      constructor <;> intro h <;> linarith
    simp only [if_true, Except.ok.injEq, decide_eq_true_eq, hrows, hlast]
    tauto

theorem check_max_ge {rf : RF K} {strict : Bool} {t tol : K} {v : List K} :
    check rf .max (if strict then .gt else .ge) t v tol = .ok true ↔
      (0 ≤ t ∧ t ≤ 1) ∧ rf.initial < rf.N ∧ v.length = rf.C ∧
      (∀ j < rf.N, yrow rf (fun i => v.getD i 0) j - tol ≤ rf.delta j) ∧
      t - tol ≤ ygain rf (fun i => v.getD i 0) ∧ (strict = true → t - tol < ygain rf (fun i => v.getD i 0)) := by
  unfold check
  by_cases ht : 0 ≤ t ∧ t ≤ 1
  swap
  · rw [if_neg ht]; exact iff_of_false (by simp) fun h => ht h.1
  rw [if_pos ht]
  have hset : constraintSet rf .max (if strict then .gt else .ge) t = rf.farkY t := by cases strict <;> rfl
  rw [hset]
  by_cases hi : rf.initial < rf.N
  swap
  · unfold RF.farkY; rw [if_neg hi]
    exact iff_of_false (by simp [bind, Except.bind]) fun h => hi h.2.1
  obtain ⟨m, rhs, hz⟩ := farkY_some t hi
  obtain ⟨-, e1, e2, e3, e4, e5⟩ := farkY_dot hz v
  simp only [hz, bind, Except.bind]
  by_cases hl : v.length = m.cols
  swap
  · rw [if_neg hl]; exact iff_of_false (by simp) fun h => hl (by rw [e2]; exact h.2.2.1)
  rw [if_pos hl, ecCheck_max]
  have hrows : (∀ i < m.rows, (m.dot v).getD i 0 - tol ≤ rhs.getD i 0) ↔
      (∀ j < rf.N, yrow rf (fun i => v.getD i 0) j - tol ≤ rf.delta j) ∧ t - tol ≤ ygain rf (fun i => v.getD i 0) := by
    rw [e1, forall_lt_succ', e4, e5]
    refine and_congr (forall₂_congr fun i hi => by rw [(e3 i hi).1, (e3 i hi).2]) ?_
    constructor <;> intro h <;> linarith
  have hlen := hl.trans e2
  cases strict
  · simp only [Bool.false_eq_true, if_false, Except.ok.injEq, decide_eq_true_eq, hrows]
    tauto
  · have hlast : (m.dot v).getD (m.rows - 1) 0 - tol < rhs.getD (m.rows - 1) 0 ↔ t - tol < ygain rf (fun i => v.getD i 0) := by
      rw [e1, Nat.add_sub_cancel, e4, e5]
      constructor <;> intro h <;> linarith
    simp only [if_true, Except.ok.injEq, decide_eq_true_eq, hrows, hlast]
    tauto

theorem check_min_le {rf : RF K} (hrs : ∀ i < rf.C, (rf.rowState i).isSome) {strict : Bool} {t tol : K} {v : List K} :
    check rf .min (if strict then .lt else .le) t v tol = .ok true ↔
      (0 ≤ t ∧ t ≤ 1) ∧ rf.initial < rf.N ∧ v.length = rf.C ∧
      (∀ i < rf.C, ∀ s ∈ rf.rowState i, rf.inProperEC s = true → v.getD i 0 = 0) ∧
      (∀ j < rf.N, rf.delta j ≤ yrow rf (fun i => v.getD i 0) j + tol) ∧
      ygain rf (fun i => v.getD i 0) ≤ t + tol ∧ (strict = true → ygain rf (fun i => v.getD i 0) < t + tol) := by
  unfold check
  by_cases ht : 0 ≤ t ∧ t ≤ 1
  swap
  · rw [if_neg ht]; exact iff_of_false (by simp) fun h => ht h.1
  rw [if_pos ht]
  have hset : constraintSet rf .min (if strict then .lt else .le) t = rf.farkY t := by cases strict <;> rfl
  have hle : Sense.isLe (if strict = true then Sense.lt else .le) = true := by cases strict <;> rfl
  rw [hset]
  by_cases hi : rf.initial < rf.N
  swap
  · unfold RF.farkY; rw [if_neg hi]
    exact iff_of_false (by simp [bind, Except.bind]) fun h => hi h.2.1
  obtain ⟨m, rhs, hz⟩ := farkY_some t hi
  obtain ⟨-, e1, e2, e3, e4, e5⟩ := farkY_dot hz v
  simp only [hz, bind, Except.bind]
  by_cases hl : v.length = m.cols
  swap
  · rw [if_neg hl]; exact iff_of_false (by simp) fun h => hl (by rw [e2]; exact h.2.2.1)
  rw [if_pos hl, ecCheck_min_y hle _ _ (by rw [e2]; simpa using hrs), e2]
  simp only [List.mem_range]
  by_cases hec : ∀ i < rf.C, ∀ s ∈ rf.rowState i, rf.inProperEC s = true → v.getD i 0 = 0
  swap
  · rw [decide_eq_false hec]
    exact iff_of_false (by simp) fun h => hec h.2.2.2.1
  rw [decide_eq_true hec]
  have hrows : (∀ i < m.rows, rhs.getD i 0 ≤ (m.dot v).getD i 0 + tol) ↔
      (∀ j < rf.N, rf.delta j ≤ yrow rf (fun i => v.getD i 0) j + tol) ∧ ygain rf (fun i => v.getD i 0) ≤ t + tol := by
    rw [e1, forall_lt_succ', e4, e5]
    refine and_congr (forall₂_congr fun i hi => by rw [(e3 i hi).1, (e3 i hi).2]) ?_
    constructor <;> intro h <;> linarith
  have hlen := hl.trans e2
  cases strict
  · simp only [Bool.false_eq_true, if_false, Except.ok.injEq, decide_eq_true_eq, hrows]
    tauto
  · have hlast : rhs.getD (m.rows - 1) 0 < (m.dot v).getD (m.rows - 1) 0 + tol ↔ ygain rf (fun i => v.getD i 0) < t + tol := by
      rw [e1, Nat.add_sub_cancel, e4, e5]
      constructor <;> intro h <;> linarith
    simp only [if_true, Except.ok.injEq, decide_eq_true_eq, hrows, hlast]
    tauto

end Verif.Proofs
