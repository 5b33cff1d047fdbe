import Verif.Model.TreeDecomp
import Mathlib.Data.List.GetD
/-! # C55: combinations of points in the tree decomposition -/
namespace Verif.Props
open Verif.Model Verif.Model.TreeDecomp

/-- a combination: one of the points of every successor -/
def IsCombination (sizes it : List Nat) : Prop :=
  it.length = sizes.length ∧ ∀ i (h : i < it.length) (h' : i < sizes.length), it[i] < sizes[i]

/-- every combination is visited exactly once, and nothing else is read -/
def EnumeratesAll (sizes : List Nat) : Prop :=
  (visited sizes).Nodup ∧ ∀ it, it ∈ visited sizes ↔ IsCombination sizes it

theorem visit_eq (sizes : List Nat) (n : Nat) (it : List Nat) :
    visit sizes n it = (List.range n).map fun k => (increase sizes)^[k] it := by
  induction n generalizing it with
  | zero => rfl
  | succ n ih =>
    rw [visit, ih, List.range_succ_eq_map]
    simp [Function.comp_def]

/-- as long as the last counter is below its bound only it moves -/
theorem increase_iter (l : List Nat) (m : Nat) (k : Nat) (hk : k ≤ m) :
    (increase (l ++ [m]))^[k] (List.replicate (l ++ [m]).length 0) = List.replicate l.length 0 ++ [k] := by
  induction k with
  | zero => simp [List.replicate_succ']
  | succ k ih =>
    rw [Function.iterate_succ_apply', ih (by omega)]
    unfold increase
    rw [if_neg (by simp)]
    have hl : (l ++ [m]).length - 1 = l.length := by simp
    rw [hl]
    have g1 : (List.replicate l.length 0 ++ [k]).getD l.length 0 = k := by
      rw [List.getD_append_right _ _ _ _ (by simp)]; simp
    have g2 : (l ++ [m]).getD l.length 0 = m := by
      rw [List.getD_append_right _ _ _ _ (by simp)]; simp
    have s1 : ∀ x, (List.replicate l.length 0 ++ [k]).set l.length x = List.replicate l.length 0 ++ [x] := by
      intro x
      rw [List.set_append_right _ _ (by simp)]; simp
    cases hn : l.length with
    | zero =>
      rw [hn] at g1 g2 s1
      rw [incAt, g1, g2, if_neg (by omega), s1]
    | succ n =>
      rw [hn] at g1 g2 s1
      rw [incAt, g1, g2, if_neg (by omega), s1]

theorem isCombination_append {l it : List Nat} {m : Nat} :
    IsCombination (l ++ [m]) it ↔ ∃ it' k, it = it' ++ [k] ∧ IsCombination l it' ∧ k < m := by
  constructor
  · rintro ⟨h1, h2⟩
    obtain ⟨it', k, rfl⟩ : ∃ it' k, it = it' ++ [k] := by
      rcases List.eq_nil_or_concat it with rfl | ⟨a, b, rfl⟩
      · simp at h1
      · exact ⟨a, b, by simp⟩
    have hl : it'.length = l.length := by simpa using h1
    refine ⟨it', k, rfl, ⟨hl, fun i h h' => ?_⟩, ?_⟩
    · have := h2 i (by simp; omega) (by simp; omega)
      rwa [List.getElem_append_left h, List.getElem_append_left h'] at this
    · have := h2 l.length (by simp; omega) (by simp)
      rw [List.getElem_append_right (by omega), List.getElem_append_right (by omega)] at this
      simpa [hl] using this
  · rintro ⟨it', k, rfl, ⟨h1, h2⟩, h3⟩
    refine ⟨by simp [h1], fun i h h' => ?_⟩
    by_cases hi : i < l.length
    · rw [List.getElem_append_left (by omega), List.getElem_append_left hi]
      exact h2 i (by omega) hi
    · have hi' : i = l.length := by simp at h'; omega
      subst hi'
      rw [List.getElem_append_right (by omega), List.getElem_append_right (by omega)]
      simpa [h1] using h3

theorem isCombination_ones {l it : List Nat} (hl : ∀ x ∈ l, x = 1) :
    IsCombination l it ↔ it = List.replicate l.length 0 := by
  constructor
  · rintro ⟨h1, h2⟩
    rw [← h1, List.eq_replicate_iff]
    refine ⟨rfl, fun b hb => ?_⟩
    obtain ⟨i, hi, rfl⟩ := List.mem_iff_getElem.1 hb
    have := h2 i hi (by omega)
    rw [hl _ (List.getElem_mem _)] at this
    omega
  · rintro rfl
    refine ⟨by simp, fun i h h' => ?_⟩
    rw [hl _ (List.getElem_mem _)]; simp

theorem prod_zero {l : List Nat} (h : l.prod = 0) : 0 ∈ l := by
  induction l with
  | nil => simp at h
  | cons a l ih =>
    rw [List.prod_cons, Nat.mul_eq_zero] at h
    rcases h with h | h
    · simp [h]
    · simp [ih h]

theorem prod_one {l : List Nat} (h : l.prod = 1) : ∀ x ∈ l, x = 1 := by
  induction l with
  | nil => simp
  | cons a l ih =>
    rw [List.prod_cons] at h
    have h : a = 1 ∧ l.prod = 1 := ⟨Nat.eq_one_of_mul_eq_one_right h, Nat.eq_one_of_mul_eq_one_left h⟩
    intro x hx
    rcases List.mem_cons.1 hx with rfl | hx
    · exact h.1
    · exact ih h.2 x hx

/-- **C55 (exactly when it holds).** All combinations are enumerated, each once and without reading out of
range, iff there is no successor or the number of combinations is at most the number of points of the
last successor — that is, all other successors have one point, or one successor has none. -/
theorem C55_iff_partial (sizes : List Nat) :
    EnumeratesAll sizes ↔ ∀ h : sizes ≠ [], sizes.prod ≤ sizes.getLast h := by
  rcases List.eq_nil_or_concat sizes with rfl | ⟨l, m, rfl⟩
  · refine ⟨fun _ h => absurd rfl h, fun _ => ⟨by simp [visited, visit], fun it => ?_⟩⟩
    simp only [visited, List.prod_nil, visit, List.length_nil, List.replicate_zero, List.mem_singleton]
    constructor
    · rintro rfl; exact ⟨rfl, fun i h => absurd h (by simp)⟩
    · rintro ⟨h, -⟩; exact List.length_eq_zero_iff.1 h
  · simp only [List.concat_eq_append, List.prod_append, List.prod_singleton, List.getLast_append_singleton, ne_eq,
      List.append_eq_nil_iff, List.cons_ne_nil, and_false, not_false_eq_true, forall_true_left]
    have hvis : visited (l ++ [m]) = (List.range (l.prod * m)).map fun k =>
        (increase (l ++ [m]))^[k] (List.replicate (l ++ [m]).length 0) := by
      unfold visited; rw [visit_eq]; simp
    unfold EnumeratesAll
    rw [hvis]
    constructor
    · rintro ⟨-, h⟩
      by_contra hlt
      have hlt := Nat.lt_of_not_le hlt
      have : List.replicate l.length 0 ++ [m] ∈ (List.range (l.prod * m)).map fun k =>
          (increase (l ++ [m]))^[k] (List.replicate (l ++ [m]).length 0) :=
        List.mem_map.2 ⟨m, List.mem_range.2 hlt, increase_iter l m m (Nat.le_refl m)⟩
      rw [h, isCombination_append] at this
      obtain ⟨it', k, e, -, hk⟩ := this
      have := (List.append_inj' e (by simp)).2
      simp at this
      omega
    · intro hle
      have hmap : ((List.range (l.prod * m)).map fun k =>
          (increase (l ++ [m]))^[k] (List.replicate (l ++ [m]).length 0)) =
          (List.range (l.prod * m)).map fun k => List.replicate l.length 0 ++ [k] := by
        apply List.map_congr_left
        intro k hk
        have := List.mem_range.1 hk
        exact increase_iter l m k (by omega)
      rw [hmap]
      constructor
      · rw [List.nodup_map_iff_inj_on List.nodup_range]
        intro a _ b _ e
        have := (List.append_inj' e (by simp)).2
        simpa using this
      · intro it
        simp only [List.mem_map, List.mem_range]
        by_cases h0 : l.prod * m = 0
        · rw [h0]
          constructor
          · rintro ⟨k, hk, -⟩; omega
          · intro hit
            exfalso
            obtain ⟨it', k, rfl, ⟨h1, h2⟩, hk⟩ := isCombination_append.1 hit
            rcases Nat.mul_eq_zero.1 h0 with h | h
            · obtain ⟨i, hi, e⟩ := List.mem_iff_getElem.1 (prod_zero h)
              have := h2 i (by omega) hi
              omega
            · omega
        · have hm : 0 < m := Nat.pos_of_ne_zero fun h => h0 (by simp [h])
          have hp : l.prod = 1 := by
            have h1 : 0 < l.prod := Nat.pos_of_ne_zero fun h => h0 (by simp [h])
            have h2 : l.prod ≤ 1 := by
              by_contra hc
              have : 2 * m ≤ l.prod * m := Nat.mul_le_mul_right _ (by omega)
              omega
            omega
          have hones : ∀ x ∈ l, x = 1 := prod_one hp
          rw [hp, one_mul, isCombination_append]
          simp only [isCombination_ones hones]
          constructor
          · rintro ⟨k, hk, rfl⟩; exact ⟨_, k, rfl, rfl, hk⟩
          · rintro ⟨_, k, rfl, rfl, hk⟩; exact ⟨k, hk, rfl⟩

/-- **C55 (one successor).** With one successor the enumeration is right. -/
theorem C55_single_partial (n : Nat) : EnumeratesAll [n] := by
  rw [C55_iff_partial]; simp

/-- **C55 is false**: with two successors of two points each, the third combination read has index 2 of
2 points, and the combination (1, 1) is never visited. -/
theorem C55_false : visited [2, 2] = [[0, 0], [0, 1], [0, 2], [1, 0]] ∧ ¬ EnumeratesAll [2, 2] := by
  refine ⟨by decide, ?_⟩
  rw [C55_iff_partial]; decide

end Verif.Props
