import Verif.Proofs.Problem
import Mathlib.Algebra.Order.BigOperators.Group.Finset
/-! optima of the exact model count used groups -/
set_option linter.unusedSectionVars false
namespace Verif.Proofs
open Verif.Model Verif.Model.Milp Finset

variable {K : Type} [Field K] [LinearOrder K] [IsStrictOrderedRing K] {σ : Type}

/-- number of groups with a positive entry -/
def usedGroups (groups : List (List Nat)) (x : Nat → K) : Nat :=
  ((range groups.length).filter fun k => ∃ w ∈ groups.getD k [], 0 < x w).card

variable {f : Form σ K} {mode : Mode} {A : Mat K} {b : List K} {u : List K} {groups : List (List Nat)} {m : Milp K}
  {ind : List (Nat × List Nat)}

theorem mem_getD_lt {n : Nat} (hlt : ∀ g ∈ groups, ∀ w ∈ g, w < n) {k w : Nat} (hw : w ∈ groups.getD k []) : w < n := by
  rw [List.getD_eq_getElem?_getD] at hw
  cases hk : groups[k]? with
  | none => rw [hk] at hw; simp at hw
  | some g =>
    rw [hk] at hw
    exact hlt g (List.mem_of_getElem? hk) w hw

theorem InPoly.congr {ub : Option (List K)} (hA : A.cols = f.certSize mode) {x y : Nat → K} (h : InPoly f mode A b ub x)
    (e : ∀ j < f.certSize mode, y j = x j) : InPoly f mode A b ub y where
  nonneg j hj := by rw [e j hj]; exact h.nonneg j hj
  upper u hu j hj := by rw [e j hj]; exact h.upper u hu j hj
  ec hm j hj hc := by rw [e j hj]; exact h.ec hm j hj hc
  rows i hi := by
    refine le_trans (le_of_eq ?_) (h.rows i hi)
    exact sum_congr rfl fun j hj => by rw [e j (hA ▸ mem_range.1 hj)]

theorem usedGroups_congr {n : Nat} (hlt : ∀ g ∈ groups, ∀ w ∈ g, w < n) {x y : Nat → K} (e : ∀ j < n, y j = x j) :
    usedGroups groups y = usedGroups groups x := by
  unfold usedGroups
  congr 1
  refine filter_congr fun k _ => ?_
  constructor
  · rintro ⟨w, hw, hp⟩
    exact ⟨w, hw, by rw [← e w (mem_getD_lt hlt hw)]; exact hp⟩
  · rintro ⟨w, hw, hp⟩
    exact ⟨w, hw, by rw [e w (mem_getD_lt hlt hw)]; exact hp⟩

/-- a point of the polytope, completed by the smallest indicators -/
def complete (n : Nat) (groups : List (List Nat)) (y : Nat → K) (j : Nat) : K :=
  if j < n then y j else if ∃ w ∈ groups.getD (j - n) [], 0 < y w then 1 else 0

theorem complete_obj (n : Nat) (y : Nat → K) :
    ∑ k ∈ range groups.length, complete n groups y (n + k) = (usedGroups groups y : K) := by
  unfold usedGroups
  rw [card_filter, Nat.cast_sum]
  refine sum_congr rfl fun k _ => ?_
  simp only [complete, Nat.add_sub_cancel_left, if_neg (show ¬ n + k < n by omega)]
  split <;> simp

theorem complete_feasible (hA : A.cols = f.certSize mode) (B : Built f mode false A b (some u) groups m ind)
    (hlt : ∀ g ∈ groups, ∀ w ∈ g, w < f.certSize mode) {y : Nat → K}
    (hy : InPoly f mode A b (some u) y) : m.Feasible (complete (f.certSize mode) groups y) := by
  refine (B.feasible hlt _).2 ⟨hy.congr hA fun j hj => by simp [complete, hj], fun k hk => ?_, fun k g hg w hw => ?_⟩
  · simp only [complete, Nat.add_sub_cancel_left, if_neg (show ¬ f.certSize mode + k < f.certSize mode by omega)]
    split <;> simp
  · have hwn := hlt g (List.mem_of_getElem? hg) w hw
    have hgd : groups.getD k [] = g := by simp [List.getD, hg]
    simp only [complete, Nat.add_sub_cancel_left, if_neg (show ¬ f.certSize mode + k < f.certSize mode by omega), hwn, if_true, hgd, ubAt]
    split
    · rw [mul_one]; exact hy.upper u rfl w hwn
    · rename_i hn
      rw [mul_zero]
      by_contra h
      exact hn ⟨w, hw, not_le.1 h⟩

theorem used_le_obj (B : Built f mode false A b (some u) groups m ind)
    (hlt : ∀ g ∈ groups, ∀ w ∈ g, w < f.certSize mode) {x : Nat → K} (hx : m.Feasible x) :
    (usedGroups groups x : K) ≤ m.objVal x := by
  obtain ⟨h1, h2, h3⟩ := (B.feasible hlt x).1 hx
  rw [B.obj]
  unfold usedGroups
  rw [card_filter, Nat.cast_sum]
  refine sum_le_sum fun k hk => ?_
  have hk' := mem_range.1 hk
  split
  · rename_i hw
    obtain ⟨w, hw, hp⟩ := hw
    rcases (h2 k hk').2.1 rfl with h | h
    · have hg : groups[k]? = some groups[k] := List.getElem?_eq_getElem hk'
      have hgd : groups.getD k [] = groups[k] := by simp [List.getD, hg]
      rw [hgd] at hw
      have := h3 k _ hg w hw
      rw [h, mul_zero] at this
      exact absurd hp (not_lt.2 this)
    · simp [h]
  · simpa using (h2 k hk').1

theorem opt_groups (hA : A.cols = f.certSize mode) (B : Built f mode false A b (some u) groups m ind)
    (hlt : ∀ g ∈ groups, ∀ w ∈ g, w < f.certSize mode) {x : Nat → K} (hx : m.Optimal x) :
    InPoly f mode A b (some u) x ∧ m.objVal x = usedGroups groups x ∧
      ∀ y, InPoly f mode A b (some u) y → usedGroups groups x ≤ usedGroups groups y := by
  have hp := (B.poly x hx.1).1
  have key : ∀ y, InPoly f mode A b (some u) y → m.objVal x ≤ usedGroups groups y := by
    intro y hy
    have := hx.2 _ (complete_feasible hA B hlt hy)
    rw [B.maximize] at this
    simp only [Bool.false_eq_true, if_false] at this
    rwa [B.obj (complete _ _ _), complete_obj] at this
  have e := le_antisymm (key x hp) (used_le_obj B hlt hx.1)
  refine ⟨hp, e, fun y hy => ?_⟩
  have := key y hy
  rw [e] at this
  exact_mod_cast this

theorem exists_opt (hA : A.cols = f.certSize mode) (B : Built f mode false A b (some u) groups m ind)
    (hlt : ∀ g ∈ groups, ∀ w ∈ g, w < f.certSize mode) :
    (∃ x, m.Optimal x ∧ ∀ j, m.vars.length ≤ j → x j = 0) ↔ ∃ y, InPoly f mode A b (some u) y := by
  classical
  constructor
  · rintro ⟨x, hx, -⟩
    exact ⟨x, (B.poly x hx.1).1⟩
  · rintro ⟨y, hy⟩
    have hex : ∃ n, ∃ y, InPoly f mode A b (some u) y ∧ usedGroups groups y = n := ⟨_, y, hy, rfl⟩
    obtain ⟨z, hz, ez⟩ := Nat.find_spec hex
    refine ⟨complete (f.certSize mode) groups z, ⟨complete_feasible hA B hlt hz, fun x' hx' => ?_⟩, fun j hj => ?_⟩
    swap
    · rw [B.vars] at hj
      unfold complete
      rw [if_neg (by omega), if_neg]
      rintro ⟨w, hw, -⟩
      rw [List.getD_eq_getElem?_getD, List.getElem?_eq_none (by omega)] at hw
      simp at hw
    rw [B.maximize]
    simp only [Bool.false_eq_true, if_false]
    rw [B.obj (complete _ _ _), complete_obj]
    refine le_trans ?_ (used_le_obj B hlt hx')
    have := Nat.find_min' hex ⟨x', (B.poly x' hx').1, rfl⟩
    rw [ez]
    exact_mod_cast this

theorem feasible_iff (hA : A.cols = f.certSize mode) (B : Built f mode false A b (some u) groups m ind)
    (hlt : ∀ g ∈ groups, ∀ w ∈ g, w < f.certSize mode) :
    (∃ x, m.Feasible x) ↔ ∃ y, InPoly f mode A b (some u) y :=
  ⟨fun ⟨x, hx⟩ => ⟨x, (B.poly x hx).1⟩, fun ⟨_, hy⟩ => ⟨_, complete_feasible hA B hlt hy⟩⟩

end Verif.Proofs
