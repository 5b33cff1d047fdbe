import Verif.Theory.Farkas
import Mathlib.Data.Fintype.BigOperators
/-!
# Removing states that cannot contribute

`B` is a part of `A`: its states are embedded by `e`, rows correspond to each other with equal gains and
transition probabilities, and successors outside the part have value 0.
-/
set_option linter.unusedSectionVars false

namespace Verif.Theory.Core
open Verif.Spec Finset

variable {S R S' R' : Type} [Fintype S] [Fintype S']

/-- row `r'` of `s'` in `B` is row `r` of `e s'` in `A`, up to successors outside the part -/
structure SameRow (A : Core S R) (B : Core S' R') (e : S' → S) (s' : S') (r' : R') (r : R) : Prop where
  g : B.g s' r' = A.g (e s') r
  Q : ∀ t', B.Q s' r' t' = A.Q (e s') r (e t')
  out : ∀ t, t ∉ Set.range e → A.Q (e s') r t ≠ 0 → A.Vmax t = 0

structure Embeds (A : Core S R) (B : Core S' R') (e : S' → S) : Prop where
  inj : Function.Injective e
  left : ∀ s', ∀ r' ∈ B.rows s', ∃ r ∈ A.rows (e s'), SameRow A B e s' r' r
  right : ∀ s', ∀ r ∈ A.rows (e s'), ∃ r' ∈ B.rows s', SameRow A B e s' r' r

variable {A : Core S R} {B : Core S' R'} {e : S' → S}

theorem SameRow.step_eq {s' : S'} {r' : R'} {r : R} (he : Function.Injective e) (h : SameRow A B e s' r' r)
    {x : S → ℝ} (hx : ∀ t, t ∉ Set.range e → A.Vmax t = 0 → x t = 0) :
    B.step (fun t' => x (e t')) s' r' = A.step x (e s') r := by
  unfold step
  rw [h.g]
  congr 1
  refine Fintype.sum_of_injective e he _ _ ?_ ?_
  · intro t ht
    by_cases hq : A.Q (e s') r t = 0
    · rw [hq, zero_mul]
    · rw [hx t ht (h.out t ht hq), mul_zero]
  · intro t'
    rw [h.Q]

theorem Embeds.Vmax_eq (h : Embeds A B e) (hA : A.Sub) (hB : B.Sub) (s' : S') : B.Vmax s' = A.Vmax (e s') := by
  classical
  have h1 : ∀ s', B.Vmax s' ≤ A.Vmax (e s') := by
    refine Vmax_le_pre hB.toOK (x := fun t' => A.Vmax (e t')) (fun t' => Vmax_nonneg hA.toOK hA.bound _) ?_
    intro s' r' hr'
    obtain ⟨r, hr, hs⟩ := h.left s' r' hr'
    rw [hs.step_eq h.inj (x := A.Vmax) (fun t _ h => h)]
    exact step_Vmax_le hA.toOK hA.bound hr
  refine le_antisymm (h1 s') ?_
  let x : S → ℝ := fun t => if ht : t ∈ Set.range e then B.Vmax ht.choose else A.Vmax t
  have xe : ∀ t', x (e t') = B.Vmax t' := by
    intro t'
    have ht : e t' ∈ Set.range e := ⟨t', rfl⟩
    show (if ht : e t' ∈ Set.range e then B.Vmax ht.choose else A.Vmax (e t')) = _
    rw [dif_pos ht, h.inj ht.choose_spec]
  have xo : ∀ t, t ∉ Set.range e → x t = A.Vmax t := fun t ht => dif_neg ht
  have xle : ∀ t, x t ≤ A.Vmax t := by
    intro t
    by_cases ht : t ∈ Set.range e
    · obtain ⟨t', rfl⟩ := ht
      rw [xe]; exact h1 t'
    · rw [xo t ht]
  rw [← xe s']
  refine Vmax_le_pre hA.toOK (x := x) ?_ ?_ (e s')
  · intro t
    by_cases ht : t ∈ Set.range e
    · obtain ⟨t', rfl⟩ := ht
      rw [xe]; exact Vmax_nonneg hB.toOK hB.bound _
    · rw [xo t ht]; exact Vmax_nonneg hA.toOK hA.bound _
  · intro s r hr
    by_cases hs : s ∈ Set.range e
    · obtain ⟨s0, rfl⟩ := hs
      obtain ⟨r', hr', hsr⟩ := h.right s0 r hr
      rw [← hsr.step_eq h.inj (x := x) (fun t ht h0 => by rw [xo t ht, h0]), xe]
      simp only [xe]
      exact step_Vmax_le hB.toOK hB.bound hr'
    · rw [xo s hs]
      exact le_trans (step_mono hA.toOK xle hr) (step_Vmax_le hA.toOK hA.bound hr)

theorem Embeds.Vmin_eq (h : Embeds A B e) (hA : A.Sub) (hB : B.Sub) (s' : S') : B.Vmin s' = A.Vmin (e s') := by
  classical
  have hz : ∀ t, A.Vmax t = 0 → A.Vmin t = 0 := fun t ht =>
    le_antisymm (le_trans (Vmin_le_Vmax hA.toOK hA.bound t) ht.le) (Vmin_nonneg hA.toOK hA.bound t)
  have h1 : ∀ s', B.Vmin s' ≤ A.Vmin (e s') := by
    refine Vmin_le_pre hB.toOK (x := fun t' => A.Vmin (e t')) (fun t' => Vmin_nonneg hA.toOK hA.bound _) ?_
    intro s'
    obtain ⟨r, hr, hv⟩ := exists_step_Vmin hA.toOK hA.bound (e s')
    obtain ⟨r', hr', hs⟩ := h.right s' r hr
    exact ⟨r', hr', by rw [hs.step_eq h.inj (x := A.Vmin) (fun t _ h => hz t h), hv]⟩
  refine le_antisymm (h1 s') ?_
  let x : S → ℝ := fun t => if ht : t ∈ Set.range e then B.Vmin ht.choose else A.Vmin t
  have xe : ∀ t', x (e t') = B.Vmin t' := by
    intro t'
    have ht : e t' ∈ Set.range e := ⟨t', rfl⟩
    show (if ht : e t' ∈ Set.range e then B.Vmin ht.choose else A.Vmin (e t')) = _
    rw [dif_pos ht, h.inj ht.choose_spec]
  have xo : ∀ t, t ∉ Set.range e → x t = A.Vmin t := fun t ht => dif_neg ht
  have xle : ∀ t, x t ≤ A.Vmin t := by
    intro t
    by_cases ht : t ∈ Set.range e
    · obtain ⟨t', rfl⟩ := ht
      rw [xe]; exact h1 t'
    · rw [xo t ht]
  rw [← xe s']
  refine Vmin_le_pre hA.toOK (x := x) ?_ ?_ (e s')
  · intro t
    by_cases ht : t ∈ Set.range e
    · obtain ⟨t', rfl⟩ := ht
      rw [xe]; exact Vmin_nonneg hB.toOK hB.bound _
    · rw [xo t ht]; exact Vmin_nonneg hA.toOK hA.bound _
  · intro s
    by_cases hs : s ∈ Set.range e
    · obtain ⟨s0, rfl⟩ := hs
      obtain ⟨r', hr', hv⟩ := exists_step_Vmin hB.toOK hB.bound s0
      obtain ⟨r, hr, hsr⟩ := h.left s0 r' hr'
      refine ⟨r, hr, ?_⟩
      rw [← hsr.step_eq h.inj (x := x) (fun t ht h0 => by rw [xo t ht, hz t h0]), xe]
      simp only [xe]
      exact hv.le
    · obtain ⟨r, hr, hv⟩ := exists_step_Vmin hA.toOK hA.bound s
      refine ⟨r, hr, ?_⟩
      rw [xo s hs]
      exact le_trans (step_mono hA.toOK xle hr) hv.le

end Verif.Theory.Core
