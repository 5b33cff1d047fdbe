import Verif.Theory.Bridge
import Verif.Theory.Transient
import Mathlib.Data.Fintype.BigOperators
/-!
# Expected rewards of a part of a decision process

As `Verif.Theory.Embed`, but for gains without a common bound: the part `B` of `A` has bounded values, the
rest of `A` may collect unbounded rewards.
-/
set_option linter.unusedSectionVars false

namespace Verif.Theory.Core
open Verif.Spec Finset

variable {S R S' R' : Type} [Fintype S] [Fintype S']

/-- row `r'` of `s'` in `B` is row `r` of `e s'` in `A`, up to successors that never gain anything -/
structure SameRow0 (A : Core S R) (B : Core S' R') (e : S' → S) (s' : S') (r' : R') (r : R) : Prop where
  g : B.g s' r' = A.g (e s') r
  Q : ∀ t', B.Q s' r' t' = A.Q (e s') r (e t')
  out : ∀ t, t ∉ Set.range e → A.Q (e s') r t ≠ 0 → ∀ n, A.vmax n t = 0

structure Embeds0 (A : Core S R) (B : Core S' R') (e : S' → S) : Prop where
  inj : Function.Injective e
  left : ∀ s', ∀ r' ∈ B.rows s', ∃ r ∈ A.rows (e s'), SameRow0 A B e s' r' r
  right : ∀ s', ∀ r ∈ A.rows (e s'), ∃ r' ∈ B.rows s', SameRow0 A B e s' r' r

variable {A : Core S R} {B : Core S' R'} {e : S' → S}

theorem SameRow0.step_eq {s' : S'} {r' : R'} {r : R} (he : Function.Injective e) (h : SameRow0 A B e s' r' r)
    {x : S → ℝ} (hx : ∀ t, t ∉ Set.range e → (∀ n, A.vmax n t = 0) → x t = 0) :
    B.step (fun t' => x (e t')) s' r' = A.step x (e s') r := by
  unfold step
  rw [h.g]
  congr 1
  refine Fintype.sum_of_injective e he _ _ ?_ ?_
  · intro t ht
    by_cases hq : A.Q (e s') r t = 0
    · rw [hq, zero_mul]
    · rw [hx t ht (h.out t ht hq), mul_zero]
  · intro t'
    rw [h.Q]

theorem Embeds0.vmax_eq (h : Embeds0 A B e) (n : ℕ) (s' : S') : B.vmax n s' = A.vmax n (e s') := by
  induction n generalizing s' with
  | zero => rfl
  | succ n ih =>
    have hst : ∀ s' r' r, SameRow0 A B e s' r' r → B.step (B.vmax n) s' r' = A.step (A.vmax n) (e s') r := by
      intro s' r' r hs
      rw [show B.vmax n = fun t' => A.vmax n (e t') from funext ih]
      exact hs.step_eq h.inj fun t _ h0 => h0 n
    simp only [vmax]
    apply le_antisymm
    · refine Finset.sup'_le _ _ fun r' hr' => ?_
      obtain ⟨r, hr, hs⟩ := h.left s' r' hr'
      rw [hst _ _ _ hs]
      exact Finset.le_sup' (A.step (A.vmax n) (e s')) hr
    · refine Finset.sup'_le _ _ fun r hr => ?_
      obtain ⟨r', hr', hs⟩ := h.right s' r hr
      rw [← hst _ _ _ hs]
      exact Finset.le_sup' (B.step (B.vmax n) s') hr'

theorem Embeds0.vmin_eq (h : Embeds0 A B e) (ok : A.OK) (n : ℕ) (s' : S') : B.vmin n s' = A.vmin n (e s') := by
  induction n generalizing s' with
  | zero => rfl
  | succ n ih =>
    have hst : ∀ s' r' r, SameRow0 A B e s' r' r → B.step (B.vmin n) s' r' = A.step (A.vmin n) (e s') r := by
      intro s' r' r hs
      rw [show B.vmin n = fun t' => A.vmin n (e t') from funext ih]
      exact hs.step_eq h.inj fun t _ h0 =>
        le_antisymm (le_trans (vmin_le_vmax ok n t) (h0 n).le) (vmin_nonneg ok n t)
    simp only [vmin]
    apply le_antisymm
    · refine Finset.le_inf' _ _ fun r hr => ?_
      obtain ⟨r', hr', hs⟩ := h.right s' r hr
      rw [← hst _ _ _ hs]
      exact Finset.inf'_le (B.step (B.vmin n) s') hr'
    · refine Finset.le_inf' _ _ fun r' hr' => ?_
      obtain ⟨r, hr, hs⟩ := h.left s' r' hr'
      rw [hst _ _ _ hs]
      exact Finset.inf'_le (A.step (A.vmin n) (e s')) hr

open Classical in
/-- stop outside `U` -/
noncomputable def restrict (A : Core S R) (U : Set S) : Core S R where
  rows := A.rows
  ne := A.ne
  g s r := if s ∈ U then A.g s r else 0
  Q s r t := if s ∈ U then A.Q s r t else 0

/-- no way out of `U` -/
def ClosedIn (A : Core S R) (U : Set S) : Prop := ∀ s ∈ U, ∀ r ∈ A.rows s, ∀ t, A.Q s r t ≠ 0 → t ∈ U

variable {U : Set S}

theorem restrict_ok (ok : A.OK) : (A.restrict U).OK where
  g0 s r hr := by
    simp only [restrict]; split
    · exact ok.g0 s r hr
    · exact le_rfl
  Q0 s r hr t := by
    simp only [restrict]; split
    · exact ok.Q0 s r hr t
    · exact le_rfl

theorem restrict_step {s : S} (hs : s ∈ U) (x : S → ℝ) (r : R) : (A.restrict U).step x s r = A.step x s r := by
  simp [step, restrict, hs]

theorem restrict_val (hc : A.ClosedIn U) (σ : Sched S R) (n : ℕ) (h : List (S × R)) {s : S} (hs : s ∈ U) :
    (A.restrict U).val σ n h s = A.val σ n h s := by
  induction n generalizing h s with
  | zero => rfl
  | succ n ih =>
    simp only [val]
    refine Finset.sum_congr rfl fun r hr => ?_
    have hr : r ∈ A.rows s := hr
    simp only [restrict, hs, if_true]
    congr 2
    refine Finset.sum_congr rfl fun t _ => ?_
    by_cases hq : A.Q s r t = 0
    · rw [hq, zero_mul, zero_mul]
    · rw [← ih _ (hc s hs r hr t hq)]; rfl

theorem restrict_vmax (hc : A.ClosedIn U) (n : ℕ) {s : S} (hs : s ∈ U) : (A.restrict U).vmax n s = A.vmax n s := by
  induction n generalizing s with
  | zero => rfl
  | succ n ih =>
    simp only [vmax]
    refine Finset.sup'_congr _ rfl fun r hr => ?_
    have hr : r ∈ A.rows s := hr
    rw [restrict_step hs]
    unfold step
    congr 1
    refine Finset.sum_congr rfl fun t _ => ?_
    by_cases hq : A.Q s r t = 0
    · rw [hq, zero_mul, zero_mul]
    · rw [ih (hc s hs r hr t hq)]

theorem restrict_vmin (hc : A.ClosedIn U) (n : ℕ) {s : S} (hs : s ∈ U) : (A.restrict U).vmin n s = A.vmin n s := by
  induction n generalizing s with
  | zero => rfl
  | succ n ih =>
    simp only [vmin]
    refine Finset.inf'_congr _ rfl fun r hr => ?_
    have hr : r ∈ A.rows s := hr
    rw [restrict_step hs]
    unfold step
    congr 1
    refine Finset.sum_congr rfl fun t _ => ?_
    by_cases hq : A.Q s r t = 0
    · rw [hq, zero_mul, zero_mul]
    · rw [ih (hc s hs r hr t hq)]

section
variable [DecidableEq R] {b : S → ℝ}

theorem iSup_tot_restrict (ok : A.OK) (hc : A.ClosedIn U) (hb : (A.restrict U).Bound b) {s : S} (hs : s ∈ U) :
    ⨆ σ : {σ : Sched S R // A.IsSched σ}, A.tot σ s = A.Vmax s := by
  have e1 : (A.restrict U).Vmax s = A.Vmax s := by
    unfold Vmax
    simp only [restrict_vmax hc _ hs]
  rw [← e1, ← iSup_tot (restrict_ok ok) hb s]
  refine Equiv.iSup_congr (Equiv.subtypeEquivRight fun σ => ⟨fun h => ⟨h.nonneg, h.sum_one⟩, fun h => ⟨h.nonneg, h.sum_one⟩⟩) ?_
  rintro ⟨σ, hσ⟩
  show (A.restrict U).tot σ s = A.tot σ s
  unfold tot
  simp only [restrict_val hc _ _ _ hs]

theorem iInf_tot_restrict (ok : A.OK) (hc : A.ClosedIn U) (hb : (A.restrict U).Bound b) {s : S} (hs : s ∈ U) :
    ⨅ σ : {σ : Sched S R // A.IsSched σ}, A.tot σ s = A.Vmin s := by
  have e1 : (A.restrict U).Vmin s = A.Vmin s := by
    unfold Vmin
    simp only [restrict_vmin hc _ hs]
  rw [← e1, ← iInf_tot (restrict_ok ok) hb s]
  refine Equiv.iInf_congr (Equiv.subtypeEquivRight fun σ => ⟨fun h => ⟨h.nonneg, h.sum_one⟩, fun h => ⟨h.nonneg, h.sum_one⟩⟩) ?_
  rintro ⟨σ, hσ⟩
  show (A.restrict U).tot σ s = A.tot σ s
  unfold tot
  simp only [restrict_val hc _ _ _ hs]
end

/-- the part together with the states that never gain anything -/
def partSet (A : Core S R) (e : S' → S) : Set S := {t | t ∈ Set.range e ∨ ∀ n, A.vmax n t = 0}

theorem Embeds0.closed (h : Embeds0 A B e) (ok : A.OK) : A.ClosedIn (A.partSet e) := by
  classical
  rintro s (⟨s', rfl⟩ | hs) r hr t hq
  · obtain ⟨r', -, hsr⟩ := h.right s' r hr
    by_cases ht : t ∈ Set.range e
    · exact Or.inl ht
    · exact Or.inr (hsr.out t ht hq)
  · refine Or.inr fun n => le_antisymm ?_ (vmax_nonneg ok n t)
    have h1 : A.step (A.vmax n) s r ≤ 0 := by
      rw [← hs (n + 1)]
      exact Finset.le_sup' (A.step (A.vmax n) s) hr
    have h2 : A.Q s r t * A.vmax n t ≤ ∑ u, A.Q s r u * A.vmax n u :=
      Finset.single_le_sum (f := fun u => A.Q s r u * A.vmax n u)
        (fun u _ => mul_nonneg (ok.Q0 s r hr u) (vmax_nonneg ok n u)) (Finset.mem_univ t)
    have h3 := ok.g0 s r hr
    unfold step at h1
    have hpos : 0 < A.Q s r t := lt_of_le_of_ne (ok.Q0 s r hr t) (Ne.symm hq)
    by_contra hlt
    have := mul_pos hpos (not_le.1 hlt)
    linarith

open Classical in
theorem Embeds0.bound (h : Embeds0 A B e) (ok : A.OK) (okB : B.OK) {b : S' → ℝ} (hb : B.Bound b) :
    (A.restrict (A.partSet e)).Bound (fun t => if ht : t ∈ Set.range e then B.Vmax ht.choose else 0) := by
  have xe : ∀ t', (if ht : e t' ∈ Set.range e then B.Vmax ht.choose else 0) = B.Vmax t' := by
    intro t'
    have ht : e t' ∈ Set.range e := ⟨t', rfl⟩
    rw [dif_pos ht, h.inj ht.choose_spec]
  have hV := fun s => Vmax_nonneg okB hb s
  refine ⟨fun s => ?_, fun s r hr => ?_⟩
  · split
    · exact hV _
    · exact le_rfl
  · have hr : r ∈ A.rows s := hr
    by_cases hU : s ∈ A.partSet e
    · rw [restrict_step hU]
      by_cases hs : s ∈ Set.range e
      · obtain ⟨s', rfl⟩ := hs
        obtain ⟨r', hr', hsr⟩ := h.right s' r hr
        rw [xe, ← hsr.step_eq h.inj (fun t ht _ => dif_neg ht)]
        simp only [xe]
        exact step_Vmax_le okB hb hr'
      · rw [dif_neg hs]
        have hz : ∀ n, A.vmax n s = 0 := by
          rcases hU with h | h
          · exact absurd h hs
          · exact h
        have hle : ∀ n, A.step (A.vmax n) s r ≤ 0 := by
          intro n
          rw [← hz (n + 1)]
          exact Finset.le_sup' (A.step (A.vmax n) s) hr
        have g0 : A.g s r = 0 := by
          refine le_antisymm ?_ (ok.g0 s r hr)
          simpa [step, vmax] using hle 0
        unfold step
        rw [g0, zero_add]
        refine (Finset.sum_eq_zero fun t _ => ?_).le
        beta_reduce
        by_cases ht : t ∈ Set.range e
        · obtain ⟨t', rfl⟩ := ht
          rw [xe]
          by_cases hq : A.Q s r (e t') = 0
          · rw [hq, zero_mul]
          · have hpos : 0 < A.Q s r (e t') := lt_of_le_of_ne (ok.Q0 s r hr _) (Ne.symm hq)
            have h0 : ∀ n, B.vmax n t' = 0 := by
              intro n
              rw [h.vmax_eq]
              refine le_antisymm ?_ (vmax_nonneg ok n _)
              have h2 : A.Q s r (e t') * A.vmax n (e t') ≤ ∑ u, A.Q s r u * A.vmax n u :=
                Finset.single_le_sum (f := fun u => A.Q s r u * A.vmax n u)
                  (fun u _ => mul_nonneg (ok.Q0 s r hr u) (vmax_nonneg ok n u)) (Finset.mem_univ _)
              have h1 := hle n
              unfold step at h1
              by_contra hlt
              have := mul_pos hpos (not_le.1 hlt)
              linarith
            have : B.Vmax t' = 0 := by unfold Vmax; simp only [h0]; exact ciSup_const
            rw [this, mul_zero]
        · rw [dif_neg ht, mul_zero]
    · have : (A.restrict (A.partSet e)).step (fun t => if ht : t ∈ Set.range e then B.Vmax ht.choose else 0) s r = 0 := by
        simp [step, restrict, hU]
      rw [this]
      split
      · exact hV _
      · exact le_rfl

section
variable [DecidableEq R] {b : S' → ℝ}

/-- the largest expected gain over all schedulers of `A` from a state of the part -/
theorem Embeds0.iSup_tot (h : Embeds0 A B e) (ok : A.OK) (okB : B.OK) (hb : B.Bound b) (s' : S') :
    ⨆ σ : {σ : Sched S R // A.IsSched σ}, A.tot σ (e s') = B.Vmax s' := by
  rw [iSup_tot_restrict ok (h.closed ok) (h.bound ok okB hb) (Or.inl ⟨s', rfl⟩)]
  unfold Vmax
  simp only [h.vmax_eq]

/-- the smallest expected gain over all schedulers of `A` from a state of the part -/
theorem Embeds0.iInf_tot (h : Embeds0 A B e) (ok : A.OK) (okB : B.OK) (hb : B.Bound b) (s' : S') :
    ⨅ σ : {σ : Sched S R // A.IsSched σ}, A.tot σ (e s') = B.Vmin s' := by
  rw [iInf_tot_restrict ok (h.closed ok) (h.bound ok okB hb) (Or.inl ⟨s', rfl⟩)]
  unfold Vmin
  simp only [h.vmin_eq ok]

/-- the expected gains from a state of the part are bounded -/
theorem Embeds0.val_le (h : Embeds0 A B e) (ok : A.OK) (okB : B.OK) (hb : B.Bound b) {σ : Sched S R} (hσ : A.IsSched σ)
    (n : ℕ) (s' : S') : A.val σ n [] (e s') ≤ B.Vmax s' := by
  refine le_trans (val_le_vmax ok hσ n [] (e s')) ?_
  rw [← h.vmax_eq]
  exact vmax_le_Vmax okB hb n s'
end

/-- gains of a transient core are bounded -/
theorem exists_bound [DecidableEq S] {A : Core S R} (h : A.QSub) (ht : A.Transient) (c : ℝ) (hg : ∀ s, ∀ r ∈ A.rows s, A.g s r ≤ c) :
    ∃ b, A.Bound b := by
  obtain ⟨w, hw0, hw⟩ := exists_w h ht
  have hc : 0 ≤ max c 0 := le_max_right _ _
  refine ⟨fun s => max c 0 * w s, fun s => mul_nonneg hc (hw0 s), fun s r hr => ?_⟩
  have h1 := mul_le_mul_of_nonneg_left (hw s r hr) hc
  have h2 : ∑ t, A.Q s r t * (max c 0 * w t) = max c 0 * ∑ t, A.Q s r t * w t := by
    rw [Finset.mul_sum]
    exact Finset.sum_congr rfl fun t _ => by ring
  have h3 := le_trans (hg s r hr) (le_max_left c 0)
  unfold step
  rw [h2]
  linarith

end Verif.Theory.Core
