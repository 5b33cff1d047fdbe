import Verif.Spec.MDP
import Mathlib.Algebra.Order.BigOperators.Group.Finset
import Mathlib.Algebra.Order.BigOperators.Ring.Finset
import Mathlib.Data.Finset.Max
import Mathlib.Topology.Algebra.Ring.Real
import Mathlib.Topology.Algebra.Monoid
import Mathlib.Topology.Algebra.Order.LiminfLimsup
import Mathlib.Topology.Order.MonotoneConvergence
import Mathlib.Tactic.Linarith
import Mathlib.Tactic.Ring
import Mathlib.Tactic.Positivity
import Mathlib.Tactic.GCongr
import Mathlib.Tactic.FieldSimp
/-!
# Value iteration for finite decision processes with gains and sub-stochastic transitions

The common core of all semantic arguments: `g s r` is the gain of taking row `r` in `s`, `Q s r t`
the (sub-stochastic) probability of moving to `t`.
-/

set_option linter.unusedSectionVars false

namespace Verif.Theory
open Verif.Spec Finset Filter Topology

structure Core (S R : Type) where
  rows : S → Finset R
  ne : ∀ s, (rows s).Nonempty
  g : S → R → ℝ
  Q : S → R → S → ℝ

variable {S R : Type} [Fintype S]

namespace Core

/-- one-step lookahead -/
def step (M : Core S R) (x : S → ℝ) (s : S) (r : R) : ℝ := M.g s r + ∑ t, M.Q s r t * x t

structure OK (M : Core S R) : Prop where
  g0 : ∀ s, ∀ r ∈ M.rows s, 0 ≤ M.g s r
  Q0 : ∀ s, ∀ r ∈ M.rows s, ∀ t, 0 ≤ M.Q s r t

/-- a finite bound for the accumulated gain -/
structure Bound (M : Core S R) (B : S → ℝ) : Prop where
  nonneg : ∀ s, 0 ≤ B s
  pre : ∀ s, ∀ r ∈ M.rows s, M.step B s r ≤ B s

/-- value of a scheduler over `n` steps -/
noncomputable def val (M : Core S R) (σ : Sched S R) : ℕ → List (S × R) → S → ℝ
  | 0, _, _ => 0
  | n + 1, h, s =>
    ∑ r ∈ M.rows s, σ h s r * (M.g s r + ∑ t, M.Q s r t * val M σ n ((s, r) :: h) t)

noncomputable def vmax (M : Core S R) : ℕ → S → ℝ
  | 0, _ => 0
  | n + 1, s => (M.rows s).sup' (M.ne s) (M.step (vmax M n) s)

noncomputable def vmin (M : Core S R) : ℕ → S → ℝ
  | 0, _ => 0
  | n + 1, s => (M.rows s).inf' (M.ne s) (M.step (vmin M n) s)

noncomputable def Vmax (M : Core S R) (s : S) : ℝ := ⨆ n, M.vmax n s
noncomputable def Vmin (M : Core S R) (s : S) : ℝ := ⨆ n, M.vmin n s

structure IsSched (M : Core S R) (σ : Sched S R) : Prop where
  nonneg : ∀ h s, ∀ r ∈ M.rows s, 0 ≤ σ h s r
  sum_one : ∀ h s, ∑ r ∈ M.rows s, σ h s r = 1

variable {M : Core S R}

theorem step_mono (ok : M.OK) {x y : S → ℝ} (h : ∀ t, x t ≤ y t) {s : S} {r : R}
    (hr : r ∈ M.rows s) : M.step x s r ≤ M.step y s r := by
  unfold step
  gcongr with t _
  · exact ok.Q0 s r hr t
  · exact h t

theorem step_nonneg (ok : M.OK) {x : S → ℝ} (h : ∀ t, 0 ≤ x t) {s : S} {r : R}
    (hr : r ∈ M.rows s) : 0 ≤ M.step x s r := by
  unfold step
  have := ok.g0 s r hr
  have h2 : 0 ≤ ∑ t, M.Q s r t * x t :=
    Finset.sum_nonneg fun t _ => mul_nonneg (ok.Q0 s r hr t) (h t)
  linarith

theorem vmax_nonneg (ok : M.OK) (n : ℕ) (s : S) : 0 ≤ M.vmax n s := by
  induction n generalizing s with
  | zero => simp [vmax]
  | succ n ih =>
    obtain ⟨r, hr⟩ := M.ne s
    exact le_trans (step_nonneg ok ih hr) (Finset.le_sup' (M.step (vmax M n) s) hr)

theorem vmin_nonneg (ok : M.OK) (n : ℕ) (s : S) : 0 ≤ M.vmin n s := by
  induction n generalizing s with
  | zero => simp [vmin]
  | succ n ih =>
    exact Finset.le_inf' _ _ fun r hr => step_nonneg ok ih hr

theorem vmax_le_succ (ok : M.OK) (n : ℕ) (s : S) : M.vmax n s ≤ M.vmax (n + 1) s := by
  induction n generalizing s with
  | zero => simpa [vmax] using vmax_nonneg ok 1 s
  | succ n ih =>
    refine Finset.sup'_le _ _ fun r hr => ?_
    exact le_trans (step_mono ok ih hr) (Finset.le_sup' (M.step (vmax M (n + 1)) s) hr)

theorem vmin_le_succ (ok : M.OK) (n : ℕ) (s : S) : M.vmin n s ≤ M.vmin (n + 1) s := by
  induction n generalizing s with
  | zero => simpa [vmin] using vmin_nonneg ok 1 s
  | succ n ih =>
    refine Finset.le_inf' _ _ fun r hr => ?_
    exact le_trans (Finset.inf'_le (M.step (vmin M n) s) hr) (step_mono ok ih hr)

theorem vmax_mono (ok : M.OK) (s : S) : Monotone fun n => M.vmax n s :=
  monotone_nat_of_le_succ fun n => vmax_le_succ ok n s

theorem vmin_mono (ok : M.OK) (s : S) : Monotone fun n => M.vmin n s :=
  monotone_nat_of_le_succ fun n => vmin_le_succ ok n s

theorem vmax_le_pre (ok : M.OK) {x : S → ℝ} (h0 : ∀ s, 0 ≤ x s)
    (h : ∀ s, ∀ r ∈ M.rows s, M.step x s r ≤ x s) (n : ℕ) (s : S) : M.vmax n s ≤ x s := by
  induction n generalizing s with
  | zero => simpa [vmax] using h0 s
  | succ n ih =>
    exact Finset.sup'_le _ _ fun r hr => le_trans (step_mono ok ih hr) (h s r hr)

/-- pre-fixpoint along one row per state bounds `vmin` -/
theorem vmin_le_pre (ok : M.OK) {x : S → ℝ} (h0 : ∀ s, 0 ≤ x s)
    (h : ∀ s, ∃ r ∈ M.rows s, M.step x s r ≤ x s) (n : ℕ) (s : S) : M.vmin n s ≤ x s := by
  induction n generalizing s with
  | zero => simpa [vmin] using h0 s
  | succ n ih =>
    obtain ⟨r, hr, hx⟩ := h s
    exact le_trans (Finset.inf'_le (M.step (vmin M n) s) hr) (le_trans (step_mono ok ih hr) hx)

theorem vmin_le_vmax (ok : M.OK) (n : ℕ) (s : S) : M.vmin n s ≤ M.vmax n s := by
  induction n generalizing s with
  | zero => simp [vmin, vmax]
  | succ n ih =>
    obtain ⟨r, hr⟩ := M.ne s
    exact le_trans (Finset.inf'_le (M.step (vmin M n) s) hr)
      (le_trans (step_mono ok ih hr) (Finset.le_sup' (M.step (vmax M n) s) hr))

variable {B : S → ℝ}

theorem bdd_vmax (ok : M.OK) (b : M.Bound B) (s : S) : BddAbove (Set.range fun n => M.vmax n s) :=
  ⟨B s, by rintro _ ⟨n, rfl⟩; exact vmax_le_pre ok b.nonneg b.pre n s⟩

theorem bdd_vmin (ok : M.OK) (b : M.Bound B) (s : S) : BddAbove (Set.range fun n => M.vmin n s) :=
  ⟨B s, by
    rintro _ ⟨n, rfl⟩
    exact le_trans (vmin_le_vmax ok n s) (vmax_le_pre ok b.nonneg b.pre n s)⟩

theorem vmax_le_Vmax (ok : M.OK) (b : M.Bound B) (n : ℕ) (s : S) : M.vmax n s ≤ M.Vmax s :=
  le_ciSup (bdd_vmax ok b s) n

theorem vmin_le_Vmin (ok : M.OK) (b : M.Bound B) (n : ℕ) (s : S) : M.vmin n s ≤ M.Vmin s :=
  le_ciSup (bdd_vmin ok b s) n

theorem Vmax_nonneg (ok : M.OK) (b : M.Bound B) (s : S) : 0 ≤ M.Vmax s :=
  le_trans (vmax_nonneg ok 0 s) (vmax_le_Vmax ok b 0 s)

theorem Vmin_nonneg (ok : M.OK) (b : M.Bound B) (s : S) : 0 ≤ M.Vmin s :=
  le_trans (vmin_nonneg ok 0 s) (vmin_le_Vmin ok b 0 s)

theorem Vmin_le_Vmax (ok : M.OK) (b : M.Bound B) (s : S) : M.Vmin s ≤ M.Vmax s :=
  ciSup_le fun n => le_trans (vmin_le_vmax ok n s) (vmax_le_Vmax ok b n s)

theorem tendsto_vmax (ok : M.OK) (b : M.Bound B) (s : S) :
    Tendsto (fun n => M.vmax n s) atTop (𝓝 (M.Vmax s)) :=
  tendsto_atTop_ciSup (vmax_mono ok s) (bdd_vmax ok b s)

theorem tendsto_vmin (ok : M.OK) (b : M.Bound B) (s : S) :
    Tendsto (fun n => M.vmin n s) atTop (𝓝 (M.Vmin s)) :=
  tendsto_atTop_ciSup (vmin_mono ok s) (bdd_vmin ok b s)

theorem tendsto_step {v : ℕ → S → ℝ} {x : S → ℝ} (h : ∀ t, Tendsto (fun n => v n t) atTop (𝓝 (x t)))
    (s : S) (r : R) : Tendsto (fun n => M.step (v n) s r) atTop (𝓝 (M.step x s r)) := by
  unfold step
  refine Tendsto.add tendsto_const_nhds (tendsto_finsetSum _ fun t _ => ?_)
  exact Tendsto.const_mul _ (h t)

/-- `Vmax` dominates every lookahead -/
theorem step_Vmax_le (ok : M.OK) (b : M.Bound B) {s : S} {r : R} (hr : r ∈ M.rows s) :
    M.step M.Vmax s r ≤ M.Vmax s := by
  refine le_of_tendsto' (tendsto_step (tendsto_vmax ok b) s r) fun n => ?_
  exact le_trans (Finset.le_sup' (M.step (vmax M n) s) hr) (vmax_le_Vmax ok b (n + 1) s)

/-- `Vmax` is attained by some lookahead -/
theorem exists_step_Vmax (ok : M.OK) (b : M.Bound B) (s : S) :
    ∃ r ∈ M.rows s, M.step M.Vmax s r = M.Vmax s := by
  obtain ⟨r, hr, h⟩ := Finset.exists_mem_eq_sup' (M.ne s) (M.step M.Vmax s)
  refine ⟨r, hr, le_antisymm (step_Vmax_le ok b hr) ?_⟩
  refine ciSup_le fun n => ?_
  refine le_trans (vmax_le_succ ok n s) ?_
  refine Finset.sup'_le _ _ fun r' hr' => ?_
  refine le_trans (step_mono ok (vmax_le_Vmax ok b n) hr') ?_
  rw [← h]; exact Finset.le_sup' (M.step M.Vmax s) hr'

theorem Vmin_le_step (ok : M.OK) (b : M.Bound B) {s : S} {r : R} (hr : r ∈ M.rows s) :
    M.Vmin s ≤ M.step M.Vmin s r := by
  refine ciSup_le fun n => ?_
  refine le_trans (vmin_le_succ ok n s) ?_
  exact le_trans (Finset.inf'_le (M.step (vmin M n) s) hr) (step_mono ok (vmin_le_Vmin ok b n) hr)

theorem exists_step_Vmin (ok : M.OK) (b : M.Bound B) (s : S) :
    ∃ r ∈ M.rows s, M.step M.Vmin s r = M.Vmin s := by
  by_contra hcon
  push Not at hcon
  have hlt : ∀ r ∈ M.rows s, M.Vmin s < M.step M.Vmin s r := fun r hr =>
    lt_of_le_of_ne (Vmin_le_step ok b hr) (Ne.symm (hcon r hr))
  have hev : ∀ r ∈ M.rows s, ∀ᶠ n in atTop, M.Vmin s < M.step (M.vmin n) s r := fun r hr =>
    (tendsto_step (tendsto_vmin ok b) s r).eventually_const_lt (hlt r hr)
  have hall : ∀ᶠ n in atTop, ∀ r ∈ M.rows s, M.Vmin s < M.step (M.vmin n) s r :=
    (Filter.eventually_all_finset (M.rows s)).2 hev
  obtain ⟨n, hn⟩ := hall.exists
  have : M.Vmin s < M.vmin (n + 1) s := by
    show M.Vmin s < (M.rows s).inf' (M.ne s) (M.step (M.vmin n) s)
    rw [Finset.lt_inf'_iff]
    exact hn
  exact absurd (vmin_le_Vmin ok b (n + 1) s) (not_le.2 this)

theorem Vmax_le_pre (ok : M.OK) {x : S → ℝ} (h0 : ∀ s, 0 ≤ x s)
    (h : ∀ s, ∀ r ∈ M.rows s, M.step x s r ≤ x s) (s : S) : M.Vmax s ≤ x s :=
  ciSup_le fun n => vmax_le_pre ok h0 h n s

theorem Vmin_le_pre (ok : M.OK) {x : S → ℝ} (h0 : ∀ s, 0 ≤ x s)
    (h : ∀ s, ∃ r ∈ M.rows s, M.step x s r ≤ x s) (s : S) : M.Vmin s ≤ x s :=
  ciSup_le fun n => vmin_le_pre ok h0 h n s

/-! ### schedulers -/

variable {σ : Sched S R}

theorem val_step_eq (n : ℕ) (h : List (S × R)) (s : S) :
    M.val σ (n + 1) h s = ∑ r ∈ M.rows s, σ h s r * M.step (fun t => M.val σ n ((s, r) :: h) t) s r :=
  rfl

theorem avg_le (hσ : M.IsSched σ) (h : List (S × R)) (s : S) {f : R → ℝ} {c : ℝ}
    (hf : ∀ r ∈ M.rows s, f r ≤ c) : ∑ r ∈ M.rows s, σ h s r * f r ≤ c := by
  calc ∑ r ∈ M.rows s, σ h s r * f r ≤ ∑ r ∈ M.rows s, σ h s r * c :=
        Finset.sum_le_sum fun r hr => mul_le_mul_of_nonneg_left (hf r hr) (hσ.nonneg h s r hr)
    _ = c := by rw [← Finset.sum_mul, hσ.sum_one, one_mul]

theorem le_avg (hσ : M.IsSched σ) (h : List (S × R)) (s : S) {f : R → ℝ} {c : ℝ}
    (hf : ∀ r ∈ M.rows s, c ≤ f r) : c ≤ ∑ r ∈ M.rows s, σ h s r * f r := by
  calc c = ∑ r ∈ M.rows s, σ h s r * c := by rw [← Finset.sum_mul, hσ.sum_one, one_mul]
    _ ≤ _ := Finset.sum_le_sum fun r hr => mul_le_mul_of_nonneg_left (hf r hr) (hσ.nonneg h s r hr)

theorem val_le_vmax (ok : M.OK) (hσ : M.IsSched σ) (n : ℕ) (h : List (S × R)) (s : S) :
    M.val σ n h s ≤ M.vmax n s := by
  induction n generalizing h s with
  | zero => simp [val, vmax]
  | succ n ih =>
    rw [val_step_eq]
    refine avg_le hσ h s fun r hr => ?_
    exact le_trans (step_mono ok (ih ((s, r) :: h)) hr) (Finset.le_sup' (M.step (vmax M n) s) hr)

theorem vmin_le_val (ok : M.OK) (hσ : M.IsSched σ) (n : ℕ) (h : List (S × R)) (s : S) :
    M.vmin n s ≤ M.val σ n h s := by
  induction n generalizing h s with
  | zero => simp [val, vmin]
  | succ n ih =>
    rw [val_step_eq]
    refine le_avg hσ h s fun r hr => ?_
    exact le_trans (Finset.inf'_le (M.step (vmin M n) s) hr) (step_mono ok (ih ((s, r) :: h)) hr)

theorem val_nonneg (ok : M.OK) (hσ : M.IsSched σ) (n : ℕ) (h : List (S × R)) (s : S) :
    0 ≤ M.val σ n h s := le_trans (vmin_nonneg ok n s) (vmin_le_val ok hσ n h s)

theorem val_le_succ (ok : M.OK) (hσ : M.IsSched σ) (n : ℕ) (h : List (S × R)) (s : S) :
    M.val σ n h s ≤ M.val σ (n + 1) h s := by
  induction n generalizing h s with
  | zero => exact le_trans (by simp [val]) (val_nonneg ok hσ 1 h s)
  | succ n ih =>
    rw [val_step_eq, val_step_eq]
    refine Finset.sum_le_sum fun r hr => ?_
    exact mul_le_mul_of_nonneg_left (step_mono ok (ih ((s, r) :: h)) hr) (hσ.nonneg h s r hr)

theorem val_mono (ok : M.OK) (hσ : M.IsSched σ) (h : List (S × R)) (s : S) :
    Monotone fun n => M.val σ n h s :=
  monotone_nat_of_le_succ fun n => val_le_succ ok hσ n h s

theorem bdd_val (ok : M.OK) (b : M.Bound B) (hσ : M.IsSched σ) (h : List (S × R)) (s : S) :
    BddAbove (Set.range fun n => M.val σ n h s) :=
  ⟨B s, by
    rintro _ ⟨n, rfl⟩
    exact le_trans (val_le_vmax ok hσ n h s) (vmax_le_pre ok b.nonneg b.pre n s)⟩

/-- total value of a scheduler -/
noncomputable def tot (M : Core S R) (σ : Sched S R) (s : S) : ℝ := ⨆ n, M.val σ n [] s

theorem tot_le_Vmax (ok : M.OK) (b : M.Bound B) (hσ : M.IsSched σ) (s : S) :
    M.tot σ s ≤ M.Vmax s :=
  ciSup_le fun n => le_trans (val_le_vmax ok hσ n [] s) (vmax_le_Vmax ok b n s)

theorem Vmin_le_tot (ok : M.OK) (b : M.Bound B) (hσ : M.IsSched σ) (s : S) :
    M.Vmin s ≤ M.tot σ s :=
  ciSup_le fun n => le_trans (vmin_le_val ok hσ n [] s) (le_ciSup (bdd_val ok b hσ [] s) n)

/-- the weights of a deterministic choice -/
theorem det_isSched [DecidableEq R] {f : List (S × R) → S → R} (hf : ∀ h s, f h s ∈ M.rows s) :
    M.IsSched (fun h s r => if r = f h s then 1 else 0) where
  nonneg h s r _ := by split <;> norm_num
  sum_one h s := by
    rw [Finset.sum_ite_eq' (M.rows s) (f h s)]
    simp [hf h s]

theorem det_sum [DecidableEq R] {s : S} {r0 : R} (hr0 : r0 ∈ M.rows s) (F : R → ℝ) :
    ∑ r ∈ M.rows s, (if r = r0 then (1 : ℝ) else 0) * F r = F r0 := by
  rw [Finset.sum_eq_single r0]
  · simp
  · intro r _ hne; simp [hne]
  · intro h; exact absurd hr0 h

theorem val_det_succ [DecidableEq R] {f : List (S × R) → S → R} (hf : ∀ h s, f h s ∈ M.rows s)
    (n : ℕ) (h : List (S × R)) (s : S) :
    M.val (fun h s r => if r = f h s then 1 else 0) (n + 1) h s =
      M.step (fun t => M.val (fun h s r => if r = f h s then 1 else 0) n ((s, f h s) :: h) t) s
        (f h s) := by
  rw [val_step_eq, det_sum (hf h s)]

/-- a memoryless choice whose lookahead is below `x` has value below `x` -/
theorem val_det_le [DecidableEq R] (ok : M.OK) {x : S → ℝ} (h0 : ∀ s, 0 ≤ x s) {f : S → R}
    (hf : ∀ s, f s ∈ M.rows s) (hx : ∀ s, M.step x s (f s) ≤ x s) (n : ℕ) (h : List (S × R))
    (s : S) : M.val (detSched f) n h s ≤ x s := by
  induction n generalizing h s with
  | zero => simpa [val] using h0 s
  | succ n ih =>
    have := val_det_succ (M := M) (f := fun _ => f) (fun _ => hf) n h s
    unfold detSched at ih ⊢
    rw [this]
    exact le_trans (step_mono ok (ih _) (hf s)) (hx s)

theorem detSched_isSched [DecidableEq R] {f : S → R} (hf : ∀ s, f s ∈ M.rows s) :
    M.IsSched (detSched f) := det_isSched (f := fun _ => f) fun _ => hf

/-- the minimum is attained by a memoryless deterministic scheduler -/
theorem exists_det_tot_eq_Vmin [DecidableEq R] (ok : M.OK) (b : M.Bound B) :
    ∃ f : S → R, (∀ s, f s ∈ M.rows s) ∧ ∀ s, M.tot (detSched f) s = M.Vmin s := by
  choose f hf hfx using exists_step_Vmin ok b
  refine ⟨f, hf, fun s => le_antisymm ?_ (Vmin_le_tot ok b (detSched_isSched hf) s)⟩
  exact ciSup_le fun n => val_det_le ok (Vmin_nonneg ok b) hf (fun s => (hfx s).le) n [] s

theorem iInf_tot [DecidableEq R] (ok : M.OK) (b : M.Bound B) (s : S) :
    (⨅ σ : {σ : Sched S R // M.IsSched σ}, M.tot σ.1 s) = M.Vmin s := by
  obtain ⟨f, hf, h⟩ := exists_det_tot_eq_Vmin ok b
  have : Nonempty {σ : Sched S R // M.IsSched σ} := ⟨⟨_, detSched_isSched hf⟩⟩
  apply le_antisymm
  · rw [← h s]
    exact ciInf_le ⟨M.Vmin s, by rintro _ ⟨σ, rfl⟩; exact Vmin_le_tot ok b σ.2 s⟩
      (⟨_, detSched_isSched hf⟩ : {σ : Sched S R // M.IsSched σ})
  · exact le_ciInf fun σ => Vmin_le_tot ok b σ.2 s

/-- finite-horizon optimal scheduler -/
theorem exists_val_eq_vmax [DecidableEq R] (M : Core S R) (N : ℕ) :
    ∃ f : List (S × R) → S → R, (∀ h s, f h s ∈ M.rows s) ∧
      ∀ n h s, n + h.length = N →
        M.val (fun h s r => if r = f h s then 1 else 0) n h s = M.vmax n s := by
  have hch : ∀ (k : ℕ) (s : S), ∃ r ∈ M.rows s, M.vmax (k + 1) s = M.step (M.vmax k) s r := by
    intro k s
    obtain ⟨r, hr, h⟩ := Finset.exists_mem_eq_sup' (M.ne s) (M.step (M.vmax k) s)
    exact ⟨r, hr, h⟩
  choose c hc hcx using hch
  refine ⟨fun h s => c (N - h.length - 1) s, fun h s => hc _ s, ?_⟩
  intro n
  induction n with
  | zero => intro h s _; simp [val, vmax]
  | succ n ih =>
    intro h s hn
    rw [val_det_succ (fun h s => hc _ s)]
    have e : N - h.length - 1 = n := by omega
    rw [e, hcx n s]
    congr 1
    funext t
    rw [ih]
    simp; omega

theorem iSup_tot [DecidableEq R] (ok : M.OK) (b : M.Bound B) (s : S) :
    (⨆ σ : {σ : Sched S R // M.IsSched σ}, M.tot σ.1 s) = M.Vmax s := by
  obtain ⟨f, hf, h⟩ := exists_det_tot_eq_Vmin ok b
  have : Nonempty {σ : Sched S R // M.IsSched σ} := ⟨⟨_, detSched_isSched hf⟩⟩
  apply le_antisymm
  · exact ciSup_le fun σ => tot_le_Vmax ok b σ.2 s
  · refine ciSup_le fun n => ?_
    obtain ⟨f, hf, h⟩ := exists_val_eq_vmax M n
    have e := h n [] s (by simp)
    rw [← e]
    have hs : M.IsSched (fun h s r => if r = f h s then (1 : ℝ) else 0) := det_isSched hf
    refine le_trans (le_ciSup (bdd_val ok b hs [] s) n) ?_
    exact le_ciSup (f := fun σ : {σ : Sched S R // M.IsSched σ} => M.tot σ.1 s)
      ⟨M.Vmax s, by rintro _ ⟨σ, rfl⟩; exact tot_le_Vmax ok b σ.2 s⟩
      (⟨_, hs⟩ : {σ : Sched S R // M.IsSched σ})

end Core
end Verif.Theory
