import Verif.Theory.Cut
import Verif.Theory.Transfer
/-!
# Values and flows are numbers of the field of the coefficients

If all gains and probabilities of a core are numbers of a subfield `K` of the reals then so are the extremal values, and
the flows that attain them can be chosen in `K`.
-/
set_option linter.unusedSectionVars false
namespace Verif.Theory
namespace Core
open Finset

variable {K : Type} [Field K] [LinearOrder K] [IsStrictOrderedRing K]
variable {S R : Type} [Fintype S] {M : Core S R} {φ : K →+*o ℝ}

/-- all gains and probabilities are numbers of `K` -/
structure Over (M : Core S R) (φ : K →+*o ℝ) : Prop where
  g : ∀ s r, M.g s r ∈ Set.range φ
  Q : ∀ s r t, M.Q s r t ∈ Set.range φ

theorem Over.cut (h : M.Over φ) (U : Set S) : (M.cut U).Over φ := by
  classical
  have z : (0 : ℝ) ∈ Set.range φ := ⟨0, map_zero φ⟩
  refine ⟨fun s r => ?_, fun s r t => ?_⟩
  · simp only [Core.cut]; split
    · exact h.g s r
    · exact z
  · simp only [Core.cut]; split
    · exact h.Q s r t
    · exact z

theorem Over.step (h : M.Over φ) (s : S) (r : R) : Aff φ fun z : S → ℝ => M.step z s r :=
  (Aff.const (h.g s r)).add (Aff.sum _ fun t _ => (Aff.var t).mul (h.Q s r t))

/-- the minimal values -/
theorem Vmin_mem (h : M.Sub) (o : M.Over φ) (s : S) : M.Vmin s ∈ Set.range φ := by
  have hl : Lin φ false fun z : S → ℝ => (∀ s, ∀ r ∈ M.rows s, z s ≤ M.step z s r) ∧ ∀ s, M.InEC s → z s ≤ 0 :=
    (Lin.all fun s => Lin.forall_mem _ fun r _ => Lin.le (Aff.var s) (o.step s r)).and
      (Lin.all fun s => Lin.imp _ fun _ => Lin.le (Aff.var s) Aff.zero)
  exact hl.max_mem (Aff.var s) (x := M.Vmin) ⟨fun s r hr => Vmin_le_step h.toOK h.bound hr,
    fun s hs => (Vmin_eq_zero_of_InEC h hs).le⟩ fun z hz => le_Vmin_of_cert h hz.1 hz.2 s

theorem Vmin_mem_transient (h : M.QSub) (ht : M.Transient) {B : S → ℝ} (b : M.Bound B) (o : M.Over φ) (s : S) :
    M.Vmin s ∈ Set.range φ := by
  classical
  have hl : Lin φ false fun z : S → ℝ => (∀ s, ∀ r ∈ M.rows s, z s ≤ M.step z s r) :=
    Lin.all fun s => Lin.forall_mem _ fun r _ => Lin.le (Aff.var s) (o.step s r)
  exact hl.max_mem (Aff.var s) (x := M.Vmin) (fun s r hr => Vmin_le_step h.toOK b hr) fun z hz => le_Vmin_of_transient h ht b hz s

/-- the maximal values -/
theorem Vmax_mem (h : M.OK) {B : S → ℝ} (b : M.Bound B) (o : M.Over φ) (s : S) : M.Vmax s ∈ Set.range φ := by
  have hl : Lin φ false fun z : S → ℝ => (∀ s, ∀ r ∈ M.rows s, M.step z s r ≤ z s) ∧ ∀ s, 0 ≤ z s :=
    (Lin.all fun s => Lin.forall_mem _ fun r _ => Lin.le (o.step s r) (Aff.var s)).and
      (Lin.all fun s => Lin.le Aff.zero (Aff.var s))
  obtain ⟨k, hk⟩ := hl.max_mem (Aff.var s).neg (x := M.Vmax) ⟨fun s r hr => step_Vmax_le h b hr, Vmax_nonneg h b⟩
    fun z hz => neg_le_neg (Vmax_le_pre h hz.2 hz.1 s)
  exact ⟨-k, by rw [map_neg, hk, neg_neg]⟩

/-- a flow with a gain in `K` can be replaced by one in `K`: the same gain, balances as before in comparison with `d`, and no
new states or rows -/
theorem exists_flow_mem [Fintype R] (o : M.Over φ) {y : S → R → ℝ} (hy : ∀ s r, 0 ≤ y s r) {d : S → ℝ} (hd : ∀ t, d t ∈ Set.range φ)
    (hg : M.gain y ∈ Set.range φ) : ∃ x : S → R → K, (∀ s r, 0 ≤ x s r) ∧ M.gain (fun s r => φ (x s r)) = M.gain y ∧
      (∀ t, M.bal y t ≤ d t → M.bal (fun s r => φ (x s r)) t ≤ d t) ∧ (∀ t, d t ≤ M.bal y t → d t ≤ M.bal (fun s r => φ (x s r)) t) ∧
      ∀ s r, y s r = 0 → x s r = 0 := by
  have hφ := strictMono_hom φ
  have hgain : Aff φ fun y : S × R → ℝ => M.gain fun s r => y (s, r) :=
    Aff.sum _ fun s _ => Aff.sum _ fun r _ => (Aff.var (s, r)).mul' (o.g s r)
  have hbal : ∀ t, Aff φ fun y : S × R → ℝ => M.bal (fun s r => y (s, r)) t := fun t =>
    (Aff.sum _ fun r _ => Aff.var (t, r)).sub (Aff.sum _ fun s _ => Aff.sum _ fun r _ => (Aff.var (s, r)).mul' (o.Q s r t))
  have hl : Lin φ false fun z : S × R → ℝ => (∀ p, 0 ≤ z p) ∧ (M.gain fun s r => z (s, r)) = M.gain y ∧
      (∀ t, M.bal y t ≤ d t → M.bal (fun s r => z (s, r)) t ≤ d t) ∧ (∀ t, d t ≤ M.bal y t → d t ≤ M.bal (fun s r => z (s, r)) t) ∧
      ∀ p : S × R, y p.1 p.2 = 0 → z p = 0 :=
    (Lin.all fun p => Lin.le Aff.zero (Aff.var p)).and ((Lin.eq hgain (Aff.const hg)).and
      ((Lin.all fun t => Lin.imp _ fun _ => Lin.le (hbal t) (Aff.const (hd t))).and
        ((Lin.all fun t => Lin.imp _ fun _ => Lin.le (Aff.const (hd t)) (hbal t)).and
          (Lin.all fun p => Lin.imp _ fun _ => Lin.eq (Aff.var p) Aff.zero))))
  obtain ⟨x, h1, h2, h3, h4, h5⟩ := hl.exists_mem (x := fun p => y p.1 p.2) ⟨fun p => hy _ _, rfl, fun t h => h, fun t h => h, fun p h => h⟩
  refine ⟨fun s r => x (s, r), fun s r => ?_, h2, h3, h4, fun s r hr => ?_⟩
  · have := h1 (s, r)
    rwa [← map_zero φ, hφ.le_iff_le] at this
  · have := h5 (s, r) hr
    exact hφ.injective (this.trans (map_zero φ).symm)

end Core
end Verif.Theory
