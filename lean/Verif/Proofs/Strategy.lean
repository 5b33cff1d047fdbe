import Verif.Proofs.CertSem
import Verif.Theory.Strategy
import Verif.Theory.Within
import Verif.Proofs.RewardLP
/-! # Strategies of reachability forms -/
set_option linter.unusedSectionVars false

namespace Verif.Proofs.RFOK
open Verif.Model Verif.Spec Verif.Props Verif.Theory Finset Verif.Proofs

variable {K : Type} [Field K] [LinearOrder K] [IsStrictOrderedRing K]
variable {rf : RF K} (h : RFOK rf) (φ : K →+*o ℝ)

include h

theorem rowEmb_inj {a b : Fin rf.C} (e : (rowEmb a : Fin rf.sys.C) = rowEmb b) : a = b := by
  simp only [rowEmb, Fin.mk.injEq] at e
  exact Fin.ext e

theorem sum_rows_emb (F : Fin rf.sys.C → ℝ) (s : Fin rf.N) :
    ∑ r ∈ (full h φ).rows (emb s), F r = ∑ r ∈ (core h φ).rows s, F (rowEmb r) := by
  symm
  refine Finset.sum_bij (fun r _ => rowEmb r) (fun r hr => (rows_emb h φ).2 ⟨r, hr, rfl⟩)
    (fun a _ b _ e => rowEmb_inj h e) (fun i hi => ?_) (fun _ _ => rfl)
  obtain ⟨r, hr, e⟩ := (rows_emb h φ).1 hi
  exact ⟨r, hr, e.symm⟩

theorem cut_step {U : Set (Fin rf.sys.N)} {x : Fin rf.sys.N → ℝ} (hx : ∀ t, t ∉ U → x t = 0) {s : Fin rf.sys.N} (hs : s ∈ U)
    (r : Fin rf.sys.C) : ((full h φ).cut U).step x s r = (full h φ).step x s r := by
  classical
  simp only [Core.step, Core.cut, hs, if_true, true_and]
  congr 1
  refine Finset.sum_congr rfl fun t _ => ?_
  by_cases ht : t ∈ U
  · rw [if_pos ht]
  · rw [hx t ht, mul_zero, mul_zero]

section
variable {σ : Fin rf.sys.N → Fin rf.sys.C → ℝ} (hσ : (full h φ).IsSched fun _ => σ) (U : Set (Fin rf.sys.N))
include hσ

theorem cut_isSched {σ : Sched (Fin rf.sys.N) (Fin rf.sys.C)} (hσ : (full h φ).IsSched σ) (U : Set (Fin rf.sys.N)) :
    ((full h φ).cut U).IsSched σ := ⟨hσ.nonneg, hσ.sum_one⟩

theorem tot_out (t : Fin rf.sys.N) (ht : t ∉ U) : ((full h φ).cut U).tot (fun _ => σ) t = 0 := by
  have hs := Core.cut_sub (U := U) (full_sub h φ)
  rw [Core.tot_mem_eq hs.toOK hs.bound (cut_isSched h φ hσ hσ U)]
  refine Finset.sum_eq_zero fun r _ => ?_
  simp [Core.step, Core.cut, ht]

theorem tot_goal (hg : goal h ∈ U) : ((full h φ).cut U).tot (fun _ => σ) (goal h) = 1 := by
  have hs := Core.cut_sub (U := U) (full_sub h φ)
  rw [Core.tot_mem_eq hs.toOK hs.bound (cut_isSched h φ hσ hσ U)]
  have : ∀ r ∈ ((full h φ).cut U).rows (goal h), σ (goal h) r * ((full h φ).cut U).step (((full h φ).cut U).tot fun _ => σ) (goal h) r
      = σ (goal h) r := fun r _ => by
    rw [cut_step h φ (tot_out h φ hσ U) hg, step_goal, mul_one]
  rw [Finset.sum_congr rfl this]
  exact hσ.sum_one [] _

theorem tot_fail : ((full h φ).cut U).tot (fun _ => σ) (fail' h) = 0 := by
  have hs := Core.cut_sub (U := U) (full_sub h φ)
  have hc := cut_isSched h φ hσ hσ U
  refine le_antisymm ?_ ((Core.Vmin_nonneg hs.toOK hs.bound _).trans (Core.Vmin_le_tot hs.toOK hs.bound hc _))
  exact (Core.tot_le_Vmax hs.toOK hs.bound hc _).trans ((Core.cut_Vmax_le (full_sub h φ) _).trans (Vmax_fail h φ).le)

/-- the values of a memoryless strategy on the states of the core -/
theorem tot_core (hg : goal h ∈ U) {s : Fin rf.N} (hs : emb s ∈ U) :
    ((full h φ).cut U).tot (fun _ => σ) (emb s) = ∑ r ∈ (core h φ).rows s, σ (emb s) (rowEmb r) *
      (core h φ).step (fun t => ((full h φ).cut U).tot (fun _ => σ) (emb t)) s r := by
  have hsub := Core.cut_sub (U := U) (full_sub h φ)
  conv_lhs => rw [Core.tot_mem_eq hsub.toOK hsub.bound (cut_isSched h φ hσ hσ U)]
  have e := sum_rows_emb h φ (fun r => σ (emb s) r * ((full h φ).cut U).step (((full h φ).cut U).tot fun _ => σ) (emb s) r) s
  refine e.trans (Finset.sum_congr rfl fun r _ => ?_)
  rw [cut_step h φ (tot_out h φ hσ U) hs, step_emb h φ (tot_goal h φ hσ U hg) (tot_fail h φ hσ U)]

/-- the gain of a flow that the strategy follows -/
theorem flow_tot {y : Nat → K} (hf : ∀ s : Fin rf.N, ∀ r ∈ (core h φ).rows s,
      φ (y r.1) = (∑ r' ∈ (core h φ).rows s, φ (y r'.1)) * σ (emb s) (rowEmb r))
    (hg : goal h ∈ U) (hU : ∀ s : Fin rf.N, ∑ r' ∈ (core h φ).rows s, φ (y r'.1) ≠ 0 → emb s ∈ U) :
    (core h φ).gain (vecY φ y) = ∑ t, ((full h φ).cut U).tot (fun _ => σ) (emb t) * (core h φ).bal (vecY φ y) t :=
  Core.gain_eq_of_follows (σ := fun s r => σ (emb s) (rowEmb r))
    (fun s => (sum_rows_emb h φ (fun r => σ (emb s) r) s).symm.trans (hσ.sum_one [] _)) hf
    (fun _ hs => tot_core h φ hσ U hg (hU _ hs))

end

/-- weights that shrink with every step, if there are no end components -/
theorem exists_weight (ht : (core h φ).Transient) : ∃ (w : Fin rf.sys.N → ℝ) (q : ℝ), 0 ≤ q ∧ q < 1 ∧
    (∀ s, ∀ r ∈ (full h φ).rows s, ∑ t, (full h φ).Q s r t * w t ≤ q * w s) ∧
    (∀ s : Fin rf.N, 1 / 2 ≤ w (emb s)) ∧ w (goal h) = 1 / 2 ∧ w (fail' h) = 0 := by
  obtain ⟨w, w0, w1⟩ := Core.exists_w (h.sub φ).qsub ht
  have hw1 : ∀ s, 1 ≤ w s := fun s => by
    obtain ⟨r, hr⟩ := (core h φ).ne s
    have h1 := w1 s r hr
    have : 0 ≤ ∑ t, (core h φ).Q s r t * w t := Finset.sum_nonneg fun t _ => mul_nonneg ((sub h φ).Q0 s r hr t) (w0 t)
    linarith
  have hW : ∀ s, w s ≤ 1 + ∑ t, w t := fun s => by
    have := Finset.single_le_sum (fun t _ => w0 t) (Finset.mem_univ s)
    linarith
  have hWp : 0 < 1 + ∑ t, w t := by
    have := Finset.sum_nonneg fun t (_ : t ∈ Finset.univ) => w0 t
    linarith
  generalize 1 + ∑ t, w t = W at hW hWp
  let w' : Fin rf.sys.N → ℝ := fun t => if ht : t.1 < rf.N then w ⟨t.1, ht⟩ else if t = goal h then 1 / 2 else 0
  have e1 : ∀ s, w' (emb s) = w s := fun s => by
    have : (emb s).1 < rf.N := s.2
    simp only [w', this, dif_pos]
    rfl
  have e2 : w' (goal h) = 1 / 2 := by
    have : ¬ (goal h).1 < rf.N := by simp [goal, RF.N]
    simp [w', this]
  have e3 : w' (fail' h) = 0 := by
    have : ¬ (fail' h).1 < rf.N := by simp [fail', RF.N]; omega
    simp [w', this, fail_ne_goal h]
  have hWp2 : 0 < max W 1 := lt_max_of_lt_left hWp
  have hle : ∀ s, w s ≤ max W 1 := fun s => (hW s).trans (le_max_left _ _)
  have h1W : 1 ≤ max W 1 := le_max_right _ _
  generalize max W 1 = V at hWp2 hle h1W
  have hhalf : 1 / (2 * V) ≤ 1 := by
    rw [div_le_one (by linarith)]; linarith
  have hpos : 0 < 1 / (2 * V) := by positivity
  refine ⟨w', 1 - 1 / (2 * V), by linarith, by linarith, fun s r hr => ?_, fun s => by rw [e1]; linarith [hw1 s], e2, e3⟩
  rcases cases_state h s with ⟨s, rfl⟩ | rfl | rfl
  · obtain ⟨r, hr', rfl⟩ := (rows_emb h φ).1 hr
    clear hr
    rename' hr' => hr
    have h1 := w1 s r hr
    have hne := emb_ne_goal h s
    have hb : (core h φ).g s r ≤ 1 := by
      have h2 := (sub h φ).sub s r hr
      have : 0 ≤ ∑ t, (core h φ).Q s r t := Finset.sum_nonneg fun t _ => (sub h φ).Q0 s r hr t
      linarith
    have e : ∑ t, (full h φ).Q (emb s) (rowEmb r) t * w' t = ∑ t, (core h φ).Q s r t * w t + (core h φ).g s r * (1 / 2) := by
      simp only [full, Core.ofMDP, Finset.mem_singleton, hne, if_false, Sys.toMDP]
      rw [sum_split h.hN]
      have f1 : w' ⟨rf.sys.N - 2, by have := h.hN; omega⟩ = 1 / 2 := e2
      have f2 : w' ⟨rf.sys.N - 1, by have := h.hN; omega⟩ = 0 := e3
      rw [f1, f2, mul_zero, add_zero]
      congr 1
      exact Finset.sum_congr rfl fun t _ => by
        have := e1 t
        unfold emb at this
        rw [this]
        rfl
    rw [e, e1]
    have h3 : w s * (1 / (2 * V)) ≤ 1 / 2 := by
      rw [mul_one_div, div_le_div_iff₀ (by linarith) (by norm_num)]
      have := hle s
      nlinarith
    nlinarith
  · rw [e2]
    have : ∑ t, (full h φ).Q (goal h) r t * w' t = 0 := Finset.sum_eq_zero fun t _ => by
      simp [full, Core.ofMDP]
    rw [this]
    nlinarith
  · have hf := step_fail h φ w' hr
    have hg0 : (full h φ).g (fail' h) r = 0 := by simp [full, Core.ofMDP, fail_ne_goal h]
    unfold Core.step at hf
    rw [hg0, zero_add] at hf
    rw [hf, e3, mul_zero]

end Verif.Proofs.RFOK

namespace Verif.Proofs.RRFOK
open Verif.Model Verif.Spec Verif.Props Verif.Theory Finset Verif.Proofs

variable {K : Type} [Field K] [LinearOrder K] [IsStrictOrderedRing K]
variable {x : RRF K} (h : RRFOK x) (φ : K →+*o ℝ)

/-- a strategy on the states besides target and fail -/
def restr (σ : Sched (Fin x.rf.sys.N) (Fin x.rf.sys.C)) : Sched (Fin x.rf.N) (Fin x.rf.C) :=
  fun l s r => σ (l.map fun p => (RFOK.emb p.1, RFOK.rowEmb p.2)) (RFOK.emb s) (RFOK.rowEmb r)

include h

theorem restr_sched {σ : Sched (Fin x.rf.sys.N) (Fin x.rf.sys.C)} (hσ : (x.rf.sys.toMDP φ).IsSched σ) :
    (h.core φ).IsSched (restr σ) :=
  ⟨fun _ s r hr => hσ.nonneg _ _ _ ((h.ok.rows_emb φ).2 ⟨r, hr, rfl⟩),
   fun l s => by
     have h1 := h.ok.sum_rows_emb φ (σ (l.map fun p : Fin x.rf.N × Fin x.rf.C => (RFOK.emb p.1, RFOK.rowEmb p.2)) (RFOK.emb s)) s
     exact h1.symm.trans (hσ.sum_one _ _)⟩

theorem rewN_goal (ρ : Fin x.rf.sys.C → ℝ) (σ : Sched (Fin x.rf.sys.N) (Fin x.rf.sys.C)) (n : ℕ) (l) :
    (x.rf.sys.toMDP φ).rewN ρ {h.ok.goal} σ n l h.ok.goal = 0 := by
  cases n with
  | zero => rfl
  | succ n => rw [MDP.rewN, if_pos (Finset.mem_singleton_self _)]

/-- expected rewards of the system are values of the core -/
theorem rewN_emb {ρ : Fin x.rf.sys.C → ℝ} (hρ : ∀ r : Fin x.rf.C, ρ (RFOK.rowEmb r) = φ (x.rew.getD r.1 0))
    (σ : Sched (Fin x.rf.sys.N) (Fin x.rf.sys.C)) (n : ℕ) (l : List (Fin x.rf.N × Fin x.rf.C)) (s : Fin x.rf.N) :
    (x.rf.sys.toMDP φ).rewN ρ {h.ok.goal} σ n (l.map fun p => (RFOK.emb p.1, RFOK.rowEmb p.2)) (RFOK.emb s) =
      (h.core φ).val (restr σ) n l s := by
  induction n generalizing l s with
  | zero => rfl
  | succ n ih =>
    have hne := h.ok.emb_ne_goal s
    rw [MDP.rewN, if_neg (by rw [Finset.mem_singleton]; exact hne), Core.val]
    refine (h.ok.sum_rows_emb φ _ s).trans (Finset.sum_congr rfl fun r _ => ?_)
    show restr σ l s r * _ = restr σ l s r * _
    congr 1
    rw [hρ]
    show _ = φ (x.rew.getD r.1 0) + ∑ t : Fin x.rf.N, φ (x.rf.P r.1 t.1) * _
    congr 1
    rw [sum_split h.ok.hN]
    have e1 : (x.rf.sys.toMDP φ).P (RFOK.rowEmb r) ⟨x.rf.sys.N - 1, by have := h.ok.hN; omega⟩ = 0 := by
      show φ (x.rf.sys.P.get r.1 (x.rf.sys.N - 1)) = 0
      rw [h.noFail r.1 r.2, map_zero]
    have e2 := h.rewN_goal φ ρ σ n ((RFOK.emb s, RFOK.rowEmb r) :: l.map fun p => (RFOK.emb p.1, RFOK.rowEmb p.2))
    unfold RFOK.goal at e2
    rw [e1, zero_mul, add_zero]
    erw [e2]
    rw [mul_zero, add_zero]
    refine Finset.sum_congr rfl fun t _ => ?_
    have := ih ((s, r) :: l) t
    rw [← this]
    rfl

theorem rew_emb {ρ : Fin x.rf.sys.C → ℝ} (hρ : ∀ r : Fin x.rf.C, ρ (RFOK.rowEmb r) = φ (x.rew.getD r.1 0))
    (σ : Sched (Fin x.rf.sys.N) (Fin x.rf.sys.C)) (s : Fin x.rf.N) :
    (x.rf.sys.toMDP φ).rew ρ {h.ok.goal} σ (RFOK.emb s) = (h.core φ).tot (restr σ) s := by
  unfold MDP.rew Core.tot
  congr 1
  funext n
  exact h.rewN_emb φ hρ σ n [] s

end Verif.Proofs.RRFOK
