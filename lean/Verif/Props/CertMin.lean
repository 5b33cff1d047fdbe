import Verif.Props.CertExist
import Verif.Props.RFInfo
import Verif.Theory.Avoid
import Verif.Spec.Rew
/-!
# C25: for which bounds of the minimal probability there are certificates
-/
set_option linter.unusedSectionVars false

namespace Verif.Props
open Verif.Model Verif.Spec Verif.Proofs Verif.Theory Finset

variable {K : Type} [Field K] [LinearOrder K] [IsStrictOrderedRing K]
variable {ρ : Graph.Rnd} {M : Sys K} {il tl fl : String} {rf : RF K}

/-- the states besides target and fail that belong to an end component -/
def ecStates (M : Sys K) : Set Nat := {s | s < M.N - 2 ∧ ∃ E, IsEC M E ∧ s ∈ E}

theorem mem_stateSet {T : Set Nat} {s : Fin M.N} : s ∈ M.stateSet T ↔ s.1 ∈ T := by
  classical
  simp [Sys.stateSet]

theorem stateSet_goal (h : RFOK rf) : rf.sys.stateSet (rf.sys.labelled rf.targetL) = {h.goal} := by
  ext s
  rw [mem_stateSet, h.target, Finset.mem_singleton, Set.mem_singleton_iff, Fin.ext_iff]
  rfl

section
variable (h : RFOK rf) (φ : K →+*o ℝ)

/-- a choice for the states of the form as a choice for the whole system -/
noncomputable def liftChoice (h : RFOK rf) (f : Fin rf.N → Fin rf.C) (s : Fin rf.sys.N) : Fin rf.sys.C :=
  if hs : s.1 < rf.N then RFOK.rowEmb (f ⟨s.1, hs⟩)
  else if s = h.goal then ⟨rf.sys.C - 2, by have := h.hC; omega⟩ else ⟨rf.sys.C - 1, by have := h.hC; omega⟩

theorem liftChoice_emb (f : Fin rf.N → Fin rf.C) (s : Fin rf.N) : liftChoice h f (RFOK.emb s) = RFOK.rowEmb (f s) := by
  simp [liftChoice, RFOK.emb]

theorem liftChoice_goal (f : Fin rf.N → Fin rf.C) : liftChoice h f h.goal = ⟨rf.sys.C - 2, by have := h.hC; omega⟩ := by
  have : ¬ (RFOK.goal h).1 < rf.N := by simp [RFOK.goal, RF.N]
  simp [liftChoice, this]

theorem liftChoice_fail (f : Fin rf.N → Fin rf.C) : liftChoice h f (RFOK.fail' h) = ⟨rf.sys.C - 1, by have := h.hC; omega⟩ := by
  have : ¬ (RFOK.fail' h).1 < rf.N := by simp [RFOK.fail', RF.N]; omega
  simp [liftChoice, this, h.fail_ne_goal]

theorem liftChoice_mem {f : Fin rf.N → Fin rf.C} (hf : ∀ s, f s ∈ (h.core φ).rows s) (s : Fin rf.sys.N) :
    liftChoice h f s ∈ (rf.sys.toMDP φ).rows s := by
  have key : ∀ s, liftChoice h f s ∈ (h.full φ).rows s := by
    intro s
    rcases h.cases_state s with ⟨s, rfl⟩ | rfl | rfl
    · rw [liftChoice_emb]
      exact (h.rows_emb φ).2 ⟨_, hf s, rfl⟩
    · rw [liftChoice_goal]
      exact (h.mem_full_rows φ).2 h.goalRow
    · rw [liftChoice_fail]
      exact (h.mem_full_rows φ).2 h.failRow
  exact key s

/-- from a choice to a scheduler of the whole system that never meets `A` -/
theorem exists_sched {f : Fin rf.N → Fin rf.C} (hf : ∀ s, f s ∈ (h.core φ).rows s) {U : Set (Fin rf.N)}
    (hU : ∀ s ∈ U, ∀ t, 0 < (h.core φ).Q s (f s) t → t ∈ U) {x : Fin rf.N → ℝ} (hx0 : ∀ s, 0 ≤ x s)
    (hx : ∀ s, (h.core φ).step x s (f s) ≤ x s) {A : Finset (Fin rf.sys.N)} (hA : ∀ s ∈ A, ∃ s' ∉ U, s = RFOK.emb s')
    {i : Fin rf.N} (hi : i ∈ U) :
    ∃ σ, (rf.sys.toMDP φ).IsSched σ ∧ (rf.sys.toMDP φ).reach A σ (RFOK.emb i) = 0 ∧
      (rf.sys.toMDP φ).reach {h.goal} σ (RFOK.emb i) ≤ x i := by
  classical
  have hv := WF.valid h.wf φ h.total
  have hF := liftChoice_mem h φ hf
  have hσ : (rf.sys.toMDP φ).IsSched (detSched (liftChoice h f)) :=
    (Bridge.isSched_iff hv {h.goal}).1 (Core.detSched_isSched hF)
  refine ⟨detSched (liftChoice h f), hσ, ?_, ?_⟩
  · rw [Bridge.reach_eq hv A hσ]
    -- the states of `U`, goal and fail
    let B : Set (Fin rf.sys.N) := {s | ∀ s' : Fin rf.N, s = RFOK.emb s' → s' ∈ U}
    have hinj : ∀ s s' : Fin rf.N, RFOK.emb s = RFOK.emb s' → s = s' := fun s s' he => by
      have := congrArg Fin.val he
      exact Fin.ext this
    refine le_antisymm ?_ (le_trans (Core.Vmin_nonneg (Bridge.ok hv A) (Bridge.bound hv A) _)
      (Core.Vmin_le_tot (Bridge.ok hv A) (Bridge.bound hv A) ((Bridge.isSched_iff hv A).2 hσ) _))
    refine ciSup_le fun n => ?_
    have key := Core.val_det_le (M := Core.ofMDP (rf.sys.toMDP φ) hv A) (Bridge.ok hv A)
      (x := fun s => if s ∈ B then 0 else 1) (fun s => by split <;> norm_num) hF ?_ n [] (RFOK.emb i)
    · have : RFOK.emb i ∈ B := fun s' he => hinj _ _ he ▸ hi
      simpa [this] using key
    · intro s
      by_cases hs : s ∈ B
      · have hsA : s ∉ A := fun ha => by
          obtain ⟨s', h1, rfl⟩ := hA s ha
          exact h1 (hs s' rfl)
        have : ∑ t, (rf.sys.toMDP φ).P (liftChoice h f s) t * (if t ∈ B then (0 : ℝ) else 1) = 0 := by
          refine Finset.sum_eq_zero fun t _ => ?_
          by_cases ht : t ∈ B
          · simp [ht]
          · have : (rf.sys.toMDP φ).P (liftChoice h f s) t = 0 := by
              simp only [B, Set.mem_ofPred_eq, not_forall] at ht
              obtain ⟨t', rfl, htU⟩ := ht
              rcases h.cases_state s with ⟨s', rfl⟩ | rfl | rfl
              · rw [liftChoice_emb]
                have hq := h.sub φ |>.Q0 s' _ (hf s') t'
                by_contra hne
                exact htU (hU s' (hs s' rfl) t' (lt_of_le_of_ne hq (Ne.symm hne)))
              · rw [liftChoice_goal]
                simp only [Sys.toMDP]
                rw [WF.other_zero h.wf (by have := h.hC; omega) (by have := h.hN; omega) h.goalP, map_zero]
                intro he
                exact h.emb_ne_goal t' (Fin.ext he)
              · rw [liftChoice_fail]
                simp only [Sys.toMDP]
                rw [WF.other_zero h.wf (by have := h.hC; omega) (by have := h.hN; omega) h.failP, map_zero]
                intro he
                exact h.emb_ne_fail t' (Fin.ext he)
            rw [this, zero_mul]
        simp only [Core.step, Core.ofMDP, hsA, if_false, hs, if_true, this]
        norm_num
      · simp only [hs, if_false]
        refine le_trans (Core.step_mono (Bridge.ok hv A) (y := fun _ => 1) (fun t => ?_) (hF s))
          ((Bridge.bound hv A).pre s _ (hF s))
        split <;> norm_num
  · rw [Bridge.reach_eq hv _ hσ]
    refine ciSup_le fun n => ?_
    have key := Core.val_det_le (M := h.full φ) (h.full_sub φ).toOK (h.ext_nonneg hx0) hF ?_ n [] (RFOK.emb i)
    · rw [h.ext_emb] at key
      exact key
    · intro s
      rcases h.cases_state s with ⟨s, rfl⟩ | rfl | rfl
      · rw [liftChoice_emb, h.step_emb φ (h.ext_goal x) (h.ext_fail x), h.ext_emb]
        simp only [h.ext_emb]
        exact hx s
      · rw [h.step_goal, h.ext_goal]
      · rw [h.step_fail φ _ (hF _)]

/-- from a scheduler of the whole system that never meets an end component to a flow -/
theorem exists_flow_of_sched {σ : Sched (Fin rf.sys.N) (Fin rf.sys.C)} (hσ : (rf.sys.toMDP φ).IsSched σ) {A : Finset (Fin rf.sys.N)}
    (hA : ∀ s, (h.core φ).InEC s → RFOK.emb s ∈ A) {i : Fin rf.N}
    (h0 : (rf.sys.toMDP φ).reach A σ (RFOK.emb i) = 0) :
    ∃ y : Fin rf.N → Fin rf.C → ℝ, (∀ s r, 0 ≤ y s r) ∧ (∀ t, (h.core φ).bal y t = if t = i then 1 else 0) ∧
      (∀ s r, y s r ≠ 0 → ¬ (h.core φ).InEC s) ∧ (h.core φ).gain y ≤ (rf.sys.toMDP φ).reach {h.goal} σ (RFOK.emb i) ∧
      (h.core φ).gain y ∈ Set.range φ := by
  classical
  have hv := WF.valid h.wf φ h.total
  set D := rf.sys.toMDP φ with hD
  have hnn : ∀ T n l s, 0 ≤ D.reachN T σ n l s := fun T n l s => by
    rw [← Bridge.val_eq hv T hσ]
    exact Core.val_nonneg (Bridge.ok hv T) ((Bridge.isSched_iff hv T).2 hσ) _ _ _
  -- safe situations
  let Safe : List (Fin rf.sys.N × Fin rf.sys.C) → Fin rf.sys.N → Prop := fun l s => ∀ m, D.reachN A σ m l s = 0
  have hsafeA : ∀ l s, Safe l s → s ∉ A := fun l s hs ha => by
    have := hs 0
    simp [MDP.reachN, ha] at this
  have hsafe : ∀ l s, Safe l s → ∀ r ∈ D.rows s, σ l s r ≠ 0 → ∀ t, 0 < D.P r t → Safe ((s, r) :: l) t := by
    intro l s hs r hr hne t ht m
    have h1 := hs (m + 1)
    have hsA := hsafeA l s hs
    simp only [MDP.reachN, hsA, if_false] at h1
    have n1 : ∀ r ∈ D.rows s, 0 ≤ ∑ t, D.P r t * D.reachN A σ m ((s, r) :: l) t := fun r hr =>
      Finset.sum_nonneg fun t _ => mul_nonneg (hv.nonneg s r hr t) (hnn _ _ _ _)
    have h2 := (Finset.sum_eq_zero_iff_of_nonneg fun r hr => mul_nonneg (hσ.nonneg l s r hr) (n1 r hr)).1 h1 r hr
    have h3 := (mul_eq_zero.1 h2).resolve_left hne
    have h4 := (Finset.sum_eq_zero_iff_of_nonneg fun t _ => mul_nonneg (hv.nonneg s r hr t) (hnn _ _ _ _)).1 h3 t (Finset.mem_univ t)
    exact (mul_eq_zero.1 h4).resolve_left ht.ne'
  let G : Set (Fin rf.N) := {s | ∃ l, Safe l (RFOK.emb s)}
  let W : Fin rf.N → Finset (Fin rf.C) := fun s => ((h.core φ).rows s).filter fun r => ∀ t, 0 < (h.core φ).Q s r t → t ∈ G
  have hiG : Safe [] (RFOK.emb i) := by
    intro m
    refine le_antisymm ?_ (hnn _ _ _ _)
    rw [← h0]
    have hb := Core.bdd_val (Bridge.ok hv A) (Bridge.bound hv A) ((Bridge.isSched_iff hv A).2 hσ) [] (RFOK.emb i)
    refine le_ciSup (f := fun n => D.reachN A σ n [] (RFOK.emb i)) ?_ m
    obtain ⟨c, hc⟩ := hb
    refine ⟨c, ?_⟩
    rintro _ ⟨n, rfl⟩
    exact hc ⟨n + 1, Bridge.val_eq hv A hσ n [] _⟩
  have hstep : ∀ l s, Safe l (RFOK.emb s) → ∀ r ∈ (h.core φ).rows s, σ l (RFOK.emb s) (RFOK.rowEmb r) ≠ 0 → r ∈ W s := by
    intro l s hs r hr hne
    refine Finset.mem_filter.2 ⟨hr, fun t ht => ⟨_, hsafe l _ hs _ ((h.rows_emb φ).2 ⟨r, hr, rfl⟩) hne (RFOK.emb t) ht⟩⟩
  have hW : ∀ s ∈ G, (W s).Nonempty := by
    rintro s ⟨l, hl⟩
    by_contra hemp
    rw [Finset.not_nonempty_iff_eq_empty] at hemp
    have h1 := hσ.sum_one l (RFOK.emb s)
    have h2 : ∑ r ∈ D.rows (RFOK.emb s), σ l (RFOK.emb s) r = 0 := Finset.sum_eq_zero fun r hr => by
      obtain ⟨r, hr', rfl⟩ := (h.rows_emb φ).1 hr
      by_contra hne
      have := hstep l s hl r hr' hne
      rw [hemp] at this
      simp at this
    rw [h2] at h1
    norm_num at h1
  have hGA : ∀ s ∈ G, ¬ (h.core φ).InEC s := fun s ⟨l, hl⟩ he => hsafeA l _ hl (hA s he)
  obtain ⟨y, y1, y2, y3, y4, y5⟩ := Core.exists_flow_inside (h.sub φ) hW (fun s _ r hr => (Finset.mem_filter.1 hr).1)
    (fun s _ r hr => (Finset.mem_filter.1 hr).2) hGA (i := i) ⟨[], hiG⟩ (core_over h φ)
  refine ⟨y, y1, y2, fun s r hn => hGA s (y3 s r hn), ?_, y5⟩
  rw [y4]
  -- the flow is at most as good as the scheduler
  have key : ∀ n l s, Safe l (RFOK.emb s) → ((h.core φ).inside G W hW).vmin n s ≤ D.reachN {h.goal} σ n l (RFOK.emb s) := by
    intro n
    induction n with
    | zero => intro l s _; simpa [Core.vmin] using hnn _ _ _ _
    | succ n ih =>
      intro l s hs
      have hsG : s ∈ G := ⟨l, hs⟩
      have hne := h.emb_ne_goal s
      simp only [MDP.reachN, Finset.mem_singleton, hne, if_false]
      have hc : ∀ r ∈ D.rows (RFOK.emb s), σ l (RFOK.emb s) r * ((h.core φ).inside G W hW).vmin (n + 1) s ≤
          σ l (RFOK.emb s) r * ∑ t, D.P r t * D.reachN {h.goal} σ n ((RFOK.emb s, r) :: l) t := by
        intro r hr
        by_cases hz : σ l (RFOK.emb s) r = 0
        · rw [hz, zero_mul, zero_mul]
        refine mul_le_mul_of_nonneg_left ?_ (hσ.nonneg l _ r hr)
        obtain ⟨r, hr', rfl⟩ := (h.rows_emb φ).1 hr
        have hrW := hstep l s hs r hr' hz
        have hrow : r ∈ ((h.core φ).inside G W hW).rows s := by simpa [Core.inside, hsG] using hrW
        refine le_trans (Finset.inf'_le (((h.core φ).inside G W hW).step (((h.core φ).inside G W hW).vmin n) s) hrow) ?_
        have e0 : ∀ v, ((h.core φ).inside G W hW).step v s r = (h.core φ).g s r + ∑ t, (h.core φ).Q s r t * v t := fun v => by
          simp only [Core.step, Core.inside, hsG, if_true]
        rw [e0, sum_split h.hN]
        have e1 : D.reachN {h.goal} σ n ((RFOK.emb s, RFOK.rowEmb r) :: l) ⟨rf.sys.N - 2, by have := h.hN; omega⟩ = 1 := by
          have : (⟨rf.sys.N - 2, by have := h.hN; omega⟩ : Fin rf.sys.N) = h.goal := rfl
          cases n <;> simp [MDP.reachN, this]
        rw [e1, mul_one]
        have e2 : 0 ≤ D.P (RFOK.rowEmb r) ⟨rf.sys.N - 1, by have := h.hN; omega⟩ *
            D.reachN {h.goal} σ n ((RFOK.emb s, RFOK.rowEmb r) :: l) ⟨rf.sys.N - 1, by have := h.hN; omega⟩ :=
          mul_nonneg (hv.nonneg _ _ hr _) (hnn _ _ _ _)
        have e3 : ∑ t, (h.core φ).Q s r t * ((h.core φ).inside G W hW).vmin n t ≤
            ∑ t : Fin rf.N, D.P (RFOK.rowEmb r) (RFOK.emb t) * D.reachN {h.goal} σ n ((RFOK.emb s, RFOK.rowEmb r) :: l) (RFOK.emb t) := by
          refine Finset.sum_le_sum fun t _ => ?_
          have e : D.P (RFOK.rowEmb r) (RFOK.emb t) = (h.core φ).Q s r t := rfl
          rw [e]
          have hq := (h.sub φ).Q0 s r hr' t
          rcases hq.eq_or_lt with hq0 | hq0
          · rw [← hq0, zero_mul, zero_mul]
          · exact mul_le_mul_of_nonneg_left (ih _ t (hsafe l _ hs _ hr hz (RFOK.emb t) hq0)) hq
        have e4 : D.P (RFOK.rowEmb r) ⟨rf.sys.N - 2, by have := h.hN; omega⟩ = (h.core φ).g s r := rfl
        rw [e4]
        have e5 : ∑ t : Fin rf.N, D.P (RFOK.rowEmb r) (RFOK.emb t) * D.reachN {h.goal} σ n ((RFOK.emb s, RFOK.rowEmb r) :: l) (RFOK.emb t) =
          ∑ t : Fin rf.N, D.P (RFOK.rowEmb r) ⟨t.1, by have := t.2; unfold RF.N at this; omega⟩ *
            D.reachN {h.goal} σ n ((RFOK.emb s, RFOK.rowEmb r) :: l) ⟨t.1, by have := t.2; unfold RF.N at this; omega⟩ := rfl
        rw [e5] at e3
        have e6 := add_le_add (add_le_add e3 (le_refl ((h.core φ).g s r))) e2
        rw [add_zero, add_comm] at e6
        exact e6
      have h1 := Finset.sum_le_sum hc
      rwa [← Finset.sum_mul, hσ.sum_one, one_mul] at h1
  refine ciSup_le fun n => le_trans (key n [] i hiG) ?_
  have hb := Core.bdd_val (Bridge.ok hv {h.goal}) (Bridge.bound hv {h.goal}) ((Bridge.isSched_iff hv _).2 hσ) [] (RFOK.emb i)
  refine le_ciSup (f := fun n => D.reachN {h.goal} σ n [] (RFOK.emb i)) ?_ n
  obtain ⟨c, hc⟩ := hb
  refine ⟨c, ?_⟩
  rintro _ ⟨n, rfl⟩
  exact hc ⟨n + 1, Bridge.val_eq hv _ hσ n [] _⟩

end

/-- **C25 (min; exact).** A non-negative certificate for `Pr_min <= t` (`< t`) is accepted exactly if some scheduler
reaches the target with probability at most (less than) `t` *and* never meets a state of an end component. -/
theorem C25_min_certificates_partial (hM : M.WF) (hrf : RF.make ρ M il tl fl false = .ok rf) (φ : K →+*o ℝ) {t : K}
    (h0 : 0 ≤ t) (h1 : t ≤ 1) {i : Fin M.N} (hi : i.1 ∈ M.labelled il) (hit : i.1 ∉ M.labelled tl) :
    ((∃ y, (∀ x ∈ y, 0 ≤ x) ∧ check rf .min .le t y 0 = .ok true) ↔
      ∃ σ, (M.toMDP φ).IsSched σ ∧ (M.toMDP φ).reach (M.stateSet (ecStates M)) σ i = 0 ∧
        (M.toMDP φ).reach (M.stateSet (M.labelled tl)) σ i ≤ φ t) ∧
    ((∃ y, (∀ x ∈ y, 0 ≤ x) ∧ check rf .min .lt t y 0 = .ok true) ↔
      ∃ σ, (M.toMDP φ).IsSched σ ∧ (M.toMDP φ).reach (M.stateSet (ecStates M)) σ i = 0 ∧
        (M.toMDP φ).reach (M.stateSet (M.labelled tl)) σ i < φ t) := by
  have h := rfok_built hM hrf
  have hin := initial_lt hM hrf hi hit
  have hie := initial_eq hM hrf hi
  have hec := fun {s : Nat} => info_ec hM hrf (s := s)
  obtain ⟨rfl, -, rfl, -, -⟩ := make_fields hrf
  obtain rfl : i = RFOK.emb ⟨rf.initial, hin⟩ := Fin.ext hie
  rw [stateSet_goal h]
  -- from certificates to schedulers
  have key1 : ∀ y : List K, (∀ x ∈ y, 0 ≤ x) → ∀ strict : Bool,
      check rf .min (if strict then .lt else .le) t y 0 = .ok true →
      ∃ σ, (rf.sys.toMDP φ).IsSched σ ∧ (rf.sys.toMDP φ).reach (rf.sys.stateSet (ecStates rf.sys)) σ (RFOK.emb ⟨rf.initial, hin⟩) = 0 ∧
        (rf.sys.toMDP φ).reach {h.goal} σ (RFOK.emb ⟨rf.initial, hin⟩) ≤ φ t ∧
        (strict = true → (rf.sys.toMDP φ).reach {h.goal} σ (RFOK.emb ⟨rf.initial, hin⟩) < φ t) := by
    intro y hy strict hc
    obtain ⟨-, -, -, hz, hrow, hg, hgs⟩ := (check_min_le fun i hi => h.isSome_rowState hi).1 hc
    have hb := (RFOK.yrow_ge_iff h φ hin _ _).1 hrow
    simp only [map_zero, add_zero] at hb hg hgs
    have hy0 : ∀ j, 0 ≤ y.getD j 0 := fun j => by
      by_cases hj : j < y.length
      · rw [List.getD_eq_getElem _ _ hj]
        exact hy _ (List.getElem_mem hj)
      · rw [List.getD_eq_default _ _ (by omega)]
    obtain ⟨f, U, x, f1, f2, f3, f4, f5, f6, f7⟩ := Core.exists_choice_of_flow (h.sub φ)
      (y := RFOK.vecY φ fun j => y.getD j 0) (fun s r _ => (phi_nonneg φ).2 (hy0 _)) hb
    obtain ⟨σ, s1, s2, s3⟩ := exists_sched h φ f1 f4 f5 f6 (A := rf.sys.stateSet (ecStates rf.sys)) (fun s hs => by
      rw [mem_stateSet] at hs
      obtain ⟨hs1, hs2⟩ := hs
      refine ⟨⟨s.1, hs1⟩, fun hu => ?_, rfl⟩
      obtain ⟨r, hr, hne⟩ := f3 _ hu
      have := hz r.1 r.2 s.1 ((h.mem_rows φ).1 hr) ((hec s.2).2 hs2)
      exact hne (by simp only [RFOK.vecY, this, map_zero])) f2
    rw [← RFOK.ygain_eq] at f7
    exact ⟨σ, s1, s2, (s3.trans f7).trans ((phi_strict φ).monotone hg), fun hs =>
      (s3.trans f7).trans_lt ((phi_strict φ) (hgs hs))⟩
  -- from schedulers to certificates
  have key2 : ∀ σ, (rf.sys.toMDP φ).IsSched σ →
      (rf.sys.toMDP φ).reach (rf.sys.stateSet (ecStates rf.sys)) σ (RFOK.emb ⟨rf.initial, hin⟩) = 0 →
      (rf.sys.toMDP φ).reach {h.goal} σ (RFOK.emb ⟨rf.initial, hin⟩) ≤ φ t →
      ∃ y : List K, (∀ x ∈ y, 0 ≤ x) ∧ ∀ strict : Bool,
        (strict = true → (rf.sys.toMDP φ).reach {h.goal} σ (RFOK.emb ⟨rf.initial, hin⟩) < φ t) →
        check rf .min (if strict then .lt else .le) t y 0 = .ok true := by
    intro σ hσ hz ht
    obtain ⟨y, hy0, hybal, hyec, hyg, hym⟩ := exists_flow_of_sched h φ hσ (A := rf.sys.stateSet (ecStates rf.sys)) (fun s hs => by
      rw [mem_stateSet]
      exact ⟨s.2, (hec (RFOK.lt_N s.2)).1 ((h.inEC_iff φ s).1 hs)⟩) hz
    obtain ⟨x, hx0, hxg, -, hxb, hxz⟩ := Core.exists_flow_mem (core_over h φ) hy0
      (d := fun t => if t = (⟨rf.initial, hin⟩ : Fin rf.N) then 1 else 0) (fun t => ite_mem φ _) hym
    obtain ⟨v, hl, hv0, hve, hb, hg⟩ := exists_vec h φ hx0
    rw [hxg] at hg
    refine ⟨v, hv0, fun strict hst => ?_⟩
    have hle := hyg.trans ht
    have hlt := fun hs => hyg.trans_lt (hst hs)
    rw [← hg, ← RFOK.ygain_eq, (phi_strict φ).le_iff_le] at hle
    rw [← hg, ← RFOK.ygain_eq, (phi_strict φ).lt_iff_lt] at hlt
    refine (check_min_le fun i hi => h.isSome_rowState hi).2 ⟨⟨h0, h1⟩, hin, hl, ?_, ?_, ?_, fun hs => ?_⟩
    · intro r hr s hs hp
      obtain ⟨s', hs', e'⟩ := h.exists_rowState hr
      rw [e'] at hs
      obtain rfl : s' = s := by simpa using hs
      have hr' : (⟨r, hr⟩ : Fin rf.C) ∈ (h.core φ).rows ⟨s', hs'⟩ := (h.mem_rows φ).2 e'
      rw [hve _ _ hr']
      refine hxz _ _ ?_
      by_contra hne
      exact hyec _ _ hne ((h.inEC_iff φ ⟨s', hs'⟩).2 hp)
    · refine (RFOK.yrow_ge_iff h φ hin _ _).2 fun s => ?_
      rw [hb, map_zero, add_zero]
      exact hxb s (hybal s).ge
    · rw [add_zero]; exact hle
    · rw [add_zero]; exact hlt hs
  refine ⟨⟨fun ⟨y, hy, hc⟩ => ?_, fun ⟨σ, s1, s2, s3⟩ => ?_⟩, ⟨fun ⟨y, hy, hc⟩ => ?_, fun ⟨σ, s1, s2, s3⟩ => ?_⟩⟩
  · obtain ⟨σ, s1, s2, s3, -⟩ := key1 y hy false hc
    exact ⟨σ, s1, s2, s3⟩
  · obtain ⟨y, y1, y2⟩ := key2 σ s1 s2 s3
    exact ⟨y, y1, y2 false (by simp)⟩
  · obtain ⟨σ, s1, s2, -, s4⟩ := key1 y hy true hc
    exact ⟨σ, s1, s2, s4 rfl⟩
  · obtain ⟨y, y1, y2⟩ := key2 σ s1 s2 s3.le
    exact ⟨y, y1, y2 true fun _ => s3⟩

/-- **C25 (min).** From an initial state in an end component no non-negative certificate is accepted, whatever the bound. -/
theorem C25_min_initial_partial (hM : M.WF) (hrf : RF.make ρ M il tl fl false = .ok rf) (φ : K →+*o ℝ) {i : Nat}
    (hi : i ∈ M.labelled il) (hit : i ∉ M.labelled tl) {E : Set Nat} (hE : IsEC M E) (hiE : i ∈ E) {t : K} {y : List K}
    (hy : ∀ x ∈ y, 0 ≤ x) : check rf .min .le t y 0 ≠ .ok true ∧ check rf .min .lt t y 0 ≠ .ok true := by
  have h := rfok_built hM hrf
  have hin := initial_lt hM hrf hi hit
  have hie := initial_eq hM hrf hi
  have eM := (make_fields hrf).1
  have hiN : i < M.N := by rw [hie, ← eM]; exact RFOK.lt_N hin
  have hmem : (⟨i, hiN⟩ : Fin M.N) ∈ M.stateSet (ecStates M) := by
    rw [mem_stateSet]
    have hin' : i < M.N - 2 := by
      rw [hie, ← eM]
      exact hin
    exact ⟨hin', E, hE, hiE⟩
  have one : ∀ σ, (M.toMDP φ).reach (M.stateSet (ecStates M)) σ ⟨i, hiN⟩ = 1 := fun σ => by
    have : ∀ n, (M.toMDP φ).reachN (M.stateSet (ecStates M)) σ n [] ⟨i, hiN⟩ = 1 := fun n => by
      cases n <;> simp only [MDP.reachN, hmem, if_true]
    simp only [MDP.reach, this, ciSup_const]
  constructor
  · intro hc
    obtain ⟨⟨h0, h1⟩, -⟩ := (check_min_le (strict := false) fun i hi => h.isSome_rowState hi).1 hc
    obtain ⟨σ, -, h2, -⟩ := (C25_min_certificates_partial hM hrf φ h0 h1 (i := ⟨i, hiN⟩) hi hit).1.1 ⟨y, hy, hc⟩
    rw [one] at h2
    norm_num at h2
  · intro hc
    obtain ⟨⟨h0, h1⟩, -⟩ := (check_min_le (strict := true) fun i hi => h.isSome_rowState hi).1 hc
    obtain ⟨σ, -, h2, -⟩ := (C25_min_certificates_partial hM hrf φ h0 h1 (i := ⟨i, hiN⟩) hi hit).2.1 ⟨y, hy, hc⟩
    rw [one] at h2
    norm_num at h2

/-- state 0 with an action to goal or fail and one to state 1, where one may stay for ever or go to the goal -/
def avoidSys : Sys ℚ := mkSys ⟨6, 4, [((0, 2), 1/2), ((0, 3), 1/2), ((1, 1), 1), ((2, 1), 1), ((3, 2), 1), ((4, 2), 1), ((5, 3), 1)]⟩
  [((0, 0), 0), ((0, 1), 1), ((1, 0), 2), ((1, 1), 3), ((2, 0), 4), ((3, 0), 5)]
  (IDict.mk' [("init", [0]), ("goal", [2]), ("fail", [3])] true)

theorem avoidSys_wf : avoidSys.WF := mkSys_wf (by decide +kernel) (by decide +kernel) (by decide +kernel)
  (by decide) (by decide) (by decide +kernel)

/-- the hypotheses of `C25_min_certificates_partial` hold and both sides do for the bound 1/2 -/
example : avoidSys.WF ∧ ∃ rf, RF.make exRnd avoidSys "init" "goal" "fail" false = .ok rf ∧
    0 ∈ avoidSys.labelled "init" ∧ 0 ∉ avoidSys.labelled "goal" ∧ check rf .min .le (1/2) [1, 0, 0, 0] 0 = .ok true := by
  obtain ⟨rf, h1, h2⟩ := exists_of_ok_and (x := RF.make exRnd avoidSys "init" "goal" "fail" false)
    (p := fun rf => yes (check rf .min .le (1/2) [1, 0, 0, 0] 0)) (by decide +kernel)
  refine ⟨avoidSys_wf, rf, h1, ⟨[0], rfl, by simp⟩, ?_, yes_iff.1 h2⟩
  rintro ⟨ss, h3, h4⟩
  obtain rfl : [2] = ss := Except.ok.inj h3
  simp at h4

/-- one may stay in the initial state for ever -/
def staySys : Sys ℚ := mkSys ⟨4, 3, [((0, 1), 1/2), ((0, 2), 1/2), ((1, 0), 1), ((2, 1), 1), ((3, 2), 1)]⟩
  [((0, 0), 0), ((0, 1), 1), ((1, 0), 2), ((2, 0), 3)]
  (IDict.mk' [("init", [0]), ("goal", [1]), ("fail", [2])] true)

theorem staySys_wf : staySys.WF := mkSys_wf (by decide +kernel) (by decide +kernel) (by decide +kernel)
  (by decide) (by decide) (by decide +kernel)

/-- the hypotheses of `C25_min_initial_partial` hold -/
example : staySys.WF ∧ ∃ rf, RF.make exRnd staySys "init" "goal" "fail" false = .ok rf ∧
    0 ∈ staySys.labelled "init" ∧ ∃ E, IsEC staySys E ∧ 0 ∈ E := by
  obtain ⟨rf, h1, h2⟩ := exists_of_ok_and (x := RF.make exRnd staySys "init" "goal" "fail" false)
    (p := fun rf => rf.inProperEC 0) (by decide +kernel)
  exact ⟨staySys_wf, rf, h1, ⟨[0], rfl, by simp⟩, (info_ec staySys_wf h1 (by decide +kernel)).1 h2⟩

end Verif.Props
