import Verif.Proofs.Strategy
import Verif.Proofs.EcFree
import Verif.Props.CertMin
import Verif.Props.Paths
import Verif.Props.Subsystem
import Verif.Props.RewCert
/-!
# C118: strategies can be read off the computed vectors

A certificate for `Pr_max >= t`, a certificate for `Pr_min <= t` and the vector returned by `max_y_state_action` have one entry
for every state and action.  A strategy *follows* such a vector if it takes the actions of a state with probabilities proportional
to their entries.  The vectors returned by `pr_min`, `pr_max` and `max_z_state_action` say which actions are best.
-/
set_option linter.unusedSectionVars false

namespace Verif.Props
open Verif.Model Verif.Spec Verif.Proofs Verif.Theory Finset MeasureTheory

variable {K : Type} [Field K] [LinearOrder K] [IsStrictOrderedRing K]
variable {ρ : Graph.Rnd} {M : Sys K} {il tl fl : String} {rf : RF K} {t : K}

/-- in every state besides target and fail, the memoryless strategy `σ` takes the actions with probabilities proportional to
their entries in `v` (if all entries of a state are zero, anything goes) -/
def Follows (φ : K →+*o ℝ) (M : Sys K) (v : Nat → K) (σ : Fin M.N → Fin M.C → ℝ) : Prop :=
  ∀ s : Fin M.N, s.1 < M.N - 2 → ∀ r ∈ (M.toMDP φ).rows s, σ s r * ∑ r' ∈ (M.toMDP φ).rows s, φ (v r'.1) = φ (v r.1)

/-- There is a strategy that follows a given vector without negative entries. -/
theorem C118_exists (hM : M.WF) (ht : M.Total) (φ : K →+*o ℝ) {v : Nat → K}
    (hv : ∀ s a k, ((s, a), k) ∈ M.idx → k < M.C → s < M.N - 2 → 0 ≤ v k) :
    ∃ σ, (M.toMDP φ).IsSched (fun _ => σ) ∧ Follows φ M v σ := by
  classical
  choose f hf using (WF.valid hM φ ht).rows_nonempty
  have hnn : ∀ s : Fin M.N, s.1 < M.N - 2 → ∀ r ∈ (M.toMDP φ).rows s, 0 ≤ φ (v r.1) := fun s hs r hr => by
    obtain ⟨a, ha⟩ : ∃ a, ((s.1, a), r.1) ∈ M.idx := by simpa [Sys.toMDP] using hr
    exact (phi_nonneg φ).2 (hv _ _ _ ha r.2 hs)
  refine ⟨fun s r => if s.1 < M.N - 2 ∧ ∑ r' ∈ (M.toMDP φ).rows s, φ (v r'.1) ≠ 0 then
      φ (v r.1) / ∑ r' ∈ (M.toMDP φ).rows s, φ (v r'.1) else if r = f s then 1 else 0, ⟨fun _ s r hr => ?_, fun _ s => ?_⟩,
    fun s hs r hr => ?_⟩
  · split
    · rename_i hc
      exact div_nonneg (hnn s hc.1 r hr) (Finset.sum_nonneg (hnn s hc.1))
    · split <;> norm_num
  · split
    · rename_i hc
      rw [← Finset.sum_div, div_self hc.2]
    · rw [Finset.sum_ite_eq' _ (f s) (fun _ => (1 : ℝ)), if_pos (hf s)]
  · dsimp only
    by_cases h0 : ∑ r' ∈ (M.toMDP φ).rows s, φ (v r'.1) = 0
    · rw [h0, mul_zero]
      exact ((Finset.sum_eq_zero_iff_of_nonneg (hnn s hs)).1 h0 r hr).symm
    · rw [if_pos ⟨hs, h0⟩, div_mul_cancel₀ _ h0]

section
variable (h : RFOK rf) (φ : K →+*o ℝ)

/-- the gain of a flow and the runs of a strategy that follows it -/
theorem flow_within {y : Nat → K} {σ : Fin rf.sys.N → Fin rf.sys.C → ℝ} (hσ : (rf.sys.toMDP φ).IsSched fun _ => σ)
    (hf : Follows φ rf.sys y σ) {A : Finset (Fin rf.sys.N)} (hg : h.goal ∈ A)
    (hA : ∀ s : Fin rf.N, ∀ r ∈ (h.core φ).rows s, y r.1 ≠ 0 → RFOK.emb s ∈ A) :
    φ (ygain rf y) = ∑ t : Fin rf.N, (rf.sys.toMDP φ).within A {h.goal} (fun _ => σ) (RFOK.emb t) * (h.core φ).bal (RFOK.vecY φ y) t := by
  rw [RFOK.ygain_eq h]
  have hσ' : (h.full φ).IsSched fun _ => σ := (Bridge.isSched_iff _ _).2 hσ
  have key := h.flow_tot φ hσ' (A : Set (Fin rf.sys.N)) (y := y) (fun s r hr => by
      have h1 := hf (RFOK.emb s) s.2 (RFOK.rowEmb r) ((h.rows_emb φ).2 ⟨r, hr, rfl⟩)
      have h2 := h.sum_rows_emb φ (fun r => φ (y r.1)) s
      have h3 : ∑ r' ∈ (rf.sys.toMDP φ).rows (RFOK.emb s), φ (y r'.1) = ∑ r' ∈ (h.core φ).rows s, φ (y r'.1) := h2
      rw [h3] at h1
      rw [mul_comm]
      exact h1.symm) hg (fun s hs => by
      obtain ⟨r, hr, hne⟩ := Finset.exists_ne_zero_of_sum_ne_zero hs
      exact hA s r hr fun h0 => hne (by rw [h0, map_zero]))
  rw [key]
  refine Finset.sum_congr rfl fun t _ => ?_
  rw [Within.reach_eq (WF.valid h.wf φ h.total) A {h.goal} hσ]
  rfl

theorem within_nonneg (hM : M.WF) (ht : M.Total) (φ : K →+*o ℝ) {σ : Sched (Fin M.N) (Fin M.C)} (hσ : (M.toMDP φ).IsSched σ)
    (A T : Finset (Fin M.N)) (s : Fin M.N) : 0 ≤ (M.toMDP φ).within A T σ s := by
  rw [Within.reach_eq (WF.valid hM φ ht) A T hσ]
  have hs := Core.cut_sub (U := (A : Set (Fin M.N))) (Bridge.sub (WF.valid hM φ ht) T)
  exact (Core.Vmin_nonneg hs.toOK hs.bound _).trans (Core.Vmin_le_tot hs.toOK hs.bound ⟨hσ.nonneg, hσ.sum_one⟩ _)

variable {y : Nat → K} {σ : Fin rf.sys.N → Fin rf.sys.C → ℝ} (hσ : (rf.sys.toMDP φ).IsSched fun _ => σ)
    (hf : Follows φ rf.sys y σ) {A : Finset (Fin rf.sys.N)} (hg : h.goal ∈ A)
    (hA : ∀ s : Fin rf.N, ∀ r ∈ (h.core φ).rows s, y r.1 ≠ 0 → RFOK.emb s ∈ A) (hin : rf.initial < rf.N)
include hσ hf hg hA

theorem flow_within_ge (hb : ∀ t, (h.core φ).bal (RFOK.vecY φ y) t ≤ if t = ⟨rf.initial, hin⟩ then 1 else 0) :
    φ (ygain rf y) ≤ (rf.sys.toMDP φ).within A {h.goal} (fun _ => σ) (RFOK.emb ⟨rf.initial, hin⟩) := by
  rw [flow_within h φ hσ hf hg hA]
  calc _ ≤ ∑ t : Fin rf.N, (rf.sys.toMDP φ).within A {h.goal} (fun _ => σ) (RFOK.emb t) *
        if t = ⟨rf.initial, hin⟩ then 1 else 0 :=
        Finset.sum_le_sum fun t _ => mul_le_mul_of_nonneg_left (hb t) (within_nonneg h.wf h.total φ hσ _ _ _)
    _ = _ := by simp

theorem flow_within_le (hb : ∀ t, (if t = ⟨rf.initial, hin⟩ then 1 else 0) ≤ (h.core φ).bal (RFOK.vecY φ y) t) :
    (rf.sys.toMDP φ).within A {h.goal} (fun _ => σ) (RFOK.emb ⟨rf.initial, hin⟩) ≤ φ (ygain rf y) := by
  rw [flow_within h φ hσ hf hg hA]
  calc _ = ∑ t : Fin rf.N, (rf.sys.toMDP φ).within A {h.goal} (fun _ => σ) (RFOK.emb t) *
        if t = ⟨rf.initial, hin⟩ then 1 else 0 := by simp
    _ ≤ _ := Finset.sum_le_sum fun t _ => mul_le_mul_of_nonneg_left (hb t) (within_nonneg h.wf h.total φ hσ _ _ _)

end

theorem runsWithin_univ {S R : Type} [Fintype S] (T : Finset S) : (runsWithin univ T : Set (ℕ → S × R)) = runsTo T := by
  ext ω
  simp [runsWithin, runsTo]

theorem runsWithin_sub {S R : Type} (A T : Finset S) : (runsWithin A T : Set (ℕ → S × R)) ⊆ runsTo T :=
  fun _ ⟨n, hn, _⟩ => ⟨n, hn⟩

/-- **C118 (max).** From an accepted certificate for `Pr_max >= t` (`> t`) without negative entries a strategy can be read off:
every strategy that follows the certificate visits the target with probability at least (more than) `t`, even through states
with positive entries only. -/
theorem C118_max_certificate (hM : M.WF) (hrf : RF.make ρ M il tl fl false = .ok rf) (φ : K →+*o ℝ) {v : List K} (hv : ∀ x ∈ v, 0 ≤ x)
    {i : Fin M.N} (hi : i.1 ∈ M.labelled il) {σ : Fin M.N → Fin M.C → ℝ} (hσ : (M.toMDP φ).IsSched fun _ => σ)
    (hf : Follows φ M (fun k => v.getD k 0) σ) {μ : Measure (ℕ → Fin M.N × Fin M.C)} (hμ : (M.toMDP φ).IsRuns (fun _ => σ) i μ) :
    (check rf .max .ge t v 0 = .ok true →
      φ t ≤ μ.real (runsWithin (M.stateSet (M.labelled tl ∪ {s | Selected M .max v s})) (M.stateSet (M.labelled tl))) ∧
      φ t ≤ μ.real (runsTo (M.stateSet (M.labelled tl)))) ∧
    (check rf .max .gt t v 0 = .ok true →
      φ t < μ.real (runsWithin (M.stateSet (M.labelled tl ∪ {s | Selected M .max v s})) (M.stateSet (M.labelled tl))) ∧
      φ t < μ.real (runsTo (M.stateSet (M.labelled tl)))) := by
  have h := rfok_built hM hrf
  have hie := initial_eq hM hrf hi
  obtain ⟨rfl, -, rfl, -, -⟩ := make_fields hrf
  have hp := hμ.prob
  have hmono : μ.real (runsWithin (rf.sys.stateSet (rf.sys.labelled rf.targetL ∪ {s | Selected rf.sys .max v s}))
      (rf.sys.stateSet (rf.sys.labelled rf.targetL))) ≤ μ.real (runsTo (rf.sys.stateSet (rf.sys.labelled rf.targetL))) :=
    measureReal_mono (runsWithin_sub _ _)
  have key : ∀ strict : Bool, check rf .max (if strict then .gt else .ge) t v 0 = .ok true →
      φ t ≤ μ.real (runsWithin (rf.sys.stateSet (rf.sys.labelled rf.targetL ∪ {s | Selected rf.sys .max v s}))
        (rf.sys.stateSet (rf.sys.labelled rf.targetL))) ∧
      (strict = true → φ t < μ.real (runsWithin (rf.sys.stateSet (rf.sys.labelled rf.targetL ∪ {s | Selected rf.sys .max v s}))
        (rf.sys.stateSet (rf.sys.labelled rf.targetL)))) := by
    intro strict hc
    obtain ⟨-, hin, hl, hrow, h1, h2⟩ := check_max_ge.1 hc
    have hz := (RFOK.yrow_le_iff h φ hin _ _).1 hrow
    simp only [map_zero, add_zero] at hz
    obtain rfl : i = RFOK.emb ⟨rf.initial, hin⟩ := Fin.ext hie
    rw [real_runsWithin (WF.valid hM φ h.total) hσ hμ, stateSet_goal h]
    have := flow_within_ge h φ hσ hf (A := rf.sys.stateSet (rf.sys.labelled rf.targetL ∪ {s | Selected rf.sys .max v s}))
      (by rw [mem_stateSet, h.target]; exact Or.inl rfl) (fun s r hr hne => by
        rw [mem_stateSet]
        refine Or.inr ?_
        obtain ⟨a, ha⟩ := (h.rowState_iff r.2).1 ((h.mem_rows φ).1 hr)
        have hpos : 0 < v.getD r.1 0 := by
          refine lt_of_le_of_ne ?_ (Ne.symm hne)
          rw [List.getD_eq_getElem _ _ (by rw [hl]; exact r.2)]
          exact hv _ (List.getElem_mem _)
        obtain ⟨c, g1, g2⟩ := getD_pos.1 hpos
        exact ⟨a, r.1, c, ha, g1, g2⟩) hin hz
    rw [sub_zero] at h1 h2
    exact ⟨le_trans (OrderHomClass.mono φ h1) this, fun hs => lt_of_lt_of_le (phi_strict φ (h2 hs)) this⟩
  refine ⟨fun hc => ?_, fun hc => ?_⟩
  · have := (key false hc).1
    exact ⟨this, this.trans hmono⟩
  · have := (key true hc).2 rfl
    exact ⟨this, this.trans_le hmono⟩

/-- **C118 (min).** Every strategy that follows an accepted certificate for `Pr_min <= t` (`< t`) visits the target with
probability at most (less than) `t`. -/
theorem C118_min_certificate (hM : M.WF) (hrf : RF.make ρ M il tl fl false = .ok rf) (φ : K →+*o ℝ) {v : List K}
    {i : Fin M.N} (hi : i.1 ∈ M.labelled il) {σ : Fin M.N → Fin M.C → ℝ} (hσ : (M.toMDP φ).IsSched fun _ => σ)
    (hf : Follows φ M (fun k => v.getD k 0) σ) {μ : Measure (ℕ → Fin M.N × Fin M.C)} (hμ : (M.toMDP φ).IsRuns (fun _ => σ) i μ) :
    (check rf .min .le t v 0 = .ok true → μ.real (runsTo (M.stateSet (M.labelled tl))) ≤ φ t) ∧
    (check rf .min .lt t v 0 = .ok true → μ.real (runsTo (M.stateSet (M.labelled tl))) < φ t) := by
  have h := rfok_built hM hrf
  have hie := initial_eq hM hrf hi
  obtain ⟨rfl, -, rfl, -, -⟩ := make_fields hrf
  have key : ∀ strict : Bool, check rf .min (if strict then .lt else .le) t v 0 = .ok true →
      μ.real (runsTo (rf.sys.stateSet (rf.sys.labelled rf.targetL))) ≤ φ t ∧
      (strict = true → μ.real (runsTo (rf.sys.stateSet (rf.sys.labelled rf.targetL))) < φ t) := by
    intro strict hc
    obtain ⟨-, hin, hl, -, hrow, h1, h2⟩ := (check_min_le fun i hi => h.isSome_rowState hi).1 hc
    have hz := (RFOK.yrow_ge_iff h φ hin _ _).1 hrow
    simp only [map_zero, add_zero] at hz h1 h2
    obtain rfl : i = RFOK.emb ⟨rf.initial, hin⟩ := Fin.ext hie
    rw [← runsWithin_univ, real_runsWithin (WF.valid hM φ h.total) hσ hμ, stateSet_goal h]
    have := flow_within_le h φ hσ hf (A := univ) (Finset.mem_univ _) (fun _ _ _ _ => Finset.mem_univ _) hin hz
    exact ⟨this.trans (OrderHomClass.mono φ h1), fun hs => this.trans_lt (phi_strict φ (h2 hs))⟩
  exact ⟨fun hc => (key false hc).1, fun hc => (key true hc).2 rfl⟩

/-- **C118 (max_y_state_action).** Every strategy that follows the vector returned by `max_y_state_action` visits the target
with the largest probability possible. -/
theorem C118_max_y (hM : M.WF) (hrf : RF.make ρ M il tl fl false = .ok rf) (φ : K →+*o ℝ) {lp : Milp K} (hlp : rf.maxYLP = .ok lp)
    {y : Nat → K} (hy : lp.Optimal y) {i : Fin M.N} (hi : i.1 ∈ M.labelled il) (hit : i.1 ∉ M.labelled tl)
    {σ : Fin M.N → Fin M.C → ℝ} (hσ : (M.toMDP φ).IsSched fun _ => σ)
    (hf : Follows φ M y σ) {μ : Measure (ℕ → Fin M.N × Fin M.C)} (hμ : (M.toMDP φ).IsRuns (fun _ => σ) i μ) :
    μ.real (runsTo (M.stateSet (M.labelled tl))) = M.prMax φ (M.labelled tl) i.1 := by
  have h := rfok_built hM hrf
  have hie := initial_eq hM hrf hi
  have hin := initial_lt hM hrf hi hit
  obtain ⟨lp', g1, -, g2⟩ := C30_max_y hM hrf φ hi hit
  obtain rfl : lp = lp' := Except.ok.inj (hlp.symm.trans g1)
  have hgain := (g2 y hy).2
  obtain ⟨lp', g1, -, -, g3⟩ := maxYLP_ok hin
  obtain rfl : lp = lp' := Except.ok.inj (hlp.symm.trans g1)
  obtain ⟨hrow, -, -⟩ := (g3 y).1 hy.1
  have hle := (C115_extremal hM ((make_fields hrf).1 ▸ h.total) φ (M.labelled tl) i.2).2.2 ⟨i.2, _, μ, hσ, hμ, rfl⟩
  refine le_antisymm hle ?_
  rw [← hgain]
  obtain ⟨rfl, -, rfl, -, -⟩ := make_fields hrf
  obtain rfl : i = RFOK.emb ⟨rf.initial, hin⟩ := Fin.ext hie
  rw [← runsWithin_univ, real_runsWithin (WF.valid hM φ h.total) hσ hμ, stateSet_goal h]
  have hz := (RFOK.yrow_le_iff h φ hin y 0).1 (fun j hj => by rw [sub_zero]; exact hrow j hj)
  simp only [map_zero, add_zero] at hz
  exact flow_within_ge h φ hσ hf (A := univ) (Finset.mem_univ _) (fun _ _ _ _ => Finset.mem_univ _) hin hz

/-! ### best actions -/

section
variable (h : RFOK rf) (φ : K →+*o ℝ)

/-- what one step by row `k` gives, if the values of the states are `x` -/
def lookahead (M : Sys K) (x : Nat → K) (k : Nat) : K := M.P.get k (M.N - 2) + ∑ d ∈ range (M.N - 2), M.P.get k d * x d

theorem lookahead_step {x : Nat → K} {V : Fin rf.sys.N → ℝ} (hx : ∀ s : Fin rf.N, φ (x s.1) = V (RFOK.emb s))
    (h1 : V h.goal = 1) (h0 : V h.fail' = 0) (s : Fin rf.N) (r : Fin rf.C) :
    φ (lookahead rf.sys x r.1) = (h.full φ).step V (RFOK.emb s) (RFOK.rowEmb r) := by
  rw [h.step_emb φ h1 h0]
  unfold lookahead Core.step
  rw [map_add, map_sum, ← Fin.sum_univ_eq_sum_range (fun d => φ (rf.sys.P.get r.1 d * x d))]
  show φ (rf.b r.1) + _ = φ (rf.b r.1) + ∑ t : Fin rf.N, φ (rf.P r.1 t.1) * V (RFOK.emb t)
  congr 1
  refine Finset.sum_congr rfl fun t _ => ?_
  rw [map_mul, hx t]
  rfl

/-- tight actions in terms of the whole system -/
theorem tight_full {x : Nat → K} {V : Fin rf.sys.N → ℝ} (hx : ∀ s : Fin rf.N, φ (x s.1) = V (RFOK.emb s))
    (h1 : V h.goal = 1) (h0 : V h.fail' = 0) {σ : Sched (Fin rf.sys.N) (Fin rf.sys.C)}
    (ht : ∀ l s, s.1 < rf.sys.N - 2 → ∀ r ∈ (rf.sys.toMDP φ).rows s, σ l s r ≠ 0 → lookahead rf.sys x r.1 = x s.1)
    (l : List (Fin rf.sys.N × Fin rf.sys.C)) (s : Fin rf.sys.N) (r) (hr : r ∈ (h.full φ).rows s) (hne : σ l s r ≠ 0) :
    (h.full φ).step V s r = V s := by
  rcases h.cases_state s with ⟨s, rfl⟩ | rfl | rfl
  · have he := ht l (RFOK.emb s) s.2 r hr hne
    obtain ⟨r, hr', rfl⟩ := (h.rows_emb φ).1 hr
    rw [← lookahead_step h φ hx h1 h0, ← hx]
    exact congrArg φ he
  · rw [h.step_goal, h1]
  · exact h.step_fail φ V hr

/-- a memoryless strategy with extremal values uses tight actions only -/
theorem tight_of_eq {x : Nat → K} {V : Fin rf.sys.N → ℝ} (hx : ∀ s : Fin rf.N, φ (x s.1) = V (RFOK.emb s))
    (h1 : V h.goal = 1) (h0 : V h.fail' = 0) {σ : Fin rf.sys.N → Fin rf.sys.C → ℝ} (hσ : (h.full φ).IsSched fun _ => σ)
    (hV : ∀ s, (h.full φ).tot (fun _ => σ) s = V s)
    (hb : (∀ s, ∀ r ∈ (h.full φ).rows s, V s ≤ (h.full φ).step V s r) ∨ (∀ s, ∀ r ∈ (h.full φ).rows s, (h.full φ).step V s r ≤ V s))
    (s : Fin rf.sys.N) (hs : s.1 < rf.sys.N - 2) (r : Fin rf.sys.C) (hr : r ∈ (rf.sys.toMDP φ).rows s) (hne : σ s r ≠ 0) :
    lookahead rf.sys x r.1 = x s.1 := by
  have hsub := h.full_sub φ
  have he := Core.tot_mem_eq hsub.toOK hsub.bound hσ s
  have hfun : ((h.full φ).tot fun _ => σ) = V := funext hV
  rw [hfun] at he
  have hsum : ∑ r ∈ (h.full φ).rows s, σ s r * ((h.full φ).step V s r - V s) = 0 := by
    simp only [mul_sub]
    rw [Finset.sum_sub_distrib, ← he, ← Finset.sum_mul, hσ.sum_one [] s, one_mul, sub_self]
  have hr' : r ∈ (h.full φ).rows s := hr
  have hstep : (h.full φ).step V s r = V s := by
    have hz : σ s r * ((h.full φ).step V s r - V s) = 0 := by
      rcases hb with hb | hb
      · exact (Finset.sum_eq_zero_iff_of_nonneg fun r hr => mul_nonneg (hσ.nonneg [] s r hr) (sub_nonneg.2 (hb s r hr))).1 hsum r hr'
      · exact (Finset.sum_eq_zero_iff_of_nonpos fun r hr =>
          mul_nonpos_of_nonneg_of_nonpos (hσ.nonneg [] s r hr) (sub_nonpos.2 (hb s r hr))).1 hsum r hr'
    exact sub_eq_zero.1 ((mul_eq_zero.1 hz).resolve_left hne)
  obtain ⟨r, hc, rfl⟩ := (h.rows_emb φ (s := ⟨s.1, hs⟩)).1 hr'
  have e1 := lookahead_step h φ hx h1 h0 ⟨s.1, hs⟩ r
  have e2 : RFOK.emb (⟨s.1, hs⟩ : Fin rf.N) = s := rfl
  have e3 := hx ⟨s.1, hs⟩
  rw [e2] at e1 e3
  rw [hstep, ← e3] at e1
  exact (phi_strict φ).injective e1

end

theorem maxZ_lookahead (x : Nat → K) (k : Nat) : rf.maxZStateAction x k = lookahead rf.sys x k := by
  unfold RF.maxZStateAction lookahead
  rw [list_sum_range, add_comm]
  rfl

/-- the probability that the runs visit the target, in the core of the whole system -/
theorem runs_full (h : RFOK rf) (φ : K →+*o ℝ) {σ : Sched (Fin rf.sys.N) (Fin rf.sys.C)} (hσ : (rf.sys.toMDP φ).IsSched σ) {s : Fin rf.sys.N}
    {μ : Measure (ℕ → Fin rf.sys.N × Fin rf.sys.C)} (hμ : (rf.sys.toMDP φ).IsRuns σ s μ) :
    μ.real (runsTo (rf.sys.stateSet (rf.sys.labelled rf.targetL))) = (h.full φ).tot σ s := by
  rw [real_runsTo (WF.valid h.wf φ h.total) hσ hμ, stateSet_goal h]
  exact Bridge.reach_eq (WF.valid h.wf φ h.total) {h.goal} hσ s

theorem prMin_full (h : RFOK rf) (φ : K →+*o ℝ) (s : Fin rf.sys.N) :
    rf.sys.prMin φ (rf.sys.labelled rf.targetL) s.1 = (h.full φ).Vmin s := by
  have e : rf.sys.prMin φ (rf.sys.labelled rf.targetL) s.1 = (rf.sys.toMDP φ).PrMin (rf.sys.stateSet (rf.sys.labelled rf.targetL)) s := by
    unfold Sys.prMin Sys.stateSet; rw [dif_pos s.2]
  rw [e, stateSet_goal h]
  exact Bridge.PrMin_eq (WF.valid h.wf φ h.total) {h.goal} s

theorem prMax_full (h : RFOK rf) (φ : K →+*o ℝ) (s : Fin rf.sys.N) :
    rf.sys.prMax φ (rf.sys.labelled rf.targetL) s.1 = (h.full φ).Vmax s := by
  have e : rf.sys.prMax φ (rf.sys.labelled rf.targetL) s.1 = (rf.sys.toMDP φ).PrMax (rf.sys.stateSet (rf.sys.labelled rf.targetL)) s := by
    unfold Sys.prMax Sys.stateSet; rw [dif_pos s.2]
  rw [e, stateSet_goal h]
  exact Bridge.PrMax_eq (WF.valid h.wf φ h.total) {h.goal} s

section
variable (hM : M.WF) (hrf : RF.make ρ M il tl fl false = .ok rf) (φ : K →+*o ℝ) {lp : Milp K} {x : Nat → K} (hx : lp.Optimal x)
  {i : Nat} (hi : i ∈ M.labelled il) (hit : i ∉ M.labelled tl)
include hM hrf hx hi hit

/-- **C118 (pr_min).** A strategy - whatever else it depends on - that takes only actions whose entry in `max_z_state_action`
is the entry of their state in `max_z_state` has the smallest probability of visiting the target, from every state. -/
theorem C118_pr_min (hlp : rf.maxZLP = .ok lp) {σ : Sched (Fin M.N) (Fin M.C)} (hσ : (M.toMDP φ).IsSched σ)
    (ht : ∀ l s, s.1 < M.N - 2 → ∀ r ∈ (M.toMDP φ).rows s, σ l s r ≠ 0 → rf.maxZStateAction x r.1 = x s.1) {s : Fin M.N}
    {μ : Measure (ℕ → Fin M.N × Fin M.C)} (hμ : (M.toMDP φ).IsRuns σ s μ) :
    μ.real (runsTo (M.stateSet (M.labelled tl))) = M.prMin φ (M.labelled tl) s.1 := by
  have h := rfok_built hM hrf
  obtain ⟨lp', g1, -, g2⟩ := C28_pr_min hM hrf φ hi hit
  obtain rfl : lp = lp' := Except.ok.inj (hlp.symm.trans g1)
  have hxs := g2 x hx
  obtain ⟨rfl, -, rfl, -, -⟩ := make_fields hrf
  have hsub := h.full_sub φ
  have hσ' : (h.full φ).IsSched σ := (Bridge.isSched_iff _ _).2 hσ
  simp only [maxZ_lookahead] at ht
  rw [runs_full h φ hσ hμ, prMin_full h]
  refine le_antisymm (Core.tot_le_of_tight hsub.toOK hσ' (Core.Vmin_nonneg hsub.toOK hsub.bound) (fun l s r hr hne => ?_) s)
    (Core.Vmin_le_tot hsub.toOK hsub.bound hσ' s)
  exact (tight_full h φ (fun s => (hxs s.1 s.2).trans (prMin_full h φ (RFOK.emb s))) (h.Vmin_goal φ) (h.Vmin_fail φ) ht l s r hr hne).le

/-- Conversely, a memoryless strategy with the smallest probabilities from all states takes only such actions. -/
theorem C118_pr_min_only (hlp : rf.maxZLP = .ok lp) {σ : Fin M.N → Fin M.C → ℝ} (hσ : (M.toMDP φ).IsSched fun _ => σ)
    (hopt : ∀ s μ, (M.toMDP φ).IsRuns (fun _ => σ) s μ → μ.real (runsTo (M.stateSet (M.labelled tl))) = M.prMin φ (M.labelled tl) s.1)
    {s : Fin M.N} (hs : s.1 < M.N - 2) {r : Fin M.C} (hr : r ∈ (M.toMDP φ).rows s) (hne : σ s r ≠ 0) :
    rf.maxZStateAction x r.1 = x s.1 := by
  have h := rfok_built hM hrf
  obtain ⟨lp', g1, -, g2⟩ := C28_pr_min hM hrf φ hi hit
  obtain rfl : lp = lp' := Except.ok.inj (hlp.symm.trans g1)
  have hxs := g2 x hx
  obtain ⟨rfl, -, rfl, -, -⟩ := make_fields hrf
  have hsub := h.full_sub φ
  rw [maxZ_lookahead]
  refine tight_of_eq h φ (fun s => (hxs s.1 s.2).trans (prMin_full h φ (RFOK.emb s))) (h.Vmin_goal φ) (h.Vmin_fail φ)
    ((Bridge.isSched_iff _ _).2 hσ) (fun s => ?_) (Or.inl fun s r hr => Core.Vmin_le_step hsub.toOK hsub.bound hr) s hs r hr hne
  obtain ⟨μ, hμ⟩ := exists_isRuns (WF.valid hM φ h.total) hσ s
  rw [← runs_full h φ hσ hμ, ← prMin_full h, hopt s μ hμ]

/-- **C118 (pr_max).** If the form has no proper end components, a strategy that takes only actions which attain the entry
of their state in `pr_max` has the largest probability of visiting the target, from every state. -/
theorem C118_pr_max_partial (he : rf.isEcFree = true) (hlp : rf.prMaxLP = .ok lp) {σ : Sched (Fin M.N) (Fin M.C)} (hσ : (M.toMDP φ).IsSched σ)
    (ht : ∀ l s, s.1 < M.N - 2 → ∀ r ∈ (M.toMDP φ).rows s, σ l s r ≠ 0 →
      M.P.get r.1 (M.N - 2) + ∑ d ∈ range (M.N - 2), M.P.get r.1 d * x d = x s.1) {s : Fin M.N}
    {μ : Measure (ℕ → Fin M.N × Fin M.C)} (hμ : (M.toMDP φ).IsRuns σ s μ) :
    μ.real (runsTo (M.stateSet (M.labelled tl))) = M.prMax φ (M.labelled tl) s.1 := by
  have h := rfok_built hM hrf
  obtain ⟨lp', g1, -, g2⟩ := C29_pr_max hM hrf φ hi hit
  obtain rfl : lp = lp' := Except.ok.inj (hlp.symm.trans g1)
  have hxs := g2 x hx
  obtain ⟨rfl, -, rfl, -, -⟩ := make_fields hrf
  have hsub := h.full_sub φ
  have hσ' : (h.full φ).IsSched σ := (Bridge.isSched_iff _ _).2 hσ
  obtain ⟨w, q, q0, q1, w1, w2, w3, w4⟩ := h.exists_weight φ (h.transient_of_ecFree φ he)
  rw [runs_full h φ hσ hμ, prMax_full h]
  refine Core.tot_eq_of_tight hsub.toOK hσ' q0 q1 (by norm_num : (0 : ℝ) ≤ 2) w1 (fun s => ?_) (fun l s r hr hne => ?_) s
  · rw [abs_of_nonneg (Core.Vmax_nonneg hsub.toOK hsub.bound _)]
    have := hsub.Vmax_le_one s
    rcases h.cases_state s with ⟨s, rfl⟩ | rfl | rfl
    · linarith [w2 s]
    · rw [w3]; linarith
    · rw [w4, h.Vmax_fail]; norm_num
  · exact tight_full h φ (fun s => (hxs s.1 s.2).trans (prMax_full h φ (RFOK.emb s))) (h.Vmax_goal φ) (h.Vmax_fail φ) ht l s r hr hne

/-- Conversely - also with end components - a memoryless strategy with the largest probabilities from all states takes only
such actions. -/
theorem C118_pr_max_only (hlp : rf.prMaxLP = .ok lp) {σ : Fin M.N → Fin M.C → ℝ} (hσ : (M.toMDP φ).IsSched fun _ => σ)
    (hopt : ∀ s μ, (M.toMDP φ).IsRuns (fun _ => σ) s μ → μ.real (runsTo (M.stateSet (M.labelled tl))) = M.prMax φ (M.labelled tl) s.1)
    {s : Fin M.N} (hs : s.1 < M.N - 2) {r : Fin M.C} (hr : r ∈ (M.toMDP φ).rows s) (hne : σ s r ≠ 0) :
    M.P.get r.1 (M.N - 2) + ∑ d ∈ range (M.N - 2), M.P.get r.1 d * x d = x s.1 := by
  have h := rfok_built hM hrf
  obtain ⟨lp', g1, -, g2⟩ := C29_pr_max hM hrf φ hi hit
  obtain rfl : lp = lp' := Except.ok.inj (hlp.symm.trans g1)
  have hxs := g2 x hx
  obtain ⟨rfl, -, rfl, -, -⟩ := make_fields hrf
  have hsub := h.full_sub φ
  refine tight_of_eq h φ (fun s => (hxs s.1 s.2).trans (prMax_full h φ (RFOK.emb s))) (h.Vmax_goal φ) (h.Vmax_fail φ)
    ((Bridge.isSched_iff _ _).2 hσ) (fun s => ?_) (Or.inr fun s r hr => Core.step_Vmax_le hsub.toOK hsub.bound hr) s hs r hr hne
  obtain ⟨μ, hμ⟩ := exists_isRuns (WF.valid hM φ h.total) hσ s
  rw [← runs_full h φ hσ hμ, ← prMax_full h, hopt s μ hμ]

/-- **C118 (pr_max; false).** Whenever the form has a proper end component, there is a memoryless deterministic strategy that
takes only actions which attain the entry of their state in `pr_max`, but never visits the target from some state from which
the largest probability is positive. -/
theorem C118_pr_max_false (he : rf.isEcFree = false) (hlp : rf.prMaxLP = .ok lp) :
    ∃ (f : Fin M.N → Fin M.C) (s : Fin M.N), (M.toMDP φ).IsSched (detSched f) ∧
      (∀ s, s.1 < M.N - 2 → M.P.get (f s).1 (M.N - 2) + ∑ d ∈ range (M.N - 2), M.P.get (f s).1 d * x d = x s.1) ∧
      0 < M.prMax φ (M.labelled tl) s.1 ∧
      ∀ μ, (M.toMDP φ).IsRuns (detSched f) s μ → μ.real (runsTo (M.stateSet (M.labelled tl))) = 0 := by
  have h := rfok_built hM hrf
  have hlive := RFOK.live' φ (rflive_built hM hrf)
  obtain ⟨lp', g1, -, g2⟩ := C29_pr_max hM hrf φ hi hit
  obtain rfl : lp = lp' := Except.ok.inj (hlp.symm.trans g1)
  have hxs := g2 x hx
  obtain ⟨rfl, -, rfl, -, -⟩ := make_fields hrf
  have hsub := h.full_sub φ
  obtain ⟨s0, E, A, hE, hs0⟩ : ∃ s, (h.core φ).InEC s := by
    by_contra hn
    push Not at hn
    have : rf.isEcFree = true := h.ecFree_iff.2 fun s hs => by
      by_contra hc
      exact hn ⟨s, hs⟩ ((h.inEC_iff φ ⟨s, hs⟩).2 (by simpa using hc))
    rw [he] at this
    cases this
  have hrow : ∀ s ∈ E, ∀ r ∈ A s, ∀ t, (h.full φ).Q (RFOK.emb s) (RFOK.rowEmb r) t ≠ 0 → ∃ t', t = RFOK.emb t' ∧ (h.core φ).Q s r t' ≠ 0 := by
    intro s hs r hr t ht
    have hq : (h.full φ).Q (RFOK.emb s) (RFOK.rowEmb r) t = φ (rf.sys.P.get r.1 t.1) := by
      simp only [RFOK.full, Core.ofMDP, Finset.mem_singleton, h.emb_ne_goal s, if_false]
      rfl
    rw [hq] at ht
    have h1 : ∑ t : Fin rf.N, φ (rf.P r.1 t.1) = 1 := hE.full s hs r hr
    have h2 := h.row_sum φ (RFOK.lt_C r.2)
    have h3 : 0 ≤ φ (rf.b r.1) := (phi_nonneg φ).2 (h.b_nonneg _)
    have h4 : 0 ≤ φ (rf.sys.P.get r.1 (rf.sys.N - 1)) := (phi_nonneg φ).2 (WF.get_nonneg h.wf _ _)
    rcases h.cases_state t with ⟨t, rfl⟩ | rfl | rfl
    · exact ⟨t, rfl, ht⟩
    · refine absurd ?_ ht
      have : φ (rf.b r.1) = 0 := by linarith
      exact this
    · refine absurd ?_ ht
      have : φ (rf.sys.P.get r.1 (rf.sys.N - 1)) = 0 := by linarith
      exact this
  have hinj : ∀ {a b : Fin rf.N}, RFOK.emb a = RFOK.emb b → a = b := fun {a b} e => by
    simp only [RFOK.emb, Fin.mk.injEq] at e
    exact Fin.ext e
  obtain ⟨f, f1, s, ⟨s, hs, rfl⟩, f2⟩ := Core.exists_tight_zero hsub (E := RFOK.emb '' E)
    (A := fun u => {k | ∃ s r, u = RFOK.emb s ∧ k = RFOK.rowEmb r ∧ r ∈ A s}) (hE.nonempty.image _)
    (by
      rintro _ ⟨s, hs, rfl⟩
      obtain ⟨r, hr⟩ := hE.act s hs
      exact ⟨RFOK.rowEmb r, s, r, rfl, rfl, hr⟩)
    (by
      rintro _ ⟨s, hs, rfl⟩ _ ⟨s', r, e, rfl, hr⟩
      obtain rfl := hinj e
      exact (h.rows_emb φ).2 ⟨r, hE.avail s hs r hr, rfl⟩)
    (by
      rintro _ ⟨s, hs, rfl⟩ _ ⟨s', r, e, rfl, hr⟩
      obtain rfl := hinj e
      have hq : ∀ t, (h.full φ).Q (RFOK.emb s) (RFOK.rowEmb r) t = φ (rf.sys.P.get r.1 t.1) := fun t => by
        simp only [RFOK.full, Core.ofMDP, Finset.mem_singleton, h.emb_ne_goal s, if_false]
        rfl
      simp only [hq]
      rw [Fin.sum_univ_eq_sum_range (fun t => φ (rf.sys.P.get r.1 t)), ← map_sum, h.wf.sum r.1 (RFOK.lt_C r.2), map_one])
    (by
      rintro _ ⟨s, hs, rfl⟩ _ ⟨s', r, e, rfl, hr⟩ t ht
      obtain rfl := hinj e
      obtain ⟨t', rfl, h1⟩ := hrow s hs r hr t ht.ne'
      exact ⟨t', hE.closed s hs r hr t' (lt_of_le_of_ne ((h.sub φ).Q0 s r (hE.avail s hs r hr) t') (Ne.symm h1)), rfl⟩)
  have : Nonempty (Fin rf.sys.N) := ⟨RFOK.emb s⟩
  have hσ : (rf.sys.toMDP φ).IsSched (detSched f) := detSched_valid fun s => (f1 s).1
  refine ⟨f, RFOK.emb s, hσ, fun u hu => ?_, ?_, fun μ hμ => ?_⟩
  · have h1 := f1 u
    obtain ⟨r, -, h2⟩ := (h.rows_emb φ (s := ⟨u.1, hu⟩)).1 h1.1
    have e1 := lookahead_step h φ (x := x) (fun s => (hxs s.1 s.2).trans (prMax_full h φ (RFOK.emb s))) (h.Vmax_goal φ) (h.Vmax_fail φ) ⟨u.1, hu⟩ r
    rw [← h2] at e1
    have e2 : (h.full φ).step (h.full φ).Vmax (RFOK.emb ⟨u.1, hu⟩) (f u) = (h.full φ).Vmax u := h1.2
    rw [e2, ← prMax_full h, ← hxs u.1 hu] at e1
    rw [h2]
    exact (phi_strict φ).injective e1
  · rw [prMax_full h, h.Vmax_emb]
    exact Core.Live.Vmax_pos (h.sub φ) hlive s
  · rw [runs_full h φ hσ hμ, f2]

end

/-! ### expected rewards -/

section
variable {ρ' : Graph.Rnd} {res : RRF.Result K}

/-- the expectation of the reward collected before the target is visited is a value of the core -/
theorem rew_runs (hM : RewardInput M) (h : RRF.reduce ρ ρ' M il tl = .ok res) (φ : K →+*o ℝ)
    {σ : Sched (Fin res.rrf.rf.sys.N) (Fin res.rrf.rf.sys.C)} (hσ : (res.rrf.rf.sys.toMDP φ).IsSched σ) (s : Fin res.rrf.rf.N)
    {μ : Measure (ℕ → Fin res.rrf.rf.sys.N × Fin res.rrf.rf.sys.C)} (hμ : (res.rrf.rf.sys.toMDP φ).IsRuns σ (RFOK.emb s) μ) :
    ∫⁻ ω, collected (fun r => res.rrf.rf.sys.rewardAt φ r.1) (res.rrf.rf.sys.stateSet (res.rrf.rf.sys.labelled "rf_target")) ω ∂μ =
      ENNReal.ofReal (((rew_built hM h).ok.core φ).tot (RRFOK.restr σ) s) := by
  have b := rew_built hM h
  obtain ⟨v, w1, w2, w3⟩ := b.rew
  have h0 : ∀ t, ∀ r ∈ (res.rrf.rf.sys.toMDP φ).rows t, 0 ≤ res.rrf.rf.sys.rewardAt φ r.1 :=
    fun _ r _ => rewardAt_nonneg φ (fun r e => by rw [w1] at e; cases e; exact w3) _
  have hfin := (C50_finite hM h φ s.1 s.2).1 (RFOK.emb s).2 σ hσ
  rw [lintegral_collected (WF.valid b.ok.ok.wf φ b.ok.ok.total) hσ hμ h0 _ hfin, ← b.target, stateSet_goal b.ok.ok,
    b.ok.rew_emb φ (fun r => (b.rew_at φ r.2).symm)]

/-- a strategy that follows a flow collects at least its gain -/
theorem rflow_le (b : RewBuilt M il tl res) (φ : K →+*o ℝ) {y : Nat → K} {σ : Fin res.rrf.rf.sys.N → Fin res.rrf.rf.sys.C → ℝ}
    (hσ : (res.rrf.rf.sys.toMDP φ).IsSched fun _ => σ) (hf : Follows φ res.rrf.rf.sys y σ)
    (hb : ∀ t, (b.ok.ok.core φ).bal (RFOK.vecY φ y) t ≤ if t = ⟨_, b.init⟩ then 1 else 0) :
    φ (rgain res.rrf y) ≤ (b.ok.core φ).tot (RRFOK.restr fun _ => σ) ⟨_, b.init⟩ := by
  obtain ⟨B, hB⟩ := b.ok.exists_bound φ
  have hq := b.ok.qsub φ
  have hs := b.ok.restr_sched φ hσ
  have key := Core.gain_eq_of_follows (M := b.ok.core φ) (y := RFOK.vecY φ y) (Y := fun s => ∑ r' ∈ (b.ok.core φ).rows s, φ (y r'.1))
    (x := (b.ok.core φ).tot (RRFOK.restr fun _ => σ)) (σ := fun s r => σ (RFOK.emb s) (RFOK.rowEmb r)) (fun s => hs.sum_one [] s)
    (fun s r hr => by
      have h1 := hf (RFOK.emb s) s.2 (RFOK.rowEmb r) ((b.ok.ok.rows_emb φ).2 ⟨r, hr, rfl⟩)
      have h3 : ∑ r' ∈ (res.rrf.rf.sys.toMDP φ).rows (RFOK.emb s), φ (y r'.1) = ∑ r' ∈ (b.ok.core φ).rows s, φ (y r'.1) :=
        b.ok.ok.sum_rows_emb φ (fun r => φ (y r.1)) s
      rw [h3] at h1
      rw [mul_comm]
      exact h1.symm) (fun s _ => Core.tot_mem_eq hq.toOK hB hs s)
  rw [b.ok.rgain_eq φ, key]
  have h0 : ∀ t, 0 ≤ (b.ok.core φ).tot (RRFOK.restr fun _ => σ) t := fun t =>
    (Core.Vmin_nonneg hq.toOK hB t).trans (Core.Vmin_le_tot hq.toOK hB hs t)
  calc _ ≤ ∑ t : Fin res.rrf.rf.N, (b.ok.core φ).tot (RRFOK.restr fun _ => σ) t * if t = ⟨_, b.init⟩ then 1 else 0 :=
        Finset.sum_le_sum fun t _ => mul_le_mul_of_nonneg_left (hb t) (h0 t)
    _ = _ := by simp

/-- a strategy that takes tight actions only has the given values -/
theorem rtight (b : RewBuilt M il tl res) (φ : K →+*o ℝ) {x : Nat → K} {σ : Sched (Fin res.rrf.rf.sys.N) (Fin res.rrf.rf.sys.C)}
    (hσ : (res.rrf.rf.sys.toMDP φ).IsSched σ)
    (ht : ∀ l s, s.1 < res.rrf.rf.sys.N - 2 → ∀ r ∈ (res.rrf.rf.sys.toMDP φ).rows s, σ l s r ≠ 0 →
      φ (res.rrf.rew.getD r.1 0) + ∑ d ∈ range res.rrf.rf.N, φ (res.rrf.rf.P r.1 d * x d) = φ (x s.1)) (s : Fin res.rrf.rf.N) :
    (b.ok.core φ).tot (RRFOK.restr σ) s = φ (x s.1) := by
  refine Core.tot_eq_of_tight_transient (b.ok.qsub φ) (b.ok.transient φ) (b.ok.restr_sched φ hσ) (x := fun s => φ (x s.1))
    (fun l s r hr hne => ?_) s
  have h1 := ht _ (RFOK.emb s) s.2 (RFOK.rowEmb r) ((b.ok.ok.rows_emb φ).2 ⟨r, hr, rfl⟩) hne
  refine Eq.trans ?_ h1
  show _ = φ (res.rrf.rew.getD r.1 0) + ∑ d ∈ range res.rrf.rf.N, φ (res.rrf.rf.P r.1 d * x d)
  rw [← Fin.sum_univ_eq_sum_range (fun d => φ (res.rrf.rf.P r.1 d * x d))]
  simp only [map_mul]
  rfl

/-- **C118 (reward certificates).** Every strategy that follows an accepted certificate for `Rew_max >= t` (`> t`) without
negative entries collects an expected reward of at least (more than) `t`. -/
theorem C118_reward_certificate (hM : RewardInput M) (h : RRF.reduce ρ ρ' M il tl = .ok res) (φ : K →+*o ℝ) {v : List K}
    {i : Fin res.rrf.rf.sys.N} (hi : res.rrf.rf.sys.statesByLabel il = .ok [i.1]) {σ : Fin res.rrf.rf.sys.N → Fin res.rrf.rf.sys.C → ℝ}
    (hσ : (res.rrf.rf.sys.toMDP φ).IsSched fun _ => σ) (hf : Follows φ res.rrf.rf.sys (fun k => v.getD k 0) σ)
    {μ : Measure (ℕ → Fin res.rrf.rf.sys.N × Fin res.rrf.rf.sys.C)} (hμ : (res.rrf.rf.sys.toMDP φ).IsRuns (fun _ => σ) i μ) :
    (res.rrf.check .max .ge t v 0 = .ok true → ENNReal.ofReal (φ t) ≤
      ∫⁻ ω, collected (fun r => res.rrf.rf.sys.rewardAt φ r.1) (res.rrf.rf.sys.stateSet (res.rrf.rf.sys.labelled "rf_target")) ω ∂μ) ∧
    (res.rrf.check .max .gt t v 0 = .ok true → ENNReal.ofReal (φ t) <
      ∫⁻ ω, collected (fun r => res.rrf.rf.sys.rewardAt φ r.1) (res.rrf.rf.sys.stateSet (res.rrf.rf.sys.labelled "rf_target")) ω ∂μ) := by
  have b := rew_built hM h
  obtain rfl : i = RFOK.emb ⟨_, b.init⟩ := Fin.ext (show i.1 = res.rrf.rf.initial by simpa using hi.symm.trans b.initL)
  rw [rew_runs hM h φ hσ _ hμ]
  have key : ∀ strict : Bool, res.rrf.check .max (if strict then .gt else .ge) t v 0 = .ok true → 0 ≤ φ t ∧
      φ t ≤ (b.ok.core φ).tot (RRFOK.restr fun _ => σ) ⟨_, b.init⟩ ∧
      (strict = true → φ t < (b.ok.core φ).tot (RRFOK.restr fun _ => σ) ⟨_, b.init⟩) := by
    intro strict hc
    obtain ⟨ht, -, -, hrow, h1, h2⟩ := (rcheck_max_ge b.ok.len).1 hc
    have hz := (RFOK.yrow_le_iff b.ok.ok φ b.init _ _).1 hrow
    simp only [map_zero, add_zero] at hz
    simp only [sub_zero] at h1 h2
    have := rflow_le b φ hσ hf hz
    exact ⟨(phi_nonneg φ).2 ht.1, le_trans (OrderHomClass.mono φ h1) this, fun hs => lt_of_lt_of_le (phi_strict φ (h2 hs)) this⟩
  refine ⟨fun hc => ENNReal.ofReal_le_ofReal (key false hc).2.1, fun hc => ?_⟩
  obtain ⟨g1, -, g2⟩ := key true hc
  exact (ENNReal.ofReal_lt_ofReal_iff (g1.trans_lt (g2 rfl))).2 (g2 rfl)

/-- **C118 (max_y_state_action, rewards).** Every strategy that follows the vector returned by `max_y_state_action` of a reward
form collects the largest expected reward possible. -/
theorem C118_reward_max_y (hM : RewardInput M) (h : RRF.reduce ρ ρ' M il tl = .ok res) (φ : K →+*o ℝ) {lp : Milp K}
    (hlp : res.rrf.maxYLP = .ok lp) {y : Nat → K} (hy : lp.Optimal y)
    {i : Fin res.rrf.rf.sys.N} (hi : res.rrf.rf.sys.statesByLabel il = .ok [i.1]) {σ : Fin res.rrf.rf.sys.N → Fin res.rrf.rf.sys.C → ℝ}
    (hσ : (res.rrf.rf.sys.toMDP φ).IsSched fun _ => σ) (hf : Follows φ res.rrf.rf.sys y σ)
    {μ : Measure (ℕ → Fin res.rrf.rf.sys.N × Fin res.rrf.rf.sys.C)} (hμ : (res.rrf.rf.sys.toMDP φ).IsRuns (fun _ => σ) i μ) :
    ∫⁻ ω, collected (fun r => res.rrf.rf.sys.rewardAt φ r.1) (res.rrf.rf.sys.stateSet (res.rrf.rf.sys.labelled "rf_target")) ω ∂μ =
      ENNReal.ofReal (res.rrf.rf.sys.rewMax φ (res.rrf.rf.sys.labelled "rf_target") i.1) := by
  have b := rew_built hM h
  obtain rfl : i = RFOK.emb ⟨_, b.init⟩ := Fin.ext (show i.1 = res.rrf.rf.initial by simpa using hi.symm.trans b.initL)
  obtain ⟨B, hB⟩ := b.ok.exists_bound φ
  have e := b.rewMax_eq φ ⟨_, b.init⟩
  obtain ⟨i', lp', g0, g1, -, g2⟩ := C50_max_y hM h φ
  obtain rfl : lp = lp' := Except.ok.inj (hlp.symm.trans g1)
  obtain rfl : i' = res.rrf.rf.initial := by simpa using g0.symm.trans b.initL
  obtain ⟨lp', g1, -, -, g4⟩ := rmaxYLP_ok b.init b.ok.len
  obtain rfl : lp = lp' := Except.ok.inj (hlp.symm.trans g1)
  obtain ⟨hrow, -, -⟩ := (g4 y).1 hy.1
  have hz := (RFOK.yrow_le_iff b.ok.ok φ b.init y 0).1 (fun j hj => by rw [sub_zero]; exact hrow j hj)
  simp only [map_zero, add_zero] at hz
  have h1 := rflow_le b φ hσ hf hz
  have hgain : φ (rgain res.rrf y) = (b.ok.core φ).Vmax ⟨_, b.init⟩ := by
    refine Eq.trans ?_ ((g2 y hy).2.trans e)
    unfold rgain
    rw [map_sum]
    refine Finset.sum_congr rfl fun k hk => ?_
    rw [map_mul, b.rew_at φ (Finset.mem_range.1 hk)]
  rw [rew_runs hM h φ hσ _ hμ]
  congr 1
  refine Eq.trans (le_antisymm ?_ ?_) e.symm
  · exact Core.tot_le_Vmax (b.ok.qsub φ).toOK hB (b.ok.restr_sched φ hσ) _
  · rw [← hgain]; exact h1

/-- **C118 (rew_min).** A strategy that takes only actions whose entry in `max_z_state_action` is the entry of their state in
`max_z_state` collects the smallest expected reward possible, from every state besides target and fail. -/
theorem C118_rew_min (hM : RewardInput M) (h : RRF.reduce ρ ρ' M il tl = .ok res) (φ : K →+*o ℝ) {lp : Milp K}
    (hlp : res.rrf.maxZLP = .ok lp) {x : Nat → K} (hx : lp.Optimal x)
    {σ : Sched (Fin res.rrf.rf.sys.N) (Fin res.rrf.rf.sys.C)} (hσ : (res.rrf.rf.sys.toMDP φ).IsSched σ)
    (ht : ∀ l s, s.1 < res.rrf.rf.sys.N - 2 → ∀ r ∈ (res.rrf.rf.sys.toMDP φ).rows s, σ l s r ≠ 0 → res.rrf.maxZStateAction x r.1 = x s.1)
    {s : Fin res.rrf.rf.sys.N} (hs : s.1 < res.rrf.rf.sys.N - 2)
    {μ : Measure (ℕ → Fin res.rrf.rf.sys.N × Fin res.rrf.rf.sys.C)} (hμ : (res.rrf.rf.sys.toMDP φ).IsRuns σ s μ) :
    ∫⁻ ω, collected (fun r => res.rrf.rf.sys.rewardAt φ r.1) (res.rrf.rf.sys.stateSet (res.rrf.rf.sys.labelled "rf_target")) ω ∂μ =
      ENNReal.ofReal (res.rrf.rf.sys.rewMin φ (res.rrf.rf.sys.labelled "rf_target") s.1) := by
  have b := rew_built hM h
  obtain ⟨lp', g1, -, g2⟩ := C50_rew_min hM h φ
  obtain rfl : lp = lp' := Except.ok.inj (hlp.symm.trans g1)
  have hxs := g2 x hx
  have e : s = RFOK.emb (⟨s.1, hs⟩ : Fin res.rrf.rf.N) := rfl
  rw [e] at hμ
  rw [rew_runs hM h φ hσ _ hμ, ← hxs s.1 hs]
  congr 1
  refine (rtight b φ hσ fun l s hs r hr hne => ?_) ⟨s.1, hs⟩
  rw [← ht l s hs r hr hne]
  unfold RRF.maxZStateAction
  rw [list_sum_range, map_add, map_sum, add_comm]
  rfl

/-- **C118 (rew_max).** A strategy that takes only actions which attain the entry of their state in `rew_max` collects the largest
expected reward possible, from every state besides target and fail. -/
theorem C118_rew_max (hM : RewardInput M) (h : RRF.reduce ρ ρ' M il tl = .ok res) (φ : K →+*o ℝ) {lp : Milp K}
    (hlp : res.rrf.rewMaxLP = .ok lp) {x : Nat → K} (hx : lp.Optimal x)
    {σ : Sched (Fin res.rrf.rf.sys.N) (Fin res.rrf.rf.sys.C)} (hσ : (res.rrf.rf.sys.toMDP φ).IsSched σ)
    (ht : ∀ l s, s.1 < res.rrf.rf.sys.N - 2 → ∀ r ∈ (res.rrf.rf.sys.toMDP φ).rows s, σ l s r ≠ 0 →
      res.rrf.rf.sys.rewardAt φ r.1 + ∑ d ∈ range (res.rrf.rf.sys.N - 2), φ (res.rrf.rf.sys.P.get r.1 d) * φ (x d) = φ (x s.1))
    {s : Fin res.rrf.rf.sys.N} (hs : s.1 < res.rrf.rf.sys.N - 2)
    {μ : Measure (ℕ → Fin res.rrf.rf.sys.N × Fin res.rrf.rf.sys.C)} (hμ : (res.rrf.rf.sys.toMDP φ).IsRuns σ s μ) :
    ∫⁻ ω, collected (fun r => res.rrf.rf.sys.rewardAt φ r.1) (res.rrf.rf.sys.stateSet (res.rrf.rf.sys.labelled "rf_target")) ω ∂μ =
      ENNReal.ofReal (res.rrf.rf.sys.rewMax φ (res.rrf.rf.sys.labelled "rf_target") s.1) := by
  have b := rew_built hM h
  obtain ⟨lp', g1, -, g2⟩ := C50_rew_max hM h φ
  obtain rfl : lp = lp' := Except.ok.inj (hlp.symm.trans g1)
  have hxs := g2 x hx
  have e : s = RFOK.emb (⟨s.1, hs⟩ : Fin res.rrf.rf.N) := rfl
  rw [e] at hμ
  rw [rew_runs hM h φ hσ _ hμ, ← hxs s.1 hs]
  congr 1
  refine (rtight b φ hσ fun l s hs r hr hne => ?_) ⟨s.1, hs⟩
  have hr' : r.1 < res.rrf.rf.C := by
    obtain ⟨r', -, rfl⟩ := (b.ok.ok.rows_emb φ (s := ⟨s.1, hs⟩)).1 hr
    exact r'.2
  rw [← ht l s hs r hr hne, ← b.rew_at φ hr']
  congr 1
  exact Finset.sum_congr rfl fun d _ => map_mul φ _ _

/-- there are tight actions -/
theorem rtight_exists (b : RewBuilt M il tl res) (φ : K →+*o ℝ) {x : Nat → K} {V : Fin res.rrf.rf.N → ℝ} (hx : ∀ s, φ (x s.1) = V s)
    (hV : ∀ s, ∃ r ∈ (b.ok.core φ).rows s, (b.ok.core φ).step V s r = V s) :
    ∃ f : Fin res.rrf.rf.sys.N → Fin res.rrf.rf.sys.C, (∀ s, f s ∈ (res.rrf.rf.sys.toMDP φ).rows s) ∧
      ∀ s, s.1 < res.rrf.rf.sys.N - 2 →
        φ (res.rrf.rew.getD (f s).1 0) + ∑ d ∈ range res.rrf.rf.N, φ (res.rrf.rf.P (f s).1 d * x d) = φ (x s.1) := by
  have hex : ∀ s : Fin res.rrf.rf.sys.N, ∃ r ∈ (res.rrf.rf.sys.toMDP φ).rows s, s.1 < res.rrf.rf.sys.N - 2 →
      φ (res.rrf.rew.getD r.1 0) + ∑ d ∈ range res.rrf.rf.N, φ (res.rrf.rf.P r.1 d * x d) = φ (x s.1) := by
    intro s
    by_cases hs : s.1 < res.rrf.rf.sys.N - 2
    · obtain ⟨r, h1, h2⟩ := hV ⟨s.1, hs⟩
      refine ⟨RFOK.rowEmb r, (b.ok.ok.rows_emb φ (s := ⟨s.1, hs⟩)).2 ⟨r, h1, rfl⟩, fun _ => ?_⟩
      rw [hx ⟨s.1, hs⟩, ← h2]
      show φ (res.rrf.rew.getD r.1 0) + ∑ d ∈ range res.rrf.rf.N, φ (res.rrf.rf.P r.1 d * x d) = _
      rw [← Fin.sum_univ_eq_sum_range (fun d => φ (res.rrf.rf.P r.1 d * x d))]
      simp only [map_mul, hx]
      rfl
    · obtain ⟨r, hr⟩ := (WF.valid b.ok.ok.wf φ b.ok.ok.total).rows_nonempty s
      exact ⟨r, hr, fun h => absurd h hs⟩
  choose f f1 f2 using hex
  exact ⟨f, f1, f2⟩

/-- **C118 (rewards, attained).** Strategies of best actions exist: one memoryless deterministic strategy that meets the condition
of `C118_rew_min` collects the smallest expected reward from all states, and one that meets the condition of `C118_rew_max`
the largest. -/
theorem C118_rew_attained (hM : RewardInput M) (h : RRF.reduce ρ ρ' M il tl = .ok res) (φ : K →+*o ℝ) {lp lp' : Milp K}
    (hlp : res.rrf.maxZLP = .ok lp) (hlp' : res.rrf.rewMaxLP = .ok lp') {x x' : Nat → K} (hx : lp.Optimal x) (hx' : lp'.Optimal x') :
    (∃ f : Fin res.rrf.rf.sys.N → Fin res.rrf.rf.sys.C, (∀ s, f s ∈ (res.rrf.rf.sys.toMDP φ).rows s) ∧
      (∀ s, s.1 < res.rrf.rf.sys.N - 2 → res.rrf.maxZStateAction x (f s).1 = x s.1) ∧
      ∀ s, s.1 < res.rrf.rf.sys.N - 2 → ∀ μ, (res.rrf.rf.sys.toMDP φ).IsRuns (detSched f) s μ →
        ∫⁻ ω, collected (fun r => res.rrf.rf.sys.rewardAt φ r.1) (res.rrf.rf.sys.stateSet (res.rrf.rf.sys.labelled "rf_target")) ω ∂μ =
          ENNReal.ofReal (res.rrf.rf.sys.rewMin φ (res.rrf.rf.sys.labelled "rf_target") s.1)) ∧
    (∃ f : Fin res.rrf.rf.sys.N → Fin res.rrf.rf.sys.C, (∀ s, f s ∈ (res.rrf.rf.sys.toMDP φ).rows s) ∧
      (∀ s, s.1 < res.rrf.rf.sys.N - 2 →
        res.rrf.rf.sys.rewardAt φ (f s).1 + ∑ d ∈ range (res.rrf.rf.sys.N - 2), φ (res.rrf.rf.sys.P.get (f s).1 d) * φ (x' d) = φ (x' s.1)) ∧
      ∀ s, s.1 < res.rrf.rf.sys.N - 2 → ∀ μ, (res.rrf.rf.sys.toMDP φ).IsRuns (detSched f) s μ →
        ∫⁻ ω, collected (fun r => res.rrf.rf.sys.rewardAt φ r.1) (res.rrf.rf.sys.stateSet (res.rrf.rf.sys.labelled "rf_target")) ω ∂μ =
          ENNReal.ofReal (res.rrf.rf.sys.rewMax φ (res.rrf.rf.sys.labelled "rf_target") s.1)) := by
  have b := rew_built hM h
  obtain ⟨B, hB⟩ := b.ok.exists_bound φ
  have hq := (b.ok.qsub φ).toOK
  have hn : Nonempty (Fin res.rrf.rf.sys.N) := ⟨RFOK.emb ⟨_, b.init⟩⟩
  have honly : ∀ {f : Fin res.rrf.rf.sys.N → Fin res.rrf.rf.sys.C} {l s r}, detSched f l s r ≠ 0 → r = f s := fun hne => by
    by_contra hc
    exact hne (by unfold detSched; rw [if_neg hc])
  constructor
  · obtain ⟨lq, g1, -, g2⟩ := C50_rew_min hM h φ
    obtain rfl : lp = lq := Except.ok.inj (hlp.symm.trans g1)
    obtain ⟨f, f1, f2⟩ := rtight_exists b φ (fun s => (g2 x hx s.1 s.2).trans (b.rewMin_eq φ s)) (Core.exists_step_Vmin hq hB)
    have f3 : ∀ s, s.1 < res.rrf.rf.sys.N - 2 → res.rrf.maxZStateAction x (f s).1 = x s.1 := fun s hs => by
      refine (phi_strict φ).injective (Eq.trans ?_ (f2 s hs))
      unfold RRF.maxZStateAction
      rw [list_sum_range, map_add, map_sum, add_comm]
      rfl
    exact ⟨f, f1, f3, fun s hs μ hμ => C118_rew_min hM h φ hlp hx (detSched_valid f1)
      (fun l s hs r _ hne => honly hne ▸ f3 s hs) hs hμ⟩
  · obtain ⟨lq, g1, -, g2⟩ := C50_rew_max hM h φ
    obtain rfl : lp' = lq := Except.ok.inj (hlp'.symm.trans g1)
    obtain ⟨f, f1, f2⟩ := rtight_exists b φ (fun s => (g2 x' hx' s.1 s.2).trans (b.rewMax_eq φ s)) (Core.exists_step_Vmax hq hB)
    have f3 : ∀ s, s.1 < res.rrf.rf.sys.N - 2 → res.rrf.rf.sys.rewardAt φ (f s).1 +
        ∑ d ∈ range (res.rrf.rf.sys.N - 2), φ (res.rrf.rf.sys.P.get (f s).1 d) * φ (x' d) = φ (x' s.1) := fun s hs => by
      have hr' : (f s).1 < res.rrf.rf.C := by
        obtain ⟨r', -, e⟩ := (b.ok.ok.rows_emb φ (s := ⟨s.1, hs⟩)).1 (f1 s)
        rw [e]; exact r'.2
      rw [← f2 s hs, ← b.rew_at φ hr']
      congr 1
      exact Finset.sum_congr rfl fun d _ => (map_mul φ _ _).symm
    exact ⟨f, f1, f3, fun s hs μ hμ => C118_rew_max hM h φ hlp' hx' (detSched_valid f1)
      (fun l s hs r _ hne => honly hne ▸ f3 s hs) hs hμ⟩

/-- **C118 (rewards, least and greatest).** `rew_min` and `rew_max` of a reduced reward model return the least and the greatest
expectation of the reward collected before the target, over all strategies. -/
theorem C118_rew_extremal (hM : RewardInput M) (h : RRF.reduce ρ ρ' M il tl = .ok res) (φ : K →+*o ℝ) {lp lp' : Milp K}
    (hlp : res.rrf.maxZLP = .ok lp) (hlp' : res.rrf.rewMaxLP = .ok lp') {x x' : Nat → K} (hx : lp.Optimal x) (hx' : lp'.Optimal x')
    {s : Nat} (hs : s < res.rrf.rf.sys.N - 2) :
    IsLeast (RunMeans φ res.rrf.rf.sys s (collected (fun r => res.rrf.rf.sys.rewardAt φ r.1)
      (res.rrf.rf.sys.stateSet (res.rrf.rf.sys.labelled "rf_target")))) (ENNReal.ofReal (φ (x s))) ∧
    IsGreatest (RunMeans φ res.rrf.rf.sys s (collected (fun r => res.rrf.rf.sys.rewardAt φ r.1)
      (res.rrf.rf.sys.stateSet (res.rrf.rf.sys.labelled "rf_target")))) (ENNReal.ofReal (φ (x' s))) := by
  have b := rew_built hM h
  have hn : Nonempty (Fin res.rrf.rf.sys.N) := ⟨RFOK.emb ⟨_, b.init⟩⟩
  have hv := WF.valid b.ok.ok.wf φ b.ok.ok.total
  obtain ⟨⟨f, f1, -, f3⟩, ⟨f', f1', -, f3'⟩⟩ := C118_rew_attained hM h φ hlp hlp' hx hx'
  obtain ⟨⟨lq, g1, -, g2⟩, ⟨lq', g1', -, g2'⟩⟩ := C115_rew hM h φ
  obtain rfl : lp = lq := Except.ok.inj (hlp.symm.trans g1)
  obtain rfl : lp' = lq' := Except.ok.inj (hlp'.symm.trans g1')
  obtain ⟨lq, k1, -, k2⟩ := C50_rew_min hM h φ
  obtain rfl : lp = lq := Except.ok.inj (hlp.symm.trans k1)
  obtain ⟨lq', k1', -, k2'⟩ := C50_rew_max hM h φ
  obtain rfl : lp' = lq' := Except.ok.inj (hlp'.symm.trans k1')
  have hN : s < res.rrf.rf.sys.N := by omega
  refine ⟨⟨?_, (g2 x hx s hs).1⟩, ⟨?_, (g2' x' hx' s hs).1⟩⟩
  · obtain ⟨μ, hμ⟩ := exists_isRuns hv (detSched_valid f1) ⟨s, hN⟩
    exact ⟨hN, _, μ, detSched_valid f1, hμ, by rw [k2 x hx s hs, f3 ⟨s, hN⟩ hs μ hμ]⟩
  · obtain ⟨μ, hμ⟩ := exists_isRuns hv (detSched_valid f1') ⟨s, hN⟩
    exact ⟨hN, _, μ, detSched_valid f1', hμ, by rw [k2' x' hx' s hs, f3' ⟨s, hN⟩ hs μ hμ]⟩

end

/-! ### the hypotheses are met -/

/-- an accepted certificate, a strategy that follows it and the measure of its runs (the form has a proper end component) -/
example : ∃ (v : List ℚ) (σ : _) (μ : Measure (ℕ → Fin (exSys ℚ).N × Fin (exSys ℚ).C)),
    check (exRF ℚ) .max .ge (3/4) v 0 = .ok true ∧ ((exSys ℚ).toMDP ratR).IsSched (fun _ => σ) ∧ Follows ratR (exSys ℚ) (fun k => v.getD k 0) σ ∧
      ((exSys ℚ).toMDP ratR).IsRuns (fun _ => σ) ⟨0, by decide⟩ μ ∧
      ratR (3/4) ≤ μ.real (runsTo ((exSys ℚ).stateSet ((exSys ℚ).labelled "goal"))) := by
  have hc : check (exRF ℚ) .max .ge (3/4) [1, 0, 1/2] 0 = .ok true := yes_iff.1 (by decide +kernel)
  have ht : (exSys ℚ).Total := (make_fields exRF_rat).1 ▸ (rfok_built (exSys_wf ℚ) exRF_rat).total
  obtain ⟨σ, h1, h2⟩ := C118_exists (exSys_wf ℚ) ht ratR (v := fun k => [1, 0, 1/2].getD k 0) (fun s a k _ _ _ => by
    rcases k with _ | _ | _ | k <;> norm_num)
  obtain ⟨μ, hμ⟩ := exists_isRuns (WF.valid (exSys_wf ℚ) ratR ht) h1 ⟨0, by decide⟩
  exact ⟨_, σ, μ, hc, h1, h2, hμ, ((C118_max_certificate (exSys_wf ℚ) exRF_rat ratR (by decide +kernel) exInit h1 h2 hμ).1 hc).2⟩

/-- the form has a proper end component, so there are strategies that take only best actions and never visit the target -/
example : ∃ (f : Fin (exSys ℚ).N → Fin (exSys ℚ).C) (s : Fin (exSys ℚ).N), 0 < (exSys ℚ).prMax ratR ((exSys ℚ).labelled "goal") s.1 ∧
    ∀ μ, ((exSys ℚ).toMDP ratR).IsRuns (detSched f) s μ → μ.real (runsTo ((exSys ℚ).stateSet ((exSys ℚ).labelled "goal"))) = 0 := by
  obtain ⟨lp, h1, ⟨x, hx⟩, -⟩ := C29_pr_max (exSys_wf ℚ) exRF_rat ratR exInit exInit_not
  obtain ⟨f, s, -, -, h2, h3⟩ := C118_pr_max_false (exSys_wf ℚ) exRF_rat ratR hx exInit exInit_not (by decide +kernel) h1
  exact ⟨f, s, h2, h3⟩

/-- a memoryless deterministic strategy of best actions for `pr_min` -/
example : ∃ (f : Fin (exSys ℚ).N → Fin (exSys ℚ).C), ∀ s μ, ((exSys ℚ).toMDP ratR).IsRuns (detSched f) s μ →
    μ.real (runsTo ((exSys ℚ).stateSet ((exSys ℚ).labelled "goal"))) = (exSys ℚ).prMin ratR ((exSys ℚ).labelled "goal") s.1 := by
  obtain ⟨lp, h1, ⟨x, hx⟩, h2⟩ := C28_pr_min (exSys_wf ℚ) exRF_rat ratR exInit exInit_not
  have ht : (exSys ℚ).Total := (make_fields exRF_rat).1 ▸ (rfok_built (exSys_wf ℚ) exRF_rat).total
  have hn : Nonempty (Fin (exSys ℚ).N) := ⟨⟨0, by decide⟩⟩
  have hz := (C32_max_z_state_action (exSys_wf ℚ) exRF_rat ratR exInit exInit_not h1 hx).2
  have hex : ∀ s : Fin (exSys ℚ).N, ∃ r ∈ ((exSys ℚ).toMDP ratR).rows s, s.1 < (exSys ℚ).N - 2 → (exRF ℚ).maxZStateAction x r.1 = x s.1 := by
    intro s
    by_cases hs : s.1 < (exSys ℚ).N - 2
    · obtain ⟨a, k, g1, g2, g3⟩ := (hz s.1 hs).2
      refine ⟨⟨k, lt_of_lt_of_le g2 (Nat.sub_le _ _)⟩, ?_, fun _ => ?_⟩
      · simp only [Sys.toMDP, Finset.mem_filter, Finset.mem_univ, true_and]
        exact ⟨a, g1⟩
      · rw [← h2 x hx s.1 hs] at g3
        exact ((phi_strict ratR).injective g3).symm
    · obtain ⟨r, hr⟩ := (WF.valid (exSys_wf ℚ) ratR ht).rows_nonempty s
      exact ⟨r, hr, fun h => absurd h hs⟩
  choose f f1 f2 using hex
  refine ⟨f, fun s μ hμ => C118_pr_min (exSys_wf ℚ) exRF_rat ratR hx exInit exInit_not h1 (detSched_valid f1) (fun l s hs r _ hne => ?_) hμ⟩
  obtain rfl : r = f s := by
    by_contra hc
    exact hne (by unfold detSched; rw [if_neg hc])
  exact f2 s hs

/-- a form without proper end components and a strategy of best actions for `pr_max` -/
example : ∃ (rf : RF ℚ) (x : Nat → ℚ) (f : Fin exactEx.N → Fin exactEx.C), RF.make exRnd exactEx "init" "goal" "fail" false = .ok rf ∧
    rf.isEcFree = true ∧ (exactEx.toMDP ratR).IsSched (detSched f) ∧
    ∀ l s, s.1 < exactEx.N - 2 → ∀ r ∈ (exactEx.toMDP ratR).rows s, detSched f l s r ≠ 0 →
      exactEx.P.get r.1 (exactEx.N - 2) + ∑ d ∈ range (exactEx.N - 2), exactEx.P.get r.1 d * x d = x s.1 := by
  obtain ⟨rf, hrf, he⟩ := exactEx_ok
  have hi : 0 ∈ exactEx.labelled "init" := ⟨[0], by decide +kernel, by simp⟩
  have ht : exactEx.Total := (make_fields hrf).1 ▸ (rfok_built exactEx_wf hrf).total
  have hn : Nonempty (Fin exactEx.N) := ⟨⟨0, by decide⟩⟩
  obtain ⟨lp, h1, ⟨x, hx⟩, -⟩ := C29_pr_max exactEx_wf hrf ratR hi (exactEx_init 0 hi)
  obtain ⟨f, f1, f2⟩ := C60_memoryless_max (WF.valid exactEx_wf ratR ht) (exactEx.stateSet (exactEx.labelled "goal"))
  have hσ : (exactEx.toMDP ratR).IsSched (detSched f) := detSched_valid f1
  refine ⟨rf, x, f, hrf, he, hσ, fun l s hs r hr hne => ?_⟩
  refine C118_pr_max_only exactEx_wf hrf ratR hx hi (exactEx_init 0 hi) h1 (σ := detSched f []) hσ (fun s μ hμ => ?_) hs hr hne
  rw [C115_reach exactEx_wf ht ratR hσ hμ, f2]
  unfold Sys.prMax Sys.stateSet
  rw [dif_pos s.2]

/-- a reward model, the optimal flow and a strategy that follows it -/
example : ∃ (res : RRF.Result ℚ) (σ : _) (i : Fin res.rrf.rf.sys.N) (μ : Measure (ℕ → Fin res.rrf.rf.sys.N × Fin res.rrf.rf.sys.C)),
    RRF.reduce exRnd exRnd (rwSys 2) "start" "goal" = .ok res ∧ (res.rrf.rf.sys.toMDP ratR).IsRuns (fun _ => σ) i μ ∧
    ∫⁻ ω, collected (fun r => res.rrf.rf.sys.rewardAt ratR r.1) (res.rrf.rf.sys.stateSet (res.rrf.rf.sys.labelled "rf_target")) ω ∂μ =
      ENNReal.ofReal (res.rrf.rf.sys.rewMax ratR (res.rrf.rf.sys.labelled "rf_target") i.1) := by
  obtain ⟨res, h⟩ := rwSys_ok (c := 2) zero_le_two exRnd exRnd
  have b := rew_built (rwSys_input zero_le_two) h
  obtain ⟨i, lp, h1, h2, ⟨y, hy⟩, -⟩ := C50_max_y (rwSys_input zero_le_two) h ratR
  obtain ⟨lp', g1, -, -, g4⟩ := rmaxYLP_ok b.init b.ok.len
  obtain rfl : lp = lp' := Except.ok.inj (h2.symm.trans g1)
  obtain rfl : i = res.rrf.rf.initial := by simpa using h1.symm.trans b.initL
  have hf := (WF.valid b.ok.ok.wf ratR b.ok.ok.total)
  obtain ⟨σ, s1, s2⟩ := C118_exists b.ok.ok.wf b.ok.ok.total ratR (v := y) (fun s a k hk hC hs => by
    have hs' : s < res.rrf.rf.sys.N := lt_of_lt_of_le hs (Nat.sub_le _ _)
    obtain ⟨r, -, hr⟩ := (b.ok.ok.rows_emb ratR (s := ⟨s, hs⟩) (i := ⟨k, hC⟩)).1 (by
      show _ ∈ (res.rrf.rf.sys.toMDP ratR).rows _
      simp only [Sys.toMDP, Finset.mem_filter, Finset.mem_univ, true_and]
      exact ⟨a, hk⟩)
    have hk' : k = r.1 := congrArg Fin.val hr
    exact hk' ▸ ((g4 y).1 hy.1).2.2 r.1 r.2)
  obtain ⟨μ, hμ⟩ := exists_isRuns hf s1 (RFOK.emb ⟨_, b.init⟩)
  exact ⟨res, σ, _, μ, h, hμ, C118_reward_max_y (rwSys_input zero_le_two) h ratR h2 hy (i := RFOK.emb ⟨_, b.init⟩) h1 s1 s2 hμ⟩

end Verif.Props
