import Verif.Theory.Paths
import Verif.Spec.Rew
import Verif.Spec.RewWithin
import Verif.Spec.Within
/-!
# Expected payoffs of runs

A payoff `g` is collected in every step up to and including the first step in a set `Z`.  The probabilities and expected rewards
of the specification are of this form.
-/
namespace Verif.Spec
open MeasureTheory
set_option linter.unusedSectionVars false

variable {S R : Type} [Fintype S] [Fintype R] [MeasurableSpace S] [MeasurableSingletonClass S] [MeasurableSpace R]
  [MeasurableSingletonClass R]
variable {M : MDP S R} {σ : Sched S R} {s : S} {μ : Measure (ℕ → S × R)}

open Classical in
/-- expected payoff of `n` steps -/
noncomputable def MDP.gainN (M : MDP S R) (g : S → R → ℝ) (Z : Finset S) (σ : Sched S R) : ℕ → List (S × R) → S → ℝ
  | 0, _, _ => 0
  | n + 1, h, s => ∑ r ∈ M.rows s, σ h s r * (g s r + if s ∈ Z then 0 else ∑ t, M.P r t * MDP.gainN M g Z σ n ((s, r) :: h) t)

theorem gainN_nonneg (hM : M.Valid) (hσ : M.IsSched σ) {g : S → R → ℝ} (hg : ∀ s, ∀ r ∈ M.rows s, 0 ≤ g s r) (Z : Finset S) :
    ∀ n h t, 0 ≤ M.gainN g Z σ n h t
  | 0, _, _ => le_rfl
  | n + 1, h, t => by
    rw [MDP.gainN]
    refine Finset.sum_nonneg fun r hr => mul_nonneg (hσ.nonneg h t r hr) (add_nonneg (hg t r hr) ?_)
    split
    · exact le_rfl
    · exact Finset.sum_nonneg fun u _ => mul_nonneg (hM.nonneg t r hr u) (gainN_nonneg hM hσ hg Z n _ u)

open Classical in
/-- the payoff of the steps `k`, …, `k + n - 1` -/
noncomputable def payN (g : S → R → ℝ) (Z : Finset S) (k n : ℕ) (ω : ℕ → S × R) : ENNReal :=
  ∑ j ∈ Finset.range n, if ∃ i, k ≤ i ∧ i < k + j ∧ (ω i).1 ∈ Z then 0 else ENNReal.ofReal (g (ω (k + j)).1 (ω (k + j)).2)

open Classical in
/-- the payoff of a run -/
noncomputable def pay (g : S → R → ℝ) (Z : Finset S) (ω : ℕ → S × R) : ENNReal :=
  ∑' j, if ∃ i < j, (ω i).1 ∈ Z then 0 else ENNReal.ofReal (g (ω j).1 (ω j).2)

theorem pay_eq (g : S → R → ℝ) (Z : Finset S) (ω : ℕ → S × R) : pay g Z ω = ⨆ n, payN g Z 0 n ω := by
  rw [pay, ENNReal.tsum_eq_iSup_nat]
  refine iSup_congr fun n => Finset.sum_congr rfl fun j _ => ?_
  simp only [Nat.zero_add]
  congr 1
  simp

open Classical in
theorem payN_meas (g : S → R → ℝ) (Z : Finset S) (k n : ℕ) : Measurable (payN g Z k n : (ℕ → S × R) → ENNReal) := by
  refine Finset.measurable_sum _ fun j _ => Measurable.ite ?_ measurable_const ?_
  · have : {ω : ℕ → S × R | ∃ i, k ≤ i ∧ i < k + j ∧ (ω i).1 ∈ Z}
        = ⋃ i ∈ {i | k ≤ i ∧ i < k + j}, (fun ω => ω i) ⁻¹' {x | x.1 ∈ Z} := by
      ext ω; simp [and_assoc]
    rw [this]
    exact MeasurableSet.biUnion (Set.to_countable _) fun i _ => measurable_at i (Set.toFinite _).measurableSet
  · exact (measurable_of_countable fun x : S × R => ENNReal.ofReal (g x.1 x.2)).comp (measurable_at (k + j))

open Classical in
theorem payN_cyl {g : S → R → ℝ} {Z : Finset S} {x : S × R} {h : List (S × R)} {n : ℕ} {ω : ℕ → S × R} (hω : ω ∈ cyl (x :: h)) :
    payN g Z h.length (n + 1) ω
      = ENNReal.ofReal (g x.1 x.2) + if x.1 ∈ Z then 0 else payN g Z (x :: h).length n ω := by
  have hx : ω h.length = x := by rw [cyl_cons] at hω; exact hω.2
  unfold payN
  rw [Finset.sum_range_succ']
  rw [add_comm]
  congr 1
  · rw [if_neg]
    · simp [hx]
    · rintro ⟨i, h1, h2, _⟩; omega
  · split_ifs with hz
    · refine Finset.sum_eq_zero fun j _ => if_pos ⟨h.length, le_rfl, by omega, by rw [hx]; exact hz⟩
    · refine Finset.sum_congr rfl fun j _ => ?_
      have e1 : h.length + (j + 1) = (x :: h).length + j := by simp only [List.length_cons]; omega
      rw [e1]
      congr 1
      apply propext
      constructor
      · rintro ⟨i, h1, h2, h3⟩
        refine ⟨i, ?_, h2, h3⟩
        rcases h1.lt_or_eq with h | h
        · exact h
        · rw [← h, hx] at h3; exact absurd h3 hz
      · rintro ⟨i, h1, h2, h3⟩
        simp only [List.length_cons] at h1
        exact ⟨i, by omega, h2, h3⟩

theorem lintegral_split (h : List (S × R)) (f : (ℕ → S × R) → ENNReal) :
    ∫⁻ ω in cyl h, f ω ∂μ = ∑ x, ∫⁻ ω in cyl (x :: h), f ω ∂μ := by
  have h1 : cyl h = ⋃ x ∈ (Finset.univ : Finset (S × R)), cyl (x :: h) := by
    ext ω
    simp [cyl_cons]
  conv_lhs => rw [h1]
  rw [lintegral_biUnion_finset]
  · intro x _ y _ hxy
    rw [Function.onFun, Set.disjoint_left]
    intro ω h1 h2
    rw [cyl_cons] at h1 h2
    exact hxy (h1.2.symm.trans h2.2)
  · exact fun x _ => cyl_meas _

open Classical in
theorem lintegral_payN (hM : M.Valid) (hσ : M.IsSched σ) (hμ : M.IsRuns σ s μ) {g : S → R → ℝ}
    (hg : ∀ s, ∀ r ∈ M.rows s, 0 ≤ g s r) (Z : Finset S) (n : ℕ) : ∀ h : List (S × R),
    ∫⁻ ω in cyl h, payN g Z h.length n ω ∂μ = ENNReal.ofReal (M.weight σ s h * ∑ t, M.next s h t * M.gainN g Z σ n h t) := by
  induction n with
  | zero => intro h; simp [payN, MDP.gainN]
  | succ n ih =>
    intro h
    have hc : ∀ t r, ∫⁻ ω in cyl ((t, r) :: h), payN g Z h.length (n + 1) ω ∂μ
        = ENNReal.ofReal (M.weight σ s ((t, r) :: h) *
            (g t r + if t ∈ Z then 0 else ∑ u, M.P r u * M.gainN g Z σ n ((t, r) :: h) u)) := by
      intro t r
      rw [setLIntegral_congr_fun (cyl_meas _) (fun ω hω => payN_cyl (x := (t, r)) hω)]
      rw [lintegral_add_left measurable_const, lintegral_const, Measure.restrict_apply .univ, Set.univ_inter]
      have hw := (weight_nonneg (s := s) hM hσ ((t, r) :: h)).1
      have h1 : μ (cyl ((t, r) :: h)) = ENNReal.ofReal (M.weight σ s ((t, r) :: h)) := hμ _
      by_cases hr : r ∈ M.rows t
      · rw [mul_add, ENNReal.ofReal_add (mul_nonneg hw (hg t r hr))]
        · congr 1
          · rw [h1, ENNReal.ofReal_mul hw, mul_comm]
          · by_cases hz : t ∈ Z
            · simp [hz]
            · simp only [if_neg hz]
              exact ih _
        · split_ifs
          · simp
          · exact mul_nonneg hw (Finset.sum_nonneg fun u _ => mul_nonneg (hM.nonneg t r hr u) (gainN_nonneg hM hσ hg Z n _ u))
      · have h0 : M.weight σ s ((t, r) :: h) = 0 := by rw [MDP.weight, if_neg hr, mul_zero]
        rw [h0, ENNReal.ofReal_zero] at h1
        rw [h1, h0, zero_mul, ENNReal.ofReal_zero, mul_zero, zero_add]
        exact setLIntegral_measure_zero _ _ h1
    rw [lintegral_split, Fintype.sum_prod_type]
    simp only [hc]
    have hn : ∀ t r, 0 ≤ M.weight σ s ((t, r) :: h) * (g t r + if t ∈ Z then 0 else ∑ u, M.P r u * M.gainN g Z σ n ((t, r) :: h) u) := by
      intro t r
      by_cases hr : r ∈ M.rows t
      · refine mul_nonneg (weight_nonneg hM hσ _).1 (add_nonneg (hg t r hr) ?_)
        split_ifs
        · exact le_rfl
        · exact Finset.sum_nonneg fun u _ => mul_nonneg (hM.nonneg t r hr u) (gainN_nonneg hM hσ hg Z n _ u)
      · rw [MDP.weight, if_neg hr, mul_zero, zero_mul]
    have h2 : ∀ t, ∑ r, ENNReal.ofReal (M.weight σ s ((t, r) :: h) *
        (g t r + if t ∈ Z then 0 else ∑ u, M.P r u * M.gainN g Z σ n ((t, r) :: h) u))
        = ENNReal.ofReal (M.weight σ s h * M.next s h t * M.gainN g Z σ (n + 1) h t) := fun t => by
      rw [← ENNReal.ofReal_sum_of_nonneg fun r _ => hn t r, sum_weight, MDP.gainN]
    simp only [h2]
    rw [← ENNReal.ofReal_sum_of_nonneg, Finset.mul_sum]
    · simp only [mul_assoc]
    · exact fun t _ => mul_nonneg ((weight_nonneg hM hσ h).2 t) (gainN_nonneg hM hσ hg Z _ _ _)

/-- the expected payoff of the runs -/
theorem lintegral_pay (hM : M.Valid) (hσ : M.IsSched σ) (hμ : M.IsRuns σ s μ) {g : S → R → ℝ}
    (hg : ∀ s, ∀ r ∈ M.rows s, 0 ≤ g s r) (Z : Finset S) :
    ∫⁻ ω, pay g Z ω ∂μ = ⨆ n, ENNReal.ofReal (M.gainN g Z σ n [] s) := by
  have h1 : (pay g Z : (ℕ → S × R) → ENNReal) = fun ω => ⨆ n, payN g Z 0 n ω := funext (pay_eq g Z)
  rw [h1, lintegral_iSup (fun n => payN_meas g Z 0 n)]
  · congr 1
    funext n
    have h2 := lintegral_payN hM hσ hμ hg Z n []
    rw [cyl_nil, Measure.restrict_univ, List.length_nil] at h2
    rw [h2, Finset.sum_eq_single s (fun t _ hts => by simp [MDP.next, hts]) (by simp)]
    simp [MDP.weight, MDP.next]
  · intro a b hab ω
    unfold payN
    exact Finset.sum_le_sum_of_subset (Finset.range_mono hab)

/-! ## the probabilities and rewards of the specification -/

theorem sum_sched (hσ : M.IsSched σ) (h : List (S × R)) (t : S) (c : ℝ) : ∑ r ∈ M.rows t, σ h t r * c = c := by
  rw [← Finset.sum_mul, hσ.sum_one, one_mul]

theorem ofReal_iSup' {f : ℕ → ℝ} {b : ℝ} (hb : ∀ n, f n ≤ b) : ⨆ n, ENNReal.ofReal (f n) = ENNReal.ofReal (⨆ n, f n) := by
  have hB : BddAbove (Set.range f) := ⟨b, by rintro _ ⟨n, rfl⟩; exact hb n⟩
  refine le_antisymm (iSup_le fun n => ENNReal.ofReal_le_ofReal (le_ciSup hB n)) ?_
  refine le_of_forall_lt fun c hc => ?_
  have hc' : c ≠ ⊤ := hc.ne_top
  have h1 : c.toReal < ⨆ n, f n := (ENNReal.lt_ofReal_iff_toReal_lt hc').1 hc
  obtain ⟨n, hn⟩ := exists_lt_of_lt_ciSup h1
  exact lt_of_lt_of_le ((ENNReal.lt_ofReal_iff_toReal_lt hc').2 hn) (le_iSup (fun n => ENNReal.ofReal (f n)) n)

variable [DecidableEq S]

theorem withinN_gain (hσ : M.IsSched σ) (A T : Finset S) : ∀ n h t,
    M.withinN A T σ n h t = M.gainN (fun u _ => if u ∈ A ∧ u ∈ T then 1 else 0) (T ∪ Finset.univ.filter (· ∉ A)) σ (n + 1) h t
  | 0, h, t => by
    rw [MDP.withinN]
    simp only [MDP.gainN, mul_zero, Finset.sum_const_zero, ite_self, add_zero]
    rw [sum_sched hσ]
  | n + 1, h, t => by
    rw [MDP.withinN, MDP.gainN]
    by_cases hA : t ∈ A
    · by_cases hT : t ∈ T
      · simp only [hA, hT, not_true_eq_false, if_false, if_true, true_and, Finset.mem_union, true_or, add_zero]
        rw [sum_sched hσ]
      · simp only [hA, hT, not_true_eq_false, if_false, and_false, Finset.mem_union, Finset.mem_filter, Finset.mem_univ,
          or_false, zero_add]
        refine Finset.sum_congr rfl fun r _ => ?_
        congr 1
        exact Finset.sum_congr rfl fun u _ => by rw [withinN_gain hσ A T n]
    · simp [hA]

theorem rewN_gain (ρ : R → ℝ) (T : Finset S) : ∀ n h t,
    M.rewN ρ T σ n h t = M.gainN (fun u r => if u ∈ T then 0 else ρ r) T σ n h t
  | 0, _, _ => rfl
  | n + 1, h, t => by
    rw [MDP.rewN, MDP.gainN]
    by_cases hT : t ∈ T
    · simp [hT]
    · simp only [hT, if_false]
      exact Finset.sum_congr rfl fun r _ => by simp only [rewN_gain ρ T n]

theorem rewWithinN_gain (ρ : R → ℝ) (A T : Finset S) : ∀ n h t,
    M.rewWithinN ρ A T σ n h t
      = M.gainN (fun u r => if u ∈ A then ρ r else 0) (T ∪ Finset.univ.filter (· ∉ A)) σ n h t
  | 0, _, _ => rfl
  | n + 1, h, t => by
    rw [MDP.rewWithinN, MDP.gainN]
    by_cases hA : t ∈ A
    · simp only [hA, not_true_eq_false, if_false, if_true, Finset.mem_union, Finset.mem_filter, Finset.mem_univ, true_and, or_false]
      refine Finset.sum_congr rfl fun r _ => ?_
      congr 2
      by_cases hT : t ∈ T
      · simp [hT]
      · simp only [hT, if_false]
        exact Finset.sum_congr rfl fun u _ => by rw [rewWithinN_gain ρ A T n]
    · simp [hA]

open Classical in
theorem pay_within (A T : Finset S) (ω : ℕ → S × R) :
    pay (fun u _ => if u ∈ A ∧ u ∈ T then 1 else 0) (T ∪ Finset.univ.filter (· ∉ A)) ω
      = (runsWithin A T : Set (ℕ → S × R)).indicator 1 ω := by
  unfold pay
  by_cases hω : ω ∈ (runsWithin A T : Set (ℕ → S × R))
  · rw [Set.indicator_of_mem hω]
    obtain ⟨n, hn, hA⟩ := hω
    have he : ∃ n, (ω n).1 ∈ T := ⟨n, hn⟩
    have hle := Nat.find_min' he hn
    rw [tsum_eq_single (Nat.find he)]
    · rw [if_neg]
      · simp [hA _ hle, Nat.find_spec he]
      · rintro ⟨i, hi, hz⟩
        rcases Finset.mem_union.1 hz with h | h
        · exact Nat.find_min he hi h
        · exact (Finset.mem_filter.1 h).2 (hA i (by omega))
    · intro j hj
      rcases lt_or_gt_of_ne hj with h | h
      · have := Nat.find_min he h
        simp [this]
      · exact if_pos ⟨_, h, Finset.mem_union_left _ (Nat.find_spec he)⟩
  · rw [Set.indicator_of_notMem hω, ENNReal.tsum_eq_zero]
    intro j
    by_cases hj : ∃ i < j, (ω i).1 ∈ T ∪ Finset.univ.filter (· ∉ A)
    · exact if_pos hj
    · rw [if_neg hj]
      have : ¬ ((ω j).1 ∈ A ∧ (ω j).1 ∈ T) := by
        rintro ⟨h1, h2⟩
        refine hω ⟨j, h2, fun i hi => ?_⟩
        rcases hi.lt_or_eq with h | h
        · by_contra hA
          exact hj ⟨i, h, Finset.mem_union_right _ (Finset.mem_filter.2 ⟨Finset.mem_univ _, hA⟩)⟩
        · rw [h]; exact h1
      simp only [if_neg this, ENNReal.ofReal_zero]

theorem runsWithin_meas (A T : Finset S) : MeasurableSet (runsWithin A T : Set (ℕ → S × R)) := by
  have : (runsWithin A T : Set (ℕ → S × R)) = ⋃ n, ((fun ω => ω n) ⁻¹' {x | x.1 ∈ T} ∩ ⋂ i ∈ {i | i ≤ n}, (fun ω => ω i) ⁻¹' {x | x.1 ∈ A}) := by
    ext ω; simp [runsWithin]
  rw [this]
  refine .iUnion fun n => (measurable_at n (Set.toFinite _).measurableSet).inter ?_
  exact MeasurableSet.biInter (Set.to_countable _) fun i _ => measurable_at i (Set.toFinite _).measurableSet

open Classical in
theorem pay_before (ρ : R → ℝ) (T : Finset S) (ω : ℕ → S × R) :
    pay (fun u r => if u ∈ T then 0 else ρ r) T ω = collected ρ T ω := by
  unfold pay collected
  refine tsum_congr fun n => ?_
  by_cases h1 : ∃ i < n, (ω i).1 ∈ T
  · rw [if_pos h1, if_pos (h1.imp fun i hi => ⟨hi.1.le, hi.2⟩)]
  · rw [if_neg h1]
    by_cases h2 : (ω n).1 ∈ T
    · rw [if_pos ⟨n, le_rfl, h2⟩]; simp [h2]
    · rw [if_neg]
      · simp [h2]
      rintro ⟨i, hi, h3⟩
      rcases hi.lt_or_eq with h | h
      · exact h1 ⟨i, h, h3⟩
      · rw [h] at h3; exact h2 h3

open Classical in
theorem pay_inside (ρ : R → ℝ) (A T : Finset S) (ω : ℕ → S × R) :
    pay (fun u r => if u ∈ A then ρ r else 0) (T ∪ Finset.univ.filter (· ∉ A)) ω = collectedWithin ρ A T ω := by
  unfold pay collectedWithin
  refine tsum_congr fun n => ?_
  by_cases h1 : ∃ i < n, (ω i).1 ∈ T ∪ Finset.univ.filter (· ∉ A)
  · rw [if_pos h1, if_pos]
    obtain ⟨i, hi, h⟩ := h1
    rcases Finset.mem_union.1 h with h | h
    · exact .inl ⟨i, hi, h⟩
    · exact .inr ⟨i, hi.le, (Finset.mem_filter.1 h).2⟩
  · rw [if_neg h1]
    by_cases h2 : (ω n).1 ∈ A
    · rw [if_neg]
      · simp [h2]
      rintro (⟨i, hi, h⟩ | ⟨i, hi, h⟩)
      · exact h1 ⟨i, hi, Finset.mem_union_left _ h⟩
      · rcases hi.lt_or_eq with g | g
        · exact h1 ⟨i, g, Finset.mem_union_right _ (Finset.mem_filter.2 ⟨Finset.mem_univ _, h⟩)⟩
        · rw [g] at h; exact h h2
    · rw [if_pos (.inr ⟨n, le_rfl, h2⟩)]; simp [h2]

/-- the probability of the runs that reach `T` inside `A` -/
theorem real_runsWithin (hM : M.Valid) (hσ : M.IsSched σ) (hμ : M.IsRuns σ s μ) (A T : Finset S) :
    μ.real (runsWithin A T) = M.within A T σ s := by
  have := hμ.prob
  have h1 := lintegral_pay hM hσ hμ (g := fun u _ => if u ∈ A ∧ u ∈ T then 1 else 0) (fun u r _ => by split <;> norm_num)
    (T ∪ Finset.univ.filter (· ∉ A))
  have h2 : (pay (fun u _ => if u ∈ A ∧ u ∈ T then 1 else 0) (T ∪ Finset.univ.filter (· ∉ A)) : (ℕ → S × R) → ENNReal)
      = (runsWithin A T).indicator 1 := funext fun ω => pay_within A T ω
  rw [h2, lintegral_indicator_one (runsWithin_meas A T)] at h1
  have h0 : ∀ n, 0 ≤ M.withinN A T σ n [] s := fun n => by
    rw [withinN_gain hσ]
    exact gainN_nonneg hM hσ (fun u r _ => by split <;> norm_num) _ _ _ _
  have hle : ∀ n, ENNReal.ofReal (M.withinN A T σ n [] s) ≤ μ (runsWithin A T) := fun n => by
    rw [h1, withinN_gain hσ]
    exact le_iSup (fun n => ENNReal.ofReal (M.gainN _ _ σ n [] s)) (n + 1)
  have hb : BddAbove (Set.range fun n => M.withinN A T σ n [] s) := by
    refine ⟨1, ?_⟩
    rintro _ ⟨n, rfl⟩
    have := (hle n).trans prob_le_one
    rwa [← ENNReal.ofReal_one, ENNReal.ofReal_le_ofReal_iff zero_le_one] at this
  refine le_antisymm ?_ (ciSup_le fun n => ?_)
  · refine ENNReal.toReal_le_of_le_ofReal ((h0 0).trans (le_ciSup hb 0)) ?_
    rw [h1]
    refine iSup_le fun n => ENNReal.ofReal_le_ofReal ?_
    cases n with
    | zero => exact (h0 0).trans (le_ciSup hb 0)
    | succ n => rw [← withinN_gain hσ]; exact le_ciSup hb n
  · exact (ENNReal.ofReal_le_iff_le_toReal (measure_ne_top _ _)).1 (hle n)

/-- the expected reward collected before `T`, if it is bounded -/
theorem lintegral_collected (hM : M.Valid) (hσ : M.IsSched σ) (hμ : M.IsRuns σ s μ) {ρ : R → ℝ}
    (hρ : ∀ s, ∀ r ∈ M.rows s, 0 ≤ ρ r) (T : Finset S) {b : ℝ} (hb : ∀ n, M.rewN ρ T σ n [] s ≤ b) :
    ∫⁻ ω, collected ρ T ω ∂μ = ENNReal.ofReal (M.rew ρ T σ s) := by
  have h1 := lintegral_pay hM hσ hμ (g := fun u r => if u ∈ T then 0 else ρ r)
    (fun u r hr => by split <;> [exact le_rfl; exact hρ u r hr]) T
  simp only [pay_before, ← rewN_gain] at h1
  rw [h1, MDP.rew]
  exact ofReal_iSup' hb

/-- the expected reward collected inside `A`, if it is bounded -/
theorem lintegral_collectedWithin (hM : M.Valid) (hσ : M.IsSched σ) (hμ : M.IsRuns σ s μ) {ρ : R → ℝ}
    (hρ : ∀ s, ∀ r ∈ M.rows s, 0 ≤ ρ r) (A T : Finset S) {b : ℝ} (hb : ∀ n, M.rewWithinN ρ A T σ n [] s ≤ b) :
    ∫⁻ ω, collectedWithin ρ A T ω ∂μ = ENNReal.ofReal (M.rewWithin ρ A T σ s) := by
  have h1 := lintegral_pay hM hσ hμ (g := fun u r => if u ∈ A then ρ r else 0)
    (fun u r hr => by split <;> [exact hρ u r hr; exact le_rfl]) (T ∪ Finset.univ.filter (· ∉ A))
  simp only [pay_inside, ← rewWithinN_gain] at h1
  rw [h1, MDP.rewWithin]
  exact ofReal_iSup' hb

end Verif.Spec
