import Verif.Spec.Paths
import Verif.Theory.Core
import Mathlib.Probability.Kernel.IonescuTulcea.Traj
import Mathlib.MeasureTheory.Measure.Real
/-!
# The measure of runs

It exists and is unique, and it gives the sets of runs that visit `T` the probability `MDP.reach`; the expected value of the
reward collected before `T` is the supremum of `MDP.rewN`.
-/

namespace Verif.Spec
open MeasureTheory

set_option linter.unusedSectionVars false

variable {S R : Type} [Fintype S] [Fintype R] [MeasurableSpace S] [MeasurableSingletonClass S] [MeasurableSpace R]
  [MeasurableSingletonClass R]

/-- the runs beginning with `h` -/
def cyl (h : List (S × R)) : Set (ℕ → S × R) := {ω | pre ω h.length = h}

theorem cyl_nil : cyl ([] : List (S × R)) = Set.univ := by
  ext ω; simp [cyl, pre]

theorem cyl_cons (x : S × R) (h : List (S × R)) : cyl (x :: h) = cyl h ∩ (fun ω => ω h.length) ⁻¹' {x} := by
  ext ω
  simp only [cyl, List.length_cons, pre, Set.mem_ofPred_eq, List.cons.injEq, Set.mem_inter_iff, Set.mem_preimage,
    Set.mem_singleton_iff]
  exact and_comm

theorem measurable_at (k : ℕ) : Measurable fun ω : ℕ → S × R => ω k := measurable_pi_apply k

theorem cyl_meas (h : List (S × R)) : MeasurableSet (cyl h) := by
  induction h with
  | nil => rw [cyl_nil]; exact .univ
  | cons x h ih => rw [cyl_cons]; exact ih.inter (measurable_at _ (.singleton x))

section
variable {M : MDP S R} {σ : Sched S R} {s : S} {μ : Measure (ℕ → S × R)}

theorem weight_nonneg (hM : M.Valid) (hσ : M.IsSched σ) (h : List (S × R)) :
    0 ≤ M.weight σ s h ∧ ∀ t, 0 ≤ M.weight σ s h * M.next s h t := by
  induction h with
  | nil =>
    refine ⟨zero_le_one, fun t => ?_⟩
    simp only [MDP.weight, MDP.next, one_mul]
    split <;> norm_num
  | cons x h ih =>
    obtain ⟨u, r⟩ := x
    by_cases hr : r ∈ M.rows u
    · have h0 : 0 ≤ M.weight σ s ((u, r) :: h) := by
        rw [MDP.weight, if_pos hr]
        exact mul_nonneg (ih.2 u) (hσ.nonneg h u r hr)
      exact ⟨h0, fun t => mul_nonneg h0 (hM.nonneg u r hr t)⟩
    · have h0 : M.weight σ s ((u, r) :: h) = 0 := by rw [MDP.weight, if_neg hr, mul_zero]
      rw [h0]
      simp

theorem MDP.IsRuns.prob (hμ : M.IsRuns σ s μ) : IsProbabilityMeasure μ := by
  have := hμ []
  simp only [List.length_nil, pre, MDP.weight, ENNReal.ofReal_one] at this
  exact ⟨by simpa using this⟩

theorem MDP.IsRuns.cyl (hM : M.Valid) (hσ : M.IsSched σ) (hμ : M.IsRuns σ s μ) (h : List (S × R)) :
    μ.real (cyl h) = M.weight σ s h := by
  rw [Measure.real]
  have : μ (Spec.cyl h) = _ := hμ h
  rw [this, ENNReal.toReal_ofReal (weight_nonneg hM hσ h).1]

/-- a set of runs beginning with `h`, by the next step -/
theorem real_split [IsProbabilityMeasure μ] (h : List (S × R)) (E : Set (ℕ → S × R)) :
    μ.real (cyl h ∩ E) = ∑ x, μ.real (cyl (x :: h) ∩ E) := by
  have h1 := sum_measureReal_preimage_singleton (μ := μ.restrict (cyl h ∩ E)) (Finset.univ : Finset (S × R))
    (f := fun ω : ℕ → S × R => ω h.length) (fun y _ => measurable_at _ (.singleton y))
  have h2 : (fun ω : ℕ → S × R => ω h.length) ⁻¹' ((Finset.univ : Finset (S × R)) : Set (S × R)) = Set.univ := by simp
  rw [h2, measureReal_restrict_apply .univ, Set.univ_inter] at h1
  rw [← h1]
  refine Finset.sum_congr rfl fun x _ => ?_
  rw [measureReal_restrict_apply (measurable_at _ (.singleton x)), cyl_cons]
  congr 1
  ext ω
  simp only [Set.mem_inter_iff]
  tauto

variable [DecidableEq S]

/-- `T` is visited in one of the steps `k`, …, `k + n` -/
def hit (T : Finset S) (k n : ℕ) : Set (ℕ → S × R) := {ω | ∃ i, k ≤ i ∧ i ≤ k + n ∧ (ω i).1 ∈ T}

theorem hit_meas (T : Finset S) (k n : ℕ) : MeasurableSet (hit T k n : Set (ℕ → S × R)) := by
  have : (hit T k n : Set (ℕ → S × R)) = ⋃ i ∈ {i | k ≤ i ∧ i ≤ k + n}, (fun ω => ω i) ⁻¹' {x | x.1 ∈ T} := by
    ext ω; simp [hit, and_assoc]
  rw [this]
  exact MeasurableSet.biUnion (Set.to_countable _) fun i _ => measurable_at i (Set.toFinite _).measurableSet

theorem hit_in {T : Finset S} {x : S × R} {h : List (S × R)} {n : ℕ} (hx : x.1 ∈ T) :
    cyl (x :: h) ∩ hit T h.length n = cyl (x :: h) := by
  rw [Set.inter_eq_left, cyl_cons]
  rintro ω ⟨_, hω⟩
  exact ⟨h.length, le_rfl, Nat.le_add_right _ _, by rw [show ω h.length = x from hω]; exact hx⟩

theorem hit_zero {T : Finset S} {x : S × R} {h : List (S × R)} (hx : x.1 ∉ T) :
    cyl (x :: h) ∩ hit T h.length 0 = ∅ := by
  rw [cyl_cons, Set.eq_empty_iff_forall_notMem]
  rintro ω ⟨⟨_, hω⟩, i, h1, h2, h3⟩
  have : i = h.length := by omega
  rw [this, show ω h.length = x from hω] at h3
  exact hx h3

theorem hit_succ {T : Finset S} {x : S × R} {h : List (S × R)} {n : ℕ} (hx : x.1 ∉ T) :
    cyl (x :: h) ∩ hit T h.length (n + 1) = cyl (x :: h) ∩ hit T (x :: h).length n := by
  rw [cyl_cons]
  ext ω
  constructor
  · rintro ⟨⟨h0, hω⟩, i, h1, h2, h3⟩
    refine ⟨⟨h0, hω⟩, i, ?_, by simp only [List.length_cons]; omega, h3⟩
    rcases h1.lt_or_eq with h | h
    · exact h
    · rw [← h, show ω _ = x from hω] at h3
      exact absurd h3 hx
  · rintro ⟨h0, i, h1, h2, h3⟩
    simp only [List.length_cons] at h1 h2
    exact ⟨h0, i, by omega, by omega, h3⟩

open Classical in
theorem sum_weight (h : List (S × R)) (t : S) (g : R → ℝ) :
    ∑ r, M.weight σ s ((t, r) :: h) * g r = M.weight σ s h * M.next s h t * ∑ r ∈ M.rows t, σ h t r * g r := by
  rw [Finset.mul_sum, ← Finset.sum_subset (Finset.subset_univ (M.rows t))]
  · refine Finset.sum_congr rfl fun r hr => ?_
    rw [MDP.weight, if_pos hr, mul_assoc]
  · intro r _ hr
    rw [MDP.weight, if_neg hr, mul_zero, zero_mul]

/-- the probability of visiting `T` within `n` more steps, for runs beginning with `h` -/
theorem real_hit (hM : M.Valid) (hσ : M.IsSched σ) (hμ : M.IsRuns σ s μ) (T : Finset S) (n : ℕ) : ∀ h : List (S × R),
    μ.real (cyl h ∩ hit T h.length n) = M.weight σ s h * ∑ t, M.next s h t * M.reachN T σ n h t := by
  have := hμ.prob
  induction n with
  | zero =>
    intro h
    rw [real_split h, Fintype.sum_prod_type, Finset.mul_sum]
    refine Finset.sum_congr rfl fun t _ => ?_
    by_cases ht : t ∈ T
    · have h1 : ∀ r, μ.real (cyl ((t, r) :: h) ∩ hit T h.length 0) = M.weight σ s ((t, r) :: h) * 1 := fun r => by
        rw [hit_in (x := (t, r)) ht, hμ.cyl hM hσ, mul_one]
      simp only [h1]
      rw [sum_weight, MDP.reachN, if_pos ht]
      simp only [mul_one]
      rw [hσ.sum_one, mul_one]
    · have h1 : ∀ r, μ.real (cyl ((t, r) :: h) ∩ hit T h.length 0) = 0 := fun r => by
        rw [hit_zero (x := (t, r)) ht, measureReal_empty]
      simp only [h1]
      rw [MDP.reachN, if_neg ht]
      simp
  | succ n ih =>
    intro h
    rw [real_split h, Fintype.sum_prod_type, Finset.mul_sum]
    refine Finset.sum_congr rfl fun t _ => ?_
    by_cases ht : t ∈ T
    · have h1 : ∀ r, μ.real (cyl ((t, r) :: h) ∩ hit T h.length (n + 1)) = M.weight σ s ((t, r) :: h) * 1 := fun r => by
        rw [hit_in (x := (t, r)) ht, hμ.cyl hM hσ, mul_one]
      simp only [h1]
      rw [sum_weight, MDP.reachN, if_pos ht]
      simp only [mul_one]
      rw [hσ.sum_one, mul_one]
    · have h1 : ∀ r, μ.real (cyl ((t, r) :: h) ∩ hit T h.length (n + 1))
          = M.weight σ s ((t, r) :: h) * ∑ t', M.P r t' * M.reachN T σ n ((t, r) :: h) t' := fun r => by
        rw [hit_succ (x := (t, r)) ht, ih]
        rfl
      simp only [h1]
      rw [sum_weight, MDP.reachN, if_neg ht, mul_assoc]

theorem runsTo_eq (T : Finset S) : (runsTo T : Set (ℕ → S × R)) = ⋃ n, hit T 0 n := by
  ext ω
  simp only [runsTo, hit, Set.mem_ofPred_eq, Set.mem_iUnion]
  exact ⟨fun ⟨n, hn⟩ => ⟨n, n, Nat.zero_le _, by omega, hn⟩, fun ⟨_, i, _, _, hi⟩ => ⟨i, hi⟩⟩

theorem hit_mono (T : Finset S) : Monotone fun n => (hit T 0 n : Set (ℕ → S × R)) :=
  fun _ _ hab _ ⟨i, h1, h2, h3⟩ => ⟨i, h1, by omega, h3⟩

theorem runsTo_meas (T : Finset S) : MeasurableSet (runsTo T : Set (ℕ → S × R)) := by
  rw [runsTo_eq]; exact .iUnion fun n => hit_meas T 0 n

theorem real_hit0 (hM : M.Valid) (hσ : M.IsSched σ) (hμ : M.IsRuns σ s μ) (T : Finset S) (n : ℕ) :
    μ.real (hit T 0 n) = M.reachN T σ n [] s := by
  have := real_hit hM hσ hμ T n []
  rw [cyl_nil, Set.univ_inter, List.length_nil] at this
  rw [this]
  simp [MDP.weight, MDP.next]

/-- the probability of the runs that visit `T` -/
theorem real_runsTo (hM : M.Valid) (hσ : M.IsSched σ) (hμ : M.IsRuns σ s μ) (T : Finset S) :
    μ.real (runsTo T) = M.reach T σ s := by
  have := hμ.prob
  have h1 := tendsto_measure_iUnion_atTop (μ := μ) (hit_mono (R := R) T)
  rw [← runsTo_eq] at h1
  have h2 := (ENNReal.tendsto_toReal (measure_ne_top μ _)).comp h1
  have h3 : Filter.Tendsto (fun n => M.reachN T σ n [] s) Filter.atTop (nhds (μ.real (runsTo T))) := by
    refine h2.congr fun n => ?_
    exact real_hit0 hM hσ hμ T n
  have hm : Monotone fun n => M.reachN T σ n [] s := by
    intro a b hab
    simp only
    rw [← real_hit0 hM hσ hμ T, ← real_hit0 hM hσ hμ T]
    exact measureReal_mono (hit_mono T hab)
  have hb : BddAbove (Set.range fun n => M.reachN T σ n [] s) := by
    refine ⟨1, ?_⟩
    rintro _ ⟨n, rfl⟩
    simp only
    rw [← real_hit0 hM hσ hμ T]
    exact measureReal_le_one
  exact tendsto_nhds_unique h3 (tendsto_atTop_ciSup hm hb)

end

section
variable {M : MDP S R} {σ : Sched S R} {s : S} {μ : Measure (ℕ → S × R)}

theorem pre_length (ω : ℕ → S × R) : ∀ k, (pre ω k).length = k
  | 0 => rfl
  | k + 1 => by simp [pre, pre_length ω k]

theorem pre_congr {ω ω' : ℕ → S × R} : ∀ {k : ℕ}, pre ω k = pre ω' k ↔ ∀ i < k, ω i = ω' i
  | 0 => by simp [pre]
  | k + 1 => by
    simp only [pre, List.cons.injEq, pre_congr (k := k)]
    constructor
    · rintro ⟨h1, h2⟩ i hi
      rcases Nat.lt_succ_iff_lt_or_eq.1 hi with h | h
      · exact h2 i h
      · rw [h]; exact h1
    · exact fun h => ⟨h k (Nat.lt_succ_self k), fun i hi => h i (hi.trans (Nat.lt_succ_self k))⟩

theorem cyl_inter {h h' : List (S × R)} (hl : h.length ≤ h'.length) (hne : (cyl h ∩ cyl h').Nonempty) :
    cyl h ∩ cyl h' = cyl h' := by
  obtain ⟨ω, h1, h2⟩ := hne
  rw [Set.inter_eq_right]
  intro ω' h3
  have h4 : pre ω' h'.length = pre ω h'.length := Eq.trans h3 (Eq.symm h2)
  have h5 : pre ω' h.length = pre ω h.length := pre_congr.2 fun i hi => pre_congr.1 h4 i (hi.trans_le hl)
  exact Eq.trans h5 h1

theorem cyl_pi : IsPiSystem (Set.range (cyl : List (S × R) → Set (ℕ → S × R))) := by
  rintro _ ⟨h, rfl⟩ _ ⟨h', rfl⟩ hne
  rcases le_total h.length h'.length with hl | hl
  · exact ⟨h', (cyl_inter hl hne).symm⟩
  · rw [Set.inter_comm] at hne ⊢
    exact ⟨h, (cyl_inter hl hne).symm⟩

theorem cyl_gen : (MeasurableSpace.pi : MeasurableSpace (ℕ → S × R)) = MeasurableSpace.generateFrom (Set.range cyl) := by
  refine le_antisymm ?_ (MeasurableSpace.generateFrom_le ?_)
  · refine iSup_le fun k => ?_
    rintro _ ⟨B, -, rfl⟩
    have hB : (fun ω : ℕ → S × R => ω k) ⁻¹' B = ⋃ x ∈ B, ⋃ h ∈ {h : List (S × R) | h.length = k}, cyl (x :: h) := by
      ext ω
      simp only [Set.mem_preimage, Set.mem_iUnion, Set.mem_ofPred_eq, exists_prop]
      constructor
      · intro h
        refine ⟨ω k, h, pre ω k, pre_length ω k, ?_⟩
        simp [cyl, pre, pre_length]
      · rintro ⟨x, hx, h, rfl, hω⟩
        rw [cyl_cons] at hω
        rw [show ω h.length = x from hω.2]
        exact hx
    rw [hB]
    refine MeasurableSet.biUnion (Set.to_countable _) fun x _ => MeasurableSet.biUnion (Set.to_countable _) fun h _ => ?_
    exact MeasurableSpace.measurableSet_generateFrom ⟨_, rfl⟩
  · rintro _ ⟨h, rfl⟩
    exact cyl_meas h

/-- the measure is determined by the probabilities of the beginnings -/
theorem MDP.IsRuns.unique {ν : Measure (ℕ → S × R)} (hμ : M.IsRuns σ s μ) (hν : M.IsRuns σ s ν) : μ = ν := by
  have := hμ.prob
  have := hν.prob
  refine ext_of_generate_finite _ cyl_gen cyl_pi ?_ (by rw [measure_univ, measure_univ])
  rintro _ ⟨h, rfl⟩
  exact (hμ h).trans (hν h).symm

section exist
open ProbabilityTheory Finset

open Classical in
/-- the probability that `x` is the step after `h` -/
noncomputable def stepW (M : MDP S R) (σ : Sched S R) (s : S) (h : List (S × R)) (x : S × R) : ℝ :=
  M.next s h x.1 * if x.2 ∈ M.rows x.1 then σ h x.1 x.2 else 0

/-- the distribution of the step after `h`, if it is one -/
noncomputable def stepM (M : MDP S R) (σ : Sched S R) (s : S) (x₀ : S × R) (h : List (S × R)) : Measure (S × R) :=
  open Classical in
  if ∑ x, ENNReal.ofReal (stepW M σ s h x) = 1 then ∑ x, ENNReal.ofReal (stepW M σ s h x) • Measure.dirac x else Measure.dirac x₀

instance stepM_prob (x₀ : S × R) (h : List (S × R)) : IsProbabilityMeasure (stepM M σ s x₀ h) := by
  unfold stepM
  split
  · rename_i h1
    refine ⟨?_⟩
    rw [Measure.finsetSum_apply]
    simpa using h1
  · infer_instance

theorem stepM_single {x₀ : S × R} {h : List (S × R)} (h1 : ∑ x, ENNReal.ofReal (stepW M σ s h x) = 1) (x : S × R) :
    stepM M σ s x₀ h {x} = ENNReal.ofReal (stepW M σ s h x) := by
  classical
  unfold stepM
  rw [if_pos h1, Measure.finsetSum_apply]
  rw [Finset.sum_eq_single x]
  · simp
  · intro y _ hy
    simp [hy]
  · simp

open Classical in
/-- after a history of positive probability the weights of the next step sum up to one -/
theorem stepW_sum (hM : M.Valid) (hσ : M.IsSched σ) (h : List (S × R)) (hp : M.weight σ s h ≠ 0) :
    (∀ x, 0 ≤ stepW M σ s h x) ∧ ∑ x, ENNReal.ofReal (stepW M σ s h x) = 1 := by
  have hn : (∀ t, 0 ≤ M.next s h t) ∧ ∑ t, M.next s h t = 1 := by
    cases h with
    | nil =>
      refine ⟨fun t => ?_, by simp [MDP.next]⟩
      simp only [MDP.next]
      split <;> norm_num
    | cons y h =>
      obtain ⟨u, r⟩ := y
      have hr : r ∈ M.rows u := by
        by_contra hr
        exact hp (by rw [MDP.weight, if_neg hr, mul_zero])
      exact ⟨fun t => hM.nonneg u r hr t, hM.sum_one u r hr⟩
  have h0 : ∀ x, 0 ≤ stepW M σ s h x := fun x => by
    unfold stepW
    refine mul_nonneg (hn.1 _) ?_
    split
    · rename_i hr
      exact hσ.nonneg h _ _ hr
    · exact le_rfl
  refine ⟨h0, ?_⟩
  rw [← ENNReal.ofReal_sum_of_nonneg fun x _ => h0 x, Fintype.sum_prod_type]
  have : ∀ t, ∑ r, stepW M σ s h (t, r) = M.next s h t := fun t => by
    simp only [stepW]
    rw [← Finset.mul_sum, Finset.sum_ite_mem, Finset.univ_inter, hσ.sum_one, mul_one]
  simp only [this]
  rw [hn.2, ENNReal.ofReal_one]

/-- the history of the first steps -/
noncomputable def histOf (x₀ : S × R) (n : ℕ) (u : (i : Iic n) → S × R) : List (S × R) :=
  pre (fun i => if h : i ∈ Iic n then u ⟨i, h⟩ else x₀) (n + 1)

theorem histOf_restrict (x₀ : S × R) (n : ℕ) (ω : ℕ → S × R) :
    histOf x₀ n (Preorder.frestrictLe n ω) = pre ω (n + 1) := by
  unfold histOf
  refine pre_congr.2 fun i hi => ?_
  rw [dif_pos (Finset.mem_Iic.2 (Nat.lt_succ_iff.1 hi))]
  rfl

/-- the distribution of the step after the first `n + 1` steps -/
noncomputable def stepK (M : MDP S R) (σ : Sched S R) (s : S) (x₀ : S × R) (n : ℕ) : Kernel ((_ : Iic n) → S × R) (S × R) :=
  Kernel.ofFunOfCountable fun u => stepM M σ s x₀ (histOf x₀ n u)

instance (x₀ : S × R) (n : ℕ) : IsMarkovKernel (stepK M σ s x₀ n) := ⟨fun _ => stepM_prob _ _⟩

theorem exists_cyl (x₀ : S × R) (h : List (S × R)) : (cyl h).Nonempty := by
  induction h with
  | nil => exact ⟨fun _ => x₀, by rw [cyl_nil]; trivial⟩
  | cons x h ih =>
    obtain ⟨ω, hω⟩ := ih
    refine ⟨fun i => if i = h.length then x else ω i, ?_⟩
    rw [cyl_cons]
    refine ⟨?_, by simp⟩
    have : pre (fun i => if i = h.length then x else ω i) h.length = pre ω h.length :=
      pre_congr.2 fun i hi => if_neg hi.ne
    exact this.trans hω

/-- the beginnings of length `n + 1` are the points of the first `n + 1` coordinates -/
theorem cyl_restrict {x : S × R} {h : List (S × R)} {ω₀ : ℕ → S × R} (h0 : ω₀ ∈ cyl (x :: h)) :
    cyl (x :: h) = Preorder.frestrictLe (π := fun _ => S × R) h.length ⁻¹' {Preorder.frestrictLe h.length ω₀} := by
  ext ω
  have h1 : ω ∈ cyl (x :: h) ↔ pre ω (h.length + 1) = pre ω₀ (h.length + 1) :=
    ⟨fun h => Eq.trans h (Eq.symm h0), fun h => Eq.trans h h0⟩
  rw [h1, pre_congr, Set.mem_preimage, Set.mem_singleton_iff, funext_iff]
  constructor
  · intro h2 i
    exact h2 i.1 (Nat.lt_succ_iff.2 (Finset.mem_Iic.1 i.2))
  · intro h2 i hi
    exact h2 ⟨i, Finset.mem_Iic.2 (Nat.lt_succ_iff.1 hi)⟩

/-- there is a measure of the runs -/
theorem exists_isRuns (hM : M.Valid) (hσ : M.IsSched σ) (s : S) : ∃ μ, M.IsRuns σ s μ := by
  obtain ⟨r₀, _⟩ := hM.rows_nonempty s
  set x₀ : S × R := (s, r₀)
  set μ : Measure (ℕ → S × R) := Kernel.trajMeasure (X := fun _ => S × R) (stepM M σ s x₀ []) (stepK M σ s x₀) with hμ
  have hp : IsProbabilityMeasure μ := by rw [hμ]; infer_instance
  refine ⟨μ, ?_⟩
  have key : ∀ (h : List (S × R)) (x : S × R), μ (cyl (x :: h)) = μ (cyl h) * stepM M σ s x₀ h {x} := by
    intro h x
    cases h with
    | nil =>
      obtain ⟨ω₀, h0⟩ := exists_cyl x₀ [x]
      rw [cyl_nil, measure_univ, one_mul, cyl_restrict h0]
      have h2 : μ.map (Preorder.frestrictLe (π := fun _ => S × R) 0)
          = (stepM M σ s x₀ []).map (MeasurableEquiv.piUnique (fun _ : Iic 0 => S × R)).symm := by
        rw [hμ, Kernel.trajMeasure, Measure.map_comp _ _ (by fun_prop), Kernel.traj_map_frestrictLe, Kernel.partialTraj_self,
          Measure.id_comp]
      have h3 := Measure.map_apply (μ := μ) (Preorder.measurable_frestrictLe (X := fun _ => S × R) 0)
        (MeasurableSet.singleton (Preorder.frestrictLe (π := fun _ => S × R) 0 ω₀))
      rw [List.length_nil, ← h3, h2, MeasurableEquiv.map_apply]
      congr 1
      ext y
      have h4 : ω₀ 0 = x := by rw [cyl_cons] at h0; exact h0.2
      simp only [Set.mem_preimage, Set.mem_singleton_iff]
      rw [← h4]
      constructor
      · intro h5
        exact congrFun h5 ⟨0, by simp⟩
      · rintro rfl
        funext i
        obtain ⟨i, hi⟩ := i
        have : i = 0 := by simpa using hi
        subst this
        rfl
    | cons y h =>
      obtain ⟨ω₀, h0⟩ := exists_cyl x₀ (y :: h)
      have h1 := congrArg (fun ν => ν ({Preorder.frestrictLe (π := fun _ => S × R) h.length ω₀} ×ˢ {x}))
        (Kernel.map_frestrictLe_trajMeasure_compProd_eq_map_trajMeasure (X := fun _ => S × R) (κ := stepK M σ s x₀)
          (μ₀ := stepM M σ s x₀ []) (a := h.length))
      simp only [← hμ] at h1
      rw [Measure.compProd_apply_prod (.singleton _) (.singleton _), lintegral_singleton,
        Measure.map_apply (Preorder.measurable_frestrictLe (X := fun _ => S × R) _) (.singleton _),
        Measure.map_apply (by fun_prop) ((MeasurableSet.singleton _).prod (.singleton _)), ← cyl_restrict h0] at h1
      have h2 : stepK M σ s x₀ h.length (Preorder.frestrictLe h.length ω₀) = stepM M σ s x₀ (y :: h) := by
        show stepM M σ s x₀ (histOf x₀ _ _) = _
        rw [histOf_restrict]
        exact congrArg _ h0
      rw [h2, mul_comm] at h1
      rw [h1, cyl_cons x (y :: h), cyl_restrict h0]
      rfl
  intro h
  induction h with
  | nil =>
    simp [pre, MDP.weight]
  | cons x h ih =>
    have ih' : μ (cyl h) = ENNReal.ofReal (M.weight σ s h) := ih
    show μ (cyl (x :: h)) = _
    have hw : M.weight σ s (x :: h) = M.weight σ s h * stepW M σ s h x := by
      rw [stepW, ← mul_assoc]; rfl
    rw [key, ih', hw]
    by_cases h0 : M.weight σ s h = 0
    · rw [h0]; simp
    · obtain ⟨h1, h2⟩ := stepW_sum hM hσ h h0
      rw [stepM_single h2, ENNReal.ofReal_mul (weight_nonneg hM hσ h).1]

end exist

end

end Verif.Spec
