import Verif.Proofs.LP
import Verif.Proofs.Approx
import Verif.Theory.TolCut
/-! # The linear programs of the reachability form, with constraints that are met up to a tolerance -/
set_option linter.unusedSectionVars false

namespace Verif.Proofs
open Verif.Model Verif.Model.Milp Verif.Theory Finset

variable {K : Type} [Field K] [LinearOrder K] [IsStrictOrderedRing K]

/-- every added constraint is in the problem -/
theorem addConstraints_has (cs : List (List (Nat × K) × CSense × K)) {m m' : Milp K} (hk : KeysLt m)
    (h : m.addConstraints cs = .ok m') : ∀ c ∈ cs, HasCon m' c.1 c.2.1 c.2.2 := by
  induction cs generalizing m with
  | nil => intro c hc; simp at hc
  | cons c cs ih =>
    simp only [addConstraints, List.foldlM_cons, bind, Except.bind] at h
    split at h
    · cases h
    rename_i m1 h1
    split at h1
    · cases h1
    rename_i p hp
    cases h1
    have a := addConstraint_ext (i := p.1) (m' := p.2) hk hp
    have b := (addConstraint_inv (i := p.1) (m' := p.2) hk hp).2.1
    intro d hd
    rcases List.mem_cons.1 hd with rfl | hd
    · exact a.2.2.ext (addConstraints_ext cs b h)
    · exact ih b h d hd

theorem addConstraints_vars (cs : List (List (Nat × K) × CSense × K)) {m m' : Milp K} (hk : KeysLt m)
    (h : m.addConstraints cs = .ok m') : m'.vars.length = m.vars.length := by
  induction cs generalizing m with
  | nil =>
    simp only [addConstraints, List.foldlM_nil, pure, Except.pure, Except.ok.injEq] at h
    rw [h]
  | cons c cs ih =>
    simp only [addConstraints, List.foldlM_cons, bind, Except.bind] at h
    split at h
    · cases h
    rename_i m1 h1
    split at h1
    · cases h1
    rename_i p hp
    cases h1
    rw [ih (addConstraint_inv (i := p.1) (m' := p.2) hk hp).2.1 h, (addConstraint_ext (i := p.1) (m' := p.2) hk hp).2.1]

/-- nothing is removed -/
theorem cut_univ {S R : Type} [Fintype S] (A : Core S R) : A.cut Set.univ = A := by
  cases A
  simp [Core.cut]

/-- what a point that meets the program up to `ε` satisfies -/
theorem lp_tol {A : Mat K} {b opt : List K} {s : CSense} {mx : Bool} {cs : List (List (Nat × K) × CSense × K)} {lp m : Milp K}
    (h1 : lpFromCoefficients A b opt s mx = .ok lp) (h2 : lp.addConstraints cs = .ok m)
    (hn : ∀ c ∈ cs, (c.1.map Prod.fst).Nodup) {ε : K} {x : Nat → K} (hx : m.FeasibleTol ε x) :
    (∀ i < A.rows, CSense.holdsTol ε s (∑ j ∈ range A.cols, A.at_ i j * x j) (b.getD i 0)) ∧
      ∀ c ∈ cs, CSense.holdsTol ε c.2.1 (terms c.1 x) c.2.2 := by
  obtain ⟨k0, -⟩ := fromCoefficients_inv h1
  obtain ⟨-, c2⟩ := fromCoefficients_ext h1
  refine ⟨fun i hi => ?_, fun c hc => ?_⟩
  · have := ((c2 i hi).ext (addConstraints_ext cs k0 h2)).sat hx
    rwa [evalE_expr _ _ (fun _ => rowTerms_nodup A i), terms_rowTerms] at this
  · have := (addConstraints_has cs k0 h2 c hc).sat hx
    rwa [evalE_expr _ _ (fun _ => hn c hc)] at this

/-- `max_z_state` -/
theorem maxZLP_tol {rf : RF K} {lp : Milp K} (h : rf.maxZLP = .ok lp) {ε : K} {x : Nat → K} (hx : lp.FeasibleTol ε x) :
    (∀ i < rf.C, zrow rf x i ≤ rf.b i + ε) ∧ (∀ s < rf.N, -ε ≤ x s) ∧
      (∀ s < rf.N, rf.inProperEC s = true → x s ≤ ε) ∧ ∀ s < rf.N, rf.inProperEC s = false → x s ≤ 1 + ε := by
  simp only [RF.maxZLP, bind, Except.bind] at h
  split at h
  · cases h
  rename_i mr hz
  obtain ⟨m, rhs⟩ := mr
  obtain ⟨hi, hr, hc, hl, hrow⟩ := farkZ_rows hz
  simp only at h
  split at h
  · cases h
  rename_i lp0 h1
  obtain ⟨a, b⟩ := lp_tol h1 h (by
    intro c hcc
    obtain ⟨s, hs, hcc⟩ := List.mem_flatMap.1 hcc
    split at hcc <;> simp only [List.mem_cons, List.not_mem_nil, or_false] at hcc
    · subst hcc; simp
    · rcases hcc with rfl | rfl <;> simp) hx
  refine ⟨fun i hic => ?_, fun s hs => ?_, fun s hs he => ?_, fun s hs he => ?_⟩
  · have := a i (by omega)
    rwa [((hrow x).1 i hic).1, ((hrow x).1 i hic).2] at this
  · by_cases he : rf.inProperEC s = true
    · have := b ([(s, 1)], .eq, 0) (List.mem_flatMap.2 ⟨s, List.mem_range.2 hs, by simp [he]⟩)
      simp only [CSense.holdsTol, terms_single, one_mul, sub_zero] at this
      exact (abs_le.1 this).1
    · have := b ([(s, 1)], .ge, 0) (List.mem_flatMap.2 ⟨s, List.mem_range.2 hs, by simp [he]⟩)
      simp only [CSense.holdsTol, terms_single, one_mul] at this
      linarith
  · have := b ([(s, 1)], .eq, 0) (List.mem_flatMap.2 ⟨s, List.mem_range.2 hs, by simp [he]⟩)
    simp only [CSense.holdsTol, terms_single, one_mul, sub_zero] at this
    exact (abs_le.1 this).2
  · have := b ([(s, 1)], .le, 1) (List.mem_flatMap.2 ⟨s, List.mem_range.2 hs, by simp [he]⟩)
    simpa only [CSense.holdsTol, terms_single, one_mul] using this

/-- `pr_max` -/
theorem prMaxLP_tol {rf : RF K} {lp : Milp K} (h : rf.prMaxLP = .ok lp) {ε : K} {x : Nat → K} (hx : lp.FeasibleTol ε x) :
    (∀ i < rf.C, rf.b i ≤ zrow rf x i + ε) ∧ (∀ s < rf.N, -ε ≤ x s) ∧ ∀ s < rf.N, x s ≤ 1 + ε := by
  simp only [RF.prMaxLP, bind, Except.bind] at h
  split at h
  · cases h
  rename_i mr hz
  obtain ⟨m, rhs⟩ := mr
  obtain ⟨hi, hr, hc, hl, hrow⟩ := farkZ_rows hz
  simp only at h
  split at h
  · cases h
  rename_i lp0 h1
  obtain ⟨a, b⟩ := lp_tol h1 h (by
    intro c hcc
    obtain ⟨s, hs, hcc⟩ := List.mem_flatMap.1 hcc
    simp only [List.mem_cons, List.not_mem_nil, or_false] at hcc
    rcases hcc with rfl | rfl <;> simp) hx
  refine ⟨fun i hic => ?_, fun s hs => ?_, fun s hs => ?_⟩
  · have := a i (by omega)
    rwa [((hrow x).1 i hic).1, ((hrow x).1 i hic).2] at this
  · have := b ([(s, 1)], .ge, 0) (List.mem_flatMap.2 ⟨s, List.mem_range.2 hs, by simp⟩)
    simp only [CSense.holdsTol, terms_single, one_mul] at this
    linarith
  · have := b ([(s, 1)], .le, 1) (List.mem_flatMap.2 ⟨s, List.mem_range.2 hs, by simp⟩)
    simpa only [CSense.holdsTol, terms_single, one_mul] using this

/-- `max_y_state_action` -/
theorem maxYLP_tol {rf : RF K} {lp : Milp K} (h : rf.maxYLP = .ok lp) {ε : K} {x : Nat → K} (hx : lp.FeasibleTol ε x) :
    (∀ j < rf.N, yrow rf x j ≤ rf.delta j + ε) ∧ ∀ i < rf.C, -ε ≤ x i := by
  simp only [RF.maxYLP, bind, Except.bind] at h
  split at h
  · cases h
  rename_i mr hz
  obtain ⟨m, rhs⟩ := mr
  obtain ⟨hi, hr, hc, hl, hrow⟩ := farkY_rows hz
  simp only at h
  split at h
  · cases h
  rename_i lp0 h1
  obtain ⟨a, b⟩ := lp_tol h1 h (by
    intro c hcc
    obtain ⟨s, hs, rfl⟩ := List.mem_map.1 hcc
    simp) hx
  refine ⟨fun j hj => ?_, fun s hs => ?_⟩
  · have := a j (by omega)
    rwa [((hrow x).1 j hj).1, ((hrow x).1 j hj).2] at this
  · have := b ([(s, 1)], .ge, 0) (List.mem_map.2 ⟨s, List.mem_range.2 hs, rfl⟩)
    simp only [CSense.holdsTol, terms_single, one_mul] at this
    linarith

/-- the sums decide: vectors that are ordered up to `d` and whose sums are ordered the other way up to `e` -/
theorem close_of_sum {n : Nat} {x v : Nat → K} {d e : K} (hd : 0 ≤ d) (he : 0 ≤ e) (hle : ∀ s < n, x s ≤ v s + d)
    (hs : ∑ s ∈ range n, v s ≤ ∑ s ∈ range n, x s + e) : ∀ s < n, |x s - v s| ≤ e + n * d := by
  intro s hsn
  have hmem := Finset.mem_range.2 hsn
  have h1 : ∑ t ∈ (range n).erase s, x t ≤ ∑ t ∈ (range n).erase s, (v t + d) :=
    Finset.sum_le_sum fun t ht => hle t (Finset.mem_range.1 (Finset.mem_of_mem_erase ht))
  rw [Finset.sum_add_distrib, Finset.sum_const, Finset.card_erase_of_mem hmem, Finset.card_range, nsmul_eq_mul] at h1
  rw [← Finset.add_sum_erase _ _ hmem, ← Finset.add_sum_erase _ x hmem] at hs
  have h2 : ((n - 1 : ℕ) : K) * d ≤ n * d := mul_le_mul_of_nonneg_right (by exact_mod_cast Nat.sub_le n 1) hd
  have h3 : d ≤ n * d := by
    have : (1 : K) ≤ n := by exact_mod_cast (show 1 ≤ n by omega)
    nlinarith
  have h4 := hle s hsn
  rw [abs_le]
  constructor <;> linarith

end Verif.Proofs
