import Verif.Proofs.UpperBounds
import Verif.Proofs.EcFree
import Verif.Props.CertExist
/-!
# C37: `compute_upper_bounds`
-/
set_option linter.unusedSectionVars false

namespace Verif.Props
open Verif.Model Verif.Model.Milp Verif.Spec Verif.Proofs Verif.Theory Finset

variable {K : Type} [Field K] [LinearOrder K] [IsStrictOrderedRing K]

/-- the points `x >= 0` with `A x <= b` -/
structure InFark (A : Mat K) (b : List K) (x : Nat → K) : Prop where
  nonneg : ∀ j < A.cols, 0 ≤ x j
  rows : ∀ i < A.rows, ∑ j ∈ range A.cols, A.at_ i j * x j ≤ b.getD i 0

/-- every row has at most one positive coefficient -/
def OnePos (A : Mat K) : Prop := ∀ i < A.rows, ∀ j < A.cols, ∀ j' < A.cols, 0 < A.at_ i j → 0 < A.at_ i j' → j = j'

variable {A : Mat K} {b : List K} {solver : Milp K → Answer K}

/-- **C37**, for any matrix.  If the matrix has one more row than columns, its rows must have at most one
positive coefficient each; this is so for the systems of the library (`C37_one_positive_z`,
`C37_one_positive_y`). -/
theorem C37_bounds (hb : A.rows ≤ b.length) (hsq : A.cols + 1 = A.rows → OnePos A) (hs : ∀ lp, (solver lp).Sound lp)
    {u : List K} (h : computeUpperBounds solver A b = .ok (.optimal, u)) :
    u.length = A.cols ∧ (∃ x, InFark A b x) ∧ ∀ x, InFark A b x → ∀ j < A.cols, x j ≤ u.getD j 0 := by
  obtain ⟨lp, h1, h2, h3, h4, h5⟩ := upperBoundLP_ok hb
  unfold computeUpperBounds at h
  rw [h1] at h
  simp only [bind, Except.bind] at h
  have hst : (solver lp).status = .optimal := by
    split at h
    · cases h
    · split at h
      · simp only [Except.ok.injEq, Prod.mk.injEq] at h; exact h.1
      · simp only [Except.ok.injEq, Prod.mk.injEq] at h; exact h.1
  obtain ⟨o1, o2, o3⟩ := (hs lp).optimal hst
  have hopt : ∀ x, lp.Feasible x → ∑ j ∈ range A.cols, x j ≤ ∑ j ∈ range A.cols, (solver lp).vec.getD j 0 := by
    intro x hx
    have := o1.2 x hx
    rw [h3] at this
    simp only [if_true] at this
    rwa [h4, h4] at this
  have hfeas : ∀ x, InFark A b x → lp.Feasible x := fun x hx => (h5 x).2 ⟨hx.rows, hx.nonneg⟩
  have ho := (h5 _).1 o1.1
  rw [if_neg (by rw [hst]; decide)] at h
  split at h
  · rename_i hq
    simp only [Except.ok.injEq, Prod.mk.injEq] at h
    obtain ⟨-, rfl⟩ := h
    refine ⟨by rw [o2, h2], ⟨_, ho.2, ho.1⟩, fun x hx j hj => ?_⟩
    by_contra hlt
    push Not at hlt
    have hmax := hopt (fun j => max (x j) ((solver lp).vec.getD j 0)) ((h5 _).2
      ⟨fun i hi => sum_max_le (hsq hq i hi) (hx.rows i hi) (ho.1 i hi),
        fun j hj => le_trans (hx.nonneg j hj) (le_max_left _ _)⟩)
    refine absurd hmax (not_le.2 (sum_lt_sum (fun _ _ => le_max_right _ _) ⟨j, mem_range.2 hj, ?_⟩))
    exact lt_of_lt_of_le hlt (le_max_left _ _)
  · simp only [Except.ok.injEq, Prod.mk.injEq] at h
    obtain ⟨-, rfl⟩ := h
    refine ⟨by simp, ⟨_, ho.2, ho.1⟩, fun x hx j hj => ?_⟩
    rw [List.getD_eq_getElem _ _ (by simpa using hj)]
    simp only [List.getElem_replicate]
    rw [o3, h4]
    refine le_trans ?_ (hopt x (hfeas x hx))
    exact single_le_sum (f := x) (fun i hi => hx.nonneg i (mem_range.1 hi)) (mem_range.2 hj)

/-- **C37**: the answer `infeasible` means that there is no point. -/
theorem C37_infeasible (hb : A.rows ≤ b.length) (hs : ∀ lp, (solver lp).Sound lp)
    {u : List K} (h : computeUpperBounds solver A b = .ok (.infeasible, u)) (x : Nat → K) : ¬ InFark A b x := by
  obtain ⟨lp, h1, h2, h3, h4, h5⟩ := upperBoundLP_ok hb
  unfold computeUpperBounds at h
  rw [h1] at h
  simp only [bind, Except.bind] at h
  have hst : (solver lp).status = .infeasible := by
    split at h
    · cases h
    · split at h
      · simp only [Except.ok.injEq, Prod.mk.injEq] at h; exact h.1
      · simp only [Except.ok.injEq, Prod.mk.injEq] at h; exact h.1
  exact fun hx => (hs lp).infeasible hst x ((h5 x).2 ⟨hx.rows, hx.nonneg⟩)

/-- **C37**: on a bounded set of points the assertion cannot fail. -/
theorem C37_bounded (hb : A.rows ≤ b.length) (hs : ∀ lp, (solver lp).Sound lp) {B : K}
    (hB : ∀ x, InFark A b x → ∑ j ∈ range A.cols, x j ≤ B) :
    ∃ st u, computeUpperBounds solver A b = .ok (st, u) := by
  obtain ⟨lp, h1, h2, h3, h4, h5⟩ := upperBoundLP_ok hb
  unfold computeUpperBounds
  rw [h1]
  simp only [bind, Except.bind]
  rw [if_neg]
  · split
    · exact ⟨_, _, rfl⟩
    · exact ⟨_, _, rfl⟩
  · intro hu
    obtain ⟨x, hx, hle⟩ := (hs lp).unbounded hu (B + 1)
    rw [h3, h4] at hle
    simp only [if_true] at hle
    have := hB x ⟨((h5 x).1 hx).2, ((h5 x).1 hx).1⟩
    linarith

/-! ### the systems of reachability forms -/

variable {ρ : Graph.Rnd} {M : Sys K} {il tl fl : String} {rf : RF K}

/-- the z-system: only the state of an action has a positive coefficient -/
theorem C37_one_positive_z (hM : M.WF) (hrf : RF.make ρ M il tl fl false = .ok rf) {t : K}
    (hA : rf.farkConstraints t .min = .ok (A, b)) : A.rows ≤ b.length ∧ OnePos A := by
  have h := rfok_built hM hrf
  obtain ⟨-, -, -, e, -⟩ := farkZ_rows hA
  simp only [RF.farkConstraints, RF.farkZ] at hA
  split at hA
  swap
  · cases hA
  cases hA
  refine ⟨by rw [e], fun i hi j hj j' hj' p p' => ?_⟩
  simp only at hi hj hj' p p'
  split at p
  · rename_i hic
    rw [if_pos hic] at p'
    have key : ∀ k, 0 < rf.A i k → rf.rowState i = some k := by
      intro k hk
      unfold RF.A at hk
      by_contra hn
      rw [if_neg hn] at hk
      have := h.P_nonneg i k
      linarith
    have := key j p
    rw [key j' p'] at this
    exact (Option.some.inj this).symm
  · exfalso
    unfold RF.delta at p
    split at p <;> norm_num at p

/-- the y-system, when there are as many actions as states -/
theorem C37_one_positive_y (hM : M.WF) (hrf : RF.make ρ M il tl fl false = .ok rf) {t : K}
    (hA : rf.farkConstraints t .max = .ok (A, b)) : A.rows ≤ b.length ∧ (A.cols + 1 = A.rows → OnePos A) := by
  have h := rfok_built hM hrf
  obtain ⟨-, -, -, e, -⟩ := farkY_rows hA
  simp only [RF.farkConstraints, RF.farkY] at hA
  split at hA
  swap
  · cases hA
  cases hA
  refine ⟨by rw [e], fun hq i hi j hj j' hj' p p' => ?_⟩
  simp only at hi hj hj' p p' hq
  have hCN : rf.C = rf.N := by omega
  split at p
  · rename_i hic
    rw [if_pos hic] at p'
    have key : ∀ k, 0 < rf.A k i → rf.rowState k = some i := by
      intro k hk
      unfold RF.A at hk
      by_contra hn
      rw [if_neg hn] at hk
      have := h.P_nonneg k i
      linarith
    -- every state has an action, hence exactly one
    have hex : ∀ r : Fin rf.C, ∃ s : Fin rf.N, rf.rowState r.1 = some s.1 := fun r => by
      obtain ⟨s, hs, e⟩ := h.exists_rowState r.2
      exact ⟨⟨s, hs⟩, e⟩
    choose f hf using hex
    have hsurj : Function.Surjective f := by
      intro s
      obtain ⟨a, r, h1, h2⟩ := h.exists_row s.2
      refine ⟨⟨r, h2⟩, Fin.ext (Option.some.inj ?_)⟩
      rw [← hf, (h.rowState_iff h2).2 ⟨a, h1⟩]
    have hinj := ((Fintype.bijective_iff_surjective_and_card f).2 ⟨hsurj, by simp [hCN]⟩).1
    have : (⟨j, hj⟩ : Fin rf.C) = ⟨j', hj'⟩ := hinj (Fin.ext (Option.some.inj (by
      rw [← hf, ← hf]; exact (key j p).trans (key j' p').symm)))
    exact congrArg Fin.val this
  · exfalso
    have := h.b_nonneg j
    linarith

/-- **C37 (min).** -/
theorem C37_min (hM : M.WF) (hrf : RF.make ρ M il tl fl false = .ok rf) {t : K}
    (hA : rf.farkConstraints t .min = .ok (A, b)) (hs : ∀ lp, (solver lp).Sound lp)
    {u : List K} (h : computeUpperBounds solver A b = .ok (.optimal, u)) :
    u.length = A.cols ∧ (∃ x, InFark A b x) ∧ ∀ x, InFark A b x → ∀ j < A.cols, x j ≤ u.getD j 0 :=
  C37_bounds (C37_one_positive_z hM hrf hA).1 (fun _ => (C37_one_positive_z hM hrf hA).2) hs h

/-- **C37 (max).** -/
theorem C37_max (hM : M.WF) (hrf : RF.make ρ M il tl fl false = .ok rf) {t : K}
    (hA : rf.farkConstraints t .max = .ok (A, b)) (hs : ∀ lp, (solver lp).Sound lp)
    {u : List K} (h : computeUpperBounds solver A b = .ok (.optimal, u)) :
    u.length = A.cols ∧ (∃ x, InFark A b x) ∧ ∀ x, InFark A b x → ∀ j < A.cols, x j ≤ u.getD j 0 :=
  C37_bounds (C37_one_positive_y hM hrf hA).1 (C37_one_positive_y hM hrf hA).2 hs h

theorem fark_flow {t : K} (hA : rf.farkConstraints t .max = .ok (A, b)) {x : Nat → K} (hx : InFark A b x) :
    rf.initial < rf.N ∧ A.cols = rf.C ∧ (∀ j < rf.N, yrow rf x j ≤ rf.delta j) := by
  obtain ⟨e0, e1, e2, -, e3⟩ := farkY_rows hA
  refine ⟨e0, e2, fun j hj => ?_⟩
  have := hx.rows j (by omega)
  rwa [((e3 x).1 j hj).1, ((e3 x).1 j hj).2] at this

theorem fark_z (hA : ∃ t : K, rf.farkConstraints t .min = .ok (A, b)) {x : Nat → K} (hx : InFark A b x) :
    A.cols = rf.N ∧ (∀ i < rf.C, zrow rf x i ≤ rf.b i) := by
  obtain ⟨t, hA⟩ := hA
  obtain ⟨e0, e1, e2, -, e3⟩ := farkZ_rows hA
  refine ⟨e2, fun j hj => ?_⟩
  have := hx.rows j (by omega)
  rwa [((e3 x).1 j hj).1, ((e3 x).1 j hj).2] at this

end Verif.Props

namespace Verif.Props
open Verif.Model Verif.Model.Milp Verif.Spec Verif.Proofs Verif.Theory Finset

variable {K : Type} [Field K] [LinearOrder K] [IsStrictOrderedRing K]

/-- a linear function attains its maximum on a non-empty bounded polytope -/
theorem exists_max_sum {A : Mat K} {b : List K} (hne : ∃ x, InFark A b x) {B : K}
    (hB : ∀ x, InFark A b x → ∑ j ∈ range A.cols, x j ≤ B) :
    ∃ x, InFark A b x ∧ ∀ y, InFark A b y → ∑ j ∈ range A.cols, y j ≤ ∑ j ∈ range A.cols, x j := by
  let ext : (Fin A.cols → K) → Nat → K := fun v j => if h : j < A.cols then v ⟨j, h⟩ else 0
  have hsum : ∀ (v : Fin A.cols → K) (c : Nat → K), ∑ j ∈ range A.cols, c j * ext v j = ∑ j : Fin A.cols, c j.1 * v j := by
    intro v c
    rw [Finset.sum_range]
    exact sum_congr rfl fun j _ => by simp [ext]
  have hsum1 : ∀ v, ∑ j ∈ range A.cols, ext v j = ∑ j : Fin A.cols, v j := by
    intro v
    have := hsum v fun _ => 1
    simpa using this
  let S : (Fin A.cols → K) → Prop := fun v => (∀ j, 0 ≤ v j) ∧ ∀ i < A.rows, ∑ j : Fin A.cols, A.at_ i j.1 * v j ≤ b.getD i 0
  have hS : ∀ v, S v ↔ InFark A b (ext v) := by
    intro v
    constructor
    · rintro ⟨h1, h2⟩
      exact ⟨fun j hj => by simp only [ext, hj, dif_pos]; exact h1 _, fun i hi => by rw [hsum v (A.at_ i)]; exact h2 i hi⟩
    · rintro ⟨h1, h2⟩
      refine ⟨fun j => ?_, fun i hi => by rw [← hsum v (A.at_ i)]; exact h2 i hi⟩
      have := h1 j.1 j.2
      simpa [ext] using this
  have hres : ∀ x, InFark A b x → S (fun j : Fin A.cols => x j.1) := by
    intro x hx
    refine ⟨fun j => hx.nonneg j.1 j.2, fun i hi => ?_⟩
    have := hx.rows i hi
    rwa [Finset.sum_range] at this
  have hlin : Lin (OrderRingHom.id K) false S :=
    (Lin.all fun j => Lin.le Aff.zero (Aff.var j)).and (Lin.forall_lt _ fun i _ => Lin.le
      (Aff.sum _ fun j _ => (Aff.var j).mul ⟨_, rfl⟩) (Aff.const ⟨_, rfl⟩))
  obtain ⟨x0, hx0⟩ := hne
  obtain ⟨v, hv, hmax⟩ := hlin.exists_max (Aff.sum Finset.univ fun j _ => Aff.var j) (hres x0 hx0) (B := B) fun v hv => by
    rw [← hsum1]
    exact hB _ ((hS v).1 hv)
  refine ⟨ext v, (hS v).1 hv, fun y hy => ?_⟩
  rw [hsum1, Finset.sum_range]
  exact hmax _ (hres y hy)

variable {ρ : Graph.Rnd} {M : Sys K} {il tl fl : String} {rf : RF K} {A : Mat K} {b : List K} {solver : Milp K → Answer K}

/-- the flows of a form without proper end components are bounded -/
theorem fark_bounded (hM : M.WF) (hrf : RF.make ρ M il tl fl false = .ok rf) (φ : K →+*o ℝ) (he : rf.isEcFree = true) {t : K} {mode : Mode}
    (hA : rf.farkConstraints t mode = .ok (A, b)) :
    ∃ B, ∀ x, InFark A b x → ∑ j ∈ range A.cols, x j ≤ B := by
  have h := rfok_built hM hrf
  cases mode with
  | max =>
    obtain ⟨e0, -, e2, -⟩ := farkY_rows hA
    obtain ⟨B, hB⟩ := h.flow_bounded φ he e0
    obtain ⟨n, hn⟩ := exists_nat_ge B
    refine ⟨n, fun x hx => ?_⟩
    rw [e2, ← (phi_strict φ).le_iff_le, map_natCast]
    exact le_trans (hB x (fun i hi => hx.nonneg i (by omega)) (fark_flow hA hx).2.2) hn
  | min =>
    refine ⟨A.cols, fun x hx => ?_⟩
    obtain ⟨g1, g2⟩ := fark_z ⟨t, hA⟩ hx
    refine le_trans (sum_le_sum fun j hj => h.z_le_one φ he g2 (by rw [← g1]; exact mem_range.1 hj)) ?_
    simp

/-- on a bounded system of constraints, a solver that finds optima decides feasibility -/
theorem computed_of_bounded (hb : A.rows ≤ b.length) {B : K} (hB : ∀ x, InFark A b x → ∑ j ∈ range A.cols, x j ≤ B)
    (hs : ∀ lp, (solver lp).Exact lp) :
    ((∃ x, InFark A b x) ∧ ∃ u, computeUpperBounds solver A b = .ok (.optimal, u)) ∨
    ((∀ x, ¬ InFark A b x) ∧ ∃ u, computeUpperBounds solver A b = .ok (.infeasible, u)) := by
  obtain ⟨lp, h1, h2, h3, h4, h5⟩ := upperBoundLP_ok hb
  have hiff : ∀ x, lp.Feasible x ↔ InFark A b x := fun x => by
    rw [h5]
    exact ⟨fun g => ⟨g.2, g.1⟩, fun g => ⟨g.rows, g.nonneg⟩⟩
  have hval : ∀ st, (solver lp).status = st → st ≠ .unbounded → ∃ u, computeUpperBounds solver A b = .ok (st, u) := by
    intro st hst hne
    unfold computeUpperBounds
    rw [h1]
    simp only [bind, Except.bind]
    rw [hst, if_neg hne]
    split
    · exact ⟨_, rfl⟩
    · exact ⟨_, rfl⟩
  by_cases hne : ∃ x, InFark A b x
  · refine Or.inl ⟨hne, hval _ ((hs lp).optimal' ?_) (by decide)⟩
    obtain ⟨x, hx, hmax⟩ := exists_max_sum hne hB
    have e : ∀ j < A.cols, (if j < A.cols then x j else 0) = x j := fun j hj => if_pos hj
    refine ⟨fun j => if j < A.cols then x j else 0, ⟨(hiff _).2 ⟨fun j hj => ?_, fun i hi => ?_⟩, fun y hy => ?_⟩, fun j hj => ?_⟩
    · rw [e j hj]; exact hx.nonneg j hj
    · refine le_trans (le_of_eq (sum_congr rfl fun j hj => ?_)) (hx.rows i hi)
      rw [e j (mem_range.1 hj)]
    · rw [h3]
      simp only [if_true]
      rw [h4, h4, sum_congr rfl fun j hj => e j (mem_range.1 hj)]
      exact hmax y ((hiff y).1 hy)
    · rw [h2] at hj
      exact if_neg (by omega)
  · push Not at hne
    exact Or.inr ⟨hne, hval _ ((hs lp).infeasible' fun x hx => hne x ((hiff x).1 hx)) (by decide)⟩

/-- **C37**: for a form without proper end components and a solver that finds optima, the upper bounds are
computed unless there is no certificate. -/
theorem C37_computed (hM : M.WF) (hrf : RF.make ρ M il tl fl false = .ok rf) (φ : K →+*o ℝ) (he : rf.isEcFree = true)
    {t : K} {mode : Mode} (hA : rf.farkConstraints t mode = .ok (A, b)) (hs : ∀ lp, (solver lp).Exact lp) :
    ((∃ x, InFark A b x) ∧ ∃ u, computeUpperBounds solver A b = .ok (.optimal, u)) ∨
    ((∀ x, ¬ InFark A b x) ∧ ∃ u, computeUpperBounds solver A b = .ok (.infeasible, u)) := by
  have hb : A.rows ≤ b.length := by
    cases mode with
    | min => exact (C37_one_positive_z hM hrf hA).1
    | max => exact (C37_one_positive_y hM hrf hA).1
  obtain ⟨B, hB⟩ := fark_bounded hM hrf φ he hA
  exact computed_of_bounded hb hB hs

end Verif.Props
