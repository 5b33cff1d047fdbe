import Verif.Props.QSHeur
import Verif.Props.TreeAlgo
/-!
# C104: the answers for different thresholds, modes, labels and methods fit together

Every theorem here compares two calls.  The calls may use different solvers (and back ends), none of which lies.
-/
set_option linter.unusedSectionVars false

namespace Verif.Theory.Core
open Verif.Spec Finset

variable {S R S' R' : Type} [Fintype S] [Fintype S']
variable {A : Core S R} {B : Core S' R'} {e : S' → S} {U : Set S}

/-- a part of a part -/
theorem Embeds.cut_part (h : Embeds (A.cut U) B e) (hU : ∀ s', e s' ∈ U) (V : Set S') : Embeds (A.cut (e '' V)) (B.cut V) e := by
  have hin : ∀ s', e s' ∈ e '' V ↔ s' ∈ V := fun s' =>
    ⟨fun ⟨x, hx, he⟩ => by rw [← h.inj he]; exact hx, fun hs => ⟨s', hs, rfl⟩⟩
  have row : ∀ {s' r' r}, SameRow (A.cut U) B e s' r' r → SameRow (A.cut (e '' V)) (B.cut V) e s' r' r := by
    intro s' r' r hr
    refine ⟨?_, fun t' => ?_, fun t ht hq => ?_⟩
    · have := hr.g
      simp only [Core.cut, hU, if_true] at this
      by_cases hs : s' ∈ V
      · simp only [Core.cut, (hin s').2 hs, hs, if_true, this]
      · simp only [Core.cut, mt (hin s').1 hs, hs, if_false]
    · have := hr.Q t'
      simp only [Core.cut, hU, and_self, if_true] at this
      by_cases hs : s' ∈ V <;> by_cases ht : t' ∈ V
      · simp only [Core.cut, (hin s').2 hs, (hin t').2 ht, hs, ht, and_self, if_true, this]
      · simp only [Core.cut, mt (hin t').1 ht, ht, and_false, if_false]
      · simp only [Core.cut, mt (hin s').1 hs, hs, false_and, if_false]
      · simp only [Core.cut, mt (hin s').1 hs, hs, false_and, if_false]
    · exfalso
      simp only [Core.cut] at hq
      split at hq
      · rename_i hc
        obtain ⟨x, -, hx⟩ := hc.2
        exact ht ⟨x, hx⟩
      · exact hq rfl
  exact ⟨h.inj, fun s' r' hr' => by obtain ⟨r, h1, h2⟩ := h.left s' r' hr'; exact ⟨r, h1, row h2⟩,
    fun s' r hr => by obtain ⟨r', h1, h2⟩ := h.right s' r hr; exact ⟨r', h1, row h2⟩⟩

/-- without choice there is one value -/
theorem Vmin_eq_Vmax_of_one (h : A.Sub) (h1 : ∀ s, ∀ r ∈ A.rows s, ∀ r' ∈ A.rows s, r = r') (s : S) : A.Vmin s = A.Vmax s := by
  refine le_antisymm (Vmin_le_Vmax h.toOK h.bound s) (Vmax_le_pre h.toOK (fun s => Vmin_nonneg h.toOK h.bound s) (fun s r hr => ?_) s)
  obtain ⟨r', hr', e⟩ := exists_step_Vmin h.toOK h.bound s
  rw [h1 s r hr r' hr', e]

end Verif.Theory.Core

namespace Verif.Props
open Verif.Model Verif.Model.Milp Verif.Proofs Verif.Theory Finset

variable {K : Type} [Field K] [LinearOrder K] [IsStrictOrderedRing K]
variable {ρ ρ' : Graph.Rnd} {M : Sys K} {il tl fl : String} {rf : RF K}

/-- the first problem is not harder than the second: the maximal instead of the minimal probability, a smaller threshold, fewer labels -/
structure Easier (mode₁ : Mode) (t₁ : K) (labels₁ : Option (List String)) (mode₂ : Mode) (t₂ : K) (labels₂ : Option (List String)) : Prop where
  mode : mode₁ = mode₂ ∨ mode₁ = .max
  thr : t₁ ≤ t₂
  labels : labels₁ = labels₂ ∨ ∃ ls₁ ls₂, labels₁ = some ls₁ ∧ labels₂ = some ls₂ ∧ ls₁ ⊆ ls₂

variable {mode₁ mode₂ : Mode} {t₁ t₂ : K} {labels₁ labels₂ : Option (List String)}

theorem Easier.val (h : Easier mode₁ t₁ labels₁ mode₂ t₂ labels₂) (hR : RFOK rf) (φ : K →+*o ℝ) {U : Nat → Prop} {s : Fin rf.N}
    (hv : φ t₂ ≤ cutVal hR φ mode₂ U s) : φ t₁ ≤ cutVal hR φ mode₁ U s := by
  refine (OrderHomClass.mono φ h.thr).trans (hv.trans ?_)
  have hs := Core.cut_sub (U := {s : Fin rf.N | U s.1}) (hR.sub φ)
  rcases h.mode with rfl | rfl
  · exact le_rfl
  · cases mode₂ with
    | max => exact le_rfl
    | min => exact Core.Vmin_le_Vmax hs.toOK hs.bound s

theorem Easier.cost (h : Easier mode₁ t₁ labels₁ mode₂ t₂ labels₂) (M : Sys K) (U : Nat → Prop) : cost M labels₁ U ≤ cost M labels₂ U := by
  classical
  rcases h.labels with rfl | ⟨l1, l2, rfl, rfl, h12⟩
  · exact le_rfl
  · unfold Props.cost
    refine card_le_card fun l hl => ?_
    simp only [mem_filter, List.mem_toFinset] at hl ⊢
    exact ⟨h12 hl.1, hl.2⟩

theorem cut_of_check {mode : Mode} {t : K} (hM : M.WF) (hrf : RF.make ρ M il tl fl false = .ok rf) (φ : K →+*o ℝ) {cert : List K}
    (hc : check rf mode .ge t cert 0 = .ok true) (h0 : ∀ c ∈ cert, 0 ≤ c) :
    ∃ hin : rf.initial < rf.N, φ t ≤ cutVal (rfok_built hM hrf) φ mode (Selected M mode cert) ⟨rf.initial, hin⟩ := by
  cases mode with
  | min => obtain ⟨hin, h1, -⟩ := support_min hM hrf φ (strict := false) hc; exact ⟨hin, h1⟩
  | max => obtain ⟨hin, h1, -⟩ := support_max hM hrf φ (strict := false) h0 hc; exact ⟨hin, h1⟩

section
variable {lp₁ lp₂ solver₁ : Milp K → Answer K} {be₁ be₂ : Backend} {r₁ r₂ : ProblemResult (Subsystem K) K}

/-- an answer of `MILPExact` against any accepted certificate for a problem that is not easier -/
theorem exact_le (hM : M.WF) (hrf : RF.make ρ M il tl fl false = .ok rf) (φ : K →+*o ℝ)
    (hlp₁ : ∀ lp, (lp₁ lp).Sound lp) (hs₁ : ∀ m, (solver₁ m).Sound m)
    (h : Easier mode₁ t₁ labels₁ mode₂ t₂ labels₂)
    (hr₁ : r₁ ∈ (solveIter rf.form t₁ (milpExact rf.form lp₁ solver₁ t₁ mode₁ labels₁ be₁)).1)
    {cert : List K} (hc : check rf mode₂ .ge t₂ cert 0 = .ok true) (h0 : ∀ c ∈ cert, 0 ≤ c) :
    r₁.status ≠ .failed .infeasible ∧
    (r₁.status = .success → ∃ k₁ : Nat, r₁.value = some (k₁ : K) ∧ k₁ ≤ cost M labels₂ (Selected M mode₂ cert)) := by
  obtain ⟨a, b⟩ := exact_minimal_cut hM hrf φ hlp₁ hs₁ hr₁
  obtain ⟨hin, hv⟩ := cut_of_check hM hrf φ hc h0
  refine ⟨fun hst => b hst _ hin (h.val _ φ hv), fun hst => ?_⟩
  obtain ⟨k, e, hk⟩ := a hst
  exact ⟨k, e, (hk _ hin (h.val _ φ hv)).trans (h.cost M _)⟩

/-- **C104.** `MILPExact` on two problems on the same system, the first of which is not harder (`Easier`: smaller threshold, maximal
instead of minimal probability, fewer labels): if the second call succeeds then the first does not report "infeasible", and if both
succeed then the first value is not larger. -/
theorem C104_order {solver₂ : Milp K → Answer K} (hM : M.WF) (hL : LabelMap M.labS) (hrf : RF.make ρ M il tl fl false = .ok rf) (φ : K →+*o ℝ)
    (hlp₁ : ∀ lp, (lp₁ lp).Sound lp) (hs₁ : ∀ m, (solver₁ m).Sound m) (hlp₂ : ∀ lp, (lp₂ lp).Sound lp) (hs₂ : ∀ m, (solver₂ m).Sound m)
    (h : Easier mode₁ t₁ labels₁ mode₂ t₂ labels₂)
    (hr₁ : r₁ ∈ (solveIter rf.form t₁ (milpExact rf.form lp₁ solver₁ t₁ mode₁ labels₁ be₁)).1)
    (hr₂ : r₂ ∈ (solveIter rf.form t₂ (milpExact rf.form lp₂ solver₂ t₂ mode₂ labels₂ be₂)).1) (hst₂ : r₂.status = .success) :
    r₁.status ≠ .failed .infeasible ∧
    (r₁.status = .success → ∃ k₁ k₂ : Nat, r₁.value = some (k₁ : K) ∧ r₂.value = some (k₂ : K) ∧ k₁ ≤ k₂) := by
  obtain ⟨cert, x, k, rfl, -, g2, g3, rfl, -⟩ := exact_sound hM hL hrf hlp₂ hs₂ hr₂ hst₂
  obtain ⟨a, b⟩ := exact_le hM hrf φ hlp₁ hs₁ h hr₁ g2 g3
  refine ⟨a, fun hst => ?_⟩
  obtain ⟨k₁, e, hk⟩ := b hst
  exact ⟨k₁, _, e, rfl, hk⟩

/-- **C104.** Two successful calls for the same problem report the same value, whatever solvers and back ends they use, and
there are not both a success and an "infeasible". -/
theorem C104_same {solver₂ : Milp K → Answer K} {mode : Mode} {t : K} {labels : Option (List String)}
    (hM : M.WF) (hL : LabelMap M.labS) (hrf : RF.make ρ M il tl fl false = .ok rf) (φ : K →+*o ℝ)
    (hlp₁ : ∀ lp, (lp₁ lp).Sound lp) (hs₁ : ∀ m, (solver₁ m).Sound m) (hlp₂ : ∀ lp, (lp₂ lp).Sound lp) (hs₂ : ∀ m, (solver₂ m).Sound m)
    (hr₁ : r₁ ∈ (solveIter rf.form t (milpExact rf.form lp₁ solver₁ t mode labels be₁)).1)
    (hr₂ : r₂ ∈ (solveIter rf.form t (milpExact rf.form lp₂ solver₂ t mode labels be₂)).1) (hst₂ : r₂.status = .success) :
    r₁.status ≠ .failed .infeasible ∧ (r₁.status = .success → ∃ k : Nat, r₁.value = some (k : K) ∧ r₂.value = some (k : K)) := by
  obtain ⟨a, b⟩ := C104_order hM hL hrf φ hlp₁ hs₁ hlp₂ hs₂ ⟨Or.inl rfl, le_rfl, Or.inl rfl⟩ hr₁ hr₂ hst₂
  refine ⟨a, fun hst => ?_⟩
  obtain ⟨k₁, k₂, e1, e2, hle⟩ := b hst
  obtain ⟨k₃, k₄, e3, e4, hle'⟩ := (C104_order hM hL hrf φ hlp₂ hs₂ hlp₁ hs₁ ⟨Or.inl rfl, le_rfl, Or.inl rfl⟩ hr₂ hr₁ hst).2 hst₂
  rw [e2] at e3
  rw [e1] at e4
  have h1 : k₂ = k₃ := by simpa using e3
  have h2 : k₁ = k₄ := by simpa using e4
  refine ⟨k₁, e1, ?_⟩
  rw [e2, show k₂ = k₁ by omega]

/-- **C104.** No success of `QSHeur` - whatever its initial objective, updater, number of iterations, back end and solvers - reports a
value below that of `MILPExact` for the same problem or one that is not harder, nor contradicts it by a success where it is infeasible. -/
theorem C104_heuristic {solver₂ : Nat → Milp K → Answer K} {n : Nat} {ini : List (Nat × List Nat) → Except Err (List (Nat × K))}
    {upd : List (Nat × List Nat) → Updater K}
    (hM : M.WF) (hL : LabelMap M.labS) (hrf : RF.make ρ M il tl fl false = .ok rf) (φ : K →+*o ℝ)
    (hlp₁ : ∀ lp, (lp₁ lp).Sound lp) (hs₁ : ∀ m, (solver₁ m).Sound m) (hlp₂ : ∀ lp, (lp₂ lp).Sound lp) (hs₂ : ∀ k m, (solver₂ k m).Sound m)
    (h : Easier mode₁ t₁ labels₁ mode₂ t₂ labels₂)
    (hr₁ : r₁ ∈ (solveIter rf.form t₁ (milpExact rf.form lp₁ solver₁ t₁ mode₁ labels₁ be₁)).1)
    (hr₂ : r₂ ∈ (solveIter rf.form t₂ (qsHeur rf.form lp₂ solver₂ n ini upd t₂ mode₂ labels₂ be₂)).1) (hst₂ : r₂.status = .success) :
    r₁.status ≠ .failed .infeasible ∧
    (LabelsOK M labels₂ → r₁.status = .success → ∃ k₁ k₂ : Nat, r₁.value = some (k₁ : K) ∧ r₂.value = some (k₂ : K) ∧ k₁ ≤ k₂) := by
  obtain ⟨cert, x, k, rfl, -, g2, g3, -, g4, -⟩ := C41_sound hM hL hrf hlp₂ hs₂ hr₂ hst₂
  obtain ⟨a, b⟩ := exact_le hM hrf φ hlp₁ hs₁ h hr₁ g2 g3
  refine ⟨a, fun hlab hst => ?_⟩
  obtain ⟨k₁, e, hk⟩ := b hst
  exact ⟨k₁, _, e, rfl, hk.trans (g4 hlab)⟩

/-- **C104.** ... and `QSHeur` (with positive weights) does not report "infeasible" where `MILPExact` succeeds. -/
theorem C104_heuristic_infeasible {solver₂ : Nat → Milp K → Answer K} {n : Nat} {ini : List (Nat × List Nat) → Except Err (List (Nat × K))}
    {upd : List (Nat × List Nat) → Updater K} {w : Nat → K} (hw : ∀ i, 0 < w i) (hi : LibInit w ini) (hu : LibUpdater w upd)
    (hM : M.WF) (hL : LabelMap M.labS) (hrf : RF.make ρ M il tl fl false = .ok rf) (φ : K →+*o ℝ)
    (hlp₁ : ∀ lp, (lp₁ lp).Sound lp) (hs₁ : ∀ m, (solver₁ m).Sound m) (hlp₂ : ∀ lp, (lp₂ lp).Sound lp) (hs₂ : ∀ k m, (solver₂ k m).Sound m)
    (hl : LabelsOK M labels₂) (h : Easier mode₂ t₂ labels₂ mode₁ t₁ labels₁)
    (hr₁ : r₁ ∈ (solveIter rf.form t₁ (milpExact rf.form lp₁ solver₁ t₁ mode₁ labels₁ be₁)).1) (hst₁ : r₁.status = .success)
    (hr₂ : r₂ ∈ (solveIter rf.form t₂ (qsHeur rf.form lp₂ solver₂ n ini upd t₂ mode₂ labels₂ be₂)).1) :
    r₂.status ≠ .failed .infeasible := by
  intro hst
  obtain ⟨cert, x, k, rfl, -, g2, g3, -⟩ := exact_sound hM hL hrf hlp₁ hs₁ hr₁ hst₁
  obtain ⟨hin, hv⟩ := cut_of_check hM hrf φ g2 g3
  exact qs_infeasible_cut hM hrf φ hlp₂ hs₂ hl hw hi hu hr₂ hst _ hin (h.val _ φ hv)

/-- **C104.** In a system with one action per state - every Markov chain - the two modes give the same value. -/
theorem C104_chain {solver₂ : Milp K → Answer K} {t : K} {labels : Option (List String)}
    (hM : M.WF) (hL : LabelMap M.labS) (hrf : RF.make ρ M il tl fl false = .ok rf) (φ : K →+*o ℝ)
    (hone : ∀ s a b i j, ((s, a), i) ∈ M.idx → ((s, b), j) ∈ M.idx → i = j)
    (hlp₁ : ∀ lp, (lp₁ lp).Sound lp) (hs₁ : ∀ m, (solver₁ m).Sound m) (hlp₂ : ∀ lp, (lp₂ lp).Sound lp) (hs₂ : ∀ m, (solver₂ m).Sound m)
    (hr₁ : r₁ ∈ (solveIter rf.form t (milpExact rf.form lp₁ solver₁ t mode₁ labels be₁)).1)
    (hr₂ : r₂ ∈ (solveIter rf.form t (milpExact rf.form lp₂ solver₂ t mode₂ labels be₂)).1) (hst₂ : r₂.status = .success) :
    r₁.status ≠ .failed .infeasible ∧ (r₁.status = .success → ∃ k : Nat, r₁.value = some (k : K) ∧ r₂.value = some (k : K)) := by
  have h := rfok_built hM hrf
  have hval : ∀ (m m' : Mode) (U : Nat → Prop) (s : Fin rf.N), cutVal h φ m U s = cutVal h φ m' U s := by
    have key : ∀ (U : Nat → Prop) (s : Fin rf.N), cutVal h φ .min U s = cutVal h φ .max U s := by
      intro U s
      refine Core.Vmin_eq_Vmax_of_one (Core.cut_sub (h.sub φ)) (fun s r hr r' hr' => ?_) s
      obtain ⟨a, ha⟩ := (h.rowState_iff r.2).1 ((h.mem_rows φ).1 hr)
      obtain ⟨b, hb⟩ := (h.rowState_iff r'.2).1 ((h.mem_rows φ).1 hr')
      rw [(make_fields hrf).1] at ha hb
      exact Fin.ext (hone _ _ _ _ _ ha hb)
    intro m m' U s
    cases m <;> cases m' <;> first | rfl | exact key U s | exact (key U s).symm
  obtain ⟨c1, c2⟩ := exact_minimal_cut hM hrf φ hlp₁ hs₁ hr₁
  obtain ⟨d1, -⟩ := exact_minimal_cut hM hrf φ hlp₂ hs₂ hr₂
  obtain ⟨k₂', e2, hk₂⟩ := d1 hst₂
  obtain ⟨cert, x, k₂, rfl, -, g2, g3, g4, -⟩ := exact_sound hM hL hrf hlp₂ hs₂ hr₂ hst₂
  obtain rfl : k₂ = k₂' := by simpa using e2
  obtain ⟨hin, hv⟩ := cut_of_check hM hrf φ g2 g3
  rw [hval mode₂ mode₁] at hv
  refine ⟨fun hst => c2 hst _ hin hv, fun hst => ?_⟩
  obtain ⟨k₁', e1, hk₁⟩ := c1 hst
  obtain ⟨cert', x', k₁, rfl, -, f2, f3, f4, -⟩ := exact_sound hM hL hrf hlp₁ hs₁ hr₁ hst
  obtain rfl : k₁ = k₁' := by simpa using e1
  obtain ⟨hin', hv'⟩ := cut_of_check hM hrf φ f2 f3
  rw [hval mode₁ mode₂] at hv'
  have a := hk₁ _ hin hv
  have b := hk₂ _ hin' hv'
  rw [← g4] at a
  rw [← f4] at b
  exact ⟨k₁, rfl, by simp only [show k₂ = k₁ by omega]⟩

/-- **C104.** On the chains and partitions for which `TreeAlgo` is right (C66) it reports the value of `MILPExact`, in either mode, and
`MILPExact` does not report "infeasible" then. -/
theorem C104_tree {mode : Mode} {t : K} {lin : Nat → (Nat → K) → (Nat → K) → Nat → K}
    {hull : Nat → Dict Nat (List (List K)) → List (Nat × List K)} {parts : List (List Nat)} {order : List Nat} {ub : Nat}
    (hM : M.WF) (hL : LabelMap M.labS) (hrf : RF.make ρ M il tl fl false = .ok rf) (hidx : RowsAreStates M) (φ : K →+*o ℝ)
    (hlS : M.labS.dflt = true ∨ ∀ s < M.N, ∃ l, s ∈ M.labelled l) (hA : LabelMap M.labA) (hlA : M.labA.dflt = true)
    (H : TreeOK rf.chain parts order) (hl : Tree.LinOK lin) (hh : Tree.HullOK (φ : K →+* ℝ) hull) (ht : 0 < t)
    {σ : Type} {qsMax qsMin : Except Err (ProblemResult σ K)} {r₂ : ProblemResult σ K}
    {tree : K → Except Err K} (htree : tree ub = (TreeDecomp.minWitnesses lin rf.chain parts hull order t ub).map Nat.cast)
    (hr₂ : solveLast (treeAlgo true (some (ub : K)) qsMax qsMin tree) = .ok r₂)
    (hlp₁ : ∀ lp, (lp₁ lp).Sound lp) (hs₁ : ∀ m, (solver₁ m).Sound m)
    (hr₁ : r₁ ∈ (solveIter rf.form t (milpExact rf.form lp₁ solver₁ t mode none be₁)).1) :
    r₁.status ≠ .failed .infeasible ∧ (r₁.status = .success → ∃ k : Nat, r₁.value = some (k : K) ∧ r₂.value = some (k : K)) := by
  obtain ⟨k, rfl, w1, -, w2⟩ := C66_solve_partial (mode := mode) hM hL hrf hidx hlS hA hlA H hl hh ht htree hr₂
  obtain ⟨a, b⟩ := exact_minimal_cut hM hrf φ hlp₁ hs₁ hr₁
  obtain ⟨U, hin, hc, hv⟩ := witness_cut hM hL hrf w1
  refine ⟨fun hst => b hst U hin hv, fun hst => ?_⟩
  obtain ⟨k₁, e, hk⟩ := a hst
  obtain ⟨k₁', e', w3⟩ := exact_witness hM hL hrf φ hlS hA hlA (fun _ s a i g => (hidx s a i g).1) ht hlp₁ hs₁ hr₁ hst
  rw [e] at e'
  obtain rfl : k₁ = k₁' := by simpa using e'
  have h1 := hk U hin hv
  have h2 := w2 _ w3
  rw [hc] at h1
  obtain rfl : k₁ = k := by omega
  exact ⟨k₁, e, rfl⟩
end

/-! ### minimising a subsystem -/

section
variable {cert : List K} {mode : Mode} {x : Subsystem K} {res : Subsystem.Result K}

/-- the parts of a subsystem are parts of the system -/
theorem sub_cut (hM : M.WF) (hL : LabelMap M.labS) (hrf : RF.make ρ M il tl fl false = .ok rf)
    (hx : Subsystem.make rf cert mode false = .ok x) (hr : x.subsys ρ' = .ok res) (φ : K →+*o ℝ)
    (hM' : res.rf.sys.WF) (hrf' : RF.make ρ' res.rf.sys il tl fl false = .ok res.rf)
    {ks : List Nat} (hk : Naming M mode cert ks) (V : Nat → Prop) (m : Mode) (n : Fin res.rf.N) (s : Fin rf.N) (hn : ks[n.1]? = some s.1) :
    cutVal (rfok_built hM' hrf') φ m V n = cutVal (rfok_built hM hrf) φ m (fun s => ∃ n, ks[n]? = some s ∧ V n) s := by
  obtain ⟨e0, e1, e2, e3, -⟩ := make_fields hrf
  have h := rfok_built hM hrf
  have h' := rfok_built hM' hrf'
  subst e0 e1 e2 e3
  obtain ⟨mk, hml, hms, hS, -, -⟩ := subsys_spec h hL.inv hx hr
  have hMp := subMaps h hml
  have hks : ks = Subsystem.kept mk := by
    refine hk.unique ⟨?_, fun s => ?_⟩
    · unfold Subsystem.kept
      exact List.Pairwise.filter _ (by simpa using List.pairwise_lt_range)
    · rw [mem_kept, hms, inMask_iff h hx]
  subst hks
  obtain ⟨e, he, hE⟩ := hS.embeds h hml h' φ
  have hes : ∀ s', (Subsystem.kept mk)[s'.1]? = some (e s').1 := fun s' => mem_subCols.1 (he s')
  have hU : ∀ s', e s' ∈ {s : Fin rf.N | mk.getD s.1 false = true} := fun s' => mem_kept.1 (List.mem_of_getElem? (hes s'))
  have hE' := hE.cut_part hU {s' | V s'.1}
  have hset : (e '' {s' | V s'.1}) = {s : Fin rf.N | ∃ n, (Subsystem.kept mk)[n]? = some s.1 ∧ V n} := by
    ext s
    constructor
    · rintro ⟨s', hv, rfl⟩
      exact ⟨s'.1, hes s', hv⟩
    · rintro ⟨n, h1, h2⟩
      have hlt : n < res.rf.N := by
        have h3 := (List.getElem?_eq_some_iff.1 h1).1
        have h4 := hS.hN
        have h5 := subCols_length mk
        unfold RF.N
        omega
      refine ⟨⟨n, hlt⟩, h2, Fin.ext ?_⟩
      have := hes ⟨n, hlt⟩
      rw [h1] at this
      simpa using this.symm
  rw [hset] at hE'
  have hsn : e n = s := Fin.ext (by have := hes n; rw [hn] at this; simpa using this.symm)
  have s1 := Core.cut_sub (U := {s : Fin rf.N | ∃ n, (Subsystem.kept mk)[n]? = some s.1 ∧ V n}) (h.sub φ)
  have s2 := Core.cut_sub (U := {s' : Fin res.rf.N | V s'.1}) (h'.sub φ)
  cases m with
  | min => have := hE'.Vmin_eq s1 s2 n; rw [hsn] at this; exact this
  | max => have := hE'.Vmax_eq s1 s2 n; rw [hsn] at this; exact this

theorem cost_part (hM : M.WF) (hL : LabelMap M.labS) (hrf : RF.make ρ M il tl fl false = .ok rf)
    (hx : Subsystem.make rf cert mode false = .ok x) (hr : x.subsys ρ' = .ok res)
    {ks : List Nat} (hk : Naming M mode cert ks) (V : Nat → Prop) (labels : Option (List String)) :
    cost M labels (fun s => ∃ n, ks[n]? = some s ∧ V n) ≤ cost res.rf.sys labels V := by
  classical
  obtain ⟨ks', k1, k2, k3, k4, -, -, -, -, -, -, -, -, k5, -⟩ := C47_construction hM hL hrf hx hr
  obtain rfl : ks = ks' := hk.unique ⟨k1, k2⟩
  unfold cost
  cases labels with
  | none =>
    simp only
    refine (card_le_card (t := ((range (res.rf.sys.N - 2)).filter V).image fun n => ks.getD n 0) fun s hs => ?_).trans card_image_le
    obtain ⟨-, n, h1, h2⟩ := mem_filter.1 hs
    have := (List.getElem?_eq_some_iff.1 h1).1
    refine mem_image.2 ⟨n, mem_filter.2 ⟨mem_range.2 (by omega), h2⟩, ?_⟩
    rw [List.getD_eq_getElem?_getD, h1]
    rfl
  | some ls =>
    simp only
    refine card_le_card fun l hl => ?_
    obtain ⟨h1, s, h2, n, h3, h4⟩ := mem_filter.1 hl
    exact mem_filter.2 ⟨h1, n, (k5 l n).2 (Or.inl ⟨s, h3, h2⟩), h4⟩

/-- **C104.** Let `MILPExact` succeed on a system and let a subsystem be built from any vector of either kind.  If `MILPExact` succeeds on the
subsystem, for the same problem or one that is not easier, then the value is not smaller than that for the system, which is not "infeasible". -/
theorem C104_part {lp₁ lp₂ solver₁ solver₂ : Milp K → Answer K} {be₁ be₂ : Backend} {r₁ r₂ : ProblemResult (Subsystem K) K}
    (hM : M.WF) (hL : LabelMap M.labS) (hrf : RF.make ρ M il tl fl false = .ok rf) (φ : K →+*o ℝ)
    (hx : Subsystem.make rf cert mode false = .ok x) (hr : x.subsys ρ' = .ok res)
    (hlp₁ : ∀ lp, (lp₁ lp).Sound lp) (hs₁ : ∀ m, (solver₁ m).Sound m) (hlp₂ : ∀ lp, (lp₂ lp).Sound lp) (hs₂ : ∀ m, (solver₂ m).Sound m)
    (h : Easier mode₁ t₁ labels₁ mode₂ t₂ labels₂)
    (hr₁ : r₁ ∈ (solveIter rf.form t₁ (milpExact rf.form lp₁ solver₁ t₁ mode₁ labels₁ be₁)).1)
    (hr₂ : r₂ ∈ (solveIter res.rf.form t₂ (milpExact res.rf.form lp₂ solver₂ t₂ mode₂ labels₂ be₂)).1) (hst₂ : r₂.status = .success) :
    r₁.status ≠ .failed .infeasible ∧
    (r₁.status = .success → ∃ k₁ k₂ : Nat, r₁.value = some (k₁ : K) ∧ r₂.value = some (k₂ : K) ∧ k₁ ≤ k₂) := by
  obtain ⟨hI, hrf'⟩ := C47_again hM hL hrf hx hr
  obtain ⟨ks, q1, q2, -⟩ := C47_construction hM hL hrf hx hr
  have hk : Naming M mode cert ks := ⟨q1, q2⟩
  obtain ⟨c, y, k, rfl, -, g2, g3, g4, -⟩ := exact_sound hI.wf hI.labS hrf' hlp₂ hs₂ hr₂ hst₂
  obtain ⟨hin', hv⟩ := cut_of_check hI.wf hrf' φ g2 g3
  obtain ⟨a, b⟩ := exact_minimal_cut hM hrf φ hlp₁ hs₁ hr₁
  have hlab : res.rf.initial ∈ res.rf.sys.labelled il := by
    obtain ⟨-, e1, -⟩ := make_fields hrf'
    have := (rflive_built hI.wf hrf').initLab
    rw [e1] at this
    exact ⟨_, this, by simp⟩
  have hn := sub_initial hM hL hrf hx hr hlab hk
  obtain ⟨hin, -⟩ := sub_values hM hL hrf hx hr φ hk hn
  rw [sub_cut hM hL hrf hx hr φ hI.wf hrf' hk _ _ ⟨_, hin'⟩ ⟨_, hin⟩ hn] at hv
  have hv' := h.val _ φ hv
  refine ⟨fun hst => b hst _ hin hv', fun hst => ?_⟩
  obtain ⟨k₁, e, hle⟩ := a hst
  refine ⟨k₁, k, e, rfl, (hle _ hin hv').trans ?_⟩
  rw [g4]
  exact (h.cost M _).trans (cost_part hM hL hrf hx hr hk _ _)

/-- **C104.** The subsystem of a successful result cannot be made smaller: if `MILPExact` is called again for the same problem on the
subsystem that a success carries, then the answer is not "infeasible", and a success has the same value. -/
theorem C104_again {lp₁ lp₂ solver₁ solver₂ : Milp K → Answer K} {be₁ be₂ : Backend} {r₁ r₂ : ProblemResult (Subsystem K) K}
    {t : K} {labels : Option (List String)}
    (hM : M.WF) (hL : LabelMap M.labS) (hrf : RF.make ρ M il tl fl false = .ok rf) (φ : K →+*o ℝ)
    (hlp₁ : ∀ lp, (lp₁ lp).Sound lp) (hs₁ : ∀ m, (solver₁ m).Sound m) (hlp₂ : ∀ lp, (lp₂ lp).Sound lp) (hs₂ : ∀ m, (solver₂ m).Sound m)
    (hr₁ : r₁ ∈ (solveIter rf.form t (milpExact rf.form lp₁ solver₁ t mode labels be₁)).1) (hst₁ : r₁.status = .success)
    (hx : r₁.subsystem = some x) (hr : x.subsys ρ' = .ok res)
    (hr₂ : r₂ ∈ (solveIter res.rf.form t (milpExact res.rf.form lp₂ solver₂ t mode labels be₂)).1) :
    r₂.status ≠ .failed .infeasible ∧ (r₂.status = .success → r₂.value = r₁.value) := by
  obtain ⟨cert, x', k, rfl, hmk, g2, g3, g4, -⟩ := exact_sound hM hL hrf hlp₁ hs₁ hr₁ hst₁
  obtain rfl : x' = x := by simpa using hx
  have hmk' : Subsystem.make rf cert mode false = .ok x' := hmk
  obtain ⟨hI, hrf'⟩ := C47_again hM hL hrf hmk' hr
  obtain ⟨ks, q1, q2, q3, q4, -⟩ := C47_construction hM hL hrf hmk' hr
  have hk : Naming M mode cert ks := ⟨q1, q2⟩
  have hlab : res.rf.initial ∈ res.rf.sys.labelled il := by
    obtain ⟨-, e1, -⟩ := make_fields hrf'
    have := (rflive_built hI.wf hrf').initLab
    rw [e1] at this
    exact ⟨_, this, by simp⟩
  have hn := sub_initial hM hL hrf hmk' hr hlab hk
  obtain ⟨hin, hv⟩ := cut_of_check hM hrf φ g2 g3
  have hin' : res.rf.initial < res.rf.N := by
    have := (List.getElem?_eq_some_iff.1 hn).1
    show _ < res.rf.sys.N - 2
    omega
  have hv' : φ t ≤ cutVal (rfok_built hI.wf hrf') φ mode (fun s => s < res.rf.sys.N - 2) ⟨_, hin'⟩ := by
    rw [sub_cut hM hL hrf hmk' hr φ hI.wf hrf' hk _ _ ⟨_, hin'⟩ ⟨_, hin⟩ hn]
    have : (fun s => ∃ n, ks[n]? = some s ∧ n < res.rf.sys.N - 2) = Selected M mode cert := by
      funext s
      refine propext ⟨fun ⟨n, h1, _⟩ => (q2 s).1 (List.mem_of_getElem? h1), fun hs => ?_⟩
      obtain ⟨n, hn, e⟩ := List.mem_iff_getElem.1 ((q2 s).2 hs)
      exact ⟨n, by rw [List.getElem?_eq_getElem hn, e], by omega⟩
    rw [this]
    exact hv
  obtain ⟨a, b⟩ := exact_minimal_cut hI.wf hrf' φ hlp₂ hs₂ hr₂
  refine ⟨fun hst => b hst _ hin' hv', fun hst => ?_⟩
  obtain ⟨k₂, e, hle⟩ := a hst
  have h1 := hle _ hin' hv'
  rw [cost_sub hM hL hrf hmk' hr, ← g4] at h1
  obtain ⟨k₁', k₂', e1, e2, h2⟩ := (C104_part hM hL hrf φ hmk' hr hlp₁ hs₁ hlp₂ hs₂ ⟨Or.inl rfl, le_rfl, Or.inl rfl⟩ hr₁ hr₂ hst).2 rfl
  rw [e] at e2
  have f1 : k = k₁' := by simpa using e1
  have f2 : k₂ = k₂' := by simpa using e2
  rw [e, show k₂ = k by omega]
end

/-! ### the hypotheses are met -/

theorem fork_init : ∀ i ∈ forkSys.labelled "init", i ∉ forkSys.labelled "goal" := by
  rintro i ⟨ss, h1, h2⟩ ⟨ss', h3, h4⟩
  have e1 : forkSys.statesByLabel "init" = .ok [0] := by decide +kernel
  have e2 : forkSys.statesByLabel "goal" = .ok [4] := by decide +kernel
  rw [e1] at h1; cases h1
  rw [e2] at h3; cases h3
  simp only [List.mem_singleton] at h2 h4
  omega

theorem fork_ec : ∃ rf, RF.make exRnd forkSys "init" "goal" "fail" false = .ok rf ∧ rf.isEcFree = true :=
  exists_of_ok_and (p := fun rf : RF ℚ => rf.isEcFree) (by decide +kernel)

/-- `MILPExact` succeeds on the example, in both modes, for 1/8 and for 3/8 -/
theorem fork_run {rf : RF ℚ} (h : TreeEx forkSys rf) {solver : Milp ℚ → Answer ℚ} (hs : ∀ m, (solver m).Exact m) (mode : Mode) {t : ℚ} {k : Nat}
    (ht : 0 < t ∧ t ≤ 1) (hr : TreeDecomp.minWitnesses cramer rf.chain [[0, 1, 2], [3]] keepAll [1, 0] t 4 = .ok k) :
    ∃ r, r ∈ (solveIter rf.form t (milpExact rf.form solver solver t mode none .pulp)).1 ∧ r.status = .success ∧ r.value = some (k : ℚ) := by
  have hT : TreeOK rf.chain [[0, 1, 2], [3]] [1, 0] := by rw [h.chain]; exact fork_tree
  have he : rf.isEcFree = true := by
    obtain ⟨rf', h1, h2⟩ := fork_ec
    obtain rfl : rf = rf' := Except.ok.inj (h.make.symm.trans h1)
    exact h2
  have hd : forkSys.dtmc = true → ∀ s a i, ((s, a), i) ∈ forkSys.idx → a = 0 := fun _ s a i g => (h.rows s a i g).1
  obtain ⟨w1, -, w2⟩ := C66_path_partial (φ := ratR) (mode := mode) h.wf h.lS h.make h.rows (Or.inl h.dS) h.lA h.dA hT cramer_ok (keepAll_ok _)
    ht.1 hr
  have key : ∃ r, solveIter rf.form t (milpExact rf.form solver solver t mode none .pulp) = ([r], none) ∧
      (r.status = .success ↔ ∃ k, Witness rf "init" "goal" ratR mode t none k) := by
    cases mode with
    | min => exact C38_feasible_iff h.wf h.lS h.make ratR (Or.inl h.dS) h.lA h.dA hd hs hs ht fork_init
    | max => exact C39_feasible_iff h.wf h.lS h.make ratR (Or.inl h.dS) h.lA h.dA hd hs hs ht fork_init he
  obtain ⟨r, e, hiff⟩ := key
  have hm : r ∈ (solveIter rf.form t (milpExact rf.form solver solver t mode none .pulp)).1 := by rw [e]; simp
  have hst := hiff.2 ⟨_, w1⟩
  obtain ⟨-, hval⟩ := C104_tree (ub := 4) (mode := mode) (σ := Unit) (qsMax := .error .keyError) (qsMin := .error .keyError)
    (tree := fun _ => (TreeDecomp.minWitnesses cramer rf.chain [[0, 1, 2], [3]] keepAll [1, 0] t 4).map Nat.cast)
    (r₂ := ⟨.success, none, some (k : ℚ), none⟩) h.wf h.lS h.make h.rows ratR (Or.inl h.dS) h.lA h.dA hT cramer_ok
    (keepAll_ok _) ht.1 rfl (C49_tree_partial _ (k : ℚ) _ _ _ (by rw [hr]; rfl) (by have := Nat.cast_nonneg (α := ℚ) k; intro e; rw [e] at this; norm_num at this)).2
    (fun lp => (hs lp).toSound) (fun m => (hs m).toSound) hm
  obtain ⟨k', h1, h2⟩ := hval hst
  exact ⟨r, hm, hst, by rw [h1]; exact h2.symm⟩

/-- `C104_order`, `C104_chain` and `C104_tree`: 3 states are needed for 1/8, 4 states for 3/8 -/
example : ∃ rf solver, RF.make exRnd forkSys "init" "goal" "fail" false = .ok rf ∧ (∀ m, (solver m : Answer ℚ).Sound m) ∧
    (∀ s a b i j, ((s, a), i) ∈ forkSys.idx → ((s, b), j) ∈ forkSys.idx → i = j) ∧
    Easier .max (1/8 : ℚ) none .min (3/8) none ∧
    (∃ r₁ ∈ (solveIter rf.form (1/8) (milpExact rf.form solver solver (1/8) .max none .pulp)).1, r₁.status = .success ∧ r₁.value = some 3) ∧
    ∃ r₂ ∈ (solveIter rf.form (3/8) (milpExact rf.form solver solver (3/8) .min none .pulp)).1, r₂.status = .success ∧ r₂.value = some 4 := by
  obtain ⟨rf, h⟩ := fork_ex
  obtain ⟨solver, hs⟩ := exists_exact ℚ
  obtain ⟨r₁, h1, h2, h3⟩ := fork_run (t := 1/8) (k := 3) h hs .max (by norm_num) (by rw [h.chain]; decide +kernel)
  obtain ⟨r₂, h4, h5, h6⟩ := fork_run (t := 3/8) (k := 4) h hs .min (by norm_num) (by rw [h.chain]; decide +kernel)
  refine ⟨rf, solver, h.make, fun m => (hs m).toSound, fun s a b i j h1 h2 => ?_, ⟨Or.inr rfl, by norm_num, Or.inl rfl⟩,
    ⟨r₁, h1, h2, h3⟩, r₂, h4, h5, h6⟩
  rw [(h.rows _ _ _ h1).2, (h.rows _ _ _ h2).2]

/-- `C104_heuristic` and `C104_heuristic_infeasible`: `QSHeur` with three iterations succeeds on the example for 3/8, with a value of at
least 4 -/
example {upd : List (Nat × List Nat) → Updater ℚ} (hu : LibUpdater (fun _ => 1) upd) :
    ∃ rf solver, RF.make exRnd forkSys "init" "goal" "fail" false = .ok rf ∧ (∀ m, (solver m : Answer ℚ).Sound m) ∧
    ∃ r₂ ∈ (solveIter rf.form (3/8) (qsHeur rf.form solver (fun _ => solver) 3 allOnes upd (3/8) .min none .pulp)).1,
      r₂.status = .success ∧ ∃ k₂ : Nat, r₂.value = some (k₂ : ℚ) ∧ 4 ≤ k₂ := by
  obtain ⟨rf, h⟩ := fork_ex
  obtain ⟨solver, hs⟩ := exists_exact ℚ
  have hs' : ∀ m, (solver m).Sound m := fun m => (hs m).toSound
  obtain ⟨r₁, h1, h2, h3⟩ := fork_run (t := 3/8) (k := 4) h hs .min (by norm_num) (by rw [h.chain]; decide +kernel)
  have hd : forkSys.dtmc = true → ∀ s a i, ((s, a), i) ∈ forkSys.idx → a = 0 := fun _ s a i g => (h.rows s a i g).1
  have hl0 : LabelsOK forkSys none := fun ls h => nomatch h
  obtain ⟨r₂, h4, h5, -⟩ := C41_feasible_iff (n := 3) (mode := .min) (t := (3/8 : ℚ)) h.wf h.lS h.make ratR (Or.inl h.dS) h.lA h.dA hd hs
    (fun _ => hs) (by norm_num) (by norm_num) fork_init hl0 (fun _ => one_pos) (Or.inl rfl : InitOK rf.form .min none (fun _ => 1) allOnes) hu
  have hm : r₂ ∈ (solveIter rf.form (3/8) (qsHeur rf.form solver (fun _ => solver) 3 allOnes upd (3/8) .min none .pulp)).1 := by
    unfold solveLast at h4
    split at h4
    · cases h4
    · split at h4
      · cases h4
      · rename_i e; cases h4; exact List.mem_of_getLast? e
  have hst : r₂.status = .success := h5.resolve_right (C104_heuristic_infeasible (fun _ => one_pos) (Or.inl rfl) hu h.wf h.lS h.make ratR
    hs' hs' hs' (fun _ => hs') hl0 ⟨Or.inl rfl, le_rfl, Or.inl rfl⟩ h1 h2 hm)
  obtain ⟨k₁, k₂, e1, e2, hle⟩ := (C104_heuristic h.wf h.lS h.make ratR hs' hs' hs' (fun _ => hs') ⟨Or.inl rfl, le_rfl, Or.inl rfl⟩ h1 hm hst).2 hl0 h2
  rw [h3] at e1
  have : 4 = k₁ := by exact_mod_cast (Option.some.inj e1)
  exact ⟨rf, solver, h.make, hs', r₂, hm, hst, k₂, e2, by omega⟩

end Verif.Props
