import Verif.Props.Robust
import Verif.Proofs.Loss
import Verif.Props.Float
import Verif.Props.Original
import Verif.Proofs.Double
/-!
# C96: `reduce` on probabilities that sum to a little less than one
-/
set_option linter.unusedSectionVars false

namespace Verif.Props
open Verif.Model Verif.Spec Verif.Proofs Verif.Theory Finset

section
variable {K : Type} [Field K] [LinearOrder K] [IsStrictOrderedRing K]
variable {ρ : Graph.Rnd} {M M' : Sys K} {il tl ntl nfl : String} {res : Reduce.Result K}

theorem withLoss_total (ht : M.Total) : M.withLoss.Total := by
  intro s hs
  have hs : s < M.N + 1 := hs
  by_cases hs' : s < M.N
  · obtain ⟨a, i, h1, h2⟩ := ht s hs'
    exact ⟨a, i, List.mem_append_left _ h1, Nat.lt_succ_of_lt h2⟩
  · obtain rfl : s = M.N := by omega
    exact ⟨0, M.C, List.mem_append_right _ (by simp), Nat.lt_succ_self _⟩

theorem withLoss_input (h : M.Substochastic) (ht : M.Total) (hS : LabelMap M.labS) (hA : LabelMap M.labA) : Input M.withLoss :=
  ⟨Loss.wf h, withLoss_total ht, hS, hA⟩

/-- rows of an old state -/
theorem withLoss_rows (φ : K →+*o ℝ) {s : Fin M.withLoss.N} (hs : s.1 < M.N) (r : Fin M.withLoss.C) :
    r ∈ (M.withLoss.toMDP φ).rows s ↔ ∃ a, ((s.1, a), r.1) ∈ M.idx := by
  simp only [Model.Sys.toMDP, Finset.mem_filter, Finset.mem_univ, true_and]
  constructor
  · rintro ⟨a, ha⟩
    rcases List.mem_append.1 ha with ha | ha
    · exact ⟨a, ha⟩
    · simp only [List.mem_singleton, Prod.mk.injEq] at ha
      omega
  · rintro ⟨a, ha⟩
    exact ⟨a, List.mem_append_left _ ha⟩

/-- a larger exact system reaches targets with at least the probabilities of the system with the loss -/
theorem withLoss_le (h : M.Substochastic) (ht : M.Total) (hw : M'.WF) (hC : M'.C = M.C) (hN : M'.N = M.N) (hx : M'.idx = M.idx)
    (hle : ∀ i < M.C, ∀ j < M.N, M.P.get i j ≤ M'.P.get i j) (φ : K →+*o ℝ) {T : Set Nat} (hT : M.N ∉ T) {s : Nat} (hs : s < M.N) :
    M.withLoss.prMin φ T s ≤ M'.prMin φ T s ∧ M.withLoss.prMax φ T s ≤ M'.prMax φ T s := by
  classical
  have ht' : M'.Total := by
    intro s hs
    rw [hN] at hs; rw [hx, hC]; exact ht s hs
  have hv := WF.valid hw φ ht'
  have hvL := WF.valid (Loss.wf h) φ (withLoss_total ht)
  have eB : ∀ F : Finset (Fin M'.N), F = univ.filter (fun t => t.1 ∈ T) → ∀ t, t ∈ F ↔ t.1 ∈ T := by
    rintro F rfl t; simp
  set F : Finset (Fin M'.N) := univ.filter (fun t => t.1 ∈ T) with hF
  set FL : Finset (Fin M.withLoss.N) := univ.filter (fun t => t.1 ∈ T) with hFL
  have memF : ∀ t, t ∈ F ↔ t.1 ∈ T := by intro t; simp [hF]
  have memFL : ∀ t, t ∈ FL ↔ t.1 ∈ T := by intro t; simp [hFL]
  set B := Core.ofMDP (M'.toMDP φ) hv F with hB
  set A := Core.ofMDP (M.withLoss.toMDP φ) hvL FL with hA
  have okA := Bridge.ok hvL FL
  have okB := Bridge.ok hv F
  have bB := Bridge.bound hv F
  -- a function on the states of `M'`, zero on the new state
  let ext (y : Fin M'.N → ℝ) : Fin M.withLoss.N → ℝ := fun t => if ht : t.1 < M'.N then y ⟨t.1, ht⟩ else 0
  have extN : ∀ (y : Fin M'.N → ℝ) (t : Fin M.withLoss.N), ¬ t.1 < M'.N → ext y t = 0 := fun y t ht => dif_neg ht
  have step_le : ∀ (y : Fin M'.N → ℝ), (∀ t, 0 ≤ y t) → ∀ (u : Fin M.withLoss.N) (hu : u.1 < M'.N) (r : Fin M.withLoss.C)
      (hr : r.1 < M'.C), A.step (ext y) u r ≤ B.step y ⟨u.1, hu⟩ ⟨r.1, hr⟩ := by
    intro y hy u hu r hr
    unfold Core.step
    have eg : A.g u r = B.g ⟨u.1, hu⟩ ⟨r.1, hr⟩ := by
      simp only [hA, hB, Core.ofMDP, memF, memFL]
    rw [eg]
    refine add_le_add le_rfl ?_
    have e1 : ∑ t : Fin M.withLoss.N, A.Q u r t * ext y t = ∑ t : Fin M'.N, A.Q u r ⟨t.1, by
        have := t.2; show t.1 < M.N + 1; omega⟩ * y t := by
      symm
      refine Fintype.sum_of_injective (fun t : Fin M'.N => (⟨t.1, by have := t.2; show t.1 < M.N + 1; omega⟩ : Fin M.withLoss.N)) ?_ _ _ ?_ ?_
      · intro a b hab
        simpa [Fin.ext_iff] using hab
      · intro t ht
        rw [extN y t, mul_zero]
        intro hlt
        exact ht ⟨⟨t.1, hlt⟩, rfl⟩
      · intro t
        congr 1
        show _ = ext y ⟨t.1, _⟩
        simp only [ext]
        rw [dif_pos t.2]
    rw [e1]
    refine Finset.sum_le_sum fun t _ => mul_le_mul_of_nonneg_right ?_ (hy t)
    simp only [hA, hB, Core.ofMDP, memF, memFL]
    split
    · exact le_rfl
    · simp only [Model.Sys.toMDP]
      refine OrderHomClass.mono φ ?_
      rw [Loss.get_lt (by have := t.2; omega)]
      exact hle _ (by omega) _ (by have := t.2; omega)
  have step_N : ∀ (y : Fin M'.N → ℝ) (u : Fin M.withLoss.N), ¬ u.1 < M'.N → ∀ r ∈ A.rows u, A.step (ext y) u r = 0 := by
    intro y u hu r hr
    have hu' : u.1 = M.N := by have : u.1 < M.N + 1 := u.2; omega
    have hr' : r.1 = M.C := by
      simp only [hA, Core.ofMDP, Model.Sys.toMDP, Finset.mem_filter, Finset.mem_univ, true_and] at hr
      obtain ⟨a, ha⟩ := hr
      rcases List.mem_append.1 ha with ha | ha
      · have := Loss.state_lt h ha; omega
      · simp only [List.mem_singleton, Prod.mk.injEq] at ha; exact ha.2
    unfold Core.step
    simp only [hA, Core.ofMDP, memFL, hu', hT, if_false, zero_add]
    refine Finset.sum_eq_zero fun t _ => ?_
    by_cases htn : t.1 < M'.N
    · simp only [Model.Sys.toMDP, hr']
      rw [Loss.get_C h, if_neg (by omega), map_zero, zero_mul]
    · rw [extN y t htn, mul_zero]
  have ext0 : ∀ (y : Fin M'.N → ℝ), (∀ t, 0 ≤ y t) → ∀ t, 0 ≤ ext y t := by
    intro y hy t
    simp only [ext]
    split
    · exact hy _
    · exact le_rfl
  have hs' : s < M'.N := by omega
  have hsL : s < M.withLoss.N := Nat.lt_succ_of_lt hs
  have rowA : ∀ (u : Fin M.withLoss.N) (hu : u.1 < M'.N) (r : Fin M.withLoss.C), r ∈ A.rows u ↔
      ∃ hr : r.1 < M'.C, (⟨r.1, hr⟩ : Fin M'.C) ∈ B.rows ⟨u.1, hu⟩ := by
    intro u hu r
    show r ∈ (M.withLoss.toMDP φ).rows u ↔ _
    rw [withLoss_rows φ (by omega)]
    simp only [hB, Core.ofMDP, Model.Sys.toMDP, Finset.mem_filter, Finset.mem_univ, true_and, hx]
    constructor
    · rintro ⟨a, ha⟩
      exact ⟨by rw [hC]; exact h.index _ ha, a, ha⟩
    · rintro ⟨-, ha⟩; exact ha
  have xs : ∀ (y : Fin M'.N → ℝ) (u : Fin M.withLoss.N) (hu : u.1 < M'.N), ext y u = y ⟨u.1, hu⟩ := fun y u hu => dif_pos hu
  constructor
  · have e1 := sys_prMin_eq φ hvL memFL ⟨s, hsL⟩
    have e2 := sys_prMin_eq φ hv memF ⟨s, hs'⟩
    simp only at e1 e2
    rw [e1, e2, ← xs B.Vmin ⟨s, hsL⟩ hs']
    refine Core.Vmin_le_pre okA (ext0 _ fun t => Core.Vmin_nonneg okB bB t) ?_ _
    intro u
    by_cases hu : u.1 < M'.N
    · obtain ⟨r, hr, hv⟩ := Core.exists_step_Vmin okB bB ⟨u.1, hu⟩
      have hrL : r.1 < M.withLoss.C := by have := r.2; show r.1 < M.C + 1; omega
      refine ⟨⟨r.1, hrL⟩, (rowA u hu _).2 ⟨r.2, hr⟩, ?_⟩
      rw [xs _ u hu, ← hv]
      exact step_le _ (fun t => Core.Vmin_nonneg okB bB t) u hu ⟨r.1, hrL⟩ r.2
    · obtain ⟨r, hr⟩ := A.ne u
      exact ⟨r, hr, by rw [step_N _ u hu r hr, extN _ u hu]⟩
  · have e1 := sys_prMax_eq φ hvL memFL ⟨s, hsL⟩
    have e2 := sys_prMax_eq φ hv memF ⟨s, hs'⟩
    simp only at e1 e2
    rw [e1, e2, ← xs B.Vmax ⟨s, hsL⟩ hs']
    refine Core.Vmax_le_pre okA (ext0 _ fun t => Core.Vmax_nonneg okB bB t) ?_ _
    intro u r hr
    by_cases hu : u.1 < M'.N
    · obtain ⟨hrC, hrB⟩ := (rowA u hu r).1 hr
      rw [xs _ u hu]
      exact le_trans (step_le _ (fun t => Core.Vmax_nonneg okB bB t) u hu r hrC) (Core.step_Vmax_le okB bB hrB)
    · rw [step_N _ u hu r hr, extN _ u hu]

theorem reduce_states (hr : M.reduce ρ il tl ntl nfl = .ok res) : (∀ t ∈ M.labelled tl, t < M.N) ∧ ∀ i ∈ M.labelled il, i < M.N := by
  unfold Sys.reduce at hr
  simp only [bind, Except.bind] at hr
  split at hr
  · cases hr
  split at hr
  · cases hr
  rename_i T hT
  split at hr
  · cases hr
  split at hr
  · cases hr
  rename_i is his
  match is, his, hr with
  | [], _, hr => cases hr
  | _ :: _ :: _, _, hr => cases hr
  | [i], his, hr => ?_
  simp only at hr
  split at hr
  · cases hr
  rename_i bwd hb
  split at hr
  · cases hr
  rename_i fwd hf
  constructor
  · rintro t ⟨T', hT', hm⟩
    rw [hT] at hT'; cases hT'
    unfold Sys.reachableMask at hb
    split at hb
    · rename_i hh; exact hh t hm
    · cases hb
  · rintro t ⟨T', hT', hm⟩
    rw [his] at hT'; cases hT'
    unfold Sys.reachableMask at hf
    split at hf
    · rename_i hh; exact hh t hm
    · cases hf

/-- **C96.** What `reduce` makes of rows whose sum is below one: the row of a kept pair leads to `fail` with the
probability of leaving the kept states plus the missing probability.  The result is the one for the system in which
the missing probability leads to an additional state that is never left. -/
theorem C96_missing (h : M.Substochastic) (ht : M.Total) (hS : LabelMap M.labS) (hA : LabelMap M.labA)
    (hr : M.reduce ρ il tl ntl nfl = .ok res) :
    M.withLoss.reduce ρ il tl ntl nfl = .ok res ∧
    ∀ s a s' a', res.rows.get? (s, a) = some (s', a') → s ∉ M.labelled tl →
      ∃ i r, ((s, a), i) ∈ M.idx ∧ ((s', a'), r) ∈ res.rf.sys.idx ∧
        (∀ d d', res.cols.get? d = some d' → res.rf.sys.P.get r d' = M.P.get i d) ∧
        res.rf.sys.P.get r (res.rf.sys.N - 1) =
          ∑ d ∈ (range M.N).filter (fun d => res.cols.get? d = none), M.P.get i d + (1 - ∑ d ∈ range M.N, M.P.get i d) := by
  have hI := withLoss_input h ht hS hA
  have hr' := Loss.reduce_eq h hS.inv hr
  refine ⟨hr', ?_⟩
  intro s a s' a' hsa hs
  obtain ⟨i, r, h1, h2, h3, -⟩ := (C15_reduce_matrix hI hr').2 s a s' a' hsa
  obtain ⟨h4, -, h5⟩ := h3 hs
  obtain ⟨hTN, hiN⟩ := reduce_states hr
  have hd : ∀ d d', res.cols.get? d = some d' → d ≠ M.N := by
    rintro d d' hd rfl
    obtain ⟨⟨t, h6, h7⟩, -⟩ := ((C16_reduce_maps hI hr').1 M.N).1 ⟨d', hd⟩
    have hN : ∀ y, Relation.ReflTransGen (Step M.withLoss) M.N y → y = M.N := by
      intro y hy
      induction hy with
      | refl => rfl
      | tail _ hs ih =>
        subst ih
        obtain ⟨b, k, hk, -, hp⟩ := hs
        rcases List.mem_append.1 hk with hk | hk
        · exact absurd (Loss.state_lt h hk) (lt_irrefl _)
        · simp only [List.mem_singleton, Prod.mk.injEq] at hk
          rw [hk.2, Loss.get_C h] at hp
          by_contra hne
          rw [if_neg hne] at hp
          exact lt_irrefl _ hp
    have := hTN t h6
    rw [hN t h7] at this
    exact lt_irrefl _ this
  have hsN : s ≠ M.N := by
    obtain ⟨-, -, -, -, -, -, k⟩ := C16_reduce_maps hI hr'
    exact hd _ _ (k s a s' a' hsa).2
  have h1' : ((s, a), i) ∈ M.idx := by
    rcases List.mem_append.1 h1 with h1 | h1
    · exact h1
    · simp only [List.mem_singleton, Prod.mk.injEq] at h1
      exact absurd h1.1.1 hsN
  refine ⟨i, r, h1', h2, fun d d' hdd => ?_, ?_⟩
  · rw [h4 d d' hdd, Loss.get_lt (hd d d' hdd)]
  · rw [h5, Loss.N_eq, Finset.range_add_one, Finset.filter_insert, if_pos, Finset.sum_insert (by simp), Loss.get_N h (h.index _ h1'), add_comm]
    · congr 1
      refine Finset.sum_congr rfl fun d hdd => Loss.get_lt ?_
      have := Finset.mem_range.1 (Finset.mem_filter.1 hdd).1
      omega
    · cases hc : res.cols.get? M.N with
      | none => rfl
      | some d' => exact absurd rfl (hd _ _ hc)

/-- **C96.** Lower bounds certified (with tolerance 0) for the result of `reduce` hold for every model with
exact probabilities that are at least those given. -/
theorem C96_lower_partial (h : M.Substochastic) (ht : M.Total) (hS : LabelMap M.labS) (hA : LabelMap M.labA) (hne : ntl ≠ nfl)
    (hr : M.reduce ρ il tl ntl nfl = .ok res) (hw : M'.WF) (hC : M'.C = M.C) (hN : M'.N = M.N) (hx : M'.idx = M.idx)
    (hle : ∀ i < M.C, ∀ j < M.N, M.P.get i j ≤ M'.P.get i j) (φ : K →+*o ℝ) {i : Nat} (hi : i ∈ M.labelled il) {t : K} {v : List K} :
    (check res.rf .min .ge t v 0 = .ok true → φ t ≤ M'.prMin φ (M.labelled tl) i) ∧
    (check res.rf .min .gt t v 0 = .ok true → φ t < M'.prMin φ (M.labelled tl) i) ∧
    ((∀ x ∈ v, 0 ≤ x) →
      (check res.rf .max .ge t v 0 = .ok true → φ t ≤ M'.prMax φ (M.labelled tl) i) ∧
      (check res.rf .max .gt t v 0 = .ok true → φ t < M'.prMax φ (M.labelled tl) i)) := by
  have hI := withLoss_input h ht hS hA
  have hr' := Loss.reduce_eq h hS.inv hr
  obtain ⟨hTN, hiN⟩ := reduce_states hr
  obtain ⟨l1, l2⟩ := withLoss_le h ht hw hC hN hx hle φ (T := M.labelled tl) (fun hm => absurd (hTN _ hm) (lt_irrefl _)) (hiN i hi)
  obtain ⟨v1, v2, -, -, v3⟩ := C57_verdict hI hne hr' φ (i := i) hi (t := t) (v := v)
  exact ⟨fun hc => (v1 hc).trans l1, fun hc => (v2 hc).trans_le l1, fun hv =>
    ⟨fun hc => ((v3 hv).1 hc).trans l2, fun hc => ((v3 hv).2.1 hc).trans_le l2⟩⟩

end

/-! ### the bounds that do not hold -/

theorem mkSys_stored {P : Dok ℚ} {idx : Dict (Nat × Nat) Nat} {labS : IDict String Nat}
    (h1 : (P.items.map Prod.fst).Nodup) (h2 : ∀ e ∈ P.items, (e.1.1 < P.rows ∧ e.1.2 < P.cols) ∧ 0 < e.2)
    (h4 : (idx.map Prod.fst).Nodup) (h5 : (idx.map Prod.snd).Nodup)
    (h6 : (Graph.build P.cols (invGet? idx) P.items (Graph.empty P.cols)).isOk = true)
    (h7 : ∀ i < P.rows, Sys.roundsToOne (P.rowSum i)) (h8 : ∀ e ∈ P.items, e.2 ≤ 1) :
    (mkSys P idx labS).Stored ∧ Constructed P (mkSys P idx labS) idx := by
  have hg : Graph.build P.cols (invGet? idx) P.items (Graph.empty P.cols) = .ok (mkSys P idx labS).graph := by
    unfold mkSys
    simp only
    cases hb : Graph.build P.cols (invGet? idx) P.items (Graph.empty P.cols) with
    | ok g => rfl
    | error e => rw [hb] at h6; cases h6
  refine ⟨⟨h1, fun i j p h => (h2 _ h).1, fun i j p h => (h2 _ h).2, h4, h5, hg⟩, .mdp (IDict.mk' [] true) labS none ?_⟩
  refine (make_iff h4).2 ⟨h5, (checkCorrectness_iff _ _).2 ⟨h7, fun e he => ⟨(h2 e he).2.le, h8 e he⟩, by simp⟩, _, hg, rfl⟩

theorem near_of {P P' : Dok ℚ} {idx : Dict (Nat × Nat) Nat} {labS : IDict String Nat} {η : ℚ} (hr : P'.rows = P.rows)
    (hc : P'.cols = P.cols) (h : (mkSys P idx labS).Stored) (h' : (mkSys P' idx labS).Stored) (hη : 0 ≤ η)
    (hd : ∀ i < P.rows, ∀ j < P.cols, (0 < P'.get i j ↔ 0 < P.get i j) ∧ |P'.get i j - P.get i j| ≤ η) :
    (mkSys P idx labS).Near η (mkSys P' idx labS) := by
  have zero : ∀ {Q : Dok ℚ}, (mkSys Q idx labS).Stored → ∀ i j, ¬ (i < Q.rows ∧ j < Q.cols) → Q.get i j = 0 := by
    intro Q hQ i j hn
    refine get_eq_zero fun p hm => hn ?_
    exact hQ.range _ _ _ hm
  have key : ∀ i j, (0 < P'.get i j ↔ 0 < P.get i j) ∧ |P'.get i j - P.get i j| ≤ η := by
    intro i j
    by_cases hij : i < P.rows ∧ j < P.cols
    · exact hd i hij.1 j hij.2
    · rw [zero h i j hij, zero h' i j (by rw [hr, hc]; exact hij)]
      simpa using hη
  exact ⟨hr, hc, rfl, rfl, fun i j => (key i j).1, fun i j => (key i j).2⟩

/-- 0 is initial; action 0 leads to 0, 1 and 2, action 1 to the target 3; 1 and 2 lead back to 0 -/
def leakP (a b c : ℚ) : Dok ℚ := ⟨5, 4, [((0, 0), a), ((0, 1), b), ((0, 2), c), ((1, 3), 1), ((2, 0), 1), ((3, 0), 1), ((4, 3), 1)]⟩
def leakI : Dict (Nat × Nat) Nat := [((0, 0), 0), ((0, 1), 1), ((1, 0), 2), ((2, 0), 3), ((3, 0), 4)]
def leakL : IDict String Nat := IDict.mk' [("start", [0]), ("goal", [3])] true
def leakSys (a b c : ℚ) : Sys ℚ := mkSys (leakP a b c) leakI leakL

/-- the probabilities 0.7, 0.2 and 0.1 as Python stores them -/
def leakF : Sys ℚ := leakSys (3152519739159347 / 2 ^ 52) (3602879701896397 / 2 ^ 54) (3602879701896397 / 2 ^ 55)
def leakE : Sys ℚ := leakSys (7 / 10) (2 / 10) (1 / 10)

theorem leakE_wf : leakE.WF :=
  mkSys_wf (by decide +kernel) (by decide +kernel) (by decide +kernel) (by decide +kernel) (by decide +kernel) (by decide +kernel)

theorem leakE_input : Input leakE where
  wf := leakE_wf
  total := by
    intro s hs
    have hs : s < 4 := hs
    have : ∀ s < 4, ∃ e ∈ leakE.idx, e.1.1 = s ∧ e.2 < leakE.C := by decide +kernel
    obtain ⟨⟨⟨s', a⟩, i⟩, h1, rfl, h2⟩ := this s hs
    exact ⟨a, i, h1, h2⟩
  labS := ⟨id, [("start", [0]), ("goal", [3])], true, [], fun _ => List.Perm.refl _,
    isPyDict_of (by decide +kernel) (by decide +kernel), rfl⟩
  labA := ⟨id, [], true, [], fun _ => List.Perm.refl _, isPyDict_of (by decide +kernel) (by decide +kernel), rfl⟩

theorem leakF_made : leakF.Stored ∧ Constructed (leakP (3152519739159347 / 2 ^ 52) (3602879701896397 / 2 ^ 54) (3602879701896397 / 2 ^ 55)) leakF leakI :=
  mkSys_stored (by decide +kernel) (by decide +kernel) (by decide +kernel) (by decide +kernel) (by decide +kernel)
    (by decide +kernel) (by decide +kernel)

/-- **C96 is false for certificates accepted with the default tolerance.** The probabilities 0.7, 0.2 and 0.1 sum to
slightly less than one in the numbers of Python (exactly as well as added one after the other with rounding).  The
constructor accepts them; after `reduce`, "minimal probability at least 1" is certified although it is 0. -/
theorem C96_lower_false : double (7 / 10 : ℚ) = leakF.P.get 0 0 ∧ double (2 / 10 : ℚ) = leakF.P.get 0 1 ∧
    double (1 / 10 : ℚ) = leakF.P.get 0 2 ∧
    double (double (leakF.P.get 0 0 + leakF.P.get 0 1) + leakF.P.get 0 2) < 1 ∧
    (∃ P idx, Constructed P leakF idx) ∧ leakE.WF ∧ leakF.Near (1 / 10 ^ 16) leakE ∧ 0 ∈ leakF.labelled "start" ∧
    (∃ res, leakF.reduce exRnd "start" "goal" "target" "fail" = .ok res ∧
      check res.rf .min .ge 1 [1, 1, 1, 1] (1 / 10 ^ 8) = .ok true) ∧
    ∀ φ : ℚ →+*o ℝ, leakE.prMin φ (leakE.labelled "goal") 0 = 0 := by
  obtain ⟨r, h1, h2⟩ := exists_of_ok_and (x := leakF.reduce exRnd "start" "goal" "target" "fail")
    (p := fun res => yes (check res.rf .min .ge 1 [1, 1, 1, 1] (1 / 10 ^ 8))) (by decide +kernel)
  obtain ⟨r', h1', h2'⟩ := exists_of_ok_and (x := leakE.reduce exRnd "start" "goal" "target" "fail")
    (p := fun res => decide (res.cols.get? 0 = some 0) && res.rf.inProperEC 0 && decide (0 < res.rf.N)) (by decide +kernel)
  simp only [Bool.and_eq_true, decide_eq_true_eq] at h2'
  refine ⟨by decide +kernel, by decide +kernel, by decide +kernel, by decide +kernel, ⟨_, _, leakF_made.2⟩, leakE_wf,
    near_of rfl rfl leakF_made.1 (stored_of_wf leakE_wf) (by norm_num) (by decide +kernel), ⟨[0], rfl, by simp⟩, ⟨r, h1, yes_iff.1 h2⟩, fun φ => ?_⟩
  obtain ⟨hI, -, -, -, hrf⟩ := C13_reduce_again leakE_input (by decide) h1'
  rw [← (C14_reduce_probabilities leakE_input (by decide) h1' φ h2'.1.1).1]
  have ho := rfok_built hI.wf hrf
  have e := prMin_core hI.wf hrf φ ⟨0, h2'.2⟩
  simp only at e
  rw [e]
  exact Core.Vmin_eq_zero_of_InEC (ho.sub φ) ((RFOK.inEC_iff ho φ _).2 h2'.1.2)

/-- 0 stays where it is with probability `a` and reaches the target 1 with probability `b` -/
def slowP (a b : ℚ) : Dok ℚ := ⟨2, 2, [((0, 0), a), ((0, 1), b), ((1, 1), 1)]⟩
def slowI : Dict (Nat × Nat) Nat := [((0, 0), 0), ((1, 0), 1)]
def slowL : IDict String Nat := IDict.mk' [("start", [0]), ("goal", [1])] true
def slowSys (a b : ℚ) : Sys ℚ := mkSys (slowP a b) slowI slowL
def slowF : Sys ℚ := slowSys (1 - 8 / 10 ^ 10) (4 / 10 ^ 10)
def slowE : Sys ℚ := slowSys (1 - 8 / 10 ^ 10) (8 / 10 ^ 10)

theorem slowF_made : slowF.Stored ∧ Constructed (slowP (1 - 8 / 10 ^ 10) (4 / 10 ^ 10)) slowF slowI :=
  mkSys_stored (by decide +kernel) (by decide +kernel) (by decide +kernel) (by decide +kernel) (by decide +kernel)
    (by decide +kernel) (by decide +kernel)

theorem slowE_input : Input slowE where
  wf := mkSys_wf (by decide +kernel) (by decide +kernel) (by decide +kernel) (by decide +kernel) (by decide +kernel) (by decide +kernel)
  total := by
    intro s hs
    have hs : s < 2 := hs
    have : ∀ s < 2, ∃ e ∈ slowE.idx, e.1.1 = s ∧ e.2 < slowE.C := by decide +kernel
    obtain ⟨⟨⟨s', a⟩, i⟩, h1, rfl, h2⟩ := this s hs
    exact ⟨a, i, h1, h2⟩
  labS := ⟨id, [("start", [0]), ("goal", [1])], true, [], fun _ => List.Perm.refl _,
    isPyDict_of (by decide +kernel) (by decide +kernel), rfl⟩
  labA := ⟨id, [], true, [], fun _ => List.Perm.refl _, isPyDict_of (by decide +kernel) (by decide +kernel), rfl⟩

/-- **C96 is false for upper bounds**, even with tolerance 0: the missing probability may be as large as the probability
of progress. -/
theorem C96_upper_false : (∃ P idx, Constructed P slowF idx) ∧ slowE.WF ∧ slowF.Near (4 / 10 ^ 10) slowE ∧
    0 ∈ slowF.labelled "start" ∧
    (∃ res, slowF.reduce exRnd "start" "goal" "target" "fail" = .ok res ∧
      check res.rf .max .le (1 / 2) [1 / 2, 1] 0 = .ok true) ∧
    ∀ φ : ℚ →+*o ℝ, 1 ≤ slowE.prMax φ (slowE.labelled "goal") 0 := by
  obtain ⟨r, h1, h2⟩ := exists_of_ok_and (x := slowF.reduce exRnd "start" "goal" "target" "fail")
    (p := fun res => yes (check res.rf .max .le (1 / 2) [1 / 2, 1] 0)) (by decide +kernel)
  obtain ⟨r', h1', h2'⟩ := exists_of_ok_and (x := slowE.reduce exRnd "start" "goal" "target" "fail")
    (p := fun res => yes (check res.rf .max .ge 1 [10 ^ 10 / 8, 1] 0)) (by decide +kernel)
  refine ⟨⟨_, _, slowF_made.2⟩, slowE_input.wf,
    near_of rfl rfl slowF_made.1 (stored_of_wf slowE_input.wf) (by norm_num) (by decide +kernel), ⟨[0], rfl, by simp⟩, ⟨r, h1, yes_iff.1 h2⟩, fun φ => ?_⟩
  have := ((C57_verdict slowE_input (by decide) h1' φ (i := 0) ⟨[0], rfl, by simp⟩ (t := 1)
    (v := [10 ^ 10 / 8, 1])).2.2.2.2 (by decide +kernel)).1 (yes_iff.1 h2')
  rwa [map_one] at this

/-- the hypotheses of `C96_missing` and `C96_lower_partial` are met by `slowF` and `slowE`; a lower bound is certified -/
example : slowF.Substochastic ∧ slowF.Total ∧ LabelMap slowF.labS ∧ LabelMap slowF.labA ∧
    slowE.WF ∧ slowE.C = slowF.C ∧ slowE.N = slowF.N ∧ slowE.idx = slowF.idx ∧
    (∀ i < slowF.C, ∀ j < slowF.N, slowF.P.get i j ≤ slowE.P.get i j) ∧
    ∃ res, slowF.reduce exRnd "start" "goal" "target" "fail" = .ok res ∧
      check res.rf .max .ge (1 / 2) [10 ^ 10 / 8, 1 / 2] 0 = .ok true ∧ check res.rf .min .ge (1 / 2) [1 / 2, 1] 0 = .ok true := by
  obtain ⟨r, h1, h2⟩ := exists_of_ok_and (x := slowF.reduce exRnd "start" "goal" "target" "fail")
    (p := fun res => yes (check res.rf .max .ge (1 / 2) [10 ^ 10 / 8, 1 / 2] 0) && yes (check res.rf .min .ge (1 / 2) [1 / 2, 1] 0))
    (by decide +kernel)
  simp only [Bool.and_eq_true, yes_iff] at h2
  exact ⟨⟨slowF_made.1, by decide +kernel, by decide +kernel, fun r hr => by cases hr⟩, slowE_input.total, slowE_input.labS,
    slowE_input.labA, slowE_input.wf, rfl, rfl, rfl, by decide +kernel, r, h1, h2.1, h2.2⟩

end Verif.Props
