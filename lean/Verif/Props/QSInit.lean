import Verif.Model.QSInit
import Verif.Props.LP
import Verif.Props.QSHeur
/-!
# C71: initial weights of `QSHeur`

`InverseReachabilityInitializer` promises that groups with a low probability of reaching the target get the
most weight.  The solver answers with an optimal solution of the linear program that it is given.
-/
set_option linter.unusedSectionVars false

namespace Verif.Props
open Verif.Model Verif.Model.Milp Verif.Spec Verif.Proofs Verif.Theory Finset

section
variable {K : Type} [Field K] [LinearOrder K] [IsStrictOrderedRing K]

/-- What a variable stands for.  Mode min: the minimal probability of reaching the target from the state.
Mode max: the probability of reaching the target by the action when continuing with minimal probabilities. -/
noncomputable def reachOf (φ : K →+*o ℝ) (M : Sys K) (tl : String) : Mode → Nat → ℝ
  | .min, s => M.prMin φ (M.labelled tl) s
  | .max, k => φ (M.P.get k (M.N - 2)) + ∑ d ∈ range (M.N - 2), φ (M.P.get k d) * M.prMin φ (M.labelled tl) d

/-- the mean over a group -/
noncomputable def meanReach (φ : K →+*o ℝ) (M : Sys K) (tl : String) (mode : Mode) (vs : List Nat) : ℝ :=
  (vs.map (reachOf φ M tl mode)).sum / vs.length

/-- number of variables of a form -/
def sizeOf' {K : Type} (M : Sys K) : Mode → Nat
  | .min => M.N - 2
  | .max => M.C - 2

theorem mapM_at!_ok {v : List K} {vs : List Nat} (h : ∀ i ∈ vs, i < v.length) :
    vs.mapM (at! v) = .ok (vs.map fun i => v.getD i 0) := by
  induction vs with
  | nil => rfl
  | cons i vs ih =>
    have : at! v i = .ok (v.getD i 0) := by
      rw [at!_ok, List.getElem?_eq_getElem (h i (by simp)), List.getD_eq_getElem _ _ (h i (by simp))]
    rw [List.mapM_cons, this, ih fun j hj => h j (by simp [hj])]
    rfl

theorem mapM_eq_map {α β : Type} {f : α → Except Err β} {g : α → β} {l : List α} (h : ∀ a ∈ l, f a = .ok (g a)) :
    l.mapM f = .ok (l.map g) := by
  induction l with
  | nil => rfl
  | cons a l ih => rw [List.mapM_cons, h a (by simp), ih fun b hb => h b (by simp [hb])]; rfl

end

section
variable {ρ : Graph.Rnd} {K : Type} [Field K] [LinearOrder K] [IsStrictOrderedRing K] {M : Sys K} {il tl fl : String} {rf : RF K} {mode : Mode}

theorem map_ten (φ : K →+*o ℝ) : φ 10 = 10 := map_ofNat φ 10

theorem inv_cap (p : K) : min (10 ^ 9) (if 0 < p then 1 / p else 10 ^ 9) = if p ≤ 1 / 10 ^ 9 then 10 ^ 9 else 1 / p := by
  split
  · rename_i h
    split
    · rename_i h'
      refine min_eq_left ?_
      rw [le_div_iff₀ h]
      calc (10 : K) ^ 9 * p ≤ 10 ^ 9 * (1 / 10 ^ 9) := by gcongr
        _ = 1 := by norm_num
    · rename_i h'
      push Not at h'
      refine min_eq_right ?_
      rw [div_le_iff₀ h]
      calc (1 : K) = 10 ^ 9 * (1 / 10 ^ 9) := by norm_num
        _ ≤ 10 ^ 9 * p := by gcongr
  · rename_i h
    rw [min_self, if_pos]
    have : (0 : K) ≤ 1 / 10 ^ 9 := by positivity
    linarith

theorem reachVector_get (hM : M.WF) (hrf : RF.make ρ M il tl fl false = .ok rf) (φ : K →+*o ℝ)
    {i : Nat} (hi : i ∈ M.labelled il) (hit : i ∉ M.labelled tl) {lp : Milp K} (hlp : rf.maxZLP = .ok lp)
    {x : Nat → K} (hx : lp.Optimal x) :
    (reachVector rf mode x).length = sizeOf' M mode ∧
    ∀ v < sizeOf' M mode, φ ((reachVector rf mode x).getD v 0) = reachOf φ M tl mode v := by
  have e0 := (make_fields hrf).1
  cases mode with
  | min =>
    obtain ⟨lp', h1, -, h2⟩ := C28_pr_min hM hrf φ hi hit
    rw [hlp] at h1
    cases h1
    refine ⟨by simp [reachVector, sizeOf', RF.N, e0], fun v hv => ?_⟩
    have hv' : v < rf.N := by rw [RF.N, e0]; exact hv
    simp [reachVector, List.getD_eq_getElem?_getD, hv', reachOf, h2 x hx v hv]
  | max =>
    have h := (C32_max_z_state_action hM hrf φ hi hit hlp hx).1
    refine ⟨by simp [reachVector, sizeOf', RF.C, e0], fun v hv => ?_⟩
    have hv' : v < rf.C := by rw [RF.C, e0]; exact hv
    simp [reachVector, List.getD_eq_getElem?_getD, hv', reachOf, h v hv]

theorem prMin_unit (hM : M.WF) (hrf : RF.make ρ M il tl fl false = .ok rf) (φ : K →+*o ℝ) {s : Nat} (hs : s < M.N - 2) :
    0 ≤ M.prMin φ (M.labelled tl) s ∧ M.prMin φ (M.labelled tl) s ≤ 1 := by
  have h := rfok_built hM hrf
  have e0 := (make_fields hrf).1
  have hs : s < rf.N := by rw [RF.N, e0]; exact hs
  have e := prMin_core hM hrf φ ⟨s, hs⟩
  simp only at e
  rw [e]
  exact ⟨Core.Vmin_nonneg (h.sub φ).toOK (h.sub φ).bound _, (h.sub φ).Vmin_le_one _⟩

theorem reachOf_unit (hM : M.WF) (hrf : RF.make ρ M il tl fl false = .ok rf) (φ : K →+*o ℝ) {v : Nat} (hv : v < sizeOf' M mode) :
    0 ≤ reachOf φ M tl mode v ∧ reachOf φ M tl mode v ≤ 1 := by
  cases mode with
  | min => exact prMin_unit hM hrf φ hv
  | max =>
    have hC : v < M.C := by simp only [sizeOf'] at hv; omega
    have h0 : ∀ d, 0 ≤ φ (M.P.get v d) := fun d => by
      have := φ.monotone' (WF.get_nonneg hM v d)
      simpa using this
    constructor
    · exact add_nonneg (h0 _) (sum_nonneg fun d hd => mul_nonneg (h0 _) (prMin_unit hM hrf φ (mem_range.1 hd)).1)
    · have hN : 2 ≤ M.N := by
        obtain ⟨-, -, -, -, h, -⟩ := assertConsistency_ok hM ((make_fields hrf).2.2.2.2 rfl)
        exact h
      have hs := congrArg φ (hM.sum v hC)
      rw [map_sum, map_one] at hs
      have hle : ∑ d ∈ range (M.N - 2), φ (M.P.get v d) * M.prMin φ (M.labelled tl) d ≤ ∑ d ∈ range (M.N - 2), φ (M.P.get v d) :=
        sum_le_sum fun d hd => mul_le_of_le_one_right (h0 _) (prMin_unit hM hrf φ (mem_range.1 hd)).2
      obtain ⟨n, hn⟩ : ∃ n, M.N = n + 2 := ⟨M.N - 2, by omega⟩
      rw [hn, sum_range_succ, sum_range_succ] at hs
      have e : M.N - 2 = n := by omega
      simp only [reachOf, e] at hle ⊢
      have := h0 (n + 1)
      linarith

/-- **C71.** `InverseReachabilityInitializer`: every group gets the inverse of the mean probability of reaching the
target over its states (its state-action pairs in mode max), capped at 1e9; so all weights are between 1 and
1e9, and a group with a smaller mean never gets a smaller weight. -/
theorem C71_reachability_weights (hM : M.WF) (hrf : RF.make ρ M il tl fl false = .ok rf) (φ : K →+*o ℝ)
    {i : Nat} (hi : i ∈ M.labelled il) (hit : i ∉ M.labelled tl) {lp : Milp K} (hlp : rf.maxZLP = .ok lp)
    {x : Nat → K} (hx : lp.Optimal x) {ind : List (Nat × List Nat)}
    (hind : ∀ e ∈ ind, e.2 ≠ [] ∧ ∀ v ∈ e.2, v < sizeOf' M mode) :
    ∃ o : List Nat → K, inverseReachability (fun _ => 1) (reachVector rf mode x) ind = .ok (ind.map fun e => (e.1, o e.2)) ∧
      (∀ e ∈ ind, φ (o e.2) = if meanReach φ M tl mode e.2 ≤ 1 / 10 ^ 9 then 10 ^ 9 else 1 / meanReach φ M tl mode e.2) ∧
      (∀ e ∈ ind, 1 ≤ o e.2 ∧ o e.2 ≤ 10 ^ 9) ∧
      ∀ e ∈ ind, ∀ e' ∈ ind, meanReach φ M tl mode e.2 ≤ meanReach φ M tl mode e'.2 → o e'.2 ≤ o e.2 := by
  obtain ⟨hl, hg⟩ := reachVector_get (mode := mode) hM hrf φ hi hit hlp hx
  let mean : List Nat → K := fun vs => (vs.map fun i => (reachVector rf mode x).getD i 0).sum / vs.length
  have hmean : ∀ e ∈ ind, φ (mean e.2) = meanReach φ M tl mode e.2 := by
    intro e he
    obtain ⟨-, h2⟩ := hind e he
    simp only [mean, meanReach, map_div₀, map_natCast, map_list_sum, List.map_map]
    congr 2
    exact List.map_congr_left fun v hv => hg v (h2 v hv)
  have hmono := strictMono_hom φ
  have hm : ∀ e ∈ ind, 0 ≤ mean e.2 ∧ mean e.2 ≤ 1 := by
    intro e he
    obtain ⟨h1, h2⟩ := hind e he
    have hpos : (0 : ℝ) < e.2.length := by exact_mod_cast List.length_pos_iff.2 h1
    have hu : ∀ y ∈ e.2.map (reachOf φ M tl mode), 0 ≤ y ∧ y ≤ 1 := by
      intro y hy
      obtain ⟨v, hv, rfl⟩ := List.mem_map.1 hy
      exact reachOf_unit hM hrf φ (h2 v hv)
    have : 0 ≤ meanReach φ M tl mode e.2 ∧ meanReach φ M tl mode e.2 ≤ 1 := by
      unfold meanReach
      constructor
      · exact div_nonneg (List.sum_nonneg fun y hy => (hu y hy).1) hpos.le
      · rw [div_le_one hpos]
        have := List.sum_le_card_nsmul _ 1 fun y hy => (hu y hy).2
        simpa using this
    rw [← hmean e he] at this
    exact ⟨hmono.le_iff_le.1 (by rw [map_zero]; exact this.1), hmono.le_iff_le.1 (by rw [map_one]; exact this.2)⟩
  refine ⟨fun vs => if mean vs ≤ 1 / 10 ^ 9 then 10 ^ 9 else 1 / mean vs, ?_, ?_, ?_, ?_⟩
  · refine mapM_eq_map fun e he => ?_
    obtain ⟨h1, h2⟩ := hind e he
    rw [mapM_at!_ok fun v hv => by rw [hl]; exact h2 v hv]
    simp only [bind, Except.bind]
    rw [if_neg (by simpa using h1), inv_cap, one_mul]
  · intro e he
    have : mean e.2 ≤ 1 / 10 ^ 9 ↔ meanReach φ M tl mode e.2 ≤ 1 / 10 ^ 9 := by
      rw [← hmean e he, ← hmono.le_iff_le]
      simp [map_ten φ]
    simp only [this, ← hmean e he]
    split <;> simp [map_ten φ]
  · intro e he
    obtain ⟨h0, h1⟩ := hm e he
    simp only
    split
    · exact ⟨by norm_num, le_rfl⟩
    · rename_i hlt
      push Not at hlt
      have hp : 0 < mean e.2 := lt_trans (by positivity) hlt
      refine ⟨by rw [le_div_iff₀ hp, one_mul]; exact h1, ?_⟩
      rw [div_le_iff₀ hp]
      calc (1 : K) = 10 ^ 9 * (1 / 10 ^ 9) := by norm_num
        _ ≤ 10 ^ 9 * _ := by gcongr
  · intro e he e' he' hle
    rw [← hmean e he, ← hmean e' he', hmono.le_iff_le] at hle
    simp only
    by_cases h1 : mean e'.2 ≤ 1 / 10 ^ 9
    · rw [if_pos h1, if_pos (hle.trans h1)]
    · rw [if_neg h1]
      push Not at h1
      have hp' : 0 < mean e'.2 := lt_trans (by positivity) h1
      split
      · rw [div_le_iff₀ hp']
        calc (1 : K) = 10 ^ 9 * (1 / 10 ^ 9) := by norm_num
          _ ≤ 10 ^ 9 * _ := by gcongr
      · rename_i h2
        push Not at h2
        exact one_div_le_one_div_of_le (lt_trans (by positivity) h2) hle

/-- **C71 is false for empty groups**: for a label that no state carries the initializer raises
`ZeroDivisionError`. -/
theorem C71_empty_group_false {w : Nat → K} {pr : List K}
    {ind : List (Nat × List Nat)} (hind : ∀ e ∈ ind, ∀ v ∈ e.2, v < pr.length) (he : ∃ e ∈ ind, e.2 = []) :
    inverseReachability w pr ind = .error .zeroDivision := by
  induction ind with
  | nil => simp at he
  | cons e ind ih =>
    unfold inverseReachability at ih ⊢
    rw [List.mapM_cons]
    simp only [mapM_at!_ok (hind e (by simp)), bind, Except.bind]
    by_cases h0 : e.2.length = 0
    · rw [if_pos h0]
    · rw [if_neg h0]
      obtain ⟨e', h1, h2⟩ := he
      rcases List.mem_cons.1 h1 with rfl | h1
      · exact absurd (by simp [h2]) h0
      · have := ih (fun e he => hind e (by simp [he])) ⟨e', h1, h2⟩
        simp only [bind, Except.bind] at this
        rw [this]

open Classical in
/-- How often a variable occurs according to the answer `y` of the solver to `max_y_state_action`.  Mode max: the
frequency of the state-action pair.  Mode min: the frequency of the state, plus one for the initial state. -/
noncomputable def freqOf (M : Sys K) (il : String) (y : Nat → K) : Mode → Nat → K
  | .min, s => (if s ∈ M.labelled il then 1 else 0) + ∑ k ∈ (range (M.C - 2)).filter (fun k => ∃ a, ((s, a), k) ∈ M.idx), y k
  | .max, k => y k

/-- the sum over a group -/
noncomputable def sumFreq (M : Sys K) (il : String) (y : Nat → K) (mode : Mode) (vs : List Nat) : K :=
  (vs.map (freqOf M il y mode)).sum

theorem freqVector_get (hM : M.WF) (hrf : RF.make ρ M il tl fl false = .ok rf) {i : Nat} (hi : i ∈ M.labelled il)
    (y : Nat → K) : (freqVector rf mode y).length = sizeOf' M mode ∧
    ∀ v < sizeOf' M mode, (freqVector rf mode y).getD v 0 = freqOf M il y mode v := by
  have e0 := (make_fields hrf).1
  cases mode with
  | min =>
    refine ⟨by simp [freqVector, sizeOf', RF.N, e0], fun v hv => ?_⟩
    have hv' : v < rf.N := by rw [RF.N, e0]; exact hv
    have h1 := C31_max_y_state_partial hM hrf hi y v
    have h2 : v ∈ M.labelled il ↔ v = i := by
      constructor
      · intro h; rw [initial_eq hM hrf h, initial_eq hM hrf hi]
      · rintro rfl; exact hi
    simp [freqVector, List.getD_eq_getElem?_getD, hv', freqOf, h1, h2]
  | max =>
    refine ⟨by simp [freqVector, sizeOf', RF.C, e0], fun v hv => ?_⟩
    have hv' : v < rf.C := by rw [RF.C, e0]; exact hv
    simp [freqVector, List.getD_eq_getElem?_getD, hv', freqOf]

/-- the weights for any vector `ev` with entries `f` -/
theorem inverseFrequency_values {ev : List K} {n : Nat} {f : Nat → K} (hl : ev.length = n) (hg : ∀ v < n, ev.getD v 0 = f v)
    {ind : List (Nat × List Nat)} (hind : ∀ e ∈ ind, ∀ v ∈ e.2, v < n) :
    ∃ o : List Nat → K, inverseFrequency (fun _ => 1) ev ind = .ok (ind.map fun e => (e.1, o e.2)) ∧
      (∀ e ∈ ind, 0 < (e.2.map f).sum → o e.2 = min (10 ^ 9) (1 / (e.2.map f).sum)) ∧
      (∀ e ∈ ind, (e.2.map f).sum ≤ 0 → o e.2 = 10 ^ 8) ∧
      ∀ e ∈ ind, ∀ e' ∈ ind, 0 < (e.2.map f).sum → (e.2.map f).sum ≤ (e'.2.map f).sum → o e'.2 ≤ o e.2 := by
  refine ⟨fun vs => if 0 < (vs.map f).sum then 1 * min (10 ^ 9) (1 / (vs.map f).sum) else 10 ^ 8, ?_, ?_, ?_, ?_⟩
  · refine mapM_eq_map fun e he => ?_
    have h2 := hind e he
    rw [mapM_at!_ok fun v hv => by rw [hl]; exact h2 v hv]
    simp only [bind, Except.bind]
    have : e.2.map (fun i => ev.getD i 0) = e.2.map f := List.map_congr_left fun v hv => hg v (h2 v hv)
    rw [this]
  · intro e _ h
    simp only
    rw [if_pos h, one_mul]
  · intro e _ h
    simp only
    rw [if_neg (not_lt.2 h)]
  · intro e _ e' _ h0 h1
    simp only
    rw [if_pos h0, if_pos (h0.trans_le h1), one_mul, one_mul]
    exact min_le_min le_rfl (one_div_le_one_div_of_le h0 h1)

/-- **C71 (partial), frequencies.** `InverseFrequencyInitializer`: a group that occurs at all gets the inverse of the sum
of the frequencies of its members, capped at 1e9, so that a smaller sum never gives a smaller weight; a group
that does not occur gets 1e8.  Missing for the claim: the groups that do not occur, see `C71_frequency_false`. -/
theorem C71_frequency_weights_partial (hM : M.WF) (hrf : RF.make ρ M il tl fl false = .ok rf)
    {i : Nat} (hi : i ∈ M.labelled il) (y : Nat → K) {ind : List (Nat × List Nat)}
    (hind : ∀ e ∈ ind, ∀ v ∈ e.2, v < sizeOf' M mode) :
    ∃ o : List Nat → K, inverseFrequency (fun _ => 1) (freqVector rf mode y) ind = .ok (ind.map fun e => (e.1, o e.2)) ∧
      (∀ e ∈ ind, 0 < sumFreq M il y mode e.2 → o e.2 = min (10 ^ 9) (1 / sumFreq M il y mode e.2)) ∧
      (∀ e ∈ ind, sumFreq M il y mode e.2 ≤ 0 → o e.2 = 10 ^ 8) ∧
      ∀ e ∈ ind, ∀ e' ∈ ind, 0 < sumFreq M il y mode e.2 → sumFreq M il y mode e.2 ≤ sumFreq M il y mode e'.2 →
        o e'.2 ≤ o e.2 := by
  obtain ⟨hl, hg⟩ := freqVector_get (mode := mode) hM hrf hi y
  exact inverseFrequency_values hl hg hind

/-- **C71 (partial), both.** `InverseCombinedInitializer`: the same with the product of the frequency and the
probability of reaching the target. -/
theorem C71_combined_weights_partial (hM : M.WF) (hrf : RF.make ρ M il tl fl false = .ok rf) (φ : K →+*o ℝ)
    {i : Nat} (hi : i ∈ M.labelled il) (hit : i ∉ M.labelled tl) {lp : Milp K} (hlp : rf.maxZLP = .ok lp)
    {x : Nat → K} (hx : lp.Optimal x) (y : Nat → K) {ind : List (Nat × List Nat)}
    (hind : ∀ e ∈ ind, ∀ v ∈ e.2, v < sizeOf' M mode) :
    let S := fun vs : List Nat => (vs.map fun v => φ (freqOf M il y mode v) * reachOf φ M tl mode v).sum
    ∃ o : List Nat → K, inverseFrequency (fun _ => 1) (combinedVector rf mode x y) ind = .ok (ind.map fun e => (e.1, o e.2)) ∧
      (∀ e ∈ ind, 0 < S e.2 → φ (o e.2) = min (10 ^ 9) (1 / S e.2)) ∧ (∀ e ∈ ind, S e.2 ≤ 0 → o e.2 = 10 ^ 8) ∧
      ∀ e ∈ ind, ∀ e' ∈ ind, 0 < S e.2 → S e.2 ≤ S e'.2 → o e'.2 ≤ o e.2 := by
  intro S
  obtain ⟨hl, hg⟩ := freqVector_get (mode := mode) hM hrf hi y
  obtain ⟨hl', hg'⟩ := reachVector_get (mode := mode) hM hrf φ hi hit hlp hx
  let f : Nat → K := fun v => freqOf M il y mode v * (reachVector rf mode x).getD v 0
  obtain ⟨o, h1, h2, h3, h4⟩ := inverseFrequency_values (ev := combinedVector rf mode x y) (f := f)
    (n := sizeOf' M mode) (by simp [combinedVector, hl, hl']) (fun v hv => by
      simp only [f]
      rw [← hg v hv]
      have h1 : v < (freqVector rf mode y).length := by rw [hl]; exact hv
      have h2 : v < (reachVector rf mode x).length := by rw [hl']; exact hv
      simp [combinedVector, List.getD_eq_getElem?_getD, h1, h2]) hind
  have hS : ∀ e ∈ ind, φ (e.2.map f).sum = S e.2 := by
    intro e he
    simp only [S, map_list_sum, List.map_map]
    congr 1
    refine List.map_congr_left fun v hv => ?_
    simp only [f, Function.comp, map_mul, hg' v (hind e he v hv)]
  have hmono := strictMono_hom φ
  have hpos : ∀ e ∈ ind, (0 < S e.2 ↔ 0 < (e.2.map f).sum) := fun e he => by
    rw [← hS e he, ← hmono.lt_iff_lt, map_zero]
  refine ⟨o, h1, fun e he h => ?_, fun e he h => h3 e he ?_, fun e he e' he' h h' => h4 e he e' he' ((hpos e he).1 h) ?_⟩
  · rw [h2 e he ((hpos e he).1 h), ← hS e he]
    rw [hmono.monotone.map_min]
    simp [map_ten φ]
  · exact not_lt.1 fun g => absurd ((hpos e he).2 g) (not_lt.2 h)
  · rw [← hmono.le_iff_le, hS e he, hS e' he']
    exact h'

/-- **C71 is false for frequencies**: a group that does not occur gets a smaller weight than any group that occurs
with a sum below 1e-8. -/
theorem C71_frequency_false (hM : M.WF) (hrf : RF.make ρ M il tl fl false = .ok rf)
    {i : Nat} (hi : i ∈ M.labelled il) (y : Nat → K) {ind : List (Nat × List Nat)}
    (hind : ∀ e ∈ ind, ∀ v ∈ e.2, v < sizeOf' M mode) {k k' : Nat} {e e' : Nat × List Nat} (hk : ind[k]? = some e)
    (hk' : ind[k']? = some e') (h0 : sumFreq M il y mode e.2 = 0) (h1 : 0 < sumFreq M il y mode e'.2)
    (h2 : sumFreq M il y mode e'.2 < 1 / 10 ^ 8) :
    ∃ obj o o', inverseFrequency (fun _ => 1) (freqVector rf mode y) ind = .ok obj ∧ obj[k]? = some (e.1, o) ∧
      obj[k']? = some (e'.1, o') ∧ o < o' := by
  obtain ⟨o, a1, a2, a3, -⟩ := C71_frequency_weights_partial (mode := mode) hM hrf hi y hind
  refine ⟨_, o e.2, o e'.2, a1, by simp [hk], by simp [hk'], ?_⟩
  rw [a3 e (List.mem_of_getElem? hk) h0.le, a2 e' (List.mem_of_getElem? hk') h1, lt_min_iff]
  refine ⟨by norm_num, ?_⟩
  rw [lt_div_iff₀ h1]
  calc (10 : K) ^ 8 * sumFreq M il y mode e'.2 < 10 ^ 8 * (1 / 10 ^ 8) := by gcongr
    _ = 1 := by norm_num

end

/-! ### the hypotheses are met -/

/-- both modes, with a group of two variables, for the example form (with a proper end component) -/
example (mode : Mode) : ∃ (lp : Milp ℚ) (x : Nat → ℚ) (o : List Nat → ℚ), (exRF ℚ).maxZLP = .ok lp ∧ lp.Optimal x ∧
    inverseReachability (fun _ => 1) (reachVector (exRF ℚ) mode x) [(2, [0, 1]), (3, [1])] = .ok [(2, o [0, 1]), (3, o [1])] ∧
    1 ≤ o [0, 1] ∧ o [0, 1] ≤ 10 ^ 9 := by
  have hi : 0 ∈ (exSys ℚ).labelled "init" := ⟨[0], rfl, by simp⟩
  have ht : 0 ∉ (exSys ℚ).labelled "goal" := by
    rintro ⟨ss, h1, h2⟩
    have : (exSys ℚ).statesByLabel "goal" = .ok [2] := rfl
    rw [this] at h1
    cases h1
    simp at h2
  obtain ⟨lp, a1, ⟨x, b1⟩, -⟩ := C28_pr_min (exSys_wf ℚ) exRF_rat ratR hi ht
  have hs : 2 ≤ sizeOf' (exSys ℚ) mode := by
    cases mode
    · show 2 ≤ (exSys ℚ).P.cols - 2; decide
    · show 2 ≤ (exSys ℚ).P.rows - 2; decide
  obtain ⟨o, c1, -, c2, -⟩ := C71_reachability_weights (mode := mode) (ind := [(2, [0, 1]), (3, [1])]) (exSys_wf ℚ) exRF_rat ratR hi ht
    a1 b1 (by
      intro e he
      simp only [List.mem_cons, List.mem_nil_iff, or_false] at he
      rcases he with rfl | rfl
      · refine ⟨by simp, fun v hv => ?_⟩
        simp only [List.mem_cons, List.mem_nil_iff, or_false] at hv
        omega
      · refine ⟨by simp, fun v hv => ?_⟩
        simp only [List.mem_cons, List.mem_nil_iff, or_false] at hv
        omega)
  exact ⟨lp, x, o, a1, b1, c1, c2 (2, [0, 1]) (by simp)⟩

/-- a group that never occurs beside one that occurs with frequency 1e-9 -/
example : ∃ obj o o', inverseFrequency (fun _ => 1) (freqVector (exRF ℚ) .max (fun k => if k = 0 then 1 / 10 ^ 9 else 0))
    [(2, [0]), (3, [1])] = .ok obj ∧ obj[1]? = some (3, o) ∧ obj[0]? = some (2, o') ∧ o < o' := by
  have hi : 0 ∈ (exSys ℚ).labelled "init" := ⟨[0], rfl, by simp⟩
  have hs : 2 ≤ sizeOf' (exSys ℚ) .max := by show 2 ≤ (exSys ℚ).P.rows - 2; decide
  refine C71_frequency_false (mode := .max) (e := (3, [1])) (e' := (2, [0])) (exSys_wf ℚ) exRF_rat hi _ ?_ rfl rfl ?_ ?_ ?_
  · intro e he v hv
    simp only [List.mem_cons, List.mem_nil_iff, or_false] at he
    rcases he with rfl | rfl <;> simp at hv <;> omega
  · simp [sumFreq, freqOf]
  · simp [sumFreq, freqOf]
  · norm_num [sumFreq, freqOf]

example : inverseReachability (fun _ => (1 : ℚ)) [1/2, 1/4] [(2, [0, 1]), (3, [])] = .error .zeroDivision :=
  C71_empty_group_false (by
    intro e he v hv
    simp only [List.mem_cons, List.mem_nil_iff, or_false] at he
    rcases he with rfl | rfl
    · simp at hv ⊢; omega
    · simp at hv) ⟨(3, []), by simp, rfl⟩

end Verif.Props
