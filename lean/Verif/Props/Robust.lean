import Verif.Proofs.Near
import Verif.Props.Cert
import Verif.Props.SystemGraph
import Mathlib.Algebra.Order.BigOperators.Ring.Finset
/-!
# C87: certificates checked on slightly wrong probabilities

The constructors accept row sums that are one after rounding to nine decimals.  `M` is such a system; `M'` has the same
states, rows, labels and transitions and exact probabilities that are at most `η` away from those of `M`.
-/
set_option linter.unusedSectionVars false

namespace Verif.Props
open Verif.Model Verif.Spec Verif.Proofs Verif.Theory Finset

variable {K : Type} [Field K] [LinearOrder K] [IsStrictOrderedRing K]
variable {ρ ρ' : Graph.Rnd} {M M' : Sys K} {il tl fl : String} {rf rf' : RF K} {η : K}

theorem sum_abs_eq (v : List K) : ∑ j ∈ range v.length, |v.getD j 0| = (v.map fun x => |x|).sum := by
  induction v with
  | nil => simp
  | cons a v ih =>
    rw [List.length_cons, Finset.sum_range_succ']
    simp only [List.getD_cons_succ, List.getD_cons_zero, List.map_cons, List.sum_cons]
    rw [ih, add_comm]

/-- replacing the coefficients of a linear expression -/
theorem abs_lin_sub (v : List K) {a a' : Nat → K} (h : ∀ j, |a' j - a j| ≤ η) :
    |∑ j ∈ range v.length, a' j * v.getD j 0 - ∑ j ∈ range v.length, a j * v.getD j 0| ≤
      η * (v.map fun x => |x|).sum := by
  rw [← Finset.sum_sub_distrib, ← sum_abs_eq, Finset.mul_sum]
  refine (Finset.abs_sum_le_sum_abs _ _).trans (Finset.sum_le_sum fun j _ => ?_)
  rw [← sub_mul, abs_mul]
  exact mul_le_mul_of_nonneg_right (h j) (abs_nonneg _)

/-- **C87.** A system and its neighbour are accepted by the constructor of reachability forms together. -/
theorem C87_same_form (hs : M.Stored) (hw : M'.WF) (hn : M.Near η M') :
    (∃ rf, RF.make ρ M il tl fl false = .ok rf) ↔ ∃ rf', RF.make ρ' M' il tl fl false = .ok rf' := by
  constructor
  · rintro ⟨rf, h⟩
    obtain ⟨rf', h', -⟩ := Near.make (ρ' := ρ') hs hn hw h
    exact ⟨rf', h'⟩
  · rintro ⟨rf', h'⟩
    have hok := rfok_built hw h'
    have e0 := (make_fields h').1
    have hs' := stored_of_wf hw
    obtain ⟨rf, h, -⟩ := Near.make_of_total (ρ' := ρ) hs' hs (Near.symm hn) h' (by have := hok.hN; rw [e0] at this; omega) (by
      intro x hx
      rw [← e0]
      obtain ⟨a, i, e1, e2⟩ := hok.total x (by rw [e0]; exact hx)
      obtain ⟨j, _, hp⟩ := WF.exists_pos hok.wf e2
      exact ⟨a, j, (WF.matTr_iff hok.wf).2 ⟨i, e1, e2, hp⟩⟩)
    exact ⟨rf, h⟩

/-- **C87.** What is accepted for the system is accepted for its neighbour when the tolerance is raised by `η` times
one plus the absolute sum of the vector. -/
theorem C87_check (hs : M.Stored) (hw : M'.WF) (hn : M.Near η M')
    (hrf : RF.make ρ M il tl fl false = .ok rf) (hrf' : RF.make ρ' M' il tl fl false = .ok rf')
    {mode : Mode} {sense : Sense} {t tol : K} {v : List K} (hc : check rf mode sense t v tol = .ok true) :
    check rf' mode sense t v (tol + η * (1 + (v.map fun x => |x|).sum)) = .ok true := by
  obtain ⟨rf0, h0, ei, e1, eec⟩ := Near.make (ρ' := ρ') hs hn hw hrf
  rw [hrf'] at h0
  cases h0
  have hok := rfok_built hw hrf'
  have em := (make_fields hrf).1
  have em' := (make_fields hrf').1
  have eN : rf'.N = rf.N := by unfold RF.N; rw [em, em', hn.cols]
  have eC : rf'.C = rf.C := by unfold RF.C; rw [em, em', hn.rows]
  have hMN : M.N = rf'.N + 2 := by have := hok.hN; rw [em', hn.cols] at this; unfold RF.N; rw [em', hn.cols]; omega
  have ers : ∀ i, rf'.rowState i = rf.rowState i := fun i => by unfold RF.rowState; rw [ei]
  have ed : ∀ j, rf'.delta j = rf.delta j := fun j => by unfold RF.delta; rw [e1]
  have hA : ∀ i j, |rf'.A i j - rf.A i j| ≤ η := by
    intro i j
    unfold RF.A RF.P
    rw [ers, em, em']
    have := hn.close i j
    rw [abs_sub_comm] at this
    convert this using 2
    ring
  have hb : ∀ i, |rf'.b i - rf.b i| ≤ η := by
    intro i
    unfold RF.b
    rw [em, em', hn.cols]
    exact hn.close _ _
  have hη : 0 ≤ η := (abs_nonneg _).trans (hn.close 0 0)
  have hV : 0 ≤ (v.map fun x => |x|).sum := by rw [← sum_abs_eq]; exact Finset.sum_nonneg fun _ _ => abs_nonneg _
  have hηV : 0 ≤ η * (v.map fun x => |x|).sum := mul_nonneg hη hV
  set V := (v.map fun x => |x|).sum with hVdef
  have hz : v.length = rf.N → ∀ i, |zrow rf' (fun j => v.getD j 0) i - zrow rf (fun j => v.getD j 0) i| ≤ η * V := by
    intro hl i
    unfold zrow
    rw [eN, ← hl]
    exact abs_lin_sub v fun j => hA i j
  have hy : v.length = rf.C → ∀ j, |yrow rf' (fun i => v.getD i 0) j - yrow rf (fun i => v.getD i 0) j| ≤ η * V := by
    intro hl j
    unfold yrow
    rw [eC, ← hl]
    exact abs_lin_sub v fun i => hA i j
  have hg : v.length = rf.C → |ygain rf' (fun i => v.getD i 0) - ygain rf (fun i => v.getD i 0)| ≤ η * V := by
    intro hl
    unfold ygain
    rw [eC, ← hl]
    exact abs_lin_sub v fun i => hb i
  have hrs' : ∀ i < rf'.C, (rf'.rowState i).isSome := fun i hi => hok.isSome_rowState hi
  have hrs : ∀ i < rf.C, (rf.rowState i).isSome := fun i hi => by rw [← ers]; exact hrs' i (by omega)
  have kminge : ∀ strict : Bool, check rf .min (if strict then .gt else .ge) t v tol = .ok true →
      check rf' .min (if strict then .gt else .ge) t v (tol + η * (1 + V)) = .ok true := by
    intro strict hc
    rw [check_min_ge] at hc ⊢
    obtain ⟨h1, h2, h3, h4, h5, h6, h7⟩ := hc
    rw [eN, e1]
    refine ⟨h1, h2, h3, fun s hs he => h4 s hs ((eec s (by omega)).1 he), fun i hi => ?_, by linarith, fun hh => ?_⟩
    · have a := (abs_le.1 (hz h3 i)).2
      have b := (abs_le.1 (hb i)).1
      have c := h5 i (by omega)
      linarith
    · have := h7 hh; linarith
  have kmaxle : ∀ strict : Bool, check rf .max (if strict then .lt else .le) t v tol = .ok true →
      check rf' .max (if strict then .lt else .le) t v (tol + η * (1 + V)) = .ok true := by
    intro strict hc
    rw [check_max_le] at hc ⊢
    obtain ⟨h1, h2, h3, h5, h6, h7⟩ := hc
    rw [eN, e1]
    refine ⟨h1, h2, h3, fun i hi => ?_, by linarith, fun hh => ?_⟩
    · have a := (abs_le.1 (hz h3 i)).1
      have b := (abs_le.1 (hb i)).2
      have c := h5 i (by omega)
      linarith
    · have := h7 hh; linarith
  have kmaxge : ∀ strict : Bool, check rf .max (if strict then .gt else .ge) t v tol = .ok true →
      check rf' .max (if strict then .gt else .ge) t v (tol + η * (1 + V)) = .ok true := by
    intro strict hc
    rw [check_max_ge] at hc ⊢
    obtain ⟨h1, h2, h3, h5, h6, h7⟩ := hc
    have g := (abs_le.1 (hg h3)).1
    rw [eN, eC, e1]
    refine ⟨h1, h2, h3, fun j hj => ?_, by linarith, fun hh => ?_⟩
    · have a := (abs_le.1 (hy h3 j)).2
      have c := h5 j hj
      rw [ed]
      linarith
    · have := h7 hh; linarith
  have kminle : ∀ strict : Bool, check rf .min (if strict then .lt else .le) t v tol = .ok true →
      check rf' .min (if strict then .lt else .le) t v (tol + η * (1 + V)) = .ok true := by
    intro strict hc
    rw [check_min_le hrs] at hc
    rw [check_min_le hrs']
    obtain ⟨h1, h2, h3, h4, h5, h6, h7⟩ := hc
    have g := (abs_le.1 (hg h3)).2
    rw [eN, eC, e1]
    refine ⟨h1, h2, h3, fun i hi s hs he => ?_, fun j hj => ?_, by linarith, fun hh => ?_⟩
    · have hs2 := hs
      rw [ers] at hs2
      refine h4 i hi s hs2 ((eec s ?_).1 he)
      obtain ⟨a, ha⟩ := (hok.rowState_iff (by omega)).1 hs
      have := WF.state_lt hok.wf ha (RFOK.lt_C (show i < rf'.C by omega))
      rw [em', hn.cols] at this
      exact this
    · have a := (abs_le.1 (hy h3 j)).1
      have c := h5 j hj
      rw [ed]
      linarith
    · have := h7 hh; linarith
  cases mode <;> cases sense
  · exact kminle false hc
  · exact kminle true hc
  · exact kminge false hc
  · exact kminge true hc
  · exact kmaxle false hc
  · exact kmaxle true hc
  · exact kmaxge false hc
  · exact kmaxge true hc

section
variable (hs : M.Stored) (hw : M'.WF) (hn : M.Near η M') (hrf : RF.make ρ M il tl fl false = .ok rf)
include hs hw hn hrf

/-- **C87 (z-form).** A certificate accepted for `M` bounds the probabilities of every neighbour `M'` with exact row
sums. -/
theorem C87_bounds_z (φ : K →+*o ℝ) {ε : K} (hε : 0 < ε)
    (hmin : ∀ i < M'.C, ∀ j < M'.N, 0 < M'.P.get i j → ε ≤ M'.P.get i j) {tol t : K} {z : List K} (htol : 0 ≤ tol)
    {i : Nat} (hi : i ∈ M.labelled il) :
    let err := φ ((tol + η * (1 + (z.map fun x => |x|).sum)) * (1 + M.N / ε ^ M.N))
    (check rf .min .ge t z tol = .ok true → φ t ≤ M'.prMin φ (M.labelled tl) i + err) ∧
    (check rf .min .gt t z tol = .ok true → φ t < M'.prMin φ (M.labelled tl) i + err) ∧
    (check rf .max .le t z tol = .ok true → M'.prMax φ (M.labelled tl) i ≤ φ t + err) ∧
    (check rf .max .lt t z tol = .ok true → M'.prMax φ (M.labelled tl) i < φ t + err) := by
  intro err
  obtain ⟨rf', hrf', -⟩ := Near.make (ρ' := ρ) hs hn hw hrf
  have el : ∀ l, M'.labelled l = M.labelled l := fun l => by
    unfold Sys.labelled Sys.statesByLabel; rw [hn.labS]
  have hη : 0 ≤ η := (abs_nonneg _).trans (hn.close 0 0)
  have hV : 0 ≤ (z.map fun x => |x|).sum := by rw [← sum_abs_eq]; exact Finset.sum_nonneg fun _ _ => abs_nonneg _
  have h := C26_tolerance_z_partial hw hrf' φ hε hmin (tol := tol + η * (1 + (z.map fun x => |x|).sum)) (t := t) (z := z)
    (by positivity) (i := i) (by rw [el]; exact hi)
  rw [el, hn.cols] at h
  exact ⟨fun hc => h.1 (C87_check hs hw hn hrf hrf' hc), fun hc => h.2.1 (C87_check hs hw hn hrf hrf' hc),
    fun hc => h.2.2.1 (C87_check hs hw hn hrf hrf' hc), fun hc => h.2.2.2 (C87_check hs hw hn hrf hrf' hc)⟩

/-- **C87 (y-form).** -/
theorem C87_bounds_y (φ : K →+*o ℝ) {tol t : K} {y : List K} (htol : 0 ≤ tol) (hy : ∀ x ∈ y, 0 ≤ x)
    {i : Nat} (hi : i ∈ M.labelled il) :
    let err := φ (tol + η * (1 + y.sum)) * M.N
    (check rf .max .ge t y tol = .ok true → φ t ≤ M'.prMax φ (M.labelled tl) i + err) ∧
    (check rf .max .gt t y tol = .ok true → φ t < M'.prMax φ (M.labelled tl) i + err) ∧
    (check rf .min .le t y tol = .ok true → M'.prMin φ (M.labelled tl) i ≤ φ t + err) ∧
    (check rf .min .lt t y tol = .ok true → M'.prMin φ (M.labelled tl) i < φ t + err) := by
  intro err
  obtain ⟨rf', hrf', -⟩ := Near.make (ρ' := ρ) hs hn hw hrf
  have el : ∀ l, M'.labelled l = M.labelled l := fun l => by
    unfold Sys.labelled Sys.statesByLabel; rw [hn.labS]
  have hη : 0 ≤ η := (abs_nonneg _).trans (hn.close 0 0)
  have hV : (y.map fun x => |x|) = y := by
    conv_rhs => rw [← List.map_id y]
    exact List.map_congr_left fun x hx => abs_of_nonneg (hy x hx)
  have hV0 : 0 ≤ y.sum := List.sum_nonneg hy
  have h := C26_tolerance_y_partial hw hrf' φ (tol := tol + η * (1 + y.sum)) (t := t) (y := y)
    (by positivity) hy (i := i) (by rw [el]; exact hi)
  rw [el, hn.cols] at h
  have k : ∀ {mode sense}, check rf mode sense t y tol = .ok true → check rf' mode sense t y (tol + η * (1 + y.sum)) = .ok true := by
    intro mode sense hc
    have := C87_check hs hw hn hrf hrf' hc
    rwa [hV] at this
  exact ⟨fun hc => h.1 (k hc), fun hc => h.2.1 (k hc), fun hc => h.2.2.1 (k hc), fun hc => h.2.2.2 (k hc)⟩

end

/-! ### the accepted systems -/

/-- **C87.** What the constructors establish for a matrix without stored zeros. -/
theorem C87_constructed {P : Dok K} (hP : InShape P) (hpos : ∀ e ∈ P.items, e.2 ≠ 0)
    {idx : Dict (Nat × Nat) Nat} (hk : (idx.map Prod.fst).Nodup) (h : Constructed P M idx) :
    M.Stored ∧ ∀ i < M.C, |∑ j ∈ range M.N, M.P.get i j - 1| ≤ 1 / (2 * 10 ^ 9) := by
  obtain ⟨dtmc, labA, labS, rew, h⟩ := h.make
  have hT := ((make_accepts hP hk labA labS rew).1 ⟨M, h⟩).1
  obtain ⟨hv, hc, g, hg, rfl⟩ := (make_iff hk).1 h
  refine ⟨⟨hP.nodup, hP.range, fun i j p he => ?_, hk, hv, hg⟩, hT.sum⟩
  have := (((checkCorrectness_iff P rew).1 hc).2.1 _ he).1
  exact lt_of_le_of_ne this (Ne.symm (hpos _ he))

/-- the matrix with every stored entry of row `i` divided by `S i` -/
def divRows (P : Dok K) (S : Nat → K) : Dok K := ⟨P.rows, P.cols, P.items.map fun e => (e.1, e.2 / S e.1.1)⟩

theorem get_divRows (P : Dok K) (S : Nat → K) (i j : Nat) : (divRows P S).get i j = P.get i j / S i := by
  unfold Dok.get divRows
  simp only
  induction P.items with
  | nil => simp [Dict.get?]
  | cons e l ih =>
    obtain ⟨k, p⟩ := e
    simp only [List.map_cons, Dict.get?] at ih ⊢
    split
    · rename_i hk; subst hk; rfl
    · exact ih

/-- **C87.** Every system whose row sums are within `δ < 1` of one has a neighbour with exact row sums at distance at
most `δ`: divide every row by its sum. -/
theorem C87_neighbour (hs : M.Stored) {δ : K} (hδ : δ < 1)
    (hsum : ∀ i < M.C, |∑ j ∈ range M.N, M.P.get i j - 1| ≤ δ) (hC : 0 < M.C) :
    ∃ M' : Sys K, M'.WF ∧ M.Near δ M' ∧ M'.labA = M.labA ∧ M'.rew = M.rew ∧ M'.dtmc = M.dtmc ∧
      ∀ i < M.C, ∀ j, M'.P.get i j = M.P.get i j / ∑ k ∈ range M.N, M.P.get i k := by
  set S : Nat → K := fun i => ∑ k ∈ range M.N, M.P.get i k with hS
  have hSpos : ∀ i < M.C, 0 < S i := by
    intro i hi
    have := (abs_le.1 (hsum i hi)).1
    show 0 < ∑ k ∈ range M.N, M.P.get i k
    linarith
  have hnn : ∀ i j, 0 ≤ M.P.get i j := by
    intro i j
    by_contra hc
    push Not at hc
    exact absurd (hs.pos _ _ _ (mem_of_get_ne hc.ne)) (not_lt.2 hc.le)
  have hzero : ∀ i j, ¬ (i < M.C ∧ j < M.N) → M.P.get i j = 0 := by
    intro i j hn
    by_contra hne
    exact hn (hs.range _ _ _ (mem_of_get_ne hne))
  obtain ⟨g, hg⟩ := build_ok (n := M.N) (inv := invGet? M.idx) (divRows M.P S).items (Graph.empty M.N) (by
    rintro ⟨⟨i, j⟩, p⟩ he
    obtain ⟨⟨k, q⟩, hq, e⟩ := List.mem_map.1 he
    cases e
    exact (build_spec _ _ _ hs.graph).2.2.2 ((i, j), q) hq)
  have hget := get_divRows M.P S
  have hδ0 : 0 ≤ δ := (abs_nonneg _).trans (hsum 0 hC)
  have hkeys : (divRows M.P S).items.map Prod.fst = M.P.items.map Prod.fst := by
    unfold divRows; rw [List.map_map]; rfl
  refine ⟨⟨M.dtmc, divRows M.P S, M.idx, M.labA, M.labS, M.rew, g⟩,
    ⟨?_, ?_, ?_, ?_, hs.keys, hs.vals, hg⟩, ⟨rfl, rfl, rfl, rfl, ?_, ?_⟩, rfl, rfl, rfl, fun i _ j => hget i j⟩
  · show ((divRows M.P S).items.map Prod.fst).Nodup
    rw [hkeys]; exact hs.nodup
  · intro i j p he
    obtain ⟨⟨k, q⟩, hq, e⟩ := List.mem_map.1 he
    cases e
    exact hs.range _ _ _ hq
  · intro i j p he
    obtain ⟨⟨k, q⟩, hq, e⟩ := List.mem_map.1 he
    cases e
    exact div_pos (hs.pos _ _ _ hq) (hSpos _ (hs.range _ _ _ hq).1)
  · intro i hi
    show ∑ j ∈ range M.N, (divRows M.P S).get i j = 1
    simp only [hget]
    rw [← Finset.sum_div]
    exact div_self (hSpos i hi).ne'
  · intro i j
    show 0 < (divRows M.P S).get i j ↔ _
    rw [hget]
    by_cases hr : i < M.C ∧ j < M.N
    · exact div_pos_iff_of_pos_right (hSpos i hr.1)
    · rw [hzero i j hr]; simp
  · intro i j
    show |(divRows M.P S).get i j - _| ≤ _
    rw [hget]
    by_cases hr : i < M.C ∧ j < M.N
    · have hp := hSpos i hr.1
      have hle : M.P.get i j ≤ S i :=
        Finset.single_le_sum (f := fun k => M.P.get i k) (fun k _ => hnn i k) (Finset.mem_range.2 hr.2)
      have e : M.P.get i j / S i - M.P.get i j = -(M.P.get i j / S i * (S i - 1)) := by
        field_simp; ring
      show |M.P.get i j / S i - M.P.get i j| ≤ δ
      rw [e, abs_neg, abs_mul, abs_of_nonneg (div_nonneg (hnn i j) hp.le)]
      have h1 : M.P.get i j / S i ≤ 1 := (div_le_one hp).2 hle
      calc _ ≤ 1 * |S i - 1| := mul_le_mul_of_nonneg_right h1 (abs_nonneg _)
        _ ≤ δ := by rw [one_mul]; exact hsum i hr.1
    · rw [hzero i j hr]; simpa using hδ0

/-- **C87.** Every system a constructor accepts (matrix without stored zeros): dividing each row by its sum gives a
system with exact probabilities, every number changed by at most `5·10⁻¹⁰`, and everything accepted by
`check_farkas_certificate` for the given system holds for that one up to the stated error. -/
theorem C87_accepted {P : Dok K} (hP : InShape P) (hpos : ∀ e ∈ P.items, e.2 ≠ 0)
    {idx : Dict (Nat × Nat) Nat} (hk : (idx.map Prod.fst).Nodup) (h : Constructed P M idx)
    (hrf : RF.make ρ M il tl fl false = .ok rf) (φ : K →+*o ℝ) {i : Nat} (hi : i ∈ M.labelled il)
    {ε : K} (hε : 0 < ε) (hmin : ∀ i < M.C, ∀ j < M.N, 0 < M.P.get i j → ε ≤ M.P.get i j) {δ : K} (hδ : δ = 1 / (2 * 10 ^ 9)) :
    ∃ M' : Sys K, M'.WF ∧ M.Near δ M' ∧
      (∀ i < M.C, ∀ j, M'.P.get i j = M.P.get i j / ∑ k ∈ range M.N, M.P.get i k) ∧
      ∀ (tol t : K) (v : List K), 0 ≤ tol →
        (let err := φ ((tol + δ * (1 + (v.map fun x => |x|).sum)) * (1 + M.N / (ε / (1 + δ)) ^ M.N))
        (check rf .min .ge t v tol = .ok true → φ t ≤ M'.prMin φ (M.labelled tl) i + err) ∧
        (check rf .min .gt t v tol = .ok true → φ t < M'.prMin φ (M.labelled tl) i + err) ∧
        (check rf .max .le t v tol = .ok true → M'.prMax φ (M.labelled tl) i ≤ φ t + err) ∧
        (check rf .max .lt t v tol = .ok true → M'.prMax φ (M.labelled tl) i < φ t + err)) ∧
        ((∀ x ∈ v, 0 ≤ x) →
          let err := φ (tol + δ * (1 + v.sum)) * M.N
          (check rf .max .ge t v tol = .ok true → φ t ≤ M'.prMax φ (M.labelled tl) i + err) ∧
          (check rf .max .gt t v tol = .ok true → φ t < M'.prMax φ (M.labelled tl) i + err) ∧
          (check rf .min .le t v tol = .ok true → M'.prMin φ (M.labelled tl) i ≤ φ t + err) ∧
          (check rf .min .lt t v tol = .ok true → M'.prMin φ (M.labelled tl) i < φ t + err)) := by
  obtain ⟨hs, hsum⟩ := C87_constructed hP hpos hk h
  rw [← hδ] at hsum
  have hδ1 : δ < 1 := by rw [hδ]; norm_num
  have hδ0 : 0 ≤ δ := by rw [hδ]; norm_num
  have hC : 0 < M.C := by
    by_contra hc
    have h0 : M.C = 0 := by omega
    have hc := (make_fields hrf).2.2.2.2 rfl
    unfold Sys.assertConsistency at hc
    split at hc
    · cases hc
    simp only [bind, Except.bind] at hc
    iterate 3 (split at hc; · cases hc)
    split at hc
    · cases hc
    rename_i hab
    unfold Sys.checkAbsorbing at hab
    split at hab
    · split at hab
      · split at hab
        · cases hab
        · split at hab
          · rename_i hcc; rw [h0] at hcc; omega
          · cases hab
      · cases hab
    · cases hab
  obtain ⟨M', hw, hn, -, -, -, hdiv⟩ := C87_neighbour hs hδ1 hsum hC
  refine ⟨M', hw, hn, hdiv, fun tol t v htol => ⟨?_, fun hv => C87_bounds_y hs hw hn hrf φ htol hv hi⟩⟩
  refine C87_bounds_z hs hw hn hrf φ (div_pos hε (by linarith)) (fun k hk j hj hp => ?_) htol hi
  rw [hn.rows] at hk
  rw [hn.cols] at hj
  have hp := (hn.supp k j).1 hp
  rw [hdiv k hk j]
  have hle := (abs_le.1 (hsum k hk)).2
  have hge := (abs_le.1 (hsum k hk)).1
  exact div_le_div₀ hp.le (hmin k hk j hj hp) (by linarith) (by linarith)

/-! ### an instance: thirds with ten decimals -/

def thirdP : Dok ℚ := ⟨3, 3, [((0, 0), 3333333333 / 10 ^ 10), ((0, 1), 3333333333 / 10 ^ 10), ((0, 2), 3333333333 / 10 ^ 10),
  ((1, 1), 1), ((2, 2), 1)]⟩
def thirdIdx : Dict (Nat × Nat) Nat := [((0, 0), 0), ((1, 0), 1), ((2, 0), 2)]
def thirdLab : IDict String Nat := IDict.mk' [("init", [0]), ("goal", [1]), ("fail", [2])] true

theorem third_inShape : InShape thirdP := by
  refine ⟨by decide, fun i j p he => ?_⟩
  simp only [thirdP, List.mem_cons, Prod.mk.injEq, List.not_mem_nil, or_false] at he
  rcases he with ⟨⟨rfl, rfl⟩, -⟩ | ⟨⟨rfl, rfl⟩, -⟩ | ⟨⟨rfl, rfl⟩, -⟩ | ⟨⟨rfl, rfl⟩, -⟩ | ⟨⟨rfl, rfl⟩, -⟩ <;>
    exact ⟨Nat.le_of_ble_eq_true rfl, Nat.le_of_ble_eq_true rfl⟩

/-- the hypotheses of `C87_accepted` are met by a system whose rows do not sum to one; a certificate is accepted -/
example : ∃ (M : Sys ℚ) (rf : RF ℚ), Constructed thirdP M thirdIdx ∧ (thirdIdx.map Prod.fst).Nodup ∧
    RF.make exRnd M "init" "goal" "fail" false = .ok rf ∧ 0 ∈ M.labelled "init" ∧
    check rf .min .ge (49 / 100) [49 / 100] 0 = .ok true ∧ check rf .max .le (51 / 100) [51 / 100] 0 = .ok true ∧
    ∑ j ∈ range 3, M.P.get 0 j ≠ 1 ∧ InShape thirdP ∧ (∀ e ∈ thirdP.items, e.2 ≠ 0) := by
  have h : (match Sys.makeMDP thirdP thirdIdx (IDict.mk' [] true) thirdLab none with
    | .error _ => false
    | .ok M => (match RF.make exRnd M "init" "goal" "fail" false with
      | .error _ => false
      | .ok rf => (match M.statesByLabel "init" with | .ok l => l == [0] | _ => false) &&
        (match check rf .min .ge (49 / 100) [49 / 100] 0 with | .ok b => b | _ => false) &&
        (match check rf .max .le (51 / 100) [51 / 100] 0 with | .ok b => b | _ => false) &&
        decide (∑ j ∈ range 3, M.P.get 0 j ≠ 1))) = true := by decide +kernel
  split at h
  · cases h
  rename_i M hM
  split at h
  · cases h
  rename_i rf hrf
  simp only [Bool.and_eq_true, decide_eq_true_eq] at h
  obtain ⟨⟨⟨h1, h2⟩, h3⟩, h4⟩ := h
  refine ⟨M, rf, .mdp _ _ _ hM, by decide, hrf, ?_, ?_, ?_, h4, third_inShape, by decide +kernel⟩
  · split at h1
    · rename_i l hl; exact ⟨l, hl, by rw [beq_iff_eq.1 h1]; simp⟩
    · cases h1
  · split at h2
    · rename_i b hb; rw [hb, h2]
    · cases h2
  · split at h3
    · rename_i b hb; rw [hb, h3]
    · cases h3

end Verif.Props
