import Verif.Theory.Perturb
import Verif.Props.Rounded
/-!
# C121: models with nearly the same numbers have nearly the same probabilities
-/
set_option linter.unusedSectionVars false

namespace Verif.Props
open Verif.Model Verif.Model.Cli Verif.Spec Verif.Proofs Verif.Proofs.IDict Verif.Proofs.IOTra Verif.Theory Finset

variable {K : Type} [Field K] [LinearOrder K] [IsStrictOrderedRing K]
variable {M M' L : Sys K} {η ε : K}

theorem total_of_near (hn : M.Near η M') (ht : M.Total) : M'.Total := by
  intro s hs
  obtain ⟨a, i, h1, h2⟩ := ht s (by rw [← hn.cols]; exact hs)
  exact ⟨a, i, by rw [hn.idx]; exact h1, by rw [hn.rows]; exact h2⟩

/-- the core of a system on the states and rows `0,…,n-1` and `0,…,c-1` -/
noncomputable def coreAt (φ : K →+*o ℝ) (M : Sys K) (T : Set Nat) (n c : Nat)
    (hne : ∀ s : Fin n, ∃ r : Fin c, ∃ a, ((s.1, a), r.1) ∈ M.idx) : Core (Fin n) (Fin c) := by
  classical
  exact
  { rows := fun s => univ.filter fun r => ∃ a, ((s.1, a), r.1) ∈ M.idx
    ne := fun s => by obtain ⟨r, hr⟩ := hne s; exact ⟨r, by simpa using hr⟩
    g := fun s _ => if s.1 ∈ T then 1 else 0
    Q := fun s r t => if s.1 ∈ T then 0 else φ (M.P.get r.1 t.1) }

theorem row_of_total (ht : M.Total) (s : Fin M.N) : ∃ r : Fin M.C, ∃ a, ((s.1, a), r.1) ∈ M.idx := by
  obtain ⟨a, i, h1, h2⟩ := ht s.1 s.2
  exact ⟨⟨i, h2⟩, a, h1⟩

section
variable (φ : K →+*o ℝ) (T : Set Nat) {n c : Nat}

theorem coreAt_eq (hM : M.WF) (ht : M.Total) (hn : M.N = n) (hc : M.C = c)
    (hne : ∀ s : Fin n, ∃ r : Fin c, ∃ a, ((s.1, a), r.1) ∈ M.idx) (s : Fin n) :
    M.prMax φ T s.1 = (coreAt φ M T n c hne).Vmax s ∧ M.prMin φ T s.1 = (coreAt φ M T n c hne).Vmin s := by
  classical
  subst hn hc
  have h1 := sys_prMax_eq φ (WF.valid hM φ ht) (T := T) (F := univ.filter fun t => t.1 ∈ T) (by simp) s
  have h2 := sys_prMin_eq φ (WF.valid hM φ ht) (T := T) (F := univ.filter fun t => t.1 ∈ T) (by simp) s
  have e : Core.ofMDP (M.toMDP φ) (WF.valid hM φ ht) (univ.filter fun t => t.1 ∈ T) = coreAt φ M T M.N M.C hne := by
    unfold Core.ofMDP coreAt Sys.toMDP
    simp
  rw [h1, h2, e]
  exact ⟨rfl, rfl⟩

theorem coreAt_total (hM : M.WF) (hn : M.N = n) (hc : M.C = c)
    (hne : ∀ s : Fin n, ∃ r : Fin c, ∃ a, ((s.1, a), r.1) ∈ M.idx) (s : Fin n) (r : Fin c) :
    (coreAt φ M T n c hne).g s r + ∑ t, (coreAt φ M T n c hne).Q s r t = 1 := by
  subst hn hc
  simp only [coreAt]
  split
  · simp
  · rw [zero_add, ← map_sum, Fin.sum_univ_eq_sum_range (fun t => M.P.get r.1 t), hM.sum _ r.2, map_one]

theorem coreAt_sub (hM : M.WF) (hn : M.N = n) (hc : M.C = c)
    (hne : ∀ s : Fin n, ∃ r : Fin c, ∃ a, ((s.1, a), r.1) ∈ M.idx) : (coreAt φ M T n c hne).Sub where
  g0 s r _ := by simp only [coreAt]; split <;> norm_num
  Q0 s r _ t := by
    simp only [coreAt]; split
    · exact le_rfl
    · exact (phi_nonneg φ).2 (WF.get_nonneg hM _ _)
  sub s r _ := (coreAt_total φ T hM hn hc hne s r).le

theorem coreAt_near (hM : M.WF) (hM' : M'.WF) (hn : M.Near η M')
    (hne : ∀ s : Fin M.N, ∃ r : Fin M.C, ∃ a, ((s.1, a), r.1) ∈ M.idx)
    (hne' : ∀ s : Fin M.N, ∃ r : Fin M.C, ∃ a, ((s.1, a), r.1) ∈ M'.idx) :
    Core.Near (φ (M.N * η)) (coreAt φ M T M.N M.C hne) (coreAt φ M' T M.N M.C hne') where
  rows s := by ext r; simp [coreAt, hn.idx]
  gain s r _ := rfl
  supp s r _ t := by
    simp only [coreAt]; split
    · simp
    · have k : ∀ x : K, 0 < φ x ↔ 0 < x := fun x => by
        rw [← (phi_strict φ).lt_iff_lt (a := 0) (b := x), map_zero]
      rw [k, k, hn.supp]
  full s r _ := by
    have h1 := coreAt_total φ T hM rfl rfl hne s r
    have h2 := coreAt_total φ T hM' hn.cols hn.rows hne' s r
    have e : (coreAt φ M' T M.N M.C hne').g s r = (coreAt φ M T M.N M.C hne).g s r := rfl
    rw [e] at h2
    have : ∑ t, (coreAt φ M' T M.N M.C hne').Q s r t = ∑ t, (coreAt φ M T M.N M.C hne).Q s r t := by linarith
    rw [this]
  close s r _ := by
    have hη : 0 ≤ η := (abs_nonneg _).trans (hn.close 0 0)
    have k : ∀ t : Fin M.N, |(coreAt φ M' T M.N M.C hne').Q s r t - (coreAt φ M T M.N M.C hne).Q s r t| ≤ φ η := by
      intro t
      simp only [coreAt]; split
      · simpa using (phi_nonneg φ).2 hη
      · obtain ⟨h1, h2⟩ := abs_le.1 (hn.close r.1 t.1)
        rw [← map_sub, abs_le, ← map_neg]
        exact ⟨OrderHomClass.mono φ h1, OrderHomClass.mono φ h2⟩
    refine (Finset.sum_le_sum fun t _ => k t).trans (le_of_eq ?_)
    rw [Finset.sum_const, Finset.card_univ, Fintype.card_fin, nsmul_eq_mul, map_mul, map_natCast]

end

/-- **C121.** Let `M'` be `M` with other probabilities on the same transitions, none changed by more than `η`, and none of
either below `ε`.  Then for every set of target states and every state the minimal and the maximal probabilities of reaching
it in `M` and `M'` differ by at most `N·η·(N+1)/ε^(N+1)`. -/
theorem C121_near (hM : M.WF) (hM' : M'.WF) (ht : M.Total) (hn : M.Near η M') (φ : K →+*o ℝ) (hε : 0 < ε)
    (hmin : ∀ i < M.C, ∀ j < M.N, 0 < M.P.get i j → ε ≤ M.P.get i j)
    (hmin' : ∀ i < M.C, ∀ j < M.N, 0 < M'.P.get i j → ε ≤ M'.P.get i j) (T : Set Nat) {s : Nat} (hs : s < M.N) :
    |M'.prMax φ T s - M.prMax φ T s| ≤ φ (M.N * η * ((M.N + 1) / ε ^ (M.N + 1))) ∧
    |M'.prMin φ T s - M.prMin φ T s| ≤ φ (M.N * η * ((M.N + 1) / ε ^ (M.N + 1))) := by
  have ht' := total_of_near hn ht
  have hne := row_of_total ht
  have hne' : ∀ s : Fin M.N, ∃ r : Fin M.C, ∃ a, ((s.1, a), r.1) ∈ M'.idx := by rw [hn.idx]; exact hne
  obtain ⟨e1, e2⟩ := coreAt_eq φ T hM ht rfl rfl hne ⟨s, hs⟩
  obtain ⟨e3, e4⟩ := coreAt_eq φ T hM' ht' hn.cols hn.rows hne' ⟨s, hs⟩
  simp only at e1 e2 e3 e4
  have hA := coreAt_sub φ T hM rfl rfl hne
  have hB := coreAt_sub φ T hM' hn.cols hn.rows hne'
  have hnr := coreAt_near φ T hM hM' hn hne hne'
  have hε' : 0 < φ ε := by simpa using phi_strict φ hε
  have hε1 : φ ε ≤ 1 := by
    obtain ⟨r, a, -⟩ := hne ⟨s, hs⟩
    obtain ⟨j, hj, hp⟩ := WF.exists_pos hM r.2
    have h1 := hmin r.1 r.2 j hj hp
    have h2 : M.P.get r.1 j ≤ 1 := by
      rw [← hM.sum r.1 r.2]
      exact Finset.single_le_sum (f := fun j => M.P.get r.1 j) (fun j _ => WF.get_nonneg hM _ _) (Finset.mem_range.2 hj)
    simpa using OrderHomClass.mono φ (h1.trans h2)
  have k : ∀ x : K, 0 < φ x ↔ 0 < x := fun x => by
    rw [← (phi_strict φ).lt_iff_lt (a := 0) (b := x), map_zero]
  have key : ∀ (L : Sys K) (h : ∀ s : Fin M.N, ∃ r : Fin M.C, ∃ a, ((s.1, a), r.1) ∈ L.idx), L.WF → L.N = M.N → L.C = M.C →
      (∀ i < M.C, ∀ j < M.N, 0 < L.P.get i j → ε ≤ L.P.get i j) →
      (∀ s, ∀ r ∈ (coreAt φ L T M.N M.C h).rows s, ∀ t, 0 < (coreAt φ L T M.N M.C h).Q s r t →
        φ ε ≤ (coreAt φ L T M.N M.C h).Q s r t) ∧
      (∀ s, ∀ r ∈ (coreAt φ L T M.N M.C h).rows s, ∑ t, (coreAt φ L T M.N M.C h).Q s r t = 1 ∨
        ∑ t, (coreAt φ L T M.N M.C h).Q s r t ≤ 1 - φ ε) := by
    intro L h hL hLN hLC hLm
    refine ⟨fun u r _ t hp => ?_, fun u r _ => ?_⟩
    · simp only [coreAt] at hp ⊢
      split at hp
      · exact absurd hp (lt_irrefl _)
      · rename_i hu
        rw [if_neg hu]
        exact OrderHomClass.mono φ (hLm r.1 r.2 t.1 t.2 ((k _).1 hp))
    · have := coreAt_total φ T hL hLN hLC h u r
      by_cases hu : u.1 ∈ T
      · right
        have e : (coreAt φ L T M.N M.C h).g u r = 1 := by simp [coreAt, hu]
        rw [e] at this
        linarith
      · left
        have e : (coreAt φ L T M.N M.C h).g u r = 0 := by simp [coreAt, hu]
        rw [e] at this
        linarith
  obtain ⟨q1, d1⟩ := key M hne hM rfl rfl hmin
  obtain ⟨q2, d2⟩ := key M' hne' hM' hn.cols hn.rows hmin'
  have hcard : Fintype.card (Fin M.N) < M.N + 1 := by rw [Fintype.card_fin]; omega
  have e : φ (M.N * η * ((M.N + 1) / ε ^ (M.N + 1))) = φ (M.N * η) * ((M.N + 1 : ℕ) / φ ε ^ (M.N + 1)) := by
    rw [map_mul, map_div₀, map_add, map_natCast, map_one, map_pow]; push_cast; rfl
  rw [e1, e2, e3, e4, e, abs_le, abs_le]
  have a1 := hnr.Vmax_le hA hB hε' hε1 q1 d1 hcard ⟨s, hs⟩
  have a2 := hnr.symm.Vmax_le hB hA hε' hε1 q2 d2 hcard ⟨s, hs⟩
  have a3 := hnr.Vmin_le hA hB hε' hε1 q1 d1 hcard ⟨s, hs⟩
  have a4 := hnr.symm.Vmin_le hB hA hε' hε1 q2 d2 hcard ⟨s, hs⟩
  exact ⟨⟨by linarith, by linarith⟩, by linarith, by linarith⟩

/-- **C121.** Whether the extremal probabilities are zero or one depends on the transitions only, not on the numbers. -/
theorem C121_qualitative (hM : M.WF) (hM' : M'.WF) (ht : M.Total) (hn : M.Near η M') (φ : K →+*o ℝ) (T : Set Nat) (s : Nat) :
    (M'.prMax φ T s = 0 ↔ M.prMax φ T s = 0) ∧ (M'.prMax φ T s = 1 ↔ M.prMax φ T s = 1) ∧
    (M'.prMin φ T s = 0 ↔ M.prMin φ T s = 0) ∧ (M'.prMin φ T s = 1 ↔ M.prMin φ T s = 1) := by
  by_cases hs : s < M.N
  swap
  · unfold Sys.prMax Sys.prMin
    rw [dif_neg hs, dif_neg hs, dif_neg (by rw [hn.cols]; exact hs), dif_neg (by rw [hn.cols]; exact hs)]
    simp
  have ht' := total_of_near hn ht
  have hne := row_of_total ht
  have hne' : ∀ s : Fin M.N, ∃ r : Fin M.C, ∃ a, ((s.1, a), r.1) ∈ M'.idx := by rw [hn.idx]; exact hne
  obtain ⟨e1, e2⟩ := coreAt_eq φ T hM ht rfl rfl hne ⟨s, hs⟩
  obtain ⟨e3, e4⟩ := coreAt_eq φ T hM' ht' hn.cols hn.rows hne' ⟨s, hs⟩
  simp only at e1 e2 e3 e4
  have hA := coreAt_sub φ T hM rfl rfl hne
  have hB := coreAt_sub φ T hM' hn.cols hn.rows hne'
  have h := (coreAt_near φ T hM hM' hn hne hne').toAlike
  have tA := fun s r (_ : r ∈ (coreAt φ M T M.N M.C hne).rows s) => coreAt_total φ T hM rfl rfl hne s r
  have tB := fun s r (_ : r ∈ (coreAt φ M' T M.N M.C hne').rows s) => coreAt_total φ T hM' hn.cols hn.rows hne' s r
  rw [e1, e2, e3, e4]
  exact ⟨⟨h.symm.Vmax_zero hB hA, h.Vmax_zero hA hB⟩, ⟨h.symm.Vmax_one hB hA tA, h.Vmax_one hA hB tB⟩,
    ⟨h.symm.Vmin_zero hB hA, h.Vmin_zero hA hB⟩, ⟨h.symm.Vmin_one hB hA tA, h.Vmin_one hA hB tB⟩⟩

/-! ### saved models -/

section
variable [FloorRing K] {kind : Kind} {lab tra : List Char} {π : List Nat → List Nat} {π' : List String → List String}

/-- **C121 (files).** If the files written by `save` can be loaded and every positive probability of the saved model is at least
`ε` plus half a unit of the sixth decimal, the loaded model has for every target set and state nearly the same minimal and
maximal probabilities, and exactly the same where they are zero or one. -/
theorem C121_reloaded (hπ : ∀ l, (π l).Perm l) (hπ' : ∀ l, (π' l).Perm l) (hM : M.WF) (ht : M.Total) (hI : LabelMap M.labS)
    (hch : kind = .dtmc → M.C = M.N ∧ ∀ s a i, ((s, a), i) ∈ M.idx → a = 0)
    (hc : ∀ l ∈ M.labS.d.map Prod.fst, CleanName l) (hη : η = 1 / (2 * 10 ^ 6)) (hε : 0 < ε)
    (hmin : ∀ r < M.C, ∀ t < M.N, 0 < M.P.get r t → ε + η ≤ M.P.get r t)
    (hs : save kind π π' M = .ok (lab, tra)) (hl : loadModel kind lab tra = .ok L) (φ : K →+*o ℝ) :
    (∀ l, L.labelled l = M.labelled l) ∧ L.N = M.N ∧ ∀ (T : Set Nat), ∀ s < M.N,
      (|L.prMax φ T s - M.prMax φ T s| ≤ φ (M.N * η * ((M.N + 1) / ε ^ (M.N + 1))) ∧
       |L.prMin φ T s - M.prMin φ T s| ≤ φ (M.N * η * ((M.N + 1) / ε ^ (M.N + 1)))) ∧
      (L.prMax φ T s = 0 ↔ M.prMax φ T s = 0) ∧ (L.prMax φ T s = 1 ↔ M.prMax φ T s = 1) ∧
      (L.prMin φ T s = 0 ↔ M.prMin φ T s = 0) ∧ (L.prMin φ T s = 1 ↔ M.prMin φ T s = 1) := by
  have hη0 : 0 ≤ η := by rw [hη]; positivity
  obtain ⟨hL, hr⟩ := rounded_of_save hπ hπ' hM hI.inv hch hc (fun r t hp => by
    obtain ⟨p, hp'⟩ := (WF.get_pos_iff hM).1 hp
    obtain ⟨h1, h2⟩ := hM.range _ _ _ hp'
    have := hmin r h1 t h2 hp
    rw [← hη]
    linarith) hs hl
  rw [← hη] at hr
  obtain ⟨M', hw, hr', hn⟩ := hr.between hM hL hη0
  have hLt : L.Total := by
    intro s hs
    obtain ⟨a, r, h1, h2⟩ := ht s (by rw [← hr.N]; exact hs)
    obtain ⟨r', h3, h4⟩ := (hr.pair s a).2 ⟨r, h2, h1⟩
    exact ⟨a, r', h4, h3⟩
  have hmin' : ∀ i < L.C, ∀ j < L.N, 0 < M'.P.get i j → ε + η ≤ M'.P.get i j := by
    intro i hi j hj hp
    obtain ⟨s, a, hi', -⟩ := WF.cover hw (by rw [hn.rows]; exact hi)
    obtain ⟨r, h1, h2⟩ := (hr'.pair s a).1 ⟨i, by rw [hn.rows]; exact hi, hi'⟩
    rw [hr'.row _ _ _ _ h2 hi' j] at hp ⊢
    exact hmin r h1 j (by rw [← hr.N]; exact hj) hp
  have hminL : ∀ i < L.C, ∀ j < L.N, 0 < L.P.get i j → ε ≤ L.P.get i j := by
    intro i hi j hj hp
    have h1 := hmin' i hi j hj ((hn.supp i j).2 hp)
    have h2 := (abs_le.1 (hn.close i j)).2
    linarith
  refine ⟨fun l => ?_, hr.N, fun T s hs => ?_⟩
  · rw [← hr'.labelled l]
    unfold Sys.labelled Sys.statesByLabel; rw [hn.labS]
  have hb := C121_near hL hw hLt hn φ hε hminL (fun i hi j hj hp => by linarith [hmin' i hi j hj hp]) T (s := s)
    (by rw [hr.N]; exact hs)
  have hq := C121_qualitative hL hw hLt hn φ T s
  rw [hr'.prMin hM hw ht, hr'.prMax hM hw ht] at hb hq
  rw [hr.N, abs_sub_comm, abs_sub_comm (M.prMin φ T s)] at hb
  exact ⟨hb, hq.1.symm, hq.2.1.symm, hq.2.2.1.symm, hq.2.2.2.symm⟩

end

/-! ### why the conditions are needed -/

/-- **C121 (the factor is real).** A chain with three states, no probability of which is changed by more than half a unit of the
sixth decimal and all of which are above it, is saved and loaded; the probability of reaching the target changes by more than 1/5. -/
theorem C121_large_change : ∃ (M L : Sys ℚ) (lab' tra' : List Char), loadModel .dtmc cliLab tinyTra = .ok M ∧
    (∀ r < M.C, ∀ t < M.N, 0 < M.P.get r t → 6 / 10 ^ 7 ≤ M.P.get r t) ∧
    save .dtmc id id M = .ok (lab', tra') ∧ loadModel .dtmc lab' tra' = .ok L ∧
    ∀ φ : ℚ →+*o ℝ, M.prMax φ (M.labelled "goal") 0 + 1 / 5 < L.prMin φ (L.labelled "goal") 0 := by
  obtain ⟨M, rf0, h1, h2, h3, h4, h5, h6⟩ := cliTest_spec (kind := .dtmc) (tra := tinyTra)
    (p := fun M rf => yes (check rf .max .lt (3 / 10) [60 / 209] 0) && decide (∀ e ∈ M.P.items, 6 / 10 ^ 7 ≤ e.2)) (by decide +kernel)
  simp only [Bool.and_eq_true, yes_iff, decide_eq_true_eq] at h6
  obtain ⟨⟨lab', tra'⟩, g1, g2⟩ := exists_of_ok_and (x := loadModel (K := ℚ) .dtmc cliLab tinyTra >>= fun M => save .dtmc id id M)
    (p := fun r => match loadModel (K := ℚ) .dtmc r.1 r.2 with
      | .error _ => false
      | .ok L => match RF.make exRnd L "init" "goal" "fail" false with
        | .error _ => false
        | .ok rf => nineTest L.P && decide (L.statesByLabel "init" = .ok [0]) && yes (check rf .min .ge (1 / 2) [1 / 2] 0))
    (by decide +kernel)
  rw [h1] at g1
  dsimp only at g2
  split at g2
  · cases g2
  · rename_i L hL
    split at g2
    · cases g2
    · rename_i rf hrf
      simp only [Bool.and_eq_true, yes_iff, decide_eq_true_eq] at g2
      have hx := C75_nine_decimals hL (nine_of_test g2.1.1)
      refine ⟨M, L, lab', tra', h1, fun r _ t _ hp => ?_, g1, hL, fun φ => ?_⟩
      · obtain ⟨p, hp'⟩ := (WF.get_pos_iff h3).1 hp
        have := h6.2 _ hp'
        rw [get_of_mem h3.nodup hp']
        exact this
      · have k1 := C21_max_lt_sound h3 h4 φ h6.1 h5
        have k2 := C20_min_ge_sound ((loadModel_spec hL).wf_of_sum hx) hrf φ g2.2 (i := 0) ⟨[0], g2.1.2, by simp⟩
        have e1 : φ (3 / 10) = 3 / 10 := by simp
        have e2 : φ (1 / 2) = 1 / 2 := by simp
        rw [e1] at k1
        rw [e2] at k2
        linarith

/-- a state that is never left and is no target does not reach the target -/
theorem stuck_zero (hM : M.WF) (ht : M.Total) (φ : K →+*o ℝ) {T : Set Nat} {s : Nat} (hs : s < M.N) (hT : s ∉ T)
    (hloop : ∀ a r, ((s, a), r) ∈ M.idx → M.P.get r s = 1) : M.prMax φ T s = 0 := by
  classical
  obtain ⟨e, -⟩ := coreAt_eq φ T hM ht rfl rfl (row_of_total ht) ⟨s, hs⟩
  have hA := coreAt_sub φ T hM rfl rfl (row_of_total ht)
  simp only at e
  rw [e]
  have h := Core.Vmax_le_pre hA.toOK (x := fun t => if t.1 = s then 0 else 1) (fun t => by split <;> norm_num) (by
    intro u r hr
    by_cases hu : u.1 = s
    · obtain ⟨a, ha⟩ : ∃ a, ((u.1, a), r.1) ∈ M.idx := by simpa [coreAt] using hr
      rw [hu] at ha
      have h1 := hloop a r.1 ha
      rw [if_pos hu]
      simp only [Core.step, coreAt, hu, hT, if_false, zero_add]
      refine (Finset.sum_eq_zero fun t _ => ?_).le
      by_cases htt : t.1 = s
      · rw [if_pos htt, mul_zero]
      · have h2 := hM.sum r.1 r.2
        rw [← Finset.add_sum_erase _ _ (Finset.mem_range.2 hs), h1, add_eq_left] at h2
        have h3 := (Finset.sum_eq_zero_iff_of_nonneg fun j _ => WF.get_nonneg hM r.1 j).1 h2 t.1
          (Finset.mem_erase.2 ⟨htt, Finset.mem_range.2 t.2⟩)
        rw [h3, map_zero, zero_mul]
    · rw [if_neg hu]
      refine (Core.step_mono hA.toOK (y := fun _ => 1) (fun t => ?_) hr).trans (hA.bound.pre u r hr)
      split <;> norm_num) ⟨s, hs⟩
  rw [if_pos rfl] at h
  exact le_antisymm h (Core.Vmax_nonneg hA.toOK hA.bound _)

/-- a chain that leaves its initial state with probability 0.0000004 -/
def leakTra : List Char := "3 5\n0 0 0.9999996\n0 1 0.0000003\n0 2 0.0000001\n1 1 1\n2 2 1\n".toList

/-- **C121 is false for smaller probabilities.** A chain that reaches its target with probability 3/4 is saved and loaded without
an error; in the loaded chain the target is not reached at all. -/
theorem C121_false : ∃ (M L : Sys ℚ) (lab' tra' : List Char), loadModel .dtmc cliLab leakTra = .ok M ∧ M.WF ∧
    save .dtmc id id M = .ok (lab', tra') ∧ loadModel .dtmc lab' tra' = .ok L ∧ L.WF ∧
    ∀ φ : ℚ →+*o ℝ, 3 / 4 ≤ M.prMin φ (M.labelled "goal") 0 ∧ L.prMax φ (L.labelled "goal") 0 = 0 := by
  obtain ⟨M, rf0, h1, h2, h3, h4, h5, h6⟩ := cliTest_spec (kind := .dtmc) (tra := leakTra)
    (p := fun M rf => yes (check rf .min .ge (3 / 4) [3 / 4] 0)) (by decide +kernel)
  rw [yes_iff] at h6
  obtain ⟨⟨lab', tra'⟩, g1, g2⟩ := exists_of_ok_and (x := loadModel (K := ℚ) .dtmc cliLab leakTra >>= fun M => save .dtmc id id M)
    (p := fun r => match loadModel (K := ℚ) .dtmc r.1 r.2 with
      | .error _ => false
      | .ok L => nineTest L.P && decide (L.N = 3) && decide (L.statesByLabel "goal" = .ok [1]) && decide (L.P.get 0 0 = 1))
    (by decide +kernel)
  rw [h1] at g1
  dsimp only at g2
  split at g2
  · cases g2
  · rename_i L hL
    simp only [Bool.and_eq_true, decide_eq_true_eq] at g2
    have hx := C75_nine_decimals hL (nine_of_test g2.1.1.1)
    have hw := (loadModel_spec hL).wf_of_sum hx
    refine ⟨M, L, lab', tra', h1, h3, g1, hL, hw, fun φ => ⟨?_, ?_⟩⟩
    · have := C20_min_ge_sound h3 h4 φ h6 h5
      have e1 : φ (3 / 4) = 3 / 4 := by simp
      rwa [e1] at this
    · refine stuck_zero hw (total_of_chain hL) φ (by rw [g2.1.1.2]; omega) ?_ fun a r hr => ?_
      · rintro ⟨ss, e1, e2⟩
        rw [g2.1.2] at e1
        cases e1
        simp at e2
      · rw [((loadModel_spec hL).chain rfl).2] at hr
        obtain ⟨j, -, e⟩ := List.mem_map.1 hr
        cases e
        exact g2.2

/-- the hypotheses of `C121_reloaded` are met: a chain saved and loaded, with `ε = 10^-7` -/
example (φ : ℚ →+*o ℝ) : ∃ (M L : Sys ℚ), loadModel .dtmc cliLab tinyTra = .ok M ∧
    |L.prMax φ (L.labelled "goal") 0 - M.prMax φ (L.labelled "goal") 0| ≤
      φ (M.N * (1 / (2 * 10 ^ 6)) * ((M.N + 1) / (1 / 10 ^ 7) ^ (M.N + 1))) := by
  obtain ⟨M, L, lab', tra', h1, h2, h3, h4, -⟩ := C121_large_change
  have hF := loadModel_spec h1
  obtain ⟨M2, -, k1, -, k3, -, -, k5⟩ := cliTest_spec (kind := .dtmc) (tra := tinyTra) (p := fun M _ => decide (0 < M.N)) (by decide +kernel)
  rw [h1] at k1
  cases k1
  obtain ⟨hsq, hidx⟩ := hF.chain rfl
  have := C121_reloaded (π := id) (π' := id) (kind := .dtmc) (ε := 1 / 10 ^ 7) (fun _ => List.Perm.refl _) (fun _ => List.Perm.refl _) k3 (total_of_chain h1)
    (labelMap_of_inv hF.labS hF.noInv) (fun _ => ⟨hsq, fun s a i hi => by
      rw [hidx] at hi
      obtain ⟨j, -, e⟩ := List.mem_map.1 hi
      cases e; rfl⟩) hF.clean rfl (by norm_num) (fun r hr t ht hp => le_trans (by norm_num) (h2 r hr t ht hp)) h3 h4 φ
  exact ⟨M, L, h1, (this.2.2 _ 0 (of_decide_eq_true k5)).1.1⟩

end Verif.Props
