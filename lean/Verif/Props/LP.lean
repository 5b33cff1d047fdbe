import Verif.Props.Fark
/-! # C28–C32: what the linear programs compute, for a solver that answers with an optimal solution -/
set_option linter.unusedSectionVars false

namespace Verif.Props
open Verif.Model Verif.Proofs Verif.Theory Finset

section
variable {K : Type} [Field K] [LinearOrder K] [IsStrictOrderedRing K]
variable {ρ : Graph.Rnd} {M : Sys K} {il tl fl : String} {rf : RF K}

theorem sum_fin_range {A : Type} [AddCommMonoid A] {n : Nat} (f : Nat → A) : ∑ s ∈ range n, f s = ∑ s : Fin n, f s.1 :=
  (Fin.sum_univ_eq_sum_range f n).symm

/-- among vectors below `v`, only `v` has a sum as large -/
theorem eq_of_sum_ge {n : Nat} {x v : Nat → K} (hle : ∀ s < n, x s ≤ v s) (hs : ∑ s ∈ range n, v s ≤ ∑ s ∈ range n, x s) :
    ∀ s < n, x s = v s := fun s hs' =>
  (Finset.sum_eq_sum_iff_of_le fun s hs => hle s (Finset.mem_range.1 hs)).1
    (le_antisymm (Finset.sum_le_sum fun s hs => hle s (Finset.mem_range.1 hs)) hs) s (Finset.mem_range.2 hs')

/-- the minimal probabilities are numbers of the code -/
theorem exists_prMin (hM : M.WF) (hrf : RF.make ρ M il tl fl false = .ok rf) (φ : K →+*o ℝ) :
    ∃ v : Nat → K, (∀ s < M.N - 2, φ (v s) = M.prMin φ (M.labelled tl) s) ∧ (∀ s : Fin rf.N, φ (v s.1) = ((rfok_built hM hrf).core φ).Vmin s) := by
  have h := rfok_built hM hrf
  obtain ⟨z, -, hz, -⟩ := exists_zvec φ (V := (h.core φ).Vmin) (Core.Vmin_mem (h.sub φ) (core_over h φ))
  refine ⟨fun j => z.getD j 0, fun s hs => ?_, hz⟩
  have hs : s < rf.N := by rw [RF.N, (make_fields hrf).1]; exact hs
  exact (hz ⟨s, hs⟩).trans (prMin_core hM hrf φ ⟨s, hs⟩).symm

/-- the maximal probabilities are numbers of the code -/
theorem exists_prMax (hM : M.WF) (hrf : RF.make ρ M il tl fl false = .ok rf) (φ : K →+*o ℝ) :
    ∃ v : Nat → K, (∀ s < M.N - 2, φ (v s) = M.prMax φ (M.labelled tl) s) ∧ (∀ s : Fin rf.N, φ (v s.1) = ((rfok_built hM hrf).core φ).Vmax s) := by
  have h := rfok_built hM hrf
  obtain ⟨z, -, hz, -⟩ := exists_zvec φ (V := (h.core φ).Vmax) (Core.Vmax_mem (h.sub φ).toOK (h.sub φ).bound (core_over h φ))
  refine ⟨fun j => z.getD j 0, fun s hs => ?_, hz⟩
  have hs : s < rf.N := by rw [RF.N, (make_fields hrf).1]; exact hs
  exact (hz ⟨s, hs⟩).trans (prMax_core hM hrf φ ⟨s, hs⟩).symm

/-- **C28.** `pr_min`: the program is built, has an optimal solution, and every optimal solution is the
vector of minimal probabilities of reaching a target state. -/
theorem C28_pr_min (hM : M.WF) (hrf : RF.make ρ M il tl fl false = .ok rf) (φ : K →+*o ℝ)
    {i : Nat} (hi : i ∈ M.labelled il) (hit : i ∉ M.labelled tl) :
    ∃ lp, rf.maxZLP = .ok lp ∧ (∃ x, lp.Optimal x) ∧
      ∀ x, lp.Optimal x → ∀ s < M.N - 2, φ (x s) = M.prMin φ (M.labelled tl) s := by
  have h := rfok_built hM hrf
  have hin := initial_lt hM hrf hi hit
  have e0 := (make_fields hrf).1
  obtain ⟨lp, h1, h2, h3, h4⟩ := maxZLP_ok hin
  obtain ⟨v, hv, hvec⟩ := exists_prMin hM hrf φ
  have hvec' : RFOK.vec φ v = (h.core φ).Vmin := funext hvec
  have hV0 : ∀ s < rf.N, 0 ≤ v s := fun s hs => by
    rw [← (phi_strict φ).le_iff_le, map_zero, hvec ⟨s, hs⟩]
    exact Core.Vmin_nonneg (h.sub φ).toOK (h.sub φ).bound _
  have hV1 : ∀ s < rf.N, v s ≤ 1 := fun s hs => by
    rw [← (phi_strict φ).le_iff_le, map_one, hvec ⟨s, hs⟩]
    exact (h.sub φ).Vmin_le_one _
  have hfeas : lp.Feasible v := by
    refine (h4 _).2 ⟨fun k hk => ?_, hV0 _ hin, fun s hs => ?_⟩
    · have := (RFOK.zrow_le_iff h φ v 0).2 (fun s r hr => by
        rw [hvec', map_zero, add_zero]
        exact Core.Vmin_le_step (h.sub φ).toOK (h.sub φ).bound hr) k hk
      rwa [sub_zero] at this
    · split
      · rename_i he
        refine (phi_strict φ).injective ?_
        rw [hvec ⟨s, hs⟩, map_zero]
        exact Core.Vmin_eq_zero_of_InEC (h.sub φ) ((h.inEC_iff φ ⟨s, hs⟩).2 he)
      · exact ⟨hV0 s hs, hV1 s hs⟩
  have hle : ∀ x, lp.Feasible x → ∀ s < rf.N, x s ≤ v s := by
    intro x hx s hs
    obtain ⟨a, -, c⟩ := (h4 x).1 hx
    rw [← (phi_strict φ).le_iff_le, hvec ⟨s, hs⟩]
    refine Core.le_Vmin_of_cert (h.sub φ) (z := RFOK.vec φ x) (fun s r hr => ?_) (fun s hs => ?_) ⟨s, hs⟩
    · have := (RFOK.zrow_le_iff h φ x 0).1 (fun k hk => by rw [sub_zero]; exact a k hk) s r hr
      rwa [map_zero, add_zero] at this
    · have := c s.1 s.2
      rw [if_pos ((h.inEC_iff φ s).1 hs)] at this
      exact le_of_eq (by rw [RFOK.vec, this, map_zero])
  refine ⟨lp, h1, ⟨v, hfeas, fun x hx => ?_⟩, fun x hx s hs => ?_⟩
  · rw [h2, if_pos rfl, h3, h3]
    exact Finset.sum_le_sum fun s hs => hle x hx s (Finset.mem_range.1 hs)
  · have hopt := hx.2 _ hfeas
    rw [h2, if_pos rfl, h3, h3] at hopt
    rw [eq_of_sum_ge (hle x hx.1) hopt s (by rw [RF.N, e0]; exact hs), hv s hs]

/-- **C29.** `pr_max`: the program is built, has an optimal solution, and every optimal solution is the
vector of maximal probabilities of reaching a target state. -/
theorem C29_pr_max (hM : M.WF) (hrf : RF.make ρ M il tl fl false = .ok rf) (φ : K →+*o ℝ)
    {i : Nat} (hi : i ∈ M.labelled il) (hit : i ∉ M.labelled tl) :
    ∃ lp, rf.prMaxLP = .ok lp ∧ (∃ x, lp.Optimal x) ∧
      ∀ x, lp.Optimal x → ∀ s < M.N - 2, φ (x s) = M.prMax φ (M.labelled tl) s := by
  have h := rfok_built hM hrf
  have hin := initial_lt hM hrf hi hit
  have e0 := (make_fields hrf).1
  obtain ⟨lp, h1, h2, h3, h4⟩ := prMaxLP_ok hin
  obtain ⟨v, hv, hvec⟩ := exists_prMax hM hrf φ
  have hvec' : RFOK.vec φ v = (h.core φ).Vmax := funext hvec
  have hV0 : ∀ s < rf.N, 0 ≤ v s := fun s hs => by
    rw [← (phi_strict φ).le_iff_le, map_zero, hvec ⟨s, hs⟩]
    exact Core.Vmax_nonneg (h.sub φ).toOK (h.sub φ).bound _
  have hV1 : ∀ s < rf.N, v s ≤ 1 := fun s hs => by
    rw [← (phi_strict φ).le_iff_le, map_one, hvec ⟨s, hs⟩]
    exact (h.sub φ).Vmax_le_one _
  have hfeas : lp.Feasible v := by
    refine (h4 _).2 ⟨fun k hk => ?_, hV1 _ hin, fun s hs => ⟨hV0 s hs, hV1 s hs⟩⟩
    have := (RFOK.zrow_ge_iff h φ v 0).2 (fun s r hr => by
      rw [hvec', map_zero, add_zero]
      exact Core.step_Vmax_le (h.sub φ).toOK (h.sub φ).bound hr) k hk
    rwa [add_zero] at this
  have hle : ∀ x, lp.Feasible x → ∀ s < rf.N, v s ≤ x s := by
    intro x hx s hs
    obtain ⟨a, -, c⟩ := (h4 x).1 hx
    rw [← (phi_strict φ).le_iff_le, hvec ⟨s, hs⟩]
    refine Core.Vmax_le_of_cert (h.sub φ) (RFOK.live' φ (rflive_built hM hrf)) (z := RFOK.vec φ x) (fun s r hr => ?_) ⟨s, hs⟩
    have := (RFOK.zrow_ge_iff h φ x 0).1 (fun k hk => by rw [add_zero]; exact a k hk) s r hr
    rwa [map_zero, add_zero] at this
  refine ⟨lp, h1, ⟨v, hfeas, fun x hx => ?_⟩, fun x hx s hs => ?_⟩
  · rw [h2, if_neg (by simp), h3, h3]
    exact Finset.sum_le_sum fun s hs => hle x hx s (Finset.mem_range.1 hs)
  · have hopt := hx.2 _ hfeas
    rw [h2, if_neg (by simp), h3, h3] at hopt
    rw [← eq_of_sum_ge (hle x hx.1) hopt s (by rw [RF.N, e0]; exact hs), hv s hs]

/-- **C30.** `max_y_state_action`: the program is built, has an optimal solution, and every optimal solution
is a non-negative flow out of the initial state which reaches the target with the maximal probability. -/
theorem C30_max_y (hM : M.WF) (hrf : RF.make ρ M il tl fl false = .ok rf) (φ : K →+*o ℝ)
    {i : Nat} (hi : i ∈ M.labelled il) (hit : i ∉ M.labelled tl) :
    ∃ lp, rf.maxYLP = .ok lp ∧ (∃ y, lp.Optimal y) ∧ ∀ y, lp.Optimal y →
      (∀ k < M.C - 2, 0 ≤ y k) ∧
      φ (∑ k ∈ range (M.C - 2), M.P.get k (M.N - 2) * y k) = M.prMax φ (M.labelled tl) i := by
  have h := rfok_built hM hrf
  have hin := initial_lt hM hrf hi hit
  have e0 := (make_fields hrf).1
  obtain ⟨lp, h1, h2, h3, h4⟩ := maxYLP_ok hin
  have e := prMax_core hM hrf φ ⟨rf.initial, hin⟩
  simp only at e
  rw [initial_eq hM hrf hi, e]
  obtain ⟨v, hl, hv0, hb, hg⟩ := exists_max_vec h φ ⟨rf.initial, hin⟩
  rw [← RFOK.ygain_eq] at hg
  have hfeas : lp.Feasible fun j => v.getD j 0 := by
    refine (h4 _).2 ⟨fun j hj => ?_, ?_, fun k hk => ?_⟩
    · have := (RFOK.yrow_le_iff h φ hin (fun j => v.getD j 0) 0).2 (fun s => by
        rw [map_zero, add_zero]
        exact hb s) j hj
      rwa [sub_zero] at this
    · rw [← (phi_strict φ).le_iff_le, map_zero, hg]; exact Core.Vmax_nonneg (h.sub φ).toOK (h.sub φ).bound _
    · rw [List.getD_eq_getElem _ _ (by omega)]; exact hv0 _ (List.getElem_mem _)
  have hle : ∀ x, lp.Feasible x → ygain rf x ≤ ygain rf fun j => v.getD j 0 := by
    intro x hx
    obtain ⟨a, -, c⟩ := (h4 x).1 hx
    have := Core.gain_le_Vmax (M := h.core φ) (h.sub φ).toOK (h.sub φ).bound (y := RFOK.vecY φ x)
      (fun s r _ => by rw [RFOK.vecY, ← map_zero φ, (phi_strict φ).le_iff_le]; exact c r.1 r.2) (i := ⟨rf.initial, hin⟩) (fun t => by
        have := (RFOK.yrow_le_iff h φ hin x 0).1 (fun j hj => by rw [sub_zero]; exact a j hj) t
        rwa [map_zero, add_zero] at this)
    rw [← RFOK.ygain_eq, ← hg, (phi_strict φ).le_iff_le] at this
    exact this
  refine ⟨lp, h1, ⟨_, hfeas, fun x hx => ?_⟩, fun x hx => ?_⟩
  · rw [h2, if_pos rfl, h3, h3]
    exact hle x hx
  · obtain ⟨-, -, c⟩ := (h4 x).1 hx.1
    subst e0
    refine ⟨c, ?_⟩
    have hopt := hx.2 _ hfeas
    rw [h2, if_pos rfl, h3, h3] at hopt
    rw [← hg]
    exact congrArg φ (le_antisymm (hle x hx.1) hopt)

/-- **C32.** For an optimal solution `x` of `max_z_state` the vector `max_z_state_action` is the one-step
lookahead of the minimal probabilities; its minimum over the actions of `s` is the minimal probability of
`s`. -/
theorem C32_max_z_state_action (hM : M.WF) (hrf : RF.make ρ M il tl fl false = .ok rf) (φ : K →+*o ℝ)
    {i : Nat} (hi : i ∈ M.labelled il) (hit : i ∉ M.labelled tl) {lp : Milp K} (hlp : rf.maxZLP = .ok lp)
    {x : Nat → K} (hx : lp.Optimal x) :
    (∀ k < M.C - 2, φ (rf.maxZStateAction x k) = φ (M.P.get k (M.N - 2)) +
      ∑ d ∈ range (M.N - 2), φ (M.P.get k d) * M.prMin φ (M.labelled tl) d) ∧
    ∀ s < M.N - 2,
      (∀ a k, ((s, a), k) ∈ M.idx → k < M.C - 2 → M.prMin φ (M.labelled tl) s ≤ φ (rf.maxZStateAction x k)) ∧
      ∃ a k, ((s, a), k) ∈ M.idx ∧ k < M.C - 2 ∧ M.prMin φ (M.labelled tl) s = φ (rf.maxZStateAction x k) := by
  obtain ⟨lp', h1, -, h2⟩ := C28_pr_min hM hrf φ hi hit
  rw [hlp] at h1
  cases h1
  have hxs := h2 x hx
  have h := rfok_built hM hrf
  have e0 := (make_fields hrf).1
  have hk : ∀ k, φ (rf.maxZStateAction x k) = φ (M.P.get k (M.N - 2)) +
      ∑ d ∈ range (M.N - 2), φ (M.P.get k d) * M.prMin φ (M.labelled tl) d := by
    intro k
    unfold RF.maxZStateAction
    rw [list_sum_range, add_comm, map_add, map_sum]
    subst e0
    congr 1
    refine Finset.sum_congr rfl fun d hd => ?_
    rw [← hxs d (Finset.mem_range.1 hd), ← map_mul]
    rfl
  have hstep : ∀ (s : Fin rf.N) (k : Fin rf.C), φ (rf.maxZStateAction x k.1) = (h.core φ).step (h.core φ).Vmin s k := by
    intro s k
    unfold RF.maxZStateAction
    rw [list_sum_range, sum_fin_range, add_comm, map_add, map_sum]
    unfold Core.step
    show _ = φ (rf.b k.1) + ∑ t : Fin rf.N, φ (rf.P k.1 t.1) * (h.core φ).Vmin t
    congr 1
    refine Finset.sum_congr rfl fun t _ => ?_
    rw [map_mul, hxs t.1 (by rw [← e0]; exact t.2), prMin_core hM hrf φ t]
  refine ⟨fun k _ => hk k, fun s hs => ?_⟩
  have hsN : s < rf.N := by rw [RF.N, e0]; exact hs
  have e := prMin_core hM hrf φ ⟨s, hsN⟩
  simp only at e
  rw [e]
  subst e0
  constructor
  · intro a k hmem hkC
    rw [hstep ⟨s, hsN⟩ ⟨k, hkC⟩]
    exact Core.Vmin_le_step (h.sub φ).toOK (h.sub φ).bound
      ((h.mem_rows φ).2 ((h.rowState_iff hkC).2 ⟨a, hmem⟩))
  · obtain ⟨r, hr, hr2⟩ := Core.exists_step_Vmin (h.sub φ).toOK (h.sub φ).bound ⟨s, hsN⟩
    obtain ⟨a, ha⟩ := (h.rowState_iff r.2).1 ((h.mem_rows φ).1 hr)
    exact ⟨a, r.1, ha, r.2, by rw [hstep ⟨s, hsN⟩ r, hr2]⟩
end

/-! ### max_y_state -/
section
variable {K : Type} [Field K] [LinearOrder K] [IsStrictOrderedRing K]
variable {ρ : Graph.Rnd} {M : Sys K} {il tl fl : String} {rf : RF K}

open Classical in
/-- **C31 (partial).** For every solver answer `y`, `max_y_state()[s]` is the sum of `y` over the actions of
`s` -- except at the initial state, where it is that sum plus one. -/
theorem C31_max_y_state_partial (hM : M.WF) (hrf : RF.make ρ M il tl fl false = .ok rf)
    {i : Nat} (hi : i ∈ M.labelled il) (y : Nat → K) (s : Nat) :
    rf.maxYState y s = (if s = i then 1 else 0) +
      ∑ k ∈ (range (M.C - 2)).filter (fun k => ∃ a, ((s, a), k) ∈ M.idx), y k := by
  have h := rfok_built hM hrf
  have e0 := (make_fields hrf).1
  rw [initial_eq hM hrf hi]
  subst e0
  unfold RF.maxYState
  have key : ∀ n ≤ rf.C, ∀ s, (List.range n).foldl (fun v i =>
      match rf.rowState i with
      | some s => Function.update v s (v s + y i)
      | none => v) rf.delta s =
      rf.delta s + ∑ k ∈ (range n).filter (fun k => ∃ a, ((s, a), k) ∈ rf.sys.idx), y k := by
    intro n
    induction n with
    | zero => intro _ s; simp
    | succ n ih =>
      intro hn s
      have ih := ih (by omega)
      rw [List.range_succ, List.foldl_append]
      simp only [List.foldl_cons, List.foldl_nil]
      obtain ⟨u, -, eu⟩ := h.exists_rowState (show n < rf.C by omega)
      rw [eu]
      simp only
      rw [Finset.range_add_one, Finset.filter_insert]
      by_cases hsu : s = u
      · subst hsu
        rw [if_pos ((h.rowState_iff (by omega)).1 eu), Function.update_self, ih,
          Finset.sum_insert (by simp)]
        ring
      · rw [if_neg, Function.update_of_ne hsu, ih]
        intro hc
        have := (h.rowState_iff (show n < rf.C by omega)).2 hc
        rw [eu] at this
        exact hsu (Option.some.inj this).symm
  exact key rf.C le_rfl s

open Classical in
/-- **C31 is false at the initial state**, for every reachability form and every solver answer. -/
theorem C31_false (hM : M.WF) (hrf : RF.make ρ M il tl fl false = .ok rf)
    {i : Nat} (hi : i ∈ M.labelled il) (y : Nat → K) :
    rf.maxYState y i ≠ ∑ k ∈ (range (M.C - 2)).filter (fun k => ∃ a, ((i, a), k) ∈ M.idx), y k := by
  rw [C31_max_y_state_partial hM hrf hi y i, if_pos rfl]
  intro h
  have : (1 : K) = 0 := by linarith
  exact one_ne_zero this

end

/-! ### the hypotheses are met -/

/-- all hypotheses of C28–C32 hold for the example form over the rationals (with a proper end component) -/
example : (∃ lp, (exRF ℚ).maxZLP = .ok lp ∧ ∃ x, lp.Optimal x) ∧ (∃ lp, (exRF ℚ).prMaxLP = .ok lp ∧ ∃ x, lp.Optimal x) ∧
    ∃ lp, (exRF ℚ).maxYLP = .ok lp ∧ ∃ x, lp.Optimal x := by
  obtain ⟨l1, a1, b1, -⟩ := C28_pr_min (exSys_wf ℚ) exRF_rat ratR exInit exInit_not
  obtain ⟨l2, a2, b2, -⟩ := C29_pr_max (exSys_wf ℚ) exRF_rat ratR exInit exInit_not
  obtain ⟨l3, a3, b3, -⟩ := C30_max_y (exSys_wf ℚ) exRF_rat ratR exInit exInit_not
  exact ⟨⟨l1, a1, b1⟩, ⟨l2, a2, b2⟩, ⟨l3, a3, b3⟩⟩

end Verif.Props
