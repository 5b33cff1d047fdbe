import Verif.Proofs.RFOK
import Verif.Theory.Bridge
import Verif.Theory.Transient
import Mathlib.Algebra.BigOperators.Fin
/-! # Reachability forms: probabilities are values of the core given by `A`, `to_target` -/
set_option linter.unusedSectionVars false

namespace Verif.Proofs
open Verif.Model Verif.Spec Verif.Props Verif.Theory Finset

variable {K : Type} [Field K] [LinearOrder K] [IsStrictOrderedRing K]

theorem sum_split {N : Nat} (hN : 2 ≤ N) (f : Fin N → ℝ) :
    ∑ t, f t = ∑ t : Fin (N - 2), f ⟨t.1, by omega⟩ + f ⟨N - 2, by omega⟩ + f ⟨N - 1, by omega⟩ := by
  obtain ⟨n, rfl⟩ : ∃ n, N = n + 2 := ⟨N - 2, by omega⟩
  rw [Fin.sum_univ_castSucc, Fin.sum_univ_castSucc]
  rfl

open Classical in
theorem sys_prMax_eq {M : Sys K} (φ : K →+*o ℝ) (hv : (M.toMDP φ).Valid) {T : Set Nat} {F : Finset (Fin M.N)}
    (hF : ∀ t, t ∈ F ↔ t.1 ∈ T) (s : Fin M.N) : M.prMax φ T s.1 = (Core.ofMDP (M.toMDP φ) hv F).Vmax s := by
  have e : F = univ.filter fun t : Fin M.N => t.1 ∈ T := by ext t; simp [hF]
  unfold Sys.prMax
  rw [dif_pos s.2, Bridge.PrMax_eq hv, e]

open Classical in
theorem sys_prMin_eq {M : Sys K} (φ : K →+*o ℝ) (hv : (M.toMDP φ).Valid) {T : Set Nat} {F : Finset (Fin M.N)}
    (hF : ∀ t, t ∈ F ↔ t.1 ∈ T) (s : Fin M.N) : M.prMin φ T s.1 = (Core.ofMDP (M.toMDP φ) hv F).Vmin s := by
  have e : F = univ.filter fun t : Fin M.N => t.1 ∈ T := by ext t; simp [hF]
  unfold Sys.prMin
  rw [dif_pos s.2, Bridge.PrMin_eq hv, e]

theorem WF.other_zero {M : Sys K} (h : M.WF) {r s t : Nat} (hr : r < M.C) (hs : s < M.N)
    (h1 : M.P.get r s = 1) (hne : t ≠ s) : M.P.get r t = 0 := by
  by_contra hc
  have hpos : 0 < M.P.get r t := lt_of_le_of_ne (WF.get_nonneg h r t) (Ne.symm hc)
  have hlt := (WF.get_range h hpos).2
  have := Finset.sum_le_sum_of_subset_of_nonneg (f := fun j => M.P.get r j)
    (Finset.insert_subset (Finset.mem_range.2 hs) (Finset.singleton_subset_iff.2 (Finset.mem_range.2 hlt)))
    (fun j _ _ => WF.get_nonneg h _ j)
  rw [h.sum r hr, Finset.sum_pair (Ne.symm hne), h1] at this
  linarith

namespace RFOK
variable {rf : RF K} (h : RFOK rf) (φ : K →+*o ℝ)

theorem lt_N {s : Nat} (hs : s < rf.N) : s < rf.sys.N := by unfold RF.N at hs; omega
theorem lt_C {i : Nat} (hi : i < rf.C) : i < rf.sys.C := by unfold RF.C at hi; omega

def emb (s : Fin rf.N) : Fin rf.sys.N := ⟨s.1, lt_N s.2⟩
def rowEmb (i : Fin rf.C) : Fin rf.sys.C := ⟨i.1, lt_C i.2⟩

include h

theorem rowState_iff {i s : Nat} (hi : i < rf.C) :
    rf.rowState i = some s ↔ ∃ a, ((s, a), i) ∈ rf.sys.idx := by
  unfold RF.rowState
  rw [h.inv i hi]
  simp only [Option.map_eq_some_iff, invGet?_iff h.wf.vals]
  constructor
  · rintro ⟨⟨s', a⟩, h1, rfl⟩; exact ⟨a, h1⟩
  · rintro ⟨a, h1⟩; exact ⟨(s, a), h1, rfl⟩

theorem state_lt {i s a : Nat} (hi : i < rf.C) (hm : ((s, a), i) ∈ rf.sys.idx) : s < rf.N := by
  have h1 := WF.state_lt h.wf hm (lt_C hi)
  have h2 : s ≠ rf.sys.N - 2 := by
    rintro rfl
    have := h.goalOnly _ _ hm (lt_C hi)
    unfold RF.C at hi; omega
  have h3 : s ≠ rf.sys.N - 1 := by
    rintro rfl
    have := h.failOnly _ _ hm (lt_C hi)
    unfold RF.C at hi; omega
  unfold RF.N; omega

theorem row_lt {i s a : Nat} (hs : s < rf.N) (hi : i < rf.sys.C) (hm : ((s, a), i) ∈ rf.sys.idx) : i < rf.C := by
  have hN := h.hN
  have hC := h.hC
  have h2 : i ≠ rf.sys.C - 2 := by
    rintro rfl
    obtain ⟨a', ha⟩ := h.goalRow
    have := WF.idx_inj h.wf hm ha
    simp only [Prod.mk.injEq] at this
    unfold RF.N at hs; omega
  have h3 : i ≠ rf.sys.C - 1 := by
    rintro rfl
    obtain ⟨a', ha⟩ := h.failRow
    have := WF.idx_inj h.wf hm ha
    simp only [Prod.mk.injEq] at this
    unfold RF.N at hs; omega
  unfold RF.C; omega

theorem exists_state {i : Nat} (hi : i < rf.C) : ∃ s a, ((s, a), i) ∈ rf.sys.idx ∧ s < rf.N := by
  obtain ⟨s, a, h1, _⟩ := WF.cover h.wf (lt_C hi)
  exact ⟨s, a, h1, state_lt h hi h1⟩

theorem exists_row {s : Nat} (hs : s < rf.N) : ∃ a i, ((s, a), i) ∈ rf.sys.idx ∧ i < rf.C := by
  obtain ⟨a, i, h1, h2⟩ := h.total s (lt_N hs)
  exact ⟨a, i, h1, row_lt h hs h2 h1⟩

theorem exists_rowState {i : Nat} (hi : i < rf.C) : ∃ s < rf.N, rf.rowState i = some s := by
  obtain ⟨s, a, h1, h2⟩ := exists_state h hi
  exact ⟨s, h2, (rowState_iff h hi).2 ⟨a, h1⟩⟩

theorem b_nonneg (i : Nat) : 0 ≤ rf.b i := WF.get_nonneg h.wf _ _
theorem P_nonneg (i j : Nat) : 0 ≤ rf.P i j := WF.get_nonneg h.wf _ _

omit h in
/-- the core of a reachability form -/
noncomputable def core (h : RFOK rf) (φ : K →+*o ℝ) : Core (Fin rf.N) (Fin rf.C) where
  rows s := univ.filter fun i => rf.rowState i.1 = some s.1
  ne s := by
    obtain ⟨a, i, h1, h2⟩ := exists_row h s.2
    exact ⟨⟨i, h2⟩, by simpa using (rowState_iff h h2).2 ⟨a, h1⟩⟩
  g _ i := φ (rf.b i.1)
  Q _ i t := φ (rf.P i.1 t.1)

theorem mem_rows {s : Fin rf.N} {i : Fin rf.C} : i ∈ (core h φ).rows s ↔ rf.rowState i.1 = some s.1 := by
  simp [core]

def goal : Fin rf.sys.N := ⟨rf.sys.N - 2, by have := h.hN; omega⟩
def fail' : Fin rf.sys.N := ⟨rf.sys.N - 1, by have := h.hN; omega⟩

theorem row_sum {i : Nat} (hi : i < rf.sys.C) :
    ∑ t : Fin rf.N, φ (rf.P i t.1) + φ (rf.b i) + φ (rf.sys.P.get i (rf.sys.N - 1)) = 1 := by
  have h1 := h.wf.sum i hi
  have h2 := sum_split h.hN (fun t => φ (rf.sys.P.get i t.1))
  rw [Fin.sum_univ_eq_sum_range (fun t => φ (rf.sys.P.get i t)), ← map_sum, h1, map_one] at h2
  exact h2.symm

theorem sub : (core h φ).Sub where
  g0 s r _ := (phi_nonneg φ).2 (b_nonneg h _)
  Q0 s r _ t := (phi_nonneg φ).2 (P_nonneg h _ _)
  sub s r _ := by
    have h1 := row_sum h φ (lt_C r.2)
    have h2 : 0 ≤ φ (rf.sys.P.get r.1 (rf.sys.N - 1)) := (phi_nonneg φ).2 (WF.get_nonneg h.wf _ _)
    simp only [core]
    linarith

theorem fail_stuck {x : Nat} (hx : Relation.ReflTransGen (Edge rf.sys) (rf.sys.N - 1) x) :
    x = rf.sys.N - 1 := by
  have hN := h.hN
  induction hx with
  | refl => rfl
  | tail _ he ih =>
    subst ih
    obtain ⟨a, i, e1, e2, e3⟩ := he
    obtain rfl := h.failOnly _ _ e1 e2
    by_contra hne
    rw [WF.other_zero h.wf e2 (by omega) h.failP hne] at e3
    exact lt_irrefl _ e3

theorem goal_stuck {x : Nat} (hx : Relation.ReflTransGen (Edge rf.sys) (rf.sys.N - 2) x) :
    x = rf.sys.N - 2 := by
  have hN := h.hN
  induction hx with
  | refl => rfl
  | tail _ he ih =>
    subst ih
    obtain ⟨a, i, e1, e2, e3⟩ := he
    obtain rfl := h.goalOnly _ _ e1 e2
    by_contra hne
    rw [WF.other_zero h.wf e2 (by omega) h.goalP hne] at e3
    exact lt_irrefl _ e3

omit h in
theorem live' (hl : RFLive rf) : (core hl.toRFOK φ).Live := by
  have h := hl.toRFOK
  intro B hB hcl
  obtain ⟨s, hs⟩ := hB
  have hN := h.hN
  have key : ∀ x, Relation.ReflTransGen (Edge rf.sys) x (rf.sys.N - 2) → ∀ hx : x < rf.N, (⟨x, hx⟩ : Fin rf.N) ∈ B →
      ∃ s ∈ B, ∃ r ∈ (core h φ).rows s, 0 < (core h φ).g s r := by
    intro x hr
    induction hr using Relation.ReflTransGen.head_induction_on with
    | refl => intro hx _; unfold RF.N at hx; omega
    | head he ht ih =>
      rename_i x c
      intro hx hmem
      obtain ⟨a, i, e1, e2, e3⟩ := he
      have hi : i < rf.C := row_lt h hx e2 e1
      have hrow : (⟨i, hi⟩ : Fin rf.C) ∈ (core h φ).rows ⟨x, hx⟩ := by
        rw [mem_rows]; exact (rowState_iff h hi).2 ⟨a, e1⟩
      have hc := (WF.get_range h.wf e3).2
      by_cases hcg : c = rf.sys.N - 2
      · subst hcg
        exact ⟨_, hmem, _, hrow, (phi_pos φ).2 e3⟩
      · by_cases hcf : c = rf.sys.N - 1
        · subst hcf
          have := fail_stuck h ht
          omega
        · have hcn : c < rf.N := by unfold RF.N; omega
          exact ih hcn (hcl _ hmem _ hrow ⟨c, hcn⟩ ((phi_pos φ).2 e3))
  exact key s.1 (hl.live _ (lt_N s.2) (by have := s.2; unfold RF.N at this; omega)) s.2 hs

omit h in
/-- the core of the whole system with the target state -/
noncomputable def full (h : RFOK rf) (φ : K →+*o ℝ) : Core (Fin rf.sys.N) (Fin rf.sys.C) :=
  Core.ofMDP (rf.sys.toMDP φ) (WF.valid h.wf φ h.total) {goal h}

theorem emb_ne_goal (s : Fin rf.N) : emb s ≠ goal h := by
  have := s.2
  have := h.hN
  simp only [emb, goal, ne_eq, Fin.mk.injEq]
  unfold RF.N at *
  omega

theorem emb_ne_fail (s : Fin rf.N) : emb s ≠ fail' h := by
  have := s.2
  have := h.hN
  simp only [emb, fail', ne_eq, Fin.mk.injEq]
  unfold RF.N at *
  omega

theorem fail_ne_goal : fail' h ≠ goal h := by
  have := h.hN
  simp only [fail', goal, ne_eq, Fin.mk.injEq]
  omega

theorem cases_state (t : Fin rf.sys.N) : (∃ s, t = emb s) ∨ t = goal h ∨ t = fail' h := by
  have := t.2
  have hN := h.hN
  by_cases h1 : t.1 < rf.N
  · exact Or.inl ⟨⟨t.1, h1⟩, rfl⟩
  · right
    unfold RF.N at h1
    by_cases h2 : t.1 = rf.sys.N - 2
    · exact Or.inl (Fin.ext h2)
    · exact Or.inr (Fin.ext (by simp only [fail']; omega))

theorem step_emb {x : Fin rf.sys.N → ℝ} (h1 : x (goal h) = 1) (h0 : x (fail' h) = 0) (s : Fin rf.N) (r : Fin rf.C) :
    (full h φ).step x (emb s) (rowEmb r) = (core h φ).step (fun t => x (emb t)) s r := by
  have hne := emb_ne_goal h s
  simp only [Core.step, full, Core.ofMDP, Finset.mem_singleton, hne, if_false, Sys.toMDP, zero_add]
  rw [sum_split h.hN]
  have e1 : x ⟨rf.sys.N - 2, by have := h.hN; omega⟩ = 1 := h1
  have e2 : x ⟨rf.sys.N - 1, by have := h.hN; omega⟩ = 0 := h0
  rw [e1, e2, mul_one, mul_zero, add_zero, add_comm]
  rfl

theorem mem_full_rows {s : Fin rf.sys.N} {i : Fin rf.sys.C} :
    i ∈ (full h φ).rows s ↔ ∃ a, ((s.1, a), i.1) ∈ rf.sys.idx := WF.mem_rows (φ := φ) h.wf

theorem rows_emb {s : Fin rf.N} {i : Fin rf.sys.C} :
    i ∈ (full h φ).rows (emb s) ↔ ∃ r ∈ (core h φ).rows s, i = rowEmb r := by
  rw [mem_full_rows]
  constructor
  · rintro ⟨a, ha⟩
    have hi := row_lt h s.2 i.2 ha
    exact ⟨⟨i.1, hi⟩, (mem_rows h φ).2 ((rowState_iff h hi).2 ⟨a, ha⟩), rfl⟩
  · rintro ⟨r, hr, rfl⟩
    rw [mem_rows] at hr
    exact (rowState_iff h r.2).1 hr

theorem full_sub : (full h φ).Sub := Bridge.sub _ _

theorem step_goal (x : Fin rf.sys.N → ℝ) (r) : (full h φ).step x (goal h) r = 1 := by
  simp [Core.step, full, Core.ofMDP]

theorem step_fail (x : Fin rf.sys.N → ℝ) {r} (hr : r ∈ (full h φ).rows (fail' h)) :
    (full h φ).step x (fail' h) r = x (fail' h) := by
  obtain ⟨a, ha⟩ := (mem_full_rows h φ).1 hr
  have e := h.failOnly _ _ ha r.2
  have hne := fail_ne_goal h
  simp only [Core.step, full, Core.ofMDP, Finset.mem_singleton, hne, if_false, Sys.toMDP, zero_add]
  rw [Finset.sum_eq_single (fail' h)]
  · rw [e]
    have : rf.sys.P.get (rf.sys.C - 1) (fail' h).1 = 1 := h.failP
    rw [this, map_one, one_mul]
  · intro t _ hne
    have : rf.sys.P.get r.1 t.1 = 0 := by
      rw [e]
      refine WF.other_zero h.wf (by have := h.hC; omega) (by have := h.hN; omega) h.failP ?_
      intro hh; exact hne (Fin.ext hh)
    rw [this, map_zero, zero_mul]
  · simp

theorem Vmax_goal : (full h φ).Vmax (goal h) = 1 := by
  obtain ⟨r, _, hr⟩ := Core.exists_step_Vmax (full_sub h φ).toOK (full_sub h φ).bound (goal h)
  rw [← hr, step_goal]

theorem Vmin_goal : (full h φ).Vmin (goal h) = 1 := by
  obtain ⟨r, _, hr⟩ := Core.exists_step_Vmin (full_sub h φ).toOK (full_sub h φ).bound (goal h)
  rw [← hr, step_goal]

theorem Vmax_fail : (full h φ).Vmax (fail' h) = 0 := by
  refine le_antisymm ?_ (Core.Vmax_nonneg (full_sub h φ).toOK (full_sub h φ).bound _)
  have := Core.Vmax_le_pre (full_sub h φ).toOK (x := fun t => if t = fail' h then 0 else 1)
    (fun s => by split <;> norm_num) (fun s r hr => by
      by_cases hs : s = fail' h
      · subst hs
        rw [step_fail h φ _ hr]
      · simp only [hs, if_false]
        refine le_trans (Core.step_mono (full_sub h φ).toOK (y := fun _ => 1) (fun u => ?_) hr)
          ((full_sub h φ).bound.pre s r hr)
        split <;> norm_num) (fail' h)
  simpa using this

theorem Vmin_fail : (full h φ).Vmin (fail' h) = 0 :=
  le_antisymm (le_trans (Core.Vmin_le_Vmax (full_sub h φ).toOK (full_sub h φ).bound _) (Vmax_fail h φ).le)
    (Core.Vmin_nonneg (full_sub h φ).toOK (full_sub h φ).bound _)

omit h in
open Classical in
/-- extend a vector to the whole system: 1 at the goal, 0 at fail -/
noncomputable def ext (h : RFOK rf) (y : Fin rf.N → ℝ) (t : Fin rf.sys.N) : ℝ :=
  if ht : t.1 < rf.N then y ⟨t.1, ht⟩ else if t = goal h then 1 else 0

theorem ext_emb (y : Fin rf.N → ℝ) (s : Fin rf.N) : ext h y (emb s) = y s := by
  simp [ext, emb]

theorem ext_goal (y : Fin rf.N → ℝ) : ext h y (goal h) = 1 := by
  have : ¬ (goal h).1 < rf.N := by simp [goal, RF.N]
  simp [ext, this]

theorem ext_fail (y : Fin rf.N → ℝ) : ext h y (fail' h) = 0 := by
  have : ¬ (fail' h).1 < rf.N := by simp [fail', RF.N]; omega
  simp [ext, this, fail_ne_goal h]

theorem ext_nonneg {y : Fin rf.N → ℝ} (hy : ∀ s, 0 ≤ y s) (t : Fin rf.sys.N) : 0 ≤ ext h y t := by
  unfold ext
  split
  · exact hy _
  · split <;> norm_num

/-- maximal probabilities of the whole system are values of the core -/
theorem Vmax_emb (s : Fin rf.N) : (full h φ).Vmax (emb s) = (core h φ).Vmax s := by
  have okF := (full_sub h φ).toOK
  have bF := (full_sub h φ).bound
  have okC := (sub h φ).toOK
  have bC := (sub h φ).bound
  apply le_antisymm
  · have := Core.Vmax_le_pre okF (x := ext h (core h φ).Vmax) (ext_nonneg h (Core.Vmax_nonneg okC bC)) (by
      intro t r hr
      rcases cases_state h t with ⟨s, rfl⟩ | rfl | rfl
      · obtain ⟨r, hr', rfl⟩ := (rows_emb h φ).1 hr
        rw [step_emb h φ (ext_goal h _) (ext_fail h _)]
        simp only [ext_emb]
        exact Core.step_Vmax_le okC bC hr'
      · rw [step_goal, ext_goal]
      · rw [step_fail h φ _ hr]) (emb s)
    rwa [ext_emb] at this
  · refine Core.Vmax_le_pre okC (x := fun s => (full h φ).Vmax (emb s)) (fun s => Core.Vmax_nonneg okF bF _) ?_ s
    intro s r hr
    rw [← step_emb h φ (Vmax_goal h φ) (Vmax_fail h φ)]
    exact Core.step_Vmax_le okF bF ((rows_emb h φ).2 ⟨r, hr, rfl⟩)

theorem Vmin_emb (s : Fin rf.N) : (full h φ).Vmin (emb s) = (core h φ).Vmin s := by
  have okF := (full_sub h φ).toOK
  have bF := (full_sub h φ).bound
  have okC := (sub h φ).toOK
  have bC := (sub h φ).bound
  apply le_antisymm
  · have := Core.Vmin_le_pre okF (x := ext h (core h φ).Vmin) (ext_nonneg h (Core.Vmin_nonneg okC bC)) (by
      intro t
      rcases cases_state h t with ⟨s, rfl⟩ | rfl | rfl
      · obtain ⟨r, hr, he⟩ := Core.exists_step_Vmin okC bC s
        refine ⟨rowEmb r, (rows_emb h φ).2 ⟨r, hr, rfl⟩, ?_⟩
        rw [step_emb h φ (ext_goal h _) (ext_fail h _)]
        simp only [ext_emb]
        exact he.le
      · obtain ⟨r, hr⟩ := (full h φ).ne (goal h)
        exact ⟨r, hr, by rw [step_goal, ext_goal]⟩
      · obtain ⟨r, hr⟩ := (full h φ).ne (fail' h)
        exact ⟨r, hr, by rw [step_fail h φ _ hr]⟩) (emb s)
    rwa [ext_emb] at this
  · refine Core.Vmin_le_pre okC (x := fun s => (full h φ).Vmin (emb s)) (fun s => Core.Vmin_nonneg okF bF _) ?_ s
    intro s
    obtain ⟨r', hr', he⟩ := Core.exists_step_Vmin okF bF (emb s)
    obtain ⟨r, hr, rfl⟩ := (rows_emb h φ).1 hr'
    refine ⟨r, hr, ?_⟩
    rw [← step_emb h φ (Vmin_goal h φ) (Vmin_fail h φ)]
    exact he.le

theorem mem_target (t : Fin rf.sys.N) : t ∈ ({goal h} : Finset _) ↔ t.1 ∈ rf.sys.labelled rf.targetL := by
  simp only [h.target, Set.mem_singleton_iff, Finset.mem_singleton, goal, Fin.ext_iff]

theorem prMax_eq (s : Fin rf.N) : rf.prMax φ s.1 = (core h φ).Vmax s := by
  rw [← Vmax_emb]
  exact sys_prMax_eq φ (WF.valid h.wf φ h.total) (mem_target h) (emb s)

theorem prMin_eq (s : Fin rf.N) : rf.prMin φ s.1 = (core h φ).Vmin s := by
  rw [← Vmin_emb]
  exact sys_prMin_eq φ (WF.valid h.wf φ h.total) (mem_target h) (emb s)

end RFOK
end Verif.Proofs
