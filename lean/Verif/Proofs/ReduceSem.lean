import Verif.Proofs.ReduceRF
import Verif.Proofs.RFSem
import Verif.Theory.Embed
/-! # `reduce` preserves reachability probabilities -/
set_option linter.unusedSectionVars false

namespace Verif.Proofs
open Verif.Model Verif.Spec Verif.Props Verif.Theory Reduce Finset Verif.Proofs.IDict

variable {K : Type} [Field K] [LinearOrder K] [IsStrictOrderedRing K]

open Classical in
/-- a state that cannot reach the targets has value 0 -/
theorem Vmax_zero {M : Sys K} (hM : M.WF) (φ : K →+*o ℝ) (hv : (M.toMDP φ).Valid) {F : Finset (Fin M.N)} {s : Fin M.N}
    (hs : ∀ t : Fin M.N, t ∈ F → ¬ Relation.ReflTransGen (Edge M) s.1 t.1) :
    (Core.ofMDP (M.toMDP φ) hv F).Vmax s = 0 := by
  have hsub := Bridge.sub hv F
  refine le_antisymm ?_ (Core.Vmax_nonneg hsub.toOK hsub.bound s)
  have := Core.Vmax_le_pre hsub.toOK
    (x := fun u => if ∃ t : Fin M.N, t ∈ F ∧ Relation.ReflTransGen (Edge M) u.1 t.1 then 1 else 0)
    (fun u => by split <;> norm_num) (fun u r hr => ?_) s
  · rw [if_neg] at this
    · exact this
    · rintro ⟨t, h1, h2⟩; exact hs t h1 h2
  · by_cases hu : ∃ t : Fin M.N, t ∈ F ∧ Relation.ReflTransGen (Edge M) u.1 t.1
    · rw [if_pos hu]
      refine le_trans (Core.step_mono hsub.toOK (y := fun _ => 1) (fun v => ?_) hr) (hsub.bound.pre u r hr)
      split <;> norm_num
    · rw [if_neg hu]
      have huF : u ∉ F := fun h => hu ⟨u, h, Relation.ReflTransGen.refl⟩
      simp only [Core.step, Core.ofMDP, if_neg huF, zero_add]
      refine (Finset.sum_eq_zero fun v _ => ?_).le
      by_cases hp : 0 < M.P.get r.1 v.1
      · rw [if_neg, mul_zero]
        rintro ⟨t, h1, h2⟩
        obtain ⟨a, ha⟩ := (WF.mem_rows (φ := φ) hM).1 hr
        exact hu ⟨t, h1, Relation.ReflTransGen.head ⟨a, r.1, ha, r.2, hp⟩ h2⟩
      · have : M.P.get r.1 v.1 = 0 := le_antisymm (not_lt.1 hp) (WF.get_nonneg hM _ _)
        simp [Sys.toMDP, this]

namespace Reduced
variable {M M' : Sys K} {il tl ntl nfl : String} {cols : Dict Nat Nat} {rows : Dict (Nat × Nat) (Nat × Nat)}
  {T : List Nat} {i : Nat} {mask : List Bool} {rf : RF K}

open Classical in
theorem embeds (h : Reduced M il tl ntl nfl rf.sys cols rows T i mask) (hM : M.WF) (ht : M.Total) (ho : RFOK rf)
    (φ : K →+*o ℝ) : ∃ e : Fin rf.N → Fin M.N, (∀ s', ((e s').1, s'.1) ∈ cols) ∧
      Core.Embeds (Core.ofMDP (M.toMDP φ) (WF.valid hM φ ht) (univ.filter fun t => t.1 ∈ T)) (RFOK.core ho φ) e := by
  have hN := h.red.hN
  have hC := h.red.hC
  have eN : rf.N = cols.length := by unfold RF.N; omega
  have eC : rf.C = rows.length := by unfold RF.C; omega
  have hst : ∀ s' : Fin rf.N, ∃ s : Fin M.N, (s.1, s'.1) ∈ cols := by
    intro s'
    obtain ⟨s, hs⟩ := h.red.maps.col_of_lt (nd := s'.1) (by have := s'.2; omega)
    exact ⟨⟨s, h.red.maps.col_state_lt hM hs⟩, hs⟩
  choose e he using hst
  refine ⟨e, he, ?_⟩
  have key : ∀ (s' : Fin rf.N) (r' : Fin rf.C) (r : Fin M.C) (a n : Nat),
      rows[r'.1]? = some (((e s').1, a), (n, a)) → (((e s').1, a), r.1) ∈ M.idx →
      Core.SameRow (Core.ofMDP (M.toMDP φ) (WF.valid hM φ ht) (univ.filter fun t => t.1 ∈ T)) (RFOK.core ho φ) e s' r' r := by
    intro s' r' r a n hk hr
    refine ⟨?_, ?_, ?_⟩
    · simp only [RFOK.core, Core.ofMDP, RF.b, Finset.mem_filter, Finset.mem_univ, true_and]
      rw [show rf.sys.N - 2 = cols.length by omega, h.red.goal _ _ _ _ hk]
      split <;> simp
    · intro t'
      simp only [RFOK.core, Core.ofMDP, RF.P, Finset.mem_filter, Finset.mem_univ, true_and, Sys.toMDP]
      split
      · rename_i hs
        rw [h.red.keptT _ _ _ _ _ hk hs (by have := t'.2; omega), map_zero]
      · rename_i hs
        rw [h.red.kept _ _ _ _ _ _ _ hk hs hr (he t')]
    · intro t htr hq
      simp only [Core.ofMDP, Finset.mem_filter, Finset.mem_univ, true_and, Sys.toMDP] at hq
      split at hq
      · exact absurd rfl hq
      rename_i hs
      have hpos : 0 < M.P.get r.1 t.1 := by
        refine lt_of_le_of_ne (WF.get_nonneg hM _ _) fun h0 => hq ?_
        rw [← h0, map_zero]
      have hedge : Edge M (e s').1 t.1 := ⟨a, r.1, hr, r.2, hpos⟩
      obtain ⟨-, hra⟩ := (h.kept_iff hM ht _).1 ⟨_, he s'⟩
      refine Vmax_zero hM φ _ ?_
      intro u hu hrt
      simp only [Finset.mem_filter, Finset.mem_univ, true_and] at hu
      obtain ⟨t', ht'⟩ := (h.kept_iff hM ht t.1).2 ⟨⟨u.1, hu, hrt⟩, reachAvoid_step hra hs hedge⟩
      have hlt := h.red.maps.col_lt ht'
      exact htr ⟨⟨t', by omega⟩, Fin.ext (h.red.maps.col_inj (he ⟨t', by omega⟩) ht')⟩
  refine ⟨?_, ?_, ?_⟩
  · intro s1 s2 hs
    have h1 := he s1
    rw [hs] at h1
    exact Fin.ext (h.red.maps.col_fun h1 (he s2))
  · intro s' r' hr'
    rw [RFOK.mem_rows, RFOK.rowState_iff ho r'.2] at hr'
    obtain ⟨a, ha⟩ := hr'
    have hlt := r'.2
    have hlt' := s'.2
    rcases (h.red.idx _ _ _).1 ha with ⟨⟨s, b⟩, hk⟩ | h1 | h1
    · obtain ⟨rfl, h1, -, ⟨j, hj, hjC⟩, -⟩ := h.red.maps.row_spec hk
      have hse : s = (e s').1 := h.red.maps.col_inj h1 (he s')
      subst hse
      exact ⟨⟨j, hjC⟩, (WF.mem_rows (φ := φ) hM).2 ⟨_, hj⟩, key s' r' ⟨j, hjC⟩ _ _ hk hj⟩
    · omega
    · omega
  · intro s' r hr
    obtain ⟨a, ha⟩ := (WF.mem_rows (φ := φ) hM).1 hr
    obtain ⟨hm, -⟩ := (h.red.maps.memS _).1 (List.mem_map_of_mem (f := Prod.fst) (he s'))
    obtain ⟨k, n, hk⟩ := h.red.maps.row_exists hm ha r.2
    obtain ⟨-, h1, -, -, hkl⟩ := h.red.maps.row_spec hk
    have hn : n = s'.1 := h.red.maps.col_fun h1 (he s')
    have hkC : k < rf.C := by omega
    refine ⟨⟨k, hkC⟩, ?_, key s' ⟨k, hkC⟩ r a n hk ha⟩
    rw [RFOK.mem_rows, RFOK.rowState_iff ho hkC]
    exact ⟨a, (h.red.idx _ _ _).2 (Or.inl ⟨_, by rw [hn] at hk; exact hk⟩)⟩

theorem prMax_eq (h : Reduced M il tl ntl nfl rf.sys cols rows T i mask) (hM : M.WF) (ht : M.Total) (ho : RFOK rf)
    (φ : K →+*o ℝ) {s s' : Nat} (hs : (s, s') ∈ cols) : rf.prMax φ s' = M.prMax φ (M.labelled tl) s := by
  obtain ⟨e, he, hE⟩ := h.embeds hM ht ho φ
  have hN := h.red.hN
  have hlt := h.red.maps.col_lt hs
  have h' : s' < rf.N := by unfold RF.N; omega
  have hes := h.red.maps.col_inj (he ⟨s', h'⟩) hs
  have h1 := RFOK.prMax_eq ho φ ⟨s', h'⟩
  simp only at h1
  rw [h1, hE.Vmax_eq (Bridge.sub _ _) (RFOK.sub ho φ), ← hes]
  refine (sys_prMax_eq φ (WF.valid hM φ ht) ?_ (e ⟨s', h'⟩)).symm
  intro t
  rw [labelled_iff, ← has_of_statesByLabel h.hT]
  simp

theorem prMin_eq (h : Reduced M il tl ntl nfl rf.sys cols rows T i mask) (hM : M.WF) (ht : M.Total) (ho : RFOK rf)
    (φ : K →+*o ℝ) {s s' : Nat} (hs : (s, s') ∈ cols) : rf.prMin φ s' = M.prMin φ (M.labelled tl) s := by
  obtain ⟨e, he, hE⟩ := h.embeds hM ht ho φ
  have hN := h.red.hN
  have hlt := h.red.maps.col_lt hs
  have h' : s' < rf.N := by unfold RF.N; omega
  have hes := h.red.maps.col_inj (he ⟨s', h'⟩) hs
  have h1 := RFOK.prMin_eq ho φ ⟨s', h'⟩
  simp only at h1
  rw [h1, hE.Vmin_eq (Bridge.sub _ _) (RFOK.sub ho φ), ← hes]
  refine (sys_prMin_eq φ (WF.valid hM φ ht) ?_ (e ⟨s', h'⟩)).symm
  intro t
  rw [labelled_iff, ← has_of_statesByLabel h.hT]
  simp

end Reduced
end Verif.Proofs
