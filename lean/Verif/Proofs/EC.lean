import Verif.Proofs.RFSem
/-! # Proper end components of a reachability form are end components of its core -/
set_option linter.unusedSectionVars false

namespace Verif.Proofs.RFOK
open Verif.Model Verif.Spec Verif.Props Verif.Theory Finset Verif.Proofs

variable {K : Type} [Field K] [LinearOrder K] [IsStrictOrderedRing K]
variable {rf : RF K} (h : RFOK rf) (φ : K →+*o ℝ)
include h

theorem inEC_iff (s : Fin rf.N) : (core h φ).InEC s ↔ rf.inProperEC s.1 = true := by
  have hN := h.hN
  rw [h.ec _ (lt_N s.2)]
  constructor
  · rintro ⟨E, A, hE, hs⟩
    have hfull : ∀ u ∈ E, ∀ r ∈ A u, ∀ d, 0 < rf.sys.P.get r.1 d → ∃ v ∈ E, v.1 = d := by
      intro u hu r hr d hd
      have h1 := hE.full u hu r hr
      have h2 := row_sum h φ (lt_C r.2)
      have h3 : 0 ≤ φ (rf.b r.1) := (phi_nonneg φ).2 (b_nonneg h _)
      have h4 : 0 ≤ φ (rf.sys.P.get r.1 (rf.sys.N - 1)) := (phi_nonneg φ).2 (WF.get_nonneg h.wf _ _)
      have h1' : ∑ t : Fin rf.N, φ (rf.P r.1 t.1) = 1 := h1
      have hdN := (WF.get_range h.wf hd).2
      by_cases hdn : d < rf.N
      · exact ⟨⟨d, hdn⟩, hE.closed u hu r hr ⟨d, hdn⟩ ((phi_pos φ).2 hd), rfl⟩
      · exfalso
        have hd' := (phi_pos φ).2 hd
        unfold RF.N at hdn
        have : d = rf.sys.N - 2 ∨ d = rf.sys.N - 1 := by omega
        rcases this with rfl | rfl
        · have : 0 < φ (rf.b r.1) := hd'
          linarith
        · linarith
    have hav : ∀ u ∈ E, ∀ r ∈ A u, ∃ a, ((u.1, a), r.1) ∈ rf.sys.idx := fun u hu r hr =>
      (rowState_iff h r.2).1 ((mem_rows h φ).1 (hE.avail u hu r hr))
    refine ⟨{x | ∃ u ∈ E, u.1 = x}, fun x => {a | ∃ u ∈ E, u.1 = x ∧ ∃ r ∈ A u, ((u.1, a), r.1) ∈ rf.sys.idx},
      ⟨⟨_, s, hs, rfl⟩, ?_, ?_, ?_, ?_⟩, s, hs, rfl⟩
    · rintro _ ⟨u, hu, rfl⟩
      obtain ⟨r, hr⟩ := hE.act u hu
      obtain ⟨a, ha⟩ := hav u hu r hr
      exact ⟨a, u, hu, rfl, r, hr, ha⟩
    · rintro _ ⟨u, hu, rfl⟩ a ⟨u', hu', e, r, hr, ha⟩
      obtain ⟨j, _, hp⟩ := WF.exists_pos h.wf (lt_C r.2)
      exact ⟨j, (WF.matTr_iff h.wf).2 ⟨r.1, e ▸ ha, lt_C r.2, hp⟩⟩
    · rintro _ ⟨u, hu, rfl⟩ a ⟨u', hu', e, r, hr, ha⟩ d hd
      obtain ⟨i, e1, e2, e3⟩ := (WF.matTr_iff h.wf).1 hd
      rw [e] at ha
      obtain rfl := WF.idx_inj' h.wf e1 ha
      exact hfull u' hu' r hr d e3
    · rintro _ ⟨u, hu, rfl⟩ _ ⟨v, hv, rfl⟩
      refine Relation.ReflTransGen.lift (fun x : Fin rf.N => x.1) ?_ _ _ (hE.conn u hu v hv)
      rintro x y ⟨hx, r, hr, hq⟩
      obtain ⟨a, ha⟩ := hav x hx r hr
      exact ⟨⟨x, hx, rfl⟩, a, ⟨x, hx, rfl, r, hr, ha⟩,
        (WF.matTr_iff h.wf).2 ⟨r.1, ha, lt_C r.2, (phi_pos φ).1 hq⟩⟩
  · rintro ⟨E, act, hE, hs⟩
    have hmono : ∀ {u v}, u ∈ E → v ∈ E → Relation.ReflTransGen (Edge rf.sys) u v := by
      intro u v hu hv
      refine Relation.ReflTransGen.mono ?_ _ _ (hE.conn u hu v hv)
      rintro x y ⟨_, a, _, ht⟩
      obtain ⟨i, e1, e2, e3⟩ := (WF.matTr_iff h.wf).1 ht
      exact ⟨a, i, e1, e2, e3⟩
    have hsub : ∀ u ∈ E, u < rf.N := by
      intro u hu
      obtain ⟨a, ha⟩ := hE.act_nonempty u hu
      obtain ⟨d, hd⟩ := hE.avail u hu a ha
      obtain ⟨i, e1, e2, e3⟩ := (WF.matTr_iff h.wf).1 hd
      have hu1 := WF.state_lt h.wf e1 e2
      have hsl := s.2
      unfold RF.N at hsl ⊢
      have h1 : u ≠ rf.sys.N - 2 := by
        rintro rfl
        have := goal_stuck h (hmono hu hs)
        omega
      have h2 : u ≠ rf.sys.N - 1 := by
        rintro rfl
        have := fail_stuck h (hmono hu hs)
        omega
      omega
    refine ⟨{t | t.1 ∈ E}, fun t => {r | ∃ a ∈ act t.1, ((t.1, a), r.1) ∈ rf.sys.idx},
      ⟨⟨s, hs⟩, ?_, ?_, ?_, ?_, ?_⟩, hs⟩
    · intro t ht
      obtain ⟨a, ha⟩ := hE.act_nonempty t.1 ht
      obtain ⟨d, hd⟩ := hE.avail t.1 ht a ha
      obtain ⟨i, e1, e2, e3⟩ := (WF.matTr_iff h.wf).1 hd
      exact ⟨⟨i, row_lt h t.2 e2 e1⟩, a, ha, e1⟩
    · rintro t ht r ⟨a, ha, hm⟩
      rw [mem_rows, rowState_iff h r.2]
      exact ⟨a, hm⟩
    · rintro t ht r ⟨a, ha, hm⟩
      have hz : ∀ d, rf.N ≤ d → rf.sys.P.get r.1 d = 0 := by
        intro d hd
        by_contra hc
        have hp : 0 < rf.sys.P.get r.1 d := lt_of_le_of_ne (WF.get_nonneg h.wf _ _) (Ne.symm hc)
        have := hsub d (hE.closed t.1 ht a ha d ((WF.matTr_iff h.wf).2 ⟨r.1, hm, lt_C r.2, hp⟩))
        omega
      have h2 := row_sum h φ (lt_C r.2)
      have e1 : rf.b r.1 = 0 := hz _ (by unfold RF.N; omega)
      rw [e1, hz (rf.sys.N - 1) (by unfold RF.N; omega)] at h2
      rw [map_zero, add_zero, add_zero] at h2
      exact h2
    · rintro t ht r ⟨a, ha, hm⟩ d hd
      exact hE.closed t.1 ht a ha d.1 ((WF.matTr_iff h.wf).2 ⟨r.1, hm, lt_C r.2, (phi_pos φ).1 hd⟩)
    · intro u hu v hv
      have key : ∀ x y, Relation.ReflTransGen (fun u v => u ∈ E ∧ ∃ a ∈ act u, MatTr (invGet? rf.sys.idx) rf.sys.P.items u a v) x y →
          ∀ hx : x ∈ E, ∀ hy : y ∈ E, Relation.ReflTransGen (fun (u v : Fin rf.N) => u.1 ∈ E ∧
            ∃ r : Fin rf.C, (∃ a ∈ act u.1, ((u.1, a), r.1) ∈ rf.sys.idx) ∧ 0 < (core h φ).Q u r v)
            ⟨x, hsub x hx⟩ ⟨y, hsub y hy⟩ := by
        intro x y hxy
        induction hxy with
        | refl => intro hx hy; exact Relation.ReflTransGen.refl
        | tail _ he ih =>
          rename_i c d hc
          intro hx hy
          obtain ⟨hcE, a, ha, ht⟩ := he
          obtain ⟨i, e1, e2, e3⟩ := (WF.matTr_iff h.wf).1 ht
          exact (ih hx hcE).tail ⟨hcE, ⟨i, row_lt h (hsub c hcE) e2 e1⟩, ⟨a, ha, e1⟩, (phi_pos φ).2 e3⟩
      exact key u.1 v.1 (hE.conn u.1 hu v.1 hv) hu hv

end Verif.Proofs.RFOK
