import Verif.Proofs.ReduceSem
import Verif.Theory.Within
/-! # Restrictions of a reduced system stand for restrictions of the original one -/
set_option linter.unusedSectionVars false

namespace Verif.Proofs
open Verif.Model Verif.Spec Verif.Theory Reduce Finset Verif.Proofs.IDict

variable {K : Type} [Field K] [LinearOrder K] [IsStrictOrderedRing K]

open Classical in
theorem sys_prWithin_eq {M : Sys K} (φ : K →+*o ℝ) (hv : (M.toMDP φ).Valid) {A T : Set Nat} {F : Finset (Fin M.N)}
    (hF : ∀ t, t ∈ F ↔ t.1 ∈ T) (s : Fin M.N) :
    M.prWithin φ .min A T s.1 = ((Core.ofMDP (M.toMDP φ) hv F).cut {t | t.1 ∈ A}).Vmin s ∧
    M.prWithin φ .max A T s.1 = ((Core.ofMDP (M.toMDP φ) hv F).cut {t | t.1 ∈ A}).Vmax s := by
  have e : F = univ.filter fun t : Fin M.N => t.1 ∈ T := by ext t; simp [hF]
  have e' : ((univ.filter fun t : Fin M.N => t.1 ∈ A : Finset (Fin M.N)) : Set (Fin M.N)) = {t | t.1 ∈ A} := by
    ext t; simp
  unfold Sys.prWithin
  rw [dif_pos s.2, dif_pos s.2]
  simp only
  rw [Within.min_eq hv, Within.max_eq hv, e, e']
  exact ⟨rfl, rfl⟩

namespace Reduced
variable {M M' : Sys K} {il tl ntl nfl : String} {cols : Dict Nat Nat} {rows : Dict (Nat × Nat) (Nat × Nat)}
  {T : List Nat} {i : Nat} {mask : List Bool} {rf : RF K}

/-- the value of the restriction to `U` of the reduced system is the probability of reaching the targets of the
original system within `A`, if `U` consists of the images of the states of `A` -/
theorem prWithin_eq (h : Reduced M il tl ntl nfl rf.sys cols rows T i mask) (hM : M.WF) (ht : M.Total) (ho : RFOK rf)
    (φ : K →+*o ℝ) {s s' : Nat} (hs : (s, s') ∈ cols) (h' : s' < rf.N) {A : Set Nat} {U : Nat → Prop}
    (hU : ∀ d d', (d, d') ∈ cols → (U d' ↔ d ∈ A)) :
    ((ho.core φ).cut {t | U t.1}).Vmin ⟨s', h'⟩ = M.prWithin φ .min A (M.labelled tl) s ∧
    ((ho.core φ).cut {t | U t.1}).Vmax ⟨s', h'⟩ = M.prWithin φ .max A (M.labelled tl) s := by
  classical
  obtain ⟨e, he, hE⟩ := h.embeds hM ht ho φ
  have hes := h.red.maps.col_inj (he ⟨s', h'⟩) hs
  have hsub := Bridge.sub (WF.valid hM φ ht) (univ.filter fun t => t.1 ∈ T)
  have hc := hE.cut hsub {t | t.1 ∈ A}
  have eU : {t : Fin rf.N | U t.1} = {t | e t ∈ {t : Fin M.N | t.1 ∈ A}} := by
    ext t
    exact hU _ _ (he t)
  have hT : ∀ t, t ∈ (univ.filter fun t : Fin M.N => t.1 ∈ T) ↔ t.1 ∈ M.labelled tl := by
    intro t
    rw [labelled_iff, ← has_of_statesByLabel h.hT]
    simp
  obtain ⟨p1, p2⟩ := sys_prWithin_eq (A := A) φ (WF.valid hM φ ht) hT (e ⟨s', h'⟩)
  rw [hes] at p1 p2
  rw [p1, p2, eU, hc.Vmin_eq (Core.cut_sub hsub) (Core.cut_sub (ho.sub φ)), hc.Vmax_eq (Core.cut_sub hsub) (Core.cut_sub (ho.sub φ))]
  exact ⟨rfl, rfl⟩

end Reduced
end Verif.Proofs
