import Verif.Model.RFInfo
import Verif.Proofs.EcFree
import Verif.Props.Cert
import Mathlib.Data.Set.Card
/-!
# C67: what a reachability form tells about its end components
-/
set_option linter.unusedSectionVars false

namespace Verif.Props
open Verif.Model Verif.Spec Verif.Proofs Verif.Theory

variable {K : Type} [Field K] [LinearOrder K] [IsStrictOrderedRing K]
variable {ρ : Graph.Rnd} {M : Sys K} {il tl fl : String} {rf : RF K}

/-- action `a` of `s` leads to `d` with positive probability -/
def ActTo (M : Sys K) (s a d : Nat) : Prop := ∃ i, ((s, a), i) ∈ M.idx ∧ i < M.C ∧ 0 < M.P.get i d

/-- `E` is the set of states of an end component of the system -/
def IsEC (M : Sys K) (E : Set Nat) : Prop := ∃ act, GraphEC (ActTo M) E act

/-- maximal among the end components -/
def IsMEC (M : Sys K) (E : Set Nat) : Prop := IsEC M E ∧ ∀ E', IsEC M E' → E ⊆ E' → E' = E

theorem matTr_eq (hM : M.WF) : MatTr (invGet? M.idx) M.P.items = ActTo M := by
  funext s a d
  exact propext (WF.matTr_iff hM)

/-- end components with a common state can be united -/
theorem IsEC.sUnion {F : Set (Set Nat)} (hF : ∀ E ∈ F, IsEC M E) {x : Nat} (hx : ∀ E ∈ F, x ∈ E) (hne : F.Nonempty) :
    IsEC M (⋃₀ F) := by
  choose! act hact using hF
  refine ⟨fun s => {a | ∃ E ∈ F, s ∈ E ∧ a ∈ act E s}, ⟨?_, ?_, ?_, ?_, ?_⟩⟩
  · obtain ⟨E, hE⟩ := hne
    exact ⟨x, E, hE, hx E hE⟩
  · rintro s ⟨E, hE, hs⟩
    obtain ⟨a, ha⟩ := (hact E hE).act_nonempty s hs
    exact ⟨a, E, hE, hs, ha⟩
  · rintro s - a ⟨E, hE, hs, ha⟩
    exact (hact E hE).avail s hs a ha
  · rintro s - a ⟨E, hE, hs, ha⟩ d hd
    exact ⟨E, hE, (hact E hE).closed s hs a ha d hd⟩
  · have key : ∀ E ∈ F, ∀ s ∈ E, ∀ t ∈ E, Relation.ReflTransGen (fun u v => u ∈ ⋃₀ F ∧
        ∃ a ∈ {a | ∃ E ∈ F, u ∈ E ∧ a ∈ act E u}, ActTo M u a v) s t := by
      intro E hE s hs t ht
      refine Relation.ReflTransGen.mono ?_ _ _ ((hact E hE).conn s hs t ht)
      rintro u v ⟨hu, a, ha, hd⟩
      exact ⟨⟨E, hE, hu⟩, a, ⟨E, hE, hu, ha⟩, hd⟩
    rintro s ⟨E, hE, hs⟩ t ⟨E', hE', ht⟩
    exact (key E hE s hs x (hx E hE)).trans (key E' hE' x (hx E' hE') t ht)

/-- the union of all end components of a state -/
def ecAt (M : Sys K) (x : Nat) : Set Nat := ⋃₀ {E | IsEC M E ∧ x ∈ E}

theorem ecAt_isMEC {x : Nat} (h : ∃ E, IsEC M E ∧ x ∈ E) : IsMEC M (ecAt M x) ∧ x ∈ ecAt M x := by
  obtain ⟨E, hE, hx⟩ := h
  have hx' : x ∈ ecAt M x := ⟨E, ⟨hE, hx⟩, hx⟩
  exact ⟨⟨IsEC.sUnion (fun E h => h.1) (fun E h => h.2) ⟨E, hE, hx⟩, fun E' h1 h2 =>
    Set.Subset.antisymm (fun y hy => ⟨E', ⟨h1, h2 hx'⟩, hy⟩) h2⟩, hx'⟩

theorem IsMEC.eq_ecAt {E : Set Nat} (hE : IsMEC M E) {x : Nat} (hx : x ∈ E) : ecAt M x = E := by
  obtain ⟨⟨h1, -⟩, -⟩ := ecAt_isMEC ⟨E, hE.1, hx⟩
  exact hE.2 _ h1 fun y hy => ⟨E, ⟨hE.1, hx⟩, hy⟩

section
variable (hM : M.WF) (hrf : RF.make ρ M il tl fl false = .ok rf)
include hM hrf

theorem info_ec {s : Nat} (hs : s < M.N) : rf.inProperEC s = true ↔ ∃ E, IsEC M E ∧ s ∈ E := by
  have h := rfok_built hM hrf
  have e := (make_fields hrf).1
  subst e
  rw [h.ec s hs, matTr_eq hM]
  exact ⟨fun ⟨E, act, h1, h2⟩ => ⟨E, ⟨act, h1⟩, h2⟩, fun ⟨E, ⟨act, h1⟩, h2⟩ => ⟨E, act, h1, h2⟩⟩

theorem info_same {x y : Nat} (hx : x < M.N) (hy : y < M.N) (hne : x ≠ y) :
    rf.mec x = rf.mec y ↔ ∃ E, IsEC M E ∧ x ∈ E ∧ y ∈ E := by
  have h := rfok_built hM hrf
  have e := (make_fields hrf).1
  subst e
  rw [h.mecSame x hx y hy hne, matTr_eq hM]
  exact ⟨fun ⟨E, act, h1, h2⟩ => ⟨E, ⟨act, h1⟩, h2⟩, fun ⟨E, ⟨act, h1⟩, h2⟩ => ⟨E, act, h1, h2⟩⟩

theorem IsEC.lt {E : Set Nat} (hE : IsEC M E) {x : Nat} (hx : x ∈ E) : x < M.N := by
  obtain ⟨act, hE⟩ := hE
  obtain ⟨a, ha⟩ := hE.act_nonempty x hx
  obtain ⟨d, i, h1, h2, h3⟩ := hE.avail x hx a ha
  exact WF.state_lt hM h1 h2

/-- goal and fail are end components of their own -/
theorem ecAt_goal : ecAt M (M.N - 2) = {M.N - 2} ∧ ecAt M (M.N - 1) = {M.N - 1} := by
  have h := rfok_built hM hrf
  have e := (make_fields hrf).1
  have hN := h.hN
  subst e
  constructor
  · refine Set.Subset.antisymm ?_ ?_
    · rintro y ⟨E, ⟨⟨act, hE⟩, hx⟩, hy⟩
      exact h.goal_stuck (h.reach_of_ec (matTr_eq hM ▸ hE) hx hy)
    · rintro y rfl
      exact (ecAt_isMEC ((info_ec hM hrf (by omega)).1 h.proper_goal)).2
  · refine Set.Subset.antisymm ?_ ?_
    · rintro y ⟨E, ⟨⟨act, hE⟩, hx⟩, hy⟩
      exact h.fail_stuck (h.reach_of_ec (matTr_eq hM ▸ hE) hx hy)
    · rintro y rfl
      exact (ecAt_isMEC ((info_ec hM hrf (by omega)).1 h.proper_fail)).2

/-- **C67.** For every state besides goal and fail `in_proper_ec` tells whether some end component contains it; for
other numbers it raises `IndexError`. -/
theorem C67_in_proper_ec (s : Nat) :
    (s < M.N - 2 → ∃ b, rf.inProperEcCall s = .ok b ∧ (b = true ↔ ∃ E, IsEC M E ∧ s ∈ E)) ∧
    (M.N - 2 ≤ s → rf.inProperEcCall s = .error .indexError) := by
  have e := (make_fields hrf).1
  constructor
  · intro hs
    refine ⟨rf.inProperEC s, ?_, info_ec hM hrf (by omega)⟩
    unfold RF.inProperEcCall RF.stateToMec RF.inProperEC
    rw [e, List.getElem?_map, List.getElem?_range hs]
    rfl
  · intro hs
    unfold RF.inProperEcCall RF.stateToMec
    rw [e, List.getElem?_eq_none (by simpa using hs)]

/-- **C67.** `state_to_mec` gives the same index to two different states exactly if some end component contains both.
-/
theorem C67_state_to_mec : rf.stateToMec.length = M.N - 2 ∧
    ∀ (x y : Nat) (cx cy : Nat), rf.stateToMec[x]? = some cx → rf.stateToMec[y]? = some cy → x ≠ y →
      (cx = cy ↔ ∃ E, IsEC M E ∧ x ∈ E ∧ y ∈ E) := by
  have e := (make_fields hrf).1
  have hlen : rf.stateToMec.length = M.N - 2 := by simp [RF.stateToMec, e]
  refine ⟨hlen, fun x y cx cy hx hy hne => ?_⟩
  have hx' := (List.getElem?_eq_some_iff.1 hx).1
  have hy' := (List.getElem?_eq_some_iff.1 hy).1
  rw [hlen] at hx' hy'
  unfold RF.stateToMec at hx hy
  rw [e, List.getElem?_map, List.getElem?_range hx'] at hx
  rw [e, List.getElem?_map, List.getElem?_range hy'] at hy
  cases hx
  cases hy
  exact info_same hM hrf (by omega) (by omega) hne

/-- the maximal end component with a given index -/
theorem ecAt_inj {x y : Nat} (hx : x < M.N) (hy : y < M.N) (px : rf.inProperEC x = true) :
    ecAt M x = ecAt M y ↔ rf.mec x = rf.mec y := by
  by_cases hne : x = y
  · subst hne; exact ⟨fun _ => rfl, fun _ => rfl⟩
  rw [info_same hM hrf hx hy hne]
  obtain ⟨h1, h2⟩ := ecAt_isMEC ((info_ec hM hrf hx).1 px)
  constructor
  · intro he
    have hy' : y ∈ ecAt M x := by
      have hne' : (ecAt M y).Nonempty := ⟨x, he ▸ h2⟩
      obtain ⟨z, E, ⟨hE, hyE⟩, -⟩ := hne'
      rw [he]
      exact (ecAt_isMEC ⟨E, hE, hyE⟩).2
    exact ⟨_, h1.1, h2, hy'⟩
  · rintro ⟨E, hE, hxE, hyE⟩
    have hy1 : y ∈ ecAt M x := ⟨E, ⟨hE, hxE⟩, hyE⟩
    exact (h1.eq_ecAt hy1).symm

/-- **C67.** `nr_of_proper_mecs` is the number of maximal end components apart from goal and fail. -/
theorem C67_nr_of_proper_mecs :
    rf.nrOfProperMecs = ({E | IsMEC M E ∧ E ≠ {M.N - 2} ∧ E ≠ {M.N - 1}} : Set (Set Nat)).ncard := by
  classical
  have h := rfok_built hM hrf
  have e := (make_fields hrf).1
  have hN := h.hN
  rw [e] at hN
  obtain ⟨g1, g2⟩ := ecAt_goal hM hrf
  -- all maximal end components, as the image of the proper indices
  set L := (List.range rf.nmec).filter rf.proper with hL
  have hnd : L.Nodup := List.nodup_range.filter _
  have hmem : ∀ c, c ∈ L ↔ c < rf.nmec ∧ rf.proper c = true := by intro c; simp [hL]
  have hsurj : ∀ c ∈ L, ∃ x < M.N, rf.mec x = c := fun c hc => by
    have := h.mecSurj c ((hmem c).1 hc).1
    rwa [e] at this
  choose! rep hrep hrepc using hsurj
  have hrepp : ∀ c ∈ L, rf.inProperEC (rep c) = true := fun c hc => by
    unfold RF.inProperEC
    rw [hrepc c hc]
    exact ((hmem c).1 hc).2
  have himg : ({E | IsMEC M E} : Set (Set Nat)) = (fun c => ecAt M (rep c)) '' (L.toFinset : Set Nat) := by
    ext E
    constructor
    · intro hE
      obtain ⟨act, hact⟩ := hE.1
      obtain ⟨x, hx⟩ := hact.nonempty
      have hxN := IsEC.lt hM hrf hE.1 hx
      have hp : rf.inProperEC x = true := (info_ec hM hrf hxN).2 ⟨E, hE.1, hx⟩
      have hc : rf.mec x ∈ L := (hmem _).2 ⟨by have := h.mecLt x (by rw [e]; exact hxN); exact this, hp⟩
      refine ⟨rf.mec x, by simpa using hc, ?_⟩
      have := (ecAt_inj hM hrf (hrep _ hc) hxN (hrepp _ hc)).2 (hrepc _ hc)
      exact this.trans (hE.eq_ecAt hx)
    · rintro ⟨c, hc, rfl⟩
      have hc : c ∈ L := by simpa using hc
      exact (ecAt_isMEC ((info_ec hM hrf (hrep c hc)).1 (hrepp c hc))).1
  have hinj : Set.InjOn (fun c => ecAt M (rep c)) (L.toFinset : Set Nat) := by
    intro c hc c' hc' he
    have hc : c ∈ L := by simpa using hc
    have hc' : c' ∈ L := by simpa using hc'
    have := (ecAt_inj hM hrf (hrep c hc) (hrep c' hc') (hrepp c hc)).1 he
    rwa [hrepc c hc, hrepc c' hc'] at this
  have hcard : ({E | IsMEC M E} : Set (Set Nat)).ncard = L.length := by
    rw [himg, hinj.ncard_image, Set.ncard_coe_finset, List.toFinset_card_of_nodup hnd]
  have hfin : ({E | IsMEC M E} : Set (Set Nat)).Finite := by
    rw [himg]; exact (Finset.finite_toSet _).image _
  have hpair : ({{M.N - 2}, {M.N - 1}} : Set (Set Nat)) ⊆ {E | IsMEC M E} := by
    rintro E (rfl | rfl)
    · exact g1 ▸ (ecAt_isMEC ((info_ec hM hrf (by omega)).1 (by have := h.proper_goal; rwa [e] at this))).1
    · exact g2 ▸ (ecAt_isMEC ((info_ec hM hrf (by omega)).1 (by have := h.proper_fail; rwa [e] at this))).1
  have hset : ({E | IsMEC M E ∧ E ≠ {M.N - 2} ∧ E ≠ {M.N - 1}} : Set (Set Nat)) =
      {E | IsMEC M E} \ {{M.N - 2}, {M.N - 1}} := by
    ext E
    constructor
    · rintro ⟨a, b, c⟩
      exact ⟨a, by rintro (rfl | rfl) <;> contradiction⟩
    · rintro ⟨a, b⟩
      exact ⟨a, fun he => b (Or.inl he), fun he => b (Or.inr he)⟩
  have hne : ({M.N - 2} : Set Nat) ≠ {M.N - 1} := fun he => by
    have : M.N - 2 ∈ ({M.N - 1} : Set Nat) := he ▸ rfl
    have : M.N - 2 = M.N - 1 := this
    omega
  have h2 : 2 ≤ L.length := by
    rw [← hcard, ← Set.ncard_pair hne]
    exact Set.ncard_le_ncard hpair hfin
  rw [hset, Set.ncard_sdiff hpair (Set.toFinite _), hcard, Set.ncard_pair hne]
  unfold RF.nrOfProperMecs
  rw [← hL]
  omega

/-- **C67.** `is_ec_free` holds exactly if no end component contains a state besides goal and fail. -/
theorem C67_is_ec_free : rf.isEcFree = true ↔ ∀ E, IsEC M E → E ⊆ {M.N - 2, M.N - 1} := by
  have h := rfok_built hM hrf
  have e := (make_fields hrf).1
  have hN := h.hN
  rw [h.ecFree_iff]
  unfold RF.N
  rw [e] at hN ⊢
  constructor
  · intro hs E hE x hx
    have hxN := IsEC.lt hM hrf hE hx
    by_contra hc
    have hc' : x ≠ M.N - 2 ∧ x ≠ M.N - 1 := ⟨fun h => hc (Or.inl h), fun h => hc (Or.inr h)⟩
    have := hs x (by omega)
    rw [(info_ec hM hrf hxN).2 ⟨E, hE, hx⟩] at this
    cases this
  · intro hs x hx
    rw [← Bool.not_eq_true, info_ec hM hrf (by omega)]
    rintro ⟨E, hE, hxE⟩
    rcases hs E hE hxE with h1 | h1
    · have : x = M.N - 2 := h1
      omega
    · have : x = M.N - 1 := h1
      omega

/-- **C67.** `nr_of_mecs` is two less than the number of classes of states, where states in a common end component are
in one class and every other state is alone. -/
theorem C67_nr_of_mecs :
    rf.nrOfMecs = (Set.ncard ((fun x => {y | y = x ∨ ∃ E, IsEC M E ∧ x ∈ E ∧ y ∈ E}) '' {x : Nat | x < M.N}) : Int) - 2 := by
  classical
  have h := rfok_built hM hrf
  have e := (make_fields hrf).1
  have hcl : ∀ x < M.N, ({y | y = x ∨ ∃ E, IsEC M E ∧ x ∈ E ∧ y ∈ E} : Set Nat) = {y | y < M.N ∧ rf.mec y = rf.mec x} := by
    intro x hx
    ext y
    by_cases hne : x = y
    · subst hne
      exact ⟨fun _ => ⟨hx, rfl⟩, fun _ => Or.inl rfl⟩
    · constructor
      · rintro (h1 | ⟨E, hE, h1, h2⟩)
        · exact absurd h1.symm hne
        · have hy := IsEC.lt hM hrf hE h2
          exact ⟨hy, ((info_same hM hrf hx hy hne).2 ⟨E, hE, h1, h2⟩).symm⟩
      · rintro ⟨hy, hc⟩
        exact Or.inr ((info_same hM hrf hx hy hne).1 hc.symm)
  have himg : (fun x => ({y | y = x ∨ ∃ E, IsEC M E ∧ x ∈ E ∧ y ∈ E} : Set Nat)) '' {x : Nat | x < M.N} =
      (fun c => ({y | y < M.N ∧ rf.mec y = c} : Set Nat)) '' ((Finset.range rf.nmec : Finset Nat) : Set Nat) := by
    ext E
    constructor
    · rintro ⟨x, hx, rfl⟩
      have hx : x < M.N := hx
      refine ⟨rf.mec x, by simpa using h.mecLt x (by rw [e]; exact hx), ?_⟩
      exact (hcl x hx).symm
    · rintro ⟨c, hc, rfl⟩
      obtain ⟨x, hx, rfl⟩ := h.mecSurj c (by simpa using hc)
      rw [e] at hx
      exact ⟨x, hx, hcl x hx⟩
  have hinj : Set.InjOn (fun c => ({y | y < M.N ∧ rf.mec y = c} : Set Nat)) ((Finset.range rf.nmec : Finset Nat) : Set Nat) := by
    intro c hc c' hc' he
    obtain ⟨x, hx, rfl⟩ := h.mecSurj c (by simpa using hc)
    rw [e] at hx
    have : x ∈ ({y | y < M.N ∧ rf.mec y = c'} : Set Nat) := by
      have he : ({y | y < M.N ∧ rf.mec y = rf.mec x} : Set Nat) = {y | y < M.N ∧ rf.mec y = c'} := he
      rw [← he]; exact ⟨hx, rfl⟩
    exact this.2
  rw [himg, hinj.ncard_image, Set.ncard_coe_finset, Finset.card_range]
  rfl

end

/-! ### an example -/

/-- the form of the examples has one proper end component, the loop in state 1 -/
example : (exRF ℚ).nrOfProperMecs = 1 ∧ (exRF ℚ).inProperEcCall 0 = .ok false ∧ (exRF ℚ).inProperEcCall 1 = .ok true ∧
    (exSys ℚ).WF ∧ RF.make exRnd (exSys ℚ) "init" "goal" "fail" false = .ok (exRF ℚ) :=
  ⟨by decide +kernel, by decide +kernel, by decide +kernel, exSys_wf ℚ, exRF_rat⟩

end Verif.Props
