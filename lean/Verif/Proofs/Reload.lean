import Verif.Props.IO
import Verif.Proofs.ReduceSem
/-! # Systems that differ in the numbering of the rows; consistency checks of a reloaded system -/
set_option linter.unusedSectionVars false

namespace Verif.Proofs
open Verif.Model Verif.Spec Verif.Props Verif.Theory Finset Verif.Proofs.IDict Verif.Model.IDict Verif.Proofs.IOTra

variable {K : Type} [Field K] [LinearOrder K] [IsStrictOrderedRing K]

/-- the same states, state-action pairs, probabilities and labels -/
structure Renumbered (M M' : Sys K) : Prop where
  N : M'.N = M.N
  C : M'.C = M.C
  pair : ∀ s a, (∃ r < M'.C, ((s, a), r) ∈ M'.idx) ↔ ∃ r < M.C, ((s, a), r) ∈ M.idx
  row : ∀ s a r r', ((s, a), r) ∈ M.idx → ((s, a), r') ∈ M'.idx → ∀ t, M'.P.get r' t = M.P.get r t
  lab : ∀ l s, Has M'.labS.d l s ↔ Has M.labS.d l s

namespace Renumbered
variable {M M' : Sys K}

theorem edge (h : Renumbered M M') (u v : Nat) : Edge M' u v ↔ Edge M u v := by
  constructor
  · rintro ⟨a, r', h1, h2, h3⟩
    obtain ⟨r, hr, hm⟩ := (h.pair u a).1 ⟨r', h2, h1⟩
    exact ⟨a, r, hm, hr, by rw [← h.row u a r r' hm h1 v]; exact h3⟩
  · rintro ⟨a, r, h1, h2, h3⟩
    obtain ⟨r', hr, hm⟩ := (h.pair u a).2 ⟨r, h2, h1⟩
    exact ⟨a, r', hm, hr, by rw [h.row u a r r' h1 hm v]; exact h3⟩

theorem edge_eq (h : Renumbered M M') : Edge M' = Edge M := by
  funext u v; exact propext (h.edge u v)

theorem total (h : Renumbered M M') (ht : M.Total) : M'.Total := by
  intro s hs
  obtain ⟨a, r, h1, h2⟩ := ht s (by rw [← h.N]; exact hs)
  obtain ⟨r', h3, h4⟩ := (h.pair s a).2 ⟨r, h2, h1⟩
  exact ⟨a, r', h4, h3⟩

theorem embeds (h : Renumbered M M') (hM : M.WF) (hM' : M'.WF) (ht : M.Total) (ht' : M'.Total) (φ : K →+*o ℝ)
    {F : Finset (Fin M.N)} {F' : Finset (Fin M'.N)} (hF : ∀ s, s ∈ F' ↔ Fin.cast h.N s ∈ F) :
    Core.Embeds (Core.ofMDP (M.toMDP φ) (WF.valid hM φ ht) F) (Core.ofMDP (M'.toMDP φ) (WF.valid hM' φ ht') F')
      (Fin.cast h.N) := by
  have key : ∀ (s' : Fin M'.N) (r' : Fin M'.C) (r : Fin M.C) (a : Nat), ((s'.1, a), r'.1) ∈ M'.idx →
      ((s'.1, a), r.1) ∈ M.idx →
      Core.SameRow (Core.ofMDP (M.toMDP φ) (WF.valid hM φ ht) F) (Core.ofMDP (M'.toMDP φ) (WF.valid hM' φ ht') F')
        (Fin.cast h.N) s' r' r := by
    intro s' r' r a h1 h2
    refine ⟨?_, ?_, ?_⟩
    · simp only [Core.ofMDP, hF]
    · intro t'
      simp only [Core.ofMDP, Sys.toMDP, hF, Fin.val_cast, h.row _ _ _ _ h2 h1]
    · intro t ht
      exact absurd ⟨Fin.cast h.N.symm t, by ext; rfl⟩ ht
  refine ⟨Fin.cast_injective _, ?_, ?_⟩
  · intro s' r' hr'
    obtain ⟨a, ha⟩ := (WF.mem_rows (φ := φ) hM').1 hr'
    obtain ⟨r, h1, h2⟩ := (h.pair _ a).1 ⟨r'.1, r'.2, ha⟩
    exact ⟨⟨r, h1⟩, (WF.mem_rows (φ := φ) hM).2 ⟨a, h2⟩, key s' r' ⟨r, h1⟩ a ha h2⟩
  · intro s' r hr
    obtain ⟨a, ha⟩ := (WF.mem_rows (φ := φ) hM).1 hr
    obtain ⟨r', h1, h2⟩ := (h.pair _ a).2 ⟨r.1, r.2, ha⟩
    exact ⟨⟨r', h1⟩, (WF.mem_rows (φ := φ) hM').2 ⟨a, h2⟩, key s' ⟨r', h1⟩ r a h2 ha⟩

theorem prMax (h : Renumbered M M') (hM : M.WF) (hM' : M'.WF) (ht : M.Total) (φ : K →+*o ℝ) (T : Set Nat) (s : Nat) :
    M'.prMax φ T s = M.prMax φ T s := by
  classical
  have ht' := h.total ht
  by_cases hs : s < M.N
  · have hs' : s < M'.N := by rw [h.N]; exact hs
    have e := h.embeds hM hM' ht ht' φ (F := univ.filter fun t => t.1 ∈ T) (F' := univ.filter fun t => t.1 ∈ T)
      (by intro s; simp)
    have h1 := sys_prMax_eq φ (WF.valid hM φ ht) (T := T) (F := univ.filter fun t => t.1 ∈ T) (by simp) ⟨s, hs⟩
    have h2 := sys_prMax_eq φ (WF.valid hM' φ ht') (T := T) (F := univ.filter fun t => t.1 ∈ T) (by simp) ⟨s, hs'⟩
    simp only at h1 h2
    rw [h1, h2, e.Vmax_eq (Bridge.sub _ _) (Bridge.sub _ _)]
    rfl
  · unfold Sys.prMax
    rw [dif_neg hs, dif_neg (by rw [h.N]; exact hs)]

theorem prMin (h : Renumbered M M') (hM : M.WF) (hM' : M'.WF) (ht : M.Total) (φ : K →+*o ℝ) (T : Set Nat) (s : Nat) :
    M'.prMin φ T s = M.prMin φ T s := by
  classical
  have ht' := h.total ht
  by_cases hs : s < M.N
  · have hs' : s < M'.N := by rw [h.N]; exact hs
    have e := h.embeds hM hM' ht ht' φ (F := univ.filter fun t => t.1 ∈ T) (F' := univ.filter fun t => t.1 ∈ T)
      (by intro s; simp)
    have h1 := sys_prMin_eq φ (WF.valid hM φ ht) (T := T) (F := univ.filter fun t => t.1 ∈ T) (by simp) ⟨s, hs⟩
    have h2 := sys_prMin_eq φ (WF.valid hM' φ ht') (T := T) (F := univ.filter fun t => t.1 ∈ T) (by simp) ⟨s, hs'⟩
    simp only at h1 h2
    rw [h1, h2, e.Vmin_eq (Bridge.sub _ _) (Bridge.sub _ _)]
    rfl
  · unfold Sys.prMin
    rw [dif_neg hs, dif_neg (by rw [h.N]; exact hs)]

theorem labelled (h : Renumbered M M') (l : String) : M'.labelled l = M.labelled l := by
  ext s; rw [labelled_iff, labelled_iff, h.lab]

end Renumbered

/-- the successors of an absorbing state with one row -/
theorem successors_absorbing {M : Sys K} (h : M.WF) {s : Nat} (hN : s < M.N) {r a : Nat} (hr : r < M.C)
    (hm : ((s, a), r) ∈ M.idx) (ho' : ∀ a' i, ((s, a'), i) ∈ M.idx → i < M.C → i = r)
    (hp : M.P.get r s = 1) : M.graph.successors s = [(s, a, 1)] := by
  have hinv : ∀ i j sa, invGet? M.idx i = some sa → invGet? M.idx j = some sa → i = j := by
    intro i j sa h1 h2
    exact WF.idx_inj' h (mem_of_invGet? h1) (mem_of_invGet? h2)
  have hnd := ((C04_neighbours h.nodup hinv h.graph).2.2.1 s none).1
  have hmem : ((r, s), (1 : K)) ∈ M.P.items := by
    rw [← hp]; exact mem_of_get_ne (by rw [hp]; exact one_ne_zero)
  refine eq_singleton hnd ?_
  rintro ⟨d, a', p⟩
  rw [WF.successors_mem h]
  constructor
  · rintro ⟨i, h1, h2⟩
    obtain rfl := ho' _ _ h1 (h.range _ _ _ h2).1
    have := WF.idx_inj h h1 hm
    simp only [Prod.mk.injEq, true_and] at this
    subst this
    have hd : d = s := by
      by_contra hne
      have h0 := WF.other_zero h hr hN hp hne
      rw [get_of_mem h.nodup h2] at h0
      have := h.pos _ _ _ h2
      linarith
    subst hd
    rw [get_of_mem h.nodup h2] at hp
    rw [hp]
  · intro e
    simp only [Prod.mk.injEq] at e
    obtain ⟨rfl, rfl, rfl⟩ := e
    exact ⟨r, hm, hmem⟩

/-- the check of one absorbing state only depends on the number of its row -/
theorem checkAbsorbing_eq {M : Sys K} (h : M.WF) {s off : Nat} (ho : 0 < off) (hN : s + off = M.N) {r a : Nat}
    (hr : r < M.C) (hm : ((s, a), r) ∈ M.idx) (ho' : ∀ a' i, ((s, a'), i) ∈ M.idx → i < M.C → i = r)
    (hp : M.P.get r s = 1) : M.checkAbsorbing s off = if r + off = M.C then .ok () else .error .assertion := by
  unfold Sys.checkAbsorbing
  rw [successors_absorbing h (by omega) hr hm ho' hp]
  simp only [if_true, Dict.get?_of_mem h.keys hm, hN, and_true]

/-- A renumbered consistent system passes the consistency checks iff the rows of target and fail are the
last two; otherwise they raise `AssertionError`. -/
theorem assertConsistency_renumbered {M M' : Sys K} (hM : M.WF) (hM' : M'.WF) (hI : Inv M'.labS)
    (h : Renumbered M M') {il tl fl : String} (hc : M.assertConsistency il tl fl = .ok ()) :
    (((∃ a, ((M.N - 2, a), M.C - 2) ∈ M'.idx) ∧ ∃ a, ((M.N - 1, a), M.C - 1) ∈ M'.idx) →
      M'.assertConsistency il tl fl = .ok ()) ∧
    (¬ ((∃ a, ((M.N - 2, a), M.C - 2) ∈ M'.idx) ∧ ∃ a, ((M.N - 1, a), M.C - 1) ∈ M'.idx) →
      M'.assertConsistency il tl fl = .error .assertion) := by
  have hl : il ≠ tl ∧ il ≠ fl ∧ tl ≠ fl := by
    unfold Sys.assertConsistency at hc
    split at hc
    · cases hc
    · rename_i hh; push Not at hh; exact hh
  obtain ⟨i, hi, htl, hfl, hN, hC, hiN, ⟨a, hr⟩, ⟨a', hr'⟩, hro, hro', hp, hp', hlive, hreach⟩ := assertConsistency_ok hM hc
  have lab : ∀ {l s}, M.statesByLabel l = .ok [s] → M'.statesByLabel l = .ok [s] := by
    intro l s hs
    refine statesByLabel_single hI fun x => ?_
    rw [h.lab, ← has_of_statesByLabel hs]; simp
  -- rows of target and fail in the new system
  obtain ⟨g, hgC, hg⟩ := (h.pair _ a).2 ⟨_, by omega, hr⟩
  obtain ⟨f, hfC, hf⟩ := (h.pair _ a').2 ⟨_, by omega, hr'⟩
  have hgo : ∀ b j, ((M'.N - 2, b), j) ∈ M'.idx → j < M'.C → j = g := by
    intro b j hj hjC
    rw [h.N] at hj
    obtain ⟨r, h1, h2⟩ := (h.pair _ b).1 ⟨j, hjC, hj⟩
    have := hro _ _ h2 h1
    subst this
    have := WF.idx_inj hM h2 hr
    rw [this] at hj
    exact WF.idx_inj' hM' hj hg
  have hfo : ∀ b j, ((M'.N - 1, b), j) ∈ M'.idx → j < M'.C → j = f := by
    intro b j hj hjC
    rw [h.N] at hj
    obtain ⟨r, h1, h2⟩ := (h.pair _ b).1 ⟨j, hjC, hj⟩
    have := hro' _ _ h2 h1
    subst this
    have := WF.idx_inj hM h2 hr'
    rw [this] at hj
    exact WF.idx_inj' hM' hj hf
  have hgp : M'.P.get g (M'.N - 2) = 1 := by rw [h.N, h.row _ _ _ _ hr hg]; exact hp
  have hfp : M'.P.get f (M'.N - 1) = 1 := by rw [h.N, h.row _ _ _ _ hr' hf]; exact hp'
  have hg' : ((M'.N - 2, a), g) ∈ M'.idx := by rw [h.N]; exact hg
  have hf' : ((M'.N - 1, a'), f) ∈ M'.idx := by rw [h.N]; exact hf
  have hi' := lab hi
  have ht' := lab htl
  have hf'' := lab hfl
  rw [← h.N] at ht' hf''
  constructor
  · rintro ⟨⟨b, h1⟩, ⟨b', h2⟩⟩
    have e1 := hgo b (M.C - 2) (by rw [h.N]; exact h1) (by rw [h.C]; omega)
    have e2 := hfo b' (M.C - 1) (by rw [h.N]; exact h2) (by rw [h.C]; omega)
    have hg2 : g = M'.C - 2 := by rw [h.C]; exact e1.symm
    have hf2 : f = M'.C - 1 := by rw [h.C]; exact e2.symm
    rw [hg2] at hgo hgp hg'
    rw [hf2] at hfo hfp hf'
    refine assertConsistency_of hM' hl hi' ht' hf'' (by rw [h.N]; exact hN) (by rw [h.C]; exact hC)
      (by rw [h.N]; omega) hg' hf' hgo hfo hgp hfp ?_ ?_ ?_
    · rw [h.edge_eq, h.N]; exact hlive
    · rw [h.edge_eq, h.N]; exact hreach
    · rw [h.edge_eq, h.N]
      intro hpath
      have hstuck : ∀ x, Relation.ReflTransGen (Edge M) (M.N - 1) x → x = M.N - 1 := by
        intro x hx
        induction hx with
        | refl => rfl
        | tail _ he ih =>
          subst ih
          obtain ⟨c, r, h3, h4, h5⟩ := he
          have := hro' _ _ h3 h4
          subst this
          by_contra hne
          rw [WF.other_zero hM (by omega) (by omega) hp' hne] at h5
          exact lt_irrefl _ h5
      have := hstuck _ hpath
      omega
  · intro hno
    unfold Sys.assertConsistency
    rw [if_neg (by tauto)]
    simp only [bind, Except.bind, uniqueState_of hi', uniqueState_of ht', uniqueState_of hf'']
    rw [checkAbsorbing_eq hM' (off := 2) (by decide) (by rw [h.N]; omega) hgC hg' hgo hgp]
    by_cases hg2 : g + 2 = M'.C
    · rw [if_pos hg2]
      simp only
      rw [checkAbsorbing_eq hM' (off := 1) (by decide) (by rw [h.N]; omega) hfC hf' hfo hfp, if_neg]
      intro hf2
      rw [h.C] at hg2 hf2
      exact hno ⟨⟨a, by rwa [show M.C - 2 = g by omega]⟩, ⟨a', by rwa [show M.C - 1 = f by omega]⟩⟩
    · rw [if_neg hg2]

theorem table_of_wf {M : Sys K} (h : M.WF) : Table { M with rew := none } where
  shape := ⟨h.nodup, h.range⟩
  keys := h.keys
  vals := h.vals
  good := by
    refine ⟨fun i hi => ?_, fun i hi j hj => ⟨WF.get_nonneg h i j, ?_⟩, by simp⟩
    · have : ∑ j ∈ range M.P.cols, M.P.get i j = 1 := h.sum i hi
      simp only [this, sub_self, abs_zero]
      positivity
    · rw [← h.sum i hi]
      exact single_le_sum (f := fun j => M.P.get i j) (fun k _ => WF.get_nonneg h i k) (mem_range.2 hj)
  cover := fun i hi => WF.cover h hi

theorem filter_pos {M : Sys K} (h : M.WF) : M.P.items.filter (fun e => 0 < e.2) = M.P.items := by
  rw [List.filter_eq_self]
  intro e he
  simpa using h.pos e.1.1 e.1.2 e.2 he

end Verif.Proofs
