import Verif.Proofs.SubSys
import Verif.Proofs.CertSem
import Verif.Theory.Cut
/-! # Probabilities in the system that `subsys` builds -/
set_option linter.unusedSectionVars false

namespace Verif.Proofs
open Verif.Model Verif.Spec Verif.Props Verif.Theory Subsystem Finset Verif.Proofs.IDict Verif.Model.IDict

variable {K : Type} [Field K] [LinearOrder K] [IsStrictOrderedRing K]

/-- the constructor without checks succeeds on systems of the right shape with an initial state -/
theorem make_total_shape {ρ : Graph.Rnd} {M : Sys K} {il tl fl : String} (h : SysShape M tl fl) {i : Nat} {l : List Nat}
    (hi : M.statesByLabel il = .ok (i :: l)) : ∃ rf, RF.make ρ M il tl fl true = .ok rf := by
  obtain ⟨a, hr⟩ := h.goalRow
  obtain ⟨a', hr'⟩ := h.failRow
  have hM := h.wf
  have hC := h.hC
  have hd1 : ∃ d1, delInv M.idx (M.C - 2) = .ok d1 := by
    unfold delInv
    rw [(invGet?_iff hM.vals).2 hr]
    exact ⟨_, rfl⟩
  obtain ⟨d1, hd1⟩ := hd1
  obtain ⟨k1, v1, -, m1⟩ := delInv_ok hM.keys hM.vals hd1
  have hd2 : ∃ d2, delInv d1 (M.C - 1) = .ok d2 := by
    unfold delInv
    rw [(invGet?_iff v1).2 ((m1 _).2 ⟨hr', by simp only; omega⟩)]
    exact ⟨_, rfl⟩
  obtain ⟨d2, hd2⟩ := hd2
  obtain ⟨k2, v2, -, m2⟩ := delInv_ok k1 v1 hd2
  have hmem : ∀ e, e ∈ d2 ↔ (e ∈ M.idx ∧ e.2 ≠ M.C - 2) ∧ e.2 ≠ M.C - 1 := by
    intro e; rw [m2, m1]
  obtain ⟨mecs, proper, cnt, hmec, -⟩ := C07_mec hM.graph (by have := h.hN; omega) ρ
  unfold RF.make
  simp only [if_true, bind, Except.bind, hi, hd1, hd2]
  rw [if_pos, if_pos, hmec]
  · exact ⟨_, rfl⟩
  · rintro j hj ⟨s, b⟩ hsa
    have hm := (hmem _).1 (mem_of_invGet? hsa)
    have hlt := WF.state_lt hM hm.1.1 (by omega)
    simp only
    by_contra hge
    rcases (show s = M.N - 2 ∨ s = M.N - 1 by omega) with rfl | rfl
    · have := h.goalOnly _ _ hm.1.1 (by omega); omega
    · have := h.failOnly _ _ hm.1.1 (by omega); omega
  · intro j hj
    obtain ⟨s, b, h1, -⟩ := WF.cover hM (i := j) (by omega)
    rw [(invGet?_iff v2).2 ((hmem _).2 ⟨⟨h1, by simp only; omega⟩, by simp only; omega⟩)]
    rfl

namespace SubSys
variable {rf : RF K} {m : List Bool} {M' : Sys K}

theorem shape (h : RFOK rf) (hml : m.length = rf.N) (hS : SubSys rf m M') : SysShape M' rf.targetL rf.failL := by
  have hM := subMaps h hml
  have eN := hS.hN
  have eC := hS.hC
  have e1 : M'.N - 2 = (subCols m).length := by omega
  have e2 : M'.N - 1 = (subCols m).length + 1 := by omega
  have e3 : M'.C - 2 = (subRows rf.sys m rf.C).length := by omega
  have e4 : M'.C - 1 = (subRows rf.sys m rf.C).length + 1 := by omega
  have hold : ∀ s s', (s, s') ∈ subCols m → s < rf.sys.N - 2 := by
    intro s s' hs
    have := ((hM.memS s).1 (List.mem_map_of_mem (f := Prod.fst) hs)).1
    exact mask_lt h hml (subIndex_ok hM) this
  have hNe := h.hN
  have hT : ∀ s, Has rf.sys.labS.d rf.targetL s → s = rf.sys.N - 2 := by
    intro s hs
    have := labelled_iff.2 hs
    rw [h.target] at this
    exact this
  have hF : ∀ s, Has rf.sys.labS.d rf.failL s → s = rf.sys.N - 1 := by
    intro s hs
    have := labelled_iff.2 hs
    rw [h.fail] at this
    exact this
  have hne : rf.targetL ≠ rf.failL := by
    intro he
    have g1 := hT (rf.sys.N - 1) (by
      have : rf.sys.N - 1 ∈ rf.sys.labelled rf.failL := by rw [h.fail]; rfl
      rw [he]; exact labelled_iff.1 this)
    omega
  refine ⟨hS.wf, ?_, by omega, by omega, ⟨0, ?_⟩, ⟨0, ?_⟩, ?_, ?_, ?_, ?_, ?_, ?_⟩
  · intro s hs
    by_cases h1 : s < (subCols m).length
    · obtain ⟨d, hd⟩ := hM.col_of_lt h1
      obtain ⟨g1, a, i, g2, g3⟩ := (hM.memS d).1 (List.mem_map_of_mem (f := Prod.fst) hd)
      obtain ⟨k, n, hk⟩ := hM.row_exists g1 g2 g3
      obtain ⟨-, hc, -, -, hkl⟩ := hM.row_spec hk
      obtain rfl := hM.col_fun hc hd
      exact ⟨a, k, (hS.idx _ _ _).2 (Or.inl ⟨_, hk⟩), by omega⟩
    · rcases (show s = (subCols m).length ∨ s = (subCols m).length + 1 by omega) with rfl | rfl
      · exact ⟨0, _, (hS.idx _ _ _).2 (Or.inr (Or.inl ⟨rfl, rfl, rfl⟩)), by omega⟩
      · exact ⟨0, _, (hS.idx _ _ _).2 (Or.inr (Or.inr ⟨rfl, rfl, rfl⟩)), by omega⟩
  · rw [e1, e3]; exact (hS.idx _ _ _).2 (Or.inr (Or.inl ⟨rfl, rfl, rfl⟩))
  · rw [e2, e4]; exact (hS.idx _ _ _).2 (Or.inr (Or.inr ⟨rfl, rfl, rfl⟩))
  · intro a i hi _
    rw [e1] at hi
    rw [e3]
    rcases (hS.idx _ _ _).1 hi with ⟨⟨s, b⟩, g⟩ | g | g
    · have := hM.col_lt (hM.row_spec g).2.1; omega
    · exact g.2.2
    · omega
  · intro a i hi _
    rw [e2] at hi
    rw [e4]
    rcases (hS.idx _ _ _).1 hi with ⟨⟨s, b⟩, g⟩ | g | g
    · have := hM.col_lt (hM.row_spec g).2.1; omega
    · omega
    · exact g.2.2
  · rw [e1, e3]; exact hS.goalRow
  · rw [e2, e4]; exact hS.failRow
  · ext s
    rw [labelled_iff, hS.labS, Set.mem_singleton_iff, e1]
    constructor
    · rintro (⟨s0, g1, g2⟩ | g | g)
      · have := hT _ g2; have := hold _ _ g1; omega
      · exact g.2
      · exact absurd g.1 hne
    · intro g; exact Or.inr (Or.inl ⟨rfl, g⟩)
  · ext s
    rw [labelled_iff, hS.labS, Set.mem_singleton_iff, e2]
    constructor
    · rintro (⟨s0, g1, g2⟩ | g | g)
      · have := hF _ g2; have := hold _ _ g1; omega
      · exact absurd g.1.symm hne
      · exact g.2
    · intro g; exact Or.inr (Or.inr ⟨rfl, g⟩)

/-- any constructor call on the new system that succeeds gives a form of the right shape -/
theorem rfok (h : RFOK rf) (hml : m.length = rf.N) {ρ : Graph.Rnd} {ig : Bool} {rf' : RF K}
    (hS : SubSys rf m rf'.sys) (hr : RF.make ρ rf'.sys rf.initL rf.targetL rf.failL ig = .ok rf') :
    RFOK rf' ∧ rf'.initL = rf.initL ∧ rf'.targetL = rf.targetL ∧ rf'.failL = rf.failL ∧
      ∃ l, rf'.sys.statesByLabel rf.initL = .ok (rf'.initial :: l) := by
  have hr' : RF.make ρ rf'.sys rf.initL rf.targetL rf.failL true = .ok rf' := by
    cases ig with
    | true => exact hr
    | false => rw [make_false_of_true ((make_fields hr).2.2.2.2 rfl)]; exact hr
  obtain ⟨g1, -, g2⟩ := rfok_of_shape (hS.shape h hml) hr'
  exact ⟨g1, g2⟩

/-- the old states correspond to the new ones -/
theorem embeds (h : RFOK rf) (hml : m.length = rf.N) {rf' : RF K} (hS : SubSys rf m rf'.sys) (h' : RFOK rf') (φ : K →+*o ℝ) :
    ∃ e : Fin rf'.N → Fin rf.N, (∀ s', ((e s').1, s'.1) ∈ subCols m) ∧
      Core.Embeds ((RFOK.core h φ).cut {s | m.getD s.1 false = true}) (RFOK.core h' φ) e := by
  classical
  have hM := subMaps h hml
  have hN := hS.hN
  have hC := hS.hC
  have eN : rf'.N = (subCols m).length := by unfold RF.N; omega
  have eC : rf'.C = (subRows rf.sys m rf.C).length := by show rf'.sys.C - 2 = _; omega
  have hmem : ∀ {s n}, (s, n) ∈ subCols m → m.getD s false = true := fun hs =>
    ((hM.memS _).1 (List.mem_map_of_mem (f := Prod.fst) hs)).1
  have hst : ∀ s' : Fin rf'.N, ∃ s : Fin rf.N, (s.1, s'.1) ∈ subCols m := by
    intro s'
    obtain ⟨s, hs⟩ := hM.col_of_lt (nd := s'.1) (by have := s'.2; omega)
    exact ⟨⟨s, mask_lt h hml (subIndex_ok hM) (hmem hs)⟩, hs⟩
  choose e he using hst
  refine ⟨e, he, ?_⟩
  have key : ∀ (s' : Fin rf'.N) (r' : Fin rf'.C) (r : Fin rf.C) (a n : Nat),
      (subRows rf.sys m rf.C)[r'.1]? = some (((e s').1, a), (n, a)) → (((e s').1, a), r.1) ∈ rf.sys.idx →
      Core.SameRow ((RFOK.core h φ).cut {s | m.getD s.1 false = true}) (RFOK.core h' φ) e s' r' r := by
    intro s' r' r a n hk hr
    have hin : ∀ t', e t' ∈ {s : Fin rf.N | m.getD s.1 false = true} := fun t' => hmem (he t')
    refine ⟨?_, ?_, ?_⟩
    · refine Eq.trans ?_ (if_pos (hin s')).symm
      show φ (rf'.b r'.1) = φ (rf.b r.1)
      congr 1
      have := hS.goal _ _ _ _ _ hk hr
      rw [← this]
      unfold RF.b
      rw [show rf'.sys.N - 2 = (subCols m).length by omega]
    · intro t'
      refine Eq.trans ?_ (if_pos ⟨hin s', hin t'⟩).symm
      show φ (rf'.P r'.1 t'.1) = φ (rf.P r.1 (e t').1)
      congr 1
      exact hS.kept _ _ _ _ _ _ _ hk hr (he t')
    · intro t htr hq
      exfalso
      by_cases ht : e s' ∈ {s : Fin rf.N | m.getD s.1 false = true} ∧ t ∈ {s : Fin rf.N | m.getD s.1 false = true}
      swap
      · exact hq (if_neg ht)
      obtain ⟨n', hn'⟩ := exists_newState ht.2
      have hc := mem_subCols.2 (newState_iff.1 hn')
      have hlt := hM.col_lt hc
      exact htr ⟨⟨n', by omega⟩, Fin.ext (hM.col_inj (he ⟨n', by omega⟩) hc)⟩
  refine ⟨?_, ?_, ?_⟩
  · intro s1 s2 hs
    have h1 := he s1
    rw [hs] at h1
    exact Fin.ext (hM.col_fun h1 (he s2))
  · intro s' r' hr'
    rw [RFOK.mem_rows, RFOK.rowState_iff h' r'.2] at hr'
    obtain ⟨a, ha⟩ := hr'
    have hlt := r'.2
    have hlt' := s'.2
    rcases (hS.idx _ _ _).1 ha with ⟨⟨s, b⟩, hk⟩ | h1 | h1
    · obtain ⟨rfl, h1, hms, ⟨j, hj, hjC⟩, -⟩ := hM.row_spec hk
      have hse : s = (e s').1 := hM.col_inj h1 (he s')
      subst hse
      have hjC' := RFOK.row_lt h (e s').2 hjC hj
      refine ⟨⟨j, hjC'⟩, ?_, key s' r' ⟨j, hjC'⟩ _ _ hk hj⟩
      show _ ∈ (RFOK.core h φ).rows (e s')
      rw [RFOK.mem_rows, RFOK.rowState_iff h hjC']
      exact ⟨_, hj⟩
    · omega
    · omega
  · intro s' r hr
    have hr : r ∈ (RFOK.core h φ).rows (e s') := hr
    rw [RFOK.mem_rows, RFOK.rowState_iff h r.2] at hr
    obtain ⟨a, ha⟩ := hr
    obtain ⟨k, n, hk⟩ := hM.row_exists (hmem (he s')) ha (RFOK.lt_C r.2)
    obtain ⟨-, h1, -, -, hkl⟩ := hM.row_spec hk
    have hn : n = s'.1 := hM.col_fun h1 (he s')
    have hkC : k < rf'.C := by omega
    refine ⟨⟨k, hkC⟩, ?_, key s' ⟨k, hkC⟩ r a n hk ha⟩
    rw [RFOK.mem_rows, RFOK.rowState_iff h' hkC]
    exact ⟨a, (hS.idx _ _ _).2 (Or.inl ⟨_, by rw [hn] at hk; exact hk⟩)⟩

theorem values (h : RFOK rf) (hml : m.length = rf.N) {rf' : RF K} (hS : SubSys rf m rf'.sys) (h' : RFOK rf') (φ : K →+*o ℝ)
    {s : Fin rf.N} {s' : Nat} (hs : (s.1, s') ∈ subCols m) :
    rf'.prMin φ s' = ((RFOK.core h φ).cut {s | m.getD s.1 false = true}).Vmin s ∧
    rf'.prMax φ s' = ((RFOK.core h φ).cut {s | m.getD s.1 false = true}).Vmax s := by
  have hM := subMaps h hml
  obtain ⟨e, he, hE⟩ := embeds h hml hS h' φ
  have hN := hS.hN
  have hlt := hM.col_lt hs
  have hs' : s' < rf'.N := by unfold RF.N; omega
  have hes : e ⟨s', hs'⟩ = s := Fin.ext (hM.col_inj (he ⟨s', hs'⟩) hs)
  have h1 := RFOK.prMin_eq h' φ ⟨s', hs'⟩
  have h2 := RFOK.prMax_eq h' φ ⟨s', hs'⟩
  simp only at h1 h2
  have hsub := Core.cut_sub (U := {s : Fin rf.N | m.getD s.1 false = true}) (RFOK.sub h φ)
  rw [h1, h2, hE.Vmin_eq hsub (RFOK.sub h' φ), hE.Vmax_eq hsub (RFOK.sub h' φ), hes]
  exact ⟨rfl, rfl⟩

/-- the initial state -/
theorem initial (h : RFLive rf) {M' : Sys K} (hS : SubSys rf m M') :
    (∀ s', Has M'.labS.d rf.initL s' ↔ (rf.initial, s') ∈ subCols m) := by
  have hl : ∀ s, Has rf.sys.labS.d rf.initL s ↔ s = rf.initial := by
    intro s
    rw [← labelled_iff, labelled_of_single h.initLab]
    rfl
  intro s'
  rw [hS.labS]
  constructor
  · rintro (⟨s, g1, g2⟩ | ⟨g, -⟩ | ⟨g, -⟩)
    · rw [(hl s).1 g2] at g1; exact g1
    · exact absurd g h.initT
    · have h1 := h.fail
      rw [← g, labelled_of_single h.initLab] at h1
      have h2 := h.init
      have h3 : rf.initial = rf.sys.N - 1 := by
        have : rf.initial ∈ ({rf.initial} : Set Nat) := rfl
        rw [h1] at this
        exact this
      omega
  · intro g
    exact Or.inl ⟨_, g, (hl _).2 rfl⟩

theorem initial_state (h : RFLive rf) (hml : m.length = rf.N) {ρ : Graph.Rnd} {ig : Bool} {rf' : RF K}
    (hS : SubSys rf m rf'.sys) (hr : RF.make ρ rf'.sys rf.initL rf.targetL rf.failL ig = .ok rf') :
    (rf.initial, rf'.initial) ∈ subCols m ∧ rf'.sys.statesByLabel rf.initL = .ok [rf'.initial] := by
  obtain ⟨-, -, -, -, l, hl⟩ := hS.rfok h.toRFOK hml hr
  have hi := hS.initial h
  have h1 := (hi rf'.initial).1 ((has_of_statesByLabel hl _).1 (by simp))
  refine ⟨h1, statesByLabel_single hS.labI fun x => ?_⟩
  rw [hi]
  constructor
  · intro h2; exact (subMaps h.toRFOK hml).col_fun h2 h1
  · rintro rfl; exact h1

end SubSys

/-- the subsystem construction succeeds without checks iff the initial state is kept -/
theorem subsys_total {ρ : Graph.Rnd} {rf : RF K} (h : RFLive rf) (hS : Inv rf.sys.labS) {cert : List K} {mode : Mode}
    {x : Subsystem K} (hx : Subsystem.make rf cert mode true = .ok x)
    (hLS : ∀ s < rf.N, ∃ ls, rf.sys.labelsByState s = .ok ls)
    (hLA : ∀ sa, ∃ ls, rf.sys.labelsByAction sa = .ok ls)
    (hd : rf.sys.dtmc = true → ∀ s a i, ((s, a), i) ∈ rf.sys.idx → a = 0)
    (hi : InMask rf mode cert rf.initial) : ∃ res, subsys ρ x = .ok res := by
  obtain ⟨rfl, m, hm, hml, hms⟩ := mask_spec h.toRFOK hx
  have hM := subMaps h.toRFOK hml
  have hL : LabOK rf m := ⟨fun s hs => hLS s (mask_lt h.toRFOK hml (subIndex_ok hM) hs), fun s a i _ _ _ => hLA (s, a)⟩
  obtain ⟨labS, labT, P, hA, he⟩ := subsys_eq h.toRFOK hS hm hml hL
  obtain ⟨M', hM'⟩ := remake_total h.toRFOK hml hA hd
  have hsub := remake_spec h.toRFOK hml hA hM'
  obtain ⟨n, hn⟩ := exists_newState ((hms _).2 hi)
  have hc := mem_subCols.2 (newState_iff.1 hn)
  have hin := hsub.initial h
  have hst : M'.statesByLabel rf.initL = .ok [n] := statesByLabel_single hsub.labI fun y => by
    rw [hin]
    constructor
    · intro g; exact hM.col_fun g hc
    · rintro rfl; exact hc
  obtain ⟨rf', hrf'⟩ := make_total_shape (ρ := ρ) (il := rf.initL) (hsub.shape h.toRFOK hml) hst
  exact ⟨⟨rf', labT⟩, by rw [he, hM']; simp only [bind, Except.bind, hrf']⟩

end Verif.Proofs
