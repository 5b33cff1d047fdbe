import Verif.Props.Cli
/-!
# C76: `switss rf` followed by `switss certify`
-/
set_option linter.unusedSectionVars false

namespace Verif.Props
open Verif.Model Verif.Model.Cli Verif.Spec Verif.Proofs Verif.Proofs.IDict Verif.Proofs.IOTra Finset

variable {K : Type} [Field K] [LinearOrder K] [IsStrictOrderedRing K] [FloorRing K]
variable {ρ ρ' : Graph.Rnd} {M : Sys K} {il tl ntl nfl : String} {kind : Kind} {lab tra : List Char}

theorem isPyDict_of_inv {α β : Type} [DecidableEq α] [DecidableEq β] {x : IDict α β} (h : Inv x) : IsPyDict x.d :=
  ⟨h.ok.1, fun p hp => h.ok.2 p.1 p.2 (Dict.get?_of_mem h.ok.1 hp)⟩

theorem labelMap_of_inv {α β : Type} [DecidableEq α] [DecidableEq β] {x : IDict α β} (h : Inv x) (hi : x.i = none) : LabelMap x := by
  refine ⟨id, x.d, x.dflt, [], fun _ => List.Perm.refl _, isPyDict_of_inv h, ?_⟩
  obtain ⟨d, i, f⟩ := x
  subst hi
  rfl

theorem input_of_load (h : loadModel kind lab tra = .ok M) (hx : ExactRows M) (ht : M.Total) : Input M :=
  have hF := loadModel_spec h
  ⟨hF.wf_of_sum hx, ht, labelMap_of_inv hF.labS hF.noInv, labelMap_of_inv hF.labA hF.noInvA⟩

/-- every state of a chain has an action -/
theorem total_of_chain (h : loadModel .dtmc lab tra = .ok M) : M.Total := by
  obtain ⟨h1, h2⟩ := (loadModel_spec h).chain rfl
  intro s hs
  refine ⟨0, s, ?_, by rw [h1]; exact hs⟩
  rw [h2]
  exact List.mem_map.2 ⟨s, List.mem_range.2 hs, rfl⟩

/-- what the files written by `rf` contain -/
theorem rf_files {π : List Nat → List Nat} {π' : List String → List String} (hπ : ∀ l, (π l).Perm l) (hπ' : ∀ l, (π' l).Perm l)
    (h : loadModel kind lab tra = .ok M) (hx : ExactRows M) (ht : M.Total) (h6 : ∀ r t, ∃ n : Nat, M.P.get r t = n / 10 ^ 6)
    (hne : ntl ≠ nfl) (hc : CleanName ntl) (hc' : CleanName nfl) {res : Reduce.Result K}
    (hres : M.reduce ρ il tl ntl nfl = .ok res) :
    ∃ lab' tra' M' rf', save kind π π' res.rf.sys = .ok (lab', tra') ∧ loadModel kind lab' tra' = .ok M' ∧ M'.WF ∧
      Renumbered res.rf.sys M' ∧
      RF.make ρ' M' il ntl nfl false = .ok rf' ∧ rf'.initial = res.rf.initial ∧
      ∀ (φ : K →+*o ℝ) s s', res.cols.get? s = some s' →
        M'.prMin φ (M'.labelled ntl) s' = M.prMin φ (M.labelled tl) s ∧
        M'.prMax φ (M'.labelled ntl) s' = M.prMax φ (M.labelled tl) s := by
  have hF := loadModel_spec h
  have hin := input_of_load h hx ht
  have hcl : ∀ l ∈ res.rf.sys.labS.d.map Prod.fst, CleanName l := by
    intro l hl
    rcases reduce_labels hin.wf hF.labS hF.labA hres hl with rfl | rfl | hm
    · exact hc
    · exact hc'
    · exact hF.clean l hm
  have h6' : ∀ r t, ∃ n : Nat, res.rf.sys.P.get r t = n / 10 ^ 6 := by
    have := reduce_decimals hin.wf hF.labS hF.labA hres (D := 10 ^ 6) (by norm_num) (by exact_mod_cast h6)
    exact_mod_cast this
  cases kind with
  | mdp =>
    obtain ⟨lab', tra', M', rf', a1, a2, a3, a4, a5, a6, a7, a8⟩ := reload_reduced (ρ' := ρ') hπ hπ' hin hne hres hcl h6'
    refine ⟨lab', tra', M', rf', ?_, a3, a4, a5, a6, a7, a8⟩
    simp [save, a1, a2, bind, Except.bind]
  | dtmc =>
    obtain ⟨T, i0, mask, hR, hrf⟩ := reduce_spec hin.wf hF.labS hF.labA hres
    obtain ⟨i', hi'⟩ := hR.init_kept hrf
    have hcons := hR.consistent hin.wf ht hne hi'
    rw [make_false_of_true hcons] at hrf
    obtain ⟨hsq, ha⟩ := (reduce_full hres).2 (by rw [hF.dtmc]; rfl)
    obtain ⟨lab', tra', M', rf', a1, a2, a3, a4, a5, a6, a7, a8⟩ :=
      reload_dtmc (ρ' := ρ') hπ hπ' hR.red.wf hR.red.labI hsq ha hcl h6' hrf
    refine ⟨lab', tra', M', rf', ?_, a3, a4, a5, a6, a7, fun φ s s' hs => ?_⟩
    · simp [save, a1, a2, bind, Except.bind]
    · obtain ⟨c1, c2⟩ := C14_reduce_probabilities hin hne hres φ hs
      rw [(a8 φ s').1, (a8 φ s').2]
      exact ⟨c1, c2⟩

/-- `rf` calls `reduce` and saves the result -/
theorem rfCmd_ok {π : List Nat → List Nat} {π' : List String → List String} (h : loadModel kind lab tra = .ok M)
    {mp : Mapping} {lab' tra' : List Char} :
    rfCmd (K := K) ρ π π' kind lab tra il tl ntl nfl = .ok (mp, lab', tra') ↔
      ∃ res, M.reduce ρ il tl ntl nfl = .ok res ∧ save kind π π' res.rf.sys = .ok (lab', tra') ∧
        mp = ⟨res.rows.map fun e => e.1.1, res.rows.map fun e => e.1.2, res.rows.map fun e => e.2.1,
          res.rows.map fun e => e.2.2⟩ := by
  unfold rfCmd
  rw [h]
  simp only [bind, Except.bind]
  constructor
  · intro h
    split at h
    · cases h
    · rename_i res hres
      split at h
      · cases h
      · rename_i files hf
        cases h
        exact ⟨res, hres, hf, rfl⟩
  · rintro ⟨res, h1, h2, rfl⟩
    simp only [h1, h2]

/-- the `k`-th entry of the mapping file -/
def _root_.Verif.Model.Cli.Mapping.entry (mp : Mapping) (k s a s' a' : Nat) : Prop :=
  mp.states[k]? = some s ∧ mp.actions[k]? = some a ∧ mp.rfstates[k]? = some s' ∧ mp.rfactions[k]? = some a'

section
variable {π : List Nat → List Nat} {π' : List String → List String} (hπ : ∀ l, (π l).Perm l) (hπ' : ∀ l, (π' l).Perm l)
    (h : loadModel kind lab tra = .ok M) (hx : ExactRows M) (ht : M.Total) (h6 : ∀ r t, ∃ n : Nat, M.P.get r t = n / 10 ^ 6)
    (hne : ntl ≠ nfl) (hc : CleanName ntl) (hc' : CleanName nfl)
include hπ hπ' h hx ht h6 hne hc hc'

/-- core of the theorems of C76 -/
theorem rf_main {mp : Mapping} {lab' tra' : List Char}
    (hrun : rfCmd (K := K) ρ π π' kind lab tra il tl ntl nfl = .ok (mp, lab', tra')) :
    ∃ M' rf' i i', loadModel kind lab' tra' = .ok M' ∧ M'.WF ∧ RF.make ρ' M' il ntl nfl false = .ok rf' ∧
      (∀ s, s ∈ M.labelled il ↔ s = i) ∧ (∀ s, s ∈ M'.labelled il ↔ s = i') ∧ i' ∉ M'.labelled ntl ∧
      ∀ φ : K →+*o ℝ, M'.prMin φ (M'.labelled ntl) i' = M.prMin φ (M.labelled tl) i ∧
        M'.prMax φ (M'.labelled ntl) i' = M.prMax φ (M.labelled tl) i := by
  have hin := input_of_load h hx ht
  obtain ⟨res, h1, h2, -⟩ := (rfCmd_ok h).1 hrun
  obtain ⟨lab2, tra2, M', rf', a1, a2, a3, a4, a5, a6, a7⟩ := rf_files (ρ' := ρ') hπ hπ' h hx ht h6 hne hc hc' h1
  rw [h2] at a1
  cases a1
  obtain ⟨T, i0, mask, hR, hrf⟩ := reduce_spec hin.wf hin.labS.inv hin.labA.inv h1
  obtain ⟨i', hi'⟩ := hR.init_kept hrf
  have hlive := rflive_built a3 a5
  obtain ⟨e, eil, etl, -⟩ := make_fields a5
  have hI := hlive.initLab
  rw [e, eil] at hI
  have hg : res.cols.get? i0 = some i' := Dict.get?_of_mem hR.red.maps.nd hi'
  have hmem : ∀ s, s ∈ M.labelled il ↔ s = i0 := by
    intro s
    rw [← mem_T hR.hi s]; simp
  have hlab : ∀ s, s ∈ M'.labelled il ↔ s = rf'.initial := by
    intro s
    rw [← mem_T hI s]; simp
  have h7 : i' ∈ M'.labelled il := by
    rw [a4.labelled]
    exact ((C17_reduce_labels hin hne h1).1 i0 i' hg il).1 ((hmem i0).2 rfl)
  have h8 : i' = rf'.initial := (hlab i').1 h7
  refine ⟨M', rf', i0, i', a2, a3, a5, hmem, by rw [h8]; exact hlab, ?_, fun φ => a7 φ i0 i' hg⟩
  have ht' := hlive.toRFOK.target
  rw [e, etl] at ht'
  rw [ht', a4.N]
  have := hR.red.maps.col_lt hi'
  have := hR.red.hN
  simp
  omega

/-- **C76.** The files that `switss rf` writes are accepted by `certify` (and by `minimize` and `subsystem`, which build
the same object), and the initial state has the probabilities of the original model. -/
theorem C76_rf_accepted {mp : Mapping} {lab' tra' : List Char}
    (hrun : rfCmd (K := K) ρ π π' kind lab tra il tl ntl nfl = .ok (mp, lab', tra')) :
    ∃ M' rf' i i', loadModel kind lab' tra' = .ok M' ∧ ExactRows M' ∧ RF.make ρ' M' il ntl nfl false = .ok rf' ∧
      (∀ s, s ∈ M.labelled il ↔ s = i) ∧ (∀ s, s ∈ M'.labelled il ↔ s = i') ∧ i' ∉ M'.labelled ntl ∧
      ∀ φ : K →+*o ℝ, M'.prMin φ (M'.labelled ntl) i' = M.prMin φ (M.labelled tl) i ∧
        M'.prMax φ (M'.labelled ntl) i' = M.prMax φ (M.labelled tl) i := by
  obtain ⟨M', rf', i, i', b1, b2, b3⟩ := rf_main (ρ' := ρ') hπ hπ' h hx ht h6 hne hc hc' hrun
  exact ⟨M', rf', i, i', b1, b2.sum, b3⟩

/-- **C76 (partial: in mode max only for non-negative certificates).** If `certify -tol 0` prints "VALID" for a
certificate of the form written by `rf`, the bound holds for the *original* model. -/
theorem C76_certified_sound_partial {mp : Mapping} {lab' tra' : List Char}
    (hrun : rfCmd (K := K) ρ π π' kind lab tra il tl ntl nfl = .ok (mp, lab', tra')) (φ : K →+*o ℝ) {f : CertFile K} {k : Nat}
    (hk : (certify ρ' kind lab' tra' il ntl nfl (some f) 0).1[k]? = some true) {i : Nat} (hi : i ∈ M.labelled il) :
    ∃ c, f.instances[k]? = some c ∧
      (f.mode = some "min" ∧ φ c.threshold ≤ M.prMin φ (M.labelled tl) i ∨
       f.mode = some "max" ∧ ((∀ y ∈ c.certificate, 0 ≤ y) → φ c.threshold ≤ M.prMax φ (M.labelled tl) i)) := by
  obtain ⟨M', rf', i0, i', b1, b2, b3, b4, b5, b6, b7⟩ := rf_main (ρ' := ρ') hπ hπ' h hx ht h6 hne hc hc' hrun
  obtain rfl := (b4 i).1 hi
  have := C75_certify_sound_partial b1 b2.sum φ hk ((b5 i').2 rfl)
  rwa [(b7 φ).1, (b7 φ).2] at this

/-- **C76, the mapping file.** Its lists have an entry for every state-action pair of a needed state and no other;
it keeps actions; it is a one-to-one map from the needed states to the states of the written form other than target and
fail; labels, and probabilities between needed states, are those of the original model. -/
theorem C76_mapping {mp : Mapping} {lab' tra' : List Char}
    (hrun : rfCmd (K := K) ρ π π' kind lab tra il tl ntl nfl = .ok (mp, lab', tra')) {M' : Sys K}
    (hM' : loadModel kind lab' tra' = .ok M') :
    (∀ s a, (∃ k s', mp.entry k s a s' a) ↔ Needed M il tl s ∧ ∃ r < M.C, ((s, a), r) ∈ M.idx) ∧
    (∀ k s a s' a', mp.entry k s a s' a' → a' = a) ∧
    (∀ k₁ k₂ s₁ s₂ a₁ a₂ s₁' s₂' a₁' a₂', mp.entry k₁ s₁ a₁ s₁' a₁' → mp.entry k₂ s₂ a₂ s₂' a₂' → (s₁ = s₂ ↔ s₁' = s₂')) ∧
    (∀ s', s' < M'.N - 2 ↔ ∃ k s a, mp.entry k s a s' a) ∧
    (∀ k s a s' a', mp.entry k s a s' a' → ∀ l, s ∈ M.labelled l ↔ s' ∈ M'.labelled l) ∧
    (∀ k k₂ s a s' d b d' b', mp.entry k s a s' a → mp.entry k₂ d b d' b' → s ∉ M.labelled tl →
      prob M' s' a d' = prob M s a d) := by
  have hin := input_of_load h hx ht
  obtain ⟨res, h1, h2, rfl⟩ := (rfCmd_ok h).1 hrun
  obtain ⟨lab2, tra2, M2, rf', a1, a2, a3, a4, -⟩ := rf_files (ρ' := ρ) hπ hπ' h hx ht h6 hne hc hc' h1
  rw [h2] at a1
  cases a1
  rw [hM'] at a2
  cases a2
  obtain ⟨T, i0, mask, hR, -⟩ := reduce_spec hin.wf hin.labS.inv hin.labA.inv h1
  obtain ⟨c1, c2, c3, c4, c5, c6, c7⟩ := C16_reduce_maps hin h1
  have hent : ∀ k s a s' a', (Mapping.mk (res.rows.map fun e => e.1.1) (res.rows.map fun e => e.1.2)
      (res.rows.map fun e => e.2.1) (res.rows.map fun e => e.2.2)).entry k s a s' a' ↔ res.rows[k]? = some ((s, a), (s', a')) := by
    intro k s a s' a'
    unfold Mapping.entry
    simp only [List.getElem?_map]
    cases res.rows[k]? with
    | none => simp
    | some e =>
      obtain ⟨⟨x1, x2⟩, ⟨x3, x4⟩⟩ := e
      simp only [Option.map_some, Option.some.injEq, Prod.mk.injEq]
      tauto
  have hget : ∀ p q, res.rows.get? p = some q ↔ ∃ k : Nat, res.rows[k]? = some (p, q) := by
    intro p q
    constructor
    · intro hg
      exact List.mem_iff_getElem?.1 (Dict.mem_of_get? hg)
    · rintro ⟨k, hk⟩
      exact Dict.get?_of_mem hR.red.maps.rnd (List.mem_of_getElem? hk)
  have hrow : ∀ {k s a s' a'}, res.rows[k]? = some ((s, a), (s', a')) → a' = a ∧ res.cols.get? s = some s' :=
    fun hk => c7 _ _ _ _ ((hget _ _).2 ⟨_, hk⟩)
  refine ⟨fun s a => ?_, fun k s a s' a' he => ?_, fun k₁ k₂ s₁ s₂ a₁ a₂ s₁' s₂' a₁' a₂' e1 e2 => ?_, fun s' => ?_,
    fun k s a s' a' he l => ?_, fun k k₂ s a s' d b d' b' e1 e2 hs => ?_⟩
  · constructor
    · rintro ⟨k, s', he⟩
      obtain ⟨g1, i, g2, g3⟩ := (c4 s a).1 ⟨_, (hget _ _).2 ⟨k, (hent _ _ _ _ _).1 he⟩⟩
      exact ⟨g1, i, g3, g2⟩
    · rintro ⟨g1, i, g3, g2⟩
      obtain ⟨⟨s', a'⟩, hp⟩ := (c4 s a).2 ⟨g1, i, g2, g3⟩
      obtain ⟨k, hk⟩ := (hget _ _).1 hp
      obtain ⟨rfl, -⟩ := hrow hk
      exact ⟨k, s', (hent _ _ _ _ _).2 hk⟩
  · exact (hrow ((hent _ _ _ _ _).1 he)).1
  · have g1 := (hrow ((hent _ _ _ _ _).1 e1)).2
    have g2 := (hrow ((hent _ _ _ _ _).1 e2)).2
    constructor
    · rintro rfl
      rw [g1] at g2
      exact Option.some.inj g2
    · rintro rfl
      exact c3 _ _ _ g1 g2
  · rw [a4.N, c2 s']
    constructor
    · rintro ⟨s, hs⟩
      obtain ⟨a, i, m1, m2⟩ : ∃ a i, ((s, a), i) ∈ M.idx ∧ i < M.C := by
        have := hR.red.maps.col_state_lt hin.wf (Dict.mem_of_get? hs)
        exact ht s this
      obtain ⟨⟨s2, a2⟩, hp⟩ := (c4 s a).2 ⟨(c1 s).1 ⟨_, hs⟩, i, m1, m2⟩
      obtain ⟨k, hk⟩ := (hget _ _).1 hp
      obtain ⟨rfl, g⟩ := hrow hk
      rw [hs] at g
      cases g
      exact ⟨k, s, a2, (hent _ _ _ _ _).2 hk⟩
    · rintro ⟨k, s, a, he⟩
      exact ⟨s, (hrow ((hent _ _ _ _ _).1 he)).2⟩
  · rw [a4.labelled]
    exact (C17_reduce_labels hin hne h1).1 s s' (hrow ((hent _ _ _ _ _).1 he)).2 l
  · have k1 := (hent _ _ _ _ _).1 e1
    have g2 := (hrow ((hent _ _ _ _ _).1 e2)).2
    obtain ⟨i, r, m1, m2, m3, -⟩ := (C15_reduce_matrix hin h1).2 s a s' a ((hget _ _).2 ⟨k, k1⟩)
    have m4 := (m3 hs).1 d d' g2
    obtain ⟨r', hr', m5⟩ := (a4.pair s' a).2 ⟨r, by
      obtain ⟨r2, n1, n2⟩ := (c5 s' a).2 ⟨(s, a), (hget _ _).2 ⟨k, k1⟩⟩
      have e : r2 = r := by
        have := Dict.get?_of_mem hR.red.wf.keys n2
        rw [Dict.get?_of_mem hR.red.wf.keys m2] at this
        exact (Option.some.inj this).symm
      omega, m2⟩
    unfold prob
    rw [Dict.get?_of_mem a3.keys m5, Dict.get?_of_mem hin.wf.keys m1]
    simp only
    rw [a4.row s' a r r' m2 m5 d', m4]

/-- **C76.** `rf` writes its files whenever the model has one initial state that can reach a target, all targets are
states of the model and the two new labels are not in use. -/
theorem C76_rf_returns {i : Nat} (hi : M.statesByLabel il = .ok [i])
    (hreach : ∃ t ∈ M.labelled tl, Relation.ReflTransGen (Step M) i t) (hTN : ∀ t ∈ M.labelled tl, t < M.N)
    (h1 : ntl ∉ M.labS.d.keys) (h2 : nfl ∉ M.labS.d.keys) :
    ∃ mp lab' tra', rfCmd (K := K) ρ π π' kind lab tra il tl ntl nfl = .ok (mp, lab', tra') := by
  have hF := loadModel_spec h
  obtain ⟨res, hres⟩ := C13_reduce_returns (ρ := ρ) (input_of_load h hx ht) hne hi hreach hTN h1 h2 (Or.inl hF.dfltS) hF.dfltA
    (by rw [hF.rew]; simp) (by
      intro hd s a i hm
      have hk : kind = .dtmc := by rw [hF.dtmc] at hd; simpa using hd
      rw [(hF.chain hk).2] at hm
      obtain ⟨j, -, e⟩ := List.mem_map.1 hm
      simp only [Prod.mk.injEq] at e
      exact e.1.2.symm)
  obtain ⟨lab', tra', M', rf', a1, -⟩ := rf_files (ρ' := ρ) hπ hπ' h hx ht h6 hne hc hc' hres
  exact ⟨_, lab', tra', (rfCmd_ok h).2 ⟨res, hres, a1, rfl⟩⟩

/-- **C76 (completeness).** Every true bound of the original model has a certificate that
`certify -tol 0` calls "VALID" for the form written by `rf`. -/
theorem C76_certified_complete (φ : K →+*o ℝ) (hπ : ∀ l, (π l).Perm l)
    (hπ' : ∀ l, (π' l).Perm l) (h : loadModel kind lab tra = .ok M) (hx : ExactRows M) (ht : M.Total)
    (h6 : ∀ r t, ∃ n : Nat, M.P.get r t = n / 10 ^ 6) (hne : ntl ≠ nfl) (hc : CleanName ntl) (hc' : CleanName nfl)
    {mp : Mapping} {lab' tra' : List Char}
    (hrun : rfCmd (K := K) ρ π π' kind lab tra il tl ntl nfl = .ok (mp, lab', tra')) {i : Nat} (hi : i ∈ M.labelled il)
    {t : K} (h0 : 0 ≤ t) (h1 : t ≤ 1) (k : Nat) :
    (φ t ≤ M.prMin φ (M.labelled tl) i →
      ∃ z, certify ρ' kind lab' tra' il ntl nfl (some ⟨some "min", [⟨k, t, z⟩]⟩) 0 = ([true], .done)) ∧
    (φ t ≤ M.prMax φ (M.labelled tl) i → ∃ y, (∀ x ∈ y, 0 ≤ x) ∧
      certify ρ' kind lab' tra' il ntl nfl (some ⟨some "max", [⟨k, t, y⟩]⟩) 0 = ([true], .done)) := by
  obtain ⟨M', rf', i0, i', b1, b2, b3, b4, b5, b6, b7⟩ := rf_main (ρ' := ρ') hπ hπ' h hx ht h6 hne hc hc' hrun
  obtain rfl := (b4 i).1 hi
  have := C75_certify_complete φ b1 b2.sum b3 ((b5 i').2 rfl) b6 h0 h1 k
  rwa [(b7 φ).1, (b7 φ).2] at this

end

/-! ### example: an MDP with two targets and a state that is dropped -/

def rfLab : List Char := "0=\"init\" 1=\"goal\"\n0: 0\n2: 1\n3: 1\n".toList

def rfTra : List Char :=
  "5 6 8\n0 0 1 0.5\n0 0 4 0.5\n0 1 2 0.25\n0 1 0 0.75\n1 0 3 1\n2 0 0 1\n3 0 3 1\n4 0 4 1\n".toList

/-- the hypotheses of the theorems are met, and `certify` finds one of two certificates valid -/
example : ∃ (M : Sys ℚ) (mp : Mapping) (lab' tra' : List Char), loadModel .mdp rfLab rfTra = .ok M ∧ ExactRows M ∧ M.Total ∧
    (∀ r t, ∃ n : Nat, M.P.get r t = n / 10 ^ 6) ∧ CleanName "t" ∧ CleanName "f" ∧
    rfCmd (K := ℚ) exRnd id id .mdp rfLab rfTra "init" "goal" "t" "f" = .ok (mp, lab', tra') ∧
    certify (K := ℚ) exRnd .mdp lab' tra' "init" "t" "f" (some ⟨some "max", [⟨0, 1, [0, 4, 0, 1, 0]⟩, ⟨1, 1, [1, 0, 1, 0, 0]⟩]⟩) 0 =
      ([true, false], .done) := by
  obtain ⟨M, h1, h2⟩ := exists_of_ok_and (x := loadModel (K := ℚ) .mdp rfLab rfTra)
    (p := fun M => nineTest M.P && sixTest M.P && decide (M.N = 5) && ((List.range 5).all fun s => M.idx.any fun e => decide (e.1.1 = s ∧ e.2 < M.C)))
    (by decide +kernel)
  simp only [Bool.and_eq_true, decide_eq_true_eq] at h2
  obtain ⟨⟨mp, lab', tra'⟩, h3, h4⟩ := exists_of_ok_and (x := rfCmd (K := ℚ) exRnd id id .mdp rfLab rfTra "init" "goal" "t" "f")
    (p := fun r => decide (certify (K := ℚ) exRnd .mdp r.2.1 r.2.2 "init" "t" "f"
      (some ⟨some "max", [⟨0, 1, [0, 4, 0, 1, 0]⟩, ⟨1, 1, [1, 0, 1, 0, 0]⟩]⟩) 0 = ([true, false], .done))) (by decide +kernel)
  refine ⟨M, mp, lab', tra', h1, C75_nine_decimals h1 (nine_of_test h2.1.1.1), ?_, six_of_test h2.1.1.2, by unfold CleanName; decide, by unfold CleanName; decide, h3,
    of_decide_eq_true h4⟩
  intro s hs
  rw [h2.1.2] at hs
  obtain ⟨⟨⟨s', a⟩, i⟩, g1, g⟩ := List.any_eq_true.1 (List.all_eq_true.1 h2.2 s (List.mem_range.2 hs))
  obtain ⟨rfl, g2⟩ := of_decide_eq_true g
  exact ⟨a, i, g1, g2⟩

end Verif.Props
