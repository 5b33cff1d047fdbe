import Verif.Proofs.TreeExact
import Verif.Props.MILPExact
import Verif.Props.Solve
import Mathlib.LinearAlgebra.Matrix.Adjugate
import Mathlib.LinearAlgebra.Matrix.ToLinearEquiv
/-!
# C66: `TreeAlgo`

`min_witnesses_from_tree_decomp` on partitions whose quotient is a path.  The linear solver and the pruning with qhull
are parameters, about which only `LinOK` and `HullOK` are assumed.
-/
set_option linter.unusedSectionVars false

namespace Verif.Props
open Verif.Model Verif.Model.TreeDecomp Verif.Proofs Verif.Proofs.Tree Verif.Theory Finset

section
variable {K : Type} [Field K] [LinearOrder K] [IsStrictOrderedRing K]
variable {ρ : Graph.Rnd} {M : Sys K} {il tl fl : String} {rf : RF K} {mode : Mode} {t : K} {φ : K →+*o ℝ}
variable {lin : Nat → (Nat → K) → (Nat → K) → Nat → K} {hull : Nat → Dict Nat (List (List K)) → List (Nat × List K)}
variable {parts : List (List Nat)} {order : List Nat} {ub : Nat}

/-- the rows of the matrix are the states, as in every object of class `DTMC` built without an index (`dtmc.py:29-32`) -/
def RowsAreStates (M : Sys K) : Prop := ∀ s a i, ((s, a), i) ∈ M.idx → a = 0 ∧ i = s

/-- `v` has a predecessor in another part -/
def Entered (c : Chain K) (parts : List (List Nat)) (v : Nat) : Prop :=
  ∃ w < c.n, c.edge w v = true ∧ ∀ l ∈ parts, ¬(w ∈ l ∧ v ∈ l)

/-- The partitions for which the algorithm is right.  `order` lists the parts of a path from its end, every part has a
transition into the part before it in `order` and into no other part; the initial state is in the last part listed.
The target is reached directly only from the part listed first.  No transition joins two states of a part that both
have a predecessor in another part. -/
structure TreeOK (c : Chain K) (parts : List (List Nat)) (order : List Nat) : Prop where
  path : PathPartition c parts order
  leaf : ∀ p, order[0]? = some p → ∀ s < c.n, 0 < c.toTarget s → s ∈ parts.getD p []
  sep : ∀ l ∈ parts, ∀ u ∈ l, ∀ v ∈ l, Entered c parts u → Entered c parts v → c.edge u v = false

theorem row_self (h : RFOK rf) (hidx : RowsAreStates rf.sys) {s : Nat} (hs : s < rf.N) : s < rf.C ∧ rf.rowState s = some s := by
  obtain ⟨a, i, h1, h2⟩ := RFOK.exists_row h hs
  obtain ⟨-, rfl⟩ := hidx _ _ _ h1
  exact ⟨h2, (RFOK.rowState_iff h h2).2 ⟨a, h1⟩⟩

theorem row_eq (h : RFOK rf) (hidx : RowsAreStates rf.sys) {s : Fin rf.N} {r : Fin rf.C} (hr : r ∈ (h.core φ).rows s) : r.1 = s.1 := by
  obtain ⟨a, ha⟩ := (RFOK.rowState_iff h r.2).1 ((RFOK.mem_rows h φ).1 hr)
  exact (hidx _ _ _ ha).2

theorem chain_edge_iff (h : RFOK rf) (hidx : RowsAreStates rf.sys) {u v : Nat} (hu : u < rf.N) (hv : v < rf.N) :
    rf.chain.edge u v = true ↔ 0 < rf.P u v := by
  have hc := (row_self h hidx hu).1
  have : 0 < rf.P u v ↔ (rf.sys.P.items.get? (u, v)).isSome = true := by
    unfold RF.P
    rw [WF.get_pos_iff h.wf, Dict.get?_isSome]
    constructor
    · rintro ⟨p, hp⟩
      exact List.mem_map_of_mem (f := Prod.fst) hp
    · intro hm
      obtain ⟨⟨k, p⟩, h1, h2⟩ := List.mem_map.1 hm
      simp only at h2
      subst h2
      exact ⟨p, h1⟩
  rw [this]
  unfold RF.chain
  simp [hc, hv]

theorem chain_ok (h : RFLive rf) (hidx : RowsAreStates rf.sys) (φ : K →+*o ℝ) : Chain.OK rf.N (Q (φ : K →+* ℝ) rf.chain) := by
  have h0 : ∀ s t, 0 ≤ Q (φ : K →+* ℝ) rf.chain s t := fun s t => (phi_nonneg φ).2 (RFOK.P_nonneg h.toRFOK s t)
  have hrow : ∀ s < rf.N, ∑ t ∈ range rf.N, Q (φ : K →+* ℝ) rf.chain s t + φ (rf.b s) + φ (rf.sys.P.get s (rf.sys.N - 1)) = 1 := by
    intro s hs
    have := RFOK.row_sum h.toRFOK φ (RFOK.lt_C (row_self h.toRFOK hidx hs).1)
    rwa [Fin.sum_univ_eq_sum_range (fun t => φ (rf.P s t))] at this
  have hb : ∀ s, 0 ≤ φ (rf.b s) := fun s => (phi_nonneg φ).2 (RFOK.b_nonneg h.toRFOK s)
  have hf : ∀ s, 0 ≤ φ (rf.sys.P.get s (rf.sys.N - 1)) := fun s => (phi_nonneg φ).2 (WF.get_nonneg h.wf _ _)
  refine ⟨h0, fun s hs => ?_, fun B hB hne hcl => ?_⟩
  · have := hrow s hs; have := hb s; have := hf s; linarith
  · have key : ∀ s ∈ B, φ (rf.b s) = 0 ∧ ∀ t < rf.N, t ∉ B → Q (φ : K →+* ℝ) rf.chain s t = 0 := by
      intro s hs
      have h1 := hcl s hs
      have h2 := hrow s (mem_range.1 (hB hs))
      have h3 : ∑ t ∈ range rf.N \ B, Q (φ : K →+* ℝ) rf.chain s t + ∑ t ∈ B, Q (φ : K →+* ℝ) rf.chain s t =
          ∑ t ∈ range rf.N, Q (φ : K →+* ℝ) rf.chain s t := sum_sdiff hB
      have h4 : 0 ≤ ∑ t ∈ range rf.N \ B, Q (φ : K →+* ℝ) rf.chain s t := sum_nonneg fun t _ => h0 s t
      have h5 := hb s
      have h6 := hf s
      refine ⟨by linarith, fun t ht htB => ?_⟩
      have h7 : ∑ t ∈ range rf.N \ B, Q (φ : K →+* ℝ) rf.chain s t = 0 := by linarith
      exact (sum_eq_zero_iff_of_nonneg fun t _ => h0 s t).1 h7 t (mem_sdiff.2 ⟨mem_range.2 ht, htB⟩)
    obtain ⟨s, hs, r, hr, hpos⟩ := RFOK.live' φ h (univ.filter fun s : Fin rf.N => s.1 ∈ B) (by
      obtain ⟨s, hs⟩ := hne
      exact ⟨⟨s, mem_range.1 (hB hs)⟩, by simpa using hs⟩) (by
      intro s hs r hr t ht
      have hs : s.1 ∈ B := by simpa using hs
      have hrs := row_eq h.toRFOK hidx hr
      by_contra htB
      have htB : t.1 ∉ B := by simpa using htB
      have := (key s.1 hs).2 t.1 t.2 htB
      simp only [RFOK.core, hrs] at ht
      exact absurd this ht.ne')
    have hs : s.1 ∈ B := by simpa using hs
    have hrs := row_eq h.toRFOK hidx hr
    simp only [RFOK.core, hrs] at hpos
    exact absurd (key s.1 hs).1 hpos.ne'

theorem entered_iff {c : Chain K} (H : PathPartition c parts order) {v : Nat} (hv : v < c.n) :
    isInterface c parts v = true ↔ Entered c parts v := by
  rw [isInterface_iff H]
  refine exists_congr fun u => and_congr_right fun hu => and_congr_right fun _ => ?_
  constructor
  · rintro hne l hl ⟨h1, h2⟩
    obtain ⟨p, hp⟩ := List.getElem?_of_mem hl
    exact hne ((label_of_mem H ((mem_getD H).2 ⟨l, hp, h1⟩)).trans (label_of_mem H ((mem_getD H).2 ⟨l, hp, h2⟩)).symm)
  · intro h e
    obtain ⟨l, h1, h2⟩ := (mem_getD H).1 ((label_iff H hu).1 e)
    obtain ⟨l', h3, h4⟩ := (mem_getD H).1 ((label_iff H hv).1 rfl)
    rw [h1] at h3
    cases h3
    exact h l (List.mem_of_getElem? h1) ⟨h2, h4⟩

theorem chain_ctx (h : RFLive rf) (hidx : RowsAreStates rf.sys) (φ : K →+*o ℝ) (H : TreeOK rf.chain parts order) :
    Ctx rf.chain (φ : K →+* ℝ) parts order where
  path := H.path
  mono := phi_strict φ
  ok := chain_ok h hidx φ
  edge u hu v hv hp := (chain_edge_iff h.toRFOK hidx hu hv).2 hp
  tgt0 s := RFOK.b_nonneg h.toRFOK s
  leaf s hs hp := by
    rw [pos_iff H.path hs]
    have hl : 0 < order.length := by
      have := pos_lt H.path hs
      omega
    rw [List.getElem?_eq_getElem hl]
    rw [label_of_mem H.path (H.leaf _ (List.getElem?_eq_getElem hl) s hs hp)]
  init := by
    obtain ⟨p, -, h2⟩ := H.path.init
    obtain ⟨l, h3, h4⟩ := (mem_getD H.path).1 h2
    exact H.path.states l (List.mem_of_getElem? h3) _ h4
  sep u hu v hv he h1 h2 heq := by
    obtain ⟨l, h3, h4⟩ := (mem_getD H.path).1 ((label_iff H.path hv).1 rfl)
    obtain ⟨l', h5, h6⟩ := (mem_getD H.path).1 ((label_iff H.path hu).1 heq)
    rw [h3] at h5
    cases h5
    rw [H.sep l (List.mem_of_getElem? h3) u h6 v h4 ((entered_iff H.path hu).1 h1) ((entered_iff H.path hv).1 h2)] at he
    cases he

/-- the values of a restricted chain solve its equations -/
theorem cutVal_val (h : RFOK rf) (hidx : RowsAreStates rf.sys) (φ : K →+*o ℝ) (mode : Mode) (U : Finset Nat) (hU : U ⊆ range rf.N) :
    Chain.Val rf.N (Q (φ : K →+* ℝ) rf.chain) (gain (φ : K →+* ℝ) rf.chain) U
      (fun s => if hs : s < rf.N then cutVal h φ mode (· ∈ U) ⟨s, hs⟩ else 0) := by
  have hsub := Core.cut_sub (U := {s : Fin rf.N | s.1 ∈ U}) (RFOK.sub h φ)
  have hstep : ∀ s : Fin rf.N, ∃ r ∈ (h.core φ).rows s,
      ((h.core φ).cut {s | s.1 ∈ U}).step (cutVal h φ mode (· ∈ U)) s r = cutVal h φ mode (· ∈ U) s := by
    intro s
    cases mode with
    | min => exact Core.exists_step_Vmin hsub.toOK hsub.bound s
    | max => exact Core.exists_step_Vmax hsub.toOK hsub.bound s
  refine ⟨fun s hs => ?_, fun s hs => ?_⟩
  · by_cases hn : s < rf.N
    · obtain ⟨r, hr, e⟩ := hstep ⟨s, hn⟩
      simp only [dif_pos hn]
      rw [← e]
      simp only [Core.step, Core.cut, Set.mem_ofPred_eq, hs, if_false, false_and, zero_mul, sum_const_zero, add_zero]
    · simp only [dif_neg hn]
  · have hn := mem_range.1 (hU hs)
    obtain ⟨r, hr, e⟩ := hstep ⟨s, hn⟩
    have hrs : r.1 = s := row_eq h hidx hr
    simp only [dif_pos hn]
    rw [← e]
    simp only [Core.step, Core.cut, Set.mem_ofPred_eq, hs, if_true, true_and, RFOK.core, hrs]
    congr 1
    have e1 : ∀ t : Fin rf.N, (if t.1 ∈ U then φ (rf.P s t.1) else 0) * cutVal h φ mode (· ∈ U) t =
        (fun t => if t ∈ U then Q (φ : K →+* ℝ) rf.chain s t * (if hs : t < rf.N then cutVal h φ mode (· ∈ U) ⟨t, hs⟩ else 0) else 0) t.1 := by
      intro t
      by_cases ht : t.1 ∈ U
      · simp only [if_pos ht, dif_pos t.2]; rfl
      · simp only [if_neg ht, zero_mul]
    rw [sum_congr rfl fun t _ => e1 t, Fin.sum_univ_eq_sum_range
      (fun t => if t ∈ U then Q (φ : K →+* ℝ) rf.chain s t * (if hs : t < rf.N then cutVal h φ mode (· ∈ U) ⟨t, hs⟩ else 0) else 0),
      ← sum_filter]
    refine sum_congr ?_ fun _ _ => rfl
    ext t
    rw [mem_filter, mem_range]
    exact ⟨fun g => g.2, fun g => ⟨mem_range.1 (hU g), g⟩⟩

theorem cutVal_of_val (h : RFLive rf) (hidx : RowsAreStates rf.sys) (mode : Mode) {U : Finset Nat} (hU : U ⊆ range rf.N)
    {x : Nat → ℝ} (hx : Chain.Val rf.N (Q (φ : K →+* ℝ) rf.chain) (gain (φ : K →+* ℝ) rf.chain) U x) (s : Fin rf.N) :
    cutVal h.toRFOK φ mode (· ∈ U) s = x s.1 := by
  have hv := cutVal_val h.toRFOK hidx φ mode U hU
  have ext : ∀ {y : Nat → ℝ} (_ : Chain.Val rf.N (Q (φ : K →+* ℝ) rf.chain) (gain (φ : K →+* ℝ) rf.chain) U y), ∀ s ∈ U, s < rf.N →
      y s = gain (φ : K →+* ℝ) rf.chain s + ∑ t ∈ range rf.N, Q (φ : K →+* ℝ) rf.chain s t * y t := by
    intro y hy s hs _
    rw [hy.eq s hs]
    congr 1
    refine sum_subset hU fun t _ ht => ?_
    rw [hy.out t ht, mul_zero]
  have := Chain.unique (chain_ok h hidx φ) (U := U) (fun s _ hs => (hv.out s hs).trans (hx.out s hs).symm) (ext hv) (ext hx) s.1 s.2
  simpa only [dif_pos s.2] using this

/-- a set of states as a certificate -/
def indicator (n : Nat) (T : Finset Nat) : List K := (List.range n).map fun s => if s ∈ T then 1 else 0

theorem selected_indicator {n : Nat} {T : Finset Nat} (hT : T ⊆ range n) (s : Nat) :
    Selected M .min (indicator n T : List K) s ↔ s ∈ T := by
  unfold Selected indicator
  simp only [List.getElem?_map, Option.map_eq_some_iff]
  constructor
  · rintro ⟨c, ⟨a, h1, rfl⟩, h2⟩
    obtain ⟨h3, h4⟩ := List.getElem?_eq_some_iff.1 h1
    rw [List.getElem_range] at h4
    subst h4
    by_contra hs
    rw [if_neg hs] at h2
    exact lt_irrefl _ h2
  · intro hs
    refine ⟨1, ⟨s, ?_, if_pos hs⟩, zero_lt_one⟩
    rw [List.getElem?_eq_getElem (by simpa using mem_range.1 (hT hs)), List.getElem_range]

/-- a set of states with a value is a witness -/
theorem witness_of_val (hM : M.WF) (hL : LabelMap M.labS) (hrf : RF.make ρ M il tl fl false = .ok rf) (hidx : RowsAreStates M)
    (hlS : M.labS.dflt = true ∨ ∀ s < M.N, ∃ l, s ∈ M.labelled l) (hA : LabelMap M.labA) (hlA : M.labA.dflt = true)
    {T : Finset Nat} (hT : T ⊆ range rf.N) {x : Nat → ℝ} (hx : Chain.Val rf.N (Q (φ : K →+* ℝ) rf.chain) (gain (φ : K →+* ℝ) rf.chain) T x)
    (ht : 0 < φ t) (hv : φ t ≤ x rf.initial) (mode : Mode) : Witness rf il tl φ mode t none T.card := by
  classical
  obtain ⟨eM, ei, -⟩ := make_fields hrf
  have hlive := rflive_built hM hrf
  have hidx' : RowsAreStates rf.sys := by rw [eM]; exact hidx
  have hNM : rf.N = M.N - 2 := by unfold RF.N; rw [eM]
  have hinit : rf.initial ∈ T := by
    by_contra hn
    rw [hx.out _ hn] at hv
    linarith
  obtain ⟨y, hy⟩ : ∃ y, Subsystem.make rf (indicator rf.N T) .min true = .ok y := by
    unfold Subsystem.make indicator
    simp only [List.length_map, List.length_range]
    exact ⟨_, if_pos (by unfold RF.N; rfl)⟩
  obtain ⟨res, hr⟩ := (C47_returns (ρ' := ρ) hM hL hrf hy hlS hA hlA (fun _ s a i hi => (hidx s a i hi).1)).2 (by
    intro i hi
    rw [initial_eq hM hrf hi]
    exact (selected_indicator hT _).2 hinit)
  obtain ⟨ks, k1, k2, -, -, -, -, -, -, -, -, -, -, k5, -⟩ := C47_construction hM hL hrf hy hr
  have hk : Naming M .min (indicator rf.N T) ks := ⟨k1, k2⟩
  obtain ⟨n, hn, e⟩ := List.mem_iff_getElem.1 ((k2 rf.initial).2 ((selected_indicator hT _).2 hinit))
  have hn' : ks[n]? = some rf.initial := by rw [List.getElem?_eq_getElem hn, e]
  have hl : rf.initial ∈ M.labelled il := by
    have := hlive.initLab
    rw [eM, ei] at this
    rw [labelled_of_single this]
    rfl
  obtain ⟨hs, v1, v2⟩ := sub_values hM hL hrf hy hr φ hk hn'
  have hset : {s : Fin rf.N | Selected M .min (indicator rf.N T : List K) s.1} = {s | s.1 ∈ T} :=
    Set.ext fun s => selected_indicator (M := M) hT s.1
  refine ⟨indicator rf.N T, .min, true, y, ρ, res, n, hy, hr, (k5 il n).2 (Or.inl ⟨_, hn', hl⟩), ?_, ?_⟩
  · have hval := cutVal_of_val hlive hidx' mode hT hx ⟨rf.initial, hs⟩
    unfold Model.Sys.pr
    rw [hset] at v1 v2
    cases mode with
    | min => simp only; rw [v1]; exact hv.trans hval.ge
    | max => simp only; rw [v2]; exact hv.trans hval.ge
  · rw [cost_sub hM hL hrf hy hr]
    unfold cost
    simp only
    refine congrArg card (Finset.ext fun s => ?_)
    rw [mem_filter, mem_range, selected_indicator hT]
    exact ⟨fun g => g.2, fun g => ⟨by rw [← hNM]; exact mem_range.1 (hT g), g⟩⟩

/-- ... and a witness gives a set -/
theorem val_of_witness (hM : M.WF) (hL : LabelMap M.labS) (hrf : RF.make ρ M il tl fl false = .ok rf) (hidx : RowsAreStates M)
    {k : Nat} (hw : Witness rf il tl φ mode t none k) :
    ∃ W ⊆ range rf.N, ∃ x, W.card = k ∧ Chain.Val rf.N (Q (φ : K →+* ℝ) rf.chain) (gain (φ : K →+* ℝ) rf.chain) W x ∧ φ t ≤ x rf.initial := by
  classical
  obtain ⟨eM, -⟩ := make_fields hrf
  have hidx' : RowsAreStates rf.sys := by rw [eM]; exact hidx
  obtain ⟨U, hin, hc, hv⟩ := witness_cut hM hL hrf hw
  have hNM : rf.N = M.N - 2 := by unfold RF.N; rw [eM]
  have hset : {s : Fin rf.N | U s.1} = {s | s.1 ∈ (range rf.N).filter U} := by
    ext s
    simp
  refine ⟨(range rf.N).filter U, filter_subset _ _, _, ?_, cutVal_val (rfok_built hM hrf) hidx' φ mode _ (filter_subset _ _), ?_⟩
  · rw [← hc, hNM]
    unfold cost
    simp only
  · simp only [dif_pos hin]
    unfold cutVal at hv ⊢
    rw [hset] at hv
    cases mode with
    | min => exact hv
    | max => exact hv

/-- **C66**.  On a path of parts a number returned by the tree algorithm is the least number of states of a subsystem
with at least the required probability, and it is at most the upper bound.  `mode` is irrelevant for a Markov chain.
(Missing: partitions that are not paths, target transitions from other parts, and transitions between states where a
part is entered; for the last two the claim is false, see below.) -/
theorem C66_path_partial (hM : M.WF) (hL : LabelMap M.labS) (hrf : RF.make ρ M il tl fl false = .ok rf) (hidx : RowsAreStates M)
    (hlS : M.labS.dflt = true ∨ ∀ s < M.N, ∃ l, s ∈ M.labelled l) (hA : LabelMap M.labA) (hlA : M.labA.dflt = true)
    (H : TreeOK rf.chain parts order) (hl : LinOK lin) (hh : HullOK (φ : K →+* ℝ) hull) (ht : 0 < t) {k : Nat}
    (h : minWitnesses lin rf.chain parts hull order t ub = .ok k) :
    Witness rf il tl φ mode t none k ∧ k ≤ ub ∧ ∀ k', Witness rf il tl φ mode t none k' → k ≤ k' := by
  obtain ⟨eM, -⟩ := make_fields hrf
  have hctx := chain_ctx (rflive_built hM hrf) (by rw [eM]; exact hidx) φ H
  have ht' : 0 < φ t := (phi_pos φ).2 ht
  obtain ⟨T, hT, x, rfl, hub, hx, hv⟩ := hctx.exact_sound hl hh h
  refine ⟨witness_of_val hM hL hrf hidx hlS hA hlA hT hx ht' hv mode, hub, fun k' hw => ?_⟩
  obtain ⟨W, hW, y, rfl, hy, hyv⟩ := val_of_witness hM hL hrf hidx hw
  exact hctx.exact_min hl hh ht' h hW hy hyv

/-- **C66**, termination: if there is a subsystem within the upper bound, the algorithm returns a number or fails with a
`KeyError`. -/
theorem C66_returns_partial (hM : M.WF) (hL : LabelMap M.labS) (hrf : RF.make ρ M il tl fl false = .ok rf) (hidx : RowsAreStates M)
    (H : TreeOK rf.chain parts order) (hl : LinOK lin) (hh : HullOK (φ : K →+* ℝ) hull) (ht : 0 < t) {k : Nat}
    (hw : Witness rf il tl φ mode t none k) (hk : k ≤ ub) :
    (∃ k, minWitnesses lin rf.chain parts hull order t ub = .ok k) ∨
      minWitnesses lin rf.chain parts hull order t ub = .error .keyError := by
  obtain ⟨eM, -⟩ := make_fields hrf
  have hlive := rflive_built hM hrf
  have hidx' : RowsAreStates rf.sys := by rw [eM]; exact hidx
  have hctx := chain_ctx hlive hidx' φ H
  obtain ⟨W, hW, y, rfl, hy, hyv⟩ := val_of_witness hM hL hrf hidx hw
  have hN := hlive.hN
  have hNN : rf.N = rf.sys.N - 2 := rfl
  refine hctx.exact_returns hl hh ((phi_pos φ).2 ht) (fun v hv hvi => ?_) (fun v hv => ?_) hW hy hyv hk
  · have hv : v < rf.N := hv
    have hr := hlive.reach v (by omega) (by omega)
    rcases Relation.ReflTransGen.cases_tail hr with e | ⟨u, h1, a, i, e1, e2, e3⟩
    · exact absurd e hvi
    · obtain ⟨rfl, rfl⟩ := hidx' _ _ _ e1
      have hu := WF.state_lt hlive.wf e1 e2
      have hug : i ≠ rf.sys.N - 2 := by
        rintro rfl
        have := RFOK.goal_stuck hlive.toRFOK (Relation.ReflTransGen.single ⟨0, _, e1, e2, e3⟩)
        omega
      have huf : i ≠ rf.sys.N - 1 := by
        rintro rfl
        have := RFOK.fail_stuck hlive.toRFOK (Relation.ReflTransGen.single ⟨0, _, e1, e2, e3⟩)
        omega
      have hu' : i < rf.N := by omega
      exact ⟨i, hu', (chain_edge_iff hlive.toRFOK hidx' hu' hv).2 e3⟩
  · have hv : v < rf.N := hv
    have hr := hlive.live v (by omega) (by omega)
    rcases Relation.ReflTransGen.cases_head hr with e | ⟨w, ⟨a, i, e1, e2, e3⟩, h1⟩
    · omega
    · obtain ⟨rfl, rfl⟩ := hidx' _ _ _ e1
      have hw := (WF.get_range hlive.wf e3).2
      by_cases hwg : w = rf.sys.N - 2
      · subst hwg
        exact Or.inl e3
      · have hwf : w ≠ rf.sys.N - 1 := by
          rintro rfl
          have := RFOK.fail_stuck hlive.toRFOK h1
          omega
        have hw' : w < rf.N := by omega
        exact Or.inr ⟨w, hw', (chain_edge_iff hlive.toRFOK hidx' hv hw').2 e3⟩

/-- **C66** for `TreeAlgo.solve` with a known upper bound: the value reported. -/
theorem C66_solve_partial (hM : M.WF) (hL : LabelMap M.labS) (hrf : RF.make ρ M il tl fl false = .ok rf) (hidx : RowsAreStates M)
    (hlS : M.labS.dflt = true ∨ ∀ s < M.N, ∃ l, s ∈ M.labelled l) (hA : LabelMap M.labA) (hlA : M.labA.dflt = true)
    (H : TreeOK rf.chain parts order) (hl : LinOK lin) (hh : HullOK (φ : K →+* ℝ) hull) (ht : 0 < t)
    {σ : Type} {qsMax qsMin : Except Err (ProblemResult σ K)} {r : ProblemResult σ K}
    {tree : K → Except Err K} (htree : tree ub = (minWitnesses lin rf.chain parts hull order t ub).map Nat.cast)
    (h : solveLast (treeAlgo true (some (ub : K)) qsMax qsMin tree) = .ok r) :
    ∃ k : Nat, r = ⟨.success, none, some (k : K), none⟩ ∧ Witness rf il tl φ mode t none k ∧ k ≤ ub ∧
      ∀ k', Witness rf il tl φ mode t none k' → k ≤ k' := by
  cases hm : minWitnesses lin rf.chain parts hull order t ub with
  | error e => simp [treeAlgo, htree, hm, Except.map, solveLast] at h
  | ok k =>
    have hne : (k : K) ≠ -1 := by
      have : (0 : K) ≤ k := Nat.cast_nonneg k
      intro e
      rw [e] at this
      linarith
    have := C49_tree_partial (ub : K) (k : K) qsMax qsMin tree (by rw [htree, hm]; rfl) hne
    rw [this.2] at h
    cases h
    exact ⟨k, rfl, C66_path_partial hM hL hrf hidx hlS hA hlA H hl hh ht hm⟩

end

/-! ### the assumptions about the external routines can be met -/

section
variable {K : Type} [Field K] [LinearOrder K] [IsStrictOrderedRing K]

/-- Cramer's rule -/
def cramer {K : Type} [Field K] (n : Nat) (arr b : Nat → K) (i : Nat) : K :=
  let A : Matrix (Fin n) (Fin n) K := Matrix.of fun j i => arr (n * i.1 + j.1)
  if h : i < n then (A.updateCol ⟨i, h⟩ fun j => b j.1).det / A.det else 0

omit [LinearOrder K] [IsStrictOrderedRing K] in
theorem cramer_ok : LinOK (cramer (K := K)) := by
  intro n arr b h j hj
  let A : Matrix (Fin n) (Fin n) K := Matrix.of fun j i => arr (n * i.1 + j.1)
  have hdet : A.det ≠ 0 := by
    intro h0
    obtain ⟨v, hv, hA⟩ := Matrix.exists_mulVec_eq_zero_iff.2 h0
    refine hv (funext fun i => ?_)
    have := h (fun i => if hi : i < n then v ⟨i, hi⟩ else 0) (fun j hj => by
      have := congrFun hA ⟨j, hj⟩
      simp only [Matrix.mulVec, dotProduct, A, Matrix.of_apply, Pi.zero_apply] at this
      rw [← this, Finset.sum_range]
      exact Finset.sum_congr rfl fun i _ => by simp only [dif_pos i.2]) i.1 i.2
    simp only [dif_pos i.2] at this
    exact this
  have e := congrFun (Matrix.mulVec_cramer A fun j => b j.1) ⟨j, hj⟩
  simp only [Matrix.mulVec, dotProduct, Pi.smul_apply, smul_eq_mul] at e
  rw [Finset.sum_range]
  have e2 : ∀ i : Fin n, arr (n * i.1 + j) * cramer n arr b i.1 = (A ⟨j, hj⟩ i * Matrix.cramer A (fun j => b j.1) i) / A.det := by
    intro i
    unfold cramer
    simp only [dif_pos i.2, Matrix.cramer_apply]
    exact mul_div_assoc' _ _ _
  rw [Finset.sum_congr rfl fun i _ => e2 i, ← Finset.sum_div, e, mul_div_cancel_left₀ _ hdet]

/-- keep all points -/
def keepAll (_ : Nat) (d : Dict Nat (List (List K))) : List (Nat × List K) := d.flatMap fun e => ((d.get? e.1).getD []).map fun v => (e.1, v)

theorem keepAll_ok (φ : K →+* ℝ) : HullOK φ (keepAll (K := K)) := by
  have key : ∀ (dim : Nat) (d : Dict Nat (List (List K))) k v, (k, v) ∈ keepAll dim d ↔ InD d k v := by
    intro dim d k v
    unfold keepAll InD
    simp only [List.mem_flatMap, List.mem_map, Prod.mk.injEq]
    constructor
    · rintro ⟨⟨a, l⟩, h1, w, h2, rfl, rfl⟩
      simp only at h2 ⊢
      cases hg : d.get? a with
      | none => rw [hg] at h2; cases h2
      | some l' => rw [hg] at h2; exact ⟨l', rfl, h2⟩
    · rintro ⟨l, h1, h2⟩
      exact ⟨(k, l), Dict.mem_of_get? h1, v, by rw [h1]; exact h2, rfl, rfl⟩
  intro dim d _
  exact ⟨fun k v h => (key dim d k v).1 h, fun w _ k v h _ => ⟨k, v, (key dim d k v).2 h, le_rfl, le_rfl⟩⟩

/-! ### deciding whether a partition is a path -/

def treeCheck (c : Chain K) (parts : List (List Nat)) (order : List Nat) : Bool :=
  parts.all (fun l => l.all fun v => decide (v < c.n)) &&
  (List.range c.n).all (fun v => parts.any fun l => l.contains v) &&
  decide parts.flatten.Nodup && decide (order.Perm (List.range parts.length)) && !order.isEmpty &&
  (List.range (order.length - 1)).all (fun i => (List.range c.n).any fun u => (List.range c.n).any fun v =>
    c.edge u v && (parts.getD (order.getD (i + 1) 0) []).contains u && (parts.getD (order.getD i 0) []).contains v) &&
  (List.range c.n).all (fun u => (List.range c.n).all fun v => !c.edge u v || (parts.any fun l => l.contains u && l.contains v) ||
    (List.range (order.length - 1)).any fun i =>
      (parts.getD (order.getD (i + 1) 0) []).contains u && (parts.getD (order.getD i 0) []).contains v) &&
  (parts.getD (order.getD (order.length - 1) 0) []).contains c.init

/-- the two further conditions -/
def treeCheck' (c : Chain K) (parts : List (List Nat)) (order : List Nat) : Bool :=
  let entered := fun v => (List.range c.n).any fun w => c.edge w v && parts.all fun l => !(l.contains w && l.contains v)
  (List.range c.n).all (fun s => !decide (0 < c.toTarget s) || (parts.getD (order.getD 0 0) []).contains s) &&
  parts.all fun l => l.all fun u => l.all fun v => !entered u || !entered v || !c.edge u v

theorem treeCheck_sound {c : Chain K} {parts : List (List Nat)} {order : List Nat} (h : treeCheck c parts order = true) :
    PathPartition c parts order := by
  unfold treeCheck at h
  simp only [Bool.and_eq_true, List.all_eq_true, List.any_eq_true, decide_eq_true_iff, List.mem_range, Bool.not_eq_true', List.contains_iff_mem,
    Bool.or_eq_true, and_assoc] at h
  obtain ⟨h1, h2, h3, h4, h5, h6, h7, h8⟩ := h
  have hget : ∀ i p : Nat, order[i]? = some p → order.getD i 0 = p := fun i p hp => by simp [List.getD_eq_getElem?_getD, hp]
  have hget' : ∀ i : Nat, i < order.length → order[i]? = some (order.getD i 0) := fun i hi => by
    rw [List.getElem?_eq_getElem hi, List.getD_eq_getElem _ _ hi]
  refine ⟨h1, fun v hv => ?_, fun p q l l' v hp hq hv hv' => ?_, h4, fun i p q hp hq => ?_, fun u v hu hv he => ?_, ?_⟩
  · obtain ⟨l, hl, hm⟩ := h2 v hv
    obtain ⟨p, hp⟩ := List.getElem?_of_mem hl
    exact ⟨p, l, hp, hm⟩
  · by_contra hne
    have hpw := (List.nodup_flatten.1 h3).2
    rw [List.pairwise_iff_getElem] at hpw
    obtain ⟨a1, a2⟩ := List.getElem?_eq_some_iff.1 hp
    obtain ⟨b1, b2⟩ := List.getElem?_eq_some_iff.1 hq
    rcases lt_or_gt_of_ne hne with hlt | hlt
    · exact hpw p q a1 b1 hlt (a2 ▸ hv) (b2 ▸ hv')
    · exact hpw q p b1 a1 hlt (b2 ▸ hv') (a2 ▸ hv)
  · have hi := (List.getElem?_eq_some_iff.1 hq).1
    obtain ⟨u, hu, v, hv, h9, h10, h11⟩ := h6 i (by omega)
    rw [hget _ _ hq] at h10
    rw [hget _ _ hp] at h11
    exact ⟨u, v, hu, hv, h9, h10, h11⟩
  · rcases h7 u hu v hv with (h9 | ⟨l, hl, h10⟩) | ⟨i, hi, h10, h11⟩
    · rw [he] at h9; cases h9
    · exact Or.inl ⟨l, hl, h10⟩
    · exact Or.inr ⟨i, _, _, hget' i (by omega), hget' (i + 1) (by omega), h10, h11⟩
  · have hl : 0 < order.length := by
      cases order with
      | nil => cases h5
      | cons _ _ => simp
    exact ⟨_, by rw [List.getLast?_eq_getElem?]; exact hget' _ (by omega), h8⟩

theorem treeCheck'_sound {c : Chain K} {parts : List (List Nat)} {order : List Nat} (h : treeCheck c parts order = true)
    (h' : treeCheck' c parts order = true) : TreeOK c parts order := by
  unfold treeCheck' at h'
  simp only [Bool.and_eq_true, List.all_eq_true, List.mem_range, Bool.not_eq_true', List.contains_iff_mem,
    Bool.or_eq_true, decide_eq_false_iff_not, List.any_eq_false] at h'
  obtain ⟨h1, h2⟩ := h'
  refine ⟨treeCheck_sound h, fun p hp s hs hpos => ?_, fun l hl u hu v hv hu' hv' => ?_⟩
  · rcases h1 s hs with h3 | h3
    · exact absurd hpos h3
    · simpa [List.getD_eq_getElem?_getD, hp] using h3
  · have key : ∀ x, Entered c parts x → ¬ ∀ w < c.n, ¬(c.edge w x = true ∧ ∀ l ∈ parts, (l.contains w && l.contains x) = false) := by
      rintro x ⟨w, g1, g2, g3⟩ hn
      refine hn w g1 ⟨g2, fun l hl => ?_⟩
      have := g3 l hl
      rw [Bool.eq_false_iff]
      intro hc
      rw [Bool.and_eq_true, List.contains_iff_mem, List.contains_iff_mem] at hc
      exact this hc
    rcases h2 l hl u hu v hv with (h3 | h3) | h3
    · exact absurd h3 (key u hu')
    · exact absurd h3 (key v hv')
    · exact h3

end

/-! ### concrete chains -/

/-- a chain as the package would build it: states `0 … n-1`, goal `n`, fail `n+1`, initial state 0 -/
def treeSys (n : Nat) (items : Dict (Nat × Nat) ℚ) : Sys ℚ :=
  mkSys ⟨n + 2, n + 2, items ++ [((n, n), 1), ((n + 1, n + 1), 1)]⟩ ((List.range (n + 2)).map fun s => ((s, 0), s))
    (IDict.mk' [("init", [0]), ("goal", [n]), ("fail", [n + 1])] true)

/-- what the algorithm reads -/
def treeChain (M : Sys ℚ) : Chain ℚ := ⟨M.N - 2, fun u v => decide (u < M.C - 2) && decide (v < M.N - 2) && (M.P.items.get? (u, v)).isSome,
  M.P.get, fun s => M.P.get s (M.N - 2), 0⟩

theorem treeSys_rows (n : Nat) (items : Dict (Nat × Nat) ℚ) : RowsAreStates (treeSys n items) := by
  intro s a i h
  obtain ⟨x, -, hx⟩ := List.mem_map.1 h
  simp only [Prod.mk.injEq] at hx
  exact ⟨hx.1.2.symm, hx.2.symm.trans hx.1.1⟩

structure TreeEx (M : Sys ℚ) (rf : RF ℚ) : Prop where
  wf : M.WF
  lS : LabelMap M.labS
  lA : LabelMap M.labA
  dS : M.labS.dflt = true
  dA : M.labA.dflt = true
  rows : RowsAreStates M
  make : RF.make exRnd M "init" "goal" "fail" false = .ok rf
  chain : rf.chain = treeChain M

theorem treeEx {n : Nat} {items : Dict (Nat × Nat) ℚ}
    (h1 : ((treeSys n items).P.items.map Prod.fst).Nodup)
    (h2 : ∀ e ∈ (treeSys n items).P.items, (e.1.1 < n + 2 ∧ e.1.2 < n + 2) ∧ 0 < e.2)
    (h3 : ∀ i < n + 2, ∑ j ∈ Finset.range (n + 2), (treeSys n items).P.get i j = 1)
    (h6 : (Graph.build (n + 2) (invGet? (treeSys n items).idx) (treeSys n items).P.items (Graph.empty (n + 2))).isOk = true)
    (h7 : (RF.make exRnd (treeSys n items) "init" "goal" "fail" false).map RF.initial = .ok 0) : ∃ rf, TreeEx (treeSys n items) rf := by
  obtain ⟨rf, hrf, hi⟩ : ∃ rf, RF.make exRnd (treeSys n items) "init" "goal" "fail" false = .ok rf ∧ rf.initial = 0 := by
    cases hm : RF.make exRnd (treeSys n items) "init" "goal" "fail" false with
    | error e => rw [hm] at h7; cases h7
    | ok rf => rw [hm] at h7; exact ⟨rf, rfl, Except.ok.inj h7⟩
  have hinj : Function.Injective fun s : Nat => (s, 0) := fun a b h => (Prod.mk.inj h).1
  refine ⟨rf, mkSys_wf h1 h2 h3 ?_ ?_ h6, ?_, labelMap_empty, rfl, rfl, treeSys_rows n items, hrf, ?_⟩
  · rw [List.map_map]
    exact List.Nodup.map hinj List.nodup_range
  · rw [List.map_map]
    exact List.Nodup.map (fun a b h => h) List.nodup_range
  · refine ⟨id, _, true, [], fun l => List.Perm.refl _, ⟨by simp, ?_⟩, rfl⟩
    simp
  · obtain ⟨e, -⟩ := make_fields hrf
    unfold RF.chain treeChain RF.N RF.C RF.P RF.b
    rw [e, hi]

/-- states 0 to 3; 0 goes to 1 and 2, which go to 3 -/
def forkSys : Sys ℚ := treeSys 4 [((0, 1), 1/2), ((0, 2), 1/4), ((0, 5), 1/4), ((1, 3), 1), ((2, 3), 1), ((3, 4), 1/2), ((3, 5), 1/2)]

theorem fork_ex : ∃ rf, TreeEx forkSys rf :=
  treeEx (by decide +kernel) (by decide +kernel) (by decide +kernel) (by decide +kernel) (by decide +kernel)

theorem fork_tree : TreeOK (treeChain forkSys) [[0, 1, 2], [3]] [1, 0] :=
  treeCheck'_sound (by decide +kernel) (by decide +kernel)

/-- the hypotheses of `C66_path_partial` are met, with a result of 4 states for probability 3/8 -/
example : ∃ rf, RF.make exRnd forkSys "init" "goal" "fail" false = .ok rf ∧ TreeOK rf.chain [[0, 1, 2], [3]] [1, 0] ∧
    minWitnesses cramer rf.chain [[0, 1, 2], [3]] keepAll [1, 0] (3/8) 4 = .ok 4 ∧
    ∀ (φ : ℚ →+*o ℝ) k', Witness rf "init" "goal" φ .min (3/8) none k' → 4 ≤ k' := by
  obtain ⟨rf, h⟩ := fork_ex
  have hr : minWitnesses cramer rf.chain [[0, 1, 2], [3]] keepAll [1, 0] (3/8) 4 = .ok 4 := by
    rw [h.chain]; decide +kernel
  have ht : TreeOK rf.chain [[0, 1, 2], [3]] [1, 0] := by rw [h.chain]; exact fork_tree
  exact ⟨rf, h.make, ht, hr, fun φ => (C66_path_partial h.wf h.lS h.make h.rows (Or.inl h.dS) h.lA h.dA ht cramer_ok (keepAll_ok _)
    (by norm_num) hr).2.2⟩

/-- ... and 3 states for probability 1/8 -/
example : ∃ rf, RF.make exRnd forkSys "init" "goal" "fail" false = .ok rf ∧
    ∀ (φ : ℚ →+*o ℝ), Witness rf "init" "goal" φ .max (1/8) none 3 ∧ ∀ k', Witness rf "init" "goal" φ .max (1/8) none k' → 3 ≤ k' := by
  obtain ⟨rf, h⟩ := fork_ex
  have hr : minWitnesses cramer rf.chain [[0, 1, 2], [3]] keepAll [1, 0] (1/8) 4 = .ok 3 := by
    rw [h.chain]; decide +kernel
  have ht : TreeOK rf.chain [[0, 1, 2], [3]] [1, 0] := by rw [h.chain]; exact fork_tree
  refine ⟨rf, h.make, fun φ => ?_⟩
  have := C66_path_partial (φ := φ) (mode := .max) h.wf h.lS h.make h.rows (Or.inl h.dS) h.lA h.dA ht cramer_ok (keepAll_ok _) (by norm_num) hr
  exact ⟨this.1, this.2.2⟩

/-- the hypotheses of `C66_returns_partial` and `C66_solve_partial` are met -/
example : ∃ rf, RF.make exRnd forkSys "init" "goal" "fail" false = .ok rf ∧ TreeOK rf.chain [[0, 1, 2], [3]] [1, 0] ∧
    (∀ φ : ℚ →+*o ℝ, Witness rf "init" "goal" φ .max (1/8) none 3) ∧
    ∃ r, solveLast (treeAlgo (σ := Unit) true (some ((4 : Nat) : ℚ)) (.error .keyError) (.error .keyError)
      fun _ => (minWitnesses cramer rf.chain [[0, 1, 2], [3]] keepAll [1, 0] (1/8) 4).map Nat.cast) = .ok r := by
  obtain ⟨rf, h⟩ := fork_ex
  have hr : minWitnesses cramer rf.chain [[0, 1, 2], [3]] keepAll [1, 0] (1/8) 4 = .ok 3 := by
    rw [h.chain]; decide +kernel
  have ht : TreeOK rf.chain [[0, 1, 2], [3]] [1, 0] := by rw [h.chain]; exact fork_tree
  refine ⟨rf, h.make, ht, fun φ => (C66_path_partial h.wf h.lS h.make h.rows (Or.inl h.dS) h.lA h.dA ht cramer_ok (keepAll_ok _)
    (by norm_num) hr).1, _, (C49_tree_partial _ 3 _ _ _ (by rw [hr]; rfl) (by norm_num)).2⟩

/-! ### wrong results -/

/-- 0 goes to 1, which loops -/
def loopSys : Sys ℚ := treeSys 2 [((0, 1), 1/2), ((0, 3), 1/2), ((1, 1), 1/2), ((1, 2), 1/4), ((1, 3), 1/4)]

/-- **C66** is false if a state where a part is entered has a loop: a number is returned although no subsystem, not
even the whole system, reaches the target with the required probability. -/
theorem C66_loop_false : ∃ (M : Sys ℚ) (rf : RF ℚ), M.WF ∧ RowsAreStates M ∧ RF.make exRnd M "init" "goal" "fail" false = .ok rf ∧
    PathPartition rf.chain [[0], [1]] [1, 0] ∧ LinOK (cramer (K := ℚ)) ∧
    minWitnesses cramer rf.chain [[0], [1]] keepAll [1, 0] (1/2) 2 = .ok 2 ∧
    ∀ (φ : ℚ →+*o ℝ) mode k, ¬ Witness rf "init" "goal" φ mode (1/2) none k := by
  obtain ⟨rf, h⟩ : ∃ rf, TreeEx loopSys rf :=
    treeEx (by decide +kernel) (by decide +kernel) (by decide +kernel) (by decide +kernel) (by decide +kernel)
  refine ⟨loopSys, rf, h.wf, h.rows, h.make, ?_, cramer_ok, ?_, fun φ mode k hw => ?_⟩
  · rw [h.chain]; exact treeCheck_sound (by decide +kernel)
  · rw [h.chain]; decide +kernel
  · obtain ⟨W, hW, x, -, hx, hv⟩ := val_of_witness h.wf h.lS h.make h.rows hw
    have hN : rf.N = 2 := by
      have : rf.chain.n = 2 := by rw [h.chain]; rfl
      exact this
    have hini : rf.initial = 0 := by
      have : rf.chain.init = 0 := by rw [h.chain]; rfl
      exact this
    have hsum : ∀ s ∈ W, x s = gain (φ : ℚ →+* ℝ) rf.chain s + (Q (φ : ℚ →+* ℝ) rf.chain s 0 * x 0 + Q (φ : ℚ →+* ℝ) rf.chain s 1 * x 1) := by
      intro s hs
      rw [hx.eq s hs]
      congr 1
      have : ∑ t ∈ W, Q (φ : ℚ →+* ℝ) rf.chain s t * x t = ∑ t ∈ range 2, Q (φ : ℚ →+* ℝ) rf.chain s t * x t :=
        sum_subset (hN ▸ hW) fun t _ ht => by rw [hx.out t ht, mul_zero]
      rw [this, sum_range_succ, sum_range_succ, sum_range_zero, zero_add]
    have hq : ∀ s t, Q (φ : ℚ →+* ℝ) rf.chain s t = ((treeChain loopSys).P s t : ℝ) := by
      intro s t; unfold Q; rw [h.chain]; simp
    have hg : ∀ s, gain (φ : ℚ →+* ℝ) rf.chain s = ((treeChain loopSys).toTarget s : ℝ) := by
      intro s; unfold gain; rw [h.chain]; simp
    have e1 : (treeChain loopSys).P 0 0 = 0 ∧ (treeChain loopSys).P 0 1 = 1/2 ∧ (treeChain loopSys).P 1 0 = 0 ∧ (treeChain loopSys).P 1 1 = 1/2 ∧
      (treeChain loopSys).toTarget 0 = 0 ∧ (treeChain loopSys).toTarget 1 = 1/4 := by decide +kernel
    obtain ⟨a1, a2, a3, a4, a5, a6⟩ := e1
    have hv : (1 / 2 : ℝ) ≤ x 0 := by
      rw [hini] at hv
      simpa using hv
    have h1 : x 1 ≤ 1 / 2 := by
      by_cases h1 : 1 ∈ W
      · have := hsum 1 h1
        rw [hq, hq, hg, a3, a4, a6] at this
        norm_num at this
        linarith
      · rw [hx.out 1 h1]; norm_num
    have h0 : x 0 ≤ 1 / 4 := by
      by_cases h0 : 0 ∈ W
      · have := hsum 0 h0
        rw [hq, hq, hg, a1, a2, a5] at this
        norm_num at this
        linarith
      · rw [hx.out 0 h0]; norm_num
    linarith

/-- 0 goes to the target or to 1 -/
def detourSys : Sys ℚ := treeSys 2 [((0, 1), 1/2), ((0, 2), 1/2), ((1, 2), 1/2), ((1, 3), 1/2)]

/-- **C66** is false if the target is reached directly from a part that has a successor: a smaller subsystem suffices. -/
theorem C66_detour_false : ∃ (M : Sys ℚ) (rf : RF ℚ), M.WF ∧ RowsAreStates M ∧ RF.make exRnd M "init" "goal" "fail" false = .ok rf ∧
    PathPartition rf.chain [[0], [1]] [1, 0] ∧ LinOK (cramer (K := ℚ)) ∧
    minWitnesses cramer rf.chain [[0], [1]] keepAll [1, 0] (1/4) 2 = .ok 2 ∧
    ∀ (φ : ℚ →+*o ℝ) mode, Witness rf "init" "goal" φ mode (1/4) none 1 := by
  obtain ⟨rf, h⟩ : ∃ rf, TreeEx detourSys rf :=
    treeEx (by decide +kernel) (by decide +kernel) (by decide +kernel) (by decide +kernel) (by decide +kernel)
  refine ⟨detourSys, rf, h.wf, h.rows, h.make, ?_, cramer_ok, ?_, fun φ mode => ?_⟩
  · rw [h.chain]; exact treeCheck_sound (by decide +kernel)
  · rw [h.chain]; decide +kernel
  · have hN : rf.N = 2 := by
      have : rf.chain.n = 2 := by rw [h.chain]; rfl
      exact this
    have hini : rf.initial = 0 := by
      have : rf.chain.init = 0 := by rw [h.chain]; rfl
      exact this
    have e1 : (treeChain detourSys).P 0 0 = 0 ∧ (treeChain detourSys).toTarget 0 = 1/2 := by decide +kernel
    have := witness_of_val (φ := φ) (t := 1/4) h.wf h.lS h.make h.rows (Or.inl h.dS) h.lA h.dA (T := {0}) (x := fun s => if s = 0 then 1/2 else 0)
      (by rw [hN]; simp) ⟨fun s hs => if_neg (by simpa using hs), fun s hs => by
        have hs : s = 0 := by simpa using hs
        subst hs
        rw [sum_singleton]
        unfold Q gain
        rw [h.chain, e1.1, e1.2]
        norm_num⟩ (by simp) (by rw [hini]; norm_num) mode
    simpa using this

/-- 0 and 1 in a cycle -/
def cycleSys : Sys ℚ := treeSys 2 [((0, 1), 1/2), ((0, 2), 1/4), ((0, 3), 1/4), ((1, 0), 1/2), ((1, 1), 1/2)]

/-- **C66**: the `KeyError` of `C66_returns_partial` occurs: one part, both states may be kept, probability 1/4. -/
theorem C66_keyerror_false : ∃ (M : Sys ℚ) (rf : RF ℚ), M.WF ∧ RowsAreStates M ∧ RF.make exRnd M "init" "goal" "fail" false = .ok rf ∧
    TreeOK rf.chain [[0, 1]] [0] ∧ LinOK (cramer (K := ℚ)) ∧
    minWitnesses cramer rf.chain [[0, 1]] keepAll [0] (1/4) 2 = .error .keyError ∧
    ∀ (φ : ℚ →+*o ℝ) mode, Witness rf "init" "goal" φ mode (1/4) none 1 := by
  obtain ⟨rf, h⟩ : ∃ rf, TreeEx cycleSys rf :=
    treeEx (by decide +kernel) (by decide +kernel) (by decide +kernel) (by decide +kernel) (by decide +kernel)
  refine ⟨cycleSys, rf, h.wf, h.rows, h.make, ?_, cramer_ok, ?_, fun φ mode => ?_⟩
  · rw [h.chain]; exact treeCheck'_sound (by decide +kernel) (by decide +kernel)
  · rw [h.chain]; decide +kernel
  · have hN : rf.N = 2 := by
      have : rf.chain.n = 2 := by rw [h.chain]; rfl
      exact this
    have hini : rf.initial = 0 := by
      have : rf.chain.init = 0 := by rw [h.chain]; rfl
      exact this
    have e1 : (treeChain cycleSys).P 0 0 = 0 ∧ (treeChain cycleSys).toTarget 0 = 1/4 := by decide +kernel
    have := witness_of_val (φ := φ) (t := 1/4) h.wf h.lS h.make h.rows (Or.inl h.dS) h.lA h.dA (T := {0}) (x := fun s => if s = 0 then 1/4 else 0)
      (by rw [hN]; simp) ⟨fun s hs => if_neg (by simpa using hs), fun s hs => by
        have hs : s = 0 := by simpa using hs
        subst hs
        rw [sum_singleton]
        unfold Q gain
        rw [h.chain, e1.1, e1.2]
        norm_num⟩ (by simp) (by rw [hini]; norm_num) mode
    simpa using this

end Verif.Props
