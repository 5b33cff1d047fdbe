import Verif.Proofs.SubSem
import Verif.Props.Reduce
/-!
# C45–C48: `Subsystem`

`M` is the system handed to the constructor of the reachability form `rf`, and `res.rf` is the reachability form
that `.subsys` returns.  Forms returned by `reduce` (C13) and by `.subsys` itself (`C47_again`) satisfy the
hypotheses again.
-/
set_option linter.unusedSectionVars false

namespace Verif.Props
open Verif.Model Verif.Spec Verif.Proofs Verif.Theory Verif.Proofs.IDict Finset

variable {K : Type} [Field K] [LinearOrder K] [IsStrictOrderedRing K]
variable {ρ ρ' : Graph.Rnd} {M : Sys K} {il tl fl : String} {rf : RF K} {cert : List K} {mode : Mode} {ig : Bool}
  {x : Subsystem K} {res : Subsystem.Result K}

/-- the states that a vector selects: those with a positive entry (min), resp. those with an action
with a positive entry (max) -/
def Selected (M : Sys K) (mode : Mode) (cert : List K) (s : Nat) : Prop :=
  match mode with
  | .min => ∃ c, cert[s]? = some c ∧ 0 < c
  | .max => ∃ a i c, ((s, a), i) ∈ M.idx ∧ cert[i]? = some c ∧ 0 < c

theorem getD_pos {l : List K} {i : Nat} : 0 < l.getD i 0 ↔ ∃ c, l[i]? = some c ∧ 0 < c := by
  rw [List.getD_eq_getElem?_getD]
  cases l[i]? with
  | none => simp
  | some c => simp

theorem inMask_iff (h : RFOK rf) (hx : Subsystem.make rf cert mode ig = .ok x) (s : Nat) :
    InMask rf mode cert s ↔ Selected rf.sys mode cert s := by
  unfold InMask Selected
  cases mode with
  | min => exact getD_pos
  | max =>
    have hl : cert.length = rf.C := by
      unfold Subsystem.make at hx
      simp only at hx
      split at hx
      · assumption
      · cases hx
    constructor
    · rintro ⟨i, hi, h1, h2⟩
      obtain ⟨c, h3, h4⟩ := getD_pos.1 h1
      obtain ⟨a, ha⟩ := (RFOK.rowState_iff h hi).1 h2
      exact ⟨a, i, c, ha, h3, h4⟩
    · rintro ⟨a, i, c, ha, h3, h4⟩
      have hi : i < rf.C := by
        obtain ⟨h5, -⟩ := List.getElem?_eq_some_iff.1 h3
        omega
      exact ⟨i, hi, getD_pos.2 ⟨c, h3, h4⟩, (RFOK.rowState_iff h hi).2 ⟨a, ha⟩⟩

theorem labelMap_of_sub {m : List Bool} (hS : SubSys rf m res.rf.sys) : LabelMap res.rf.sys.labS := by
  refine ⟨id, res.rf.sys.labS.d, true, [], fun l => List.Perm.refl _, ⟨hS.labI.1.1, fun p hp => ?_⟩, hS.labSm⟩
  exact hS.labI.1.2 p.1 p.2 (Dict.get?_of_mem hS.labI.1.1 hp)

theorem labelMap_empty {α β : Type} [DecidableEq α] [DecidableEq β] : LabelMap (IDict.mk' ([] : Dict α (List β)) true) :=
  ⟨id, [], true, [], fun l => List.Perm.refl _, ⟨by simp, by simp⟩, rfl⟩

/-! ### C47 -/

/-- **C47.** The subsystem consists of exactly the selected states, in their old order, with all their
actions, and of a goal and a fail state (the last two).  Probabilities among kept states and to the goal are the
old ones, everything else goes to fail.  States keep their labels; a DTMC remains one; rewards are dropped.  The
returned form is the reachability form of the new system for the same labels. -/
theorem C47_construction (hM : M.WF) (hL : LabelMap M.labS) (hrf : RF.make ρ M il tl fl false = .ok rf)
    (hx : Subsystem.make rf cert mode ig = .ok x) (hr : x.subsys ρ' = .ok res) :
    ∃ ks : List Nat, ks.Pairwise (· < ·) ∧ (∀ s, s ∈ ks ↔ Selected M mode cert s) ∧ (∀ s ∈ ks, s < M.N - 2) ∧
      res.rf.sys.N = ks.length + 2 ∧ 2 ≤ res.rf.sys.C ∧
      (∀ n s a : Nat, ks[n]? = some s →
        ((∃ k, ((n, a), k) ∈ res.rf.sys.idx) ↔ ∃ i, ((s, a), i) ∈ M.idx ∧ i < M.C)) ∧
      (∀ n s a k i : Nat, ks[n]? = some s → ((n, a), k) ∈ res.rf.sys.idx → ((s, a), i) ∈ M.idx → i < M.C →
        (∀ n' s' : Nat, ks[n']? = some s' → res.rf.sys.P.get k n' = M.P.get i s') ∧
        res.rf.sys.P.get k ks.length = M.P.get i (M.N - 2) ∧
        res.rf.sys.P.get k (ks.length + 1) = M.P.get i (M.N - 1) + ∑ s' ∈ range (M.N - 2) with s' ∉ ks, M.P.get i s') ∧
      (∀ a k, ((ks.length, a), k) ∈ res.rf.sys.idx ↔ a = 0 ∧ k = res.rf.sys.C - 2) ∧
      (∀ a k, ((ks.length + 1, a), k) ∈ res.rf.sys.idx ↔ a = 0 ∧ k = res.rf.sys.C - 1) ∧
      res.rf.sys.P.get (res.rf.sys.C - 2) ks.length = 1 ∧ res.rf.sys.P.get (res.rf.sys.C - 1) (ks.length + 1) = 1 ∧
      (∀ k < res.rf.sys.C, ∑ n ∈ range res.rf.sys.N, res.rf.sys.P.get k n = 1) ∧
      (∀ l n, n ∈ res.rf.sys.labelled l ↔ (∃ s, ks[n]? = some s ∧ s ∈ M.labelled l) ∨
        (l = tl ∧ n = ks.length) ∨ (l = fl ∧ n = ks.length + 1)) ∧
      res.rf.sys.dtmc = M.dtmc ∧ res.rf.sys.rew = none ∧
      RF.make ρ' res.rf.sys il tl fl ig = .ok res.rf := by
  obtain ⟨e0, e1, e2, e3, -⟩ := make_fields hrf
  have h := rfok_built hM hrf
  subst e0 e1 e2 e3
  obtain ⟨m, hml, hms, hS, hmk, -⟩ := subsys_spec h hL.inv hx hr
  have hMp := subMaps h hml
  have hlen : (subCols m).length = (Subsystem.kept m).length := subCols_length m
  have hN := hS.hN
  have hC := hS.hC
  have hshape := hS.shape h hml
  have hlt : ∀ s ∈ Subsystem.kept m, s < rf.sys.N - 2 := fun s hs => mask_lt h hml (subIndex_ok hMp) (mem_kept.1 hs)
  have hrow : ∀ n s a k i : Nat, (Subsystem.kept m)[n]? = some s → ((n, a), k) ∈ res.rf.sys.idx → ((s, a), i) ∈ rf.sys.idx →
      (subRows rf.sys m rf.C)[k]? = some ((s, a), (n, a)) := by
    intro n s a k i hn hk hi
    have hns := mem_subCols.2 hn
    rcases (hS.idx _ _ _).1 hk with ⟨⟨s1, b⟩, hk'⟩ | g | g
    · obtain ⟨rfl, g1, -⟩ := hMp.row_spec hk'
      rw [hMp.col_inj g1 hns] at hk'
      exact hk'
    · have := hMp.col_lt hns; omega
    · have := hMp.col_lt hns; omega
  refine ⟨Subsystem.kept m, ?_, fun s => ?_, hlt, by omega, by omega, ?_, ?_, ?_, ?_, ?_, ?_, hS.wf.sum, ?_, hS.dtmc, hS.rew, hmk⟩
  · unfold Subsystem.kept
    exact List.Pairwise.filter _ (by simpa using List.pairwise_lt_range)
  · rw [mem_kept, hms, inMask_iff h hx]
  · intro n s a hn
    have hns := mem_subCols.2 hn
    constructor
    · rintro ⟨k, hk⟩
      rcases (hS.idx _ _ _).1 hk with ⟨⟨s1, b⟩, hk'⟩ | g | g
      · obtain ⟨rfl, g1, -, ⟨i, gi, gC⟩, -⟩ := hMp.row_spec hk'
        rw [hMp.col_inj g1 hns] at gi
        exact ⟨i, gi, gC⟩
      · have := hMp.col_lt hns; omega
      · have := hMp.col_lt hns; omega
    · rintro ⟨i, hi, hiC⟩
      obtain ⟨k, n', hk⟩ := hMp.row_exists (mem_kept.1 (List.mem_of_getElem? hn)) hi hiC
      obtain ⟨-, g1, -⟩ := hMp.row_spec hk
      rw [hMp.col_fun g1 hns] at hk
      exact ⟨k, (hS.idx _ _ _).2 (Or.inl ⟨_, hk⟩)⟩
  · intro n s a k i hn hk hi hiC
    have hk' := hrow n s a k i hn hk hi
    have a1 : ∀ n' s' : Nat, (Subsystem.kept m)[n']? = some s' → res.rf.sys.P.get k n' = rf.sys.P.get i s' := by
      intro n' s' hn'
      exact hS.kept _ _ _ _ _ _ _ hk' hi (mem_subCols.2 hn')
    have a2 : res.rf.sys.P.get k (Subsystem.kept m).length = rf.sys.P.get i (rf.sys.N - 2) := by
      rw [← hlen]; exact hS.goal _ _ _ _ _ hk' hi
    refine ⟨a1, a2, ?_⟩
    have s1 := hS.wf.sum k (by have := (hMp.row_spec hk').2.2.2.2; omega)
    have s2 := h.wf.sum i hiC
    rw [hN, hlen, Finset.sum_range_succ, Finset.sum_range_succ, a2] at s1
    have hNge := h.hN
    rw [show rf.sys.N = (rf.sys.N - 2) + 1 + 1 by omega, Finset.sum_range_succ, Finset.sum_range_succ,
      show rf.sys.N - 2 + 1 = rf.sys.N - 1 by omega] at s2
    have s3 : ∑ s' ∈ range (rf.sys.N - 2), rf.sys.P.get i s' =
        ∑ s' ∈ range (rf.sys.N - 2) with s' ∈ Subsystem.kept m, rf.sys.P.get i s' +
        ∑ s' ∈ range (rf.sys.N - 2) with s' ∉ Subsystem.kept m, rf.sys.P.get i s' :=
      (Finset.sum_filter_add_sum_filter_not _ _ _).symm
    have s4 : ∑ n ∈ range (Subsystem.kept m).length, res.rf.sys.P.get k n =
        ∑ s' ∈ range (rf.sys.N - 2) with s' ∈ Subsystem.kept m, rf.sys.P.get i s' := by
      refine Finset.sum_bij (fun n hn => (Subsystem.kept m)[n]'(Finset.mem_range.1 hn)) ?_ ?_ ?_ ?_
      · intro n hn
        rw [Finset.mem_filter, Finset.mem_range]
        exact ⟨hlt _ (List.getElem_mem _), List.getElem_mem _⟩
      · intro a ha b hb hab
        exact (List.Nodup.getElem_inj_iff (kept_nodup m)).1 hab
      · intro s hs
        obtain ⟨n, hn, e⟩ := List.getElem_of_mem (Finset.mem_filter.1 hs).2
        exact ⟨n, Finset.mem_range.2 hn, e⟩
      · intro n hn
        exact a1 _ _ (List.getElem?_eq_getElem _)
    rw [s3] at s2
    rw [s4] at s1
    linarith
  · intro a k
    rw [← hlen, show res.rf.sys.C - 2 = (subRows rf.sys m rf.C).length by omega]
    constructor
    · intro g
      rcases (hS.idx _ _ _).1 g with ⟨⟨s, b⟩, g⟩ | g | g
      · have := hMp.col_lt (hMp.row_spec g).2.1; omega
      · exact g.2
      · omega
    · rintro ⟨rfl, rfl⟩
      exact (hS.idx _ _ _).2 (Or.inr (Or.inl ⟨rfl, rfl, rfl⟩))
  · intro a k
    rw [← hlen, show res.rf.sys.C - 1 = (subRows rf.sys m rf.C).length + 1 by omega]
    constructor
    · intro g
      rcases (hS.idx _ _ _).1 g with ⟨⟨s, b⟩, g⟩ | g | g
      · have := hMp.col_lt (hMp.row_spec g).2.1; omega
      · omega
      · exact g.2
    · rintro ⟨rfl, rfl⟩
      exact (hS.idx _ _ _).2 (Or.inr (Or.inr ⟨rfl, rfl, rfl⟩))
  · rw [← hlen, show res.rf.sys.C - 2 = (subRows rf.sys m rf.C).length by omega]; exact hS.goalRow
  · rw [← hlen, show res.rf.sys.C - 1 = (subRows rf.sys m rf.C).length + 1 by omega]; exact hS.failRow
  · intro l n
    rw [labelled_iff, hS.labS, hlen]
    refine or_congr ?_ Iff.rfl
    simp only [mem_subCols, labelled_iff]

/-- **C47.** What `.subsys` returns can be used like the form it was made from: its system satisfies the
hypotheses of these theorems. -/
theorem C47_again (hM : M.WF) (hL : LabelMap M.labS) (hrf : RF.make ρ M il tl fl false = .ok rf)
    (hx : Subsystem.make rf cert mode ig = .ok x) (hr : x.subsys ρ' = .ok res) :
    Input res.rf.sys ∧ RF.make ρ' res.rf.sys il tl fl ig = .ok res.rf := by
  obtain ⟨e0, e1, e2, e3, -⟩ := make_fields hrf
  have h := rfok_built hM hrf
  subst e0 e1 e2 e3
  obtain ⟨m, hml, hms, hS, hmk, -⟩ := subsys_spec h hL.inv hx hr
  refine ⟨⟨hS.wf, (hS.shape h hml).total, labelMap_of_sub hS, ?_⟩, hmk⟩
  rw [hS.labA]
  exact labelMap_empty

/-- **C47**, existence: without the checks, `.subsys` returns exactly when the initial state is selected. -/
theorem C47_returns (hM : M.WF) (hL : LabelMap M.labS) (hrf : RF.make ρ M il tl fl false = .ok rf)
    (hx : Subsystem.make rf cert mode true = .ok x)
    (hlS : M.labS.dflt = true ∨ ∀ s < M.N, ∃ l, s ∈ M.labelled l) (hA : LabelMap M.labA) (hlA : M.labA.dflt = true)
    (hd : M.dtmc = true → ∀ s a i, ((s, a), i) ∈ M.idx → a = 0) :
    (∃ res, x.subsys ρ' = .ok res) ↔ ∀ i ∈ M.labelled il, Selected M mode cert i := by
  have hini : ∀ i ∈ M.labelled il, i = rf.initial := fun i hi => initial_eq hM hrf hi
  obtain ⟨e0, e1, e2, e3, -⟩ := make_fields hrf
  have h := rflive_built hM hrf
  subst e0 e1 e2 e3
  constructor
  · rintro ⟨res, hr⟩ i hi
    rw [hini i hi]
    obtain ⟨m, hml, hms, hS, hmk, -⟩ := subsys_spec h.toRFOK hL.inv hx hr
    have := (hS.initial_state h hml hmk).1
    rw [← inMask_iff h.toRFOK hx, ← hms]
    exact mem_kept.1 (List.mem_of_getElem? (mem_subCols.1 this))
  · intro hi
    refine subsys_total h hL.inv hx (fun s hs => ?_) (fun sa => inv_getItem_ok hA.inv (Or.inl hlA)) hd ?_
    · refine inv_getItem_ok hL.inv ?_
      rcases hlS with g | g
      · exact Or.inl g
      · obtain ⟨l, hl⟩ := g s (by have : s < rf.sys.N - 2 := hs; omega)
        exact Or.inr ⟨l, labelled_iff.1 hl⟩
    · rw [inMask_iff h.toRFOK hx]
      exact hi _ ⟨_, h.initLab, by simp⟩

/-! ### C46 -/

/-- the states in order: `ks[n]` is the old name of the new state `n` -/
structure Naming (M : Sys K) (mode : Mode) (cert : List K) (ks : List Nat) : Prop where
  sorted : ks.Pairwise (· < ·)
  mem : ∀ s, s ∈ ks ↔ Selected M mode cert s

theorem Naming.unique {ks ks' : List Nat} (h : Naming M mode cert ks) (h' : Naming M mode cert ks') : ks = ks' := by
  have hp : ks.Perm ks' := (List.perm_ext_iff_of_nodup (h.sorted.imp fun h => h.ne) (h'.sorted.imp fun h => h.ne)).2 fun s => by
    rw [h.mem, h'.mem]
  exact hp.eq_of_pairwise (fun a b _ _ h1 h2 => absurd (h1.trans h2) (lt_irrefl _)) h.sorted h'.sorted

theorem sub_values (hM : M.WF) (hL : LabelMap M.labS) (hrf : RF.make ρ M il tl fl false = .ok rf)
    (hx : Subsystem.make rf cert mode ig = .ok x) (hr : x.subsys ρ' = .ok res) (φ : K →+*o ℝ)
    {ks : List Nat} (hk : Naming M mode cert ks) {n s : Nat} (hn : ks[n]? = some s) :
    ∃ hs : s < rf.N,
      res.rf.sys.prMin φ (res.rf.sys.labelled tl) n =
        (((rfok_built hM hrf).core φ).cut {s | Selected M mode cert s.1}).Vmin ⟨s, hs⟩ ∧
      res.rf.sys.prMax φ (res.rf.sys.labelled tl) n =
        (((rfok_built hM hrf).core φ).cut {s | Selected M mode cert s.1}).Vmax ⟨s, hs⟩ := by
  obtain ⟨e0, e1, e2, e3, -⟩ := make_fields hrf
  have h := rfok_built hM hrf
  subst e0 e1 e2 e3
  obtain ⟨m, hml, hms, hS, hmk, -⟩ := subsys_spec h hL.inv hx hr
  have hMp := subMaps h hml
  have hks : ks = Subsystem.kept m := by
    refine hk.unique ⟨?_, fun s => ?_⟩
    · unfold Subsystem.kept
      exact List.Pairwise.filter _ (by simpa using List.pairwise_lt_range)
    · rw [mem_kept, hms, inMask_iff h hx]
  subst hks
  have hs : s < rf.N := mask_lt h hml (subIndex_ok hMp) (mem_kept.1 (List.mem_of_getElem? hn))
  obtain ⟨h', -, e, -⟩ := hS.rfok h hml hmk
  obtain ⟨v1, v2⟩ := hS.values h hml h' φ (s := ⟨s, hs⟩) (mem_subCols.2 hn)
  have eU : {s : Fin rf.N | m.getD s.1 false = true} = {s : Fin rf.N | Selected rf.sys mode cert s.1} := by
    ext t
    show m.getD t.1 false = true ↔ _
    rw [hms, inMask_iff h hx]
    rfl
  rw [eU] at v1 v2
  unfold RF.prMin at v1
  unfold RF.prMax at v2
  rw [e] at v1 v2
  exact ⟨hs, v1, v2⟩

/-- **C46.** No kept state has a larger minimal or maximal probability of reaching the target in the
subsystem than in the whole system. -/
theorem C46_le (hM : M.WF) (hL : LabelMap M.labS) (hrf : RF.make ρ M il tl fl false = .ok rf)
    (hx : Subsystem.make rf cert mode ig = .ok x) (hr : x.subsys ρ' = .ok res) (φ : K →+*o ℝ)
    {ks : List Nat} (hk : Naming M mode cert ks) {n s : Nat} (hn : ks[n]? = some s) :
    res.rf.sys.prMin φ (res.rf.sys.labelled tl) n ≤ M.prMin φ (M.labelled tl) s ∧
    res.rf.sys.prMax φ (res.rf.sys.labelled tl) n ≤ M.prMax φ (M.labelled tl) s := by
  obtain ⟨hs, v1, v2⟩ := sub_values hM hL hrf hx hr φ hk hn
  have h := rfok_built hM hrf
  have e1 := prMin_core hM hrf φ ⟨s, hs⟩
  have e2 := prMax_core hM hrf φ ⟨s, hs⟩
  simp only at e1 e2
  rw [v1, v2, e1, e2]
  exact ⟨Core.cut_Vmin_le (h.sub φ) _, Core.cut_Vmax_le (h.sub φ) _⟩

/-- **C46**, monotonicity: a vector (of either kind) that selects more states gives a subsystem with
probabilities at least as large. -/
theorem C46_monotone (hM : M.WF) (hL : LabelMap M.labS) (hrf : RF.make ρ M il tl fl false = .ok rf)
    (hx : Subsystem.make rf cert mode ig = .ok x) (hr : x.subsys ρ' = .ok res)
    {cert₂ : List K} {mode₂ : Mode} {ig₂ : Bool} {ρ₂ : Graph.Rnd} {x₂ : Subsystem K} {res₂ : Subsystem.Result K}
    (hx₂ : Subsystem.make rf cert₂ mode₂ ig₂ = .ok x₂) (hr₂ : x₂.subsys ρ₂ = .ok res₂)
    (hsub : ∀ s, Selected M mode cert s → Selected M mode₂ cert₂ s) (φ : K →+*o ℝ)
    {ks ks₂ : List Nat} (hk : Naming M mode cert ks) (hk₂ : Naming M mode₂ cert₂ ks₂) {n n₂ s : Nat}
    (hn : ks[n]? = some s) (hn₂ : ks₂[n₂]? = some s) :
    res.rf.sys.prMin φ (res.rf.sys.labelled tl) n ≤ res₂.rf.sys.prMin φ (res₂.rf.sys.labelled tl) n₂ ∧
    res.rf.sys.prMax φ (res.rf.sys.labelled tl) n ≤ res₂.rf.sys.prMax φ (res₂.rf.sys.labelled tl) n₂ := by
  obtain ⟨hs, v1, v2⟩ := sub_values hM hL hrf hx hr φ hk hn
  obtain ⟨_, w1, w2⟩ := sub_values hM hL hrf hx₂ hr₂ φ hk₂ hn₂
  have h := rfok_built hM hrf
  rw [v1, v2, w1, w2]
  exact ⟨Core.cut_Vmin_mono (h.sub φ) (fun t ht => hsub _ ht) _, Core.cut_Vmax_mono (h.sub φ) (fun t ht => hsub _ ht) _⟩

/-! ### C45 -/

theorem sub_initial (hM : M.WF) (hL : LabelMap M.labS) (hrf : RF.make ρ M il tl fl false = .ok rf)
    (hx : Subsystem.make rf cert mode ig = .ok x) (hr : x.subsys ρ' = .ok res) {n : Nat} (hn : n ∈ res.rf.sys.labelled il)
    {ks : List Nat} (hk : Naming M mode cert ks) : ks[n]? = some rf.initial := by
  obtain ⟨e0, e1, e2, e3, -⟩ := make_fields hrf
  have h := rflive_built hM hrf
  subst e0 e1 e2 e3
  obtain ⟨m, hml, hms, hS, hmk, -⟩ := subsys_spec h.toRFOK hL.inv hx hr
  have hks : ks = Subsystem.kept m := by
    refine hk.unique ⟨?_, fun s => ?_⟩
    · unfold Subsystem.kept
      exact List.Pairwise.filter _ (by simpa using List.pairwise_lt_range)
    · rw [mem_kept, hms, inMask_iff h.toRFOK hx]
  rw [hks]
  exact mem_subCols.1 ((hS.initial h n).1 (labelled_iff.1 hn))

/-- the support of an accepted certificate has at least its value -/
theorem support_min (hM : M.WF) (hrf : RF.make ρ M il tl fl false = .ok rf) (φ : K →+*o ℝ)
    {strict : Bool} {t : K} {z : List K} (hc : check rf .min (if strict then .gt else .ge) t z 0 = .ok true) :
    ∃ hin : rf.initial < rf.N,
      φ t ≤ (((rfok_built hM hrf).core φ).cut {s | Selected M .min z s.1}).Vmin ⟨rf.initial, hin⟩ ∧
      (strict = true → φ t < (((rfok_built hM hrf).core φ).cut {s | Selected M .min z s.1}).Vmin ⟨rf.initial, hin⟩) := by
  obtain ⟨-, hin, -, hec, hrow, h1, h2⟩ := check_min_ge.1 hc
  have h := rfok_built hM hrf
  have hz := (RFOK.zrow_le_iff h φ _ _).1 hrow
  rw [map_zero] at hz
  set v : Fin rf.N → ℝ := RFOK.vec φ fun j => z.getD j 0 with hv
  -- negative entries count as zero
  have hle : ∀ s, v s ≤ max (v s) 0 := fun s => le_max_left _ _
  have := Core.cert_le_cut_Vmin (h.sub φ) (z := fun s => max (v s) 0) (fun s => le_max_right _ _) (fun s r hr => by
    refine max_le ?_ (Core.step_nonneg (h.sub φ).toOK (fun s => le_max_right _ _) hr)
    have g := hz s r hr
    have g2 := Core.step_mono (h.sub φ).toOK hle hr
    linarith) (fun s hs => by
      have := hec s.1 s.2 ((h.inEC_iff φ s).1 hs)
      rw [hv, RFOK.vec, this, map_zero, max_self]) ⟨rf.initial, hin⟩
  have eU : {s : Fin rf.N | 0 < max (v s) 0} = {s : Fin rf.N | Selected M .min z s.1} := by
    ext s
    show 0 < max (v s) 0 ↔ ∃ c, z[s.1]? = some c ∧ 0 < c
    rw [lt_max_iff, ← getD_pos]
    simp only [lt_irrefl, or_false]
    rw [hv, RFOK.vec, ← map_zero φ]
    constructor
    · intro g
      by_contra hn
      exact absurd g (not_lt.2 (OrderHomClass.mono φ (not_lt.1 hn)))
    · intro g; exact phi_strict φ g
  rw [eU] at this
  refine ⟨hin, ?_⟩
  rw [sub_zero] at h1 h2
  have g := le_trans (hle ⟨rf.initial, hin⟩) this
  exact ⟨le_trans (OrderHomClass.mono φ h1) g, fun hs => lt_of_lt_of_le (phi_strict φ (h2 hs)) g⟩

theorem support_max (hM : M.WF) (hrf : RF.make ρ M il tl fl false = .ok rf) (φ : K →+*o ℝ)
    {strict : Bool} {t : K} {y : List K} (hy : ∀ x ∈ y, 0 ≤ x)
    (hc : check rf .max (if strict then .gt else .ge) t y 0 = .ok true) :
    ∃ hin : rf.initial < rf.N,
      φ t ≤ (((rfok_built hM hrf).core φ).cut {s | Selected M .max y s.1}).Vmax ⟨rf.initial, hin⟩ ∧
      (strict = true → φ t < (((rfok_built hM hrf).core φ).cut {s | Selected M .max y s.1}).Vmax ⟨rf.initial, hin⟩) := by
  obtain ⟨-, hin, hl, hrow, h1, h2⟩ := check_max_ge.1 hc
  have h := rfok_built hM hrf
  have hz := (RFOK.yrow_le_iff h φ hin _ _).1 hrow
  simp only [map_zero, add_zero] at hz
  have := Core.gain_le_cut_Vmax (h.sub φ) (fun s r _ => vecY_nonneg φ hy s r) hz
  rw [← RFOK.ygain_eq] at this
  have eU : {s : Fin rf.N | ∃ r ∈ (h.core φ).rows s, 0 < RFOK.vecY φ (fun j => y.getD j 0) s r} =
      {s : Fin rf.N | Selected M .max y s.1} := by
    obtain ⟨e0, -⟩ := make_fields hrf
    ext s
    show (∃ r ∈ (h.core φ).rows s, _) ↔ ∃ a i c, ((s.1, a), i) ∈ M.idx ∧ y[i]? = some c ∧ 0 < c
    rw [← e0]
    constructor
    · rintro ⟨r, hr, g⟩
      rw [RFOK.mem_rows, RFOK.rowState_iff h r.2] at hr
      obtain ⟨a, ha⟩ := hr
      rw [RFOK.vecY, ← map_zero φ] at g
      have : 0 < y.getD r.1 0 := by
        by_contra hn
        exact absurd g (not_lt.2 (OrderHomClass.mono φ (not_lt.1 hn)))
      obtain ⟨c, g1, g2⟩ := getD_pos.1 this
      exact ⟨a, r.1, c, ha, g1, g2⟩
    · rintro ⟨a, i, c, ha, g1, g2⟩
      have hi : i < rf.C := by
        obtain ⟨h5, -⟩ := List.getElem?_eq_some_iff.1 g1
        omega
      refine ⟨⟨i, hi⟩, ?_, ?_⟩
      · rw [RFOK.mem_rows, RFOK.rowState_iff h hi]; exact ⟨a, ha⟩
      · rw [RFOK.vecY, ← map_zero φ]
        exact phi_strict φ (getD_pos.2 ⟨c, g1, g2⟩)
  rw [eU] at this
  refine ⟨hin, ?_⟩
  rw [sub_zero] at h1 h2
  exact ⟨le_trans (OrderHomClass.mono φ h1) this, fun hs => lt_of_lt_of_le (phi_strict φ (h2 hs)) this⟩

/-- **C45 (min).** The subsystem of an accepted certificate for `Pr_min >= t` has minimal probability at
least `t`. -/
theorem C45_min_ge (hM : M.WF) (hL : LabelMap M.labS) (hrf : RF.make ρ M il tl fl false = .ok rf)
    {t : K} {z : List K} (hc : check rf .min .ge t z 0 = .ok true)
    (hx : Subsystem.make rf z .min ig = .ok x) (hr : x.subsys ρ' = .ok res) (φ : K →+*o ℝ)
    {n : Nat} (hn : n ∈ res.rf.sys.labelled il) : φ t ≤ res.rf.sys.prMin φ (res.rf.sys.labelled tl) n := by
  obtain ⟨ks, k1, k2, -⟩ := C47_construction hM hL hrf hx hr
  have hk : Naming M .min z ks := ⟨k1, k2⟩
  obtain ⟨_, h1, -⟩ := support_min hM hrf φ (strict := false) hc
  obtain ⟨_, v1, -⟩ := sub_values hM hL hrf hx hr φ hk (sub_initial hM hL hrf hx hr hn hk)
  rw [v1]
  exact h1

theorem C45_min_gt (hM : M.WF) (hL : LabelMap M.labS) (hrf : RF.make ρ M il tl fl false = .ok rf)
    {t : K} {z : List K} (hc : check rf .min .gt t z 0 = .ok true)
    (hx : Subsystem.make rf z .min ig = .ok x) (hr : x.subsys ρ' = .ok res) (φ : K →+*o ℝ)
    {n : Nat} (hn : n ∈ res.rf.sys.labelled il) : φ t < res.rf.sys.prMin φ (res.rf.sys.labelled tl) n := by
  obtain ⟨ks, k1, k2, -⟩ := C47_construction hM hL hrf hx hr
  have hk : Naming M .min z ks := ⟨k1, k2⟩
  obtain ⟨_, -, h1⟩ := support_min hM hrf φ (strict := true) hc
  obtain ⟨_, v1, -⟩ := sub_values hM hL hrf hx hr φ hk (sub_initial hM hL hrf hx hr hn hk)
  rw [v1]
  exact h1 rfl

/-- **C45 (max).** The subsystem of an accepted non-negative certificate for `Pr_max >= t` has maximal
probability at least `t`. -/
theorem C45_max_ge (hM : M.WF) (hL : LabelMap M.labS) (hrf : RF.make ρ M il tl fl false = .ok rf)
    {t : K} {y : List K} (hy : ∀ c ∈ y, 0 ≤ c) (hc : check rf .max .ge t y 0 = .ok true)
    (hx : Subsystem.make rf y .max ig = .ok x) (hr : x.subsys ρ' = .ok res) (φ : K →+*o ℝ)
    {n : Nat} (hn : n ∈ res.rf.sys.labelled il) : φ t ≤ res.rf.sys.prMax φ (res.rf.sys.labelled tl) n := by
  obtain ⟨ks, k1, k2, -⟩ := C47_construction hM hL hrf hx hr
  have hk : Naming M .max y ks := ⟨k1, k2⟩
  obtain ⟨_, h1, -⟩ := support_max hM hrf φ (strict := false) hy hc
  obtain ⟨_, -, v2⟩ := sub_values hM hL hrf hx hr φ hk (sub_initial hM hL hrf hx hr hn hk)
  rw [v2]
  exact h1

theorem C45_max_gt (hM : M.WF) (hL : LabelMap M.labS) (hrf : RF.make ρ M il tl fl false = .ok rf)
    {t : K} {y : List K} (hy : ∀ c ∈ y, 0 ≤ c) (hc : check rf .max .gt t y 0 = .ok true)
    (hx : Subsystem.make rf y .max ig = .ok x) (hr : x.subsys ρ' = .ok res) (φ : K →+*o ℝ)
    {n : Nat} (hn : n ∈ res.rf.sys.labelled il) : φ t < res.rf.sys.prMax φ (res.rf.sys.labelled tl) n := by
  obtain ⟨ks, k1, k2, -⟩ := C47_construction hM hL hrf hx hr
  have hk : Naming M .max y ks := ⟨k1, k2⟩
  obtain ⟨_, -, h1⟩ := support_max hM hrf φ (strict := true) hy hc
  obtain ⟨_, -, v2⟩ := sub_values hM hL hrf hx hr φ hk (sub_initial hM hL hrf hx hr hn hk)
  rw [v2]
  exact h1 rfl

/-- **C45**, existence: an accepted (for `max`: non-negative) certificate for a positive threshold can be handed
to `Subsystem`, its initial state is selected, and without the checks `.subsys` returns, with exactly one
initial state. -/
theorem C45_returns (hM : M.WF) (hL : LabelMap M.labS) (hrf : RF.make ρ M il tl fl false = .ok rf)
    (hlS : M.labS.dflt = true ∨ ∀ s < M.N, ∃ l, s ∈ M.labelled l) (hA : LabelMap M.labA) (hlA : M.labA.dflt = true)
    (hd : M.dtmc = true → ∀ s a i, ((s, a), i) ∈ M.idx → a = 0) (φ : K →+*o ℝ)
    {t : K} (ht : 0 < t) {v : List K} (hv : mode = .max → ∀ c ∈ v, 0 ≤ c) (hc : check rf mode .ge t v 0 = .ok true) :
    ∃ x res n, Subsystem.make rf v mode true = .ok x ∧ x.subsys ρ' = .ok res ∧ res.rf.sys.statesByLabel il = .ok [n] := by
  have h := rflive_built hM hrf
  have hsel : Selected M mode v rf.initial := by
    have ht' := phi_strict φ ht
    rw [map_zero] at ht'
    by_contra hn
    cases mode with
    | min =>
      obtain ⟨hin, h1, -⟩ := support_min hM hrf φ (strict := false) hc
      rw [Core.cut_Vmin_out ((rfok_built hM hrf).sub φ) (by exact hn)] at h1
      linarith
    | max =>
      obtain ⟨hin, h1, -⟩ := support_max hM hrf φ (strict := false) (hv rfl) hc
      rw [Core.cut_Vmax_out ((rfok_built hM hrf).sub φ) (by exact hn)] at h1
      linarith
  obtain ⟨x, hx⟩ : ∃ x, Subsystem.make rf v mode true = .ok x := by
    unfold Subsystem.make
    cases mode with
    | min =>
      obtain ⟨-, -, hl, -⟩ := check_min_ge (strict := false).1 hc
      exact ⟨_, if_pos hl⟩
    | max =>
      obtain ⟨-, -, hl, -⟩ := check_max_ge (strict := false).1 hc
      exact ⟨_, if_pos hl⟩
  obtain ⟨res, hr⟩ := (C47_returns (ρ' := ρ') hM hL hrf hx hlS hA hlA hd).2 fun i hi => by
    rw [initial_eq hM hrf hi]; exact hsel
  obtain ⟨e0, e1, e2, e3, -⟩ := make_fields hrf
  subst e0 e1 e2 e3
  obtain ⟨m, hml, hms, hS, hmk, -⟩ := subsys_spec h.toRFOK hL.inv hx hr
  exact ⟨x, res, _, hx, hr, (hS.initial_state h hml hmk).2⟩

/-! ### C48 -/

/-- **C48 is false.** In no subsystem does `actions_by_label` list any action, whatever the labels of the
original actions. -/
theorem C48_lost_false (hM : M.WF) (hL : LabelMap M.labS) (hrf : RF.make ρ M il tl fl false = .ok rf)
    (hx : Subsystem.make rf cert mode ig = .ok x) (hr : x.subsys ρ' = .ok res) (l : String) :
    res.rf.sys.labA.getItem l = .ok [] := by
  obtain ⟨e0, e1, e2, e3, -⟩ := make_fields hrf
  have h := rfok_built hM hrf
  subst e0 e1 e2 e3
  obtain ⟨m, hml, hms, hS, hmk, -⟩ := subsys_spec h hL.inv hx hr
  rw [hS.labA]
  rfl

/-- **C48 (partial).** The information is not lost altogether: the dictionary handed to the constructor of the
new system has the new state-action pairs as keys and as values the labels of the old ones. -/
theorem C48_transposed_partial (hM : M.WF) (hL : LabelMap M.labS) (hrf : RF.make ρ M il tl fl false = .ok rf)
    (hx : Subsystem.make rf cert mode ig = .ok x) (hr : x.subsys ρ' = .ok res)
    {ks : List Nat} (hk : Naming M mode cert ks) (n a : Nat) (ls : List String) :
    res.labT.get? (n, a) = some ls ↔ ∃ s i, ks[n]? = some s ∧ ((s, a), i) ∈ M.idx ∧ i < M.C ∧ M.labelsByAction (s, a) = .ok ls := by
  obtain ⟨e0, e1, e2, e3, -⟩ := make_fields hrf
  have h := rfok_built hM hrf
  subst e0 e1 e2 e3
  obtain ⟨m, hml, hms, hS, hmk, hT⟩ := subsys_spec h hL.inv hx hr
  have hMp := subMaps h hml
  have hks : ks = Subsystem.kept m := by
    refine hk.unique ⟨?_, fun s => ?_⟩
    · unfold Subsystem.kept
      exact List.Pairwise.filter _ (by simpa using List.pairwise_lt_range)
    · rw [mem_kept, hms, inMask_iff h hx]
  subst hks
  rw [hT]
  constructor
  · rintro ⟨⟨s, b⟩, ho, hls⟩
    obtain ⟨k, hk', e⟩ := List.getElem_of_mem ho
    obtain ⟨rfl, g1, -, ⟨i, gi, gC⟩, -⟩ := hMp.row_spec (List.getElem?_eq_some_iff.2 ⟨hk', e⟩)
    exact ⟨s, i, mem_subCols.1 g1, gi, gC, hls⟩
  · rintro ⟨s, i, hn, hi, hiC, hls⟩
    obtain ⟨k, n', hk'⟩ := hMp.row_exists (mem_kept.1 (List.mem_of_getElem? hn)) hi hiC
    obtain ⟨-, g1, -⟩ := hMp.row_spec hk'
    rw [hMp.col_fun g1 (mem_subCols.2 hn)] at hk'
    exact ⟨_, List.mem_of_getElem? hk', hls⟩

/-! ### A concrete system

State 0 leads to the goal 3 and to 1, state 1 to 2 (action "go"), state 2 to the goal and, by another action, back
to 0. -/

def subEx : Sys ℚ :=
  { mkSys ⟨6, 5, [((0, 3), 1/2), ((0, 1), 1/2), ((1, 2), 1), ((2, 3), 1), ((3, 0), 1/2), ((3, 4), 1/2), ((4, 3), 1), ((5, 4), 1)]⟩
      [((0, 0), 0), ((1, 0), 1), ((2, 0), 2), ((2, 1), 3), ((3, 0), 4), ((4, 0), 5)]
      (IDict.mk' [("init", [0]), ("goal", [3]), ("fail", [4]), ("odd", [1])] true) with
    labA := IDict.mk' [("go", [(0, 0), (1, 0)])] true }

theorem subEx_wf : subEx.WF :=
  have w : (mkSys subEx.P subEx.idx subEx.labS).WF :=
    mkSys_wf (by decide +kernel) (by decide +kernel) (by decide +kernel) (by decide +kernel) (by decide +kernel) (by decide +kernel)
  ⟨w.nodup, w.range, w.pos, w.sum, w.keys, w.vals, w.graph⟩

theorem subEx_labS : LabelMap subEx.labS :=
  ⟨id, [("init", [0]), ("goal", [3]), ("fail", [4]), ("odd", [1])], true, [], fun _ => List.Perm.refl _,
    isPyDict_of (by decide +kernel) (by decide +kernel), rfl⟩

theorem subEx_labA : LabelMap subEx.labA :=
  ⟨id, [("go", [(0, 0), (1, 0)])], true, [], fun _ => List.Perm.refl _,
    isPyDict_of (by decide +kernel) (by decide +kernel), rfl⟩

def subTest (cert : List ℚ) (mode : Mode) (ig : Bool) (p : RF ℚ → Bool) (q : Except Err (Subsystem.Result ℚ) → Bool) : Bool :=
  match RF.make exRnd subEx "init" "goal" "fail" false with
  | .error _ => false
  | .ok rf => p rf && match Subsystem.make rf cert mode ig with
    | .error _ => false
    | .ok x => q (x.subsys exRnd)

theorem subTest_true {cert : List ℚ} {mode : Mode} {ig : Bool} {p : RF ℚ → Bool} {q : Except Err (Subsystem.Result ℚ) → Bool}
    (h : subTest cert mode ig p q = true) : ∃ rf x, RF.make exRnd subEx "init" "goal" "fail" false = .ok rf ∧ p rf = true ∧
      Subsystem.make rf cert mode ig = .ok x ∧ q (x.subsys exRnd) = true := by
  unfold subTest at h
  split at h
  · cases h
  · rename_i rf hrf
    rw [Bool.and_eq_true] at h
    obtain ⟨h1, h2⟩ := h
    split at h2
    · cases h2
    · rename_i x hx
      exact ⟨rf, x, hrf, h1, hx, h2⟩

/-- **C45**: with the default checks, `.subsys` can raise for a valid certificate.  Here the vector selects
states 0 and 2, and 2 cannot be reached from 0 in the subsystem. -/
theorem C45_default_checks_false : subEx.WF ∧ LabelMap subEx.labS ∧
    ∃ rf x, RF.make exRnd subEx "init" "goal" "fail" false = .ok rf ∧ check rf .min .ge (1/2) [1/2, 0, 1/4] 0 = .ok true ∧
      Subsystem.make rf [1/2, 0, 1/4] .min false = .ok x ∧ ∀ res, x.subsys exRnd ≠ .ok res := by
  refine ⟨subEx_wf, subEx_labS, ?_⟩
  obtain ⟨rf, x, h1, h2, h3, h4⟩ := subTest_true (cert := [1/2, 0, 1/4]) (mode := .min) (ig := false)
    (p := fun rf => yes (check rf .min .ge (1/2) [1/2, 0, 1/4] 0)) (q := fun r => !r.isOk) (by decide +kernel)
  refine ⟨rf, x, h1, yes_iff.1 h2, h3, fun res hr => ?_⟩
  rw [hr] at h4
  cases h4

/-- **C48** fails for this system: state 0 is kept and its action is labelled "go", the action of
the corresponding state 0 of the subsystem is not. -/
theorem C48_false : subEx.WF ∧ LabelMap subEx.labS ∧ subEx.labA.getItem "go" = .ok [(0, 0), (1, 0)] ∧
    ∃ rf x res, RF.make exRnd subEx "init" "goal" "fail" false = .ok rf ∧
      Subsystem.make rf [1/2, 0, 0] .min false = .ok x ∧ x.subsys exRnd = .ok res ∧
      res.rf.initial = 0 ∧ res.rf.sys.labA.getItem "go" = .ok [] := by
  refine ⟨subEx_wf, subEx_labS, by decide +kernel, ?_⟩
  obtain ⟨rf, x, h1, -, h3, h4⟩ := subTest_true (cert := [1/2, 0, 0]) (mode := .min) (ig := false) (p := fun _ => true)
    (q := fun r => match r with | .ok r => decide (r.rf.initial = 0) | _ => false) (by decide +kernel)
  cases hr : x.subsys exRnd with
  | error e => rw [hr] at h4; cases h4
  | ok res =>
    rw [hr] at h4
    exact ⟨rf, x, res, h1, h3, hr, by simpa using h4, C48_lost_false subEx_wf subEx_labS h1 h3 hr _⟩

/-- the hypotheses of the theorems above are met: a `min` certificate for 1/2 that selects states 0 and 1 … -/
example (φ : ℚ →+*o ℝ) : ∃ rf x res, RF.make exRnd subEx "init" "goal" "fail" false = .ok rf ∧
    Subsystem.make rf [1/2, 1/4, 1/4] .min false = .ok x ∧ x.subsys exRnd = .ok res ∧
    φ (1/2) ≤ res.rf.sys.prMin φ (res.rf.sys.labelled "goal") 0 := by
  obtain ⟨rf, x, h1, h2, h3, h4⟩ := subTest_true (cert := [1/2, 1/4, 1/4]) (mode := .min) (ig := false)
    (p := fun rf => yes (check rf .min .ge (1/2) [1/2, 1/4, 1/4] 0))
    (q := fun r => match r with | .ok r => decide (r.rf.sys.statesByLabel "init" = .ok [0]) | _ => false) (by decide +kernel)
  cases hr : x.subsys exRnd with
  | error e => rw [hr] at h4; cases h4
  | ok res =>
    rw [hr] at h4
    exact ⟨rf, x, res, h1, h3, hr, C45_min_ge subEx_wf subEx_labS h1 (yes_iff.1 h2) h3 hr φ
      ⟨[0], by simpa using h4, by simp⟩⟩

/-- … and a `max` certificate for 1/2 that selects state 0 only -/
example (φ : ℚ →+*o ℝ) : ∃ rf x res, RF.make exRnd subEx "init" "goal" "fail" false = .ok rf ∧
    Subsystem.make rf [1, 0, 0, 0] .max false = .ok x ∧ x.subsys exRnd = .ok res ∧
    φ (1/2) ≤ res.rf.sys.prMax φ (res.rf.sys.labelled "goal") 0 := by
  obtain ⟨rf, x, h1, h2, h3, h4⟩ := subTest_true (cert := [1, 0, 0, 0]) (mode := .max) (ig := false)
    (p := fun rf => yes (check rf .max .ge (1/2) [1, 0, 0, 0] 0))
    (q := fun r => match r with | .ok r => decide (r.rf.sys.statesByLabel "init" = .ok [0]) | _ => false) (by decide +kernel)
  cases hr : x.subsys exRnd with
  | error e => rw [hr] at h4; cases h4
  | ok res =>
    rw [hr] at h4
    exact ⟨rf, x, res, h1, h3, hr, C45_max_ge subEx_wf subEx_labS h1 (by decide +kernel) (yes_iff.1 h2) h3 hr φ
      ⟨[0], by simpa using h4, by simp⟩⟩

/-- the hypotheses of `C45_returns` are met -/
example (φ : ℚ →+*o ℝ) : ∃ rf x res n, RF.make exRnd subEx "init" "goal" "fail" false = .ok rf ∧
    Subsystem.make rf [1/2, 0, 1/4] .min true = .ok x ∧ x.subsys exRnd = .ok res ∧ res.rf.sys.statesByLabel "init" = .ok [n] := by
  obtain ⟨rf, x, h1, h2, -⟩ := subTest_true (cert := [1/2, 0, 1/4]) (mode := .min) (ig := false)
    (p := fun rf => yes (check rf .min .ge (1/2) [1/2, 0, 1/4] 0)) (q := fun r => !r.isOk) (by decide +kernel)
  obtain ⟨x, res, n, h⟩ := C45_returns (ρ' := exRnd) subEx_wf subEx_labS h1 (Or.inl rfl) subEx_labA rfl
    (by intro h; cases h) φ (t := 1/2) (by norm_num) (mode := .min) (v := [1/2, 0, 1/4]) (by intro h; cases h) (yes_iff.1 h2)
  exact ⟨rf, x, res, n, h1, h⟩

end Verif.Props
