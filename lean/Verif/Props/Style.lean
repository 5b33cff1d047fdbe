import Verif.Model.Style
import Verif.Props.Digraph
import Verif.Props.Reduce
/-!
# C90: pictures of reduced models
-/
set_option linter.unusedSectionVars false

namespace Verif.Props
open Verif.Model Verif.Model.Text Verif.Spec Verif.Proofs Verif.Proofs.IDict Finset
open Verif.Model.Digraph (Maps DTMCMaps)

variable {K : Type} [Field K] [LinearOrder K] [IsStrictOrderedRing K]
variable {ρ : Graph.Rnd} {M : Sys K} {il tl ntl nfl : String} {res : Reduce.Result K}

/-- the functions always return and depend on labels as on a set -/
structure Draws (v : Maps K) (sm : Nat → Set String → Attrs) (am : Nat → Nat → Set String → Attrs × Attrs)
    (tm : Nat → Nat → Nat → K → Attrs) : Prop where
  state : ∀ s ls, v.state s ls = .ok (sm s {l | l ∈ ls})
  action : ∀ s a ls, v.action s a ls = .ok (am s a {l | l ∈ ls})
  trans : ∀ s a t p, v.trans s a t p = .ok (tm s a t p)

/-- the same for chains -/
structure DrawsDTMC (v : DTMCMaps K) (sm : Nat → Set String → Attrs) (tm : Nat → Nat → K → Attrs) : Prop where
  state : ∀ s ls, v.state s ls = .ok (sm s {l | l ∈ ls})
  trans : ∀ s t p, v.trans s t p = .ok (tm s t p)

/-- the labels of a state -/
def labelsOf (M : Sys K) (s : Nat) : Set String := {l | s ∈ M.labelled l}

/-- the labels of an action of a state -/
def actLabelsOf (M : Sys K) (s a : Nat) : Set String := {l | sees M.labA l (s, a)}

/-- the probability with which the row leads to states that `reduce` drops -/
def dropped (M : Sys K) (res : Reduce.Result K) (i : Nat) : K :=
  ∑ d ∈ (range M.N).filter (fun d => res.cols.get? d = none), M.P.get i d

/-- everything about a reduced system that matters for pictures -/
theorem reduce_shape (hM : Input M) (hne : ntl ≠ nfl) (h : M.reduce ρ il tl ntl nfl = .ok res) :
    res.rf.sys.WF ∧ 2 ≤ res.rf.sys.N ∧
    (∀ s n, res.cols.get? s = some n → n < res.rf.sys.N - 2 ∧ Style.back res.cols n = .ok s) ∧
    (∀ n < res.rf.sys.N - 2, ∃ s, res.cols.get? s = some n) ∧
    (∀ s n, res.cols.get? s = some n → ∃ a, res.rows.get? (s, a) = some (n, a)) ∧
    (∀ n a r, ((n, a), r) ∈ res.rf.sys.idx ↔ (∃ s, res.rows.get? (s, a) = some (n, a) ∧ ((n, a), r) ∈ res.rf.sys.idx) ∨
      (n = res.rf.sys.N - 2 ∧ a = 0 ∧ r = res.rf.sys.C - 2) ∨ (n = res.rf.sys.N - 1 ∧ a = 0 ∧ r = res.rf.sys.C - 1)) ∧
    (∀ n a r, ((n, a), r) ∈ res.rf.sys.idx → r < res.rf.sys.C) ∧
    (∀ s a n b, res.rows.get? (s, a) = some (n, b) → b = a ∧ res.cols.get? s = some n ∧ Style.back res.rows (n, a) = .ok (s, a)) ∧
    (∀ n, ∃ ls, res.rf.sys.labelsByState n = .ok ls ∧ {l | l ∈ ls} = labelsOf res.rf.sys n) ∧
    (∀ n a, ∃ ls, res.rf.sys.labelsByAction (n, a) = .ok ls ∧ {l | l ∈ ls} = actLabelsOf res.rf.sys n a) ∧
    (∀ s n, res.cols.get? s = some n → labelsOf res.rf.sys n = labelsOf M s) ∧
    labelsOf res.rf.sys (res.rf.sys.N - 2) = {ntl} ∧ labelsOf res.rf.sys (res.rf.sys.N - 1) = {nfl} ∧
    (M.dtmc = false → (∀ s a n, res.rows.get? (s, a) = some (n, a) → actLabelsOf res.rf.sys n a = actLabelsOf M s a) ∧
      ∀ a, actLabelsOf res.rf.sys (res.rf.sys.N - 2) a = ∅ ∧ actLabelsOf res.rf.sys (res.rf.sys.N - 1) a = ∅) ∧
    (∀ t, 0 < res.rf.sys.P.get (res.rf.sys.C - 2) t ↔ t = res.rf.sys.N - 2) ∧
    (∀ t, 0 < res.rf.sys.P.get (res.rf.sys.C - 1) t ↔ t = res.rf.sys.N - 1) ∧
    res.rf.sys.P.get (res.rf.sys.C - 2) (res.rf.sys.N - 2) = 1 ∧
    res.rf.sys.P.get (res.rf.sys.C - 1) (res.rf.sys.N - 1) = 1 := by
  obtain ⟨T, i0, mask, hR, hrf⟩ := reduce_spec hM.wf hM.labS.inv hM.labA.inv h
  have hm := hR.red.maps
  have eN := hR.red.hN
  have eC := hR.red.hC
  have hw := hR.red.wf
  obtain ⟨l1, l2, l3, l4, l5, -⟩ := C17_reduce_labels hM hne h
  have hgT := hR.red.goalRow
  have hgF := hR.red.failRow
  have e1 : res.rf.sys.N - 2 = res.cols.length := by omega
  have e2 : res.rf.sys.N - 1 = res.cols.length + 1 := by omega
  have e3 : res.rf.sys.C - 2 = res.rows.length := by omega
  have e4 : res.rf.sys.C - 1 = res.rows.length + 1 := by omega
  have hrows : ∀ s a n b, res.rows.get? (s, a) = some (n, b) → b = a ∧ res.cols.get? s = some n := by
    intro s a n b hs
    obtain ⟨k1, k2⟩ := hm.rowsV _ (Dict.mem_of_get? hs)
    exact ⟨k1, Dict.get?_of_mem hm.nd k2⟩
  refine ⟨hw, by omega, ?_, ?_, ?_, ?_, ?_, ?_, ?_, ?_, ?_, ?_, ?_, ?_, ?_, ?_, by rw [e1, e3]; exact hgT, by rw [e2, e4]; exact hgF⟩
  · intro s n hs
    have := Dict.mem_of_get? hs
    refine ⟨by have := hm.col_lt this; omega, ?_⟩
    simp only [Style.back, (invGet?_iff hm.cvals).2 this]
  · intro n hn
    obtain ⟨s, hs⟩ := hm.col_of_lt (by omega : n < res.cols.length)
    exact ⟨s, Dict.get?_of_mem hm.nd hs⟩
  · intro s n hs
    obtain ⟨k1, a, i, k2, k3⟩ := (hm.memS s).1 (List.mem_map_of_mem (f := Prod.fst) (Dict.mem_of_get? hs))
    obtain ⟨k, n', hk⟩ := hm.row_exists k1 k2 k3
    have hg := Dict.get?_of_mem hm.rnd (List.mem_of_getElem? hk)
    have := (hrows _ _ _ _ hg).2
    rw [hs] at this
    cases this
    exact ⟨a, hg⟩
  · intro n a r
    rw [hR.red.idx, e1, e2, e3, e4]
    constructor
    · rintro (⟨⟨s, b⟩, ho⟩ | h1 | h1)
      · have hg := Dict.get?_of_mem hm.rnd (List.mem_of_getElem? ho)
        obtain ⟨rfl, -⟩ := hrows _ _ _ _ hg
        exact .inl ⟨s, hg, .inl ⟨_, ho⟩⟩
      · exact .inr (.inl h1)
      · exact .inr (.inr h1)
    · rintro (⟨s, -, h2⟩ | h1 | h1)
      · exact h2
      · exact .inr (.inl h1)
      · exact .inr (.inr h1)
  · intro n a r hr
    rcases (hR.red.idx _ _ _).1 hr with ⟨o, ho⟩ | h1 | h1
    · have := (List.getElem?_eq_some_iff.1 ho).1; omega
    · omega
    · omega
  · intro s a n b hs
    obtain ⟨rfl, k1⟩ := hrows _ _ _ _ hs
    refine ⟨rfl, k1, ?_⟩
    simp only [Style.back, (invGet?_iff hm.rvals).2 (Dict.mem_of_get? hs)]
  · intro n
    obtain ⟨ls, hl⟩ := inv_getItem_ok hR.red.labI (v := n) (Or.inl hR.red.labSd)
    refine ⟨ls, hl, ?_⟩
    ext l
    simp only [labelsOf, Set.mem_ofPred_eq, labelled_iff]
    exact inv_getItem hR.red.labI hl l
  · intro n a
    obtain ⟨ls, hl⟩ := inv_getItem_ok hR.red.labAI (v := (n, a)) (Or.inl hR.red.labAd)
    refine ⟨ls, hl, ?_⟩
    ext l
    simp only [actLabelsOf, Set.mem_ofPred_eq, sees_iff]
    exact inv_getItem hR.red.labAI hl l
  · intro s n hs
    ext l
    exact (l1 s n hs l).symm
  · ext l; exact l2 l
  · ext l; exact l3 l
  · intro hd
    refine ⟨fun s a n hs => ?_, fun a => ⟨?_, ?_⟩⟩
    · ext l; exact (l4 hd _ _ hs l).symm
    · ext l
      simp only [actLabelsOf, Set.mem_ofPred_eq, Set.mem_empty_iff_false, iff_false]
      exact (l5 hd l a).1
    · ext l
      simp only [actLabelsOf, Set.mem_ofPred_eq, Set.mem_empty_iff_false, iff_false]
      exact (l5 hd l a).2
  · intro t
    rw [e1, e3]
    constructor
    · intro hp
      by_contra hn
      rw [WF.other_zero hw (by omega) (by omega) hgT hn] at hp
      exact lt_irrefl _ hp
    · rintro rfl; rw [hgT]; exact one_pos
  · intro t
    rw [e2, e4]
    constructor
    · intro hp
      by_contra hn
      rw [WF.other_zero hw (by omega) (by omega) hgF hn] at hp
      exact lt_irrefl _ hp
    · rintro rfl; rw [hgF]; exact one_pos

/-- the rows of a reduced system -/
theorem reduce_row (hM : Input M) (h : M.reduce ρ il tl ntl nfl = .ok res) {s a n r : Nat}
    (hs : res.rows.get? (s, a) = some (n, a)) (hr : ((n, a), r) ∈ res.rf.sys.idx) : ∃ i, ((s, a), i) ∈ M.idx ∧
      (s ∉ M.labelled tl → (∀ d e, res.cols.get? d = some e → res.rf.sys.P.get r e = M.P.get i d) ∧
        res.rf.sys.P.get r (res.rf.sys.N - 2) = 0 ∧ res.rf.sys.P.get r (res.rf.sys.N - 1) = dropped M res i) ∧
      (s ∈ M.labelled tl → res.rf.sys.P.get r (res.rf.sys.N - 2) = 1 ∧ ∀ j, j ≠ res.rf.sys.N - 2 → res.rf.sys.P.get r j = 0) := by
  obtain ⟨T, i0, mask, hR, hrf⟩ := reduce_spec hM.wf hM.labS.inv hM.labA.inv h
  obtain ⟨i, r', h1, h2, h3, h4⟩ := (C15_reduce_matrix hM h).2 _ _ _ _ hs
  have : r = r' := by
    have e1 := Dict.get?_of_mem hR.red.wf.keys hr
    have e2 := Dict.get?_of_mem hR.red.wf.keys h2
    rw [e1] at e2
    exact Option.some.inj e2
  subst this
  exact ⟨i, h1, h3, h4⟩

/-- **C90 (MDP).** In the picture of the system of a form returned by `reduce` for an MDP, every kept state and each of
its actions looks as the given style draws it *in the given system* (with the old numbers and labels), every transition
between kept states is drawn with the old numbers and the probability, the new goal and fail states, their actions, and the
edges into them are drawn with the styles set for goal and fail, and there is nothing else.  In particular drawing does not raise. -/
theorem C90_mdp (hM : Input M) (hne : ntl ≠ nfl) (hd : M.dtmc = false) (h : M.reduce ρ il tl ntl nfl = .ok res)
    {v tgt fail : Maps K} {sm smT smF : Nat → Set String → Attrs} {am amT amF : Nat → Nat → Set String → Attrs × Attrs}
    {tm tmT tmF : Nat → Nat → Nat → K → Attrs} (hv : Draws v sm am tm) (ht : Draws tgt smT amT tmT) (hf : Draws fail smF amF tmF)
    {goal bad : Nat} (hgoal : goal = res.rf.sys.N - 2) (hbad : bad = res.rf.sys.N - 1) :
    ∃ g, Digraph.mdp res.rf.sys (Style.adaptMDP res tgt fail v) = .ok g ∧
      (g.nodes.map Prod.fst).Nodup ∧ (g.edges.map fun e => (e.1, e.2.1)).Nodup ∧
      (∀ x, x ∈ g.nodes ↔
        (∃ s n, res.cols.get? s = some n ∧ x = (num n, sm s (labelsOf M s))) ∨
        (∃ s a n, res.rows.get? (s, a) = some (n, a) ∧ x = (dash n a, (am s a (actLabelsOf M s a)).1)) ∨
        x = (num goal, smT goal {ntl}) ∨ x = (num bad, smF bad {nfl}) ∨
        x = (dash goal 0, (amT goal 0 ∅).1) ∨ x = (dash bad 0, (amF bad 0 ∅).1)) ∧
      (∀ x, x ∈ g.edges ↔
        (∃ s a n, res.rows.get? (s, a) = some (n, a) ∧ x = (num n, dash n a, (am s a (actLabelsOf M s a)).2)) ∨
        (∃ s a n i d e, res.rows.get? (s, a) = some (n, a) ∧ s ∉ M.labelled tl ∧ ((s, a), i) ∈ M.idx ∧
          res.cols.get? d = some e ∧ 0 < M.P.get i d ∧ x = (dash n a, num e, tm s a d (M.P.get i d))) ∨
        (∃ s a n, res.rows.get? (s, a) = some (n, a) ∧ s ∈ M.labelled tl ∧ x = (dash n a, num goal, tmT n a goal 1)) ∨
        (∃ s a n i, res.rows.get? (s, a) = some (n, a) ∧ s ∉ M.labelled tl ∧ ((s, a), i) ∈ M.idx ∧
          0 < dropped M res i ∧ x = (dash n a, num bad, tmF n a bad (dropped M res i))) ∨
        x = (num goal, dash goal 0, (amT goal 0 ∅).2) ∨ x = (num bad, dash bad 0, (amF bad 0 ∅).2) ∨
        x = (dash goal 0, num goal, tmT goal 0 goal 1) ∨ x = (dash bad 0, num bad, tmF bad 0 bad 1)) := by
  obtain ⟨hw, hN, hc, hcn, hca, hidx, hrC, hrow, hls, hla, k1, k2, k3, k4, k5, k6, k7, k8⟩ := reduce_shape hM hne h
  obtain ⟨k4, k4'⟩ := k4 hd
  rw [← hgoal] at hc hcn hidx k2 k4' k5 k7
  rw [← hbad] at hidx k3 k4' k6 k8
  have hrr := fun {s a n r : Nat} (h1 : res.rows.get? (s, a) = some (n, a)) (h2 : ((n, a), r) ∈ res.rf.sys.idx) => reduce_row hM h h1 h2
  rw [← hgoal, ← hbad] at hrr
  have hgb : bad = goal + 1 := by omega
  have hg : ((goal, 0), res.rf.sys.C - 2) ∈ res.rf.sys.idx := (hidx _ _ _).2 (.inr (.inl ⟨rfl, rfl, rfl⟩))
  have hb : ((bad, 0), res.rf.sys.C - 1) ∈ res.rf.sys.idx := (hidx _ _ _).2 (.inr (.inr ⟨rfl, rfl, rfl⟩))
  have hcr : ∀ {s a n : Nat}, res.rows.get? (s, a) = some (n, a) → n < goal := fun h1 => (hc _ _ (hrow _ _ _ _ h1).2.1).1
  -- a row exists for every pair of the map
  have hex : ∀ {s a n : Nat}, res.rows.get? (s, a) = some (n, a) → ∃ r, ((n, a), r) ∈ res.rf.sys.idx := by
    intro s a n h1
    obtain ⟨i, r, -, h2, -⟩ := (C15_reduce_matrix hM h).2 _ _ _ _ h1
    exact ⟨r, h2⟩
  let sm' : Nat → Attrs := fun n => if n = goal then smT n {ntl} else if n = bad then smF n {nfl}
    else ((invGet? res.cols n).map fun s => sm s (labelsOf M s)).getD []
  let am' : Nat → Nat → Attrs × Attrs := fun n a => if n = goal then amT n a ∅ else if n = bad then amF n a ∅
    else ((invGet? res.rows (n, a)).map fun o => am o.1 o.2 (actLabelsOf M o.1 o.2)).getD ([], [])
  let tm' : Nat → Nat → Nat → K → Attrs := fun n a t p => if t = goal then tmT n a t p else if t = bad then tmF n a t p
    else ((invGet? res.rows (n, a)).bind fun o => (invGet? res.cols t).map fun u => tm o.1 o.2 u p).getD []
  have back_ok : ∀ {α β : Type} [DecidableEq α] [DecidableEq β] {d : Dict α β} {x : β} {y : α}, Style.back d x = .ok y → invGet? d x = some y := by
    intro α β _ _ d x y h1
    unfold Style.back at h1
    split at h1
    · cases h1
    · cases h1; assumption
  have s1 : ∀ s n, res.cols.get? s = some n → sm' n = sm s (labelsOf M s) := by
    intro s n h1
    obtain ⟨h2, h3⟩ := hc s n h1
    simp only [sm', if_neg (show n ≠ goal by omega), if_neg (show n ≠ bad by omega), back_ok h3, Option.map_some, Option.getD_some]
  have s2 : sm' goal = smT goal {ntl} := by simp only [sm', if_true]
  have s3 : sm' bad = smF bad {nfl} := by simp only [sm', if_neg (show bad ≠ goal by omega), if_true]
  have a1 : ∀ s a n, res.rows.get? (s, a) = some (n, a) → am' n a = am s a (actLabelsOf M s a) := by
    intro s a n h1
    have h2 := hcr h1
    simp only [am', if_neg (show n ≠ goal by omega), if_neg (show n ≠ bad by omega), back_ok (hrow _ _ _ _ h1).2.2, Option.map_some,
      Option.getD_some]
  have a2 : am' goal 0 = amT goal 0 ∅ := by simp only [am', if_true]
  have a3 : am' bad 0 = amF bad 0 ∅ := by simp only [am', if_neg (show bad ≠ goal by omega), if_true]
  have t1 : ∀ n a p, tm' n a goal p = tmT n a goal p := by intro n a p; simp only [tm', if_true]
  have t2 : ∀ n a p, tm' n a bad p = tmF n a bad p := by
    intro n a p; simp only [tm', if_neg (show bad ≠ goal by omega), if_true]
  have t3 : ∀ s a n d e p, res.rows.get? (s, a) = some (n, a) → res.cols.get? d = some e → tm' n a e p = tm s a d p := by
    intro s a n d e p h1 h2
    obtain ⟨h3, h4⟩ := hc d e h2
    simp only [tm', if_neg (show e ≠ goal by omega), if_neg (show e ≠ bad by omega), back_ok (hrow _ _ _ _ h1).2.2, back_ok h4,
      Option.bind_some, Option.map_some, Option.getD_some]
  have hcase : ∀ n < res.rf.sys.N, n = goal ∨ n = bad ∨ ∃ s, res.cols.get? s = some n := by
    intro n hn
    by_cases h1 : n < goal
    · exact .inr (.inr (hcn n h1))
    · omega
  have hPlt : ∀ {r t : Nat}, 0 < res.rf.sys.P.get r t → t < res.rf.sys.N := by
    intro r t h1
    obtain ⟨p, hp⟩ := (WF.get_pos_iff hw).1 h1
    exact (hw.range _ _ _ hp).2
  obtain ⟨g, h1, h2, h3, h4, h5⟩ := C79_mdp hw (v := Style.adaptMDP res tgt fail v) (sm := sm') (am := am') (tm := tm')
    (fun n hn => by
      obtain ⟨ls, e1, e2⟩ := hls n
      refine ⟨ls, e1, ?_⟩
      show Style.adaptState res _ _ _ n ls = _
      unfold Style.adaptState
      rw [← hgoal, ← hbad]
      rcases hcase n hn with rfl | rfl | ⟨s, h1⟩
      · rw [if_pos rfl, ht.state, e2, k2, s2]
      · rw [if_neg (by omega), if_pos rfl, hf.state, e2, k3, s3]
      · obtain ⟨h2, h3⟩ := hc s n h1
        rw [if_neg (by omega), if_neg (by omega), h3]
        show v.state s ls = _
        rw [hv.state, e2, k1 s n h1, s1 s n h1])
    (fun n a r hr _ => by
      obtain ⟨ls, e1, e2⟩ := hla n a
      refine ⟨ls, e1, ?_⟩
      simp only [Style.adaptMDP]
      rw [← hgoal, ← hbad]
      rcases (hidx _ _ _).1 hr with ⟨s, h1, -⟩ | ⟨rfl, rfl, -⟩ | ⟨rfl, rfl, -⟩
      · have h2 := hcr h1
        rw [if_neg (by omega), if_neg (by omega), (hrow _ _ _ _ h1).2.2]
        show v.action s a ls = _
        rw [hv.action, e2, k4 _ _ _ h1, a1 _ _ _ h1]
      · rw [if_pos rfl, ht.action, e2, (k4' 0).1, a2]
      · rw [if_neg (by omega), if_pos rfl, hf.action, e2, (k4' 0).2, a3])
    (fun n a r t hr hp => by
      simp only [Style.adaptMDP]
      rw [← hgoal, ← hbad]
      rcases hcase t (hPlt hp) with rfl | rfl | ⟨d, hd⟩
      · rw [if_pos rfl, ht.trans, t1]
      · rw [if_neg (by omega), if_pos rfl, hf.trans, t2]
      · obtain ⟨h2, h3⟩ := hc d t hd
        rcases (hidx _ _ _).1 hr with ⟨s, h1, -⟩ | ⟨rfl, rfl, rfl⟩ | ⟨rfl, rfl, rfl⟩
        · rw [if_neg (by omega), if_neg (by omega), (hrow _ _ _ _ h1).2.2, h3]
          show v.trans s a d _ = _
          rw [hv.trans, t3 _ _ _ _ _ _ h1 hd]
        · have := (k5 t).1 hp; omega
        · have := (k6 t).1 hp; omega)
  refine ⟨g, h1, h2, h3, fun x => ?_, fun x => ?_⟩
  · rw [h4]
    constructor
    · rintro (⟨n, hn, rfl⟩ | ⟨n, a, r, hr, -, rfl⟩)
      · have hn' : n < res.rf.sys.N := by
          rcases hn with ⟨a, r, e1, e2⟩ | ⟨r, e1⟩
          · exact WF.state_lt hw e1 e2
          · exact hPlt e1
        rcases hcase n hn' with rfl | rfl | ⟨s, h1⟩
        · rw [s2]; exact .inr (.inr (.inl rfl))
        · rw [s3]; exact .inr (.inr (.inr (.inl rfl)))
        · rw [s1 s n h1]; exact .inl ⟨s, n, h1, rfl⟩
      · rcases (hidx _ _ _).1 hr with ⟨s, h1, -⟩ | ⟨rfl, rfl, -⟩ | ⟨rfl, rfl, -⟩
        · rw [a1 _ _ _ h1]; exact .inr (.inl ⟨s, a, n, h1, rfl⟩)
        · rw [a2]; exact .inr (.inr (.inr (.inr (.inl rfl))))
        · rw [a3]; exact .inr (.inr (.inr (.inr (.inr rfl))))
    · rintro (⟨s, n, h1, rfl⟩ | ⟨s, a, n, h1, rfl⟩ | rfl | rfl | rfl | rfl)
      · obtain ⟨a, h2⟩ := hca s n h1
        obtain ⟨r, h3⟩ := hex h2
        exact .inl ⟨n, .inl ⟨a, r, h3, hrC _ _ _ h3⟩, by rw [s1 s n h1]⟩
      · obtain ⟨r, h3⟩ := hex h1
        exact .inr ⟨n, a, r, h3, hrC _ _ _ h3, by rw [a1 _ _ _ h1]⟩
      · exact .inl ⟨goal, .inl ⟨0, _, hg, hrC _ _ _ hg⟩, by rw [s2]⟩
      · exact .inl ⟨bad, .inl ⟨0, _, hb, hrC _ _ _ hb⟩, by rw [s3]⟩
      · exact .inr ⟨goal, 0, _, hg, hrC _ _ _ hg, by rw [a2]⟩
      · exact .inr ⟨bad, 0, _, hb, hrC _ _ _ hb, by rw [a3]⟩
  · rw [h5]
    constructor
    · rintro (⟨n, a, r, hr, -, rfl⟩ | ⟨n, a, r, t, hr, hp, rfl⟩)
      · rcases (hidx _ _ _).1 hr with ⟨s, h1, -⟩ | ⟨rfl, rfl, -⟩ | ⟨rfl, rfl, -⟩
        · rw [a1 _ _ _ h1]; exact .inl ⟨s, a, n, h1, rfl⟩
        · rw [a2]; exact .inr (.inr (.inr (.inr (.inl rfl))))
        · rw [a3]; exact .inr (.inr (.inr (.inr (.inr (.inl rfl)))))
      · rcases (hidx _ _ _).1 hr with ⟨s, h1, -⟩ | ⟨rfl, rfl, rfl⟩ | ⟨rfl, rfl, rfl⟩
        · obtain ⟨i, hi, r1, r2⟩ := hrr h1 hr
          by_cases hs : s ∈ M.labelled tl
          · obtain ⟨r3, r4⟩ := r2 hs
            have : t = goal := by
              by_contra hn
              rw [r4 t hn] at hp
              exact lt_irrefl _ hp
            subst this
            rw [t1, r3]
            exact .inr (.inr (.inl ⟨s, a, n, h1, hs, rfl⟩))
          · obtain ⟨r3, r4, r5⟩ := r1 hs
            rcases hcase t (hPlt hp) with rfl | rfl | ⟨d, hd⟩
            · rw [r4] at hp; exact absurd hp (lt_irrefl _)
            · rw [r5] at hp
              rw [t2, r5]
              exact .inr (.inr (.inr (.inl ⟨s, a, n, i, h1, hs, hi, hp, rfl⟩)))
            · rw [r3 d t hd] at hp
              rw [t3 _ _ _ _ _ _ h1 hd, r3 d t hd]
              exact .inr (.inl ⟨s, a, n, i, d, t, h1, hs, hi, hd, hp, rfl⟩)
        · obtain rfl := (k5 t).1 hp
          rw [t1, k7]
          exact .inr (.inr (.inr (.inr (.inr (.inr (.inl rfl))))))
        · obtain rfl := (k6 t).1 hp
          rw [t2, k8]
          exact .inr (.inr (.inr (.inr (.inr (.inr (.inr rfl))))))
    · have fin : ∀ {s a n i : Nat}, res.rows.get? (s, a) = some (n, a) → ((s, a), i) ∈ M.idx → ∀ {j : Nat}, ((s, a), j) ∈ M.idx → i = j := by
        intro s a n i _ h2 j h3
        have e1 := Dict.get?_of_mem hM.wf.keys h2
        have e2 := Dict.get?_of_mem hM.wf.keys h3
        rw [e1] at e2
        exact Option.some.inj e2
      rintro (⟨s, a, n, h1, rfl⟩ | ⟨s, a, n, i, d, e, h1, hs, hi, hde, hp, rfl⟩ | ⟨s, a, n, h1, hs, rfl⟩ |
        ⟨s, a, n, i, h1, hs, hi, hp, rfl⟩ | rfl | rfl | rfl | rfl)
      · obtain ⟨r, h3⟩ := hex h1
        exact .inl ⟨n, a, r, h3, hrC _ _ _ h3, by rw [a1 _ _ _ h1]⟩
      · obtain ⟨r, h3⟩ := hex h1
        obtain ⟨j, hj, r1, -⟩ := hrr h1 h3
        obtain rfl := fin h1 hi hj
        have e1 := (r1 hs).1 d e hde
        exact .inr ⟨n, a, r, e, h3, by rw [e1]; exact hp, by rw [e1, t3 _ _ _ _ _ _ h1 hde]⟩
      · obtain ⟨r, h3⟩ := hex h1
        obtain ⟨j, hj, -, r2⟩ := hrr h1 h3
        have e1 := (r2 hs).1
        exact .inr ⟨n, a, r, goal, h3, by rw [e1]; exact one_pos, by rw [e1, t1]⟩
      · obtain ⟨r, h3⟩ := hex h1
        obtain ⟨j, hj, r1, -⟩ := hrr h1 h3
        obtain rfl := fin h1 hi hj
        have e1 := (r1 hs).2.2
        exact .inr ⟨n, a, r, bad, h3, by rw [e1]; exact hp, by rw [e1, t2]⟩
      · exact .inl ⟨goal, 0, _, hg, hrC _ _ _ hg, by rw [a2]⟩
      · exact .inl ⟨bad, 0, _, hb, hrC _ _ _ hb, by rw [a3]⟩
      · exact .inr ⟨goal, 0, _, goal, hg, by rw [k7]; exact one_pos, by rw [k7, t1]⟩
      · exact .inr ⟨bad, 0, _, bad, hb, by rw [k8]; exact one_pos, by rw [k8, t2]⟩

/-- **C90 (DTMC).** The same for a chain: kept states and the transitions between them are drawn with the old numbers and
labels, the goal and fail states and the edges into them with the styles set for goal and fail. -/
theorem C90_dtmc (hM : Input M) (hne : ntl ≠ nfl) (hd : M.dtmc = true) (h : M.reduce ρ il tl ntl nfl = .ok res)
    {v tgt fail : DTMCMaps K} {sm smT smF : Nat → Set String → Attrs}
    {tm tmT tmF : Nat → Nat → K → Attrs} (hv : DrawsDTMC v sm tm) (ht : DrawsDTMC tgt smT tmT) (hf : DrawsDTMC fail smF tmF)
    {goal bad : Nat} (hgoal : goal = res.rf.sys.N - 2) (hbad : bad = res.rf.sys.N - 1) :
    ∃ g, Digraph.dtmc res.rf.sys (Style.adaptDTMC res tgt fail v) = .ok g ∧
      (g.nodes.map Prod.fst).Nodup ∧ (g.edges.map fun e => (e.1, e.2.1)).Nodup ∧
      (∀ x, x ∈ g.nodes ↔ (∃ s n, res.cols.get? s = some n ∧ x = (num n, sm s (labelsOf M s))) ∨
        x = (num goal, smT goal {ntl}) ∨ x = (num bad, smF bad {nfl})) ∧
      (∀ x, x ∈ g.edges ↔
        (∃ s n i d e, res.cols.get? s = some n ∧ s ∉ M.labelled tl ∧ ((s, 0), i) ∈ M.idx ∧
          res.cols.get? d = some e ∧ 0 < M.P.get i d ∧ x = (num n, num e, tm s d (M.P.get i d))) ∨
        (∃ s n, res.cols.get? s = some n ∧ s ∈ M.labelled tl ∧ x = (num n, num goal, tmT n goal 1)) ∨
        (∃ s n i, res.cols.get? s = some n ∧ s ∉ M.labelled tl ∧ ((s, 0), i) ∈ M.idx ∧
          0 < dropped M res i ∧ x = (num n, num bad, tmF n bad (dropped M res i))) ∨
        x = (num goal, num goal, tmT goal goal 1) ∨ x = (num bad, num bad, tmF bad bad 1)) := by
  obtain ⟨hw, hN, hc, hcn, hca, hidx, hrC, hrow, hls, hla, k1, k2, k3, -, k5, k6, k7, k8⟩ := reduce_shape hM hne h
  have h0 : ∀ s a i, ((s, a), i) ∈ res.rf.sys.idx → a = 0 := by
    obtain ⟨T, i0, mask, hR, hrf⟩ := reduce_spec hM.wf hM.labS.inv hM.labA.inv h
    intro s a i hi
    exact hR.red.act0 (by rw [hR.red.dtmc, hd]) _ hi
  rw [← hgoal] at hc hcn hidx k2 k5 k7
  rw [← hbad] at hidx k3 k6 k8
  have hrr := fun {s a n r : Nat} (h1 : res.rows.get? (s, a) = some (n, a)) (h2 : ((n, a), r) ∈ res.rf.sys.idx) => reduce_row hM h h1 h2
  rw [← hgoal, ← hbad] at hrr
  have hgb : bad = goal + 1 := by omega
  have hg : ((goal, 0), res.rf.sys.C - 2) ∈ res.rf.sys.idx := (hidx _ _ _).2 (.inr (.inl ⟨rfl, rfl, rfl⟩))
  have hb : ((bad, 0), res.rf.sys.C - 1) ∈ res.rf.sys.idx := (hidx _ _ _).2 (.inr (.inr ⟨rfl, rfl, rfl⟩))
  have hcr : ∀ {s a n : Nat}, res.rows.get? (s, a) = some (n, a) → n < goal := fun h1 => (hc _ _ (hrow _ _ _ _ h1).2.1).1
  have hex : ∀ {s n : Nat}, res.cols.get? s = some n → res.rows.get? (s, 0) = some (n, 0) ∧ ∃ r, ((n, 0), r) ∈ res.rf.sys.idx := by
    intro s n h1
    obtain ⟨a, h2⟩ := hca s n h1
    obtain ⟨i, r, -, h3, -⟩ := (C15_reduce_matrix hM h).2 _ _ _ _ h2
    obtain rfl := h0 _ _ _ h3
    exact ⟨h2, r, h3⟩
  let sm' : Nat → Attrs := fun n => if n = goal then smT n {ntl} else if n = bad then smF n {nfl}
    else ((invGet? res.cols n).map fun s => sm s (labelsOf M s)).getD []
  let tm' : Nat → Nat → K → Attrs := fun n t p => if t = goal then tmT n t p else if t = bad then tmF n t p
    else ((invGet? res.cols n).bind fun o => (invGet? res.cols t).map fun u => tm o u p).getD []
  have back_ok : ∀ {α β : Type} [DecidableEq α] [DecidableEq β] {d : Dict α β} {x : β} {y : α}, Style.back d x = .ok y → invGet? d x = some y := by
    intro α β _ _ d x y h1
    unfold Style.back at h1
    split at h1
    · cases h1
    · cases h1; assumption
  have s1 : ∀ s n, res.cols.get? s = some n → sm' n = sm s (labelsOf M s) := by
    intro s n h1
    obtain ⟨h2, h3⟩ := hc s n h1
    simp only [sm', if_neg (show n ≠ goal by omega), if_neg (show n ≠ bad by omega), back_ok h3, Option.map_some, Option.getD_some]
  have s2 : sm' goal = smT goal {ntl} := by simp only [sm', if_true]
  have s3 : sm' bad = smF bad {nfl} := by simp only [sm', if_neg (show bad ≠ goal by omega), if_true]
  have t1 : ∀ n p, tm' n goal p = tmT n goal p := by intro n p; simp only [tm', if_true]
  have t2 : ∀ n p, tm' n bad p = tmF n bad p := by
    intro n p; simp only [tm', if_neg (show bad ≠ goal by omega), if_true]
  have t3 : ∀ s n d e p, res.cols.get? s = some n → res.cols.get? d = some e → tm' n e p = tm s d p := by
    intro s n d e p h1 h2
    obtain ⟨h3, h4⟩ := hc d e h2
    simp only [tm', if_neg (show e ≠ goal by omega), if_neg (show e ≠ bad by omega), back_ok (hc s n h1).2, back_ok h4,
      Option.bind_some, Option.map_some, Option.getD_some]
  have hcase : ∀ n < res.rf.sys.N, n = goal ∨ n = bad ∨ ∃ s, res.cols.get? s = some n := by
    intro n hn
    by_cases h1 : n < goal
    · exact .inr (.inr (hcn n h1))
    · omega
  have hPlt : ∀ {r t : Nat}, 0 < res.rf.sys.P.get r t → t < res.rf.sys.N := by
    intro r t h1
    obtain ⟨p, hp⟩ := (WF.get_pos_iff hw).1 h1
    exact (hw.range _ _ _ hp).2
  obtain ⟨g, h1, h2, h3, h4, h5⟩ := C79_dtmc hw h0 (v := Style.adaptDTMC res tgt fail v) (sm := sm') (tm := tm')
    (fun n hn => by
      obtain ⟨ls, e1, e2⟩ := hls n
      refine ⟨ls, e1, ?_⟩
      show Style.adaptState res _ _ _ n ls = _
      unfold Style.adaptState
      rw [← hgoal, ← hbad]
      rcases hcase n hn with rfl | rfl | ⟨s, h1⟩
      · rw [if_pos rfl, ht.state, e2, k2, s2]
      · rw [if_neg (by omega), if_pos rfl, hf.state, e2, k3, s3]
      · obtain ⟨h2, h3⟩ := hc s n h1
        rw [if_neg (by omega), if_neg (by omega), h3]
        show v.state s ls = _
        rw [hv.state, e2, k1 s n h1, s1 s n h1])
    (fun n r t hr hp => by
      simp only [Style.adaptDTMC]
      rw [← hgoal, ← hbad]
      rcases hcase t (hPlt hp) with rfl | rfl | ⟨d, hd⟩
      · rw [if_pos rfl, ht.trans, t1]
      · rw [if_neg (by omega), if_pos rfl, hf.trans, t2]
      · obtain ⟨h2, h3⟩ := hc d t hd
        rcases (hidx _ _ _).1 hr with ⟨s, h1, -⟩ | ⟨rfl, -, rfl⟩ | ⟨rfl, -, rfl⟩
        · have h4 := (hrow _ _ _ _ h1).2.1
          rw [if_neg (by omega), if_neg (by omega), (hc s n h4).2, h3]
          show v.trans s d _ = _
          rw [hv.trans, t3 _ _ _ _ _ h4 hd]
        · have := (k5 t).1 hp; omega
        · have := (k6 t).1 hp; omega)
  refine ⟨g, h1, h2, h3, fun x => ?_, fun x => ?_⟩
  · rw [h4]
    constructor
    · rintro ⟨n, hn, rfl⟩
      have hn' : n < res.rf.sys.N := by
        rcases hn with ⟨r, e1, e2⟩ | ⟨r, e1⟩
        · exact WF.state_lt hw e1 e2
        · exact hPlt e1
      rcases hcase n hn' with rfl | rfl | ⟨s, h1⟩
      · rw [s2]; exact .inr (.inl rfl)
      · rw [s3]; exact .inr (.inr rfl)
      · rw [s1 s n h1]; exact .inl ⟨s, n, h1, rfl⟩
    · rintro (⟨s, n, h1, rfl⟩ | rfl | rfl)
      · obtain ⟨h2, r, h3⟩ := hex h1
        exact ⟨n, .inl ⟨r, h3, hrC _ _ _ h3⟩, by rw [s1 s n h1]⟩
      · exact ⟨goal, .inl ⟨_, hg, hrC _ _ _ hg⟩, by rw [s2]⟩
      · exact ⟨bad, .inl ⟨_, hb, hrC _ _ _ hb⟩, by rw [s3]⟩
  · rw [h5]
    constructor
    · rintro ⟨n, r, t, hr, hp, rfl⟩
      rcases (hidx _ _ _).1 hr with ⟨s, h1, -⟩ | ⟨rfl, -, rfl⟩ | ⟨rfl, -, rfl⟩
      · obtain ⟨i, hi, r1, r2⟩ := hrr h1 hr
        have h1' := (hrow _ _ _ _ h1).2.1
        by_cases hs : s ∈ M.labelled tl
        · obtain ⟨r3, r4⟩ := r2 hs
          have : t = goal := by
            by_contra hn
            rw [r4 t hn] at hp
            exact lt_irrefl _ hp
          subst this
          rw [t1, r3]
          exact .inr (.inl ⟨s, n, h1', hs, rfl⟩)
        · obtain ⟨r3, r4, r5⟩ := r1 hs
          rcases hcase t (hPlt hp) with rfl | rfl | ⟨d, hd⟩
          · rw [r4] at hp; exact absurd hp (lt_irrefl _)
          · rw [r5] at hp
            rw [t2, r5]
            exact .inr (.inr (.inl ⟨s, n, i, h1', hs, hi, hp, rfl⟩))
          · rw [r3 d t hd] at hp
            rw [t3 _ _ _ _ _ h1' hd, r3 d t hd]
            exact .inl ⟨s, n, i, d, t, h1', hs, hi, hd, hp, rfl⟩
      · obtain rfl := (k5 t).1 hp
        rw [t1, k7]
        exact .inr (.inr (.inr (.inl rfl)))
      · obtain rfl := (k6 t).1 hp
        rw [t2, k8]
        exact .inr (.inr (.inr (.inr rfl)))
    · have fin : ∀ {s i j : Nat}, ((s, 0), i) ∈ M.idx → ((s, 0), j) ∈ M.idx → i = j := by
        intro s i j h2 h3
        have e1 := Dict.get?_of_mem hM.wf.keys h2
        have e2 := Dict.get?_of_mem hM.wf.keys h3
        rw [e1] at e2
        exact Option.some.inj e2
      rintro (⟨s, n, i, d, e, h1, hs, hi, hde, hp, rfl⟩ | ⟨s, n, h1, hs, rfl⟩ | ⟨s, n, i, h1, hs, hi, hp, rfl⟩ | rfl | rfl)
      · obtain ⟨h2, r, h3⟩ := hex h1
        obtain ⟨j, hj, r1, -⟩ := hrr h2 h3
        obtain rfl := fin hi hj
        have e1 := (r1 hs).1 d e hde
        exact ⟨n, r, e, h3, by rw [e1]; exact hp, by rw [e1, t3 _ _ _ _ _ h1 hde]⟩
      · obtain ⟨h2, r, h3⟩ := hex h1
        obtain ⟨j, hj, -, r2⟩ := hrr h2 h3
        have e1 := (r2 hs).1
        exact ⟨n, r, goal, h3, by rw [e1]; exact one_pos, by rw [e1, t1]⟩
      · obtain ⟨h2, r, h3⟩ := hex h1
        obtain ⟨j, hj, r1, -⟩ := hrr h2 h3
        obtain rfl := fin hi hj
        have e1 := (r1 hs).2.2
        exact ⟨n, r, bad, h3, by rw [e1]; exact hp, by rw [e1, t2]⟩
      · exact ⟨goal, _, goal, hg, by rw [k7]; exact one_pos, by rw [k7, t1]⟩
      · exact ⟨bad, _, bad, hb, by rw [k8]; exact one_pos, by rw [k8, t2]⟩

/-- **C90 (setting styles).** Setting the style of the goal state is seen by the next picture of a form made by `reduce`: the
goal state is drawn as the new style says, whatever style was set before. -/
theorem C90_set_target (hM : Input M) (hne : ntl ≠ nfl) (hd : M.dtmc = false) (h : M.reduce ρ il tl ntl nfl = .ok res)
    {x : Style.Drawn K} (hx : x.origin = .reduced res) {m : Maps K} {sm smT smF : Nat → Set String → Attrs}
    {am amT amF : Nat → Nat → Set String → Attrs × Attrs} {tm tmT tmF : Nat → Nat → Nat → K → Attrs}
    (hv : Draws x.v sm am tm) (ht : Draws m smT amT tmT) (hf : Draws x.fail smF amF tmF) :
    ∃ g, (x.setTarget m).picture = .ok g ∧ ∀ a, (num (res.rf.sys.N - 2), a) ∈ g.nodes ↔ a = smT (res.rf.sys.N - 2) {ntl} := by
  obtain ⟨g, h1, h2, -, h3, -⟩ := C90_mdp hM hne hd h hv ht hf rfl rfl
  refine ⟨g, ?_, fun a => ?_⟩
  · simp only [Style.Drawn.picture, Style.Drawn.setTarget, hx]
    exact h1
  · have hm : (num (res.rf.sys.N - 2), smT (res.rf.sys.N - 2) {ntl}) ∈ g.nodes := (h3 _).2 (.inr (.inr (.inl rfl)))
    exact ⟨fun h4 => Option.some.inj ((Dict.get?_of_mem h2 h4).symm.trans (Dict.get?_of_mem h2 hm)), fun h4 => h4 ▸ hm⟩

/-- **C90 (setting styles) fails for forms made by the constructor.** There both setters have no effect: the picture stays what
it was, for every form and every two styles. -/
theorem C90_set_false (x : Style.Drawn K) {rf : RF K} (hx : x.origin = .made rf) (m m' : Maps K) :
    ((x.setTarget m).setFail m').picture = x.picture := by
  simp only [Style.Drawn.picture, Style.Drawn.setTarget, Style.Drawn.setFail, hx]

/-! ### Concrete cases -/

/-- a style that writes the number of a state into its label, and the action and the goal of an edge into that of the edge -/
def numStyle : Maps ℚ where
  state s _ := .ok [("label", num s)]
  action _ a _ := .ok ([("label", num a)], [])
  trans _ a t _ := .ok [("label", dash a t)]

theorem numStyle_draws : Draws numStyle (fun s _ => [("label", num s)]) (fun _ a _ => ([("label", num a)], []))
    (fun _ a t _ => [("label", dash a t)]) := ⟨fun _ _ => rfl, fun _ _ _ => rfl, fun _ _ _ _ => rfl⟩

/-- the default style of goal and fail -/
theorem std_draws (color label : String) : Draws (Style.stdMDP (K := ℚ) color label fun _ _ _ _ => .ok [])
    (fun _ _ => [("color", color.toList), ("style", "filled".toList), ("label", label.toList)])
    (fun _ _ _ => ([("shape", "point".toList)], [("dir", "none".toList)])) (fun _ _ _ _ => []) :=
  ⟨fun _ _ => rfl, fun _ _ _ => rfl, fun _ _ _ _ => rfl⟩

theorem std_draws' (color label : String) : DrawsDTMC (Style.stdDTMC (K := ℚ) color label fun _ _ _ => .ok [])
    (fun _ _ => [("color", color.toList), ("style", "filled".toList), ("label", label.toList)]) (fun _ _ _ => []) :=
  ⟨fun _ _ => rfl, fun _ _ _ => rfl⟩

/-- the picture of the reduced example has states 0 to 3, goal 4 and fail 5; the action 1 of state 0 leads to fail -/
example : ∃ res g, redSys.reduce exRnd "start" "goal" "target" "fail" = .ok res ∧
    Digraph.mdp res.rf.sys (Style.adaptMDP res (Style.stdMDP "green" "target" fun _ _ _ _ => .ok [])
      (Style.stdMDP "red" "fail" fun _ _ _ _ => .ok []) numStyle) = .ok g ∧ (num 3, [("label", num 3)]) ∈ g.nodes := by
  obtain ⟨res, h, hc, -, -⟩ := redSys_ok
  obtain ⟨g, h1, -, -, h2, -⟩ := C90_mdp redSys_input (by decide) rfl h numStyle_draws (std_draws "green" "target")
    (std_draws "red" "fail") rfl rfl
  exact ⟨res, g, h, h1, (h2 _).2 (.inl ⟨3, 3, by rw [hc]; rfl, rfl⟩)⟩

/-- a chain: 0 goes to 1, to the target 3 and to the dead end 2, 1 goes back to 0 -/
def redChain : Sys ℚ :=
  { mkSys ⟨4, 4, [((0, 1), 1/2), ((0, 2), 1/4), ((0, 3), 1/4), ((1, 0), 1), ((2, 2), 1), ((3, 3), 1)]⟩
      [((0, 0), 0), ((1, 0), 1), ((2, 0), 2), ((3, 0), 3)] (IDict.mk' [("start", [0]), ("goal", [3])] true) with dtmc := true }

theorem redChain_input : Input redChain where
  wf :=
    have w : (mkSys redChain.P redChain.idx redChain.labS).WF :=
      mkSys_wf (by decide +kernel) (by decide +kernel) (by decide +kernel) (by decide +kernel) (by decide +kernel) (by decide +kernel)
    ⟨w.nodup, w.range, w.pos, w.sum, w.keys, w.vals, w.graph⟩
  total := by
    intro s hs
    have hs : s < 4 := hs
    have : ∀ s < 4, ∃ e ∈ redChain.idx, e.1.1 = s ∧ e.2 < redChain.C := by decide +kernel
    obtain ⟨⟨⟨s', a⟩, i⟩, h1, rfl, h2⟩ := this s hs
    exact ⟨a, i, h1, h2⟩
  labS := ⟨id, [("start", [0]), ("goal", [3])], true, [], fun _ => List.Perm.refl _,
    isPyDict_of (by decide +kernel) (by decide +kernel), rfl⟩
  labA := ⟨id, [], true, [], fun _ => List.Perm.refl _, isPyDict_of (by decide +kernel) (by decide +kernel), rfl⟩

/-- state 3 becomes state 2, and the edge from 0 to 1 is drawn with its old ends -/
example : ∃ res g, redChain.reduce exRnd "start" "goal" "target" "fail" = .ok res ∧
    Digraph.dtmc res.rf.sys (Style.adaptDTMC res (Style.stdDTMC "green" "target" fun _ _ _ => .ok [])
      (Style.stdDTMC "red" "fail" fun _ _ _ => .ok []) ⟨fun s _ => .ok [("label", num s)], fun s t _ => .ok [("label", dash s t)]⟩) = .ok g ∧
      (num 2, [("label", num 3)]) ∈ g.nodes := by
  obtain ⟨res, h, hc⟩ := exists_of_ok_and (x := redChain.reduce exRnd "start" "goal" "target" "fail")
    (p := fun res => decide (res.cols = [(0, 0), (1, 1), (3, 2)])) (by decide +kernel)
  rw [decide_eq_true_eq] at hc
  obtain ⟨g, h1, -, -, h2, -⟩ := C90_dtmc redChain_input (by decide) rfl h
    (v := ⟨fun s _ => .ok [("label", num s)], fun s t _ => .ok [("label", dash s t)]⟩)
    (sm := fun s _ => [("label", num s)]) (tm := fun s t _ => [("label", dash s t)]) ⟨fun _ _ => rfl, fun _ _ _ => rfl⟩
    (tgt := Style.stdDTMC "green" "target" fun _ _ _ => .ok []) (fail := Style.stdDTMC "red" "fail" fun _ _ _ => .ok [])
    (std_draws' "green" "target") (std_draws' "red" "fail") rfl rfl
  exact ⟨res, g, h, h1, (h2 _).2 (.inl ⟨3, 2, by rw [hc]; rfl, rfl⟩)⟩

/-- a form made by the constructor is drawn without error, and the green goal state does not appear -/
example : ∃ g, ((⟨.made (exRF ℚ), numStyle, numStyle, numStyle⟩ : Style.Drawn ℚ).setTarget
      (Style.stdMDP "green" "goal" fun _ _ _ _ => .ok [])).picture = .ok g ∧ (∃ x ∈ g.nodes, x.2 = [("label", num 2)]) ∧
      ∀ x ∈ g.nodes, x.2.map Prod.fst = ["label"] := by
  obtain ⟨g, h1, h2⟩ := exists_of_ok_and (x := (⟨.made (exRF ℚ), numStyle, numStyle, numStyle⟩ : Style.Drawn ℚ).picture)
    (p := fun g => decide ((∃ x ∈ g.nodes, x.2 = [("label", num 2)]) ∧ ∀ x ∈ g.nodes, x.2.map Prod.fst = ["label"])) (by decide +kernel)
  exact ⟨g, (C90_set_false _ rfl _ numStyle).trans h1, of_decide_eq_true h2⟩

end Verif.Props
