import Verif.Proofs.ReduceLab
import Verif.Proofs.RFOK
import Verif.Props.InvertibleDict
/-! # `reduce` yields a consistent reachability form -/
set_option linter.unusedSectionVars false

namespace Verif.Proofs
open Verif.Model Verif.Spec Verif.Props Reduce Finset Verif.Proofs.IDict Verif.Model.IDict

variable {K : Type} [Field K] [LinearOrder K] [IsStrictOrderedRing K]

/-- the states kept by `reduce`: they reach a target state and are reached from the initial state without
passing a target state -/
def Kept (M : Sys K) (T : List Nat) (i s : Nat) : Prop :=
  (∃ t ∈ T, Relation.ReflTransGen (Edge M) s t) ∧ ReachAvoid (Edge M) {x | x ∈ [i]} {x | x ∈ T} s

theorem has_of_statesByLabel {M : Sys K} {l : String} {ss : List Nat} (h : M.statesByLabel l = .ok ss) (s : Nat) :
    s ∈ ss ↔ Has M.labS.d l s := by
  unfold Sys.statesByLabel getItem at h
  unfold Has
  cases hg : M.labS.d.get? l with
  | none =>
    rw [hg] at h
    simp only at h
    split at h
    · cases h; simp
    · cases h
  | some s' => rw [hg] at h; cases h; simp

theorem labelled_iff {M : Sys K} {l : String} {s : Nat} : s ∈ M.labelled l ↔ Has M.labS.d l s := by
  have := sees_iff (x := M.labS) (k := l) (v := s)
  unfold sees at this
  exact this

theorem statesByLabel_nodup {M : Sys K} (hS : Inv M.labS) {l : String} {ss : List Nat} (h : M.statesByLabel l = .ok ss) :
    ss.Nodup := by
  unfold Sys.statesByLabel getItem at h
  cases hg : M.labS.d.get? l with
  | none =>
    rw [hg] at h
    simp only at h
    split at h
    · cases h; simp
    · cases h
  | some s' => rw [hg] at h; cases h; exact hS.ok.2 _ _ hg

theorem eq_singleton {α : Type} {l : List α} (hn : l.Nodup) {a : α} (h : ∀ x, x ∈ l ↔ x = a) : l = [a] := by
  match l, hn, h with
  | [], _, h => simpa using (h a).2 rfl
  | [x], _, h => rw [(h x).1 (by simp)]
  | x :: y :: l, hn, h =>
    have h1 := (h x).1 (by simp)
    have h2 := (h y).1 (by simp)
    subst h1; subst h2
    simp at hn

theorem statesByLabel_single {M : Sys K} (hS : Inv M.labS) {l : String} {s : Nat} (h : ∀ x, Has M.labS.d l x ↔ x = s) :
    M.statesByLabel l = .ok [s] := by
  unfold Sys.statesByLabel getItem
  have hs := (h s).2 rfl
  unfold Has at hs
  cases hg : M.labS.d.get? l with
  | none => rw [hg] at hs; simp at hs
  | some ss =>
    simp only
    congr 1
    refine eq_singleton (hS.ok.2 _ _ hg) fun x => ?_
    rw [← h x]; unfold Has; rw [hg]; rfl

theorem uniqueState_of {M : Sys K} {l : String} {s : Nat} (h : M.statesByLabel l = .ok [s]) : M.uniqueState l = .ok s := by
  unfold Sys.uniqueState; rw [h]

theorem checkAbsorbing_of {M : Sys K} (h : M.WF) {s off : Nat} (ho : 0 < off) (hN : s + off = M.N) {r a : Nat}
    (hr : r + off = M.C) (hm : ((s, a), r) ∈ M.idx) (ho' : ∀ a' i, ((s, a'), i) ∈ M.idx → i < M.C → i = r)
    (hp : M.P.get r s = 1) : M.checkAbsorbing s off = .ok () := by
  have hinv : ∀ i j sa, invGet? M.idx i = some sa → invGet? M.idx j = some sa → i = j := by
    intro i j sa h1 h2
    exact WF.idx_inj' h (mem_of_invGet? h1) (mem_of_invGet? h2)
  have hnd := ((C04_neighbours h.nodup hinv h.graph).2.2.1 s none).1
  have hmem : ((r, s), (1 : K)) ∈ M.P.items := by
    rw [← hp]; exact mem_of_get_ne (by rw [hp]; exact one_ne_zero)
  have hlist : M.graph.successors s = [(s, a, 1)] := by
    refine eq_singleton hnd ?_
    rintro ⟨d, a', p⟩
    rw [WF.successors_mem h]
    constructor
    · rintro ⟨i, h1, h2⟩
      obtain rfl := ho' _ _ h1 (h.range _ _ _ h2).1
      have := WF.idx_inj h h1 hm
      simp only [Prod.mk.injEq, true_and] at this
      subst this
      have hd : d = s := by
        by_contra hne
        have hlt := (h.range _ _ _ h2).2
        have := Finset.sum_le_sum_of_subset_of_nonneg (f := fun j => M.P.get i j)
          (Finset.insert_subset (Finset.mem_range.2 (show s < M.N by omega))
            (Finset.singleton_subset_iff.2 (Finset.mem_range.2 hlt)))
          (fun j _ _ => WF.get_nonneg h _ j)
        rw [h.sum i (by omega), Finset.sum_pair (Ne.symm hne), hp, get_of_mem h.nodup h2] at this
        have := h.pos _ _ _ h2
        linarith
      subst hd
      rw [get_of_mem h.nodup h2] at hp
      rw [hp]
    · intro e
      simp only [Prod.mk.injEq] at e
      obtain ⟨rfl, rfl, rfl⟩ := e
      exact ⟨r, hm, hmem⟩
  unfold Sys.checkAbsorbing
  rw [hlist]
  simp only [if_true, Dict.get?_of_mem h.keys hm]
  rw [if_pos ⟨hr, hN⟩]

/-- sufficient conditions for `assert_consistency` -/
theorem assertConsistency_of {M : Sys K} (h : M.WF) {il tl fl : String} (hl : il ≠ tl ∧ il ≠ fl ∧ tl ≠ fl) {i : Nat}
    (hi : M.statesByLabel il = .ok [i]) (ht : M.statesByLabel tl = .ok [M.N - 2]) (hf : M.statesByLabel fl = .ok [M.N - 1])
    (hN : 2 ≤ M.N) (hC : 2 ≤ M.C) (hiN : i < M.N) {a a' : Nat}
    (hr : ((M.N - 2, a), M.C - 2) ∈ M.idx) (hr' : ((M.N - 1, a'), M.C - 1) ∈ M.idx)
    (hro : ∀ a i, ((M.N - 2, a), i) ∈ M.idx → i < M.C → i = M.C - 2)
    (hro' : ∀ a i, ((M.N - 1, a), i) ∈ M.idx → i < M.C → i = M.C - 1)
    (hp : M.P.get (M.C - 2) (M.N - 2) = 1) (hp' : M.P.get (M.C - 1) (M.N - 1) = 1)
    (hlive : ∀ s < M.N, s ≠ M.N - 1 → Relation.ReflTransGen (Edge M) s (M.N - 2))
    (hreach : ∀ s < M.N, s ≠ M.N - 1 → Relation.ReflTransGen (Edge M) i s)
    (hfail : ¬ Relation.ReflTransGen (Edge M) (M.N - 1) (M.N - 2)) :
    M.assertConsistency il tl fl = .ok () := by
  unfold Sys.assertConsistency
  rw [if_neg (by tauto)]
  obtain ⟨m1, hm1, -, hs1⟩ := WF.mask_fwd h (F := [i]) (B := []) (by simp) (by simp) (by simpa using hiN)
  obtain ⟨m2, hm2, -, hs2⟩ := WF.mask_bwd h (F := [M.N - 2]) (B := []) (by simp) (by simp) (by simp; omega)
  simp only [bind, Except.bind, uniqueState_of hi, uniqueState_of ht, uniqueState_of hf,
    checkAbsorbing_of h (off := 2) (by decide) (by omega) (by omega) hr hro hp,
    checkAbsorbing_of h (off := 1) (by decide) (by omega) (by omega) hr' hro' hp', hm1, hm2]
  rw [if_pos, if_pos]
  · intro x hx
    rw [hs2, reachAvoid_nil]
    constructor
    · rintro hx' rfl
      exact hfail (Relation.reflTransGen_swap.1 hx')
    · intro hne
      exact Relation.reflTransGen_swap.1 (hlive x hx hne)
  · intro x hx
    by_cases hx' : x = M.N - 1
    · exact Or.inr hx'
    · left
      rw [hs1, reachAvoid_nil]
      exact hreach x hx hx'

/-- the checks only add errors -/
theorem make_false_of_true {ρ : Graph.Rnd} {M : Sys K} {il tl fl : String} (h : M.assertConsistency il tl fl = .ok ()) :
    RF.make ρ M il tl fl true = RF.make ρ M il tl fl false := by
  unfold RF.make
  simp [h, bind, Except.bind]

/-- the constructor of a consistent form succeeds -/
theorem make_total {ρ : Graph.Rnd} {M : Sys K} (hM : M.WF) {il tl fl : String} (h : M.assertConsistency il tl fl = .ok ())
    (ig : Bool) : ∃ rf, RF.make ρ M il tl fl ig = .ok rf := by
  obtain ⟨i, hi, ht, hf, hN, hC, hiN, ⟨a, hr⟩, ⟨a', hr'⟩, hro, hro', hp, hp', hlive, hreach⟩ := assertConsistency_ok hM h
  have e : RF.make ρ M il tl fl ig = RF.make ρ M il tl fl true := by
    cases ig
    · exact (make_false_of_true h).symm
    · rfl
  rw [e]
  have hd1 : ∃ d1, delInv M.idx (M.C - 2) = .ok d1 := by
    unfold delInv
    rw [(invGet?_iff hM.vals).2 hr]
    exact ⟨_, rfl⟩
  obtain ⟨d1, hd1⟩ := hd1
  obtain ⟨k1, v1, -, m1⟩ := delInv_ok hM.keys hM.vals hd1
  have hd2 : ∃ d2, delInv d1 (M.C - 1) = .ok d2 := by
    unfold delInv
    rw [(invGet?_iff v1).2 ((m1 _).2 ⟨hr', by simp only; omega⟩)]
    exact ⟨_, rfl⟩
  obtain ⟨d2, hd2⟩ := hd2
  obtain ⟨k2, v2, -, m2⟩ := delInv_ok k1 v1 hd2
  have hmem : ∀ e, e ∈ d2 ↔ (e ∈ M.idx ∧ e.2 ≠ M.C - 2) ∧ e.2 ≠ M.C - 1 := by
    intro e; rw [m2, m1]
  obtain ⟨mecs, proper, cnt, hmec, -⟩ := C07_mec hM.graph (by omega) ρ
  unfold RF.make
  simp only [if_true, bind, Except.bind, hi, hd1, hd2]
  rw [if_pos, if_pos, hmec]
  · exact ⟨_, rfl⟩
  · rintro j hj ⟨s, b⟩ hsa
    have hm := (hmem _).1 (mem_of_invGet? hsa)
    have hlt := WF.state_lt hM hm.1.1 (by omega)
    simp only
    by_contra hge
    rcases (show s = M.N - 2 ∨ s = M.N - 1 by omega) with rfl | rfl
    · have := hro _ _ hm.1.1 (by omega); omega
    · have := hro' _ _ hm.1.1 (by omega); omega
  · intro j hj
    obtain ⟨s, b, h1, -⟩ := WF.cover hM (i := j) (by omega)
    rw [(invGet?_iff v2).2 ((hmem _).2 ⟨⟨h1, by simp only; omega⟩, by simp only; omega⟩)]
    rfl

theorem ite_ok_bind {α : Type} {p : Prop} [Decidable p] {f : Unit → Except Err α} {x : α}
    (h : ((if p then Except.error Err.assertion else Except.ok ()) >>= f) = Except.ok x) : ¬ p ∧ f () = .ok x := by
  by_cases hp : p
  · rw [if_pos hp] at h; cases h
  · rw [if_neg hp] at h; exact ⟨hp, h⟩

theorem bind_ok {α β : Type} {x : Except Err α} {f : α → Except Err β} {b : β} (h : (x >>= f) = .ok b) :
    ∃ a, x = .ok a ∧ f a = .ok b := by
  cases x with
  | error e => cases h
  | ok a => exact ⟨a, rfl, h⟩

theorem reduce_mask {M : Sys K} (hM : M.WF) {T : List Nat} {i : Nat} (hT : T ≠ []) (hnd : T.Nodup) (hTN : ∀ t ∈ T, t < M.N)
    (hi : i < M.N) : ∃ bwd fwd, M.reachableMask T false [] = .ok bwd ∧ M.reachableMask [i] true T = .ok fwd ∧
      ∀ s, ((List.range M.N).map fun s => bwd.getD s false && fwd.getD s false).getD s false = true ↔ Kept M T i s := by
  obtain ⟨bwd, b1, b2, b3⟩ := WF.mask_bwd hM (B := []) hT hnd hTN
  obtain ⟨fwd, f1, f2, f3⟩ := WF.mask_fwd hM (F := [i]) (B := T) (by simp) (by simp) (by simpa using hi)
  refine ⟨bwd, fwd, b1, f1, ?_⟩
  intro s
  have hb : bwd.getD s false = true ↔ ∃ t ∈ T, Relation.ReflTransGen (Edge M) s t := by
    rw [b3]
    unfold ReachAvoid
    have e : (fun u v => u ∉ {x | x ∈ ([] : List Nat)} ∧ Edge M v u) = fun u v => Edge M v u := by funext u v; simp
    rw [e]
    constructor
    · rintro ⟨t, h1, h2⟩; exact ⟨t, h1, Relation.reflTransGen_swap.1 h2⟩
    · rintro ⟨t, h1, h2⟩; exact ⟨t, h1, Relation.reflTransGen_swap.1 h2⟩
  unfold Kept
  rw [← hb, ← f3 s]
  by_cases hs : s < M.N
  · rw [List.getD_eq_getElem _ _ (by simpa using hs)]
    simp
  · rw [List.getD_eq_default _ _ (by simpa using hs)]
    refine iff_of_false (by simp) ?_
    rintro ⟨h1, -⟩
    rw [List.getD_eq_default _ _ (by omega)] at h1
    cases h1

/-- what `reduce` has computed before the reachability form object is built -/
structure Reduced (M : Sys K) (il tl ntl nfl : String) (M' : Sys K) (cols : Dict Nat Nat)
    (rows : Dict (Nat × Nat) (Nat × Nat)) (T : List Nat) (i : Nat) (mask : List Bool) : Prop where
  hT : M.statesByLabel tl = .ok T
  hTne : T ≠ []
  hTN : ∀ t ∈ T, t < M.N
  hi : M.statesByLabel il = .ok [i]
  hiN : i < M.N
  newT : ∀ s, ¬ Has M.labS.d ntl s
  newF : ∀ s, ¬ Has M.labS.d nfl s
  hmask : ∀ s, mask.getD s false = true ↔ Kept M T i s
  red : RedSys M T mask cols rows ntl nfl M'

theorem rf_sys {ρ : Graph.Rnd} {M : Sys K} {il tl fl : String} {ig : Bool} {rf : RF K}
    (h : RF.make ρ M il tl fl ig = .ok rf) : rf.sys = M := by
  simp only [RF.make, bind, Except.bind] at h
  repeat' split at h
  all_goals first
    | (cases h; rfl)
    | cases h

theorem reduce_spec {ρ : Graph.Rnd} {M : Sys K} (hM : M.WF) (hS : Inv M.labS) (hA : Inv M.labA) {il tl ntl nfl : String}
    {res : Result K} (h : M.reduce ρ il tl ntl nfl = .ok res) :
    ∃ T i mask, Reduced M il tl ntl nfl res.rf.sys res.cols res.rows T i mask ∧
      RF.make ρ res.rf.sys il ntl nfl true = .ok res.rf := by
  unfold Sys.reduce at h
  simp only [bind, Except.bind] at h
  split at h
  · cases h
  rename_i h0
  split at h
  · cases h
  rename_i T hT
  split at h
  · cases h
  rename_i hTne
  split at h
  · cases h
  rename_i is his
  match is, his, h with
  | [i], his, h => ?_
  | [], his, h => cases h
  | _ :: _ :: _, his, h => cases h
  simp only at h
  split at h
  · cases h
  rename_i bwd hb
  split at h
  · cases h
  rename_i fwd hf
  split at h
  · cases h
  rename_i cr hm
  obtain ⟨cols, rows⟩ := cr
  simp only at h
  split at h
  · cases h
  rename_i P hP
  split at h
  · cases h
  rename_i index hx
  split at h
  · cases h
  rename_i sys hs
  split at h
  · cases h
  rename_i rf hr
  cases h
  have hTN : ∀ t ∈ T, t < M.N := by
    unfold Sys.reachableMask at hb
    split at hb
    · assumption
    · cases hb
  have hiN : i < M.N := by
    unfold Sys.reachableMask at hf
    split at hf
    · rename_i hh; exact hh i (by simp)
    · cases hf
  obtain ⟨bwd', fwd', b1, f1, hk⟩ := reduce_mask hM hTne (statesByLabel_nodup hS hT) hTN hiN
  rw [b1] at hb; cases hb
  rw [f1] at hf; cases hf
  obtain ⟨cols', rows', hm', hmaps⟩ := maps_ok hM (mask := (List.range M.N).map fun s => bwd.getD s false && fwd.getD s false)
    (by simp)
  rw [hm] at hm'
  cases hm'
  rw [newIndex_ok hmaps] at hx
  cases hx
  have hred := initializeSystem_spec hM hS hA hmaps hP hs
  have hsys := rf_sys hr
  subst hsys
  have hno : ∀ l, l ∉ M.labS.d.keys → ∀ s, ¬ Has M.labS.d l s := by
    intro l hl s hh
    unfold Has at hh
    rw [Dict.get?_eq_none.2 hl] at hh
    simp at hh
  push Not at h0
  exact ⟨T, i, _, ⟨hT, hTne, hTN, his, hiN, hno _ h0.1, hno _ h0.2, hk, hred⟩, hr⟩

namespace Reduced
variable {M M' : Sys K} {il tl ntl nfl : String} {cols : Dict Nat Nat} {rows : Dict (Nat × Nat) (Nat × Nat)}
  {T : List Nat} {i : Nat} {mask : List Bool}

/-- every kept state has an image, if every state has an action -/
theorem kept_iff (h : Reduced M il tl ntl nfl M' cols rows T i mask) (hM : M.WF) (ht : M.Total) (s : Nat) :
    (∃ s', (s, s') ∈ cols) ↔ Kept M T i s := by
  rw [← h.hmask s]
  have : (∃ s', (s, s') ∈ cols) ↔ s ∈ cols.map Prod.fst := by simp
  rw [this, h.red.maps.memS]
  constructor
  · exact fun h => h.1
  · intro hk
    refine ⟨hk, ?_⟩
    obtain ⟨⟨t, h1, h2⟩, -⟩ := (h.hmask s).1 hk
    refine ht s ?_
    rcases h2.cases_head with rfl | ⟨u, he, -⟩
    · exact h.hTN _ h1
    · exact (WF.edge_lt hM he).1

theorem reachAvoid_step {M : Sys K} {T : List Nat} {i s u : Nat} (h : ReachAvoid (Edge M) {x | x ∈ [i]} {x | x ∈ T} s)
    (hs : s ∉ T) (he : Edge M s u) : ReachAvoid (Edge M) {x | x ∈ [i]} {x | x ∈ T} u := by
  obtain ⟨f, h1, h2⟩ := h
  exact ⟨f, h1, h2.tail ⟨hs, he⟩⟩

/-- edges between kept states, leaving a non-target state, survive -/
theorem edge_kept (h : Reduced M il tl ntl nfl M' cols rows T i mask) {s s' u u' : Nat} (hs : (s, s') ∈ cols)
    (hu : (u, u') ∈ cols) (hT : s ∉ T) (he : Edge M s u) : Edge M' s' u' := by
  obtain ⟨a, j, h1, h2, h3⟩ := he
  obtain ⟨hm, -⟩ := (h.red.maps.memS s).1 (List.mem_map_of_mem (f := Prod.fst) hs)
  obtain ⟨k, n, hk⟩ := h.red.maps.row_exists hm h1 h2
  obtain rfl := h.red.maps.col_fun (h.red.maps.row_spec hk).2.1 hs
  refine ⟨a, k, (h.red.idx _ _ _).2 (Or.inl ⟨_, hk⟩), ?_, ?_⟩
  · rw [h.red.hC]; have := (h.red.maps.row_spec hk).2.2.2.2; omega
  · rw [h.red.kept k s a _ j u u' hk hT h1 hu]; exact h3

theorem edge_goal (h : Reduced M il tl ntl nfl M' cols rows T i mask) {s s' : Nat} (hs : (s, s') ∈ cols)
    (hT : s ∈ T) : Edge M' s' cols.length := by
  obtain ⟨hm, a, j, h1, h2⟩ := (h.red.maps.memS s).1 (List.mem_map_of_mem (f := Prod.fst) hs)
  obtain ⟨k, n, hk⟩ := h.red.maps.row_exists hm h1 h2
  obtain rfl := h.red.maps.col_fun (h.red.maps.row_spec hk).2.1 hs
  refine ⟨a, k, (h.red.idx _ _ _).2 (Or.inl ⟨_, hk⟩), ?_, ?_⟩
  · rw [h.red.hC]; have := (h.red.maps.row_spec hk).2.2.2.2; omega
  · rw [h.red.goal k s a _ hk, if_pos hT]; exact one_pos

/-- every kept state reaches the new target -/
theorem live (h : Reduced M il tl ntl nfl M' cols rows T i mask) (hM : M.WF) (ht : M.Total) {s s' : Nat}
    (hs : (s, s') ∈ cols) : Relation.ReflTransGen (Edge M') s' cols.length := by
  obtain ⟨⟨t, h1, h2⟩, h3⟩ := (h.kept_iff hM ht s).1 ⟨s', hs⟩
  induction h2 using Relation.ReflTransGen.head_induction_on generalizing s' with
  | refl => exact Relation.ReflTransGen.single (h.edge_goal hs h1)
  | head he hr ih =>
    rename_i s u
    by_cases hT : s ∈ T
    · exact Relation.ReflTransGen.single (h.edge_goal hs hT)
    · have h4 := reachAvoid_step h3 hT he
      obtain ⟨u', hu⟩ := (h.kept_iff hM ht u).2 ⟨⟨t, h1, hr⟩, h4⟩
      exact Relation.ReflTransGen.head (h.edge_kept hs hu hT he) (ih hu h4)

/-- every kept state is reached from the image of the initial state -/
theorem reach (h : Reduced M il tl ntl nfl M' cols rows T i mask) (hM : M.WF) (ht : M.Total) {i' s s' : Nat}
    (hi : (i, i') ∈ cols) (hs : (s, s') ∈ cols) : Relation.ReflTransGen (Edge M') i' s' := by
  obtain ⟨⟨t, h1, h2⟩, f, hf, h3⟩ := (h.kept_iff hM ht s).1 ⟨s', hs⟩
  simp only [List.mem_singleton, Set.mem_ofPred_eq] at hf
  subst hf
  induction h3 generalizing s' with
  | refl => rw [h.red.maps.col_fun hi hs]
  | tail hr he ih =>
    rename_i u s
    have hk : Kept M T f u := ⟨⟨t, h1, Relation.ReflTransGen.head he.2 h2⟩, f, by simp, hr⟩
    obtain ⟨u', hu⟩ := (h.kept_iff hM ht u).2 hk
    exact (ih hu (Relation.ReflTransGen.head he.2 h2)).tail (h.edge_kept hu hs he.1 he.2)

theorem col_cases (h : Reduced M il tl ntl nfl M' cols rows T i mask) {x : Nat} (hx : x < M'.N) :
    (∃ s, (s, x) ∈ cols) ∨ x = cols.length ∨ x = cols.length + 1 := by
  rw [h.red.hN] at hx
  by_cases hl : x < cols.length
  · exact Or.inl (h.red.maps.col_of_lt hl)
  · right; omega

theorem goal_idx (h : Reduced M il tl ntl nfl M' cols rows T i mask) {a k : Nat}
    (hm : ((cols.length, a), k) ∈ M'.idx) : a = 0 ∧ k = rows.length := by
  rcases (h.red.idx _ _ _).1 hm with ⟨⟨s, b⟩, h1⟩ | h1 | h1
  · have := h.red.maps.col_lt (h.red.maps.row_spec h1).2.1; omega
  · exact h1.2
  · omega

theorem fail_idx (h : Reduced M il tl ntl nfl M' cols rows T i mask) {a k : Nat}
    (hm : ((cols.length + 1, a), k) ∈ M'.idx) : a = 0 ∧ k = rows.length + 1 := by
  rcases (h.red.idx _ _ _).1 hm with ⟨⟨s, b⟩, h1⟩ | h1 | h1
  · have := h.red.maps.col_lt (h.red.maps.row_spec h1).2.1; omega
  · omega
  · exact h1.2

theorem fail_stuck (h : Reduced M il tl ntl nfl M' cols rows T i mask) {x : Nat}
    (hx : Relation.ReflTransGen (Edge M') (cols.length + 1) x) : x = cols.length + 1 := by
  induction hx with
  | refl => rfl
  | tail _ he ih =>
    subst ih
    obtain ⟨a, k, e1, e2, e3⟩ := he
    obtain ⟨-, rfl⟩ := h.fail_idx e1
    by_contra hne
    have hlt := (WF.get_range h.red.wf e3).2
    have hN := h.red.hN
    have := Finset.sum_le_sum_of_subset_of_nonneg (f := fun j => M'.P.get (rows.length + 1) j)
      (Finset.insert_subset (Finset.mem_range.2 (show cols.length + 1 < M'.N by omega))
        (Finset.singleton_subset_iff.2 (Finset.mem_range.2 hlt)))
      (fun j _ _ => WF.get_nonneg h.red.wf _ j)
    rw [h.red.wf.sum _ e2, Finset.sum_pair (Ne.symm hne), h.red.failRow] at this
    linarith

/-- labels of the reduced system -/
theorem labels (h : Reduced M il tl ntl nfl M' cols rows T i mask) (hne : ntl ≠ nfl) :
    M'.statesByLabel ntl = .ok [cols.length] ∧
    M'.statesByLabel nfl = .ok [cols.length + 1] ∧ il ≠ ntl ∧ il ≠ nfl ∧
    ∀ i', (i, i') ∈ cols → M'.statesByLabel il = .ok [i'] := by
  have hil : Has M.labS.d il i := (has_of_statesByLabel h.hi i).1 (by simp)
  have h1 : il ≠ ntl := by rintro rfl; exact h.newT _ hil
  have h2 : il ≠ nfl := by rintro rfl; exact h.newF _ hil
  refine ⟨statesByLabel_single h.red.labI ?_, statesByLabel_single h.red.labI ?_, h1, h2, ?_⟩
  · intro x
    rw [h.red.labS]
    constructor
    · rintro (⟨s, -, h3⟩ | h3 | h3)
      · exact absurd h3 (h.newT s)
      · exact h3.2
      · exact absurd h3.1 hne
    · intro e; exact Or.inr (Or.inl ⟨rfl, e⟩)
  · intro x
    rw [h.red.labS]
    constructor
    · rintro (⟨s, -, h3⟩ | h3 | h3)
      · exact absurd h3 (h.newF s)
      · exact absurd h3.1.symm hne
      · exact h3.2
    · intro e; exact Or.inr (Or.inr ⟨rfl, e⟩)
  · intro i' hi'
    refine statesByLabel_single h.red.labI ?_
    intro x
    rw [h.red.labS]
    constructor
    · rintro (⟨s, h3, h4⟩ | h3 | h3)
      · have : s = i := by simpa using (has_of_statesByLabel h.hi s).2 h4
        subst this
        exact h.red.maps.col_fun h3 hi'
      · exact absurd h3.1 h1
      · exact absurd h3.1 h2
    · rintro rfl; exact Or.inl ⟨i, hi', hil⟩

/-- the initial state is kept -/
theorem init_kept (h : Reduced M il tl ntl nfl M' cols rows T i mask) {ρ : Graph.Rnd} {rf : RF K}
    (hr : RF.make ρ M' il ntl nfl true = .ok rf) : ∃ i', (i, i') ∈ cols := by
  have hil : Has M.labS.d il i := (has_of_statesByLabel h.hi i).1 (by simp)
  have h1 : il ≠ ntl := by rintro rfl; exact h.newT _ hil
  have h2 : il ≠ nfl := by rintro rfl; exact h.newF _ hil
  simp only [RF.make, if_true, bind, Except.bind] at hr
  split at hr
  · cases hr
  rename_i is his
  match is, his, hr with
  | [], _, hr => cases hr
  | x :: _, his, _ =>
    have := (has_of_statesByLabel his x).1 (by simp)
    rcases (h.red.labS _ _).1 this with ⟨s, h3, h4⟩ | h3 | h3
    · have : s = i := by simpa using (has_of_statesByLabel h.hi s).2 h4
      subst this
      exact ⟨x, h3⟩
    · exact absurd h3.1 h1
    · exact absurd h3.1 h2

theorem consistent (h : Reduced M il tl ntl nfl M' cols rows T i mask) (hM : M.WF) (ht : M.Total) (hne : ntl ≠ nfl)
    {i' : Nat} (hi' : (i, i') ∈ cols) : M'.assertConsistency il ntl nfl = .ok () := by
  obtain ⟨l1, l2, l3, l4, l5⟩ := h.labels hne
  have hN := h.red.hN
  have hC := h.red.hC
  have e1 : M'.N - 2 = cols.length := by omega
  have e2 : M'.N - 1 = cols.length + 1 := by omega
  have e3 : M'.C - 2 = rows.length := by omega
  have e4 : M'.C - 1 = rows.length + 1 := by omega
  have hlt := h.red.maps.col_lt hi'
  refine assertConsistency_of h.red.wf ⟨l3, l4, hne⟩ (l5 i' hi') (by rw [e1, l1]) (by rw [e2, l2]) (by omega) (by omega)
    (by omega) (a := 0) (a' := 0) ?_ ?_ ?_ ?_ ?_ ?_ ?_ ?_ ?_
  · rw [e1, e3, h.red.idx]; exact Or.inr (Or.inl ⟨rfl, rfl, rfl⟩)
  · rw [e2, e4, h.red.idx]; exact Or.inr (Or.inr ⟨rfl, rfl, rfl⟩)
  · rw [e1, e3]; exact fun a k hk _ => (h.goal_idx hk).2
  · rw [e2, e4]; exact fun a k hk _ => (h.fail_idx hk).2
  · rw [e1, e3]; exact h.red.goalRow
  · rw [e2, e4]; exact h.red.failRow
  · intro x hx hx'
    rw [e1]
    rcases h.col_cases hx with ⟨s, hs⟩ | rfl | rfl
    · exact h.live hM ht hs
    · exact Relation.ReflTransGen.refl
    · omega
  · intro x hx hx'
    rcases h.col_cases hx with ⟨s, hs⟩ | rfl | rfl
    · exact h.reach hM ht hi' hs
    · exact h.live hM ht hi'
    · omega
  · rw [e1, e2]
    intro hr
    have := h.fail_stuck hr
    omega

end Reduced

/-- sufficient conditions for `reduce` to succeed -/
theorem reduce_total {ρ : Graph.Rnd} {M : Sys K} (hM : M.WF) (ht : M.Total) (hS : Inv M.labS) (hA : Inv M.labA)
    {il tl ntl nfl : String} {T : List Nat} {i : Nat}
    (hT : M.statesByLabel tl = .ok T) (hTN : ∀ t ∈ T, t < M.N) (hi : M.statesByLabel il = .ok [i])
    (h1 : ntl ∉ M.labS.d.keys) (h2 : nfl ∉ M.labS.d.keys) (hne : ntl ≠ nfl)
    (hreach : ∃ t ∈ T, Relation.ReflTransGen (Edge M) i t)
    (hlS : ∀ s < M.N, ∃ ls, M.labelsByState s = .ok ls)
    (hlA : ∀ sa i, (sa, i) ∈ M.idx → ∃ ls, M.labelsByAction sa = .ok ls)
    (hr : ∀ r, M.rew = some r → ∀ i < M.C, ∃ x, r[i]? = some x ∧ 0 ≤ x)
    (hd : M.dtmc = true → ∀ s a i, ((s, a), i) ∈ M.idx → a = 0) :
    ∃ res, M.reduce ρ il tl ntl nfl = .ok res := by
  obtain ⟨t0, ht0, htr⟩ := hreach
  have hTne : T ≠ [] := by rintro rfl; simp at ht0
  have hiN : i < M.N := by
    rcases htr.cases_head with rfl | ⟨u, he, -⟩
    · exact hTN _ ht0
    · exact (WF.edge_lt hM he).1
  obtain ⟨bwd, fwd, b1, f1, hk⟩ := reduce_mask hM hTne (statesByLabel_nodup hS hT) hTN hiN
  obtain ⟨cols, rows, hm, hmaps⟩ := maps_ok hM (mask := (List.range M.N).map fun s => bwd.getD s false && fwd.getD s false)
    (by simp)
  obtain ⟨P, hP, -⟩ := newP_ok hM hmaps T
  obtain ⟨M', hM'⟩ := initializeSystem_total hM hmaps hlS hlA hr hS hA hd hP ntl nfl
  have hred := initializeSystem_spec hM hS hA hmaps hP hM'
  have hno : ∀ l, l ∉ M.labS.d.keys → ∀ s, ¬ Has M.labS.d l s := by
    intro l hl s hh
    unfold Has at hh
    rw [Dict.get?_eq_none.2 hl] at hh
    simp at hh
  have hR : Reduced M il tl ntl nfl M' cols rows T i _ := ⟨hT, hTne, hTN, hi, hiN, hno _ h1, hno _ h2, hk, hred⟩
  obtain ⟨i', hi'⟩ := (hR.kept_iff hM ht i).2 ⟨⟨t0, ht0, htr⟩, i, by simp, Relation.ReflTransGen.refl⟩
  obtain ⟨rf, hrf⟩ := make_total (ρ := ρ) hred.wf (hR.consistent hM ht hne hi') true
  unfold Sys.reduce
  rw [if_neg (by tauto)]
  simp only [bind, Except.bind, hT, hi, b1, f1, hm, hP, newIndex_ok hmaps, hM', hrf]
  rw [if_neg hTne]
  exact ⟨_, rfl⟩

end Verif.Proofs
