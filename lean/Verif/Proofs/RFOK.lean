import Verif.Proofs.Sem
import Mathlib.Algebra.Order.BigOperators.Group.Finset
/-! # What `ReachabilityForm.__init__` establishes -/
set_option linter.unusedSectionVars false

namespace Verif.Proofs
open Verif.Model Verif.Spec Verif.Props

theorem del_sublist {α β : Type} [DecidableEq α] (d : Dict α β) (k : α) : (d.del k).Sublist d := by
  induction d with
  | nil => exact List.Sublist.refl _
  | cons p d ih =>
    obtain ⟨a, b⟩ := p
    simp only [Dict.del]
    split
    · exact List.sublist_cons_self _ _
    · exact ih.cons_cons _

theorem mem_del {α β : Type} [DecidableEq α] {d : Dict α β} (hk : (d.map Prod.fst).Nodup) {k : α}
    {e : α × β} : e ∈ d.del k ↔ e ∈ d ∧ e.1 ≠ k := by
  induction d with
  | nil => simp [Dict.del]
  | cons p d ih =>
    obtain ⟨a, b⟩ := p
    simp only [List.map_cons, List.nodup_cons] at hk
    simp only [Dict.del]
    split
    · rename_i hak
      subst hak
      constructor
      · intro he
        refine ⟨List.mem_cons_of_mem _ he, ?_⟩
        rintro rfl
        exact hk.1 (List.mem_map_of_mem he)
      · rintro ⟨he, hne⟩
        rcases List.mem_cons.1 he with rfl | he
        · exact absurd rfl hne
        · exact he
    · rename_i hak
      rw [List.mem_cons, List.mem_cons, ih hk.2]
      constructor
      · rintro (rfl | ⟨h1, h2⟩)
        · exact ⟨Or.inl rfl, hak⟩
        · exact ⟨Or.inr h1, h2⟩
      · rintro ⟨rfl | h1, h2⟩
        · exact Or.inl rfl
        · exact Or.inr ⟨h1, h2⟩

theorem delInv_ok {α β : Type} [DecidableEq α] [DecidableEq β] {d d' : Dict α β}
    (hk : (d.map Prod.fst).Nodup) (hv : (d.map Prod.snd).Nodup) {v : β} (h : delInv d v = .ok d') :
    (d'.map Prod.fst).Nodup ∧ (d'.map Prod.snd).Nodup ∧ v ∈ d.map Prod.snd ∧
    ∀ e, e ∈ d' ↔ e ∈ d ∧ e.2 ≠ v := by
  unfold delInv at h
  split at h
  · cases h
  · rename_i k hg
    simp only [Except.ok.injEq] at h
    subst h
    have hm := mem_of_invGet? hg
    refine ⟨((del_sublist d k).map _).nodup hk, ((del_sublist d k).map _).nodup hv,
      List.mem_map_of_mem (f := Prod.snd) hm, fun e => ?_⟩
    rw [mem_del hk]
    refine and_congr_right fun he => not_congr ?_
    constructor
    · intro hek
      have := List.inj_on_of_nodup_map hk he hm hek
      rw [this]
    · intro hev
      have := List.inj_on_of_nodup_map hv he hm hev
      rw [this]

variable {K : Type} [Field K] [LinearOrder K] [IsStrictOrderedRing K]

/-- The shape of a reachability form on a well-formed system (without the reachability conditions) -/
structure RFOK (rf : RF K) : Prop where
  wf : rf.sys.WF
  total : rf.sys.Total
  hN : 2 ≤ rf.sys.N
  hC : 2 ≤ rf.sys.C
  goalRow : ∃ a, ((rf.sys.N - 2, a), rf.sys.C - 2) ∈ rf.sys.idx
  failRow : ∃ a, ((rf.sys.N - 1, a), rf.sys.C - 1) ∈ rf.sys.idx
  goalOnly : ∀ a i, ((rf.sys.N - 2, a), i) ∈ rf.sys.idx → i < rf.sys.C → i = rf.sys.C - 2
  failOnly : ∀ a i, ((rf.sys.N - 1, a), i) ∈ rf.sys.idx → i < rf.sys.C → i = rf.sys.C - 1
  goalP : rf.sys.P.get (rf.sys.C - 2) (rf.sys.N - 2) = 1
  failP : rf.sys.P.get (rf.sys.C - 1) (rf.sys.N - 1) = 1
  inv : ∀ i < rf.sys.C - 2, invGet? rf.idx i = invGet? rf.sys.idx i
  target : rf.sys.labelled rf.targetL = {rf.sys.N - 2}
  fail : rf.sys.labelled rf.failL = {rf.sys.N - 1}
  ec : ∀ s < rf.sys.N, (rf.inProperEC s = true ↔
    ∃ E act, GraphEC (MatTr (invGet? rf.sys.idx) rf.sys.P.items) E act ∧ s ∈ E)
  mecSame : ∀ x < rf.sys.N, ∀ y < rf.sys.N, x ≠ y → (rf.mec x = rf.mec y ↔
    ∃ E act, GraphEC (MatTr (invGet? rf.sys.idx) rf.sys.P.items) E act ∧ x ∈ E ∧ y ∈ E)
  mecLt : ∀ x < rf.sys.N, rf.mec x < rf.nmec
  mecSurj : ∀ c < rf.nmec, ∃ x < rf.sys.N, rf.mec x = c

/-- What the constructor of a reachability form with consistency checks establishes -/
structure RFLive (rf : RF K) : Prop extends RFOK rf where
  live : ∀ s < rf.sys.N, s ≠ rf.sys.N - 1 → Relation.ReflTransGen (Edge rf.sys) s (rf.sys.N - 2)
  reach : ∀ s < rf.sys.N, s ≠ rf.sys.N - 1 → Relation.ReflTransGen (Edge rf.sys) rf.initial s
  init : rf.initial < rf.sys.N - 1
  initLab : rf.sys.statesByLabel rf.initL = .ok [rf.initial]
  initT : rf.initL ≠ rf.targetL

theorem checkAbsorbing_ok {M : Sys K} (h : M.WF) {s off : Nat} (ho : 0 < off)
    (hc : M.checkAbsorbing s off = .ok ()) :
    s + off = M.N ∧ ∃ r a, r + off = M.C ∧ ((s, a), r) ∈ M.idx ∧
      (∀ a' i, ((s, a'), i) ∈ M.idx → i < M.C → i = r) ∧ M.P.get r s = 1 := by
  unfold Sys.checkAbsorbing at hc
  split at hc
  · rename_i t a p hs
    split at hc
    · rename_i hts
      subst hts
      split at hc
      · cases hc
      · rename_i r hr
        split at hc
        · rename_i hcond
          have hm := Dict.mem_of_get? hr
          have hall : ∀ d a' q, (d, a', q) ∈ M.graph.successors t ↔ d = t ∧ a' = a ∧ q = p := by
            intro d a' q; rw [hs]; simp
          refine ⟨hcond.2, r, a, hcond.1, hm, ?_, ?_⟩
          · intro a' i hi hiC
            obtain ⟨j, _, hp⟩ := WF.exists_pos h hiC
            obtain ⟨q, hq⟩ := (WF.get_pos_iff h).1 hp
            obtain ⟨-, rfl, -⟩ := (hall _ _ _).1 ((WF.successors_mem h).2 ⟨i, hi, hq⟩)
            exact WF.idx_inj' h hi hm
          · rw [← h.sum r (by omega)]
            refine (Finset.sum_eq_single t ?_ ?_).symm
            · intro j _ hne
              refine get_eq_zero fun q hq => hne ?_
              exact ((hall _ _ _).1 ((WF.successors_mem h).2 ⟨r, hm, hq⟩)).1
            · intro hnot
              simp only [Finset.mem_range] at hnot
              omega
        · cases hc
    · cases hc
  · cases hc

theorem uniqueState_ok {M : Sys K} {l : String} {s : Nat} (h : M.uniqueState l = .ok s) :
    M.statesByLabel l = .ok [s] := by
  unfold Sys.uniqueState at h
  split at h
  · cases h
  · rename_i s' e; cases h; exact e
  · cases h

theorem reachAvoid_nil {V : Type} {E : V → V → Prop} {f x : V} :
    ReachAvoid E {x | x ∈ [f]} {x | x ∈ ([] : List V)} x ↔ Relation.ReflTransGen E f x := by
  have e : (fun u v => u ∉ {x | x ∈ ([] : List V)} ∧ E u v) = E := by funext u v; simp
  unfold ReachAvoid
  rw [e]
  simp

/-- `assert_consistency` on a well-formed system -/
theorem assertConsistency_ok {M : Sys K} (h : M.WF) {il tl fl : String}
    (hc : M.assertConsistency il tl fl = .ok ()) :
    ∃ i, M.statesByLabel il = .ok [i] ∧ M.statesByLabel tl = .ok [M.N - 2] ∧
      M.statesByLabel fl = .ok [M.N - 1] ∧ 2 ≤ M.N ∧ 2 ≤ M.C ∧ i < M.N - 1 ∧
      (∃ a, ((M.N - 2, a), M.C - 2) ∈ M.idx) ∧ (∃ a, ((M.N - 1, a), M.C - 1) ∈ M.idx) ∧
      (∀ a i, ((M.N - 2, a), i) ∈ M.idx → i < M.C → i = M.C - 2) ∧
      (∀ a i, ((M.N - 1, a), i) ∈ M.idx → i < M.C → i = M.C - 1) ∧
      M.P.get (M.C - 2) (M.N - 2) = 1 ∧ M.P.get (M.C - 1) (M.N - 1) = 1 ∧
      (∀ s < M.N, s ≠ M.N - 1 → Relation.ReflTransGen (Edge M) s (M.N - 2)) ∧
      (∀ s < M.N, s ≠ M.N - 1 → Relation.ReflTransGen (Edge M) i s) := by
  unfold Sys.assertConsistency at hc
  split at hc
  · cases hc
  · simp only [bind, Except.bind] at hc
    split at hc
    · cases hc
    rename_i i hi
    split at hc
    · cases hc
    rename_i t ht
    split at hc
    · cases hc
    rename_i f hf
    split at hc
    · cases hc
    rename_i u1 h1
    split at hc
    · cases hc
    rename_i u2 h2
    split at hc
    · cases hc
    rename_i fwd hfwd
    split at hc
    swap
    · cases hc
    rename_i hF
    split at hc
    · cases hc
    rename_i bwd hbwd
    split at hc
    swap
    · cases hc
    rename_i hB
    obtain ⟨et, r, a, er, hr, hro, hrp⟩ := checkAbsorbing_ok h (by decide) h1
    obtain ⟨ef, r', a', er', hr', hro', hrp'⟩ := checkAbsorbing_ok h (by decide) h2
    obtain rfl : t = M.N - 2 := by omega
    obtain rfl : f = M.N - 1 := by omega
    obtain rfl : r = M.C - 2 := by omega
    obtain rfl : r' = M.C - 1 := by omega
    have hiN : i < M.N := by
      unfold Sys.reachableMask at hfwd
      split at hfwd
      · rename_i hh; exact hh i (by simp)
      · cases hfwd
    obtain ⟨m1, hm1, -, hs1⟩ := WF.mask_fwd h (F := [i]) (B := []) (by simp) (by simp) (by simpa using hiN)
    obtain ⟨m2, hm2, -, hs2⟩ := WF.mask_bwd h (F := [M.N - 2]) (B := []) (by simp) (by simp)
      (by simp; omega)
    rw [hm1] at hfwd; cases hfwd
    rw [hm2] at hbwd; cases hbwd
    have hlive : ∀ s < M.N, s ≠ M.N - 1 → Relation.ReflTransGen (Edge M) s (M.N - 2) := by
      intro s hs hne
      have := (hB s hs).2 hne
      rw [hs2, reachAvoid_nil] at this
      exact Relation.reflTransGen_swap.1 this
    have hreach : ∀ s < M.N, s ≠ M.N - 1 → Relation.ReflTransGen (Edge M) i s := by
      intro s hs hne
      rcases hF s hs with h' | h'
      · rwa [hs1, reachAvoid_nil] at h'
      · exact absurd h' hne
    refine ⟨i, uniqueState_ok hi, uniqueState_ok ht, uniqueState_ok hf, by omega, by omega, ?_, ⟨a, hr⟩,
      ⟨a', hr'⟩, hro, hro', hrp, hrp', hlive, hreach⟩
    have hne : i ≠ M.N - 1 := by
      rintro rfl
      have h3 := hreach (M.N - 2) (by omega) (by omega)
      have h4 : ∀ x, Relation.ReflTransGen (Edge M) (M.N - 1) x → x = M.N - 1 := by
        intro x hx
        induction hx with
        | refl => rfl
        | tail _ he ih =>
          subst ih
          obtain ⟨a'', i, e1, e2, e3⟩ := he
          obtain rfl := hro' _ _ e1 e2
          by_contra hne
          have hsum := h.sum _ e2
          have hlt := (WF.get_range h e3).2
          have := Finset.sum_le_sum_of_subset_of_nonneg (f := fun j => M.P.get (M.C - 1) j)
            (Finset.insert_subset (Finset.mem_range.2 (show M.N - 1 < M.N by omega))
              (Finset.singleton_subset_iff.2 (Finset.mem_range.2 hlt)))
            (fun j _ _ => WF.get_nonneg h _ j)
          rw [hsum, Finset.sum_pair (Ne.symm hne), hrp'] at this
          linarith
      have := h4 _ h3
      omega
    omega

/-- a reachability form built with the consistency checks -/
theorem labelled_of_single {M : Sys K} {l : String} {s : Nat} (hl : M.statesByLabel l = .ok [s]) : M.labelled l = {s} := by
  ext x
  simp [Sys.labelled, hl]

/-- the shape of a system is that of a reachability form -/
structure SysShape (M : Sys K) (tl fl : String) : Prop where
  wf : M.WF
  total : M.Total
  hN : 2 ≤ M.N
  hC : 2 ≤ M.C
  goalRow : ∃ a, ((M.N - 2, a), M.C - 2) ∈ M.idx
  failRow : ∃ a, ((M.N - 1, a), M.C - 1) ∈ M.idx
  goalOnly : ∀ a i, ((M.N - 2, a), i) ∈ M.idx → i < M.C → i = M.C - 2
  failOnly : ∀ a i, ((M.N - 1, a), i) ∈ M.idx → i < M.C → i = M.C - 1
  goalP : M.P.get (M.C - 2) (M.N - 2) = 1
  failP : M.P.get (M.C - 1) (M.N - 1) = 1
  target : M.labelled tl = {M.N - 2}
  fail : M.labelled fl = {M.N - 1}

theorem rfok_of_shape {ρ : Graph.Rnd} {M : Sys K} {il tl fl : String} {rf : RF K} (h : SysShape M tl fl)
    (hm : RF.make ρ M il tl fl true = .ok rf) :
    RFOK rf ∧ rf.sys = M ∧ rf.initL = il ∧ rf.targetL = tl ∧ rf.failL = fl ∧
      ∃ l, M.statesByLabel il = .ok (rf.initial :: l) := by
  cases his : M.statesByLabel il with
  | error e => simp [RF.make, his, bind, Except.bind] at hm
  | ok ss =>
  cases ss with
  | nil => simp [RF.make, his, bind, Except.bind] at hm
  | cons i0 l =>
  simp only [RF.make, if_true, bind, Except.bind, his] at hm
  split at hm
  · cases hm
  rename_i d1 hd1
  split at hm
  · cases hm
  rename_i d2 hd2
  split at hm
  swap
  · cases hm
  split at hm
  swap
  · cases hm
  split at hm
  · cases hm
  rename_i mec proper cnt hmec
  simp only [Except.ok.injEq] at hm
  subst hm
  obtain ⟨k1, v1, -, m1⟩ := delInv_ok h.wf.keys h.wf.vals hd1
  obtain ⟨k2, v2, -, m2⟩ := delInv_ok k1 v1 hd2
  obtain ⟨mec', proper', cnt', hmec', q1, q2, q3⟩ := C07_mec h.wf.graph (by have := h.hN; omega) ρ
  rw [hmec] at hmec'
  cases hmec'
  refine ⟨⟨h.wf, h.total, h.hN, h.hC, h.goalRow, h.failRow, h.goalOnly, h.failOnly, h.goalP, h.failP, ?_, h.target, h.fail, ?_,
    q1, q2, q3⟩, rfl, rfl, rfl, rfl, l, rfl⟩
  · intro j hj
    simp only at hj ⊢
    cases hg : invGet? M.idx j with
    | none =>
      rw [invGet?_eq_none] at hg ⊢
      intro hmem
      obtain ⟨e, he, rfl⟩ := List.mem_map.1 hmem
      exact hg (List.mem_map_of_mem ((m1 _).1 ((m2 _).1 he).1).1)
    | some k =>
      rw [invGet?_iff v2, m2, m1]
      exact ⟨⟨mem_of_invGet? hg, by simp only; omega⟩, by simp only; omega⟩
  · intro s hs
    refine C08_proper h.wf.graph ρ ?_ hmec hs
    intro x hx
    obtain ⟨a, i, e1, e2⟩ := h.total x hx
    obtain ⟨j, _, hp⟩ := WF.exists_pos h.wf e2
    exact ⟨a, j, (WF.matTr_iff h.wf).2 ⟨i, e1, e2, hp⟩⟩

theorem rflive_of_make {ρ : Graph.Rnd} {M : Sys K} (h : M.WF) {il tl fl : String} {rf : RF K} {ig : Bool}
    (hc : M.assertConsistency il tl fl = .ok ())
    (hm : RF.make ρ M il tl fl ig = .ok rf) : RFLive rf := by
  obtain ⟨i, hi, ht, hf, hN, hC, hiN, hr, hr', hro, hro', hp, hp', hlive, hreach⟩ := assertConsistency_ok h hc
  have hm : RF.make ρ M il tl fl true = .ok rf := by
    cases ig
    · unfold RF.make at hm ⊢
      simpa only [Bool.false_eq_true, if_false, if_true, hc, bind, Except.bind] using hm
    · exact hm
  have htot : M.Total := by
    intro s hs
    have key : ∀ t, Relation.ReflTransGen (Edge M) s t → s ≠ t → ∃ a i, ((s, a), i) ∈ M.idx ∧ i < M.C := by
      intro t hst hne
      rcases hst.cases_head with rfl | ⟨u, ⟨a, i, e1, e2, _⟩, _⟩
      · exact absurd rfl hne
      · exact ⟨a, i, e1, e2⟩
    by_cases hsf : s = M.N - 1
    · subst hsf
      obtain ⟨a, ha⟩ := hr'
      exact ⟨a, _, ha, by omega⟩
    · by_cases hst : s = M.N - 2
      · subst hst
        obtain ⟨a, ha⟩ := hr
        exact ⟨a, _, ha, by omega⟩
      · exact key _ (hlive s hs hsf) hst
  obtain ⟨ho, e1, e2, e3, e4, l, hl⟩ := rfok_of_shape (il := il) (tl := tl) (fl := fl) ⟨h, htot, hN, hC, hr, hr', hro, hro', hp, hp',
    labelled_of_single ht, labelled_of_single hf⟩ hm
  rw [hi] at hl
  have hii : i = rf.initial := by cases hl; rfl
  subst e1
  refine ⟨ho, hlive, hii ▸ hreach, hii ▸ hiN, by rw [e2, hi, hii], ?_⟩
  rw [e2, e3]
  rintro rfl
  unfold Sys.assertConsistency at hc
  rw [if_pos (Or.inl rfl)] at hc
  cases hc

theorem rfok_of_make {ρ : Graph.Rnd} {M : Sys K} (h : M.WF) {il tl fl : String} {rf : RF K} {ig : Bool}
    (hc : M.assertConsistency il tl fl = .ok ())
    (hm : RF.make ρ M il tl fl ig = .ok rf) : RFOK rf := (rflive_of_make h hc hm).toRFOK

end Verif.Proofs
