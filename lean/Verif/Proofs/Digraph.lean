import Verif.Model.Digraph
import Verif.Proofs.IOTra
import Verif.Proofs.System
/-!
# Lemmas on pictures
-/
set_option linter.unusedSectionVars false

namespace Verif.Proofs
open Verif.Model Verif.Model.Digraph Verif.Model.Text Verif.Proofs.IOTra

theorem fmtD_inj {m n : Nat} (h : fmtD m = fmtD n) : m = n := by
  have h1 := Text.pyInt_fmtD m
  rw [h, Text.pyInt_fmtD] at h1
  exact_mod_cast (Except.ok.inj h1).symm

theorem dash_notMem (n : Nat) : '-' ∉ fmtD n := fmtD_plain (by decide)

theorem stateName_inj {s t : Nat} (h : stateName s = stateName t) : s = t := fmtD_inj h

theorem append_sep {α : Type} {c : α} : ∀ {l l' r r' : List α}, c ∉ l → c ∉ l' → l ++ c :: r = l' ++ c :: r' → l = l' ∧ r = r'
  | [], [], _, _, _, _, h => ⟨rfl, by simpa using h⟩
  | [], b :: l', _, _, _, h2, h => by
    simp only [List.nil_append, List.cons_append, List.cons.injEq] at h
    exact absurd (by simp [h.1]) h2
  | a :: l, [], _, _, h1, _, h => by
    simp only [List.nil_append, List.cons_append, List.cons.injEq] at h
    exact absurd (by simp [h.1]) h1
  | a :: l, b :: l', r, r', h1, h2, h => by
    simp only [List.cons_append, List.cons.injEq] at h
    have := append_sep (fun hc => h1 (by simp [hc])) (fun hc => h2 (by simp [hc])) h.2
    exact ⟨by rw [h.1, this.1], this.2⟩

theorem actionName_inj {s a s' a' : Nat} (h : actionName s a = actionName s' a') : s = s' ∧ a = a' := by
  obtain ⟨h1, h2⟩ := append_sep (dash_notMem s) (dash_notMem s') h
  exact ⟨fmtD_inj h1, fmtD_inj h2⟩

theorem stateName_ne {s t a : Nat} : stateName s ≠ actionName t a := by
  intro h
  have : '-' ∈ stateName s := by rw [h]; simp [actionName]
  exact dash_notMem s this

variable {K : Type} {M : Sys K} {sm : Nat → Attrs} {am : Nat → Nat → Attrs × Attrs} {tm : Nat → Nat → Nat → K → Attrs}
variable {st st' : St}

/-- the nodes are those of the states and rows met so far -/
structure NInv (M : Sys K) (sm : Nat → Attrs) (am : Nat → Nat → Attrs × Attrs) (st : St) : Prop where
  mem : ∀ x, x ∈ st.g.nodes ↔ (∃ s ∈ st.seen, x = (stateName s, sm s)) ∨
    ∃ s a r, r ∈ st.rows ∧ ((s, a), r) ∈ M.idx ∧ x = (actionName s a, (am s a).1)
  nodup : (st.g.nodes.map Prod.fst).Nodup

theorem addState_spec (h : NInv M sm am st) {f : Nat → List String → Except Err Attrs} {v : Nat}
    (hv : (M.labelsByState v >>= f v) = .ok (sm v)) :
    ∃ st', addState M f st v = .ok st' ∧ NInv M sm am st' ∧ (∀ s, s ∈ st'.seen ↔ s ∈ st.seen ∨ s = v) ∧ st'.rows = st.rows ∧
      st'.g.edges = st.g.edges := by
  unfold addState
  by_cases hm : v ∈ st.seen
  · rw [if_pos hm]
    refine ⟨st, rfl, h, fun s => ?_, rfl, rfl⟩
    constructor
    · exact .inl
    · rintro (h | rfl) <;> assumption
  · rw [if_neg hm]
    cases hl : M.labelsByState v with
    | error e => rw [hl] at hv; cases hv
    | ok ls =>
      rw [hl] at hv
      have hv : f v ls = .ok (sm v) := hv
      simp only [bind, Except.bind, hv]
      refine ⟨_, rfl, ⟨fun x => ?_, ?_⟩, fun s => by simp, rfl, rfl⟩
      · simp only [List.mem_append, List.mem_singleton, h.mem]
        constructor
        · rintro ((⟨s, h1, h2⟩ | h1) | h1)
          · exact .inl ⟨s, .inl h1, h2⟩
          · exact .inr h1
          · exact .inl ⟨v, .inr rfl, h1⟩
        · rintro (⟨s, h1 | rfl, h2⟩ | h1)
          · exact .inl (.inl ⟨s, h1, h2⟩)
          · exact .inr h2
          · exact .inl (.inr h1)
      · simp only [List.map_append, List.map_cons, List.map_nil]
        rw [List.nodup_append]
        refine ⟨h.nodup, by simp, ?_⟩
        intro a ha b hb heq
        simp only [List.mem_singleton] at hb
        subst hb heq
        obtain ⟨x, hx, he⟩ := List.mem_map.1 ha
        rcases (h.mem x).1 hx with ⟨s, h1, rfl⟩ | ⟨s, a, r, h1, h2, rfl⟩
        · exact hm (stateName_inj he ▸ h1)
        · exact stateName_ne he.symm

/-- what is known after the entries `done` -/
structure DInv (M : Sys K) (sm : Nat → Attrs) (am : Nat → Nat → Attrs × Attrs) (tm : Nat → Nat → Nat → K → Attrs)
    (done : List ((Nat × Nat) × K)) (st : St) : Prop extends NInv M sm am st where
  seen : ∀ s, s ∈ st.seen ↔ ∃ e ∈ done, (∃ a, ((s, a), e.1.1) ∈ M.idx) ∨ s = e.1.2
  rows : ∀ r, r ∈ st.rows ↔ ∃ e ∈ done, e.1.1 = r
  edge : ∀ x, x ∈ st.g.edges ↔ (∃ s a r, r ∈ st.rows ∧ ((s, a), r) ∈ M.idx ∧ x = (stateName s, actionName s a, (am s a).2)) ∨
    ∃ e ∈ done, ∃ s a, ((s, a), e.1.1) ∈ M.idx ∧ x = (actionName s a, stateName e.1.2, tm s a e.1.2 e.2)
  enodup : (st.g.edges.map fun e => (e.1, e.2.1)).Nodup

theorem mdpStep_spec (hk : (M.idx.map Prod.fst).Nodup) (hv : (M.idx.map Prod.snd).Nodup) {v : Maps K} {done : List ((Nat × Nat) × K)}
    (h : DInv M sm am tm done st) {e : (Nat × Nat) × K} {s a : Nat} (hi : ((s, a), e.1.1) ∈ M.idx)
    (hs : (M.labelsByState s >>= v.state s) = .ok (sm s)) (ht : (M.labelsByState e.1.2 >>= v.state e.1.2) = .ok (sm e.1.2))
    (htr : v.trans s a e.1.2 e.2 = .ok (tm s a e.1.2 e.2)) (ha : (M.labelsByAction (s, a) >>= v.action s a) = .ok (am s a))
    (hn : e.1 ∉ done.map Prod.fst) :
    ∃ st', mdpStep M v st e = .ok st' ∧ DInv M sm am tm (done ++ [e]) st' := by
  have huniq : ∀ s' a', ((s', a'), e.1.1) ∈ M.idx → s' = s ∧ a' = a := by
    intro s' a' h'
    have h1 := (invGet?_iff hv).2 hi
    rw [(invGet?_iff hv).2 h'] at h1
    simpa using h1
  have hrow : ∀ r, ((s, a), r) ∈ M.idx → r = e.1.1 := by
    intro r hr
    have h1 := Dict.get?_of_mem hk hr
    rw [Dict.get?_of_mem hk hi] at h1
    exact (Option.some.inj h1).symm
  obtain ⟨st1, e1, n1, s1, r1, g1⟩ := addState_spec h.toNInv hs
  obtain ⟨st2, e2, n2, s2, r2, g2⟩ := addState_spec n1 ht
  unfold mdpStep
  rw [(invGet?_iff hv).2 hi]
  cases hl : M.labelsByAction (s, a) with
  | error x => rw [hl] at ha; cases ha
  | ok ls =>
    rw [hl] at ha
    have ha : v.action s a ls = .ok (am s a) := ha
    simp only [bind, Except.bind, e1, e2, htr, hl, ha]
    refine ⟨_, rfl, ?_⟩
    have hseen : ∀ s', s' ∈ st2.seen ↔ ∃ e' ∈ done ++ [e], (∃ a, ((s', a), e'.1.1) ∈ M.idx) ∨ s' = e'.1.2 := by
      intro s'
      rw [s2, s1, h.seen]
      simp only [List.mem_append, List.mem_singleton]
      constructor
      · rintro ((⟨e', h1, h2⟩ | rfl) | rfl)
        · exact ⟨e', .inl h1, h2⟩
        · exact ⟨e, .inr rfl, .inl ⟨a, hi⟩⟩
        · exact ⟨e, .inr rfl, .inr rfl⟩
      · rintro ⟨e', h1 | rfl, h2⟩
        · exact .inl (.inl ⟨e', h1, h2⟩)
        · rcases h2 with ⟨a', h3⟩ | h3
          · exact .inl (.inr (huniq _ _ h3).1)
          · exact .inr h3
    have hnew : (actionName s a, stateName e.1.2) ∉ st2.g.edges.map fun e => (e.1, e.2.1) := by
      rw [g2, g1]
      intro hm
      obtain ⟨x, hx, he⟩ := List.mem_map.1 hm
      rcases (h.edge x).1 hx with ⟨s', a', r, -, -, rfl⟩ | ⟨e', h1, s', a', h2, rfl⟩
      · exact stateName_ne (Prod.mk.inj he).1
      · obtain ⟨h3, h4⟩ := Prod.mk.inj he
        obtain ⟨rfl, rfl⟩ := actionName_inj h3
        have h5 := hrow _ h2
        have h6 := stateName_inj h4
        exact hn (List.mem_map.2 ⟨e', h1, Prod.ext h5 h6⟩)
    by_cases hr : e.1.1 ∈ st2.rows
    · simp only [if_pos hr]
      have hr' := hr
      rw [r2, r1, h.rows] at hr'
      have hrows : ∀ r, r ∈ st2.rows ↔ ∃ e' ∈ done ++ [e], e'.1.1 = r := by
        intro r
        rw [r2, r1, h.rows]
        simp only [List.mem_append, List.mem_singleton]
        constructor
        · rintro ⟨e', h1, h2⟩; exact ⟨e', .inl h1, h2⟩
        · rintro ⟨e', h1 | rfl, h2⟩
          · exact ⟨e', h1, h2⟩
          · subst h2; exact hr'
      refine ⟨⟨n2.mem, n2.nodup⟩, hseen, hrows, fun x => ?_, ?_⟩
      · simp only [List.mem_append, List.mem_singleton, g2, g1, h.edge, r2, r1]
        constructor
        · rintro ((h1 | ⟨e', h1, h2⟩) | rfl)
          · exact .inl h1
          · exact .inr ⟨e', .inl h1, h2⟩
          · exact .inr ⟨e, .inr rfl, s, a, hi, rfl⟩
        · rintro (h1 | ⟨e', h1 | rfl, s', a', h2, rfl⟩)
          · exact .inl (.inl h1)
          · exact .inl (.inr ⟨e', h1, s', a', h2, rfl⟩)
          · obtain ⟨rfl, rfl⟩ := huniq _ _ h2
            exact .inr rfl
      · simp only [List.map_append, List.map_cons, List.map_nil]
        rw [List.nodup_append]
        refine ⟨by rw [g2, g1]; exact h.enodup, by simp, ?_⟩
        intro x hx y hy hxy
        simp only [List.mem_singleton] at hy
        subst hy hxy
        exact hnew hx
    · simp only [if_neg hr]
      have hr' := hr
      rw [r2, r1] at hr'
      refine ⟨⟨fun x => ?_, ?_⟩, hseen, fun r => ?_, fun x => ?_, ?_⟩
      · simp only [List.mem_append, List.mem_singleton, n2.mem]
        constructor
        · rintro ((h1 | ⟨s', a', r, h1, h2, h3⟩) | rfl)
          · exact .inl h1
          · exact .inr ⟨s', a', r, .inl h1, h2, h3⟩
          · exact .inr ⟨s, a, _, .inr rfl, hi, rfl⟩
        · rintro (h1 | ⟨s', a', r, h1 | rfl, h2, rfl⟩)
          · exact .inl (.inl h1)
          · exact .inl (.inr ⟨s', a', r, h1, h2, rfl⟩)
          · obtain ⟨rfl, rfl⟩ := huniq _ _ h2
            exact .inr rfl
      · simp only [List.map_append, List.map_cons, List.map_nil]
        rw [List.nodup_append]
        refine ⟨n2.nodup, by simp, ?_⟩
        intro x hx y hy hxy
        simp only [List.mem_singleton] at hy
        subst hy hxy
        obtain ⟨x, hx, he⟩ := List.mem_map.1 hx
        rcases (n2.mem x).1 hx with ⟨s', h1, rfl⟩ | ⟨s', a', r, h1, h2, rfl⟩
        · exact stateName_ne he
        · obtain ⟨rfl, rfl⟩ := actionName_inj he
          exact hr (hrow _ h2 ▸ h1)
      · simp only [List.mem_append, List.mem_singleton, r2, r1, h.rows]
        constructor
        · rintro (⟨e', h1, h2⟩ | rfl)
          · exact ⟨e', .inl h1, h2⟩
          · exact ⟨e, .inr rfl, rfl⟩
        · rintro ⟨e', h1 | rfl, h2⟩
          · exact .inl ⟨e', h1, h2⟩
          · exact .inr h2.symm
      · simp only [List.mem_append, List.mem_singleton, g2, g1, h.edge, r2, r1]
        constructor
        · rintro (((⟨s', a', r, h1, h2⟩ | ⟨e', h1, h2⟩) | rfl) | rfl)
          · exact .inl ⟨s', a', r, .inl h1, h2⟩
          · exact .inr ⟨e', .inl h1, h2⟩
          · exact .inl ⟨s, a, _, .inr rfl, hi, rfl⟩
          · exact .inr ⟨e, .inr rfl, s, a, hi, rfl⟩
        · rintro (⟨s', a', r, h1 | rfl, h2, rfl⟩ | ⟨e', h1 | rfl, s', a', h2, rfl⟩)
          · exact .inl (.inl (.inl ⟨s', a', r, h1, h2, rfl⟩))
          · obtain ⟨rfl, rfl⟩ := huniq _ _ h2
            exact .inl (.inr rfl)
          · exact .inl (.inl (.inr ⟨e', h1, s', a', h2, rfl⟩))
          · obtain ⟨rfl, rfl⟩ := huniq _ _ h2
            exact .inr rfl
      · simp only [List.map_append, List.map_cons, List.map_nil]
        have hnew2 : (stateName s, actionName s a) ∉ st2.g.edges.map fun e => (e.1, e.2.1) := by
          rw [g2, g1]
          intro hm
          obtain ⟨x, hx, he⟩ := List.mem_map.1 hm
          rcases (h.edge x).1 hx with ⟨s', a', r, h1, h2, rfl⟩ | ⟨e', h1, s', a', h2, rfl⟩
          · obtain ⟨-, h4⟩ := Prod.mk.inj he
            obtain ⟨rfl, rfl⟩ := actionName_inj h4
            exact hr' (hrow _ h2 ▸ h1)
          · exact stateName_ne (Prod.mk.inj he).1.symm
        rw [List.nodup_append]
        refine ⟨?_, by simp, ?_⟩
        · rw [List.nodup_append]
          refine ⟨by rw [g2, g1]; exact h.enodup, by simp, ?_⟩
          intro x hx y hy hxy
          simp only [List.mem_singleton] at hy
          subst hy hxy
          exact hnew2 hx
        · intro x hx y hy hxy
          simp only [List.mem_singleton] at hy
          subst hy hxy
          rcases List.mem_append.1 hx with hx | hx
          · exact hnew hx
          · simp only [List.mem_singleton, Prod.mk.injEq] at hx
            exact stateName_ne hx.1.symm

theorem mdp_fold (hk : (M.idx.map Prod.fst).Nodup) (hv : (M.idx.map Prod.snd).Nodup) {v : Maps K} :
    ∀ (es done : List ((Nat × Nat) × K)) {st : St}, DInv M sm am tm done st →
    (∀ e ∈ es, ∃ s a, ((s, a), e.1.1) ∈ M.idx ∧ (M.labelsByState s >>= v.state s) = .ok (sm s) ∧
      (M.labelsByState e.1.2 >>= v.state e.1.2) = .ok (sm e.1.2) ∧ v.trans s a e.1.2 e.2 = .ok (tm s a e.1.2 e.2) ∧
      (M.labelsByAction (s, a) >>= v.action s a) = .ok (am s a)) →
    ((done ++ es).map Prod.fst).Nodup →
    ∃ st', es.foldlM (mdpStep M v) st = .ok st' ∧ DInv M sm am tm (done ++ es) st' := by
  intro es
  induction es with
  | nil => intro done st h _ _; exact ⟨st, rfl, by simpa using h⟩
  | cons e es ih =>
    intro done st h hes hn
    obtain ⟨s, a, h1, h2, h3, h4, h5⟩ := hes e (by simp)
    obtain ⟨st1, e1, i1⟩ := mdpStep_spec hk hv h h1 h2 h3 h4 h5 (by
      rw [List.map_append, List.map_cons, List.nodup_append] at hn
      intro hm
      exact hn.2.2 _ hm _ (by simp) rfl)
    obtain ⟨st2, e2, i2⟩ := ih (done ++ [e]) i1 (fun e' he' => hes e' (by simp [he'])) (by simpa using hn)
    refine ⟨st2, ?_, by simpa using i2⟩
    rw [List.foldlM_cons]
    simp only [bind, Except.bind, e1]
    exact e2

/-- the same for chains -/
structure CInv (M : Sys K) (sm : Nat → Attrs) (tm : Nat → Nat → K → Attrs) (done : List ((Nat × Nat) × K)) (st : St) : Prop
    extends NInv M sm (fun _ _ => ([], [])) st where
  seen : ∀ s, s ∈ st.seen ↔ ∃ e ∈ done, (∃ a, ((s, a), e.1.1) ∈ M.idx) ∨ s = e.1.2
  rows : st.rows = []
  edge : ∀ x, x ∈ st.g.edges ↔ ∃ e ∈ done, ∃ s a, ((s, a), e.1.1) ∈ M.idx ∧ x = (stateName s, stateName e.1.2, tm s e.1.2 e.2)
  enodup : (st.g.edges.map fun e => (e.1, e.2.1)).Nodup

theorem dtmcStep_spec (hk : (M.idx.map Prod.fst).Nodup) (hv : (M.idx.map Prod.snd).Nodup)
    (h0 : ∀ s a i, ((s, a), i) ∈ M.idx → a = 0) {v : DTMCMaps K} {tm : Nat → Nat → K → Attrs} {done : List ((Nat × Nat) × K)}
    (h : CInv M sm tm done st) {e : (Nat × Nat) × K} {s a : Nat} (hi : ((s, a), e.1.1) ∈ M.idx)
    (hs : (M.labelsByState s >>= v.state s) = .ok (sm s)) (ht : (M.labelsByState e.1.2 >>= v.state e.1.2) = .ok (sm e.1.2))
    (htr : v.trans s e.1.2 e.2 = .ok (tm s e.1.2 e.2)) (hn : e.1 ∉ done.map Prod.fst) :
    ∃ st', dtmcStep M v st e = .ok st' ∧ CInv M sm tm (done ++ [e]) st' := by
  have huniq : ∀ s' a', ((s', a'), e.1.1) ∈ M.idx → s' = s ∧ a' = a := by
    intro s' a' h'
    have h1 := (invGet?_iff hv).2 hi
    rw [(invGet?_iff hv).2 h'] at h1
    simpa using h1
  obtain ⟨st1, e1, n1, s1, r1, g1⟩ := addState_spec h.toNInv hs
  obtain ⟨st2, e2, n2, s2, r2, g2⟩ := addState_spec n1 ht
  unfold dtmcStep
  rw [(invGet?_iff hv).2 hi]
  simp only [bind, Except.bind, e1, e2, htr]
  refine ⟨_, rfl, ⟨n2.mem, n2.nodup⟩, fun s' => ?_, by rw [r2, r1, h.rows], fun x => ?_, ?_⟩
  · rw [s2, s1, h.seen]
    simp only [List.mem_append, List.mem_singleton]
    constructor
    · rintro ((⟨e', h1, h2⟩ | rfl) | rfl)
      · exact ⟨e', .inl h1, h2⟩
      · exact ⟨e, .inr rfl, .inl ⟨a, hi⟩⟩
      · exact ⟨e, .inr rfl, .inr rfl⟩
    · rintro ⟨e', h1 | rfl, h2⟩
      · exact .inl (.inl ⟨e', h1, h2⟩)
      · rcases h2 with ⟨a', h3⟩ | h3
        · exact .inl (.inr (huniq _ _ h3).1)
        · exact .inr h3
  · simp only [List.mem_append, List.mem_singleton, g2, g1, h.edge]
    constructor
    · rintro (⟨e', h1, h2⟩ | rfl)
      · exact ⟨e', .inl h1, h2⟩
      · exact ⟨e, .inr rfl, s, a, hi, rfl⟩
    · rintro ⟨e', h1 | rfl, s', a', h2, rfl⟩
      · exact .inl ⟨e', h1, s', a', h2, rfl⟩
      · obtain ⟨rfl, rfl⟩ := huniq _ _ h2
        exact .inr rfl
  · simp only [List.map_append, List.map_cons, List.map_nil]
    rw [List.nodup_append]
    refine ⟨by rw [g2, g1]; exact h.enodup, by simp, ?_⟩
    intro x hx y hy hxy
    simp only [List.mem_singleton] at hy
    subst hy hxy
    rw [g2, g1] at hx
    obtain ⟨x, hx, he⟩ := List.mem_map.1 hx
    obtain ⟨e', h1, s', a', h2, rfl⟩ := (h.edge x).1 hx
    obtain ⟨h3, h4⟩ := Prod.mk.inj he
    obtain rfl := stateName_inj h3
    obtain rfl := h0 _ _ _ hi
    obtain rfl := h0 _ _ _ h2
    have h5 := Dict.get?_of_mem hk h2
    rw [Dict.get?_of_mem hk hi] at h5
    exact hn (List.mem_map.2 ⟨e', h1, Prod.ext (Option.some.inj h5).symm (stateName_inj h4)⟩)

theorem dtmc_fold (hk : (M.idx.map Prod.fst).Nodup) (hv : (M.idx.map Prod.snd).Nodup)
    (h0 : ∀ s a i, ((s, a), i) ∈ M.idx → a = 0) {v : DTMCMaps K} {tm : Nat → Nat → K → Attrs} :
    ∀ (es done : List ((Nat × Nat) × K)) {st : St}, CInv M sm tm done st →
    (∀ e ∈ es, ∃ s a, ((s, a), e.1.1) ∈ M.idx ∧ (M.labelsByState s >>= v.state s) = .ok (sm s) ∧
      (M.labelsByState e.1.2 >>= v.state e.1.2) = .ok (sm e.1.2) ∧ v.trans s e.1.2 e.2 = .ok (tm s e.1.2 e.2)) →
    ((done ++ es).map Prod.fst).Nodup →
    ∃ st', es.foldlM (dtmcStep M v) st = .ok st' ∧ CInv M sm tm (done ++ es) st' := by
  intro es
  induction es with
  | nil => intro done st h _ _; exact ⟨st, rfl, by simpa using h⟩
  | cons e es ih =>
    intro done st h hes hn
    obtain ⟨s, a, h1, h2, h3, h4⟩ := hes e (by simp)
    obtain ⟨st1, e1, i1⟩ := dtmcStep_spec hk hv h0 h h1 h2 h3 h4 (by
      rw [List.map_append, List.map_cons, List.nodup_append] at hn
      intro hm
      exact hn.2.2 _ hm _ (by simp) rfl)
    obtain ⟨st2, e2, i2⟩ := ih (done ++ [e]) i1 (fun e' he' => hes e' (by simp [he'])) (by simpa using hn)
    refine ⟨st2, ?_, by simpa using i2⟩
    rw [List.foldlM_cons]
    simp only [bind, Except.bind, e1]
    exact e2

end Verif.Proofs
