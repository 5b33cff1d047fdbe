import Verif.Proofs.Digraph
import Verif.Props.Subsystem
/-!
# C79 and C80: pictures of systems and subsystems
-/
set_option linter.unusedSectionVars false

namespace Verif.Props
open Verif.Model Verif.Model.Text Verif.Spec Verif.Proofs Finset
open Verif.Model.Digraph (Maps DTMCMaps)

variable {K : Type} [Field K] [LinearOrder K] [IsStrictOrderedRing K]
variable {ρ ρ' : Graph.Rnd} {M : Sys K} {il tl fl : String} {rf : RF K}

/-- the decimal digits of a number -/
def num (n : Nat) : List Char := Nat.toDigits 10 n

/-- `"s-a"` -/
def dash (s a : Nat) : List Char := num s ++ '-' :: num a

/-- **C79 (MDP).** If the three functions return for the states, actions and transitions of an MDP, `digraph` returns
a graph with one node for every state that has an action or can be entered, with the attributes of `state_map`, one
node for every state-action pair, one edge from a state to each of its actions, and one edge from an action to each
successor, with the attributes computed from the probability of this transition. There are no other nodes and edges
and no two of them have the same name or the same ends. -/
theorem C79_mdp (hM : M.WF) {v : Maps K} {sm : Nat → Attrs} {am : Nat → Nat → Attrs × Attrs} {tm : Nat → Nat → Nat → K → Attrs}
    (hs : ∀ s < M.N, ∃ ls, M.labelsByState s = .ok ls ∧ v.state s ls = .ok (sm s))
    (ha : ∀ s a r, ((s, a), r) ∈ M.idx → r < M.C → ∃ ls, M.labelsByAction (s, a) = .ok ls ∧ v.action s a ls = .ok (am s a))
    (ht : ∀ s a r t, ((s, a), r) ∈ M.idx → 0 < M.P.get r t → v.trans s a t (M.P.get r t) = .ok (tm s a t (M.P.get r t))) :
    ∃ g, Digraph.mdp M v = .ok g ∧ (g.nodes.map Prod.fst).Nodup ∧ (g.edges.map fun e => (e.1, e.2.1)).Nodup ∧
      (∀ x, x ∈ g.nodes ↔
        (∃ s, ((∃ a r, ((s, a), r) ∈ M.idx ∧ r < M.C) ∨ ∃ r, 0 < M.P.get r s) ∧ x = (num s, sm s)) ∨
        ∃ s a r, ((s, a), r) ∈ M.idx ∧ r < M.C ∧ x = (dash s a, (am s a).1)) ∧
      (∀ x, x ∈ g.edges ↔
        (∃ s a r, ((s, a), r) ∈ M.idx ∧ r < M.C ∧ x = (num s, dash s a, (am s a).2)) ∨
        ∃ s a r t, ((s, a), r) ∈ M.idx ∧ 0 < M.P.get r t ∧ x = (dash s a, num t, tm s a t (M.P.get r t))) := by
  obtain ⟨st, h1, h2⟩ := mdp_fold hM.keys hM.vals (v := v) (sm := sm) (am := am) (tm := tm) M.P.items [] (st := ⟨⟨[], []⟩, [], []⟩)
    ⟨⟨by simp, by simp⟩, by simp, by simp, by simp, by simp⟩ (by
      intro e he
      obtain ⟨hr, hc⟩ := hM.range _ _ _ he
      obtain ⟨s, a, hi, -⟩ := WF.cover hM hr
      obtain ⟨l1, k1, k2⟩ := hs s (WF.state_lt hM hi hr)
      obtain ⟨l2, k3, k4⟩ := hs _ hc
      obtain ⟨l3, k5, k6⟩ := ha s a _ hi hr
      have eg : M.P.get e.1.1 e.1.2 = e.2 := get_of_mem hM.nodup (show ((e.1.1, e.1.2), e.2) ∈ M.P.items from he)
      have k7 := ht s a _ _ hi ((WF.get_pos_iff hM).2 ⟨e.2, he⟩)
      rw [eg] at k7
      exact ⟨s, a, hi, by rw [k1]; exact k2, by rw [k3]; exact k4, k7, by rw [k5]; exact k6⟩) (by simpa using hM.nodup)
  simp only [List.nil_append] at h2
  have hrow : ∀ r, r ∈ st.rows ↔ r < M.C := by
    intro r
    rw [h2.rows]
    constructor
    · rintro ⟨e, he, rfl⟩; exact (hM.range _ _ _ he).1
    · intro hr
      obtain ⟨t, -, hp⟩ := WF.exists_pos hM hr
      obtain ⟨p, hp⟩ := (WF.get_pos_iff hM).1 hp
      exact ⟨_, hp, rfl⟩
  refine ⟨st.g, by simp [Digraph.mdp, h1, bind, Except.bind], h2.nodup, h2.enodup, fun x => ?_, fun x => ?_⟩
  · rw [h2.mem]
    constructor
    · rintro (⟨s, h3, rfl⟩ | ⟨s, a, r, h3, h4, rfl⟩)
      · obtain ⟨e, he, h5⟩ := (h2.seen s).1 h3
        refine .inl ⟨s, ?_, rfl⟩
        rcases h5 with ⟨a, h5⟩ | rfl
        · exact .inl ⟨a, _, h5, (hM.range _ _ _ he).1⟩
        · exact .inr ⟨e.1.1, (WF.get_pos_iff hM).2 ⟨e.2, he⟩⟩
      · exact .inr ⟨s, a, r, h4, (hrow r).1 h3, rfl⟩
    · rintro (⟨s, h3, rfl⟩ | ⟨s, a, r, h3, h4, rfl⟩)
      · refine .inl ⟨s, (h2.seen s).2 ?_, rfl⟩
        rcases h3 with ⟨a, r, h4, h5⟩ | ⟨r, h4⟩
        · obtain ⟨t, -, hp⟩ := WF.exists_pos hM h5
          obtain ⟨p, hp⟩ := (WF.get_pos_iff hM).1 hp
          exact ⟨_, hp, .inl ⟨a, h4⟩⟩
        · obtain ⟨p, hp⟩ := (WF.get_pos_iff hM).1 h4
          exact ⟨_, hp, .inr rfl⟩
      · exact .inr ⟨s, a, r, (hrow r).2 h4, h3, rfl⟩
  · rw [h2.edge]
    constructor
    · rintro (⟨s, a, r, h3, h4, rfl⟩ | ⟨e, he, s, a, h3, rfl⟩)
      · exact .inl ⟨s, a, r, h4, (hrow r).1 h3, rfl⟩
      · refine .inr ⟨s, a, e.1.1, e.1.2, h3, (WF.get_pos_iff hM).2 ⟨e.2, he⟩, ?_⟩
        rw [get_of_mem hM.nodup (show ((e.1.1, e.1.2), e.2) ∈ M.P.items from he)]; rfl
    · rintro (⟨s, a, r, h3, h4, rfl⟩ | ⟨s, a, r, t, h3, h4, rfl⟩)
      · exact .inl ⟨s, a, r, (hrow r).2 h4, h3, rfl⟩
      · exact .inr ⟨_, mem_of_get_ne h4.ne', s, a, h3, rfl⟩

/-- **C79 (DTMC).** For a chain: one node for every state that has a transition or can be entered, one edge for every
transition with positive probability, nothing else. -/
theorem C79_dtmc (hM : M.WF) (h0 : ∀ s a i, ((s, a), i) ∈ M.idx → a = 0) {v : DTMCMaps K} {sm : Nat → Attrs}
    {tm : Nat → Nat → K → Attrs} (hs : ∀ s < M.N, ∃ ls, M.labelsByState s = .ok ls ∧ v.state s ls = .ok (sm s))
    (ht : ∀ s r t, ((s, 0), r) ∈ M.idx → 0 < M.P.get r t → v.trans s t (M.P.get r t) = .ok (tm s t (M.P.get r t))) :
    ∃ g, Digraph.dtmc M v = .ok g ∧ (g.nodes.map Prod.fst).Nodup ∧ (g.edges.map fun e => (e.1, e.2.1)).Nodup ∧
      (∀ x, x ∈ g.nodes ↔ ∃ s, ((∃ r, ((s, 0), r) ∈ M.idx ∧ r < M.C) ∨ ∃ r, 0 < M.P.get r s) ∧ x = (num s, sm s)) ∧
      (∀ x, x ∈ g.edges ↔ ∃ s r t, ((s, 0), r) ∈ M.idx ∧ 0 < M.P.get r t ∧ x = (num s, num t, tm s t (M.P.get r t))) := by
  obtain ⟨st, h1, h2⟩ := dtmc_fold hM.keys hM.vals h0 (v := v) (sm := sm) (tm := tm) M.P.items [] (st := ⟨⟨[], []⟩, [], []⟩)
    ⟨⟨by simp, by simp⟩, by simp, rfl, by simp, by simp⟩ (by
      intro e he
      obtain ⟨hr, hc⟩ := hM.range _ _ _ he
      obtain ⟨s, a, hi, -⟩ := WF.cover hM hr
      obtain ⟨l1, k1, k2⟩ := hs s (WF.state_lt hM hi hr)
      obtain ⟨l2, k3, k4⟩ := hs _ hc
      have eg : M.P.get e.1.1 e.1.2 = e.2 := get_of_mem hM.nodup (show ((e.1.1, e.1.2), e.2) ∈ M.P.items from he)
      have k7 := ht s _ _ (h0 _ _ _ hi ▸ hi) ((WF.get_pos_iff hM).2 ⟨e.2, he⟩)
      rw [eg] at k7
      exact ⟨s, a, hi, by rw [k1]; exact k2, by rw [k3]; exact k4, k7⟩) (by simpa using hM.nodup)
  simp only [List.nil_append] at h2
  refine ⟨st.g, by simp [Digraph.dtmc, h1, bind, Except.bind], h2.nodup, h2.enodup, fun x => ?_, fun x => ?_⟩
  · rw [h2.mem, h2.rows]
    constructor
    · rintro (⟨s, h3, rfl⟩ | ⟨s, a, r, h3, -⟩)
      · obtain ⟨e, he, h5⟩ := (h2.seen s).1 h3
        refine ⟨s, ?_, rfl⟩
        rcases h5 with ⟨a, h5⟩ | rfl
        · obtain rfl := h0 _ _ _ h5
          exact .inl ⟨_, h5, (hM.range _ _ _ he).1⟩
        · exact .inr ⟨e.1.1, (WF.get_pos_iff hM).2 ⟨e.2, he⟩⟩
      · simp at h3
    · rintro ⟨s, h3, rfl⟩
      refine .inl ⟨s, (h2.seen s).2 ?_, rfl⟩
      rcases h3 with ⟨r, h4, h5⟩ | ⟨r, h4⟩
      · obtain ⟨t, -, hp⟩ := WF.exists_pos hM h5
        obtain ⟨p, hp⟩ := (WF.get_pos_iff hM).1 hp
        exact ⟨_, hp, .inl ⟨0, h4⟩⟩
      · obtain ⟨p, hp⟩ := (WF.get_pos_iff hM).1 h4
        exact ⟨_, hp, .inr rfl⟩
  · rw [h2.edge]
    constructor
    · rintro ⟨e, he, s, a, h3, rfl⟩
      obtain rfl := h0 _ _ _ h3
      refine ⟨s, e.1.1, e.1.2, h3, (WF.get_pos_iff hM).2 ⟨e.2, he⟩, ?_⟩
      rw [get_of_mem hM.nodup (show ((e.1.1, e.1.2), e.2) ∈ M.P.items from he)]; rfl
    · rintro ⟨s, r, t, h3, h4, rfl⟩
      exact ⟨_, mem_of_get_ne h4.ne', s, 0, h3, rfl⟩

/-! ### C80 -/

/-- the look of a state outside of the subsystem -/
def grey : Attrs := [("label", []), ("color", "azure3".toList), ("style", "filled".toList)]

/-- a label with the text `c[i]=…` in a line of its own -/
def labelled (fmt : K → List Char) (l : List Char) (i : Nat) (c : K) : List Char :=
  (if l = [] then [] else l ++ ['\n']) ++ "c[".toList ++ num i ++ "]=".toList ++ fmt c

theorem withWeight_eq {fmt : K → List Char} {l : List Char} {i : Nat} {c : K} :
    Digraph.withWeight fmt l i c = labelled fmt l i c := by
  unfold Digraph.withWeight labelled
  split <;> simp [num, fmtD]

theorem join_get? {b : Attrs} : ∀ {a : Attrs}, (b.map Prod.fst).Nodup → ∀ k,
    (Attrs.join a b).get? k = match b.get? k with | some v => some v | none => a.get? k := by
  unfold Attrs.join
  induction b with
  | nil => intro a _ k; rfl
  | cons p b ih =>
    intro a hn k
    obtain ⟨k0, v0⟩ := p
    simp only [List.map_cons, List.nodup_cons] at hn
    rw [List.foldl_cons, ih hn.2, Dict.get?_set]
    have hc : Dict.get? ((k0, v0) :: b) k = if k0 = k then some v0 else Dict.get? b k := by
      simp [Dict.get?]
    rw [hc]
    by_cases h : k0 = k
    · subst h
      have : Dict.get? b k0 = none := by
        by_contra hne
        obtain ⟨v, hv⟩ := Option.ne_none_iff_exists'.1 hne
        exact hn.1 (List.mem_map.2 ⟨_, Dict.mem_of_get? hv, rfl⟩)
      rw [this]; simp
    · rw [if_neg h, if_neg h]

/-- the attributes of a state in the picture of a subsystem -/
def stateLook (N : Nat) (weights : Bool) (m : List Bool) (cert : List K) (fmt : K → List Char) (a : Attrs) (s : Nat) : Attrs :=
  if s = N ∨ s = N + 1 then a
  else if m.getD s false then
    if weights then a.set "label" (labelled fmt ((a.get? "label").getD []) s (cert.getD s 0)) else a
  else grey

variable {cert : List K} {mode : Mode} {ig : Bool} {x : Subsystem K} {res : Subsystem.Result K}

theorem inSub_ok {m : List Bool} {s : Nat} (hs : s < m.length + 2) : Digraph.inSub m s = .ok (m.getD s false) := by
  unfold Digraph.inSub
  split
  · rw [List.getD_eq_getElem?_getD, List.getElem?_eq_none (by omega)]; rfl
  · rw [List.getD_eq_getElem?_getD, List.getElem?_eq_getElem (by omega)]; rfl

theorem subState_ok {m : List Bool} {fmt : K → List Char} {show_weights weights : Bool}
    {f : Nat → List String → Except Err Attrs} {s : Nat} {ls : List String} {a : Attrs}
    (hs : s < m.length + 2) (hf : f s ls = .ok a) (hl : "label" ∈ a.map Prod.fst)
    (hw : Digraph.stateWeights ρ x show_weights = .ok weights)
    (hc : weights = true → s < m.length → s < x.cert.length) :
    Digraph.subState ρ x m fmt show_weights f s ls = .ok (stateLook m.length weights m x.cert fmt a s) := by
  unfold Digraph.subState Digraph.stateBy stateLook
  obtain ⟨l, hl⟩ := Dict.get?_isSome.2 hl |> Option.isSome_iff_exists.1
  simp only [bind, Except.bind, inSub_ok hs, hf, hw]
  by_cases h1 : s = m.length ∨ s = m.length + 1
  · have h3 : m.getD s false = false := by
      rw [List.getD_eq_getElem?_getD, List.getElem?_eq_none (by omega)]; rfl
    rw [if_pos h1, h3, if_neg (by tauto), if_neg (by simp)]
  · have h3 : s < m.length := by omega
    rw [if_neg h1]
    cases hm : m.getD s false with
    | false => rw [if_pos (by simp; omega), if_neg (by simp)]; rfl
    | true =>
      rw [if_neg (by simp), if_pos rfl]
      cases weights with
      | false => simp
      | true =>
        have h5 := hc rfl h3
        have h6 : x.cert[s]? = some (x.cert.getD s 0) := by
          rw [List.getD_eq_getElem?_getD, List.getElem?_eq_getElem h5]; rfl
        simp only [and_self, if_true, hl, h6, withWeight_eq, Option.getD_some]

/-- the attributes of an action in the picture of a subsystem -/
def actionLook (weights : Bool) (cert : List K) (fmt : K → List Char) (a : Attrs) (r : Nat) : Attrs :=
  let b := Attrs.join [("label", [])] a
  if weights then (b.set "label" (labelled fmt ((a.get? "label").getD []) r (cert.getD r 0))).set "shape" "rectangle".toList
  else b

theorem subAction_ok {m : List Bool} {fmt : K → List Char} {show_weights : Bool}
    {f : Nat → Nat → List String → Except Err (Attrs × Attrs)} {s a r : Nat} {ls : List String} {y : Attrs × Attrs}
    (hs : s < m.length + 2) (hf : f s a ls = .ok y) (hn : (y.1.map Prod.fst).Nodup)
    (hr : x.rf.sys.idx.get? (s, a) = some r)
    (hc : s < m.length → x.mode = .max → r < x.cert.length) :
    Digraph.subAction x m fmt show_weights f s a ls =
      .ok (actionLook (show_weights && decide (x.mode = .max) && m.getD s false) x.cert fmt y.1 r, y.2) := by
  unfold Digraph.subAction actionLook
  have hlab : (Attrs.join [("label", [])] y.1).get? "label" = some ((y.1.get? "label").getD []) := by
    rw [join_get? hn]
    cases y.1.get? "label" with
    | none => rfl
    | some v => rfl
  simp only [bind, Except.bind, inSub_ok hs, hf]
  by_cases hw : show_weights = true ∧ x.mode = .max ∧ m.getD s false = true
  · have h3 : s < m.length := by
      by_contra hcon
      have := hw.2.2
      rw [List.getD_eq_getElem?_getD, List.getElem?_eq_none (by omega)] at this
      cases this
    have h5 := hc h3 hw.2.1
    have h6 : x.cert[r]? = some (x.cert.getD r 0) := by
      rw [List.getD_eq_getElem?_getD, List.getElem?_eq_getElem h5]; rfl
    have h7 : (show_weights && decide (x.mode = .max) && m.getD s false) = true := by
      rw [hw.1, hw.2.2, decide_eq_true hw.2.1]; rfl
    rw [if_pos hw]
    simp only [h7, if_true, hr, h6, hlab, withWeight_eq]
  · have h7 : ¬ (show_weights && decide (x.mode = .max) && m.getD s false) = true := by
      simpa [and_assoc] using hw
    rw [if_neg hw, if_neg h7]

theorem stateWeights_ok (h : RFOK rf) (hL : LabelMap rf.sys.labS) (hx : Subsystem.make rf cert mode ig = .ok x) {sw : Bool}
    (hsub : sw = true → mode = .max → ∃ res, x.subsys ρ' = .ok res) :
    Digraph.stateWeights ρ' x sw = .ok (sw && (decide (mode = .min) || rf.sys.dtmc)) := by
  obtain ⟨rfl, -⟩ := mask_spec h hx
  unfold Digraph.stateWeights
  cases sw with
  | false => rfl
  | true =>
    cases mode with
    | min => rfl
    | max =>
      obtain ⟨res, hr⟩ := hsub rfl rfl
      obtain ⟨m, -, -, hS, -⟩ := subsys_spec h hL.inv hx hr
      simp only [Bool.true_eq_false, if_false, hr, hS.dtmc]
      rfl

/-- **C80 (MDP).** The picture of a subsystem of an MDP has a node for every state and every state-action pair of the
*whole* system and the edges of C79.  Goal and fail look as in the picture of the system, states that are not selected
are grey, and selected ones look as before, except that, with `show_weights` and a "min" certificate, the entry of the
state is added to the label.  With `show_weights` and a "max" certificate, the nodes of the actions of selected states
become rectangles, with the entry of the action added to the label.  (For this last case it is assumed that `.subsys`
returns; see `C80_raises_false`.) -/
theorem C80_mdp (hM : M.WF) (hL : LabelMap M.labS) (hd : M.dtmc = false) (hrf : RF.make ρ M il tl fl false = .ok rf)
    (hx : Subsystem.make rf cert mode ig = .ok x) {v : Maps K} {fmt : K → List Char} {sw : Bool} {sm : Nat → Attrs}
    {am : Nat → Nat → Attrs × Attrs} {tm : Nat → Nat → Nat → K → Attrs}
    (hs : ∀ s < M.N, ∃ ls, M.labelsByState s = .ok ls ∧ v.state s ls = .ok (sm s)) (hl : ∀ s < M.N, "label" ∈ (sm s).map Prod.fst)
    (ha : ∀ s a r, ((s, a), r) ∈ M.idx → r < M.C → ∃ ls, M.labelsByAction (s, a) = .ok ls ∧ v.action s a ls = .ok (am s a))
    (hn : ∀ s a, ((am s a).1.map Prod.fst).Nodup) (ht : ∀ s a r t, ((s, a), r) ∈ M.idx → 0 < M.P.get r t → v.trans s a t (M.P.get r t) = .ok (tm s a t (M.P.get r t)))
    (hsub : sw = true → mode = .max → ∃ res, x.subsys ρ' = .ok res) :
    ∃ g, Digraph.subMDP ρ' x fmt sw v = .ok g ∧ (g.nodes.map Prod.fst).Nodup ∧ (g.edges.map fun e => (e.1, e.2.1)).Nodup ∧
      (∀ n, n ∈ g.nodes.map Prod.fst ↔ (∃ s < M.N, n = num s) ∨ ∃ s a r, ((s, a), r) ∈ M.idx ∧ r < M.C ∧ n = dash s a) ∧
      (∀ s y, s < M.N → (num s, y) ∈ g.nodes →
        (M.N - 2 ≤ s → y = sm s) ∧
        (s < M.N - 2 → ¬ Selected M mode cert s → y = grey) ∧
        (Selected M mode cert s → sw = false ∨ mode = .max → y = sm s) ∧
        (Selected M mode cert s → sw = true → mode = .min → ∀ l c, (sm s).get? "label" = some l → cert[s]? = some c →
          y.get? "label" = some (labelled fmt l s c) ∧ ∀ k ≠ "label", y.get? k = (sm s).get? k)) ∧
      (∀ s a r y, ((s, a), r) ∈ M.idx → r < M.C → (dash s a, y) ∈ g.nodes →
        (∀ k ≠ "label", k ≠ "shape" → y.get? k = (am s a).1.get? k) ∧
        (¬ (sw = true ∧ mode = .max ∧ Selected M mode cert s) →
          y.get? "shape" = (am s a).1.get? "shape" ∧ y.get? "label" = some (((am s a).1.get? "label").getD [])) ∧
        (sw = true → mode = .max → Selected M mode cert s → ∀ c, cert[r]? = some c →
          y.get? "shape" = some "rectangle".toList ∧
          y.get? "label" = some (labelled fmt (((am s a).1.get? "label").getD []) r c))) ∧
      (∀ e, e ∈ g.edges ↔
        (∃ s a r, ((s, a), r) ∈ M.idx ∧ r < M.C ∧ e = (num s, dash s a, (am s a).2)) ∨
        ∃ s a r t, ((s, a), r) ∈ M.idx ∧ 0 < M.P.get r t ∧ e = (dash s a, num t, tm s a t (M.P.get r t))) := by
  obtain ⟨e0, -, -, -⟩ := make_fields hrf
  have h := rfok_built hM hrf
  subst e0
  have hw := stateWeights_ok h hL hx hsub
  rw [hd, Bool.or_false] at hw
  have hcl : (mode = .min → cert.length = rf.N) ∧ (mode = .max → cert.length = rf.C) := by
    unfold Subsystem.make at hx
    cases mode <;> simp only at hx <;> split at hx
    · exact ⟨fun _ => by assumption, fun h => by cases h⟩
    · cases hx
    · exact ⟨fun h => (by cases h), fun _ => by assumption⟩
    · cases hx
  have hmk := inMask_iff h hx
  obtain ⟨rfl, m, hm, hml, hms⟩ := mask_spec h hx
  have hsel : ∀ s, m.getD s false = true ↔ Selected rf.sys mode cert s := fun s => (hms s).trans (hmk s)
  have hNN : m.length + 2 = rf.sys.N := by have := h.hN; rw [hml]; simp [RF.N]; omega
  have hcN : ∀ s, (sw && decide (mode = .min)) = true → s < m.length → s < cert.length := by
    intro s h1 h2
    have := hcl.1 (by simp at h1; exact h1.2)
    omega
  have hcC : ∀ s a r, ((s, a), r) ∈ rf.sys.idx → r < rf.sys.C → s < m.length → mode = .max → r < cert.length := by
    intro s a r h1 h2 h3 h4
    rw [hcl.2 h4]
    obtain ⟨a1, k1⟩ := h.goalRow
    obtain ⟨a2, k2⟩ := h.failRow
    have hh := h.hC
    by_contra hcon
    have hr : r = rf.sys.C - 2 ∨ r = rf.sys.C - 1 := by simp only [RF.C] at hcon; omega
    have hN2 := h.hN
    rcases hr with rfl | rfl
    · have := WF.idx_inj hM h1 k1
      simp at this; omega
    · have := WF.idx_inj hM h1 k2
      simp at this; omega
  obtain ⟨g, hg, g1, g2, g3, g4⟩ := C79_mdp hM
    (v := ⟨Digraph.subState ρ' ⟨rf, cert, mode, ig⟩ m fmt sw v.state, v.trans, Digraph.subAction ⟨rf, cert, mode, ig⟩ m fmt sw v.action⟩)
    (sm := fun s => stateLook m.length (sw && decide (mode = .min)) m cert fmt (sm s) s)
    (am := fun s a => (actionLook (sw && decide (mode = .max) && m.getD s false) cert fmt (am s a).1 ((rf.sys.idx.get? (s, a)).getD 0), (am s a).2))
    (tm := tm)
    (fun s h1 => by
      obtain ⟨ls, k1, k2⟩ := hs s h1
      exact ⟨ls, k1, subState_ok (by omega) k2 (hl s h1) hw (hcN s)⟩)
    (fun s a r h1 h2 => by
      obtain ⟨ls, k1, k2⟩ := ha s a r h1 h2
      have h3 := Dict.get?_of_mem hM.keys h1
      have h4 := WF.state_lt hM h1 h2
      refine ⟨ls, k1, ?_⟩
      have := subAction_ok (x := ⟨rf, cert, mode, ig⟩) (fmt := fmt) (show_weights := sw) (m := m) (by omega) k2 (hn s a) h3 (hcC s a r h1 h2)
      simpa [h3] using this)
    ht
  have hmem : ∀ s < rf.sys.N, ((∃ a r, ((s, a), r) ∈ rf.sys.idx ∧ r < rf.sys.C) ∨ ∃ r, 0 < rf.sys.P.get r s) := by
    intro s h1
    exact .inl (h.total s h1)
  refine ⟨g, by simp only [Digraph.subMDP, hm, bind, Except.bind]; exact hg, g1, g2, fun n => ?_, fun s y h1 h2 => ?_, fun s a r y h1 h2 h3 => ?_, g4⟩
  · rw [List.mem_map]
    constructor
    · rintro ⟨y, h1, rfl⟩
      rcases (g3 y).1 h1 with ⟨s, h2, rfl⟩ | ⟨s, a, r, h2, h3, rfl⟩
      · refine .inl ⟨s, ?_, rfl⟩
        rcases h2 with ⟨a, r, h3, h4⟩ | ⟨r, h3⟩
        · exact WF.state_lt hM h3 h4
        · obtain ⟨p, hp⟩ := (WF.get_pos_iff hM).1 h3
          exact (hM.range _ _ _ hp).2
      · exact .inr ⟨s, a, r, h2, h3, rfl⟩
    · rintro (⟨s, h1, rfl⟩ | ⟨s, a, r, h1, h2, rfl⟩)
      · exact ⟨_, (g3 _).2 (.inl ⟨s, hmem s h1, rfl⟩), rfl⟩
      · exact ⟨_, (g3 _).2 (.inr ⟨s, a, r, h1, h2, rfl⟩), rfl⟩
  · have hy : y = stateLook m.length (sw && decide (mode = .min)) m cert fmt (sm s) s := by
      rcases (g3 _).1 h2 with ⟨s', -, h3⟩ | ⟨s', a, r, -, -, h3⟩
      · obtain ⟨h4, h5⟩ := Prod.mk.inj h3
        rw [stateName_inj h4]; exact h5
      · exact absurd (Prod.mk.inj h3).1 stateName_ne
    have hlt : Selected rf.sys mode cert s → s < m.length := by
      intro h3
      by_contra hcon
      have := (hsel s).2 h3
      rw [List.getD_eq_getElem?_getD, List.getElem?_eq_none (by omega)] at this
      cases this
    subst hy
    unfold stateLook
    refine ⟨fun h3 => ?_, fun h3 h4 => ?_, fun h3 h4 => ?_, fun h3 h4 h5 l c h6 h7 => ?_⟩
    · rw [if_pos (by omega)]
    · rw [if_neg (by omega), if_neg (by rw [hsel]; exact h4)]
    · have := hlt h3
      rw [if_neg (by omega), if_pos ((hsel s).2 h3), if_neg (by rcases h4 with rfl | rfl <;> simp)]
    · have := hlt h3
      rw [if_neg (by omega), if_pos ((hsel s).2 h3), if_pos (by simp [h4, h5])]
      refine ⟨?_, fun k hk => ?_⟩
      · rw [Dict.get?_set, if_pos rfl, h6, List.getD_eq_getElem?_getD, h7]; rfl
      · rw [Dict.get?_set, if_neg (Ne.symm hk)]
  · have hy : y = actionLook (sw && decide (mode = .max) && m.getD s false) cert fmt (am s a).1 r := by
      rcases (g3 _).1 h3 with ⟨s', -, h4⟩ | ⟨s', a', r', -, -, h4⟩
      · exact absurd (Prod.mk.inj h4).1.symm stateName_ne
      · obtain ⟨h5, h6⟩ := Prod.mk.inj h4
        obtain ⟨rfl, rfl⟩ := actionName_inj h5
        rw [h6, Dict.get?_of_mem hM.keys h1]; rfl
    have hlab : (Attrs.join [("label", [])] (am s a).1).get? "label" = some (((am s a).1.get? "label").getD []) := by
      rw [join_get? (hn s a)]
      cases (am s a).1.get? "label" <;> rfl
    have hoth : ∀ k ≠ "label", (Attrs.join [("label", [])] (am s a).1).get? k = (am s a).1.get? k := by
      intro k hk
      rw [join_get? (hn s a)]
      cases (am s a).1.get? k with
      | some _ => rfl
      | none => simp [Dict.get?, Ne.symm hk]
    have hww : (sw && decide (mode = .max) && m.getD s false) = true ↔ sw = true ∧ mode = .max ∧ Selected rf.sys mode cert s := by
      rw [Bool.and_eq_true, Bool.and_eq_true, decide_eq_true_iff, hsel, and_assoc]
    subst hy
    unfold actionLook
    refine ⟨fun k h4 h5 => ?_, fun h4 => ?_, fun h4 h5 h6 c h7 => ?_⟩
    · dsimp only
      split
      · rw [Dict.get?_set, if_neg (Ne.symm h5), Dict.get?_set, if_neg (Ne.symm h4), hoth k h4]
      · exact hoth k h4
    · dsimp only
      rw [if_neg (by rw [hww]; exact h4)]
      exact ⟨hoth _ (by decide), hlab⟩
    · dsimp only
      rw [if_pos (hww.2 ⟨h4, h5, h6⟩)]
      refine ⟨by rw [Dict.get?_set, if_pos rfl], ?_⟩
      rw [Dict.get?_set, if_neg (by decide), Dict.get?_set, if_pos rfl, List.getD_eq_getElem?_getD, h7]; rfl

/-- what the picture of a subsystem of a chain shows -/
theorem dtmc_look (hM : M.WF) (hL : LabelMap M.labS) (hd : M.dtmc = true) (h0 : ∀ s a i, ((s, a), i) ∈ M.idx → a = 0)
    (hrf : RF.make ρ M il tl fl false = .ok rf)
    (hx : Subsystem.make rf cert mode ig = .ok x) {v : DTMCMaps K} {fmt : K → List Char} {sw : Bool} {sm : Nat → Attrs}
    {tm : Nat → Nat → K → Attrs} (hs : ∀ s < M.N, ∃ ls, M.labelsByState s = .ok ls ∧ v.state s ls = .ok (sm s))
    (hl : ∀ s < M.N, "label" ∈ (sm s).map Prod.fst) (ht : ∀ s r t, ((s, 0), r) ∈ M.idx → 0 < M.P.get r t → v.trans s t (M.P.get r t) = .ok (tm s t (M.P.get r t)))
    (hCN : M.C = M.N)
    (hsub : sw = true → mode = .max → ∃ res, x.subsys ρ' = .ok res) :
    ∃ g, Digraph.subDTMC ρ' x fmt sw v = .ok g ∧ (g.nodes.map Prod.fst).Nodup ∧ (g.edges.map fun e => (e.1, e.2.1)).Nodup ∧
      (∀ n, n ∈ g.nodes.map Prod.fst ↔ ∃ s < M.N, n = num s) ∧
      (∀ s y, s < M.N → (num s, y) ∈ g.nodes →
        (M.N - 2 ≤ s → y = sm s) ∧
        (s < M.N - 2 → ¬ Selected M mode cert s → y = grey) ∧
        (Selected M mode cert s → sw = false → y = sm s) ∧
        (Selected M mode cert s → sw = true → ∀ l c, (sm s).get? "label" = some l → cert[s]? = some c →
          y.get? "label" = some (labelled fmt l s c) ∧ ∀ k ≠ "label", y.get? k = (sm s).get? k)) ∧
      (∀ e, e ∈ g.edges ↔ ∃ s r t, ((s, 0), r) ∈ M.idx ∧ 0 < M.P.get r t ∧ e = (num s, num t, tm s t (M.P.get r t))) := by
  obtain ⟨e0, -, -, -⟩ := make_fields hrf
  have h := rfok_built hM hrf
  subst e0
  have hw := stateWeights_ok h hL hx hsub
  rw [hd, Bool.or_true, Bool.and_true] at hw
  have hcl : (mode = .min → cert.length = rf.N) ∧ (mode = .max → cert.length = rf.C) := by
    unfold Subsystem.make at hx
    cases mode <;> simp only at hx <;> split at hx
    · exact ⟨fun _ => by assumption, fun h => by cases h⟩
    · cases hx
    · exact ⟨fun h => (by cases h), fun _ => by assumption⟩
    · cases hx
  have hmk := inMask_iff h hx
  obtain ⟨rfl, m, hm, hml, hms⟩ := mask_spec h hx
  have hsel : ∀ s, m.getD s false = true ↔ Selected rf.sys mode cert s := fun s => (hms s).trans (hmk s)
  have hNN : m.length + 2 = rf.sys.N := by have := h.hN; rw [hml]; simp [RF.N]; omega
  have hcN : ∀ s, sw = true → s < m.length → s < cert.length := by
    intro s _ h2
    cases mode with
    | min => have := hcl.1 rfl; omega
    | max =>
      rw [hcl.2 rfl]; simp only [RF.C]; omega
  obtain ⟨g, hg, g1, g2, g3, g4⟩ := C79_dtmc hM h0
    (v := ⟨Digraph.subState ρ' ⟨rf, cert, mode, ig⟩ m fmt sw v.state, v.trans⟩)
    (sm := fun s => stateLook m.length sw m cert fmt (sm s) s)
    (tm := tm)
    (fun s h1 => by
      obtain ⟨ls, k1, k2⟩ := hs s h1
      exact ⟨ls, k1, subState_ok (by omega) k2 (hl s h1) hw (hcN s)⟩)
    ht
  refine ⟨g, by simp only [Digraph.subDTMC, hm, bind, Except.bind]; exact hg, g1, g2, fun n => ?_, fun s y h1 h2 => ?_, g4⟩
  · rw [List.mem_map]
    constructor
    · rintro ⟨y, h1, rfl⟩
      obtain ⟨s, h2, rfl⟩ := (g3 y).1 h1
      refine ⟨s, ?_, rfl⟩
      rcases h2 with ⟨r, h3, h4⟩ | ⟨r, h3⟩
      · exact WF.state_lt hM h3 h4
      · obtain ⟨p, hp⟩ := (WF.get_pos_iff hM).1 h3
        exact (hM.range _ _ _ hp).2
    · rintro ⟨s, h1, rfl⟩
      obtain ⟨a, i, k1, k2⟩ := h.total s h1
      obtain rfl := h0 _ _ _ k1
      exact ⟨_, (g3 _).2 ⟨s, .inl ⟨i, k1, k2⟩, rfl⟩, rfl⟩
  · have hy : y = stateLook m.length sw m cert fmt (sm s) s := by
      obtain ⟨s', -, h3⟩ := (g3 _).1 h2
      obtain ⟨h4, h5⟩ := Prod.mk.inj h3
      rw [stateName_inj h4]; exact h5
    have hlt : Selected rf.sys mode cert s → s < m.length := by
      intro h3
      by_contra hcon
      have := (hsel s).2 h3
      rw [List.getD_eq_getElem?_getD, List.getElem?_eq_none (by omega)] at this
      cases this
    subst hy
    unfold stateLook
    refine ⟨fun h3 => ?_, fun h3 h4 => ?_, fun h3 h4 => ?_, fun h3 h4 l c h6 h8 => ?_⟩
    · rw [if_pos (by omega)]
    · rw [if_neg (by omega), if_neg (by rw [hsel]; exact h4)]
    · have := hlt h3
      rw [if_neg (by omega), if_pos ((hsel s).2 h3), if_neg (by simp [h4])]
    · have := hlt h3
      rw [if_neg (by omega), if_pos ((hsel s).2 h3), if_pos h4]
      refine ⟨?_, fun k hk => ?_⟩
      · rw [Dict.get?_set, if_pos rfl, h6, List.getD_eq_getElem?_getD, h8]; rfl
      · rw [Dict.get?_set, if_neg (Ne.symm hk)]

/-- **C80 (DTMC, partial).** The same for chains, where the entries are shown in the states for both kinds of
certificates.  Missing: "max" certificates of chains whose rows are not in the order of the states
(`C80_weight_false`). -/
theorem C80_dtmc_partial (hM : M.WF) (hL : LabelMap M.labS) (hd : M.dtmc = true) (h0 : ∀ s a i, ((s, a), i) ∈ M.idx → a = 0)
    (hrf : RF.make ρ M il tl fl false = .ok rf)
    (hx : Subsystem.make rf cert mode ig = .ok x) {v : DTMCMaps K} {fmt : K → List Char} {sw : Bool} {sm : Nat → Attrs}
    {tm : Nat → Nat → K → Attrs} (hs : ∀ s < M.N, ∃ ls, M.labelsByState s = .ok ls ∧ v.state s ls = .ok (sm s))
    (hl : ∀ s < M.N, "label" ∈ (sm s).map Prod.fst) (ht : ∀ s r t, ((s, 0), r) ∈ M.idx → 0 < M.P.get r t → v.trans s t (M.P.get r t) = .ok (tm s t (M.P.get r t)))
    (hCN : M.C = M.N) (hidx : mode = .max → ∀ s i, ((s, 0), i) ∈ M.idx → i = s)
    (hsub : sw = true → mode = .max → ∃ res, x.subsys ρ' = .ok res) :
    ∃ g, Digraph.subDTMC ρ' x fmt sw v = .ok g ∧ (g.nodes.map Prod.fst).Nodup ∧ (g.edges.map fun e => (e.1, e.2.1)).Nodup ∧
      (∀ n, n ∈ g.nodes.map Prod.fst ↔ ∃ s < M.N, n = num s) ∧
      (∀ s y, s < M.N → (num s, y) ∈ g.nodes →
        (M.N - 2 ≤ s → y = sm s) ∧
        (s < M.N - 2 → ¬ Selected M mode cert s → y = grey) ∧
        (Selected M mode cert s → sw = false → y = sm s) ∧
        (Selected M mode cert s → sw = true → ∀ l i c, (sm s).get? "label" = some l → ((s, 0), i) ∈ M.idx →
          cert[if mode = .max then i else s]? = some c →
          y.get? "label" = some (labelled fmt l s c) ∧ ∀ k ≠ "label", y.get? k = (sm s).get? k)) ∧
      (∀ e, e ∈ g.edges ↔ ∃ s r t, ((s, 0), r) ∈ M.idx ∧ 0 < M.P.get r t ∧ e = (num s, num t, tm s t (M.P.get r t))) := by
  obtain ⟨g, h1, h2, h3, h4, h5, h6⟩ := dtmc_look (fmt := fmt) hM hL hd h0 hrf hx hs hl ht hCN hsub
  refine ⟨g, h1, h2, h3, h4, fun s y k1 k2 => ?_, h6⟩
  obtain ⟨k3, k4, k5, k6⟩ := h5 s y k1 k2
  refine ⟨k3, k4, k5, fun k7 k8 l i c k9 k10 k11 => k6 k7 k8 l c k9 ?_⟩
  rw [← k11]
  split
  · rename_i hmax; rw [hidx hmax _ _ k10]
  · rfl

/-- **C80** fails for chains whose rows are not in the order of the states: for a "max" certificate, whose entries belong to rows,
the node of a state shows the entry whose number is that of the state. -/
theorem C80_weight_false (hM : M.WF) (hL : LabelMap M.labS) (hd : M.dtmc = true) (h0 : ∀ s a i, ((s, a), i) ∈ M.idx → a = 0)
    (hrf : RF.make ρ M il tl fl false = .ok rf)
    (hx : Subsystem.make rf cert .max ig = .ok x) {v : DTMCMaps K} {fmt : K → List Char} {sm : Nat → Attrs}
    {tm : Nat → Nat → K → Attrs} (hs : ∀ s < M.N, ∃ ls, M.labelsByState s = .ok ls ∧ v.state s ls = .ok (sm s))
    (hl : ∀ s < M.N, "label" ∈ (sm s).map Prod.fst) (ht : ∀ s r t, ((s, 0), r) ∈ M.idx → 0 < M.P.get r t → v.trans s t (M.P.get r t) = .ok (tm s t (M.P.get r t)))
    (hCN : M.C = M.N) (hsub : ∃ res, x.subsys ρ' = .ok res) {s i : Nat} {c c' : K} (hS : Selected M .max cert s)
    (hi : ((s, 0), i) ∈ M.idx) (hc : cert[i]? = some c) (hc' : cert[s]? = some c') (hne : fmt c ≠ fmt c') :
    ∃ g y l, Digraph.subDTMC ρ' x fmt true v = .ok g ∧ (num s, y) ∈ g.nodes ∧ (sm s).get? "label" = some l ∧
      y.get? "label" = some (labelled fmt l s c') ∧ y.get? "label" ≠ some (labelled fmt l s c) := by
  obtain ⟨g, h1, h2, h3, h4, h5, h6⟩ := dtmc_look (fmt := fmt) hM hL hd h0 hrf hx hs hl ht hCN (fun _ _ => hsub) (sw := true)
  obtain ⟨hiC, -⟩ := List.getElem?_eq_some_iff.1 hc
  have hlen : cert.length = M.C - 2 := by
    rw [← (make_fields hrf).1]
    unfold Subsystem.make at hx
    simp only at hx
    split at hx
    · assumption
    · cases hx
  have hsN := WF.state_lt hM hi (by omega)
  obtain ⟨⟨n, y⟩, k1, k2⟩ := List.mem_map.1 ((h4 (num s)).2 ⟨s, hsN, rfl⟩)
  obtain rfl : n = num s := k2
  obtain ⟨l, hl⟩ := Dict.get?_isSome.2 (hl s hsN) |> Option.isSome_iff_exists.1
  obtain ⟨k3, -⟩ := (h5 s y hsN k1).2.2.2 hS rfl l c' hl hc'
  refine ⟨g, y, l, h1, k1, hl, k3, ?_⟩
  rw [k3]
  intro hcon
  apply hne
  have := Option.some.inj hcon
  unfold labelled at this
  exact (List.append_cancel_left this).symm

/-- If `.subsys` raises for a "max" certificate, so does `digraph`, with its default `show_weights=True`. -/
theorem C80_raises (hM : M.WF) (hrf : RF.make ρ M il tl fl false = .ok rf) (hx : Subsystem.make rf cert .max ig = .ok x)
    {e : Err} (he : x.subsys ρ' = .error e) {v : Maps K} {w : DTMCMaps K} {fmt : K → List Char}
    (hs : ∀ s < M.N, ∃ ls a, M.labelsByState s = .ok ls ∧ v.state s ls = .ok a)
    (hs' : ∀ s < M.N, ∃ ls a, M.labelsByState s = .ok ls ∧ w.state s ls = .ok a) :
    Digraph.subMDP ρ' x fmt true v = .error e ∧ Digraph.subDTMC ρ' x fmt true w = .error e := by
  obtain ⟨e0, -, -, -⟩ := make_fields hrf
  have h := rfok_built hM hrf
  subst e0
  obtain ⟨rfl, m, hm, hml, hms⟩ := mask_spec h hx
  have hNN : m.length + 2 = rf.sys.N := by have := h.hN; rw [hml]; simp [RF.N]; omega
  have hw : Digraph.stateWeights ρ' ⟨rf, cert, .max, ig⟩ true = .error e := by
    simp [Digraph.stateWeights, he]
  have key : ∀ (f : Nat → List String → Except Err Attrs), (∀ s < rf.sys.N, ∃ ls a, rf.sys.labelsByState s = .ok ls ∧ f s ls = .ok a) →
      ∀ s < rf.sys.N, Digraph.addState rf.sys (Digraph.subState ρ' ⟨rf, cert, .max, ig⟩ m fmt true f) ⟨⟨[], []⟩, [], []⟩ s = .error e := by
    intro f hf s h1
    obtain ⟨ls, a, k1, k2⟩ := hf s h1
    simp [Digraph.addState, k1, Digraph.subState, Digraph.stateBy, inSub_ok (show s < m.length + 2 by omega), k2, hw, bind, Except.bind]
  obtain ⟨en, l, hP⟩ : ∃ en l, rf.sys.P.items = en :: l := by
    cases hP : rf.sys.P.items with
    | nil =>
      obtain ⟨t, -, hp⟩ := WF.exists_pos hM (show rf.sys.C - 2 < rf.sys.C by have := h.hC; omega)
      obtain ⟨p, hp⟩ := (WF.get_pos_iff hM).1 hp
      rw [hP] at hp; cases hp
    | cons en l => exact ⟨en, l, rfl⟩
  obtain ⟨hr, hc⟩ := hM.range en.1.1 en.1.2 en.2 (by rw [hP]; exact List.mem_cons_self)
  obtain ⟨s, a, hi, hsN⟩ := WF.cover hM hr
  have hinv : invGet? rf.sys.idx en.1.1 = some (s, a) := (invGet?_iff hM.vals).2 hi
  refine ⟨?_, ?_⟩
  · simp only [Digraph.subMDP, hm, bind, Except.bind, Digraph.mdp, hP, List.foldlM_cons]
    rw [show Digraph.mdpStep rf.sys _ _ en = .error e by
      simp only [Digraph.mdpStep, hinv, key _ hs s hsN, bind, Except.bind]]
  · simp only [Digraph.subDTMC, hm, bind, Except.bind, Digraph.dtmc, hP, List.foldlM_cons]
    rw [show Digraph.dtmcStep rf.sys _ _ en = .error e by
      simp only [Digraph.dtmcStep, hinv, key _ hs' s hsN, bind, Except.bind]]

/-! ### examples -/

/-- functions for the pictures below: nodes are labelled with numbers -/
def exMaps : Maps ℚ := ⟨fun s _ => .ok [("label", num s)], fun _ _ _ _ => .ok [], fun _ _ _ => .ok ([], [])⟩

def exChainMaps : DTMCMaps ℚ := ⟨fun s _ => .ok [("label", num s)], fun _ _ _ => .ok []⟩

theorem subEx_state : ∀ s < subEx.N, ∃ ls, subEx.labelsByState s = .ok ls := by
  have : ∀ s < subEx.N, (subEx.labelsByState s).isOk = true := by decide +kernel
  intro s hs
  have := this s hs
  cases h : subEx.labelsByState s with
  | ok ls => exact ⟨ls, rfl⟩
  | error e => rw [h] at this; cases this

theorem subEx_action : ∀ s a r, ((s, a), r) ∈ subEx.idx → ∃ ls, subEx.labelsByAction (s, a) = .ok ls := by
  have : ∀ p ∈ subEx.idx, (subEx.labelsByAction p.1).isOk = true := by decide +kernel
  intro s a r hr
  have := this _ hr
  cases h : subEx.labelsByAction (s, a) with
  | ok ls => exact ⟨ls, rfl⟩
  | error e => simp only [h] at this; cases this

/-- the hypotheses of C79 and C80 are met … -/
example : ∃ g, Digraph.mdp subEx exMaps = .ok g ∧ ∀ e, e ∈ g.edges ↔
    (∃ s a r, ((s, a), r) ∈ subEx.idx ∧ r < subEx.C ∧ e = (num s, dash s a, [])) ∨
        ∃ s a r t, ((s, a), r) ∈ subEx.idx ∧ 0 < subEx.P.get r t ∧ e = (dash s a, num t, []) := by
  obtain ⟨g, h1, -, -, -, h2⟩ := C79_mdp subEx_wf (v := exMaps) (sm := fun s => [("label", num s)]) (am := fun _ _ => ([], []))
    (tm := fun _ _ _ _ => []) (fun s hs => by obtain ⟨ls, h⟩ := subEx_state s hs; exact ⟨ls, h, rfl⟩)
    (fun s a r hr _ => by obtain ⟨ls, h⟩ := subEx_action s a r hr; exact ⟨ls, h, rfl⟩) (fun _ _ _ _ _ _ => rfl)
  exact ⟨g, h1, h2⟩

/-- … here by a "max" certificate for 1/2 that selects state 0: the node of its action shows `c[0]=`, the others are grey -/
example (fmt : ℚ → List Char) : ∃ rf x g y z, RF.make exRnd subEx "init" "goal" "fail" false = .ok rf ∧
    check rf .max .ge (1/2) [1, 0, 0, 0] 0 = .ok true ∧ Subsystem.make rf [1, 0, 0, 0] .max false = .ok x ∧
    Digraph.subMDP exRnd x fmt true exMaps = .ok g ∧ (dash 0 0, y) ∈ g.nodes ∧ (num 1, z) ∈ g.nodes ∧
    y.get? "label" = some (labelled fmt [] 0 1) ∧ z = grey := by
  obtain ⟨rf, x, h1, h2, h3, h4⟩ := subTest_true (cert := [1, 0, 0, 0]) (mode := .max) (ig := false)
    (p := fun rf => yes (check rf .max .ge (1/2) [1, 0, 0, 0] 0)) (q := fun r => r.isOk) (by decide +kernel)
  obtain ⟨g, g1, -, -, g2, g3, g4, -⟩ := C80_mdp (v := exMaps) (fmt := fmt) (sw := true) (ρ' := exRnd) subEx_wf subEx_labS rfl h1 h3
    (sm := fun s => [("label", num s)]) (am := fun _ _ => ([], [])) (tm := fun _ _ _ _ => [])
    (fun s hs => by obtain ⟨ls, h⟩ := subEx_state s hs; exact ⟨ls, h, rfl⟩) (by simp)
    (fun s a r hr _ => by obtain ⟨ls, h⟩ := subEx_action s a r hr; exact ⟨ls, h, rfl⟩) (by simp) (fun _ _ _ _ _ _ => rfl)
    (fun _ _ => by
      cases hr : x.subsys exRnd with
      | error e => rw [hr] at h4; cases h4
      | ok r => exact ⟨r, rfl⟩)
  obtain ⟨⟨n, y⟩, k1, k2⟩ := List.mem_map.1 ((g2 (dash 0 0)).2 (.inr ⟨0, 0, 0, by decide +kernel, by decide +kernel, rfl⟩))
  obtain rfl : n = dash 0 0 := k2
  obtain ⟨⟨n, z⟩, k3, k4⟩ := List.mem_map.1 ((g2 (num 1)).2 (.inl ⟨1, by decide +kernel, rfl⟩))
  obtain rfl : n = num 1 := k4
  refine ⟨rf, x, g, y, z, h1, yes_iff.1 h2, h3, g1, k1, k3, ?_, ?_⟩
  · exact ((g4 0 0 0 y (by decide +kernel) (by decide +kernel) k1).2.2 rfl rfl ⟨0, 0, 1, by decide +kernel, rfl, by norm_num⟩ 1 rfl).2
  · refine (g3 1 z (by decide +kernel) k3).2.1 (by decide +kernel) ?_
    rintro ⟨a, i, c, h5, h6, h7⟩
    have h8 : i = 0 ∨ 0 < i := Nat.eq_zero_or_pos i
    rcases h8 with rfl | h8
    · have : ∀ p ∈ subEx.idx, p.2 = 0 → p.1.1 ≠ 1 := by decide +kernel
      exact this _ h5 rfl rfl
    · obtain ⟨k, rfl⟩ : ∃ k, i = k + 1 := ⟨i - 1, by omega⟩
      have : c = 0 := by
        match k, h6 with
        | 0, h6 => simpa using h6.symm
        | 1, h6 => simpa using h6.symm
        | 2, h6 => simpa using h6.symm
        | k + 3, h6 => simp at h6
      rw [this] at h7
      exact lt_irrefl _ h7

/-- **C80**: with the default `show_weights=True`, `digraph` raises for this valid "max" certificate for 1/2.  The vector
selects the states 0 and 1, and in the subsystem 1 cannot reach the goal. -/
theorem C80_raises_false (fmt : ℚ → List Char) : subEx.WF ∧ LabelMap subEx.labS ∧
    ∃ rf x, RF.make exRnd subEx "init" "goal" "fail" false = .ok rf ∧
      check rf .max .ge (1/2) [1, 1/2, 0, 0] 0 = .ok true ∧ Subsystem.make rf [1, 1/2, 0, 0] .max false = .ok x ∧
      (∃ g, Digraph.subMDP exRnd x fmt false exMaps = .ok g) ∧ Digraph.subMDP exRnd x fmt true exMaps = .error .assertion := by
  refine ⟨subEx_wf, subEx_labS, ?_⟩
  obtain ⟨rf, x, h1, h2, h3, h4⟩ := subTest_true (cert := [1, 1/2, 0, 0]) (mode := .max) (ig := false)
    (p := fun rf => yes (check rf .max .ge (1/2) [1, 1/2, 0, 0] 0))
    (q := fun r => match r with | .error e => decide (e = .assertion) | _ => false) (by decide +kernel)
  obtain ⟨g, g1, -⟩ := C80_mdp (v := exMaps) (fmt := fmt) (sw := false) (ρ' := exRnd) subEx_wf subEx_labS rfl h1 h3
    (sm := fun s => [("label", num s)]) (am := fun _ _ => ([], [])) (tm := fun _ _ _ _ => [])
    (fun s hs => by obtain ⟨ls, h⟩ := subEx_state s hs; exact ⟨ls, h, rfl⟩) (by simp)
    (fun s a r hr _ => by obtain ⟨ls, h⟩ := subEx_action s a r hr; exact ⟨ls, h, rfl⟩) (by simp) (fun _ _ _ _ _ _ => rfl)
    (fun h => by cases h)
  refine ⟨rf, x, h1, yes_iff.1 h2, h3, ⟨g, g1⟩, ?_⟩
  cases hr : x.subsys exRnd with
  | ok r => rw [hr] at h4; cases h4
  | error e =>
    rw [hr] at h4
    obtain rfl : e = .assertion := by simpa using h4
    exact (C80_raises subEx_wf h1 h3 hr (w := ⟨fun s _ => .ok [("label", num s)], fun _ _ _ => .ok []⟩)
      (fun s hs => by obtain ⟨ls, h⟩ := subEx_state s hs; exact ⟨ls, _, h, rfl⟩)
      (fun s hs => by obtain ⟨ls, h⟩ := subEx_state s hs; exact ⟨ls, _, h, rfl⟩)).1

/-- a chain whose first two rows are exchanged: 0 goes to the goal 2 or to 1, and 1 to the goal or to fail 3 -/
def permChain : Sys ℚ :=
  { mkSys ⟨4, 4, [((0, 2), 1/2), ((0, 3), 1/2), ((1, 1), 1/2), ((1, 2), 1/2), ((2, 2), 1), ((3, 3), 1)]⟩
      [((0, 0), 1), ((1, 0), 0), ((2, 0), 2), ((3, 0), 3)]
      (IDict.mk' [("init", [0]), ("goal", [2]), ("fail", [3])] true) with dtmc := true }

theorem permChain_wf : permChain.WF :=
  have w : (mkSys permChain.P permChain.idx permChain.labS).WF :=
    mkSys_wf (by decide +kernel) (by decide +kernel) (by decide +kernel) (by decide +kernel) (by decide +kernel) (by decide +kernel)
  ⟨w.nodup, w.range, w.pos, w.sum, w.keys, w.vals, w.graph⟩

theorem permChain_labS : LabelMap permChain.labS :=
  ⟨id, [("init", [0]), ("goal", [2]), ("fail", [3])], true, [], fun _ => List.Perm.refl _,
    isPyDict_of (by decide +kernel) (by decide +kernel), rfl⟩

theorem permChain_state : ∀ s < permChain.N, ∃ ls, permChain.labelsByState s = .ok ls := by
  have : ∀ s < permChain.N, (permChain.labelsByState s).isOk = true := by decide +kernel
  intro s hs
  have := this s hs
  cases h : permChain.labelsByState s with
  | ok ls => exact ⟨ls, rfl⟩
  | error e => rw [h] at this; cases this

def permTest (q : RF ℚ → Except Err (Subsystem.Result ℚ) → Bool) : Bool :=
  match RF.make exRnd permChain "init" "goal" "fail" false with
  | .error _ => false
  | .ok rf => match Subsystem.make rf [1/2, 1] .max false with
    | .error _ => false
    | .ok x => q rf (x.subsys exRnd)

/-- the hypotheses of `C80_weight_false` are met: state 0 has the entry 1, and its node shows 1/2 -/
example {fmt : ℚ → List Char} (hf : fmt 1 ≠ fmt (1/2)) : ∃ rf x g y, RF.make exRnd permChain "init" "goal" "fail" false = .ok rf ∧
    check rf .max .ge (3/4) [1/2, 1] 0 = .ok true ∧ Subsystem.make rf [1/2, 1] .max false = .ok x ∧
    Digraph.subDTMC exRnd x fmt true exChainMaps = .ok g ∧ (num 0, y) ∈ g.nodes ∧
    y.get? "label" = some (labelled fmt (num 0) 0 (1/2)) := by
  have h : permTest (fun rf r => yes (check rf .max .ge (3/4) [1/2, 1] 0) && r.isOk) = true := by decide +kernel
  unfold permTest at h
  split at h
  · cases h
  rename_i rf hrf
  split at h
  · cases h
  rename_i x hx
  rw [Bool.and_eq_true] at h
  obtain ⟨res, hr⟩ : ∃ res, x.subsys exRnd = .ok res := by
    cases hr : x.subsys exRnd with
    | ok r => exact ⟨r, rfl⟩
    | error e => rw [hr] at h; exact absurd h.2 (by simp [Except.isOk, Except.toBool])
  have h0 : ∀ p ∈ permChain.idx, p.1.2 = 0 := by decide +kernel
  obtain ⟨g, y, l, k1, k2, k3, k4, -⟩ := C80_weight_false (v := exChainMaps) (fmt := fmt) (sm := fun s => [("label", num s)])
    (tm := fun _ _ _ => []) permChain_wf permChain_labS rfl (fun s a i hi => h0 _ hi) hrf hx
    (fun s hs => by obtain ⟨ls, h⟩ := permChain_state s hs; exact ⟨ls, h, rfl⟩) (by simp) (fun _ _ _ _ _ => rfl) rfl ⟨res, hr⟩
    (s := 0) (i := 1) (c := 1) (c' := 1/2) ⟨0, 1, 1, by decide +kernel, rfl, by norm_num⟩ (by decide +kernel) rfl rfl hf
  obtain rfl : num 0 = l := by simpa [Dict.get?] using k3
  exact ⟨rf, x, g, y, hrf, yes_iff.1 h.1, hx, k1, k2, k4⟩

/-- the hypotheses of `C80_dtmc_partial` are met -/
example {fmt : ℚ → List Char} : ∃ rf x g y, RF.make exRnd permChain "init" "goal" "fail" false = .ok rf ∧
    Subsystem.make rf [3/4, 1/2] .min false = .ok x ∧
    Digraph.subDTMC exRnd x fmt true exChainMaps = .ok g ∧ (num 0, y) ∈ g.nodes ∧
    y.get? "label" = some (labelled fmt (num 0) 0 (3/4)) := by
  have h : permTest (fun _ _ => true) = true := by decide +kernel
  unfold permTest at h
  split at h
  · cases h
  rename_i rf hrf
  have e0 := (make_fields hrf).1
  have hx : Subsystem.make rf [3/4, 1/2] .min false = .ok ⟨rf, [3/4, 1/2], .min, false⟩ := by
    simp only [Subsystem.make, e0]; exact if_pos (by decide +kernel)
  have h0 : ∀ p ∈ permChain.idx, p.1.2 = 0 := by decide +kernel
  obtain ⟨g, g1, -, -, g2, g3, -⟩ := C80_dtmc_partial (v := exChainMaps) (fmt := fmt) (sm := fun s => [("label", num s)]) (sw := true)
    (ρ' := exRnd) (tm := fun _ _ _ => []) permChain_wf permChain_labS rfl (fun s a i hi => h0 _ hi) hrf hx
    (fun s hs => by obtain ⟨ls, h⟩ := permChain_state s hs; exact ⟨ls, h, rfl⟩) (by simp) (fun _ _ _ _ _ => rfl) rfl
    (fun h => by cases h) (fun _ h => by cases h)
  obtain ⟨⟨n, y⟩, k1, k2⟩ := List.mem_map.1 ((g2 (num 0)).2 ⟨0, by decide +kernel, rfl⟩)
  obtain rfl : n = num 0 := k2
  exact ⟨rf, _, g, y, hrf, hx, g1, k1, ((g3 0 y (by decide +kernel) k1).2.2.2 ⟨3/4, rfl, by norm_num⟩ rfl (num 0) 1 (3/4) rfl
    (by decide +kernel) rfl).1⟩

/-- a state without actions that is not entered is left out of the picture -/
def loneSys : Sys ℚ := mkSys ⟨1, 2, [((0, 0), 1)]⟩ [((0, 0), 0)] (IDict.mk' [("init", [0]), ("lone", [1])] true)

theorem loneSys_wf : loneSys.WF :=
  mkSys_wf (by decide +kernel) (by decide +kernel) (by decide +kernel) (by decide +kernel) (by decide +kernel) (by decide +kernel)

example : loneSys.WF ∧ loneSys.N = 2 ∧ ∃ g, Digraph.mdp loneSys exMaps = .ok g ∧ g.nodes.map Prod.fst = [num 0, dash 0 0] := by
  refine ⟨loneSys_wf, rfl, ?_⟩
  have h : (match Digraph.mdp loneSys exMaps with
      | .error _ => false
      | .ok g => decide (g.nodes.map Prod.fst = [num 0, dash 0 0])) = true := by decide +kernel
  split at h
  · cases h
  · rename_i g hg
    exact ⟨g, hg, by simpa using h⟩

end Verif.Props
