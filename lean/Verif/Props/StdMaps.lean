import Verif.Proofs.StdMaps
import Verif.Proofs.RowsSys
import Verif.Props.Style
/-!
# C102: the default look of pictures

`hash` and `rep` (md5 and `repr` of strings) are arbitrary functions throughout.
-/
set_option linter.unusedSectionVars false

namespace Verif.Props
open Verif.Model Verif.Model.Text Verif.Spec Verif.Proofs Verif.Proofs.IDict Finset
open Verif.Model.Digraph (Maps DTMCMaps)

theorem getItem_nodup {α β : Type} [DecidableEq α] [DecidableEq β] {x : IDict α β} (h : Inv x) {v : β} {ls : List α}
    (hl : (x.force id).flip.getItem v = .ok ls) : ls.Nodup := by
  obtain ⟨a, b, c, i, hi⟩ := h.force (π := id) (fun l => List.Perm.refl _)
  obtain ⟨fa, fb, fc⟩ := a.flip hi
  unfold IDict.getItem at hl
  cases hg : (x.force id).flip.d.get? v with
  | none =>
    rw [hg] at hl
    simp only at hl
    split at hl
    · cases hl; exact List.nodup_nil
    · cases hl
  | some s =>
    rw [hg] at hl
    cases hl
    exact fa.ok.2 _ _ hg

/-- joined texts of plain words determine the words -/
theorem join_inj {L L' : List String} (hL : ∀ l ∈ L, ',' ∉ l.toList ∧ l ≠ "") (hL' : ∀ l ∈ L', ',' ∉ l.toList ∧ l ≠ "")
    (h : StdMaps.join [','] L = StdMaps.join [','] L') : L = L' := by
  unfold StdMaps.join at h
  have hsep : ∀ {a b r r' : List Char}, ',' ∉ a → ',' ∉ b → a ++ ',' :: r = b ++ ',' :: r' → a = b ∧ r = r' := by
    intro a b r r' ha hb he
    exact append_sep ha hb he
  induction L generalizing L' with
  | nil =>
    cases L' with
    | nil => rfl
    | cons b L' =>
      exfalso
      have hb := hL' b (by simp)
      have : b.toList ≠ [] := fun g => hb.2 (by rw [← String.ofList_toList (s := b), g])
      cases L' with
      | nil => exact this (by simpa using h.symm)
      | cons b' L' => simp [List.intercalate_cons_cons] at h
  | cons a L ih =>
    have ha := hL a (by simp)
    have hne : ∀ c : String, c ≠ "" → c.toList ≠ [] := fun c hc g => hc (by rw [← String.ofList_toList (s := c), g])
    cases L' with
    | nil =>
      exfalso
      cases L with
      | nil => exact hne a ha.2 (by simpa using h)
      | cons b' L' => simp [List.intercalate_cons_cons] at h
    | cons b L' =>
      have hb := hL' b (by simp)
      cases L with
      | nil =>
        cases L' with
        | nil =>
          have : a = b := String.toList_inj.1 (by simpa using h)
          rw [this]
        | cons b' L' =>
          exfalso
          simp only [List.map_cons, List.map_nil, List.intercalate_singleton, List.intercalate_cons_cons] at h
          exact ha.1 (by rw [h]; simp)
      | cons a' L =>
        cases L' with
        | nil =>
          exfalso
          simp only [List.map_cons, List.map_nil, List.intercalate_singleton, List.intercalate_cons_cons] at h
          exact hb.1 (by rw [← h]; simp)
        | cons b' L' =>
          simp only [List.map_cons, List.intercalate_cons_cons, List.append_assoc, List.singleton_append] at h
          obtain ⟨h1, h2⟩ := hsep ha.1 hb.1 h
          have e : a = b := String.toList_inj.1 h1
          rw [e, ih (L' := b' :: L') (fun l hl => hL l (List.mem_cons_of_mem _ hl)) (fun l hl => hL' l (List.mem_cons_of_mem _ hl))
            (by simpa only [List.map_cons] using h2)]

theorem sorted_eq {L L' : List String} (h : L.Perm L') : StdMaps.sorted L = StdMaps.sorted L' := by
  have hs : ∀ L : List String, (StdMaps.sorted L).Pairwise (· ≤ ·) := by
    intro L
    have := List.pairwise_mergeSort (le := fun a b : String => decide (a ≤ b))
      (fun a b c h1 h2 => by simp only [decide_eq_true_eq] at *; exact String.le_trans h1 h2)
      (fun a b => by simp only [Bool.or_eq_true, decide_eq_true_eq]; exact String.le_total a b) L
    simpa [StdMaps.sorted] using this
  exact List.Perm.eq_of_pairwise (fun _ _ _ _ => String.le_antisymm) (hs L) (hs L')
    ((List.mergeSort_perm _ _).trans (h.trans (List.mergeSort_perm _ _).symm))

variable {K : Type} [Field K] [LinearOrder K] [IsStrictOrderedRing K] [FloorRing K]
variable {M M' : Sys K} {hash : List Char → Nat} {rep : String → List Char}

/-- the labels of all states and actions can be looked up -/
structure Labelled (M : Sys K) : Prop where
  labS : LabelMap M.labS
  dfltS : M.labS.dflt = true ∨ ∀ s < M.N, ∃ l, s ∈ M.labelled l
  labA : LabelMap M.labA
  dfltA : M.labA.dflt = true

theorem Labelled.state (h : Labelled M) {s : Nat} (hs : s < M.N) :
    ∃ ls, M.labelsByState s = .ok ls ∧ ls.Nodup ∧ ∀ l, l ∈ ls ↔ l ∈ labelsOf M s := by
  obtain ⟨ls, hl⟩ := inv_getItem_ok h.labS.inv (v := s) (h.dfltS.imp id fun g => by
    obtain ⟨l, hl⟩ := g s hs
    exact ⟨l, labelled_iff.1 hl⟩)
  refine ⟨ls, hl, getItem_nodup h.labS.inv hl, fun l => ?_⟩
  rw [inv_getItem h.labS.inv hl l]
  exact labelled_iff.symm

theorem Labelled.act (h : Labelled M) (s a : Nat) :
    ∃ ls, M.labelsByAction (s, a) = .ok ls ∧ ls.Nodup ∧ ∀ l, l ∈ ls ↔ l ∈ actLabelsOf M s a := by
  obtain ⟨ls, hl⟩ := inv_getItem_ok h.labA.inv (v := (s, a)) (Or.inl h.dfltA)
  refine ⟨ls, hl, getItem_nodup h.labA.inv hl, fun l => ?_⟩
  rw [inv_getItem h.labA.inv hl l]
  exact sees_iff.symm

/-- a list of the elements of a set of names -/
def Lists (L : List String) (S : Set String) : Prop := L.Nodup ∧ ∀ l, l ∈ L ↔ l ∈ S

/-- the text of a box for state `s` with the labels `S`: "State", the number, and in the next line the labels, each once,
with commas in between -/
def StateText (s : Nat) (S : Set String) (x : Attrs) : Prop :=
  ∃ L, Lists L S ∧ x.get? "label" = some ("State ".toList ++ num s ++ '\n' :: [','].intercalate (L.map String.toList))

/-- the text of a box for action `a` with the labels `S`: the number, and in the next line the labels without space in between -/
def ActionText (a : Nat) (S : Set String) (x : Attrs) : Prop :=
  ∃ L, Lists L S ∧ x.get? "label" = some (num a ++ '\n' :: (L.map String.toList).flatten)

/-- the text of an edge is a decimal number that differs from the probability by at most `1/2·10⁻¹⁰`; up to this
probability it is `0.0` -/
def EdgeText (p : K) (x : Attrs) : Prop :=
  ∃ l q, x.get? "label" = some l ∧ pyFloat l = .ok q ∧ |(q : K) - p| ≤ 1 / (2 * 10 ^ 10) ∧ (p < 1 / (2 * 10 ^ 10) → l = "0.0".toList)

/-- `digraph(state_map=sm)` returned `g`; for a chain (no actions other than 0) this may be the method of `DTMC` -/
def Drawn (sm : Nat → List String → Except Err Attrs) (M : Sys K) (g : Digraph) : Prop :=
  (∀ s a i, ((s, a), i) ∈ M.idx → a = 0) ∧ Digraph.dtmc M ⟨sm, (StdMaps.dtmcMaps (fun _ => 0) fun _ => []).trans⟩ = .ok g ∨
  Digraph.mdp M ⟨sm, (StdMaps.maps (fun _ => 0) fun _ => []).trans, (StdMaps.maps (K := K) (fun _ => 0) fun _ => []).action⟩ = .ok g

/-- the look of an edge -/
def edgeOf (p : K) : Attrs := [("color", "black".toList), ("label", StdMaps.strRound p), ("fontsize", "18pt".toList)]

/-- the look of an action box and of the line to it -/
def actOf (a : Nat) (ls : List String) : Attrs × Attrs :=
  ([("label", fmtD a ++ '\n' :: StdMaps.join [] ls), ("color", "black".toList), ("shape", "rectangle".toList), ("fontsize", "18pt".toList)],
    [("color", "black".toList), ("dir", "none".toList)])

theorem edgeText {p : K} (hp : 0 ≤ p) : EdgeText p (edgeOf p) := by
  have h := Proofs.Text.roundEven_close (x := p * 10 ^ 10) (by positivity)
  refine ⟨_, _, rfl, Proofs.StdMaps.pyFloat_strDec _, ?_, fun hs => ?_⟩
  · have e : (((roundEven (p * 10 ^ 10) : ℕ) / 10 ^ 10 : ℚ) : K) - p = ((roundEven (p * 10 ^ 10) : K) - p * 10 ^ 10) / 10 ^ 10 := by
      push_cast; field_simp
    rw [e, abs_div, abs_of_pos (show (0 : K) < 10 ^ 10 by positivity), div_le_iff₀ (by positivity)]
    refine h.trans (le_of_eq ?_)
    norm_num
  · have : roundEven (p * 10 ^ 10) = 0 := by
      rw [lt_div_iff₀ (by positivity)] at hs
      rw [abs_le] at h
      have : (roundEven (p * 10 ^ 10) : K) < 1 := by
        generalize (roundEven (p * 10 ^ 10) : K) = n at h
        nlinarith [h.2]
      exact_mod_cast Nat.lt_one_iff.1 (by exact_mod_cast this)
    rw [StdMaps.strRound, this]
    rfl

theorem actText {a : Nat} {ls : List String} {S : Set String} (h : Lists ls S) : ActionText a S (actOf a ls).1 := by
  refine ⟨ls, h, ?_⟩
  have : StdMaps.join [] ls = (ls.map String.toList).flatten := by
    unfold StdMaps.join
    induction ls.map String.toList with
    | nil => rfl
    | cons a L ih =>
      cases L with
      | nil => simp
      | cons b L => rw [List.intercalate_cons_cons, ih]; simp
  simp [actOf, Dict.get?, this, num, fmtD]

section
variable {sm : Nat → List String → Except Err Attrs} {g g' : Digraph}

theorem draw_dtmc (hM : M.WF) (h0 : ∀ s a i, ((s, a), i) ∈ M.idx → a = 0) (hL : Labelled M) (hsm : ∀ s ls, ∃ x, sm s ls = .ok x) :
    ∃ g, ∃ box : Nat → Attrs, Digraph.dtmc M ⟨sm, (StdMaps.dtmcMaps (fun _ => 0) fun _ => []).trans⟩ = .ok g ∧
      (∀ s < M.N, ∃ ls, Lists ls (labelsOf M s) ∧ sm s ls = .ok (box s)) ∧
      (g.nodes.map Prod.fst).Nodup ∧ (g.edges.map fun e => (e.1, e.2.1)).Nodup ∧
      (∀ x, x ∈ g.nodes ↔ ∃ s, ((∃ r, ((s, 0), r) ∈ M.idx ∧ r < M.C) ∨ ∃ r, 0 < M.P.get r s) ∧ x = (num s, box s)) ∧
      (∀ x, x ∈ g.edges ↔ ∃ s r t, ((s, 0), r) ∈ M.idx ∧ 0 < M.P.get r t ∧ x = (num s, num t, edgeOf (M.P.get r t))) := by
  have h1 : ∀ s, ∃ x : Attrs, s < M.N → ∃ ls, M.labelsByState s = .ok ls ∧ Lists ls (labelsOf M s) ∧ sm s ls = .ok x := by
    intro s
    by_cases hs : s < M.N
    · obtain ⟨ls, a, b, c⟩ := hL.state hs
      obtain ⟨x, hx⟩ := hsm s ls
      exact ⟨x, fun _ => ⟨ls, a, ⟨b, c⟩, hx⟩⟩
    · exact ⟨[], fun g => absurd g hs⟩
  choose box hbox using h1
  obtain ⟨g, hg, a, b, c, d⟩ := C79_dtmc hM h0 (v := ⟨sm, (StdMaps.dtmcMaps (fun _ => 0) fun _ => []).trans⟩) (sm := box)
    (tm := fun _ _ => edgeOf) (fun s hs => by obtain ⟨ls, k1, -, k2⟩ := hbox s hs; exact ⟨ls, k1, k2⟩) (fun _ _ _ _ _ => rfl)
  exact ⟨g, box, hg, fun s hs => by obtain ⟨ls, -, k1, k2⟩ := hbox s hs; exact ⟨ls, k1, k2⟩, a, b, c, d⟩

theorem draw_mdp (hM : M.WF) (hL : Labelled M) (hsm : ∀ s ls, ∃ x, sm s ls = .ok x) :
    ∃ g, ∃ (box : Nat → Attrs) (act : Nat → Nat → List String), Digraph.mdp M ⟨sm, (StdMaps.maps (fun _ => 0) fun _ => []).trans, (StdMaps.maps (K := K) (fun _ => 0) fun _ => []).action⟩ = .ok g ∧
      (∀ s < M.N, ∃ ls, Lists ls (labelsOf M s) ∧ sm s ls = .ok (box s)) ∧
      (∀ s a, Lists (act s a) (actLabelsOf M s a)) ∧
      (g.nodes.map Prod.fst).Nodup ∧ (g.edges.map fun e => (e.1, e.2.1)).Nodup ∧
      (∀ x, x ∈ g.nodes ↔
        (∃ s, ((∃ a r, ((s, a), r) ∈ M.idx ∧ r < M.C) ∨ ∃ r, 0 < M.P.get r s) ∧ x = (num s, box s)) ∨
        ∃ s a r, ((s, a), r) ∈ M.idx ∧ r < M.C ∧ x = (dash s a, (actOf a (act s a)).1)) ∧
      (∀ x, x ∈ g.edges ↔
        (∃ s a r, ((s, a), r) ∈ M.idx ∧ r < M.C ∧ x = (num s, dash s a, (actOf a (act s a)).2)) ∨
        ∃ s a r t, ((s, a), r) ∈ M.idx ∧ 0 < M.P.get r t ∧ x = (dash s a, num t, edgeOf (M.P.get r t))) := by
  have h1 : ∀ s, ∃ x : Attrs, s < M.N → ∃ ls, M.labelsByState s = .ok ls ∧ Lists ls (labelsOf M s) ∧ sm s ls = .ok x := by
    intro s
    by_cases hs : s < M.N
    · obtain ⟨ls, a, b, c⟩ := hL.state hs
      obtain ⟨x, hx⟩ := hsm s ls
      exact ⟨x, fun _ => ⟨ls, a, ⟨b, c⟩, hx⟩⟩
    · exact ⟨[], fun g => absurd g hs⟩
  choose box hbox using h1
  choose act k1 k2 k3 using hL.act
  obtain ⟨g, hg, a, b, c, d⟩ := C79_mdp hM
    (v := ⟨sm, (StdMaps.maps (fun _ => 0) fun _ => []).trans, (StdMaps.maps (K := K) (fun _ => 0) fun _ => []).action⟩) (sm := box)
    (am := fun s a => actOf a (act s a)) (tm := fun _ _ _ => edgeOf)
    (fun s hs => by obtain ⟨ls, k1, -, k2⟩ := hbox s hs; exact ⟨ls, k1, k2⟩) (fun s a _ _ _ => ⟨_, k1 s a, rfl⟩) (fun _ _ _ _ _ _ => rfl)
  exact ⟨g, box, act, hg, fun s hs => by obtain ⟨ls, -, k1, k2⟩ := hbox s hs; exact ⟨ls, k1, k2⟩,
    fun s a => ⟨k2 s a, k3 s a⟩, a, b, c, d⟩

/-- every node named like a state belongs to this state -/
theorem Drawn.node (h : Drawn sm M g) (hM : M.WF) (hL : Labelled M) (hsm : ∀ s ls, ∃ x, sm s ls = .ok x) {s : Nat} {x : Attrs}
    (hx : (num s, x) ∈ g.nodes) : ∃ ls, Lists ls (labelsOf M s) ∧ sm s ls = .ok x := by
  have hlt : ∀ t, ((∃ a r, ((t, a), r) ∈ M.idx ∧ r < M.C) ∨ ∃ r, 0 < M.P.get r t) → t < M.N := by
    rintro t (⟨a, r, h1, h2⟩ | ⟨r, h1⟩)
    · exact WF.state_lt hM h1 h2
    · obtain ⟨p, hp⟩ := (WF.get_pos_iff hM).1 h1
      exact (hM.range _ _ _ hp).2
  rcases h with ⟨h0, h⟩ | h
  · obtain ⟨g', box, h1, h2, -, -, h3, -⟩ := draw_dtmc hM h0 hL hsm
    rw [h] at h1; cases h1
    obtain ⟨t, h4, h5⟩ := (h3 _).1 hx
    rw [Prod.mk.injEq] at h5
    obtain ⟨h6, rfl⟩ := h5
    obtain rfl : s = t := stateName_inj h6
    exact h2 _ (hlt _ (h4.imp (fun ⟨r, k⟩ => ⟨0, r, k⟩) id))
  · obtain ⟨g', box, act, h1, h2, -, -, -, h3, -⟩ := draw_mdp hM hL hsm
    rw [h] at h1; cases h1
    rcases (h3 _).1 hx with ⟨t, h4, h5⟩ | ⟨t, a, r, -, -, h5⟩
    · rw [Prod.mk.injEq] at h5
      obtain ⟨h6, rfl⟩ := h5
      obtain rfl : s = t := stateName_inj h6
      exact h2 _ (hlt _ h4)
    · rw [Prod.mk.injEq] at h5
      exact absurd (show '-' ∈ num s by rw [h5.1]; simp [dash]) (dash_notMem _)

end

/-- the picture with the default functions -/
def StdDrawn (hash : List Char → Nat) (rep : String → List Char) (M : Sys K) (g : Digraph) : Prop :=
  (∀ s a i, ((s, a), i) ∈ M.idx → a = 0) ∧ Digraph.dtmc M (StdMaps.dtmcMaps hash rep) = .ok g ∨
  Digraph.mdp M (StdMaps.maps hash rep) = .ok g

theorem stdDrawn_iff {g : Digraph} : StdDrawn hash rep M g ↔ Drawn (StdMaps.state hash rep) M g := Iff.rfl

theorem stateText {s : Nat} {ls : List String} {S : Set String} {x : Attrs} (h : Lists ls S) (hx : StdMaps.state hash rep s ls = .ok x) :
    StateText s S x := by
  cases hx
  exact ⟨ls, h, rfl⟩

theorem renderText {arg : List Char} {s : Nat} {ls : List String} {S : Set String} {x : Attrs} (h : Lists ls S)
    (hx : StdMaps.renderState hash rep arg s ls = .ok x) : StateText s S x := by
  cases hx
  exact ⟨ls, h, rfl⟩

/-- **C102 (chains).** If the labels of every state can be looked up, `digraph` with the default functions returns for a chain. Every state
with a transition has exactly one box, which shows its number and all its labels; there are no other boxes. Every transition has
exactly one edge, which shows the probability up to 1/2·10⁻¹⁰; there are no other edges.
Missing: transitions with small probabilities show 0.0 (`C102_zero_false`), colours do not tell sets of labels apart
(`C102_colours_false`). -/
theorem C102_dtmc_partial (hM : M.WF) (h0 : ∀ s a i, ((s, a), i) ∈ M.idx → a = 0) (hL : Labelled M) (hash : List Char → Nat)
    (rep : String → List Char) :
    ∃ g, Digraph.dtmc M (StdMaps.dtmcMaps hash rep) = .ok g ∧
      (g.nodes.map Prod.fst).Nodup ∧ (g.edges.map fun e => (e.1, e.2.1)).Nodup ∧
      (∀ s r, ((s, 0), r) ∈ M.idx → r < M.C → ∃ x, (num s, x) ∈ g.nodes) ∧
      (∀ n x, (n, x) ∈ g.nodes → ∃ s < M.N, n = num s ∧ StateText s (labelsOf M s) x) ∧
      (∀ s r t, ((s, 0), r) ∈ M.idx → 0 < M.P.get r t → ∃ x, (num s, num t, x) ∈ g.edges ∧ EdgeText (M.P.get r t) x) ∧
      ∀ m n x, (m, n, x) ∈ g.edges → ∃ s r t, m = num s ∧ n = num t ∧ ((s, 0), r) ∈ M.idx ∧ 0 < M.P.get r t ∧
        EdgeText (M.P.get r t) x := by
  obtain ⟨g, box, h1, h2, h3, h4, h5, h6⟩ := draw_dtmc hM h0 hL (sm := StdMaps.state hash rep) fun _ _ => ⟨_, rfl⟩
  have hlt : ∀ t, ((∃ r, ((t, 0), r) ∈ M.idx ∧ r < M.C) ∨ ∃ r, 0 < M.P.get r t) → t < M.N := by
    rintro t (⟨r, h1, h2⟩ | ⟨r, h1⟩)
    · exact WF.state_lt hM h1 h2
    · obtain ⟨p, hp⟩ := (WF.get_pos_iff hM).1 h1
      exact (hM.range _ _ _ hp).2
  refine ⟨g, h1, h3, h4, fun s r k1 k2 => ⟨_, (h5 _).2 ⟨s, .inl ⟨r, k1, k2⟩, rfl⟩⟩, fun n x hx => ?_, fun s r t k1 k2 =>
    ⟨_, (h6 _).2 ⟨s, r, t, k1, k2, rfl⟩, edgeText k2.le⟩, fun m n x hx => ?_⟩
  · obtain ⟨s, k1, k2⟩ := (h5 _).1 hx
    cases k2
    obtain ⟨ls, k3, k4⟩ := h2 s (hlt _ k1)
    exact ⟨s, hlt _ k1, rfl, stateText k3 k4⟩
  · obtain ⟨s, r, t, k1, k2, k3⟩ := (h6 _).1 hx
    cases k3
    exact ⟨s, r, t, rfl, rfl, k1, k2, edgeText k2.le⟩

/-- **C102 (MDPs).** For MDPs there is besides exactly one box for every action of a state, which shows the number of the action and
all its labels, and one edge from the state to it. Missing: as for chains, and labels of actions cannot be told apart
(`C102_actions_false`). -/
theorem C102_mdp_partial (hM : M.WF) (hL : Labelled M) (hash : List Char → Nat) (rep : String → List Char) :
    ∃ g, Digraph.mdp M (StdMaps.maps hash rep) = .ok g ∧
      (g.nodes.map Prod.fst).Nodup ∧ (g.edges.map fun e => (e.1, e.2.1)).Nodup ∧
      (∀ s a r, ((s, a), r) ∈ M.idx → r < M.C → (∃ x, (num s, x) ∈ g.nodes) ∧ (∃ x, (dash s a, x) ∈ g.nodes) ∧
        ∃ x, (num s, dash s a, x) ∈ g.edges) ∧
      (∀ n x, (n, x) ∈ g.nodes → (∃ s < M.N, n = num s ∧ StateText s (labelsOf M s) x) ∨
        ∃ s a r, ((s, a), r) ∈ M.idx ∧ r < M.C ∧ n = dash s a ∧ ActionText a (actLabelsOf M s a) x) ∧
      (∀ s a r t, ((s, a), r) ∈ M.idx → 0 < M.P.get r t → ∃ x, (dash s a, num t, x) ∈ g.edges ∧ EdgeText (M.P.get r t) x) ∧
      ∀ m n x, (m, n, x) ∈ g.edges → (∃ s a r, ((s, a), r) ∈ M.idx ∧ r < M.C ∧ m = num s ∧ n = dash s a ∧ x.get? "label" = none) ∨
        ∃ s a r t, m = dash s a ∧ n = num t ∧ ((s, a), r) ∈ M.idx ∧ 0 < M.P.get r t ∧ EdgeText (M.P.get r t) x := by
  obtain ⟨g, box, act, h1, h2, h2', h3, h4, h5, h6⟩ := draw_mdp hM hL (sm := StdMaps.state hash rep) fun _ _ => ⟨_, rfl⟩
  have hlt : ∀ t, ((∃ a r, ((t, a), r) ∈ M.idx ∧ r < M.C) ∨ ∃ r, 0 < M.P.get r t) → t < M.N := by
    rintro t (⟨a, r, h1, h2⟩ | ⟨r, h1⟩)
    · exact WF.state_lt hM h1 h2
    · obtain ⟨p, hp⟩ := (WF.get_pos_iff hM).1 h1
      exact (hM.range _ _ _ hp).2
  refine ⟨g, h1, h3, h4, fun s a r k1 k2 => ⟨⟨_, (h5 _).2 (.inl ⟨s, .inl ⟨a, r, k1, k2⟩, rfl⟩)⟩, ⟨_, (h5 _).2 (.inr ⟨s, a, r, k1, k2, rfl⟩)⟩,
    ⟨_, (h6 _).2 (.inl ⟨s, a, r, k1, k2, rfl⟩)⟩⟩, fun n x hx => ?_, fun s a r t k1 k2 =>
    ⟨_, (h6 _).2 (.inr ⟨s, a, r, t, k1, k2, rfl⟩), edgeText k2.le⟩, fun m n x hx => ?_⟩
  · rcases (h5 _).1 hx with ⟨s, k1, k2⟩ | ⟨s, a, r, k1, k2, k3⟩
    · cases k2
      obtain ⟨ls, k3, k4⟩ := h2 s (hlt _ k1)
      exact .inl ⟨s, hlt _ k1, rfl, stateText k3 k4⟩
    · cases k3
      exact .inr ⟨s, a, r, k1, k2, rfl, actText (h2' s a)⟩
  · rcases (h6 _).1 hx with ⟨s, a, r, k1, k2, k3⟩ | ⟨s, a, r, t, k1, k2, k3⟩
    · cases k3
      exact .inl ⟨s, a, r, k1, k2, rfl, rfl, rfl⟩
    · cases k3
      exact .inr ⟨s, a, r, t, rfl, rfl, k1, k2, edgeText k2.le⟩

/-- **C102 (text).** If no label is empty or contains a comma, the text of a box determines the number of the state and the set of its
labels, within one picture and between pictures. -/
theorem C102_readable {s t : Nat} {S T : Set String} {x y : Attrs} (hS : ∀ l ∈ S, ',' ∉ l.toList ∧ l ≠ "")
    (hT : ∀ l ∈ T, ',' ∉ l.toList ∧ l ≠ "") (hx : StateText s S x) (hy : StateText t T y) (h : x.get? "label" = y.get? "label") :
    s = t ∧ S = T := by
  obtain ⟨L, hL, h1⟩ := hx
  obtain ⟨L', hL', h2⟩ := hy
  rw [h1, h2, Option.some.injEq, List.append_assoc, List.append_assoc, List.append_cancel_left_eq] at h
  obtain ⟨h3, h4⟩ := append_sep (Proofs.IOTra.fmtD_plain (by decide)) (Proofs.IOTra.fmtD_plain (by decide)) h
  refine ⟨fmtD_inj h3, ?_⟩
  obtain rfl := join_inj (fun l hl => hS l ((hL.2 l).1 hl)) (fun l hl => hT l ((hL'.2 l).1 hl)) h4
  ext l
  rw [← hL.2, ← hL'.2]

theorem Lists.perm {L L' : List String} {S : Set String} (h : Lists L S) (h' : Lists L' S) : L.Perm L' :=
  (List.perm_ext_iff_of_nodup h.1 h'.1).2 fun l => (h.2 l).trans (h'.2 l).symm

/-- **C102 (colours).** States with the same labels are drawn in the same colour, within one picture and between pictures. -/
theorem C102_colour {g g' : Digraph} (hM : M.WF) (hL : Labelled M) (hM' : M'.WF) (hL' : Labelled M')
    (hg : StdDrawn hash rep M g) (hg' : StdDrawn hash rep M' g') {s t : Nat} {x y : Attrs} (hx : (num s, x) ∈ g.nodes)
    (hy : (num t, y) ∈ g'.nodes) (h : labelsOf M s = labelsOf M' t) : x.get? "color" = y.get? "color" := by
  obtain ⟨L, h1, h2⟩ := Drawn.node hg hM hL (fun _ _ => ⟨_, rfl⟩) hx
  obtain ⟨L', h3, h4⟩ := Drawn.node hg' hM' hL' (fun _ _ => ⟨_, rfl⟩) hy
  cases h2; cases h4
  rw [← h] at h3
  simp only [Dict.get?, sorted_eq (h1.perm h3)]
  rfl

/-- the names in a list with commas -/
def Listed (arg : List Char) (l : String) : Prop := ',' ∉ l.toList ∧ (',' :: l.toList ++ [',']) <:+: (',' :: arg ++ [','])

theorem splitComma_head (arg : List Char) :
    ∃ w ws, StdMaps.splitComma arg = w :: ws ∧ ',' ∉ w ∧ (w ++ [',']) <+: (arg ++ [',']) := by
  induction arg with
  | nil => exact ⟨[], [], rfl, by simp, by simp⟩
  | cons c cs ih =>
    obtain ⟨w, ws, h1, h2, h3⟩ := ih
    by_cases hc : c = ','
    · exact ⟨[], _, by rw [StdMaps.splitComma, if_pos hc], by simp, by rw [hc]; simp⟩
    · exact ⟨c :: w, ws, by rw [StdMaps.splitComma, if_neg hc, h1], by simp [h2, Ne.symm hc], by simpa using h3⟩

theorem prefix_head {arg w v : List Char} (hw : ',' ∉ w) (hv : ',' ∉ v) (h : (w ++ [',']) <+: (arg ++ [','])) :
    (v ++ [',']) <+: (arg ++ [',']) ↔ v = w := by
  constructor
  · rintro ⟨r, hr⟩
    obtain ⟨r', hr'⟩ := h
    rw [← hr', List.append_assoc, List.append_assoc] at hr
    exact (append_sep hv hw hr).1
  · rintro rfl; exact h

theorem splitComma_tail {v : List Char} : ∀ arg : List Char,
    v ∈ (StdMaps.splitComma arg).tail ↔ ',' ∉ v ∧ (',' :: v ++ [',']) <:+: (arg ++ [','])
  | [] => by
    simp only [StdMaps.splitComma, List.tail_cons, List.not_mem_nil, List.nil_append, false_iff, not_and]
    intro _ h
    have := h.length_le
    simp at this
  | c :: cs => by
    obtain ⟨w, ws, h1, h2, h3⟩ := splitComma_head cs
    have ih := splitComma_tail (v := v) cs
    rw [h1, List.tail_cons] at ih
    rw [List.cons_append, List.cons_append, List.infix_cons_iff, List.cons_prefix_cons, StdMaps.splitComma]
    rw [List.cons_append] at ih
    by_cases hc : c = ','
    · rw [if_pos hc, List.tail_cons, h1, List.mem_cons, ih]
      constructor
      · rintro (rfl | ⟨k1, k2⟩)
        · exact ⟨h2, .inl ⟨hc.symm, h3⟩⟩
        · exact ⟨k1, .inr k2⟩
      · rintro ⟨k1, k2 | k2⟩
        · exact .inl ((prefix_head h2 k1 h3).1 k2.2)
        · exact .inr ⟨k1, k2⟩
    · rw [if_neg hc, h1, List.tail_cons, ih]
      simp [Ne.symm hc]

theorem mem_splitComma {arg w : List Char} : w ∈ StdMaps.splitComma arg ↔ ',' ∉ w ∧ (',' :: w ++ [',']) <:+: (',' :: arg ++ [',']) := by
  obtain ⟨u, ws, h1, h2, h3⟩ := splitComma_head arg
  have ht := splitComma_tail (v := w) arg
  rw [h1, List.tail_cons] at ht
  rw [h1, List.mem_cons, ht, List.cons_append, List.cons_append, List.infix_cons_iff, List.cons_prefix_cons]
  constructor
  · rintro (rfl | ⟨k1, k2⟩)
    · exact ⟨h2, .inl ⟨rfl, h3⟩⟩
    · exact ⟨k1, .inr k2⟩
  · rintro ⟨k1, k2 | k2⟩
    · exact .inl ((prefix_head h2 k1 h3).1 k2.2)
    · exact .inr ⟨k1, k2⟩

/-- **C102 (`switss render -col`).** With a list of labels for the colours, every box still shows all labels, and states (of one
model or of two) that agree on the given labels have the same colour. -/
theorem C102_render {g g' : Digraph} {arg : List Char} (hM : M.WF) (hL : Labelled M) (hM' : M'.WF) (hL' : Labelled M')
    (hg : Drawn (StdMaps.renderState hash rep arg) M g) (hg' : Drawn (StdMaps.renderState hash rep arg) M' g')
    {s t : Nat} {x y : Attrs} (hx : (num s, x) ∈ g.nodes) (hy : (num t, y) ∈ g'.nodes) :
    StateText s (labelsOf M s) x ∧
    ((∀ l, Listed arg l → (l ∈ labelsOf M s ↔ l ∈ labelsOf M' t)) → x.get? "color" = y.get? "color") := by
  obtain ⟨L, h1, h2⟩ := Drawn.node hg hM hL (fun _ _ => ⟨_, rfl⟩) hx
  obtain ⟨L', h3, h4⟩ := Drawn.node hg' hM' hL' (fun _ _ => ⟨_, rfl⟩) hy
  refine ⟨renderText h1 h2, fun h => ?_⟩
  cases h2; cases h4
  have : (StdMaps.colorLabels arg).filter (fun l => decide (l ∈ L)) = (StdMaps.colorLabels arg).filter (fun l => decide (l ∈ L')) := by
    refine List.filter_congr fun l hl => ?_
    rw [StdMaps.colorLabels, List.mem_dedup, List.mem_map] at hl
    obtain ⟨w, hw, rfl⟩ := hl
    have := h (String.ofList w) (by rw [Listed, String.toList_ofList]; exact mem_splitComma.1 hw)
    rw [decide_eq_decide, h1.2, h3.2, this]
  simp only [Dict.get?, this]
  rfl

/-! ### Which states have different colours -/

theorem colors_length : StdMaps.colors.length = 143 := by decide +kernel

theorem colors_nodup : StdMaps.colors.Nodup := by decide +kernel

/-- what python prints for the sorted tuple of the elements of a set of strings -/
def TupleText (rep : String → List Char) (S : Set String) (w : List Char) : Prop :=
  ∃ L, Lists L S ∧ L.Pairwise (· ≤ ·) ∧
    (L = [] ∧ w = ['(', ')'] ∨ (∃ l, L = [l] ∧ w = '(' :: rep l ++ [',', ')']) ∨
      2 ≤ L.length ∧ w = '(' :: List.intercalate [',', ' '] (L.map rep) ++ [')'])

/-- there is only one such text -/
theorem tupleText_unique {S : Set String} {w v : List Char} (hw : TupleText rep S w) (hv : TupleText rep S v) : w = v := by
  obtain ⟨L, h1, h2, h3⟩ := hw
  obtain ⟨L', h1', h2', h3'⟩ := hv
  obtain rfl : L = L' := List.Perm.eq_of_pairwise (fun a b _ _ => String.le_antisymm) h2 h2' (h1.perm h1')
  rcases h3 with ⟨rfl, rfl⟩ | ⟨l, rfl, rfl⟩ | ⟨h3, rfl⟩ <;> rcases h3' with ⟨h4, rfl⟩ | ⟨l', h4, rfl⟩ | ⟨h4, rfl⟩
  all_goals first | rfl | (cases h4; rfl) | (simp at h4) | (subst h4; simp at h3)

theorem strTuple_text {L : List String} {S : Set String} (h : Lists L S) : TupleText rep S (StdMaps.strTuple rep (StdMaps.sorted L)) := by
  have hp : (StdMaps.sorted L).Perm L := List.mergeSort_perm _ _
  refine ⟨StdMaps.sorted L, ⟨hp.nodup_iff.2 h.1, fun l => hp.mem_iff.trans (h.2 l)⟩, ?_, ?_⟩
  · have := List.pairwise_mergeSort (le := fun a b : String => decide (a ≤ b))
      (fun a b c h1 h2 => by simp only [decide_eq_true_eq] at *; exact String.le_trans h1 h2)
      (fun a b => by simpa using String.le_total a b) L
    exact this.imp fun h => by simpa using h
  · generalize StdMaps.sorted L = L'
    match L' with
    | [] => exact .inl ⟨rfl, rfl⟩
    | [l] => exact .inr (.inl ⟨l, rfl, by simp [StdMaps.strTuple, List.intercalate]⟩)
    | a :: b :: r => exact .inr (.inr ⟨by simp, by simp [StdMaps.strTuple]⟩)

theorem color_iff {hash : List Char → Nat} {w v : List Char} :
    StdMaps.colorFromHash hash w = StdMaps.colorFromHash hash v ↔ hash w % 143 = hash v % 143 := by
  unfold StdMaps.colorFromHash
  rw [colors_length, String.toList_inj]
  have hw : hash w % 143 < StdMaps.colors.length := by rw [colors_length]; exact Nat.mod_lt _ (by omega)
  have hv : hash v % 143 < StdMaps.colors.length := by rw [colors_length]; exact Nat.mod_lt _ (by omega)
  rw [List.getD_eq_getElem _ _ hw, List.getD_eq_getElem _ _ hv]
  exact colors_nodup.getElem_inj_iff

/-- **C102 (colours, exactly).** Two states, of one model or of two, have the same colour iff the hash values of the printed sorted
tuples of their labels agree modulo 143. -/
theorem C102_colour_iff {g g' : Digraph} (hM : M.WF) (hL : Labelled M) (hM' : M'.WF) (hL' : Labelled M')
    (hg : StdDrawn hash rep M g) (hg' : StdDrawn hash rep M' g') {s t : Nat} {x y : Attrs} (hx : (num s, x) ∈ g.nodes)
    (hy : (num t, y) ∈ g'.nodes) {w v : List Char} (hw : TupleText rep (labelsOf M s) w) (hv : TupleText rep (labelsOf M' t) v) :
    x.get? "color" = y.get? "color" ↔ hash w % 143 = hash v % 143 := by
  obtain ⟨L, h1, h2⟩ := Drawn.node hg hM hL (fun _ _ => ⟨_, rfl⟩) hx
  obtain ⟨L', h3, h4⟩ := Drawn.node hg' hM' hL' (fun _ _ => ⟨_, rfl⟩) hy
  cases h2; cases h4
  rw [tupleText_unique hw (strTuple_text h1), tupleText_unique hv (strTuple_text h3), ← color_iff]
  exact Option.some_inj

theorem listed_filter {arg : List Char} {L : List String} {S : Set String} (h : Lists L S) :
    Lists ((StdMaps.colorLabels arg).filter (· ∈ L)) {l | l ∈ S ∧ Listed arg l} := by
  refine ⟨(List.nodup_dedup _).filter _, fun l => ?_⟩
  rw [List.mem_filter, StdMaps.colorLabels, List.mem_dedup, List.mem_map, decide_eq_true_eq, h.2 l, and_comm]
  refine and_congr Iff.rfl ⟨?_, fun hl => ⟨l.toList, mem_splitComma.2 hl, String.ofList_toList⟩⟩
  rintro ⟨w, hw, rfl⟩
  rw [Listed, String.toList_ofList]
  exact mem_splitComma.1 hw

/-- **C102 (`switss render -col`, exactly).** With a list of labels for the colours, two states have the same colour iff the hash values
of the printed sorted tuples of those labels that they have and that are in the list agree modulo 143. -/
theorem C102_render_iff {g g' : Digraph} {arg : List Char} (hM : M.WF) (hL : Labelled M) (hM' : M'.WF) (hL' : Labelled M')
    (hg : Drawn (StdMaps.renderState hash rep arg) M g) (hg' : Drawn (StdMaps.renderState hash rep arg) M' g')
    {s t : Nat} {x y : Attrs} (hx : (num s, x) ∈ g.nodes) (hy : (num t, y) ∈ g'.nodes) {w v : List Char}
    (hw : TupleText rep {l | l ∈ labelsOf M s ∧ Listed arg l} w) (hv : TupleText rep {l | l ∈ labelsOf M' t ∧ Listed arg l} v) :
    x.get? "color" = y.get? "color" ↔ hash w % 143 = hash v % 143 := by
  obtain ⟨L, h1, h2⟩ := Drawn.node hg hM hL (fun _ _ => ⟨_, rfl⟩) hx
  obtain ⟨L', h3, h4⟩ := Drawn.node hg' hM' hL' (fun _ _ => ⟨_, rfl⟩) hy
  cases h2; cases h4
  rw [tupleText_unique hw (strTuple_text (listed_filter h1)), tupleText_unique hv (strTuple_text (listed_filter h3)), ← color_iff]
  exact Option.some_inj

/-! ### What the default pictures do not show -/

/-- two of more than 143 states have the same colour -/
theorem same_colour (hM : M.WF) (hT : M.Total) (h0 : ∀ s a i, ((s, a), i) ∈ M.idx → a = 0) (hL : Labelled M) (hN : 143 < M.N) {g : Digraph}
    (hg : Digraph.dtmc M (StdMaps.dtmcMaps hash rep) = .ok g) :
    ∃ s < M.N, ∃ t < M.N, s ≠ t ∧ ∃ x y, (num s, x) ∈ g.nodes ∧ (num t, y) ∈ g.nodes ∧ x.get? "color" = y.get? "color" := by
  obtain ⟨g', box, h1, h2, -, -, h3, -⟩ := draw_dtmc hM h0 hL (sm := StdMaps.state hash rep) fun _ _ => ⟨_, rfl⟩
  have h1' : Digraph.dtmc M (StdMaps.dtmcMaps hash rep) = .ok g' := h1
  rw [hg] at h1'; cases h1'
  have hc : ∀ s, ∃ k < 143, s < M.N → (box s).get? "color" = some (StdMaps.colors.getD k "").toList := by
    intro s
    by_cases hs : s < M.N
    · obtain ⟨ls, -, k2⟩ := h2 s hs
      rw [← Except.ok.inj k2]
      exact ⟨_, Nat.mod_lt _ (by omega), fun _ => by rw [← colors_length]; rfl⟩
    · exact ⟨0, by omega, fun h => absurd h hs⟩
  choose k hk hcol using hc
  obtain ⟨s, hs, t, ht, hne, e⟩ := Finset.exists_ne_map_eq_of_card_lt_of_maps_to (s := range M.N) (t := range 143) (f := k)
    (by simpa using hN) (fun s _ => by simpa using hk s)
  rw [Finset.mem_range] at hs ht
  have hn : ∀ s < M.N, (num s, box s) ∈ g.nodes := by
    intro s hs
    obtain ⟨a, r, h4, h5⟩ := hT s hs
    obtain rfl := h0 _ _ _ h4
    exact (h3 _).2 ⟨s, .inl ⟨r, h4, h5⟩, rfl⟩
  exact ⟨s, hs, t, ht, hne, _, _, hn s hs, hn t ht, by rw [hcol s hs, hcol t ht, e]⟩

/-- a label for every state -/
def ownLabels (n : Nat) : Dict String (List Nat) := (List.range n).map fun i => (String.ofList (num i), [i])

theorem ownLabels_fst (n : Nat) : ((ownLabels n).map Prod.fst).Nodup := by
  rw [ownLabels, List.map_map]
  refine List.nodup_range.map fun a b h => ?_
  exact fmtD_inj (String.ofList_injective h)

/-- **C102 is false (colours):** for every number `n` of states over 143 there is a chain in which no two states have the same labels, and,
whatever md5 and `repr` do, the default picture shows two of the states in the same colour. -/
theorem C102_colours_false {n : Nat} (hn : 143 < n) : ∃ M : Sys ℚ, M.WF ∧ Labelled M ∧ M.N = n ∧
    (∀ s < n, ∀ t < n, s ≠ t → labelsOf M s ≠ labelsOf M t) ∧
    ∀ (hash : List Char → Nat) (rep : String → List Char), ∃ g, Digraph.dtmc M (StdMaps.dtmcMaps hash rep) = .ok g ∧
      ∃ s < n, ∃ t < n, s ≠ t ∧ ∃ x y, (num s, x) ∈ g.nodes ∧ (num t, y) ∈ g.nodes ∧ x.get? "color" = y.get? "color" := by
  have hgood : GoodRows n (fun i => [(i, (1 : ℚ))]) := ⟨by simp, by simp, by simp, by simp⟩
  obtain ⟨M, hM, hwf, hP, hidx, hlab, -, -⟩ := rows_make hgood (IDict.mk' (ownLabels n) true)
  have hlabA : M.labA = IDict.mk' [] true := by
    have hM' := hM
    simp only [Sys.makeDTMC, if_true] at hM'
    obtain ⟨-, -, g, hg, rfl⟩ := (make_iff (dtmcIndex_fst n)).1 hM'
    rfl
  have hMN : M.N = n := by simp only [Sys.N, hP]
  have hMC : M.C = n := by simp only [Sys.C, hP]
  have hL : Labelled M := by
    refine ⟨?_, ?_, ?_, ?_⟩
    · rw [hlab]
      exact ⟨id, ownLabels n, true, [], fun _ => List.Perm.refl _, ⟨ownLabels_fst n, by simp [ownLabels]⟩, rfl⟩
    · left; rw [hlab]; rfl
    · rw [hlabA]
      exact ⟨id, [], true, [], fun _ => List.Perm.refl _, ⟨by simp, by simp⟩, rfl⟩
    · rw [hlabA]; rfl
  have h0 : ∀ s a i, ((s, a), i) ∈ M.idx → a = 0 := fun s a i h => by rw [hidx] at h; exact (mem_dtmcIndex.1 h).2.1
  have hT : M.Total := fun s hs => ⟨0, s, by rw [hidx]; exact mem_dtmcIndex.2 ⟨rfl, rfl, by omega⟩, by omega⟩
  have hmem : ∀ s < n, ∀ t < n, String.ofList (num s) ∈ labelsOf M t ↔ t = s := by
    intro s hs t ht
    rw [labelsOf, Set.mem_ofPred_eq, labelled_iff, hlab]
    unfold Has
    show t ∈ (Dict.get? (ownLabels n) _).getD [] ↔ _
    rw [Dict.get?_of_mem (v := [s]) (ownLabels_fst n) (by
      rw [ownLabels, List.mem_map]; exact ⟨s, List.mem_range.2 hs, rfl⟩)]
    simp
  refine ⟨M, hwf, hL, hMN, fun s hs t ht hne e => hne ?_, fun hash rep => ?_⟩
  · have := (hmem s hs s hs).2 rfl
    rw [e] at this
    exact ((hmem s hs t ht).1 this).symm
  · obtain ⟨g, hg, -⟩ := C102_dtmc_partial hwf h0 hL hash rep
    have := same_colour hwf hT h0 hL (by omega) hg
    rw [hMN] at this
    exact ⟨g, hg, this⟩

/-- state 0 moves to state 1 with probability 1e-11 -/
def rareP : Dok ℚ := ⟨2, 2, [((0, 0), 1 - 1/10^11), ((0, 1), 1/10^11), ((1, 1), 1)]⟩
def rareEx : Sys ℚ := mkSys rareP [((0, 0), 0), ((1, 0), 1)] (IDict.mk' [("init", [0]), ("goal", [1]), ("x", [0, 1])] true)

theorem rareEx_wf : rareEx.WF := by
  refine mkSys_wf (by simp [rareP]) ?_ ?_ (by simp) (by simp) (by decide +kernel)
  · intro e he
    simp only [rareP, List.mem_cons, List.not_mem_nil, or_false] at he
    rcases he with rfl | rfl | rfl <;> norm_num [rareP]
  · intro i hi
    have hi : i < 2 := hi
    show ∑ j ∈ Finset.range 2, _ = 1
    interval_cases i <;> simp [Finset.sum_range_succ, rareP, Dok.get, Dict.get?]

theorem rareEx_labelled : Labelled rareEx where
  labS := ⟨id, [("init", [0]), ("goal", [1]), ("x", [0, 1])], true, [], fun _ => List.Perm.refl _,
    ⟨by decide +kernel, by decide +kernel⟩, rfl⟩
  dfltS := .inl rfl
  labA := ⟨id, [], true, [], fun _ => List.Perm.refl _, ⟨by simp, by simp⟩, rfl⟩
  dfltA := rfl

theorem rareEx_zero : ∀ s a i, ((s, a), i) ∈ rareEx.idx → a = 0 := by
  intro s a i h
  have h : ((s, a), i) ∈ [((0, 0), 0), ((1, 0), 1)] := h
  simp only [List.mem_cons, Prod.mk.injEq, List.not_mem_nil, or_false] at h
  omega

/-- **C102 is false (probabilities):** a transition with positive probability is drawn with the text `0.0`. -/
theorem C102_zero_false (hash : List Char → Nat) (rep : String → List Char) :
    ∃ g, Digraph.dtmc rareEx (StdMaps.dtmcMaps hash rep) = .ok g ∧ 0 < rareEx.P.get 0 1 ∧
      ∃ x, (num 0, num 1, x) ∈ g.edges ∧ x.get? "label" = some "0.0".toList := by
  obtain ⟨g, h1, -, -, -, -, h2, -⟩ := C102_dtmc_partial rareEx_wf rareEx_zero rareEx_labelled hash rep
  have hp : 0 < rareEx.P.get 0 1 := by decide +kernel
  obtain ⟨x, h3, l, q, h4, -, -, h5⟩ := h2 0 0 1 (by decide +kernel) hp
  refine ⟨g, h1, hp, x, h3, ?_⟩
  rw [h4, h5 (by decide +kernel)]

theorem mdp_congr {A B : Sys K} {v : Maps K} (hP : A.P = B.P) (hi : A.idx = B.idx) (hS : A.labS = B.labS)
    (hA : ∀ s a, (do let ls ← A.labelsByAction (s, a); v.action s a ls) = do let ls ← B.labelsByAction (s, a); v.action s a ls) :
    Digraph.mdp A v = Digraph.mdp B v := by
  have hadd : Digraph.addState A v.state = Digraph.addState B v.state := by
    funext st w
    simp only [Digraph.addState, Sys.labelsByState, hS]
  have : Digraph.mdpStep A v = Digraph.mdpStep B v := by
    funext st e
    simp only [Digraph.mdpStep, hi, hadd]
    cases invGet? B.idx e.1.1 with
    | none => rfl
    | some sa =>
      obtain ⟨s, a⟩ := sa
      refine bind_congr fun st => bind_congr fun st => bind_congr fun t => ?_
      have := hA s a
      rw [← bind_assoc, ← bind_assoc, this]
  simp only [Digraph.mdp, this, hP]

def actP : Dok ℚ := ⟨3, 2, [((0, 0), 1/2), ((0, 1), 1/2), ((1, 1), 1), ((2, 1), 1)]⟩

/-- an MDP with two actions in state 0 whose first action has the given labels -/
def actEx (labA : Dict String (List (Nat × Nat))) : Sys ℚ :=
  { mkSys actP [((0, 0), 0), ((0, 1), 1), ((1, 0), 2)]
      (IDict.mk' [("init", [0]), ("goal", [1])] true) with labA := IDict.mk' labA true }

theorem actEx_wf (labA : Dict String (List (Nat × Nat))) : (actEx labA).WF :=
  have w : (mkSys actP [((0, 0), 0), ((0, 1), 1), ((1, 0), 2)]
      (actEx labA).labS).WF :=
    mkSys_wf (by decide +kernel) (by decide +kernel) (by decide +kernel) (by decide +kernel) (by decide +kernel) (by decide +kernel)
  ⟨w.nodup, w.range, w.pos, w.sum, w.keys, w.vals, w.graph⟩

theorem actEx_labelled {labA : Dict String (List (Nat × Nat))} (h : IsPyDict labA) : Labelled (actEx labA) where
  labS := ⟨id, [("init", [0]), ("goal", [1])], true, [], fun _ => List.Perm.refl _, ⟨by decide +kernel, by decide +kernel⟩, rfl⟩
  dfltS := .inl rfl
  labA := ⟨id, labA, true, [], fun _ => List.Perm.refl _, h, rfl⟩
  dfltA := rfl

/-- **C102 is false (labels of actions):** the default pictures of two MDPs that differ in the labels of an action, "a" and "b" in
one and "ab" in the other, are identical (if python iterates over the set in the other order, the same holds for "ba"). -/
theorem C102_actions_false : ∃ A B : Sys ℚ, A.WF ∧ Labelled A ∧ B.WF ∧ Labelled B ∧ actLabelsOf A 0 0 = {"a", "b"} ∧
    actLabelsOf B 0 0 = {"ab"} ∧ ∀ (hash : List Char → Nat) (rep : String → List Char), ∃ g,
      Digraph.mdp A (StdMaps.maps hash rep) = .ok g ∧ Digraph.mdp B (StdMaps.maps hash rep) = .ok g := by
  have hLA : Labelled (actEx [("a", [(0, 0)]), ("b", [(0, 0)])]) := actEx_labelled ⟨by decide +kernel, by decide +kernel⟩
  have hLB : Labelled (actEx [("ab", [(0, 0)])]) := actEx_labelled ⟨by decide +kernel, by decide +kernel⟩
  refine ⟨_, _, actEx_wf _, hLA, actEx_wf _, hLB, ?_, ?_, fun hash rep => ?_⟩
  · obtain ⟨ls, h1, -, h2⟩ := hLA.act 0 0
    obtain rfl : ["a", "b"] = ls := Except.ok.inj ((show _ = Except.ok ["a", "b"] from rfl).symm.trans h1)
    ext l; rw [← h2 l]; simp
  · obtain ⟨ls, h1, -, h2⟩ := hLB.act 0 0
    obtain rfl : ["ab"] = ls := Except.ok.inj ((show _ = Except.ok ["ab"] from rfl).symm.trans h1)
    ext l; rw [← h2 l]; simp
  · obtain ⟨g, hg, -⟩ := C102_mdp_partial (actEx_wf _) hLA hash rep
    refine ⟨g, hg, (mdp_congr (A := actEx [("ab", [(0, 0)])]) (B := actEx [("a", [(0, 0)]), ("b", [(0, 0)])]) rfl rfl rfl fun s a => ?_).trans hg⟩
    by_cases h : (s, a) = (0, 0)
    · cases h; rfl
    · have hnil : ∀ {d : Dict String (List (Nat × Nat))}, Labelled (actEx d) → (∀ p ∈ d, p.2 = [(0, 0)]) →
          (actEx d).labelsByAction (s, a) = .ok [] := by
        intro d hL hd
        obtain ⟨ls, h1, -, h2⟩ := hL.act s a
        rw [h1]
        refine congrArg _ (List.eq_nil_iff_forall_not_mem.2 fun l hl => ?_)
        have h3 : Has d l (s, a) := sees_iff.1 ((h2 l).1 hl)
        unfold Has at h3
        cases hg : d.get? l with
        | none => rw [hg] at h3; simp at h3
        | some v =>
          rw [hg, Option.getD_some, show v = _ from hd _ (Dict.mem_of_get? hg), List.mem_singleton] at h3
          exact h h3
      rw [hnil hLA (by simp), hnil hLB (by simp)]

/-! ### Examples -/

example : ∃ g, Digraph.dtmc rareEx (StdMaps.dtmcMaps (fun _ => 5) fun s => s.toList) = .ok g ∧
    g.nodes.map (fun x => (String.ofList x.1, (x.2.get? "label").map String.ofList)) =
      [("0", some "State 0\ninit,x"), ("1", some "State 1\ngoal,x")] ∧
    g.edges.map (fun x => (x.2.2.get? "label").map String.ofList) = [some "1.0", some "0.0", some "1.0"] := by
  have h : (match Digraph.dtmc rareEx (StdMaps.dtmcMaps (fun _ => 5) fun s => s.toList) with
      | .ok g => decide (g.nodes.map (fun x => (String.ofList x.1, (x.2.get? "label").map String.ofList)) =
          [("0", some "State 0\ninit,x"), ("1", some "State 1\ngoal,x")] ∧
          g.edges.map (fun x => (x.2.2.get? "label").map String.ofList) = [some "1.0", some "0.0", some "1.0"])
      | .error _ => false) = true := by decide +kernel
  revert h
  cases Digraph.dtmc rareEx (StdMaps.dtmcMaps (fun _ => 5) fun s => s.toList) with
  | ok g => exact fun h => ⟨g, rfl, of_decide_eq_true h⟩
  | error _ => exact fun h => nomatch h

example : ([0, 1, 25 * 10 ^ 8, 10 ^ 10, 12345, 100000, 1234567].map fun n => String.ofList (StdMaps.strDec n)) =
    ["0.0", "1e-10", "0.25", "1.0", "1.2345e-06", "1e-05", "0.0001234567"] := by decide +kernel

example : Listed "goal,init".toList "init" ∧ ¬ Listed "goal,init".toList "oal" := by
  constructor
  · exact ⟨by decide, by decide⟩
  · rintro ⟨-, h⟩; revert h; decide

/-- the hypotheses of `C102_render` and `C102_colour` hold for the two states of the chain `rareEx`, whose labels differ
but agree on "x" -/
example (hash : List Char → Nat) (rep : String → List Char) : ∃ g x y, Drawn (StdMaps.renderState hash rep "x,none".toList) rareEx g ∧
    (num 0, x) ∈ g.nodes ∧ (num 1, y) ∈ g.nodes ∧ x.get? "color" = y.get? "color" ∧ labelsOf rareEx 0 ≠ labelsOf rareEx 1 := by
  obtain ⟨g, box, h1, -, -, -, h2, -⟩ := draw_dtmc rareEx_wf rareEx_zero rareEx_labelled
    (sm := StdMaps.renderState hash rep "x,none".toList) fun _ _ => ⟨_, rfl⟩
  have hx := (h2 _).2 ⟨0, .inl ⟨0, by decide +kernel, by decide +kernel⟩, rfl⟩
  have hy := (h2 _).2 ⟨1, .inl ⟨1, by decide +kernel, by decide +kernel⟩, rfl⟩
  have hd : Drawn (StdMaps.renderState hash rep "x,none".toList) rareEx g := .inl ⟨rareEx_zero, h1⟩
  have hm : ∀ l s, l ∈ labelsOf rareEx s ↔ s ∈ (Dict.get? [("init", [0]), ("goal", [1]), ("x", [0, 1])] l).getD [] := fun l s => labelled_iff
  refine ⟨g, _, _, hd, hx, hy, (C102_render rareEx_wf rareEx_labelled rareEx_wf rareEx_labelled hd hd hx hy).2 fun l hl => ?_, fun e => ?_⟩
  · have : l.toList ∈ StdMaps.splitComma "x,none".toList := mem_splitComma.2 hl
    have : l.toList ∈ ["x".toList, "none".toList] := this
    simp only [List.mem_cons, List.not_mem_nil, or_false] at this
    rcases this with h | h
    · obtain rfl := String.toList_inj.1 h
      rw [hm, hm]; decide
    · obtain rfl := String.toList_inj.1 h
      rw [hm, hm]; decide
  · have : "init" ∈ labelsOf rareEx 1 := e ▸ (hm _ _).2 (by decide)
    exact absurd ((hm _ _).1 this) (by decide)

/-- the sets of labels in `C102_colour_iff` and `C102_render_iff` have printed tuples -/
example : TupleText (fun l => '\'' :: l.toList ++ ['\'']) {"goal", "x"} "('goal', 'x')".toList ∧
    TupleText (fun l => '\'' :: l.toList ++ ['\'']) {"x"} "('x',)".toList := by
  refine ⟨⟨["goal", "x"], ⟨by decide, fun l => by simp⟩, by decide, .inr (.inr ⟨by decide, by decide⟩)⟩,
    ⟨["x"], ⟨by decide, fun l => by simp⟩, by decide, .inr (.inl ⟨_, rfl, by decide⟩)⟩⟩

/-- and those of `C102_readable` for a box with two labels -/
example : StateText 7 {"goal", "x"} [("label", "State 7\nx,goal".toList)] ∧ ∀ l ∈ ({"goal", "x"} : Set String), ',' ∉ l.toList ∧ l ≠ "" := by
  refine ⟨⟨["x", "goal"], ⟨by decide, fun l => ?_⟩, by decide⟩, ?_⟩
  · simp [or_comm]
  · rintro l (rfl | rfl) <;> decide

end Verif.Props
