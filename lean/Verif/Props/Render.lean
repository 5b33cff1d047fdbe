import Verif.Model.Render
import Verif.Props.StdMaps
import Verif.Props.Argparse
/-!
# C122: `switss render`
-/
set_option linter.unusedSectionVars false

namespace Verif.Props
open Verif.Model Verif.Model.Cli Verif.Model.Files Verif.Model.Render Verif.Model.Argparse Verif.Spec Verif.Proofs Verif.Proofs.IDict Verif.Proofs.IOTra Verif.Proofs.Argparse

variable {F K : Type} [DecidableEq F] [Field K] [LinearOrder K] [IsStrictOrderedRing K] [FloorRing K]
variable {w : World F K} {v : Viz} {d : Disk F} {kind : Kind} {path : String} {out col : Option String} {lab tra : List Char} {M : Sys K}

/-! ## the picture -/

/-- the picture of a chain: one box per state, with its number and its labels; one edge per transition, with its probability -/
def ShowsChain (M : Sys K) (g : Digraph) : Prop :=
  (g.nodes.map Prod.fst).Nodup ∧ (g.edges.map fun e => (e.1, e.2.1)).Nodup ∧
  (∀ s < M.N, ∃ x, (num s, x) ∈ g.nodes) ∧
  (∀ n x, (n, x) ∈ g.nodes → ∃ s < M.N, n = num s ∧ StateText s (labelsOf M s) x) ∧
  (∀ s r t, ((s, 0), r) ∈ M.idx → 0 < M.P.get r t → ∃ x, (num s, num t, x) ∈ g.edges ∧ EdgeText (M.P.get r t) x) ∧
  ∀ m n x, (m, n, x) ∈ g.edges → ∃ s r t, m = num s ∧ n = num t ∧ ((s, 0), r) ∈ M.idx ∧ 0 < M.P.get r t ∧ EdgeText (M.P.get r t) x

/-- the picture of an MDP, in which there is besides one box per action with its number and its labels -/
def ShowsMDP (M : Sys K) (g : Digraph) : Prop :=
  (g.nodes.map Prod.fst).Nodup ∧ (g.edges.map fun e => (e.1, e.2.1)).Nodup ∧
  (∀ s a r, ((s, a), r) ∈ M.idx → r < M.C → (∃ x, (num s, x) ∈ g.nodes) ∧ (∃ x, (dash s a, x) ∈ g.nodes) ∧
    ∃ x, (num s, dash s a, x) ∈ g.edges) ∧
  (∀ n x, (n, x) ∈ g.nodes → (∃ s < M.N, n = num s ∧ StateText s (labelsOf M s) x) ∨
    ∃ s a r, ((s, a), r) ∈ M.idx ∧ r < M.C ∧ n = dash s a ∧ ActionText a (actLabelsOf M s a) x) ∧
  (∀ s a r t, ((s, a), r) ∈ M.idx → 0 < M.P.get r t → ∃ x y, (dash s a, num t, x) ∈ g.edges ∧ EdgeText (M.P.get r t) x ∧ (num t, y) ∈ g.nodes) ∧
  ∀ m n x, (m, n, x) ∈ g.edges → (∃ s a r, ((s, a), r) ∈ M.idx ∧ r < M.C ∧ m = num s ∧ n = dash s a ∧ x.get? "label" = none) ∨
    ∃ s a r t, m = dash s a ∧ n = num t ∧ ((s, a), r) ∈ M.idx ∧ 0 < M.P.get r t ∧ EdgeText (M.P.get r t) x

def Shows (kind : Kind) (M : Sys K) (g : Digraph) : Prop :=
  (kind = .dtmc → ShowsChain M g) ∧ (kind = .mdp → ShowsMDP M g)

/-- the labels that matter for the colour of a state: all, or those in the list given with `-col` -/
def Colours (col : Option String) (l : String) : Prop := ∀ arg, col = some arg → Listed arg.toList l

/-- states that have the same labels, as far as these matter, have the same colour -/
def Coloured (col : Option String) (M : Sys K) (g : Digraph) : Prop :=
  ∀ s t x y, (num s, x) ∈ g.nodes → (num t, y) ∈ g.nodes → (∀ l, Colours col l → (l ∈ labelsOf M s ↔ l ∈ labelsOf M t)) →
    x.get? "color" = y.get? "color"

theorem labelled_of_load (h : loadModel kind lab tra = .ok M) : Labelled M :=
  have hF := loadModel_spec h
  ⟨labelMap_of_inv hF.labS hF.noInv, .inl hF.dfltS, labelMap_of_inv hF.labA hF.noInvA, hF.dfltA⟩

theorem graph_of_load (h : loadModel kind lab tra = .ok M) (hx : ExactRows M) (v : Viz) (col : Option String) :
    ∃ g, Render.graph v kind col M = .ok g ∧ Shows kind M g ∧ Coloured col M g := by
  have hF := loadModel_spec h
  have hM := hF.wf_of_sum hx
  have hL := labelled_of_load h
  obtain ⟨sm, hsm, htot, htext, hcol⟩ : ∃ sm : Nat → List String → Except Err Attrs,
      sm = (match col with
        | none => StdMaps.state v.hash v.rep
        | some arg => StdMaps.renderState v.hash v.rep arg.toList) ∧
      (∀ s ls, ∃ x, sm s ls = .ok x) ∧
      (∀ s ls S x, Lists ls S → sm s ls = .ok x → StateText s S x) ∧
      ∀ g, Drawn sm M g → Coloured col M g := by
    cases col with
    | none =>
      refine ⟨_, rfl, fun _ _ => ⟨_, rfl⟩, fun s ls S x h1 h2 => stateText h1 h2, fun g hg s t x y hx hy he => ?_⟩
      refine C102_colour hM hL hM hL (stdDrawn_iff.2 hg) (stdDrawn_iff.2 hg) hx hy ?_
      ext l
      exact he l fun _ e => by cases e
    | some arg =>
      refine ⟨_, rfl, fun _ _ => ⟨_, rfl⟩, fun s ls S x h1 h2 => renderText h1 h2, fun g hg s t x y hx hy he => ?_⟩
      exact (C102_render hM hL hM hL hg hg hx hy).2 fun l hl => he l fun _ e => by cases e; exact hl
  have hlt : ∀ t, ((∃ a r, ((t, a), r) ∈ M.idx ∧ r < M.C) ∨ ∃ r, 0 < M.P.get r t) → t < M.N := by
    rintro t (⟨a, r, h1, h2⟩ | ⟨r, h1⟩)
    · exact WF.state_lt hM h1 h2
    · obtain ⟨p, hp⟩ := (WF.get_pos_iff hM).1 h1
      exact (hM.range _ _ _ hp).2
  cases kind with
  | mdp =>
    obtain ⟨g, box, act, h1, h2, h2', h3, h4, h5, h6⟩ := draw_mdp hM hL htot
    refine ⟨g, ?_, ⟨fun e => (by cases e), fun _ => ⟨h3, h4, fun s a r k1 k2 => ⟨⟨_, (h5 _).2 (.inl ⟨s, .inl ⟨a, r, k1, k2⟩, rfl⟩)⟩,
      ⟨_, (h5 _).2 (.inr ⟨s, a, r, k1, k2, rfl⟩)⟩, ⟨_, (h6 _).2 (.inl ⟨s, a, r, k1, k2, rfl⟩)⟩⟩, fun n x hx => ?_, fun s a r t k1 k2 =>
      ⟨_, _, (h6 _).2 (.inr ⟨s, a, r, t, k1, k2, rfl⟩), edgeText k2.le, (h5 _).2 (.inl ⟨t, .inr ⟨r, k2⟩, rfl⟩)⟩, fun m n x hx => ?_⟩⟩,
      hcol g (.inr h1)⟩
    · rw [← h1, hsm]; rfl
    · rcases (h5 _).1 hx with ⟨s, k1, k2⟩ | ⟨s, a, r, k1, k2, k3⟩
      · cases k2
        obtain ⟨ls, k3, k4⟩ := h2 s (hlt _ k1)
        exact .inl ⟨s, hlt _ k1, rfl, htext _ _ _ _ k3 k4⟩
      · cases k3
        exact .inr ⟨s, a, r, k1, k2, rfl, actText (h2' s a)⟩
    · rcases (h6 _).1 hx with ⟨s, a, r, k1, k2, k3⟩ | ⟨s, a, r, t, k1, k2, k3⟩
      · cases k3
        exact .inl ⟨s, a, r, k1, k2, rfl, rfl, rfl⟩
      · cases k3
        exact .inr ⟨s, a, r, t, rfl, rfl, k1, k2, edgeText k2.le⟩
  | dtmc =>
    obtain ⟨hCN, hidx⟩ := hF.chain rfl
    have h0 : ∀ s a i, ((s, a), i) ∈ M.idx → a = 0 := by
      intro s a i hi
      rw [hidx, List.mem_map] at hi
      obtain ⟨j, -, e⟩ := hi
      cases e
      rfl
    obtain ⟨g, box, h1, h2, h3, h4, h5, h6⟩ := draw_dtmc hM h0 hL htot
    refine ⟨g, ?_, ⟨fun _ => ⟨h3, h4, fun s hs => ?_, fun n x hx => ?_, fun s r t k1 k2 =>
      ⟨_, (h6 _).2 ⟨s, r, t, k1, k2, rfl⟩, edgeText k2.le⟩, fun m n x hx => ?_⟩, fun e => by cases e⟩, hcol g (.inl ⟨h0, h1⟩)⟩
    · rw [← h1, hsm]; rfl
    · exact ⟨_, (h5 _).2 ⟨s, .inl ⟨s, by rw [hidx]; exact List.mem_map.2 ⟨s, List.mem_range.2 hs, rfl⟩, by rw [hCN]; exact hs⟩, rfl⟩⟩
    · obtain ⟨s, k1, k2⟩ := (h5 _).1 hx
      cases k2
      have hs := hlt s (k1.imp (fun ⟨r, k⟩ => ⟨0, r, k⟩) id)
      obtain ⟨ls, k3, k4⟩ := h2 s hs
      exact ⟨s, hs, rfl, htext _ _ _ _ k3 k4⟩
    · obtain ⟨s, r, t, k1, k2, k3⟩ := (h6 _).1 hx
      cases k3
      exact ⟨s, r, t, rfl, rfl, k1, k2, edgeText k2.le⟩

/-! ## the files -/

/-- the path for the picture without the ending `.svg`, by default that of the model followed by `-render` -/
def picturePath (path : String) (out : Option String) : String :=
  match out with
  | some o => o
  | none => path ++ "-render"

theorem picturePath_eq : out.getD (path ++ "-render") = picturePath path out := by cases out <;> rfl

theorem run_of_load (h1 : d (w.loc (path ++ ".lab")) = some lab) (h2 : d (w.loc (path ++ ".tra")) = some tra)
    (h : loadModel kind lab tra = .ok M) {g : Digraph} (hg : Render.graph v kind col M = .ok g) :
    Render.run w v kind path out col d = draw w v (picturePath path out) g d := by
  simp only [Render.run, readModel_ok h1 h2, h, hg, picturePath_eq]

/-- every run: nothing happens, or a graph is drawn -/
theorem run_cases (w : World F K) (v : Viz) (kind : Kind) (path : String) (out col : Option String) (d : Disk F) :
    (∃ o, o ≠ .exit .done ∧ ∀ d' : Disk F, d' (w.loc (path ++ ".lab")) = d (w.loc (path ++ ".lab")) →
        d' (w.loc (path ++ ".tra")) = d (w.loc (path ++ ".tra")) → Render.run w v kind path out col d' = (d', o)) ∨
    ∃ g, ∀ d' : Disk F, d' (w.loc (path ++ ".lab")) = d (w.loc (path ++ ".lab")) →
        d' (w.loc (path ++ ".tra")) = d (w.loc (path ++ ".tra")) →
        Render.run w v kind path out col d' = draw w v (picturePath path out) g d' := by
  have hof : ∀ e, Exit.of e ≠ .done := by intro e; cases e <;> simp [Exit.of]
  have hr : ∀ d' : Disk F, d' (w.loc (path ++ ".lab")) = d (w.loc (path ++ ".lab")) →
      d' (w.loc (path ++ ".tra")) = d (w.loc (path ++ ".tra")) → readModel w d' path = readModel w d path := by
    intro d' e1 e2
    simp only [readModel, e1, e2]
  cases hm : readModel w d path with
  | error o =>
    refine .inl ⟨o, ?_, fun d' e1 e2 => by simp only [Render.run, hr d' e1 e2, hm]⟩
    rw [readModel] at hm
    split at hm
    · cases hm; simp
    · split at hm
      · cases hm
      · split at hm <;> cases hm
        · simp [hof]
        · simp
  | ok x =>
    obtain ⟨lab, tra⟩ := x
    cases hl : loadModel (K := K) kind lab tra with
    | error e => exact .inl ⟨.exit (.of e), by simp [hof], fun d' e1 e2 => by simp only [Render.run, hr d' e1 e2, hm, hl]⟩
    | ok M =>
      cases hg : Render.graph v kind col M with
      | error e => exact .inl ⟨.exit (.of e), by simp [hof], fun d' e1 e2 => by simp only [Render.run, hr d' e1 e2, hm, hl, hg]⟩
      | ok g => exact .inr ⟨g, fun d' e1 e2 => by simp only [Render.run, hr d' e1 e2, hm, hl, hg, picturePath_eq]⟩

/-- **C122, the picture.** For every model that can be read from its files (with exact row sums), `switss render` hands a graph to
graphviz that shows exactly the states, actions and transitions with their labels and probabilities, in which states have the same
colour if they agree on the labels given with `-col` (by default: on all labels).  If graphviz makes a text of it and the files can
be written, the command ends well and `output.svg` has this text.  Missing: the file `output` is removed (`C122_removed_false`). -/
theorem C122_picture_partial (h1 : d (w.loc (path ++ ".lab")) = some lab) (h2 : d (w.loc (path ++ ".tra")) = some tra)
    (h : loadModel kind lab tra = .ok M) (hx : ExactRows M) {o : String} (ho : o = picturePath path out)
    (hw : w.canWrite o = true) (hw' : w.canWrite (o ++ ".svg") = true) (hl : w.loc (o ++ ".svg") ≠ w.loc o) :
    ∃ g, Shows kind M g ∧ Coloured col M g ∧
      ∀ svg, v.dot (v.source g) = some svg →
        (Render.run w v kind path out col d).2 = .exit .done ∧
        (Render.run w v kind path out col d).1 (w.loc (o ++ ".svg")) = some svg ∧
        ∀ f, f ≠ w.loc o → f ≠ w.loc (o ++ ".svg") → (Render.run w v kind path out col d).1 f = d f := by
  subst ho
  obtain ⟨g, hg, hs, hc⟩ := graph_of_load h hx v col
  refine ⟨g, hs, hc, fun svg hd => ?_⟩
  rw [run_of_load h1 h2 h hg]
  simp only [draw, hw, hw', hd, if_true, store]
  exact ⟨trivial, by simp only [if_neg hl], fun f k1 k2 => by simp only [if_neg k1, if_neg k2]⟩

/-- **C122, a picture under a new name.** If no file has the name `output`, a successful run changes only `output.svg`. -/
theorem C122_only_svg {o : String} (ho : o = picturePath path out) (hn : d (w.loc o) = none)
    (hdone : (Render.run w v kind path out col d).2 = .exit .done) {f : F} (hf : f ≠ w.loc (o ++ ".svg")) :
    (Render.run w v kind path out col d).1 f = d f := by
  subst ho
  rcases run_cases w v kind path out col d with ⟨o, ho, hr⟩ | ⟨g, hr⟩
  · rw [hr d rfl rfl]
  · rw [hr d rfl rfl] at hdone ⊢
    unfold draw at hdone ⊢
    split at hdone
    · rename_i hw
      simp only [hw, if_true] at hdone ⊢
      split at hdone
      · cases hdone
      · rename_i svg hd
        split at hdone
        · rename_i hw'
          simp only [hw', if_true, store]
          by_cases e : f = w.loc (picturePath path out)
          · rw [if_pos e, e, hn]
          · rw [if_neg e, if_neg hf, if_neg e]
        · cases hdone
    · cases hdone

/-- **C122, other files.** Whatever happens, no file is touched other than `output` and `output.svg`. -/
theorem C122_frame (w : World F K) (v : Viz) (kind : Kind) (path : String) (out col : Option String) (d : Disk F) {f : F}
    (h1 : f ≠ w.loc (picturePath path out)) (h2 : f ≠ w.loc (picturePath path out ++ ".svg")) :
    (Render.run w v kind path out col d).1 f = d f := by
  rcases run_cases w v kind path out col d with ⟨o, -, hr⟩ | ⟨g, hr⟩
  · rw [hr d rfl rfl]
  · rw [hr d rfl rfl]
    unfold draw
    split
    · split
      · simp only [store, if_neg h1]
      · split
        · simp only [store, if_neg h1, if_neg h2]
        · simp only [store, if_neg h1]
    · rfl

/-- **C122, faults.** If a file of the model is missing, or the texts are no model, or `output` cannot be written, the command ends
with an exception and changes nothing. -/
theorem C122_faults (h : d (w.loc (path ++ ".lab")) = none ∨ d (w.loc (path ++ ".tra")) = none ∨
      (∃ lab tra, d (w.loc (path ++ ".lab")) = some lab ∧ d (w.loc (path ++ ".tra")) = some tra ∧
        ∀ M : Sys K, loadModel kind lab tra ≠ .ok M) ∨ w.canWrite (picturePath path out) = false) :
    (Render.run w v kind path out col d).1 = d ∧ (Render.run w v kind path out col d).2 ≠ .exit .done := by
  rcases run_cases w v kind path out col d with ⟨o, ho, hr⟩ | ⟨g, hr⟩
  · rw [hr d rfl rfl]; exact ⟨rfl, ho⟩
  have hof : ∀ e, Exit.of e ≠ .done := by intro e; cases e <;> simp [Exit.of]
  rcases h with h | h | ⟨lab, tra, h1, h2, h3⟩ | h
  · simp only [Render.run, readModel, h]; exact ⟨trivial, by simp⟩
  · cases hl : d (w.loc (path ++ ".lab")) with
    | none => simp only [Render.run, readModel, hl]; exact ⟨trivial, by simp⟩
    | some lab =>
      simp only [Render.run, readModel, h, hl]
      cases parseLabelFile lab with
      | error e => exact ⟨rfl, by simp [hof]⟩
      | ok x => exact ⟨rfl, by simp⟩
  · simp only [Render.run, readModel_ok h1 h2]
    cases hl : loadModel (K := K) kind lab tra with
    | error e => exact ⟨rfl, by simp [hof]⟩
    | ok M => exact absurd hl (h3 M)
  · rw [hr d rfl rfl, draw, h]
    exact ⟨rfl, by simp⟩

/-- **C122, what a run depends on.** The files of the model decide which files get which text or are removed, and how the command
ends. -/
theorem C122_depends (w : World F K) (v : Viz) (kind : Kind) (path : String) (out col : Option String) (d : Disk F) :
    ∃ (u : F → Option (Option (List Char))) (o : Outcome), ∀ d' : Disk F,
      d' (w.loc (path ++ ".lab")) = d (w.loc (path ++ ".lab")) → d' (w.loc (path ++ ".tra")) = d (w.loc (path ++ ".tra")) →
      (Render.run w v kind path out col d').2 = o ∧ ∀ f, (Render.run w v kind path out col d').1 f = (u f).getD (d' f) := by
  rcases run_cases w v kind path out col d with ⟨o, -, hr⟩ | ⟨g, hr⟩
  · exact ⟨fun _ => none, o, fun d' e1 e2 => by rw [hr d' e1 e2]; exact ⟨rfl, fun _ => rfl⟩⟩
  · suffices hs : ∃ (u : F → Option (Option (List Char))) (o : Outcome), ∀ d' : Disk F,
        (draw w v (picturePath path out) g d').2 = o ∧ ∀ f, (draw w v (picturePath path out) g d').1 f = (u f).getD (d' f) by
      obtain ⟨u, o, hu⟩ := hs
      exact ⟨u, o, fun d' e1 e2 => by rw [hr d' e1 e2]; exact hu d'⟩
    by_cases hw : w.canWrite (picturePath path out) = true
    · cases hd : v.dot (v.source g) with
      | none =>
        refine ⟨fun f => if f = w.loc (picturePath path out) then some (some (v.source g)) else none, .osError, fun d' => ?_⟩
        simp only [draw, hw, hd, if_true, store]
        exact ⟨trivial, fun f => by split <;> rfl⟩
      | some svg =>
        by_cases hw' : w.canWrite (picturePath path out ++ ".svg") = true
        · refine ⟨fun f => if f = w.loc (picturePath path out) then some none
            else if f = w.loc (picturePath path out ++ ".svg") then some (some svg) else none, .exit .done, fun d' => ?_⟩
          simp only [draw, hw, hw', hd, if_true, store]
          refine ⟨trivial, fun f => ?_⟩
          by_cases e : f = w.loc (picturePath path out)
          · simp only [if_pos e]; rfl
          · by_cases e' : f = w.loc (picturePath path out ++ ".svg")
            · simp only [if_neg e, if_pos e']; rfl
            · simp only [if_neg e, if_neg e']; rfl
        · refine ⟨fun f => if f = w.loc (picturePath path out) then some (some (v.source g)) else none, .osError, fun d' => ?_⟩
          simp only [draw, hw, hw', hd, if_true, store]
          refine ⟨rfl, fun f => ?_⟩
          simp only [Bool.false_eq_true, if_false, store]
          split <;> rfl
    · refine ⟨fun _ => none, .osError, fun d' => ?_⟩
      simp only [draw, hw]
      exact ⟨rfl, fun f => rfl⟩

/-! ## false of the code -/

/-- **C122, negative.** After a successful run there is no file with the name `output` any more, whatever was in it before. -/
theorem C122_removed_false (hdone : (Render.run w v kind path out col d).2 = .exit .done) :
    (Render.run w v kind path out col d).1 (w.loc (picturePath path out)) = none := by
  rcases run_cases w v kind path out col d with ⟨o, ho, hr⟩ | ⟨g, hr⟩
  · rw [hr d rfl rfl] at hdone
    exact absurd hdone ho
  · rw [hr d rfl rfl] at hdone ⊢
    unfold draw at hdone ⊢
    split at hdone
    · rename_i hw
      simp only [hw, if_true] at hdone ⊢
      split at hdone
      · cases hdone
      · rename_i svg hd
        split at hdone
        · rename_i hw'
          simp only [hw', if_true]
        · cases hdone
    · cases hdone

/-- **C122, negative.** In particular, with the transition file of the model as output, a successful run removes this file, and the
next command on the model ends with an `OSError`. -/
theorem C122_model_removed_false (hdone : (Render.run w v kind path (some (path ++ ".tra")) col d).2 = .exit .done)
    (hl : w.loc (path ++ ".tra" ++ ".svg") ≠ w.loc (path ++ ".lab")) (hl' : w.loc (path ++ ".tra") ≠ w.loc (path ++ ".lab")) :
    Files.run w (.info kind path) (Render.run w v kind path (some (path ++ ".tra")) col d).1 =
      ⟨(Render.run w v kind path (some (path ++ ".tra")) col d).1, [], .osError⟩ := by
  have h0 := C122_removed_false hdone
  have h1 : (Render.run w v kind path (some (path ++ ".tra")) col d).1 (w.loc (path ++ ".lab")) = d (w.loc (path ++ ".lab")) :=
    C122_frame w v kind path _ col d (Ne.symm hl') (Ne.symm hl)
  cases hr : d (w.loc (path ++ ".lab")) with
  | none => exact absurd hdone (C122_faults (.inl hr)).2
  | some lab =>
    cases hp : parseLabelFile lab with
    | error e =>
      exfalso
      refine (C122_faults (w := w) (v := v) (kind := kind) (path := path) (out := some (path ++ ".tra")) (col := col) (d := d) ?_).2 hdone
      cases ht : d (w.loc (path ++ ".tra")) with
      | none => exact .inr (.inl rfl)
      | some tra =>
        refine .inr (.inr (.inl ⟨lab, tra, hr, rfl, fun M hM => ?_⟩))
        cases kind
        · simp only [loadModel, Sys.fromFileMDP, hp, bind, Except.bind] at hM; cases hM
        · simp only [loadModel, Sys.fromFileDTMC, hp, bind, Except.bind] at hM; cases hM
    | ok x => exact (C113_missing (.info kind path) _).2.1 lab x (h1.trans hr) hp h0

/-- **C122, negative.** If graphviz fails (for instance because the program `dot` is not installed), the text of the graph is left
in the file `output`, whatever was in it before. -/
theorem C122_left_false (h1 : d (w.loc (path ++ ".lab")) = some lab) (h2 : d (w.loc (path ++ ".tra")) = some tra)
    (h : loadModel kind lab tra = .ok M) (hx : ExactRows M) (hw : w.canWrite (picturePath path out) = true)
    (hd : ∀ t, v.dot t = none) : ∃ g, Shows kind M g ∧ (Render.run w v kind path out col d).2 = .osError ∧
      (Render.run w v kind path out col d).1 (w.loc (picturePath path out)) = some (v.source g) := by
  obtain ⟨g, hg, hs, -⟩ := graph_of_load h hx v col
  refine ⟨g, hs, ?_⟩
  rw [run_of_load h1 h2 h hg]
  simp only [draw, hw, hd, if_true, store]
  exact ⟨trivial, trivial⟩

/-! ## the command line -/

/-- **C122, the command line.** `switss render` with the documented options in any order and spelling draws the picture of the
model with the given output and list of labels; `--view` does not matter for the files. -/
theorem C122_command_line (w : World F K) (v : Viz) (d : Disk F) {items : List Item} (h : Line .render items) {kind : Kind} {path : Word}
    (hc : CompleteArg items kind path) : Render.script w v ("render".toList :: lineOf items) d =
      ((Render.run w v kind (String.ofList path) (theOne? items "-o" "--output") (theOne? items "-col" "--coloring") d).1, [],
        .done (Render.run w v kind (String.ofList path) (theOne? items "-o" "--output") (theOne? items "-col" "--coloring") d).2) := by
  obtain ⟨hp1, hp2⟩ := attrs_pos h hc.1
  have hk := kind_of hp1
  have hpath : (attrs .render items).str "modelpath" "" = String.ofList path := by rw [NS.str, hp2]
  have o := str_of (dflt := "") (attrs_opt h (y := ("output", "-o", "--output")) (by decide) (by decide)) (given_opt h (y := ("-o", "--output")) (by decide))
  have co := str_of (dflt := "") (attrs_opt h (y := ("coloring", "-col", "--coloring")) (by decide) (by decide))
    (given_opt h (y := ("-col", "--coloring")) (by decide))
  change Render.script w v (docName .render :: lineOf items) d = _
  simp only [Render.script, C114_runs w d h hc, asked, Option.map_none, parse_line h hc, hk, hpath, o.2, co.2]

/-- **C122, the other commands** are not affected: the whole script does what C114 says. -/
theorem C122_other_commands (w : World F K) (v : Viz) (d : Disk F) {c : Cmd} (hne : c ≠ .render) {items : List Item} (h : Line c items)
    {kind : Kind} {path : Word} (hc : CompleteArg items kind path) : ∃ x, asked w.rd c items kind path = some x ∧
      Render.script w v (docName c :: lineOf items) d = ((Files.run w x d).disk, (Files.run w x d).verdicts, .done (Files.run w x d).outcome) := by
  have : ∃ x, asked w.rd c items kind path = some x := by
    cases c <;> first | exact absurd rfl hne | exact ⟨_, rfl⟩
  obtain ⟨x, hx⟩ := this
  refine ⟨x, hx, ?_⟩
  simp only [Render.script, C114_runs w d h hc, hx, Option.map_some]

/-! ## examples -/

/-- the source of a graph consists of the texts of its boxes; `dot` repeats it -/
def exViz : Viz where
  hash := List.length
  rep := String.toList
  source g := g.nodes.flatMap fun n => (n.2.get? "label").getD []
  dot := some

/-- the hypotheses of `C122_picture_partial`, `C122_only_svg` and `C122_left_false` -/
example : ∃ M : Sys ℚ, loadModel .mdp rfLab rfTra = .ok M ∧ ExactRows M ∧ exDisk "m.lab" = some rfLab ∧ exDisk "m.tra" = some rfTra ∧
    exDisk (picturePath "m" none) = none ∧ (exWorld "").canWrite "m-render" = true := by
  have h : (match loadModel (K := ℚ) .mdp rfLab rfTra with
    | .ok M => nineTest M.P
    | .error _ => false) = true := by decide +kernel
  cases hM : loadModel (K := ℚ) .mdp rfLab rfTra with
  | error e => rw [hM] at h; cases h
  | ok M =>
    rw [hM] at h
    exact ⟨M, rfl, C75_nine_decimals hM (nine_of_test h), by decide +kernel, by decide +kernel, by decide +kernel, by decide +kernel⟩

example : (Render.run (exWorld "") exViz .mdp "m" none (some "init") exDisk).2 = .exit .done ∧
    ((Render.run (exWorld "") exViz .mdp "m" none none exDisk).1 "m-render.svg").isSome = true ∧
    (Render.run (exWorld "") exViz .mdp "m" none none exDisk).1 "m-render" = none ∧
    (Render.run (exWorld "") exViz .mdp "m" (some "m.tra") none exDisk).2 = .exit .done ∧
    (Render.run (exWorld "") exViz .mdp "m" (some "m.tra") none exDisk).1 "m.tra" = none := by decide +kernel

/-- a command line for `C122_command_line` -/
example : Line .render [.pos "mdp".toList, .pos "m".toList, .sep "-col".toList "-col".toList ["init".toList]] ∧
    CompleteArg [.pos "mdp".toList, .pos "m".toList, .sep "-col".toList "-col".toList ["init".toList]] .mdp "m".toList := by
  refine ⟨⟨?_, ?_, by decide +kernel, ?_⟩, by decide +kernel, ?_⟩
  · intro i hi
    simp only [List.mem_cons, List.not_mem_nil, or_false] at hi
    rcases hi with rfl | rfl | rfl
    · exact .inl (by decide +kernel)
    · exact .inl (by decide +kernel)
    · exact ⟨⟨.one, by decide +kernel, rfl⟩, .inl rfl, fun v hv => by rw [List.mem_singleton.1 hv]; exact .inl (by decide +kernel)⟩
  · exact trivial
  · have : [Item.pos "mdp".toList, .pos "m".toList, .sep "-col".toList "-col".toList ["init".toList]].filterMap (givesOpt "-tol" "--tolerance") = [] := by
      decide +kernel
    rw [this]
    exact nofun
  · have : [Item.pos "mdp".toList, .pos "m".toList, .sep "-col".toList "-col".toList ["init".toList]].filterMap (givesOpt "-tol" "--tolerance") = [] := by
      decide +kernel
    rw [this]
    exact nofun

end Verif.Props
