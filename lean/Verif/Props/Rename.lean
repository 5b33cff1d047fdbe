import Verif.Props.RewOriginal
import Verif.Props.CertMin
import Verif.Props.LP
/-!
# C109: only the behaviour of a model matters, not its presentation

`Renames f M M' tl tl'`: the state `s` of `M` is the state `f s` of `M'`.  The actions of a state that is no target may
be numbered and named differently and may occur repeatedly; what is done in target states, further states of `M'` that
cannot be reached from states `f s`, rewards, other labels and the name of the target label do not matter.
-/
set_option linter.unusedSectionVars false

namespace Verif.Props
open Verif.Model Verif.Spec Verif.Proofs Verif.Theory Verif.Proofs.IDict Finset

variable {K : Type} [Field K] [LinearOrder K] [IsStrictOrderedRing K]

/-- row `i'` of `M'` is row `i` of `M` under the renaming -/
structure SameDist (f : Nat → Nat) (M M' : Sys K) (i i' : Nat) : Prop where
  inside : ∀ t < M.N, M'.P.get i' (f t) = M.P.get i t
  outside : ∀ u < M'.N, (∀ t < M.N, f t ≠ u) → M'.P.get i' u = 0

structure Renames (f : Nat → Nat) (M M' : Sys K) (tl tl' : String) : Prop where
  lt : ∀ s < M.N, f s < M'.N
  inj : ∀ s < M.N, ∀ t < M.N, f s = f t → s = t
  target : ∀ s < M.N, s ∈ M.labelled tl ↔ f s ∈ M'.labelled tl'
  rows : ∀ s < M.N, s ∉ M.labelled tl → ∀ a i, ((s, a), i) ∈ M.idx → i < M.C →
    ∃ a' i', ((f s, a'), i') ∈ M'.idx ∧ i' < M'.C ∧ SameDist f M M' i i'
  rows' : ∀ s < M.N, s ∉ M.labelled tl → ∀ a' i', ((f s, a'), i') ∈ M'.idx → i' < M'.C →
    ∃ a i, ((s, a), i) ∈ M.idx ∧ i < M.C ∧ SameDist f M M' i i'

/-- as `Renames`, and the actions - those of target states, too - give the same rewards -/
structure RewRenames (f : Nat → Nat) (M M' : Sys K) (tl tl' : String) : Prop where
  lt : ∀ s < M.N, f s < M'.N
  inj : ∀ s < M.N, ∀ t < M.N, f s = f t → s = t
  target : ∀ s < M.N, s ∈ M.labelled tl ↔ f s ∈ M'.labelled tl'
  rows : ∀ s < M.N, ∀ a i, ((s, a), i) ∈ M.idx → i < M.C →
    ∃ a' i', ((f s, a'), i') ∈ M'.idx ∧ i' < M'.C ∧ (M'.rew.getD []).getD i' 0 = (M.rew.getD []).getD i 0 ∧
      (s ∉ M.labelled tl → SameDist f M M' i i')
  rows' : ∀ s < M.N, ∀ a' i', ((f s, a'), i') ∈ M'.idx → i' < M'.C →
    ∃ a i, ((s, a), i) ∈ M.idx ∧ i < M.C ∧ (M'.rew.getD []).getD i' 0 = (M.rew.getD []).getD i 0 ∧
      (s ∉ M.labelled tl → SameDist f M M' i i')

theorem RewRenames.toRenames {f : Nat → Nat} {M M' : Sys K} {tl tl' : String} (h : RewRenames f M M' tl tl') :
    Renames f M M' tl tl' where
  lt := h.lt
  inj := h.inj
  target := h.target
  rows s hs hn a i h1 h2 := by
    obtain ⟨a', i', g1, g2, -, g3⟩ := h.rows s hs a i h1 h2
    exact ⟨a', i', g1, g2, g3 hn⟩
  rows' s hs hn a i h1 h2 := by
    obtain ⟨a', i', g1, g2, -, g3⟩ := h.rows' s hs a i h1 h2
    exact ⟨a', i', g1, g2, g3 hn⟩

/-- the labels in the list mean the same states -/
def LabelsAgree (f : Nat → Nat) (M M' : Sys K) (labels : Option (List String)) : Prop :=
  ∀ ls, labels = some ls → ∀ l ∈ ls, ∀ s < M.N, s ∈ M.labelled l ↔ f s ∈ M'.labelled l

section
variable {f : Nat → Nat} {M M' : Sys K} {tl tl' il il' : String} {mode : Mode}

namespace Renames

/-- the renaming as a map of the states -/
def map (h : Renames f M M' tl tl') (s : Fin M.N) : Fin M'.N := ⟨f s.1, h.lt s.1 s.2⟩

theorem map_inj (h : Renames f M M' tl tl') : Function.Injective h.map := fun s t e =>
  Fin.ext (h.inj s.1 s.2 t.1 t.2 (by simpa [map] using e))

open Classical in
theorem embeds (h : Renames f M M' tl tl') (hM : M.WF) (hM' : M'.WF) (ht : M.Total) (ht' : M'.Total) (φ : K →+*o ℝ) :
    Core.Embeds (Core.ofMDP (M'.toMDP φ) (WF.valid hM' φ ht') (univ.filter fun t => t.1 ∈ M'.labelled tl'))
      (Core.ofMDP (M.toMDP φ) (WF.valid hM φ ht) (univ.filter fun t => t.1 ∈ M.labelled tl)) h.map := by
  have key : ∀ (s : Fin M.N) (i : Fin M.C) (i' : Fin M'.C), (s.1 ∉ M.labelled tl → SameDist f M M' i.1 i'.1) →
      Core.SameRow (Core.ofMDP (M'.toMDP φ) (WF.valid hM' φ ht') (univ.filter fun t => t.1 ∈ M'.labelled tl'))
        (Core.ofMDP (M.toMDP φ) (WF.valid hM φ ht) (univ.filter fun t => t.1 ∈ M.labelled tl)) h.map s i i' := by
    intro s i i' hd
    by_cases hs : s.1 ∈ M.labelled tl
    · have hs' := (h.target s.1 s.2).1 hs
      exact ⟨by simp [Core.ofMDP, hs, hs', map], fun t => by simp [Core.ofMDP, hs, hs', map],
        fun t _ hq => absurd (by simp [Core.ofMDP, hs', map]) hq⟩
    · have hs' : f s.1 ∉ M'.labelled tl' := fun g => hs ((h.target s.1 s.2).2 g)
      refine ⟨by simp [Core.ofMDP, hs, hs', map], fun t => ?_, fun t ht hq => absurd ?_ hq⟩
      · simp [Core.ofMDP, hs, hs', map, Sys.toMDP, (hd hs).inside t.1 t.2]
      · have := (hd hs).outside t.1 t.2 fun u hu e => ht ⟨⟨u, hu⟩, Fin.ext e⟩
        simp [Core.ofMDP, hs', map, Sys.toMDP, this]
  refine ⟨h.map_inj, fun s i hi => ?_, fun s i' hi' => ?_⟩
  · obtain ⟨a, ha⟩ := (WF.mem_rows (φ := φ) hM).1 hi
    by_cases hs : s.1 ∈ M.labelled tl
    · obtain ⟨a', i', g1, g2⟩ := ht' (f s.1) (h.lt s.1 s.2)
      exact ⟨⟨i', g2⟩, (WF.mem_rows (φ := φ) hM').2 ⟨a', g1⟩, key s i _ fun g => absurd hs g⟩
    · obtain ⟨a', i', g1, g2, g3⟩ := h.rows s.1 s.2 hs a i.1 ha i.2
      exact ⟨⟨i', g2⟩, (WF.mem_rows (φ := φ) hM').2 ⟨a', g1⟩, key s i ⟨i', g2⟩ fun _ => g3⟩
  · obtain ⟨a', ha'⟩ := (WF.mem_rows (φ := φ) hM').1 hi'
    by_cases hs : s.1 ∈ M.labelled tl
    · obtain ⟨a, i, g1, g2⟩ := ht s.1 s.2
      exact ⟨⟨i, g2⟩, (WF.mem_rows (φ := φ) hM).2 ⟨a, g1⟩, key s _ i' fun g => absurd hs g⟩
    · obtain ⟨a, i, g1, g2, g3⟩ := h.rows' s.1 s.2 hs a' i'.1 ha' i'.2
      exact ⟨⟨i, g2⟩, (WF.mem_rows (φ := φ) hM).2 ⟨a, g1⟩, key s ⟨i, g2⟩ i' fun _ => g3⟩

theorem lt_of_pos {M : Sys K} (hM : M.WF) {i v : Nat} (h : 0 < M.P.get i v) : v < M.N := by
  unfold Dok.get at h
  cases g : M.P.items.get? (i, v) with
  | none => rw [g] at h; exact absurd h (lt_irrefl _)
  | some p => exact (hM.range i v p (Dict.mem_of_get? g)).2

theorem step (h : Renames f M M' tl tl') (hM : M.WF) {s u : Nat} (hs : s < M.N) (hn : s ∉ M.labelled tl) (hu : Step M s u) :
    u < M.N ∧ f s ∉ M'.labelled tl' ∧ Step M' (f s) (f u) := by
  obtain ⟨a, i, h1, h2, h3⟩ := hu
  have huN := lt_of_pos hM h3
  obtain ⟨a', i', g1, g2, g3⟩ := h.rows s hs hn a i h1 h2
  exact ⟨huN, fun g => hn ((h.target s hs).2 g), a', i', g1, g2, by rw [g3.inside u huN]; exact h3⟩

theorem step' (h : Renames f M M' tl tl') (hM' : M'.WF) {s v : Nat} (hs : s < M.N) (hn : f s ∉ M'.labelled tl')
    (hv : Step M' (f s) v) : ∃ u < M.N, f u = v ∧ s ∉ M.labelled tl ∧ Step M s u := by
  obtain ⟨a', i', h1, h2, h3⟩ := hv
  have hvN := lt_of_pos hM' h3
  have hn' : s ∉ M.labelled tl := fun g => hn ((h.target s hs).1 g)
  obtain ⟨a, i, g1, g2, g3⟩ := h.rows' s hs hn' a' i' h1 h2
  by_cases e : ∃ u < M.N, f u = v
  · obtain ⟨u, hu, rfl⟩ := e
    exact ⟨u, hu, rfl, hn', a, i, g1, g2, by rw [← g3.inside u hu]; exact h3⟩
  · rw [g3.outside v hvN fun t ht e' => e ⟨t, ht, e'⟩] at h3
    exact absurd h3 (lt_irrefl _)

/-- the states from which a target can be reached correspond -/
theorem reach (h : Renames f M M' tl tl') (hM : M.WF) (hM' : M'.WF) {s : Nat} (hs : s < M.N) :
    (∃ t ∈ M.labelled tl, Relation.ReflTransGen (Step M) s t) ↔ ∃ t ∈ M'.labelled tl', Relation.ReflTransGen (Step M') (f s) t := by
  constructor
  · rintro ⟨t, ht, hp⟩
    induction hp using Relation.ReflTransGen.head_induction_on with
    | refl => exact ⟨f t, (h.target t hs).1 ht, .refl⟩
    | @head a c hac hct ih =>
      by_cases ha : a ∈ M.labelled tl
      · exact ⟨f a, (h.target a hs).1 ha, .refl⟩
      · obtain ⟨g1, -, g2⟩ := h.step hM hs ha hac
        obtain ⟨t', g3, g4⟩ := ih g1
        exact ⟨t', g3, g4.head g2⟩
  · rintro ⟨t, ht, hp⟩
    generalize hu : f s = u at hp
    induction hp using Relation.ReflTransGen.head_induction_on generalizing s with
    | refl => exact ⟨s, (h.target s hs).2 (hu ▸ ht), .refl⟩
    | @head a c hac hct ih =>
      subst hu
      by_cases ha : f s ∈ M'.labelled tl'
      · exact ⟨s, (h.target s hs).2 ha, .refl⟩
      · obtain ⟨u, g1, g2, -, g3⟩ := h.step' hM' hs ha hac
        obtain ⟨t', g4, g5⟩ := ih g1 g2
        exact ⟨t', g4, g5.head g3⟩

/-- the states that are reached before a target correspond -/
theorem path (h : Renames f M M' tl tl') (hM : M.WF) (hM' : M'.WF) {i s : Nat} (hi : i < M.N) (hs : s < M.N) :
    Relation.ReflTransGen (fun u v => u ∉ M.labelled tl ∧ Step M u v) i s ↔
      Relation.ReflTransGen (fun u v => u ∉ M'.labelled tl' ∧ Step M' u v) (f i) (f s) := by
  constructor
  · intro hp
    induction hp using Relation.ReflTransGen.head_induction_on with
    | refl => exact .refl
    | @head a c hac hct ih =>
      obtain ⟨g1, g2, g3⟩ := h.step hM hi hac.1 hac.2
      exact (ih g1).head ⟨g2, g3⟩
  · intro hp
    generalize hu : f i = u at hp
    induction hp using Relation.ReflTransGen.head_induction_on generalizing i with
    | refl => rw [h.inj i hi s hs hu]
    | @head a c hac hct ih =>
      subst hu
      obtain ⟨u, g1, g2, g3, g4⟩ := h.step' hM' hi hac.1 hac.2
      exact (ih g1 g2).head ⟨g3, g4⟩

/-- the size of the states of `M` that become states of `A'` -/
theorem size_le (h : Renames f M M' tl tl') {labels : Option (List String)} (hl : LabelsAgree f M M' labels) {A A' : Finset Nat}
    (hA : ∀ s ∈ A, s < M.N ∧ f s ∈ A') : size M labels A ≤ size M' labels A' := by
  classical
  unfold size
  cases labels with
  | none =>
    simp only
    exact card_le_card_of_injOn f (fun s hs => (hA s hs).2) fun s hs t ht e => h.inj s (hA s hs).1 t (hA t ht).1 e
  | some ls =>
    simp only
    refine card_le_card fun l hm => ?_
    rw [mem_filter] at hm ⊢
    obtain ⟨h1, s, h2, h3⟩ := hm
    exact ⟨h1, f s, (hA s h2).2, (hl ls rfl l (by simpa using h1) s (hA s h2).1).1 h3⟩

theorem size_image_le {labels : Option (List String)} (hl : LabelsAgree f M M' labels) {A : Finset Nat}
    (hA : ∀ s ∈ A, s < M.N) : size M' labels (A.image f) ≤ size M labels A := by
  classical
  unfold size
  cases labels with
  | none =>
    simp only
    exact card_image_le
  | some ls =>
    simp only
    refine card_le_card fun l hm => ?_
    rw [mem_filter] at hm ⊢
    obtain ⟨h1, u, h2, h3⟩ := hm
    obtain ⟨s, h4, rfl⟩ := mem_image.1 h2
    exact ⟨h1, s, h4, (hl ls rfl l (by simpa using h1) s (hA s h4)).2 h3⟩

end Renames

/-- **C109.** The minimal (maximal) probability of reaching the targets through given states is the same in both models. -/
theorem C109_probabilities (h : Renames f M M' tl tl') (hM : Input M) (hM' : Input M') (φ : K →+*o ℝ) {s : Nat} (hs : s < M.N) :
    M'.pr φ mode (M'.labelled tl') (f s) = M.pr φ mode (M.labelled tl) s ∧
    ∀ A A' : Set Nat, (∀ t < M.N, t ∈ A ↔ f t ∈ A') →
      M'.prWithin φ mode A' (M'.labelled tl') (f s) = M.prWithin φ mode A (M.labelled tl) s := by
  classical
  have key : ∀ A A' : Set Nat, (∀ t < M.N, t ∈ A ↔ f t ∈ A') →
      M'.prWithin φ mode A' (M'.labelled tl') (f s) = M.prWithin φ mode A (M.labelled tl) s := by
    intro A A' hA
    have hE := h.embeds hM.wf hM'.wf hM.total hM'.total φ
    have hsub := Bridge.sub (WF.valid hM.wf φ hM.total) (univ.filter fun t => t.1 ∈ M.labelled tl)
    have hsub' := Bridge.sub (WF.valid hM'.wf φ hM'.total) (univ.filter fun t => t.1 ∈ M'.labelled tl')
    have hc := hE.cut hsub' {t | t.1 ∈ A'}
    obtain ⟨p1, p2⟩ := sys_prWithin_eq (A := A) (T := M.labelled tl) φ (WF.valid hM.wf φ hM.total) (F := univ.filter fun t => t.1 ∈ M.labelled tl) (by simp) ⟨s, hs⟩
    obtain ⟨q1, q2⟩ := sys_prWithin_eq (A := A') (T := M'.labelled tl') φ (WF.valid hM'.wf φ hM'.total) (F := univ.filter fun t => t.1 ∈ M'.labelled tl') (by simp)
      (h.map ⟨s, hs⟩)
    have eU : {t : Fin M.N | t.1 ∈ A} = {t | h.map t ∈ {t : Fin M'.N | t.1 ∈ A'}} := by
      ext t
      exact hA t.1 t.2
    simp only [Renames.map] at p1 p2 q1 q2
    cases mode with
    | min => rw [p1, q1, eU, hc.Vmin_eq (Core.cut_sub hsub') (Core.cut_sub hsub)]; rfl
    | max => rw [p2, q2, eU, hc.Vmax_eq (Core.cut_sub hsub') (Core.cut_sub hsub)]; rfl
  refine ⟨?_, key⟩
  have := key Set.univ Set.univ (by simp)
  unfold Sys.pr
  cases mode with
  | min => rwa [(prWithin_univ hM.wf hM.total φ _ _).1, (prWithin_univ hM'.wf hM'.total φ _ _).1] at this
  | max => rwa [(prWithin_univ hM.wf hM.total φ _ _).2, (prWithin_univ hM'.wf hM'.total φ _ _).2] at this

theorem labelled_init {ρ : Graph.Rnd} {ntl nfl : String} {res : Reduce.Result K} (hM : Input M)
    (hr : M.reduce ρ il tl ntl nfl = .ok res) {i j : Nat} (hi : i ∈ M.labelled il) (hj : j ∈ M.labelled il) : j = i := by
  obtain ⟨T, i0, mask, hR, hrf⟩ := reduce_spec hM.wf hM.labS.inv hM.labA.inv hr
  have e1 : j = i0 := by simpa using (mem_T hR.hi j).2 hj
  have e2 : i = i0 := by simpa using (mem_T hR.hi i).2 hi
  rw [e1, e2]

theorem labelled_lt (hM : Input M) {l : String} {s : Nat} (hs : s ∈ M.labelled l) (hr : ∃ ρ ntl nfl res, M.reduce ρ l tl ntl nfl = .ok res) :
    s < M.N := by
  obtain ⟨ρ, ntl, nfl, res, h⟩ := hr
  obtain ⟨T, i0, mask, hR, hrf⟩ := reduce_spec hM.wf hM.labS.inv hM.labA.inv h
  obtain ⟨i', hi'⟩ := hR.init_kept hrf
  have hi0 : s = i0 := by simpa using (mem_T hR.hi s).2 hs
  subst hi0
  exact hR.red.maps.col_state_lt hM.wf hi'

/-! ### answers of the library -/

variable {ρ ρ' : Graph.Rnd} {ntl nfl ntl' nfl' : String} {res res' : Reduce.Result K} {t : K} {labels : Option (List String)}
  {lpSolver solver lpSolver' solver' : Milp K → Answer K} {be be' : Backend} {r r' : ProblemResult (Subsystem K) K}

/-- two minimisation problems over sets of states with corresponding values have the same optimum -/
theorem same_optimum (h : Renames f M M' tl tl') (hl : LabelsAgree f M M' labels) {val val' : Set Nat → ℝ} {c : ℝ}
    (hval : ∀ A A' : Set Nat, (∀ t < M.N, t ∈ A ↔ f t ∈ A') → val' A' = val A)
    {k : Nat} {A : Finset Nat} (hA : size M labels A = k) (hAN : ∀ s ∈ A, s < M.N) (hAv : c ≤ val A)
    {k' : Nat} (hmin' : ∀ B : Finset Nat, c ≤ val' B → k' ≤ size M' labels B) : k' ≤ k := by
  classical
  refine le_trans (hmin' (A.image f) ?_) (le_trans (Renames.size_image_le hl hAN) hA.le)
  rw [hval A]
  · exact hAv
  · intro t ht
    simp only [coe_image, Set.mem_image, mem_coe]
    exact ⟨fun g => ⟨t, g, rfl⟩, fun ⟨s, g, e⟩ => h.inj s (hAN s g) t ht e ▸ g⟩

theorem same_optimum' (h : Renames f M M' tl tl') (hl : LabelsAgree f M M' labels) {val val' : Set Nat → ℝ} {c : ℝ}
    (hval : ∀ A A' : Set Nat, (∀ t < M.N, t ∈ A ↔ f t ∈ A') → val' A' = val A)
    {k : Nat} (hmin : ∀ A : Finset Nat, c ≤ val A → k ≤ size M labels A)
    {B : Finset Nat} (hBv : c ≤ val' B) : k ≤ size M' labels B := by
  classical
  refine le_trans (hmin ((range M.N).filter fun s => f s ∈ B) ?_) (h.size_le hl fun s hs => by simpa using hs)
  rw [← hval _ (B : Set Nat)]
  · exact hBv
  · intro t ht
    simp [ht]

/-- **C109.** `reduce` succeeds on the one model if it succeeds on the other one - provided the names of the labels and the
format are not the reason for an exception. -/
theorem C109_reduce (h : Renames f M M' tl tl') (hM : Input M) (hM' : Input M') (hr : M.reduce ρ il tl ntl nfl = .ok res)
    {i : Nat} (hi : i ∈ M.labelled il) (hi' : M'.statesByLabel il' = .ok [f i]) (hne : ntl' ≠ nfl')
    (hTN : ∀ t ∈ M'.labelled tl', t < M'.N) (h1 : ntl' ∉ M'.labS.d.keys) (h2 : nfl' ∉ M'.labS.d.keys)
    (hlS : M'.labS.dflt = true ∨ ∀ s < M'.N, ∃ l, s ∈ M'.labelled l) (hlA : M'.labA.dflt = true)
    (hrew : ∀ r, M'.rew = some r → ∀ i < M'.C, ∃ x, r[i]? = some x ∧ 0 ≤ x)
    (hd : M'.dtmc = true → ∀ s a i, ((s, a), i) ∈ M'.idx → a = 0) :
    ∃ res', M'.reduce ρ' il' tl' ntl' nfl' = .ok res' := by
  refine C13_reduce_returns hM' hne hi' ?_ hTN h1 h2 hlS hlA hrew hd
  have hiN := labelled_lt hM hi ⟨ρ, ntl, nfl, res, hr⟩
  rw [← h.reach hM.wf hM'.wf hiN]
  by_contra hn
  refine C13_reduce_unreachable (ρ := ρ) (ntl := ntl) (nfl := nfl) hM (il := il) (tl := tl) (fun j hj t ht hp => hn ?_) res hr
  rw [labelled_init hM hr hi hj] at hp
  exact ⟨t, ht, hp⟩

open Classical in
theorem kept_card (hM : Input M) (hr : M.reduce ρ il tl ntl nfl = .ok res) :
    2 ≤ res.rf.sys.N ∧ ((range M.N).filter fun s => ∃ s', res.cols.get? s = some s').card = res.rf.sys.N - 2 := by
  obtain ⟨T, i0, mask, hR, hrf⟩ := reduce_spec hM.wf hM.labS.inv hM.labA.inv hr
  refine ⟨by have := hR.red.hN; omega, ?_⟩
  obtain ⟨-, k2, k3, -⟩ := C16_reduce_maps hM hr
  rw [← card_range (res.rf.sys.N - 2)]
  refine card_bij (fun s _ => (res.cols.get? s).getD 0) (fun s hs => ?_) (fun s hs t ht e => ?_) (fun s' hs' => ?_)
  · obtain ⟨-, s', g⟩ := mem_filter.1 hs
    simp only [g, Option.getD_some, mem_range]
    exact (k2 s').2 ⟨s, g⟩
  · obtain ⟨-, s', g⟩ := mem_filter.1 hs
    obtain ⟨-, t', g'⟩ := mem_filter.1 ht
    simp only [g, g', Option.getD_some] at e
    subst e
    exact k3 _ _ _ g g'
  · obtain ⟨s, g⟩ := (k2 s').1 (mem_range.1 hs')
    exact ⟨s, mem_filter.2 ⟨mem_range.2 (hR.red.maps.col_state_lt hM.wf (Dict.mem_of_get? g)), s', g⟩, by simp [g]⟩

/-- **C109.** `reduce` keeps the same states of both models. -/
theorem C109_kept (h : Renames f M M' tl tl') (hM : Input M) (hM' : Input M') (hr : M.reduce ρ il tl ntl nfl = .ok res)
    (hr' : M'.reduce ρ' il' tl' ntl' nfl' = .ok res') {i : Nat} (hi : i ∈ M.labelled il) (hi' : f i ∈ M'.labelled il') :
    (∀ s < M.N, (∃ s', res.cols.get? s = some s') ↔ ∃ s', res'.cols.get? (f s) = some s') ∧
    (∀ u, (∃ s', res'.cols.get? u = some s') → ∃ s < M.N, f s = u) ∧ res'.rf.sys.N = res.rf.sys.N := by
  have hiN := labelled_lt hM hi ⟨ρ, ntl, nfl, res, hr⟩
  have k1 := (C16_reduce_maps hM hr).1
  have k2 := (C16_reduce_maps hM' hr').1
  have c1 : ∀ s < M.N, (∃ s', res.cols.get? s = some s') ↔ ∃ s', res'.cols.get? (f s) = some s' := by
    intro s hs
    rw [k1, k2]
    unfold Needed
    rw [h.reach hM.wf hM'.wf hs]
    refine and_congr_right fun _ => ⟨?_, ?_⟩
    · rintro ⟨j, hj, hp⟩
      rw [labelled_init hM hr hi hj] at hp
      exact ⟨f i, hi', (h.path hM.wf hM'.wf hiN hs).1 hp⟩
    · rintro ⟨j, hj, hp⟩
      rw [labelled_init hM' hr' hi' hj] at hp
      exact ⟨i, hi, (h.path hM.wf hM'.wf hiN hs).2 hp⟩
  have c2 : ∀ u, (∃ s', res'.cols.get? u = some s') → ∃ s < M.N, f s = u := by
    intro u hu
    rw [k2] at hu
    obtain ⟨-, j, hj, hp⟩ := hu
    rw [labelled_init hM' hr' hi' hj] at hp
    generalize hv : f i = v at hp
    clear hi hi' hj
    induction hp using Relation.ReflTransGen.head_induction_on generalizing i with
    | refl => exact ⟨i, hiN, hv⟩
    | @head a c hac hct ih =>
      subst hv
      obtain ⟨w, g1, g2, -, -⟩ := h.step' hM'.wf hiN hac.1 hac.2
      exact ih g1 g2
  refine ⟨c1, c2, ?_⟩
  classical
  obtain ⟨n1, l1⟩ := kept_card hM hr
  obtain ⟨n2, l2⟩ := kept_card hM' hr'
  have e : ((range M'.N).filter fun s => ∃ s', res'.cols.get? s = some s') =
      ((range M.N).filter fun s => ∃ s', res.cols.get? s = some s').image f := by
    ext u
    simp only [mem_filter, mem_range, mem_image]
    constructor
    · rintro ⟨-, hu⟩
      obtain ⟨s, hs, rfl⟩ := c2 u hu
      exact ⟨s, ⟨hs, (c1 s hs).2 hu⟩, rfl⟩
    · rintro ⟨s, ⟨hs, hk⟩, rfl⟩
      exact ⟨h.lt s hs, (c1 s hs).1 hk⟩
  rw [e, card_image_of_injOn] at l2
  · omega
  · intro s hs t ht e
    simp only [coe_filter, mem_range, Set.mem_ofPred_eq] at hs ht
    exact h.inj s hs.1 t ht.1 e

/-- **C109.** The exact method gives the same value for both models - with any sound solvers, also different ones - and never
success for the one and "infeasible" for the other. -/
theorem C109_exact (h : Renames f M M' tl tl') (hM : Input M) (hM' : Input M') (hne : ntl ≠ nfl) (hne' : ntl' ≠ nfl')
    (hr : M.reduce ρ il tl ntl nfl = .ok res) (hr' : M'.reduce ρ' il' tl' ntl' nfl' = .ok res') (φ : K →+*o ℝ)
    {i : Nat} (hi : i ∈ M.labelled il) (hi' : f i ∈ M'.labelled il') (hl : LabelsAgree f M M' labels)
    (hlp : ∀ lp, (lpSolver lp).Sound lp) (hs : ∀ m, (solver m).Sound m)
    (hlp' : ∀ lp, (lpSolver' lp).Sound lp) (hs' : ∀ m, (solver' m).Sound m)
    (hrr : r ∈ (solveIter res.rf.form t (milpExact res.rf.form lpSolver solver t mode labels be)).1)
    (hrr' : r' ∈ (solveIter res'.rf.form t (milpExact res'.rf.form lpSolver' solver' t mode labels be')).1) :
    (r.status = .success → r'.status = .success → r'.value = r.value) ∧
    (r.status = .success → r'.status ≠ .failed .infeasible) ∧ (r.status = .failed .infeasible → r'.status ≠ .success) := by
  have hiN := labelled_lt hM hi ⟨ρ, ntl, nfl, res, hr⟩
  obtain ⟨a1, a2⟩ := C86_exact hM hne hr φ hlp hs hi hrr
  obtain ⟨b1, b2⟩ := C86_exact hM' hne' hr' φ hlp' hs' hi' hrr'
  have hval := (C109_probabilities (mode := mode) h hM hM' φ hiN).2
  refine ⟨fun g g' => ?_, fun g g' => ?_, fun g g' => ?_⟩
  · obtain ⟨cert, k, A, -, e1, hA1, hA2, hA3, hA4⟩ := a1 g
    obtain ⟨cert', k', A', -, e1', hA1', hA2', hA3', hA4'⟩ := b1 g'
    have hAN : ∀ s ∈ A, s < M.N := fun s hs => by
      obtain ⟨s', g1, -⟩ := (hA1 s).1 hs
      obtain ⟨T, i0, mask, hR, -⟩ := reduce_spec hM.wf hM.labS.inv hM.labA.inv hr
      exact hR.red.maps.col_state_lt hM.wf (Dict.mem_of_get? g1)
    have k1 := same_optimum h hl hval hA2 hAN hA3 hA4'
    have k2 := same_optimum' h hl hval hA4 hA3'
    rw [hA2'] at k2
    rw [e1, e1', le_antisymm k1 k2]
  · obtain ⟨cert, k, A, -, e1, hA1, hA2, hA3, hA4⟩ := a1 g
    have := b2 g' {u | ∃ s ∈ A, s < M.N ∧ f s = u}
    rw [hval (A : Set Nat)] at this
    · exact absurd hA3 (not_le.2 this)
    · exact fun t ht => ⟨fun g => ⟨t, g, ht, rfl⟩, fun ⟨s, g, hs, e⟩ => h.inj s hs t ht e ▸ g⟩
  · obtain ⟨cert', k', A', -, e1', hA1', hA2', hA3', hA4'⟩ := b1 g'
    have := a2 g {s | f s ∈ A'}
    rw [← hval {s | f s ∈ A'} (A' : Set Nat) (fun t ht => by simp)] at this
    exact absurd hA3' (not_le.2 this)

/-- **C109.** A success of the heuristic method on the one model is not below the value of the exact method on the other one,
and the heuristic does not succeed where the exact method on the other model reports "infeasible". -/
theorem C109_heuristic {solver' : Nat → Milp K → Answer K} {n : Nat} {ini : List (Nat × List Nat) → Except Err (List (Nat × K))}
    {upd : List (Nat × List Nat) → Updater K}
    (h : Renames f M M' tl tl') (hM : Input M) (hM' : Input M') (hne : ntl ≠ nfl) (hne' : ntl' ≠ nfl')
    (hr : M.reduce ρ il tl ntl nfl = .ok res) (hr' : M'.reduce ρ' il' tl' ntl' nfl' = .ok res') (φ : K →+*o ℝ)
    {i : Nat} (hi : i ∈ M.labelled il) (hi' : f i ∈ M'.labelled il') (hl : LabelsAgree f M M' labels)
    (hl' : ∀ ls, labels = some ls → ntl' ∉ ls ∧ nfl' ∉ ls)
    (hlp : ∀ lp, (lpSolver lp).Sound lp) (hs : ∀ m, (solver m).Sound m)
    (hlp' : ∀ lp, (lpSolver' lp).Sound lp) (hs' : ∀ k m, (solver' k m).Sound m)
    (hrr : r ∈ (solveIter res.rf.form t (milpExact res.rf.form lpSolver solver t mode labels be)).1)
    (hrr' : r' ∈ (solveIter res'.rf.form t (qsHeur res'.rf.form lpSolver' solver' n ini upd t mode labels be')).1)
    (hst' : r'.status = .success) :
    r.status ≠ .failed .infeasible ∧
    (r.status = .success → ∃ k k' : Nat, r.value = some (k : K) ∧ r'.value = some (k' : K) ∧ k ≤ k') := by
  have hiN := labelled_lt hM hi ⟨ρ, ntl, nfl, res, hr⟩
  obtain ⟨a1, a2⟩ := C86_exact hM hne hr φ hlp hs hi hrr
  obtain ⟨cert', k', A', -, e1', -, hA2', hA3'⟩ := C86_heuristic hM' hne' hr' φ hlp' hs' hi' hl' hrr' hst'
  have hval := (C109_probabilities (mode := mode) h hM hM' φ hiN).2
  refine ⟨fun g => ?_, fun g => ?_⟩
  · have := a2 g {s | f s ∈ A'}
    rw [← hval {s | f s ∈ A'} (A' : Set Nat) (fun t ht => by simp)] at this
    exact absurd hA3' (not_le.2 this)
  · obtain ⟨cert, k, A, -, e1, -, -, -, hA4⟩ := a1 g
    exact ⟨k, k', e1, e1', le_trans (same_optimum' h hl hval hA4 hA3') hA2'⟩

/-- **C109.** With solvers that solve every problem the exact method succeeds on the one model exactly if it succeeds on the
other one, and the values agree. -/
theorem C109_decides (h : Renames f M M' tl tl') (hM : Input M) (hM' : Input M') (hne : ntl ≠ nfl) (hne' : ntl' ≠ nfl')
    (hr : M.reduce ρ il tl ntl nfl = .ok res) (hr' : M'.reduce ρ' il' tl' ntl' nfl' = .ok res') (φ : K →+*o ℝ)
    {i : Nat} (hi : i ∈ M.labelled il) (hi' : f i ∈ M'.labelled il') (hl : LabelsAgree f M M' labels) (ht : 0 ≤ t ∧ t ≤ 1)
    (hlp : ∀ lp, (lpSolver lp).Exact lp) (hs : ∀ m, (solver m).Exact m)
    (hlp' : ∀ lp, (lpSolver' lp).Exact lp) (hs' : ∀ m, (solver' m).Exact m)
    (hl1 : ∀ ls, labels = some ls → ntl ∉ ls ∧ nfl ∉ ls) (hl2 : ∀ ls, labels = some ls → ntl' ∉ ls ∧ nfl' ∉ ls)
    (he : mode = .max → res.rf.isEcFree = true ∧ res'.rf.isEcFree = true) :
    ∃ r r', solveIter res.rf.form t (milpExact res.rf.form lpSolver solver t mode labels .pulp) = ([r], none) ∧
      solveIter res'.rf.form t (milpExact res'.rf.form lpSolver' solver' t mode labels .pulp) = ([r'], none) ∧
      (r.status = .success ↔ r'.status = .success) ∧ (r.status = .success → r'.value = r.value) := by
  have hiN := labelled_lt hM hi ⟨ρ, ntl, nfl, res, hr⟩
  obtain ⟨r, a1, a2, -⟩ := C86_decides (mode := mode) hM hne hr φ hlp hs ht hi hl1 fun g => (he g).1
  obtain ⟨r', b1, b2, -⟩ := C86_decides (mode := mode) hM' hne' hr' φ hlp' hs' ht hi' hl2 fun g => (he g).2
  rw [(C109_probabilities (mode := mode) h hM hM' φ hiN).1, ← a2] at b2
  refine ⟨r, r', a1, b1, b2.symm, fun g => ?_⟩
  exact (C109_exact h hM hM' hne hne' hr hr' φ hi hi' hl (fun lp => (hlp lp).toSound) (fun m => (hs m).toSound)
    (fun lp => (hlp' lp).toSound) (fun m => (hs' m).toSound) (by rw [a1]; simp) (by rw [b1]; simp)).1 g (b2.2 g)

/-- **C109.** `pr_min` and `pr_max` give the same numbers for corresponding states. -/
theorem C109_solutions (h : Renames f M M' tl tl') (hM : Input M) (hM' : Input M') (hne : ntl ≠ nfl) (hne' : ntl' ≠ nfl')
    (hr : M.reduce ρ il tl ntl nfl = .ok res) (hr' : M'.reduce ρ' il' tl' ntl' nfl' = .ok res') (φ : K →+*o ℝ)
    {s d d' : Nat} (hs : s < M.N) (hd : res.cols.get? s = some d) (hd' : res'.cols.get? (f s) = some d') {lp lp' : Milp K} {x x' : Nat → K} :
    (res.rf.maxZLP = .ok lp → res'.rf.maxZLP = .ok lp' → lp.Optimal x → lp'.Optimal x' → x' d' = x d) ∧
    (res.rf.prMaxLP = .ok lp → res'.rf.prMaxLP = .ok lp' → lp.Optimal x → lp'.Optimal x' → x' d' = x d) := by
  have key : ∀ {M : Sys K} {ρ : Graph.Rnd} {il tl ntl nfl : String} {res : Reduce.Result K} {s d : Nat} {lp : Milp K} {x : Nat → K},
      Input M → ntl ≠ nfl → M.reduce ρ il tl ntl nfl = .ok res → res.cols.get? s = some d → lp.Optimal x →
      (res.rf.maxZLP = .ok lp → φ (x d) = M.prMin φ (M.labelled tl) s) ∧
      (res.rf.prMaxLP = .ok lp → φ (x d) = M.prMax φ (M.labelled tl) s) := by
    intro M ρ il tl ntl nfl res s d lp x hM hne hr hd ho
    obtain ⟨hI, -, -, -, hrf⟩ := C13_reduce_again hM hne hr
    obtain ⟨-, j, c1, c2, c3, -⟩ := C13_reduce_consistent hM hne hr
    have hi : j ∈ res.rf.sys.labelled il := ⟨[j], c1, by simp⟩
    have hit : j ∉ res.rf.sys.labelled ntl := by
      rintro ⟨ss, d1, d2⟩
      rw [c3] at d1
      cases d1
      rw [List.mem_singleton] at d2
      omega
    have hdN := ((C16_reduce_maps hM hr).2.1 d).2 ⟨s, hd⟩
    obtain ⟨p1, p2⟩ := C14_reduce_probabilities hM hne hr φ hd
    refine ⟨fun hlp => ?_, fun hlp => ?_⟩
    · obtain ⟨lp', e, -, h3⟩ := C28_pr_min hI.wf hrf φ hi hit
      rw [hlp] at e
      cases e
      rw [h3 x ho d hdN, p1]
    · obtain ⟨lp', e, -, h3⟩ := C29_pr_max hI.wf hrf φ hi hit
      rw [hlp] at e
      cases e
      rw [h3 x ho d hdN, p2]
  refine ⟨fun e1 e2 o1 o2 => (phi_strict φ).injective ?_, fun e1 e2 o1 o2 => (phi_strict φ).injective ?_⟩
  · rw [(key hM hne hr hd o1).1 e1, (key hM' hne' hr' hd' o2).1 e2]
    exact (C109_probabilities (mode := .min) h hM hM' φ hs).1
  · rw [(key hM hne hr hd o1).2 e1, (key hM' hne' hr' hd' o2).2 e2]
    exact (C109_probabilities (mode := .max) h hM hM' φ hs).1

/-- what the existence of a certificate says about the model -/
theorem certs_iff (hM : Input M) (hne : ntl ≠ nfl) (hr : M.reduce ρ il tl ntl nfl = .ok res) (φ : K →+*o ℝ)
    {i : Nat} (hi : i ∈ M.labelled il) (ht : 0 ≤ t ∧ t ≤ 1) :
    ((∃ v, (∀ x ∈ v, 0 ≤ x) ∧ check res.rf mode .ge t v 0 = .ok true) ↔ φ t ≤ M.pr φ mode (M.labelled tl) i) ∧
    ((∃ v, (∀ x ∈ v, 0 ≤ x) ∧ check res.rf mode .gt t v 0 = .ok true) ↔ φ t < M.pr φ mode (M.labelled tl) i) ∧
    ((∃ v, (∀ x ∈ v, 0 ≤ x) ∧ check res.rf .max .le t v 0 = .ok true) ↔ M.pr φ .max (M.labelled tl) i ≤ φ t) ∧
    ((∃ v, (∀ x ∈ v, 0 ≤ x) ∧ check res.rf .max .lt t v 0 = .ok true) ↔ M.pr φ .max (M.labelled tl) i < φ t) := by
  obtain ⟨hI, -, -, -, hrf⟩ := C13_reduce_again hM hne hr
  obtain ⟨-, j, c1, c2, c3, -⟩ := C13_reduce_consistent hM hne hr
  have hj : j ∈ res.rf.sys.labelled il := ⟨[j], c1, by simp⟩
  have hjt : j ∉ res.rf.sys.labelled ntl := by
    rintro ⟨ss, d1, d2⟩
    rw [c3] at d1
    cases d1
    rw [List.mem_singleton] at d2
    omega
  obtain ⟨g1, -⟩ := reduced_initial hM hne hr hi
  rw [← initial_eq hI.wf hrf hj] at g1
  obtain ⟨p1, p2⟩ := C14_reduce_probabilities hM hne hr φ g1
  unfold Model.Sys.pr
  simp only
  rw [← p2]
  obtain ⟨u1, u2⟩ := C24_max_complete hI.wf hrf φ ht.1 ht.2 hj hjt
  refine ⟨?_, ?_, ⟨fun ⟨v, _, hc⟩ => C21_max_le_sound hI.wf hrf φ hc hj, u1⟩, ⟨fun ⟨v, _, hc⟩ => C21_max_lt_sound hI.wf hrf φ hc hj, u2⟩⟩
  · cases mode with
    | min =>
      simp only
      rw [← p1]
      exact ⟨fun ⟨v, _, hc⟩ => C20_min_ge_sound hI.wf hrf φ hc hj, (C24_min_complete hI.wf hrf φ ht.1 ht.2 hj hjt).1⟩
    | max => exact ⟨fun ⟨v, hv, hc⟩ => C22_max_ge_sound_partial hI.wf hrf φ hv hc hj, (C25_max_complete hI.wf hrf φ ht.1 ht.2 hj hjt).1⟩
  · cases mode with
    | min =>
      simp only
      rw [← p1]
      exact ⟨fun ⟨v, _, hc⟩ => C20_min_gt_sound hI.wf hrf φ hc hj, (C24_min_complete hI.wf hrf φ ht.1 ht.2 hj hjt).2⟩
    | max => exact ⟨fun ⟨v, hv, hc⟩ => C22_max_gt_sound_partial hI.wf hrf φ hv hc hj, (C25_max_complete hI.wf hrf φ ht.1 ht.2 hj hjt).2⟩

/-- **C109.** For every property but upper bounds on the minimal probability: `check_farkas_certificate` accepts a non-negative vector for
the one model exactly if it accepts one for the other model. -/
theorem C109_certificates (h : Renames f M M' tl tl') (hM : Input M) (hM' : Input M') (hne : ntl ≠ nfl) (hne' : ntl' ≠ nfl')
    (hr : M.reduce ρ il tl ntl nfl = .ok res) (hr' : M'.reduce ρ' il' tl' ntl' nfl' = .ok res') (φ : K →+*o ℝ)
    {i : Nat} (hi : i ∈ M.labelled il) (hi' : f i ∈ M'.labelled il') (ht : 0 ≤ t ∧ t ≤ 1) {cmp : Sense}
    (hc : cmp = .ge ∨ cmp = .gt ∨ mode = .max) :
    (∃ v, (∀ x ∈ v, 0 ≤ x) ∧ check res.rf mode cmp t v 0 = .ok true) ↔
      ∃ v, (∀ x ∈ v, 0 ≤ x) ∧ check res'.rf mode cmp t v 0 = .ok true := by
  have hiN := labelled_lt hM hi ⟨ρ, ntl, nfl, res, hr⟩
  obtain ⟨a1, a2, a3, a4⟩ := certs_iff (mode := mode) hM hne hr φ hi ht
  obtain ⟨b1, b2, b3, b4⟩ := certs_iff (mode := mode) hM' hne' hr' φ hi' ht
  have e := (C109_probabilities (mode := mode) h hM hM' φ hiN).1
  have e' := (C109_probabilities (mode := .max) h hM hM' φ hiN).1
  rw [e] at b1 b2
  rw [e'] at b3 b4
  cases cmp with
  | ge => rw [a1, b1]
  | gt => rw [a2, b2]
  | le =>
    obtain rfl : mode = .max := by simpa using hc
    rw [a3, b3]
  | lt =>
    obtain rfl : mode = .max := by simpa using hc
    rw [a4, b4]

/-! ### rewards -/

open Classical in
theorem RewRenames.embeds0 (h : RewRenames f M M' tl tl') (hM : M.WF) (hM' : M'.WF) (ht : M.Total) (ht' : M'.Total) (φ : K →+*o ℝ) :
    Core.Embeds0 (Core.ofGain (M'.toMDP φ) (WF.valid hM' φ ht') (fun _ r => M'.rewardAt φ r.1) (M'.stateSet (M'.labelled tl')))
      (Core.ofGain (M.toMDP φ) (WF.valid hM φ ht) (fun _ r => M.rewardAt φ r.1) (M.stateSet (M.labelled tl))) h.toRenames.map := by
  have key : ∀ (s : Fin M.N) (i : Fin M.C) (i' : Fin M'.C), (M'.rew.getD []).getD i'.1 0 = (M.rew.getD []).getD i.1 0 →
      (s.1 ∉ M.labelled tl → SameDist f M M' i.1 i'.1) →
      Core.SameRow0 (Core.ofGain (M'.toMDP φ) (WF.valid hM' φ ht') (fun _ r => M'.rewardAt φ r.1) (M'.stateSet (M'.labelled tl')))
        (Core.ofGain (M.toMDP φ) (WF.valid hM φ ht) (fun _ r => M.rewardAt φ r.1) (M.stateSet (M.labelled tl))) h.toRenames.map s i i' := by
    intro s i i' hrw hd
    refine ⟨?_, fun t => ?_, fun t ht hq => absurd ?_ hq⟩
    · simp only [Core.ofGain, Sys.rewardAt, hrw]
    · by_cases hs : s.1 ∈ M.labelled tl
      · have hs' := (h.target s.1 s.2).1 hs
        simp [Core.ofGain, mem_stateSet, hs, hs', Renames.map]
      · have hs' : f s.1 ∉ M'.labelled tl' := fun g => hs ((h.target s.1 s.2).2 g)
        simp [Core.ofGain, mem_stateSet, hs, hs', Renames.map, Sys.toMDP, (hd hs).inside t.1 t.2]
    · by_cases hs : s.1 ∈ M.labelled tl
      · have hs' := (h.target s.1 s.2).1 hs
        simp [Core.ofGain, mem_stateSet, hs', Renames.map]
      · have hs' : f s.1 ∉ M'.labelled tl' := fun g => hs ((h.target s.1 s.2).2 g)
        have := (hd hs).outside t.1 t.2 fun u hu e => ht ⟨⟨u, hu⟩, Fin.ext e⟩
        simp [Core.ofGain, mem_stateSet, hs', Renames.map, Sys.toMDP, this]
  refine ⟨h.toRenames.map_inj, fun s i hi => ?_, fun s i' hi' => ?_⟩
  · obtain ⟨a, ha⟩ := (WF.mem_rows (φ := φ) hM).1 hi
    obtain ⟨a', i', g1, g2, g3, g4⟩ := h.rows s.1 s.2 a i.1 ha i.2
    exact ⟨⟨i', g2⟩, (WF.mem_rows (φ := φ) hM').2 ⟨a', g1⟩, key s i ⟨i', g2⟩ g3 g4⟩
  · obtain ⟨a', ha'⟩ := (WF.mem_rows (φ := φ) hM').1 hi'
    obtain ⟨a, i, g1, g2, g3, g4⟩ := h.rows' s.1 s.2 a' i'.1 ha' i'.2
    exact ⟨⟨i, g2⟩, (WF.mem_rows (φ := φ) hM).2 ⟨a, g1⟩, key s ⟨i, g2⟩ i' g3 g4⟩

theorem embeds0_trans {S R S' R' S'' R'' : Type} [Fintype S] [Fintype S'] [Fintype S''] {A : Core S R} {B : Core S' R'} {C : Core S'' R''}
    {e : S' → S} {d : S'' → S'} (h : Core.Embeds0 A B e) (g : Core.Embeds0 B C d) : Core.Embeds0 A C (e ∘ d) := by
  have key : ∀ s'' r'' r' r, Core.SameRow0 B C d s'' r'' r' → Core.SameRow0 A B e (d s'') r' r → Core.SameRow0 A C (e ∘ d) s'' r'' r := by
    intro s'' r'' r' r h1 h2
    refine ⟨by rw [h1.g, h2.g]; rfl, fun t => by rw [h1.Q, h2.Q]; rfl, fun t ht hq n => ?_⟩
    by_cases hte : t ∈ Set.range e
    · obtain ⟨t', rfl⟩ := hte
      have := h1.out t' (fun ⟨u, hu⟩ => ht ⟨u, by rw [Function.comp_apply, hu]⟩) (by rw [h2.Q]; exact hq) n
      rw [← h.vmax_eq, this]
    · exact h2.out t hte hq n
  refine ⟨h.inj.comp g.inj, fun s'' r'' hr => ?_, fun s'' r hr => ?_⟩
  · obtain ⟨r', g1, g2⟩ := g.left s'' r'' hr
    obtain ⟨r, g3, g4⟩ := h.left _ r' g1
    exact ⟨r, g3, key _ _ _ _ g2 g4⟩
  · obtain ⟨r', g1, g2⟩ := h.right (d s'') r hr
    obtain ⟨r'', g3, g4⟩ := g.right s'' r' g1
    exact ⟨r'', g3, key _ _ _ _ g4 g2⟩

variable {rres rres' : RRF.Result K} {ρ₂ ρ₂' : Graph.Rnd} {rr rr' : ProblemResult (RRF.Sub K) K}

/-- **C109.** `RewardReachabilityForm.reduce` succeeds on the one model if it succeeds on the other one - provided the names of the
labels and the format are not the reason for an exception. -/
theorem C109_reward_reduce (h : Renames f M M' tl tl') (hM : RewardInput M) (hM' : RewardInput M')
    (hr : RRF.reduce ρ ρ₂ M il tl = .ok rres) (φ : K →+*o ℝ) {i : Nat} (hi : i ∈ M.labelled il) (hi' : M'.statesByLabel il' = .ok [f i])
    (hTN : ∀ t ∈ M'.labelled tl', t < M'.N) (h1 : "rf_target" ∉ M'.labS.d.keys) (h2 : "rf_fail" ∉ M'.labS.d.keys)
    (hlS : M'.labS.dflt = true ∨ ∀ s < M'.N, ∃ l, s ∈ M'.labelled l) (hlA : M'.labA.dflt = true)
    {rw : List K} (hrw : M'.rew = some rw) (hd : M'.dtmc = true → ∀ s a i, ((s, a), i) ∈ M'.idx → a = 0) :
    ∃ rres', RRF.reduce ρ' ρ₂' M' il' tl' = .ok rres' := by
  have hred := rew_reduce hM hr
  have hiN := labelled_lt hM.toInput hi ⟨_, _, _, _, hred⟩
  have hk := rew_initial hM hr hi (rew_built hM hr).initL
  have hN := ((C16_reduce_maps hM.toInput hred).2.1 _).2 ⟨_, hk⟩
  have hp := (C14_reduce_probabilities hM.toInput (by decide) hred φ hk).1.symm.trans (C50_finite hM hr φ _ hN).2
  refine (C51_returns_iff hM' hi' ?_ hTN h1 h2 hlS hlA hrw hd φ).2 ?_
  · rw [← h.reach hM.wf hM'.wf hiN]
    by_contra hn
    refine C13_reduce_unreachable hM.toInput (fun j hj t ht hp => hn ?_) _ hred
    rw [labelled_init hM.toInput hred hi hj] at hp
    exact ⟨t, ht, hp⟩
  · exact ((C109_probabilities (mode := .min) h hM.toInput hM'.toInput φ hiN).1).trans hp

/-- **C109.** The extremal expected rewards collected inside a set of states are the same in both models. -/
theorem C109_rewards (h : RewRenames f M M' tl tl') (hM : RewardInput M) (hM' : RewardInput M')
    (hr : RRF.reduce ρ ρ₂ M il tl = .ok rres) (φ : K →+*o ℝ) {s s' : Nat} (hs : rres.cols.get? s = some s')
    {A A' : Set Nat} (hA : ∀ t < M.N, t ∈ A ↔ f t ∈ A') :
    M'.rewWithin φ mode A' (M'.labelled tl') (f s) = M.rewWithin φ mode A (M.labelled tl) s := by
  obtain ⟨T, i, mask, hx, hR, b, h0, -, ⟨e, he, hE⟩, -⟩ := c51 hM hr φ
  have hm := Dict.mem_of_get? hs
  have hs' : s' < rres.rrf.rf.N := by
    have := hR.red.maps.col_lt hm
    have := hR.red.hN
    unfold RF.N; omega
  have hes : (e ⟨s', hs'⟩).1 = s := hR.red.maps.col_inj (he ⟨s', hs'⟩) hm
  obtain ⟨B, hB⟩ := hx.exists_bound φ
  have hq := hx.qsub φ
  have h0' : ∀ i, 0 ≤ M'.rewardAt φ i := rewardAt_nonneg φ fun r hr => (hM'.rew r hr).2
  have hE' := embeds0_trans (h.embeds0 hM.wf hM'.wf hM.total hM'.total φ) hE
  obtain ⟨v1, v2⟩ := sys_rewWithin_eq (A := A) (U := {u : Fin rres.rrf.rf.N | (e u).1 ∈ A}) h0 hE hq.toOK
    (fun u => Iff.rfl) (Core.restrict_bound hq.toOK hB) ⟨s', hs'⟩
  obtain ⟨w1, w2⟩ := sys_rewWithin_eq (A := A') (U := {u : Fin rres.rrf.rf.N | (e u).1 ∈ A}) h0' hE' hq.toOK
    (fun u => hA _ (e u).2) (Core.restrict_bound hq.toOK hB) ⟨s', hs'⟩
  simp only [Function.comp_apply, Renames.map] at w1 w2
  rw [hes] at v1 v2 w1 w2
  cases mode with
  | min => rw [v1, w1]
  | max => rw [v2, w2]

/-- **C109.** The exact method for expected rewards gives the same value for both models, and never success for the one and
"infeasible" for the other. -/
theorem C109_reward_exact (h : RewRenames f M M' tl tl') (hM : RewardInput M) (hM' : RewardInput M')
    (hr : RRF.reduce ρ ρ₂ M il tl = .ok rres) (hr' : RRF.reduce ρ' ρ₂' M' il' tl' = .ok rres') (φ : K →+*o ℝ)
    {i : Nat} (hi : i ∈ M.labelled il) (hi' : f i ∈ M'.labelled il') (hl : LabelsAgree f M M' labels)
    (hlp : Decides rres.rrf t mode lpSolver) (hs : ∀ m, (solver m).Sound m)
    (hlp' : Decides rres'.rrf t mode lpSolver') (hs' : ∀ m, (solver' m).Sound m)
    (hrr : rr ∈ (solveIter rres.rrf.form t (milpExact rres.rrf.form lpSolver solver t mode labels be)).1)
    (hrr' : rr' ∈ (solveIter rres'.rrf.form t (milpExact rres'.rrf.form lpSolver' solver' t mode labels be')).1) :
    (rr.status = .success → rr'.status = .success → rr'.value = rr.value) ∧
    (rr.status = .success → rr'.status ≠ .failed .infeasible) ∧ (rr.status = .failed .infeasible → rr'.status ≠ .success) := by
  have hred := rew_reduce hM hr
  obtain ⟨a1, a2⟩ := C106_exact hM hr φ hlp hs hi hrr
  obtain ⟨b1, b2⟩ := C106_exact hM' hr' φ hlp' hs' hi' hrr'
  have hk := rew_initial hM hr hi (rew_built hM hr).initL
  have hval : ∀ A A' : Set Nat, (∀ t < M.N, t ∈ A ↔ f t ∈ A') → M'.rewWithin φ mode A' (M'.labelled tl') (f i) =
      M.rewWithin φ mode A (M.labelled tl) i := fun A A' hA => C109_rewards h hM hM' hr φ hk hA
  refine ⟨fun g g' => ?_, fun g g' => ?_, fun g g' => ?_⟩
  · obtain ⟨cert, k, A, -, e1, hA1, hA2, hA3, hA4⟩ := a1 g
    obtain ⟨cert', k', A', -, e1', hA1', hA2', hA3', hA4'⟩ := b1 g'
    have hAN : ∀ s ∈ A, s < M.N := fun s hs => by
      obtain ⟨s', g1, -⟩ := (hA1 s).1 hs
      obtain ⟨T, i0, mask, hR, -⟩ := reduce_spec hM.wf hM.labS.inv hM.labA.inv hred
      exact hR.red.maps.col_state_lt hM.wf (Dict.mem_of_get? g1)
    have k1 := same_optimum h.toRenames hl hval hA2 hAN hA3 hA4'
    have k2 := same_optimum' h.toRenames hl hval hA4 hA3'
    rw [hA2'] at k2
    rw [e1, e1', le_antisymm k1 k2]
  · obtain ⟨cert, k, A, -, e1, hA1, hA2, hA3, hA4⟩ := a1 g
    have := b2 g' {u | ∃ s ∈ A, s < M.N ∧ f s = u}
    rw [hval (A : Set Nat)] at this
    · exact absurd hA3 (not_le.2 this)
    · exact fun t ht => ⟨fun g => ⟨t, g, ht, rfl⟩, fun ⟨s, g, hs, e⟩ => h.inj s hs t ht e ▸ g⟩
  · obtain ⟨cert', k', A', -, e1', hA1', hA2', hA3', hA4'⟩ := b1 g'
    have := a2 g {s | f s ∈ A'}
    rw [← hval {s | f s ∈ A'} (A' : Set Nat) (fun t ht => by simp)] at this
    exact absurd hA3' (not_le.2 this)
end

/-! ### an example

`renSys` is `redSys` with other numbers for states and actions, other names for the initial and target labels, one action of the
initial state given twice, and one more state. -/

def renMap (s : Nat) : Nat := [5, 0, 3, 1, 4, 2].getD s 0
def renP : Dok ℚ := ⟨9, 7, [((0, 3), 1/3), ((0, 5), 2/3), ((1, 2), 1), ((2, 3), 1), ((3, 3), 1), ((4, 4), 1), ((5, 0), 1/2), ((5, 1), 1/2),
  ((6, 4), 1), ((7, 1), 1/2), ((7, 0), 1/2), ((8, 5), 1)]⟩
def renI : Dict (Nat × Nat) Nat := [((0, 2), 0), ((1, 0), 1), ((2, 1), 2), ((3, 0), 3), ((4, 0), 4), ((5, 7), 5), ((5, 3), 6), ((5, 4), 7), ((6, 0), 8)]
def renSys : Sys ℚ :=
  { mkSys renP renI (IDict.mk' [("begin", [5]), ("final", [3, 1, 6]), ("odd", [0, 1, 2])] true) with rew := some [3, 5, 7, 4, 6, 1, 2, 1, 9] }

theorem renSys_wf : renSys.WF :=
  have w : (mkSys renP renI renSys.labS).WF :=
    mkSys_wf (by decide +kernel) (by decide +kernel) (by decide +kernel) (by decide +kernel) (by decide +kernel) (by decide +kernel)
  ⟨w.nodup, w.range, w.pos, w.sum, w.keys, w.vals, w.graph⟩

theorem renSys_input : RewardInput renSys where
  wf := renSys_wf
  total := by
    intro s hs
    have hs : s < 7 := hs
    have : ∀ s < 7, ∃ e ∈ renSys.idx, e.1.1 = s ∧ e.2 < renSys.C := by decide +kernel
    obtain ⟨⟨⟨s', a⟩, i⟩, h1, rfl, h2⟩ := this s hs
    exact ⟨a, i, h1, h2⟩
  labS := ⟨id, [("begin", [5]), ("final", [3, 1, 6]), ("odd", [0, 1, 2])], true, [], fun _ => List.Perm.refl _,
    isPyDict_of (by decide +kernel) (by decide +kernel), rfl⟩
  labA := ⟨id, [], true, [], fun _ => List.Perm.refl _, isPyDict_of (by decide +kernel) (by decide +kernel), rfl⟩
  rew := by
    intro r hr
    cases hr
    decide +kernel

theorem redSys_reward : RewardInput redSys where
  toInput := redSys_input
  rew := by
    intro r hr
    cases hr
    decide +kernel

/-- a computable form of `SameDist`, with rewards -/
def rowOK (f : Nat → Nat) (M M' : Sys ℚ) (i i' : Nat) : Bool :=
  decide ((M'.rew.getD []).getD i' 0 = (M.rew.getD []).getD i 0) && decide (∀ t < M.N, M'.P.get i' (f t) = M.P.get i t) &&
    decide (∀ u < M'.N, (∀ t < M.N, f t ≠ u) → M'.P.get i' u = 0)

theorem rowOK_iff {f : Nat → Nat} {M M' : Sys ℚ} {i i' : Nat} (h : rowOK f M M' i i' = true) :
    (M'.rew.getD []).getD i' 0 = (M.rew.getD []).getD i 0 ∧ SameDist f M M' i i' := by
  simp only [rowOK, Bool.and_eq_true, decide_eq_true_eq] at h
  exact ⟨h.1.1, h.1.2, h.2⟩

/-- a decidable form of `RewRenames` -/
theorem rewRenames_of {f : Nat → Nat} {M M' : Sys ℚ} {tl tl' : String} {T T' : List Nat} (hT : M.statesByLabel tl = .ok T)
    (hT' : M'.statesByLabel tl' = .ok T') (h1 : ∀ s < M.N, f s < M'.N ∧ (s ∈ T ↔ f s ∈ T') ∧ ∀ t < M.N, f s = f t → s = t)
    (h2 : ∀ e ∈ M.idx, ∃ e' ∈ M'.idx, e'.1.1 = f e.1.1 ∧ e'.2 < M'.C ∧ rowOK f M M' e.2 e'.2 = true)
    (h3 : ∀ s < M.N, ∀ e' ∈ M'.idx, e'.1.1 = f s → ∃ e ∈ M.idx, e.1.1 = s ∧ e.2 < M.C ∧
      rowOK f M M' e.2 e'.2 = true) :
    RewRenames f M M' tl tl' where
  lt s hs := (h1 s hs).1
  inj s hs := (h1 s hs).2.2
  target s hs := by
    rw [← mem_T hT, ← mem_T hT']
    exact (h1 s hs).2.1
  rows s hs a i hi hC := by
    obtain ⟨⟨⟨u, a'⟩, i'⟩, g1, g2, g3, g4⟩ := h2 _ hi
    obtain rfl : u = f s := g2
    exact ⟨a', i', g1, g3, (rowOK_iff g4).1, fun _ => (rowOK_iff g4).2⟩
  rows' s hs a' i' hi hC := by
    obtain ⟨⟨⟨u, a⟩, i⟩, g1, g2, g3, g4⟩ := h3 s hs _ hi rfl
    obtain rfl : u = s := g2
    exact ⟨a, i, g1, g3, (rowOK_iff g4).1, fun _ => (rowOK_iff g4).2⟩

theorem renSys_renames : RewRenames renMap redSys renSys "goal" "final" :=
  rewRenames_of (T := [2, 3]) (T' := [3, 1, 6]) (by decide +kernel) (by decide +kernel) (by decide +kernel) (by decide +kernel) (by decide +kernel)

/-- the theorems above apply to it: for all names of new labels and all random numbers `reduce` succeeds on both models, and the
exact method gives the same answers with solvers that solve every problem -/
example (ρ : Graph.Rnd) : ∃ (res res' : Reduce.Result ℚ) (solver : Milp ℚ → Answer ℚ) (r r' : ProblemResult (Subsystem ℚ) ℚ),
    redSys.reduce exRnd "start" "goal" "target" "fail" = .ok res ∧ renSys.reduce ρ "begin" "final" "t" "f" = .ok res' ∧
    res'.rf.sys.N = res.rf.sys.N ∧
    solveIter res.rf.form (1/2) (milpExact res.rf.form solver solver (1/2) .min (some ["odd"]) .pulp) = ([r], none) ∧
    solveIter res'.rf.form (1/2) (milpExact res'.rf.form solver solver (1/2) .min (some ["odd"]) .pulp) = ([r'], none) ∧
    (r.status = .success ↔ r'.status = .success) ∧ (r.status = .success → r'.value = r.value) := by
  obtain ⟨res, h, -⟩ := redSys_ok
  have hR := renSys_renames.toRenames
  have hi : 0 ∈ redSys.labelled "start" := ⟨[0], by decide +kernel, by simp⟩
  have hi' : renMap 0 ∈ renSys.labelled "begin" := ⟨[5], by decide +kernel, by simp [renMap]⟩
  obtain ⟨res', h'⟩ := C109_reduce (ρ' := ρ) (ntl' := "t") (nfl' := "f") hR redSys_input renSys_input.toInput h hi (il' := "begin") (by decide +kernel) (by decide)
    (by
      intro t ht
      rw [← mem_T (T := [3, 1, 6]) (by decide +kernel)] at ht
      have : ∀ t ∈ [3, 1, 6], t < renSys.N := by decide +kernel
      exact this t ht)
    (by decide +kernel) (by decide +kernel) (Or.inl rfl) rfl renSys_input.rew' (fun g => nomatch g)
  obtain ⟨solver, hs⟩ := exists_exact ℚ
  have hl : LabelsAgree renMap redSys renSys (some ["odd"]) := by
    intro ls e l hl s hs
    cases e
    obtain rfl : l = "odd" := by simpa using hl
    rw [← mem_T (T := [1, 3, 5]) (M := redSys) (by decide +kernel), ← mem_T (T := [0, 1, 2]) (M := renSys) (by decide +kernel)]
    have : ∀ s < redSys.N, s ∈ [1, 3, 5] ↔ renMap s ∈ [0, 1, 2] := by decide +kernel
    exact this s hs
  obtain ⟨r, r', g1, g2, g3, g4⟩ := C109_decides (t := 1/2) (mode := .min) hR redSys_input renSys_input.toInput (by decide) (by decide) h h' ratR hi hi' hl
    (by norm_num) hs hs hs hs (by intro ls e; cases e; decide) (by intro ls e; cases e; decide) (fun g => nomatch g)
  exact ⟨res, res', solver, r, r', h, h', (C109_kept hR redSys_input renSys_input.toInput h h' hi hi').2.2, g1, g2, g3, g4⟩

/-- `rwSys` with reversed states, one action given twice and one more state; the runs of the exact method agree -/
def rwnMap (s : Nat) : Nat := [3, 2, 0].getD s 0
def rwnSys : Sys ℚ :=
  { mkSys ⟨6, 4, [((0, 0), 1), ((1, 3), 1), ((2, 0), 1), ((3, 2), 1), ((4, 0), 1/2), ((4, 2), 1/2), ((5, 2), 1)]⟩
      [((0, 1), 0), ((1, 0), 1), ((2, 0), 2), ((3, 0), 3), ((3, 1), 4), ((3, 2), 5)]
      (IDict.mk' [("begin", [3]), ("final", [0])] true) with rew := some [5, 8, 3, 2, 1, 2] }

theorem rwnSys_input : RewardInput rwnSys where
  wf :=
    have w : (mkSys rwnSys.P rwnSys.idx rwnSys.labS).WF :=
      mkSys_wf (by decide +kernel) (by decide +kernel) (by decide +kernel) (by decide +kernel) (by decide +kernel) (by decide +kernel)
    ⟨w.nodup, w.range, w.pos, w.sum, w.keys, w.vals, w.graph⟩
  total := by
    intro s hs
    have hs : s < 4 := hs
    have : ∀ s < 4, ∃ e ∈ rwnSys.idx, e.1.1 = s ∧ e.2 < rwnSys.C := by decide +kernel
    obtain ⟨⟨⟨s', a⟩, i⟩, h1, rfl, h2⟩ := this s hs
    exact ⟨a, i, h1, h2⟩
  labS := ⟨id, [("begin", [3]), ("final", [0])], true, [], fun _ => List.Perm.refl _,
    isPyDict_of (by decide +kernel) (by decide +kernel), rfl⟩
  labA := ⟨id, [], true, [], fun _ => List.Perm.refl _, isPyDict_of (by decide +kernel) (by decide +kernel), rfl⟩
  rew := by
    intro r hr
    cases hr
    decide +kernel

theorem rwnSys_renames : RewRenames rwnMap (rwSys 5) rwnSys "goal" "final" :=
  rewRenames_of (T := [2]) (T' := [0]) (by decide +kernel) (by decide +kernel) (by decide +kernel) (by decide +kernel) (by decide +kernel)

example : ∃ (res res' : RRF.Result ℚ) (solver : Milp ℚ → Answer ℚ) (r r' : ProblemResult (RRF.Sub ℚ) ℚ),
    RRF.reduce exRnd exRnd (rwSys 5) "start" "goal" = .ok res ∧ RRF.reduce exRnd exRnd rwnSys "begin" "final" = .ok res' ∧
    r ∈ (solveIter res.rrf.form 2 (milpExact res.rrf.form solver solver 2 .min none .pulp)).1 ∧
    r' ∈ (solveIter res'.rrf.form 2 (milpExact res'.rrf.form solver solver 2 .min none .pulp)).1 ∧
    (r.status = .success → r'.status = .success → r'.value = r.value) := by
  have h5 : (0 : ℚ) ≤ 5 := by norm_num
  obtain ⟨res, h⟩ := rwSys_ok h5 exRnd exRnd
  have hM := rwSys_input h5
  have hi : (0 : Nat) ∈ (rwSys 5).labelled "start" := ⟨[0], rwSys_start 5, by simp⟩
  have hi' : rwnMap 0 ∈ rwnSys.labelled "begin" := ⟨[3], by decide +kernel, by simp [rwnMap]⟩
  obtain ⟨res', h'⟩ := C109_reward_reduce (ρ' := exRnd) (ρ₂' := exRnd) rwnSys_renames.toRenames hM rwnSys_input h ratR hi (il' := "begin") (by decide +kernel)
    (by
      intro t ht
      rw [← mem_T (T := [0]) (by decide +kernel)] at ht
      have : ∀ t ∈ [0], t < rwnSys.N := by decide +kernel
      exact this t ht)
    (by decide +kernel) (by decide +kernel) (Or.inl rfl) rfl rfl (fun g => nomatch g)
  obtain ⟨solver, hs⟩ := exists_exact ℚ
  obtain ⟨r, hr, -⟩ := C106_decides (mode := .min) (t := 2) (labels := none) hM h ratR hs hs zero_le_two (Or.inl rfl) hi (fun _ g => nomatch g)
  obtain ⟨r', hr', -⟩ := C106_decides (mode := .min) (t := 2) (labels := none) rwnSys_input h' ratR hs hs zero_le_two (Or.inl rfl) hi' (fun _ g => nomatch g)
  have m : r ∈ (solveIter res.rrf.form 2 (milpExact res.rrf.form solver solver 2 .min none .pulp)).1 := by rw [hr]; simp
  have m' : r' ∈ (solveIter res'.rrf.form 2 (milpExact res'.rrf.form solver solver 2 .min none .pulp)).1 := by rw [hr']; simp
  exact ⟨res, res', solver, r, r', h, h', m, m', (C109_reward_exact rwnSys_renames hM rwnSys_input h h' ratR hi hi' (by intro ls e; cases e)
    (decides_of_exact (rew_built hM h) ratR hs) (fun m => (hs m).toSound) (decides_of_exact (rew_built rwnSys_input h') ratR hs)
    (fun m => (hs m).toSound) m m').1⟩
end Verif.Props
