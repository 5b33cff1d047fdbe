import Verif.Proofs.Mec
/-! # C06, C07, C08: strongly connected components and maximal end components -/
namespace Verif.Props
open Verif.Model Verif.Spec Verif.Proofs

variable {K : Type}

/-- transitions of the input matrix: action `a` of state `s` may lead to `d` -/
def MatTr (inv : Nat → Option (Nat × Nat)) (items : List ((Nat × Nat) × K)) (s a d : Nat) : Prop :=
  ∃ i p, inv i = some (s, a) ∧ ((i, d), p) ∈ items

theorem gtr_eq {n : Nat} {inv : Nat → Option (Nat × Nat)} {items : List ((Nat × Nat) × K)}
    {g : Graph K} (h : Graph.build n inv items (Graph.empty n) = .ok g) :
    gtr g = MatTr inv items := by
  obtain ⟨hn, hs, hp, hr⟩ := build_spec items _ _ h
  have hs : ∀ s, g.succ s = items.filterMap (outOf inv s) := by simpa [Graph.empty] using hs
  funext s a d
  simp only [gtr, MatTr, hs, List.mem_filterMap, eq_iff_iff]
  constructor
  · rintro ⟨p, ⟨⟨i, d'⟩, p'⟩, hi, ho⟩
    simp only [outOf] at ho
    split at ho
    · rename_i s' a' e
      split at ho
      · rename_i es; subst es
        simp only [Option.some.injEq, Prod.mk.injEq] at ho
        obtain ⟨rfl, rfl, rfl⟩ := ho
        exact ⟨i, p', e, hi⟩
      · cases ho
    · cases ho
  · rintro ⟨i, p, e, hi⟩
    exact ⟨p, _, hi, by simp [outOf, e]⟩

theorem build_range {n : Nat} {inv : Nat → Option (Nat × Nat)} {items : List ((Nat × Nat) × K)}
    {g : Graph K} (h : Graph.build n inv items (Graph.empty n) = .ok g) :
    g.n = n ∧ (∀ x t, t ∈ g.succ x → t.1 < g.n) ∧ ∀ s a d, MatTr inv items s a d → s < n ∧ d < n := by
  obtain ⟨hn, hs, hp, hr⟩ := build_spec items _ _ h
  have hn : g.n = n := hn
  have hrange : ∀ s a d, MatTr inv items s a d → s < n ∧ d < n := by
    rintro s a d ⟨i, p, e, hi⟩
    obtain ⟨s', a', e', h1, h2⟩ := hr _ hi
    simp only [e, Option.some.injEq, Prod.mk.injEq] at e'
    obtain ⟨rfl, rfl⟩ := e'
    exact ⟨h1, h2⟩
  refine ⟨hn, fun x t ht => ?_, hrange⟩
  have : gtr g x t.2.1 t.1 := ⟨t.2.2, ht⟩
  rw [gtr_eq h] at this
  rw [hn]; exact (hrange _ _ _ this).2

/-- **C06.** The component numbering computed on any set of states (a treap filled in any order):
two states get the same number iff they reach each other through actions whose successors all lie in
the set; the numbers in use are exactly `1..count`.  Any random keys, any memory contents, any order
of edges. -/
theorem C06_scc {n : Nat} {inv : Nat → Option (Nat × Nat)} {items : List ((Nat × Nat) × K)}
    {g : Graph K} (h : Graph.build n inv items (Graph.empty n) = .ok g)
    (hkey : Nat → Int) {X : List Nat} (hX : ∀ x ∈ X, x < n) (rnd : Nat → Nat → Int)
    (low0 : Nat → Nat) (on0 : Nat → Bool) :
    let r := g.sccOf (Graph.mkTreap hkey X) rnd low0 on0
    (∀ x ∈ X, ∀ y ∈ X, (r.1 x = r.1 y ↔ Mutual (StayEdge (MatTr inv items) {x | x ∈ X}) x y)) ∧
    (∀ x ∈ X, 1 ≤ r.1 x ∧ r.1 x ≤ r.2) ∧ (∀ c, 1 ≤ c → c ≤ r.2 → ∃ x ∈ X, r.1 x = c) := by
  obtain ⟨hn, hg, _⟩ := build_range h
  obtain ⟨h1, h2⟩ := mkTreap_spec hkey X
  have := sccOf_spec g h1 (fun x hx => by rw [hn]; exact hX x ((h2 x).1 hx)) hg rnd low0 on0
  simp only [h2, gtr_eq h] at this
  exact this

/-- **C07.** `maximal_end_components` terminates; two different states get the same index iff some end
component contains both; the indices in use are exactly `0..nr_mecs-1`. -/
theorem C07_mec {n : Nat} {inv : Nat → Option (Nat × Nat)} {items : List ((Nat × Nat) × K)}
    {g : Graph K} (h : Graph.build n inv items (Graph.empty n) = .ok g) (hn : 0 < n) (ρ : Graph.Rnd) :
    ∃ mecs proper cnt, g.maximalEndComponents ρ = some (mecs, proper, cnt) ∧
      (∀ x < n, ∀ y < n, x ≠ y → (mecs x = mecs y ↔
        ∃ E act, GraphEC (MatTr inv items) E act ∧ x ∈ E ∧ y ∈ E)) ∧
      (∀ x < n, mecs x < cnt) ∧ (∀ c < cnt, ∃ x < n, mecs x = c) := by
  obtain ⟨hgn, hg, hr⟩ := build_range h
  obtain ⟨ret, pm, cnt, h1, h2, h3, h4, _⟩ := mec_spec g ρ (by omega) hg
  rw [hgn] at h2 h3 h4
  refine ⟨ret, pm, cnt, h1, ?_, h3, h4⟩
  intro x hx y hy hne
  rw [h2 x hx y hy hne, gtr_eq h]
  constructor
  · rintro ⟨E, act, hE, _, r⟩; exact ⟨E, act, hE, r⟩
  · rintro ⟨E, act, hE, r⟩
    refine ⟨E, act, hE, fun s hs => ?_, r⟩
    obtain ⟨a, ha⟩ := hE.act_nonempty s hs
    obtain ⟨d, hd⟩ := hE.avail s hs a ha
    exact (hr s a d hd).1

/-- **C08.** If every state has an outgoing transition, the flag of the component of `x` is set iff
`x` belongs to some end component. -/
theorem C08_proper {n : Nat} {inv : Nat → Option (Nat × Nat)} {items : List ((Nat × Nat) × K)}
    {g : Graph K} (h : Graph.build n inv items (Graph.empty n) = .ok g) (ρ : Graph.Rnd)
    (hact : ∀ x < n, ∃ a d, MatTr inv items x a d) {mecs proper cnt}
    (hres : g.maximalEndComponents ρ = some (mecs, proper, cnt)) {x : Nat} (hx : x < n) :
    proper (mecs x) = true ↔ ∃ E act, GraphEC (MatTr inv items) E act ∧ x ∈ E := by
  obtain ⟨hgn, hg, hr⟩ := build_range h
  obtain ⟨ret, pm, cnt', h1, _, _, _, h5⟩ := mec_spec g ρ (by omega) hg
  rw [h1] at hres
  simp only [Option.some.injEq, Prod.mk.injEq] at hres
  obtain ⟨rfl, rfl, rfl⟩ := hres
  rw [hgn, gtr_eq h] at h5
  rw [h5 x hx]
  constructor
  · rintro (⟨E, act, hE, _, r⟩ | hno)
    · exact ⟨E, act, hE, r⟩
    · obtain ⟨a, d, hd⟩ := hact x hx
      exact absurd hd (hno a d)
  · rintro ⟨E, act, hE, r⟩
    refine Or.inl ⟨E, act, hE, fun s hs => ?_, r⟩
    obtain ⟨a, ha⟩ := hE.act_nonempty s hs
    obtain ⟨d, hd⟩ := hE.avail s hs a ha
    exact (hr s a d hd).1

/-- Without that hypothesis the flag is also set for states that have no transition at all. -/
theorem C08_actionless {n : Nat} {inv : Nat → Option (Nat × Nat)} {items : List ((Nat × Nat) × K)}
    {g : Graph K} (h : Graph.build n inv items (Graph.empty n) = .ok g) (ρ : Graph.Rnd)
    {mecs proper cnt} (hres : g.maximalEndComponents ρ = some (mecs, proper, cnt)) {x : Nat}
    (hx : x < n) (hno : ∀ a d, ¬ MatTr inv items x a d) : proper (mecs x) = true := by
  obtain ⟨hgn, hg, hr⟩ := build_range h
  obtain ⟨ret, pm, cnt', h1, _, _, _, h5⟩ := mec_spec g ρ (by omega) hg
  rw [h1] at hres
  simp only [Option.some.injEq, Prod.mk.injEq] at hres
  obtain ⟨rfl, rfl, rfl⟩ := hres
  rw [hgn, gtr_eq h] at h5
  exact (h5 x hx).2 (Or.inr hno)

/-- four states: 0 and 1 form an end component through actions 0 (action 1 of state 0 leaves), 2 is
transient, 3 loops -/
def mecInv : Nat → Option (Nat × Nat) := fun i => [(0, 0), (0, 1), (1, 0), (2, 0), (3, 0)][i]?
def mecItems : List ((Nat × Nat) × Nat) :=
  [((0, 1), 1), ((1, 2), 1), ((1, 0), 1), ((2, 0), 1), ((3, 3), 1), ((4, 3), 1)]
def mecRnd : Graph.Rnd := ⟨fun j => j, fun i j => (i + j) % 3, fun _ _ j => -j, fun _ => 0, fun _ _ => 7,
  fun _ _ => true, fun _ j => j, fun _ j => j⟩

example : ∃ g, Graph.build 4 mecInv mecItems (Graph.empty 4) = .ok g ∧
    (∃ r, g.maximalEndComponents mecRnd = some r ∧ r.1 0 = r.1 1 ∧ r.1 2 ≠ r.1 0 ∧ r.1 3 ≠ r.1 2 ∧
      r.2.1 (r.1 0) = true ∧ r.2.1 (r.1 2) = false ∧ r.2.1 (r.1 3) = true ∧ r.2.2 = 3) :=
  ⟨_, rfl, _, rfl, by decide⟩

example : ∀ x < 4, ∃ a d, MatTr mecInv mecItems x a d := by
  intro x hx
  match x with
  | 0 => exact ⟨0, 1, 0, 1, rfl, by decide⟩
  | 1 => exact ⟨0, 0, 2, 1, rfl, by decide⟩
  | 2 => exact ⟨0, 3, 3, 1, rfl, by decide⟩
  | 3 => exact ⟨0, 3, 4, 1, rfl, by decide⟩

end Verif.Props
