import Verif.Props.RFInfo
import Verif.Props.ExampleTools
/-!
# C04, C05, C07, C08 for constructed systems

The graph theorems are stated for `Graph.build`.  Here they are stated for every object returned by the
constructors `MDP(P, index_by_state_action, …)` and `DTMC(P, …)`, in terms of the arguments.
-/
set_option linter.unusedSectionVars false
set_option linter.unusedTactic false

namespace Verif.Props
open Verif.Model Verif.Spec Verif.Proofs

variable {K : Type} [Field K] [LinearOrder K] [IsStrictOrderedRing K]
variable {M : Sys K} {P : Dok K} {idx : Dict (Nat × Nat) Nat}

/-- `M` is what one of the constructor calls returns for the matrix `P` and the index `idx` (for a DTMC
without index the default one `(i, 0) ↦ i`) -/
inductive Constructed (P : Dok K) (M : Sys K) : Dict (Nat × Nat) Nat → Prop
  | mdp {idx : Dict (Nat × Nat) Nat} (labA : IDict String (Nat × Nat)) (labS : IDict String Nat)
      (rew : Option (List K)) : Sys.makeMDP P idx labA labS rew = .ok M → Constructed P M idx
  | dtmc {idx : Dict (Nat × Nat) Nat} (labS : IDict String Nat) (rew : Option (List K)) :
      Sys.makeDTMC P labS (some idx) rew = .ok M → Constructed P M idx
  | dtmcDefault (labS : IDict String Nat) (rew : Option (List K)) :
      Sys.makeDTMC P labS none rew = .ok M →
      Constructed P M ((List.range P.rows).map fun i => ((i, 0), i))

theorem Constructed.make (h : Constructed P M idx) :
    ∃ b labA labS rew, Sys.make b P idx labA labS rew = .ok M := by
  cases h with
  | mdp labA labS rew h => exact ⟨_, _, _, _, h⟩
  | dtmc labS rew h =>
    unfold Sys.makeDTMC at h
    split at h <;> try (simp at h; done)
    simp only at h
    split at h <;> try (simp at h; done)
    exact ⟨_, _, _, _, h⟩
  | dtmcDefault labS rew h =>
    unfold Sys.makeDTMC at h
    split at h <;> try (simp at h; done)
    exact ⟨_, _, _, _, h⟩

/-- what a constructor call establishes -/
theorem Constructed.facts (hk : (idx.map Prod.fst).Nodup) (h : Constructed P M idx) :
    M.P = P ∧ M.idx = idx ∧ (idx.map Prod.snd).Nodup ∧
      Graph.build M.N (invGet? idx) P.items (Graph.empty M.N) = .ok M.graph := by
  obtain ⟨b, labA, labS, rew, h⟩ := h.make
  obtain ⟨hv, -, g, hg, rfl⟩ := (make_iff hk).1 h
  exact ⟨rfl, rfl, hv, hg⟩

/-- the constructed object is well formed if in addition the row sums are exact and no stored entry is 0
(the constructor allows row sums that are 1 up to nine decimals, and stored zeros) -/
theorem Constructed.wf (hP : InShape P) (hk : (idx.map Prod.fst).Nodup) (h : Constructed P M idx)
    (hs : ∀ i < P.rows, ∑ j ∈ Finset.range P.cols, P.get i j = 1)
    (h0 : ∀ i j, ((i, j), (0 : K)) ∉ P.items) : M.WF := by
  obtain ⟨b, labA, labS, rew, h'⟩ := h.make
  obtain ⟨-, hc, -⟩ := (make_iff hk).1 h'
  obtain ⟨hMP, hMi, hv, hg⟩ := h.facts hk
  have h2 := ((checkCorrectness_iff P rew).1 hc).2.1
  have hC : M.C = P.rows := by simp only [Sys.C, hMP]
  have hN : M.N = P.cols := by simp only [Sys.N, hMP]
  refine ⟨by rw [hMP]; exact hP.nodup, ?_, ?_, ?_, by rw [hMi]; exact hk, by rw [hMi]; exact hv,
    by rw [hMP, hMi]; exact hg⟩
  · rw [hMP, hC, hN]; exact hP.range
  · rw [hMP]
    intro i j p hp
    rcases (h2 _ hp).1.lt_or_eq with hlt | heq
    · exact hlt
    · simp only at heq
      subst heq
      exact absurd hp (h0 i j)
  · rw [hMP, hC, hN]; exact hs

/-- **C04 for systems.** Of every constructed system, `successors(s)` and `predecessors(d)` (optionally for
one action) yield each stored entry of the given matrix once, seen from its source or destination, and
nothing else. -/
theorem C04_system (hP : InShape P) (hk : (idx.map Prod.fst).Nodup) (h : Constructed P M idx) :
    (∀ s d a p act, (d, a, p) ∈ M.graph.successors s act ↔
      (∃ i, ((s, a), i) ∈ idx ∧ ((i, d), p) ∈ P.items) ∧ (act = none ∨ act = some a)) ∧
    (∀ s d a p act, (s, a, p) ∈ M.graph.predecessors d act ↔
      (∃ i, ((s, a), i) ∈ idx ∧ ((i, d), p) ∈ P.items) ∧ (act = none ∨ act = some a)) ∧
    (∀ s act, (M.graph.successors s act).Nodup ∧ (M.graph.predecessors s act).Nodup) := by
  obtain ⟨-, -, hv, hg⟩ := h.facts hk
  have hinv : ∀ i j sa, invGet? idx i = some sa → invGet? idx j = some sa → i = j := by
    intro i j sa h1 h2
    have := List.inj_on_of_nodup_map hk (mem_of_invGet? h1) (mem_of_invGet? h2) rfl
    simpa using this
  have key := C04_neighbours hP.nodup hinv hg
  simp only [invGet?_iff hv] at key
  exact ⟨key.1, key.2.1, key.2.2.1⟩

/-- **C05 for systems.** For every constructed system and every non-empty from-set of its states,
`reachable_mask` returns a mask over the states that marks exactly those reachable along (or against)
the stored transitions by a path whose states before the last are not blocked. -/
theorem C05_system (hk : (idx.map Prod.fst).Nodup) (h : Constructed P M idx) {F B : List Nat}
    (forward : Bool) (hF : F ≠ []) (hnd : F.Nodup) (hFn : ∀ x ∈ F, x < P.cols) :
    ∃ mask, M.reachableMask F forward B = .ok mask ∧ mask.length = P.cols ∧
      ∀ x (hx : x < mask.length), mask[x] = true ↔
        ReachAvoid (fun u v =>
            if forward then ∃ i a p, ((u, a), i) ∈ idx ∧ ((i, v), p) ∈ P.items
            else ∃ i a p, ((v, a), i) ∈ idx ∧ ((i, u), p) ∈ P.items)
          {x | x ∈ F} {x | x ∈ B} x := by
  obtain ⟨hMP, -, hv, hg⟩ := h.facts hk
  have hN : M.N = P.cols := by simp only [Sys.N, hMP]
  obtain ⟨mask, h1, h2, h3⟩ := C05_reachable hg (B := B) forward hF hnd (by rw [hN]; exact hFn)
  refine ⟨mask, ?_, by rw [h2, hN], ?_⟩
  · unfold Sys.reachableMask
    rw [if_pos (by rw [hN]; exact hFn), h1]
  · simpa only [invGet?_iff hv] using h3

/-- the empty from-set is refused by the assertion of the search -/
theorem C05_system_empty (M : Sys K) (forward : Bool) (B : List Nat) :
    M.reachableMask [] forward B = .error .assertion := by
  unfold Sys.reachableMask
  rw [if_pos (by simp), C05_empty]

/-- action `a` of `s` has a stored transition to `d` -/
def Stored (P : Dok K) (idx : Dict (Nat × Nat) Nat) (s a d : Nat) : Prop :=
  ∃ i p, ((s, a), i) ∈ idx ∧ ((i, d), p) ∈ P.items

theorem matTr_stored (hv : (idx.map Prod.snd).Nodup) :
    MatTr (invGet? idx) P.items = Stored P idx := by
  funext s a d
  simp only [MatTr, Stored, invGet?_iff hv]

/-- **C07 for systems.** For every constructed system with a state and every random run of the containers,
`maximal_end_components` returns; different states share an index iff an end component contains both, and
the indices in use are `0..nr_mecs-1`. -/
theorem C07_system (hk : (idx.map Prod.fst).Nodup) (h : Constructed P M idx) (hn : 0 < P.cols)
    (ρ : Graph.Rnd) :
    ∃ mecs proper cnt, M.graph.maximalEndComponents ρ = some (mecs, proper, cnt) ∧
      (∀ x < P.cols, ∀ y < P.cols, x ≠ y → (mecs x = mecs y ↔
        ∃ E act, GraphEC (Stored P idx) E act ∧ x ∈ E ∧ y ∈ E)) ∧
      (∀ x < P.cols, mecs x < cnt) ∧ (∀ c < cnt, ∃ x < P.cols, mecs x = c) := by
  obtain ⟨hMP, -, hv, hg⟩ := h.facts hk
  have hN : M.N = P.cols := by simp only [Sys.N, hMP]
  have := C07_mec hg (by rw [hN]; exact hn) ρ
  rwa [matTr_stored hv, hN] at this

/-- **C08 for systems.** If moreover every state has a row of the matrix, the flag of the component of a
state is set iff an end component contains the state. -/
theorem C08_system (hP : InShape P) (hk : (idx.map Prod.fst).Nodup) (h : Constructed P M idx)
    (ρ : Graph.Rnd) (hact : ∀ s < P.cols, ∃ a i, ((s, a), i) ∈ idx ∧ i < P.rows)
    {mecs proper cnt} (hres : M.graph.maximalEndComponents ρ = some (mecs, proper, cnt))
    {x : Nat} (hx : x < P.cols) :
    proper (mecs x) = true ↔ ∃ E act, GraphEC (Stored P idx) E act ∧ x ∈ E := by
  obtain ⟨hMP, -, hv, hg⟩ := h.facts hk
  have hN : M.N = P.cols := by simp only [Sys.N, hMP]
  have hgood : GoodTable P M.rew := by
    obtain ⟨b, labA, labS, rew, h'⟩ := h.make
    have := ((make_accepts hP hk labA labS rew).1 ⟨M, h'⟩).1
    obtain ⟨-, -, g, -, rfl⟩ := (make_iff hk).1 h'
    exact this
  have key := C08_proper hg ρ (by
    rw [hN, matTr_stored hv]
    intro s hs
    obtain ⟨a, i, h1, h2⟩ := hact s hs
    obtain ⟨j, hj, hne⟩ : ∃ j ∈ Finset.range P.cols, P.get i j ≠ 0 := by
      by_contra hcon
      push Not at hcon
      have := hgood.sum i h2
      rw [Finset.sum_eq_zero hcon] at this
      norm_num at this
    exact ⟨a, j, i, _, h1, mem_of_get_ne hne⟩) hres (x := x) (by rw [hN]; exact hx)
  rwa [matTr_stored hv] at key

/-- the hypotheses are met by the MDP of `C09` -/
example : InShape exDok ∧ (exIdx.map Prod.fst).Nodup ∧ (∃ M, Constructed exDok M exIdx ∧ M.WF) ∧
    0 < exDok.cols ∧ (∀ s < exDok.cols, ∃ a i, ((s, a), i) ∈ exIdx ∧ i < exDok.rows) := by
  have hP : InShape exDok := by
    refine ⟨by decide, ?_⟩
    intro i j p h
    simp only [exDok, List.mem_cons, Prod.mk.injEq, List.not_mem_nil, or_false] at h ⊢
    omega
  have hk : (exIdx.map Prod.fst).Nodup := by decide
  obtain ⟨M, hM, -⟩ := exists_of_ok_and (x := Sys.makeMDP exDok exIdx (IDict.mk' [] true) (IDict.mk' [] true) none) (p := fun _ => true)
    (by decide +kernel)
  refine ⟨hP, hk, ⟨M, .mdp _ _ _ hM, Constructed.wf hP hk (.mdp _ _ _ hM) (by decide +kernel) ?_⟩, by decide, ?_⟩
  · intro i j h
    simp [exDok] at h
  · intro s hs
    have : s = 0 ∨ s = 1 := by simp only [exDok] at hs; omega
    rcases this with rfl | rfl
    · exact ⟨0, 0, by decide, by decide⟩
    · exact ⟨0, 2, by decide, by decide⟩

end Verif.Props
