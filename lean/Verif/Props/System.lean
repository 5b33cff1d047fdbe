import Verif.Proofs.System
import Mathlib.Algebra.Order.Ring.Rat
import Mathlib.Algebra.Field.Rat
import Mathlib.Tactic.Linarith
import Mathlib.Tactic.NormNum
/-! # C09: constructors accept exactly the well-formed tables -/
namespace Verif.Props
open Verif.Model Verif.Proofs Finset

variable {K : Type} [Field K] [LinearOrder K] [IsStrictOrderedRing K]

/-- invariant of every scipy `dok_matrix`: one entry per position, positions inside the shape -/
structure InShape (P : Dok K) : Prop where
  nodup : (P.items.map Prod.fst).Nodup
  range : ∀ i j p, ((i, j), p) ∈ P.items → i < P.rows ∧ j < P.cols

/-- every row sums to one up to nine decimals, entries are in `[0,1]`, every row has a non-negative
reward (if rewards are given) -/
structure GoodTable (P : Dok K) (rew : Option (List K)) : Prop where
  sum : ∀ i < P.rows, |∑ j ∈ range P.cols, P.get i j - 1| ≤ 1 / (2 * 10 ^ 9)
  entry : ∀ i < P.rows, ∀ j < P.cols, 0 ≤ P.get i j ∧ P.get i j ≤ 1
  rew : ∀ r, rew = some r → ∀ i < P.rows, ∃ x, r[i]? = some x ∧ 0 ≤ x

/-- different pairs have different rows, and every row belongs to a pair whose state is a column -/
structure GoodIndex (P : Dok K) (idx : Dict (Nat × Nat) Nat) : Prop where
  inj : ∀ e ∈ idx, ∀ e' ∈ idx, e.2 = e'.2 → e = e'
  cover : ∀ i < P.rows, ∃ s a, ((s, a), i) ∈ idx ∧ s < P.cols

theorem make_accepts {dtmc : Bool} {P : Dok K} (hP : InShape P) {idx : Dict (Nat × Nat) Nat}
    (hk : (Dict.keys idx).Nodup) (labA : IDict String (Nat × Nat)) (labS : IDict String Nat)
    (rew : Option (List K)) :
    (∃ M, Sys.make dtmc P idx labA labS rew = .ok M) ↔ GoodTable P rew ∧ GoodIndex P idx := by
  have hrs : ∀ i, P.rowSum i = ∑ j ∈ range P.cols, P.get i j :=
    rowSum_eq hP.nodup fun e he => (hP.range e.1.1 e.1.2 e.2 he).2
  have hent : (∀ e ∈ P.items, 0 ≤ e.2 ∧ e.2 ≤ 1) ↔
      ∀ i < P.rows, ∀ j < P.cols, 0 ≤ P.get i j ∧ P.get i j ≤ 1 := by
    constructor
    · intro h i _ j _
      by_cases h0 : P.get i j = 0
      · rw [h0]; exact ⟨le_rfl, zero_le_one⟩
      · exact h _ (mem_of_get_ne h0)
    · rintro h ⟨⟨i, j⟩, p⟩ he
      have hr := hP.range i j p he
      have := h i hr.1 j hr.2
      rwa [get_of_mem hP.nodup he] at this
  have hidx : idx.Nodup := List.Nodup.of_map _ hk
  constructor
  · rintro ⟨M, hM⟩
    obtain ⟨hv, hc, g, hg, -⟩ := (make_iff hk).1 hM
    obtain ⟨h1, h2, h3⟩ := (checkCorrectness_iff P rew).1 hc
    have hT : GoodTable P rew :=
      ⟨fun i hi => by rw [← hrs]; exact h1 i hi, hent.1 h2, h3⟩
    refine ⟨hT, fun e he e' he' h => List.inj_on_of_nodup_map hv he he' h, fun i hi => ?_⟩
    obtain ⟨j, hj, hne⟩ : ∃ j ∈ range P.cols, P.get i j ≠ 0 := by
      by_contra hcon
      push Not at hcon
      have := hT.sum i hi
      rw [Finset.sum_eq_zero hcon] at this
      norm_num at this
    obtain ⟨s, a, h5, h6, _⟩ := (build_spec P.items _ _ hg).2.2.2 _ (mem_of_get_ne hne)
    exact ⟨s, a, mem_of_invGet? h5, h6⟩
  · rintro ⟨hT, hI⟩
    have hv : (idx.map Prod.snd).Nodup :=
      (List.nodup_map_iff_inj_on hidx).2 fun x hx y hy h => hI.inj x hx y hy h
    obtain ⟨g, hg⟩ := build_ok (n := P.cols) (inv := invGet? idx) P.items (Graph.empty P.cols) (by
      rintro ⟨⟨i, j⟩, p⟩ he
      have hr := hP.range i j p he
      obtain ⟨s, a, h5, h6⟩ := hI.cover i hr.1
      exact ⟨s, a, (invGet?_iff hv).2 h5, h6, hr.2⟩)
    refine ⟨_, (make_iff hk).2 ⟨hv, (checkCorrectness_iff P rew).2 ⟨?_, hent.2 hT.entry, hT.rew⟩, g, hg, rfl⟩⟩
    intro i hi
    rw [Sys.roundsToOne, hrs]; exact hT.sum i hi

/-- **C09 (MDP).** The constructor succeeds iff rows sum to 1 up to nine decimals, entries lie in
`[0,1]`, rewards are non-negative and the index is one-to-one, complete and in range. -/
theorem C09_mdp {P : Dok K} (hP : InShape P) {idx : Dict (Nat × Nat) Nat}
    (hk : (idx.map Prod.fst).Nodup) (labA : IDict String (Nat × Nat)) (labS : IDict String Nat)
    (rew : Option (List K)) :
    (∃ M, Sys.makeMDP P idx labA labS rew = .ok M) ↔ GoodTable P rew ∧ GoodIndex P idx :=
  make_accepts hP hk labA labS rew

/-- The object that results from an accepted call shows exactly the given data. -/
theorem C09_mdp_content {P : Dok K} {idx : Dict (Nat × Nat) Nat}
    (hk : (idx.map Prod.fst).Nodup) {labA : IDict String (Nat × Nat)} {labS : IDict String Nat}
    {rew : Option (List K)} {M : Sys K} (h : Sys.makeMDP P idx labA labS rew = .ok M) :
    M.P = P ∧ M.idx = idx ∧ M.labA = labA ∧ M.labS = labS ∧ M.rew = rew ∧ M.dtmc = false := by
  obtain ⟨-, -, g, -, rfl⟩ := (make_iff hk).1 h
  simp

/-- **C09 (DTMC with index).** In addition the matrix is square and all actions are 0. -/
theorem C09_dtmc {P : Dok K} (hP : InShape P) {idx : Dict (Nat × Nat) Nat}
    (hk : (idx.map Prod.fst).Nodup) (labS : IDict String Nat) (rew : Option (List K)) :
    (∃ M, Sys.makeDTMC P labS (some idx) rew = .ok M) ↔
      P.rows = P.cols ∧ (∀ s a i, ((s, a), i) ∈ idx → a = 0) ∧ GoodTable P rew ∧ GoodIndex P idx := by
  unfold Sys.makeDTMC
  split
  · rename_i hsq
    simp only
    split
    · rename_i ha
      rw [make_accepts hP hk]
      exact ⟨fun h => ⟨hsq, fun s a i he => ha _ he, h⟩, fun h => h.2.2⟩
    · rename_i ha
      refine iff_of_false (by simp) fun h => ha fun e he => h.2.1 e.1.1 e.1.2 e.2 he
  · rename_i hsq
    exact iff_of_false (by simp) fun h => hsq h.1

/-- **C09 (DTMC without index).** -/
theorem C09_dtmc_default {P : Dok K} (hP : InShape P) (labS : IDict String Nat) (rew : Option (List K)) :
    (∃ M, Sys.makeDTMC P labS none rew = .ok M) ↔ P.rows = P.cols ∧ GoodTable P rew := by
  unfold Sys.makeDTMC
  split
  · rename_i hsq
    simp only
    have hk : (Dict.keys (Sys.dtmcIndex P.rows)).Nodup := by
      simp only [Dict.keys, Sys.dtmcIndex, List.map_map]
      refine (List.nodup_map_iff_inj_on List.nodup_range).2 fun x _ y _ h => ?_
      simpa using h
    rw [make_accepts hP hk]
    refine ⟨fun h => ⟨hsq, h.1⟩, fun h => ⟨h.2, ?_, ?_⟩⟩
    · simp only [Sys.dtmcIndex, List.mem_map]
      rintro _ ⟨i, _, rfl⟩ _ ⟨j, _, rfl⟩ hij
      simp only at hij
      rw [hij]
    · intro i hi
      exact ⟨i, 0, List.mem_map.2 ⟨i, List.mem_range.2 hi, rfl⟩, by omega⟩
  · rename_i hsq
    exact iff_of_false (by simp) fun h => hsq h.1

/-- How rejected inputs are reported: a non-square DTMC matrix raises `TypeError` (the assertion
message cannot be formatted). -/
theorem C09_dtmc_nonsquare {P : Dok K} (h : P.rows ≠ P.cols) (labS : IDict String Nat)
    (idx : Option (Dict (Nat × Nat) Nat)) (rew : Option (List K)) :
    Sys.makeDTMC P labS idx rew = .error .typeError := by
  unfold Sys.makeDTMC; rw [if_neg h]

/-- two states, two actions in state 0, third row with an explicit reward -/
def exDok : Dok ℚ := ⟨3, 2, [((0, 0), 1/2), ((0, 1), 1/2), ((1, 1), 1), ((2, 1), 1)]⟩
def exIdx : Dict (Nat × Nat) Nat := [((0, 0), 0), ((0, 1), 1), ((1, 0), 2)]

example : InShape exDok := ⟨by decide, by
  intro i j p h
  simp only [exDok, List.mem_cons, Prod.mk.injEq, List.mem_nil_iff, or_false] at h
  rcases h with ⟨⟨rfl, rfl⟩, -⟩ | ⟨⟨rfl, rfl⟩, -⟩ | ⟨⟨rfl, rfl⟩, -⟩ | ⟨⟨rfl, rfl⟩, -⟩ <;> decide⟩
example : (exIdx.map Prod.fst).Nodup := by decide
example : (Sys.makeMDP exDok exIdx (IDict.mk' [] true) (IDict.mk' [("i", [0])] true)
    (some [0, 1, 2])).isOk = true := by decide +kernel
example : (Sys.makeMDP exDok exIdx (IDict.mk' [] true) (IDict.mk' [("i", [0])] true)
    (some [0, -1, 2])).isOk = false := by decide +kernel

end Verif.Props
