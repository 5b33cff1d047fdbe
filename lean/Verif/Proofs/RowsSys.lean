import Verif.Props.System
import Verif.Proofs.Sem
import Mathlib.Algebra.Order.BigOperators.Group.Finset
/-! # Markov chains given by a list of successors for each state -/
set_option linter.unusedSectionVars false

namespace Verif.Proofs
open Verif.Model Verif.Props Finset

variable {K : Type} [Field K] [LinearOrder K] [IsStrictOrderedRing K]

/-- the entries of the matrix with the given rows -/
def rowsItems (m : Nat) (row : Nat → List (Nat × K)) : Dict (Nat × Nat) K :=
  (List.range m).flatMap fun i => (row i).map fun e => ((i, e.1), e.2)

/-- rows of a Markov chain with `m` states -/
structure GoodRows (m : Nat) (row : Nat → List (Nat × K)) : Prop where
  nodup : ∀ i < m, ((row i).map Prod.fst).Nodup
  range : ∀ i < m, ∀ e ∈ row i, e.1 < m
  pos : ∀ i < m, ∀ e ∈ row i, 0 < e.2
  sum : ∀ i < m, ((row i).map Prod.snd).sum = 1

theorem flatMap_ite {α : Type} {m s : Nat} (hs : s < m) (L : Nat → List α) :
    ((List.range m).flatMap fun i => if i = s then L i else []) = L s := by
  induction m with
  | zero => omega
  | succ m ih =>
    rw [List.range_succ, List.flatMap_append]
    by_cases e : s = m
    · subst e
      rw [List.flatMap_eq_nil_iff.2 fun i hi => if_neg (List.mem_range.1 hi).ne]
      simp
    · rw [ih (by omega)]
      simp [Ne.symm e]

variable {m : Nat} {row : Nat → List (Nat × K)}

theorem mem_rowsItems {i j : Nat} {p : K} : ((i, j), p) ∈ rowsItems m row ↔ i < m ∧ (j, p) ∈ row i := by
  simp only [rowsItems, List.mem_flatMap, List.mem_range, List.mem_map, Prod.mk.injEq, Prod.exists]
  constructor
  · rintro ⟨i', hi, j', p', he, ⟨rfl, rfl⟩, rfl⟩; exact ⟨hi, he⟩
  · rintro ⟨hi, he⟩; exact ⟨i, hi, j, p, he, ⟨rfl, rfl⟩, rfl⟩

theorem rowsItems_nodup (h : GoodRows m row) : ((rowsItems m row).map Prod.fst).Nodup := by
  rw [rowsItems, List.map_flatMap, List.nodup_flatMap]
  refine ⟨fun i hi => ?_, ?_⟩
  · rw [List.map_map]
    have := h.nodup i (List.mem_range.1 hi)
    have e : (Prod.fst ∘ fun e : Nat × K => ((i, e.1), e.2)) = (fun j => (i, j)) ∘ Prod.fst := rfl
    rw [e, ← List.map_map]
    exact this.map fun a b hab => (Prod.mk.inj hab).2
  · refine List.nodup_range.imp fun {a b} hab => ?_
    rw [Function.onFun, List.disjoint_left]
    rintro x hx hy
    simp only [List.map_map, List.mem_map, Function.comp] at hx hy
    obtain ⟨e, -, rfl⟩ := hx
    obtain ⟨e', -, h2⟩ := hy
    exact hab (Prod.mk.inj h2).1.symm

theorem rows_rowSum (h : GoodRows m row) {i : Nat} (hi : i < m) : (Dok.mk m m (rowsItems m row)).rowSum i = 1 := by
  rw [← h.sum i hi, Dok.rowSum, rowsItems, List.filter_flatMap]
  have : (fun a => List.filter (fun e : (Nat × Nat) × K => decide (e.1.1 = i)) ((row a).map fun e => ((a, e.1), e.2))) =
      fun a => if a = i then (row a).map fun e => ((a, e.1), e.2) else [] := by
    funext a
    by_cases e : a = i
    · rw [if_pos e, List.filter_eq_self.2]
      intro x hx
      obtain ⟨y, -, rfl⟩ := List.mem_map.1 hx
      simpa using e
    · rw [if_neg e, List.filter_eq_nil_iff.2]
      intro x hx
      obtain ⟨y, -, rfl⟩ := List.mem_map.1 hx
      simpa using e
  rw [this, flatMap_ite hi, List.map_map]
  rfl

theorem mem_dtmcIndex {i s a : Nat} : ((s, a), i) ∈ Sys.dtmcIndex m ↔ s = i ∧ a = 0 ∧ i < m := by
  simp only [Sys.dtmcIndex, List.mem_map, List.mem_range, Prod.mk.injEq]
  constructor
  · rintro ⟨j, hj, ⟨rfl, rfl⟩, rfl⟩; exact ⟨rfl, rfl, hj⟩
  · rintro ⟨rfl, rfl, h⟩; exact ⟨s, h, ⟨rfl, rfl⟩, rfl⟩

theorem dtmcIndex_fst (m : Nat) : ((Sys.dtmcIndex m).map Prod.fst).Nodup := by
  simp only [Sys.dtmcIndex, List.map_map]
  exact List.nodup_range.map fun a b h => (Prod.mk.inj h).1

theorem dtmcIndex_snd (m : Nat) : ((Sys.dtmcIndex m).map Prod.snd).Nodup := by
  simp only [Sys.dtmcIndex, List.map_map]
  exact List.nodup_range.map fun a b h => h

theorem dtmcIndex_inv {i : Nat} (hi : i < m) : invGet? (Sys.dtmcIndex m) i = some (i, 0) :=
  (invGet?_iff (dtmcIndex_snd m)).2 (mem_dtmcIndex.2 ⟨rfl, rfl, hi⟩)

/-- the constructor accepts the chain; its graph has the given successors, in the given order -/
theorem rows_make (h : GoodRows m row) (labS : IDict String Nat) :
    ∃ M, Sys.makeDTMC ⟨m, m, rowsItems m row⟩ labS none none = .ok M ∧ M.WF ∧ M.P = ⟨m, m, rowsItems m row⟩ ∧
      M.idx = Sys.dtmcIndex m ∧ M.labS = labS ∧ M.graph.n = m ∧
      ∀ s < m, M.graph.succ s = (row s).map fun e => (e.1, 0, e.2) := by
  have hk := rowsItems_nodup h
  have hP : InShape (Dok.mk m m (rowsItems m row)) :=
    ⟨hk, fun i j p hm => ⟨(mem_rowsItems.1 hm).1, h.range _ (mem_rowsItems.1 hm).1 _ (mem_rowsItems.1 hm).2⟩⟩
  have hsum : ∀ i < m, ∑ j ∈ range m, (Dok.mk m m (rowsItems m row)).get i j = 1 := fun i hi => by
    rw [← rows_rowSum h hi, rowSum_eq (m := ⟨m, m, rowsItems m row⟩) hk fun e he => (hP.range e.1.1 e.1.2 e.2 he).2]
  have hnn : ∀ i j, 0 ≤ (Dok.mk m m (rowsItems m row)).get i j := by
    intro i j
    simp only [Dok.get]
    cases e : Dict.get? (rowsItems m row) (i, j) with
    | none => simp
    | some p =>
      obtain ⟨h1, h2⟩ := mem_rowsItems.1 ((Dict.get?_iff_mem hk).1 e)
      exact (h.pos i h1 _ h2).le
  have hacc := (C09_dtmc_default hP labS none).2 ⟨rfl, fun i hi => by rw [hsum i hi]; simp, fun i hi j hj => ⟨hnn i j, by
    rw [← hsum i hi]
    exact Finset.single_le_sum (f := fun j => (Dok.mk m m (rowsItems m row)).get i j) (fun j _ => hnn i j) (Finset.mem_range.2 hj)⟩,
    fun r hr => by cases hr⟩
  obtain ⟨M, hM⟩ := hacc
  refine ⟨M, hM, ?_⟩
  have hM' := hM
  simp only [Sys.makeDTMC, if_true] at hM'
  obtain ⟨-, -, g, hg, rfl⟩ := (make_iff (dtmcIndex_fst m)).1 hM'
  refine ⟨⟨hk, fun i j p hm => hP.range i j p hm, fun i j p hm => h.pos i (mem_rowsItems.1 hm).1 _ (mem_rowsItems.1 hm).2, fun i hi => hsum i hi,
    dtmcIndex_fst m, dtmcIndex_snd m, hg⟩, rfl, rfl, rfl, ?_, fun s hs => ?_⟩
  · exact (build_spec _ _ _ hg).1
  · rw [(build_spec _ _ _ hg).2.1 s]
    simp only [Graph.empty, List.nil_append, rowsItems, List.filterMap_flatMap]
    rw [← flatMap_ite hs fun s => (row s).map fun e => (e.1, 0, e.2)]
    refine List.flatMap_congr fun i hi => ?_
    rw [List.mem_range] at hi
    rw [List.filterMap_map]
    by_cases e : i = s
    · subst e
      rw [if_pos rfl, ← List.filterMap_eq_map]
      refine List.filterMap_congr fun x _ => ?_
      simp [outOf, dtmcIndex_inv hi]
    · rw [if_neg e, List.filterMap_eq_nil_iff]
      intro x _
      simp [outOf, dtmcIndex_inv hi, e]

end Verif.Proofs
