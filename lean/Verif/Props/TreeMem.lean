import Verif.Proofs.TreeMem
import Verif.Props.TreeAlgo
/-! # C92: memory of the tree algorithm -/
namespace Verif.Props
open Verif.Model Verif.Model.TreeDecomp Verif.Model.TreeDecomp.Mem

/-- a heap as `malloc` leaves it: addresses not handed out yet are not in use -/
def HeapOK (h : Heap) : Prop := ∀ a, h.next ≤ a → h.live a = none

variable {K : Type} [Field K] [LinearOrder K]

/-- **C92 (exactly when it holds).**  For every Markov chain, partition, points kept for the parts and subsystems: no
operation of the tree algorithm reads or frees memory that it may not, iff no part has two successors. -/
theorem C92_safe_iff_partial (c : Chain K) (parts : List (List Nat)) (points : Nat → List Nat) (inpDim : Nat → Nat)
    (ms : Nat → List Subsys) (order : List Nat) {h : Heap} (hh : HeapOK h) :
    (∃ h', allMem c parts points inpDim ms order h = .ok h') ↔ ∀ p ∈ order, (sucs c parts p).length ≤ 1 := by
  induction order generalizing h with
  | nil => simp [allMem]
  | cons p ps ih =>
    simp only [List.forall_mem_cons]
    unfold allMem
    by_cases hp : (sucs c parts p).length ≤ 1
    · obtain ⟨h', L, e, f, -⟩ := Proofs.TreeMem.partMem_ok ((sucs c parts p).map points) (by simpa using hp) (inpDim p)
        (ms p) hh
      simp only [bind, Except.bind, e]
      rw [ih f.fresh]
      simp [hp]
    · obtain ⟨e, he⟩ := Proofs.TreeMem.partMem_err ((sucs c parts p).map points) (by simp; omega) (inpDim p)
        (ms p) h
      simp only [bind, Except.bind, he]
      simp [hp]

/-- the blocks that stay in use after one subsystem of a part with `n` combinations of points: the result of the linear
solver and, if there is a successor, one for each combination dropped for its number of states -/
def blocksLost (successor : Bool) (n : Nat) (m : Subsys) : Nat :=
  1 + if successor then ((List.range n).filter fun i => m.verdict i = .tooMany).length else 0

/-- **C92 is false for the memory that is given back**: after a part with at most one successor exactly the blocks
counted by `blocksLost` are in use in addition to those before, at least one for each subsystem; all others are as
before. -/
theorem C92_lost (pts : List (List Nat)) (hp : pts.length ≤ 1) (inpDim : Nat) (ms : List Subsys) {h : Heap}
    (hh : HeapOK h) :
    ∃ (h' : Heap) (L : Finset Nat), partMem pts inpDim ms h = .ok h' ∧ HeapOK h' ∧
      (∀ a ∈ L, h.live a = none ∧ (h'.live a).isSome) ∧ (∀ a, a ∉ L → h'.live a = h.live a) ∧
      L.card = (ms.map (blocksLost (pts.length == 1) (pts.map List.length).prod)).sum ∧ ms.length ≤ L.card := by
  obtain ⟨h', L, e, f, c⟩ := Proofs.TreeMem.partMem_ok pts hp inpDim ms hh
  have hc : Proofs.TreeMem.lost (pts.length == 1) (pts.map List.length).prod =
      blocksLost (pts.length == 1) (pts.map List.length).prod := by
    funext m
    unfold Proofs.TreeMem.lost blocksLost Proofs.TreeMem.count
    rw [List.filter_map, List.length_map]
    rfl
  rw [hc] at c
  refine ⟨h', L, e, f.fresh, fun a ha => ⟨hh a (f.new a ha).1, (f.new a ha).2.2⟩, fun a ha => f.old a ha (by simp), c, ?_⟩
  rw [c]
  clear c hc e
  induction ms with
  | nil => simp
  | cons m ms ih =>
    simp only [List.map_cons, List.sum_cons, List.length_cons]
    have : 1 ≤ blocksLost (pts.length == 1) (pts.map List.length).prod m := by unfold blocksLost; omega
    omega

/-- the empty heap -/
def noBlocks : Heap := ⟨0, fun _ => none⟩

/-- a part with one successor that has three points, and two subsystems with different fates of the points -/
example : (match partMem [[1, 0, 2]] 1 [⟨2, fun _ => .tooMany⟩, ⟨1, fun i => if i = 1 then .kept else .below⟩] noBlocks with
    | .ok h => (List.range h.next).countP fun a => (h.live a).isSome
    | .error _ => 0) = 5 := by decide +kernel

/-- the chain of `C66_path_partial`'s example: two parts in a row -/
example (points inpDim : Nat → Nat) (ms : Nat → List Subsys) :
    ∃ h', allMem (treeChain forkSys) [[0, 1, 2], [3]] (fun p => [points p]) inpDim ms [1, 0] noBlocks = .ok h' :=
  (C92_safe_iff_partial _ _ _ _ _ _ fun _ _ => rfl).2 (by decide +kernel)

/-- 0 goes to 1 and 2 -/
def branchSys : Sys ℚ :=
  treeSys 3 [((0, 1), 1/2), ((0, 2), 1/2), ((1, 3), 1/2), ((1, 4), 1/2), ((2, 3), 1/2), ((2, 4), 1/2)]

/-- **C92 is false**: a chain with three states, and the partition into single states, whose quotient is a tree.  With
defined memory the algorithm would find the three states that are needed for probability 1/2; but whatever points and
subsystems there are, an operation on memory is not defined. -/
theorem C92_false : ∃ (M : Sys ℚ) (rf : RF ℚ), M.WF ∧ RowsAreStates M ∧
    RF.make exRnd M "init" "goal" "fail" false = .ok rf ∧ sucs rf.chain [[0], [1], [2]] 0 = [1, 2] ∧
    sucs rf.chain [[0], [1], [2]] 1 = [] ∧ sucs rf.chain [[0], [1], [2]] 2 = [] ∧
    minWitnesses cramer rf.chain [[0], [1], [2]] keepAll [2, 1, 0] (1/2) 3 = .ok 3 ∧
    ∀ points inpDim ms h, HeapOK h →
      ∃ e, allMem rf.chain [[0], [1], [2]] points inpDim ms [2, 1, 0] h = .error e := by
  obtain ⟨rf, h⟩ : ∃ rf, TreeEx branchSys rf :=
    treeEx (by decide +kernel) (by decide +kernel) (by decide +kernel) (by decide +kernel) (by decide +kernel)
  have h0 : sucs rf.chain [[0], [1], [2]] 0 = [1, 2] := by rw [h.chain]; decide +kernel
  refine ⟨branchSys, rf, h.wf, h.rows, h.make, h0, by rw [h.chain]; decide +kernel, by rw [h.chain]; decide +kernel,
    by rw [h.chain]; decide +kernel, fun points inpDim ms g hg => ?_⟩
  cases hm : allMem rf.chain [[0], [1], [2]] points inpDim ms [2, 1, 0] g with
  | error e => exact ⟨e, rfl⟩
  | ok g' =>
    have := (C92_safe_iff_partial _ _ _ _ _ _ hg).1 ⟨g', hm⟩ 0 (by simp)
    rw [h0] at this
    simp at this

end Verif.Props
