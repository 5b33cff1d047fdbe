import Verif.Model.RF
import Verif.Spec.MDP
import Mathlib.Algebra.Order.Hom.Ring
import Mathlib.Algebra.BigOperators.Ring.Finset
/-!
# What a system object means

The Markov decision process denoted by a system object of the code, its reachability probabilities, and
the well-formedness of system objects that the theorems assume.
-/

namespace Verif.Model
open Verif.Spec

variable {K : Type} [Field K] [LinearOrder K]

/-- Well-formed system: what the constructors check (C09), strengthened to exact row sums and positive
stored entries; `graph` is the one built from the matrix. -/
structure Sys.WF (M : Sys K) : Prop where
  nodup : (M.P.items.map Prod.fst).Nodup
  range : ∀ i j p, ((i, j), p) ∈ M.P.items → i < M.C ∧ j < M.N
  pos : ∀ i j p, ((i, j), p) ∈ M.P.items → 0 < p
  sum : ∀ i < M.C, ∑ j ∈ Finset.range M.N, M.P.get i j = 1
  keys : (M.idx.map Prod.fst).Nodup
  vals : (M.idx.map Prod.snd).Nodup
  graph : Graph.build M.N (invGet? M.idx) M.P.items (Graph.empty M.N) = .ok M.graph

/-- every state has an action -/
def Sys.Total (M : Sys K) : Prop := ∀ s < M.N, ∃ a i, ((s, a), i) ∈ M.idx ∧ i < M.C

open Classical in
/-- The MDP of a system: states are the columns, the rows of state `s` are the rows `i` that the index
assigns to a pair `(s, a)`. -/
noncomputable def Sys.toMDP (φ : K →+*o ℝ) (M : Sys K) : MDP (Fin M.N) (Fin M.C) where
  rows s := Finset.univ.filter fun i => ∃ a, ((s.1, a), i.1) ∈ M.idx
  P i t := φ (M.P.get i.1 t.1)

open Classical in
/-- maximal probability of reaching the state set `T` from state `s` -/
noncomputable def Sys.prMax (φ : K →+*o ℝ) (M : Sys K) (T : Set Nat) (s : Nat) : ℝ :=
  if h : s < M.N then (M.toMDP φ).PrMax (Finset.univ.filter fun t => t.1 ∈ T) ⟨s, h⟩ else 0

open Classical in
/-- minimal probability of reaching the state set `T` from state `s` -/
noncomputable def Sys.prMin (φ : K →+*o ℝ) (M : Sys K) (T : Set Nat) (s : Nat) : ℝ :=
  if h : s < M.N then (M.toMDP φ).PrMin (Finset.univ.filter fun t => t.1 ∈ T) ⟨s, h⟩ else 0

/-- the states carrying a label -/
def Sys.labelled (M : Sys K) (l : String) : Set Nat := {s | ∃ ss, M.statesByLabel l = .ok ss ∧ s ∈ ss}

/-- probabilities of reaching the target label of a reachability form -/
noncomputable def RF.prMax (φ : K →+*o ℝ) (rf : RF K) (s : Nat) : ℝ :=
  rf.sys.prMax φ (rf.sys.labelled rf.targetL) s
noncomputable def RF.prMin (φ : K →+*o ℝ) (rf : RF K) (s : Nat) : ℝ :=
  rf.sys.prMin φ (rf.sys.labelled rf.targetL) s

end Verif.Model
