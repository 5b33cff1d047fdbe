import Mathlib.Logic.Relation
import Mathlib.Data.Set.Basic
/-!
# Specification: paths, mutual reachability and end components of an action-labelled graph
-/

namespace Verif.Spec

/-- `t` is reached from `F` along `E` by a path all of whose states before the last are outside `B` -/
def ReachAvoid {V : Type} (E : V → V → Prop) (F : Set V) (B : Set V) (t : V) : Prop :=
  ∃ f ∈ F, Relation.ReflTransGen (fun u v => u ∉ B ∧ E u v) f t

/-- `u` and `v` reach each other -/
def Mutual {V : Type} (E : V → V → Prop) (u v : V) : Prop :=
  Relation.ReflTransGen E u v ∧ Relation.ReflTransGen E v u

/-- edges of actions whose successors all stay in `X`; `tr s a d`: action `a` of `s` may lead to `d` -/
def StayEdge {V A : Type} (tr : V → A → V → Prop) (X : Set V) (u v : V) : Prop :=
  ∃ a, tr u a v ∧ ∀ w, tr u a w → w ∈ X

/-- end component of an action-labelled graph: states `E`, for each state a nonempty set of actions,
closed and strongly connected -/
structure GraphEC {V A : Type} (tr : V → A → V → Prop) (E : Set V) (act : V → Set A) : Prop where
  nonempty : E.Nonempty
  act_nonempty : ∀ s ∈ E, (act s).Nonempty
  avail : ∀ s ∈ E, ∀ a ∈ act s, ∃ d, tr s a d
  closed : ∀ s ∈ E, ∀ a ∈ act s, ∀ d, tr s a d → d ∈ E
  conn : ∀ s ∈ E, ∀ t ∈ E,
    Relation.ReflTransGen (fun u v => u ∈ E ∧ ∃ a ∈ act u, tr u a v) s t

end Verif.Spec
