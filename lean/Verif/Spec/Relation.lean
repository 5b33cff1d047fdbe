import Mathlib.Data.Set.Insert
/-!
# Specification of a two-sided label map: a plain relation

An operation may be issued on the map (`add`, `remove`) or on its inverse (`invAdd`, `invRemove`).
-/

namespace Verif.Spec

inductive MapOp (α β : Type)
  | add (k : α) (v : β)
  | remove (k : α) (v : β)
  | inv
  | invAdd (v : β) (k : α)
  | invRemove (v : β) (k : α)

open Classical in
/-- new relation, and whether the call succeeds -/
noncomputable def relStep {α β : Type} (R : Set (α × β)) : MapOp α β → Bool × Set (α × β)
  | .add k v => (true, insert (k, v) R)
  | .invAdd v k => (true, insert (k, v) R)
  | .inv => (true, R)
  | .remove k v => if (k, v) ∈ R then (true, R \ {(k, v)}) else (false, R)
  | .invRemove v k => if (k, v) ∈ R then (true, R \ {(k, v)}) else (false, R)

/-- results of a history of calls, and the final relation -/
noncomputable def relRun {α β : Type} : Set (α × β) → List (MapOp α β) → List Bool × Set (α × β)
  | R, [] => ([], R)
  | R, o :: os =>
    let (b, R') := relStep R o
    let (bs, R'') := relRun R' os
    (b :: bs, R'')

end Verif.Spec
