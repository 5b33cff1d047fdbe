import Verif.Model.Py
import Verif.Spec.Relation
/-!
# `switss/utils/invertible_dict.py`
-/

namespace Verif.Model
open Verif.Spec

/-- invertible_dict.py:3-109.  `d` is `__d`, `i` the `__d` of the cached inverse object `__i`
(whose own `__i` is this object, line 108), `dflt` is `__is_default`.  Python sets are
duplicate-free lists.  Sharing of the inner sets with the caller is modelled in `Aliasing.lean`. -/
structure IDict (α β : Type) where
  d : Dict α (List β)
  i : Option (Dict β (List α))
  dflt : Bool

namespace IDict
variable {α β : Type} [DecidableEq α] [DecidableEq β]

/-- invertible_dict.py:20-35 (type checks of the arguments are not modelled) -/
def mk' (d : Dict α (List β)) (dflt : Bool := false) : IDict α β := ⟨d, none, dflt⟩

/-- invertible_dict.py:37-40 -/
def getItem (x : IDict α β) (k : α) : Except Err (List β) :=
  match x.d.get? k with
  | none => if x.dflt then .ok [] else .error .keyError
  | some s => .ok s

/-- the `defaultdict(set)` update `i[val].add(key)` of invertible_dict.py:106, also
lines 48-50 and 52-55 of `add` -/
def addTo {γ δ : Type} [DecidableEq γ] [DecidableEq δ] (d : Dict γ (List δ)) (k : γ) (v : δ) :
    Dict γ (List δ) :=
  d.set k (sadd ((d.get? k).getD []) v)

/-- invertible_dict.py:46-55 -/
def add (x : IDict α β) (k : α) (v : β) : IDict α β :=
  { x with
    d := addTo x.d k v
    i := x.i.map fun i => addTo i v k }

/-- invertible_dict.py:57-65; the state is returned also when an exception is raised -/
def remove (x : IDict α β) (k : α) (v : β) : Except Err Unit × IDict α β :=
  match x.d.get? k with
  | none => (.error .assertion, x)
  | some s =>
    if v ∈ s then
      let x' := { x with d := x.d.set k (s.erase v) }
      match x'.i with
      | none => (.ok (), x')
      | some i =>
        match i.get? v with
        | none => (.error .keyError, x')
        | some t =>
          if k ∈ t then (.ok (), { x' with i := some (i.set v (t.erase k)) })
          else (.error .keyError, x')
    else (.error .assertion, x)

/-- the loop of invertible_dict.py:102-106; `π` is the iteration order of the value sets -/
def invert (π : List β → List β) (d : Dict α (List β)) : Dict β (List α) :=
  d.foldl (fun i kv => (π kv.2).foldl (fun i v => addTo i v kv.1) i) []

/-- invertible_dict.py:91-109: materialise the inverse -/
def force (π : List β → List β) (x : IDict α β) : IDict α β :=
  match x.i with
  | none => { x with i := some (invert π x.d) }
  | some _ => x

/-- the inverse object (after `force`), seen as an `InvertibleDict` of its own; `.inv` of it is the
original object (line 108), which is `flip` again. -/
def flip (x : IDict α β) : IDict β α :=
  match x.i with
  | none => ⟨[], some x.d, x.dflt⟩   -- unreachable after `force`
  | some i => ⟨i, some x.d, x.dflt⟩

/-- one call on the object or on its inverse; the result and the new state -/
def step (π : List β → List β) (x : IDict α β) : MapOp α β → Except Err Unit × IDict α β
  | .add k v => (.ok (), x.add k v)
  | .remove k v => x.remove k v
  | .inv => (.ok (), x.force π)
  | .invAdd v k => (.ok (), ((x.force π).flip.add v k).flip)
  | .invRemove v k =>
    let r := (x.force π).flip.remove v k
    (r.1, r.2.flip)

def run (π : List β → List β) : IDict α β → List (MapOp α β) → List Bool × IDict α β
  | x, [] => ([], x)
  | x, o :: os =>
    let r := x.step π o
    let rs := run π r.2 os
    (r.1.toBool :: rs.1, rs.2)

end IDict
end Verif.Model
