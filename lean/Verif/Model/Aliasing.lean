import Verif.Model.InvertibleDict
/-!
# Sharing of sets between a dictionary passed by the caller and the objects built from it

`switss/utils/invertible_dict.py` again, now with references: line 33 copies the dictionary, not the
sets in it (`d.copy()`), so that the object and the caller hold the same set objects.
-/

namespace Verif.Model.Alias
open Verif.Spec
variable {α β : Type} [DecidableEq α] [DecidableEq β]

/-- the memory: the set object at address `a` is the `a`-th entry -/
abbrev Heap (β : Type) := List (List β)

def cell (h : Heap β) (a : Nat) : List β := (h[a]?).getD []

/-- a dictionary of references, and what one sees when looking through them -/
def deref (h : Heap β) (c : Dict α Nat) : Dict α (List β) := c.map fun e => (e.1, cell h e.2)

/-- an `InvertibleDict`.  The sets of the inverse are created in lines 102-107 and belong to this object
alone, so that they are values here. -/
structure Obj (α β : Type) where
  d : Dict α Nat
  i : Option (Dict β (List α))
  dflt : Bool

/-- what the object shows -/
def Obj.seen (h : Heap β) (x : Obj α β) : IDict α β := ⟨deref h x.d, x.i, x.dflt⟩

/-- invertible_dict.py:20-35, amdp.py:46-53: the sets are those of the caller -/
def Obj.new (c : Dict α Nat) (dflt : Bool) : Obj α β := ⟨c, none, dflt⟩

/-- invertible_dict.py:48-50 and, for the forward dictionary seen from the inverse, 52-55 -/
def addRef (h : Heap β) (d : Dict α Nat) (k : α) (v : β) : Heap β × Dict α Nat :=
  match d.get? k with
  | none => (h ++ [[v]], d.set k h.length)
  | some a => (h.set a (sadd (cell h a) v), d)

/-- one call (`add` 46-55, `remove` 57-65, `inv` 91-109) on the object or on its inverse: the result,
the memory and the object -/
def step (π : List β → List β) (h : Heap β) (x : Obj α β) : MapOp α β → Except Err Unit × Heap β × Obj α β
  | .add k v =>
    let r := addRef h x.d k v
    (.ok (), r.1, { x with d := r.2, i := x.i.map fun i => IDict.addTo i v k })
  | .inv => (.ok (), h, { x with i := some (x.i.getD (IDict.invert π (deref h x.d))) })
  | .invAdd v k =>
    let i := x.i.getD (IDict.invert π (deref h x.d))
    let r := addRef h x.d k v
    (.ok (), r.1, { x with d := r.2, i := some (IDict.addTo i v k) })
  | .remove k v =>
    match x.d.get? k with
    | none => (.error .assertion, h, x)
    | some a =>
      if v ∈ cell h a then
        let h' := h.set a ((cell h a).erase v)
        match x.i with
        | none => (.ok (), h', x)
        | some i =>
          match i.get? v with
          | none => (.error .keyError, h', x)
          | some t =>
            if k ∈ t then (.ok (), h', { x with i := some (i.set v (t.erase k)) })
            else (.error .keyError, h', x)
      else (.error .assertion, h, x)
  | .invRemove v k =>
    let i := x.i.getD (IDict.invert π (deref h x.d))
    match i.get? v with
    | none => (.error .assertion, h, { x with i := some i })
    | some t =>
      if k ∈ t then
        let i' := i.set v (t.erase k)
        match x.d.get? k with
        | none => (.error .keyError, h, { x with i := some i' })
        | some a =>
          if v ∈ cell h a then (.ok (), h.set a ((cell h a).erase v), { x with i := some i' })
          else (.error .keyError, h, { x with i := some i' })
      else (.error .assertion, h, { x with i := some i })

/-- a history of calls on one object -/
def run (π : List β → List β) : Heap β → Obj α β → List (MapOp α β) → List Bool × Heap β × Obj α β
  | h, x, [] => ([], h, x)
  | h, x, o :: os =>
    let r := step π h x o
    let rs := run π r.2.1 r.2.2 os
    (r.1.toBool :: rs.1, rs.2)

end Verif.Model.Alias
