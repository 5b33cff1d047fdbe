import Verif.Model.Mem
/-!
# `switss/utils/treaps.pyx` and `switss/utils/stack.pyx` with pointers

The recursive calls are bounded by `fuel`; the size of the C call stack is not modelled.
-/

namespace Verif.Model.Mem
variable {K : Type}

/-- the fields of a `TNode` -/
structure TN where
  key : Nat
  heap : Int
  size : Nat
  left : Ptr
  right : Ptr

/-- the fields of the node at `p` -/
def readT (p : Ptr) : M K TN := do
  match ← readB p with
  | .tnode k h n l r => pure ⟨k, h, n, l, r⟩
  | _ => fail .wrongType

/-- new fields for the node at `p` -/
def writeT (p : Ptr) (t : TN) : M K Unit := writeB p (.tnode t.key t.heap t.size t.left t.right)

/-- `p.size`, 0 for `NULL` (treaps.pyx:12-20) -/
def sizeT : Ptr → M K Nat
  | none => pure 0
  | some a => do
    let t ← readT (some a)
    pure t.size

/-- treaps.pyx:11-22 `update_size_from_successors` -/
def updateSize : Ptr → M K Unit
  | none => pure ()
  | some a => do
    let t ← readT (some a)
    let r ← sizeT t.right
    let l ← sizeT t.left
    writeT (some a) { t with size := r + l + 1 }

/-- treaps.pyx:24-32 `in_treap` -/
def inTreap : Nat → Ptr → Nat → M K Bool
  | _, none, _ => pure false
  | 0, some _, _ => fail .fuel
  | fuel + 1, some a, x => do
    let t ← readT (some a)
    if x = t.key then pure true
    else if x < t.key then inTreap fuel t.left x
    else inTreap fuel t.right x

/-- treaps.pyx:34-51 `split_treap` -/
def splitTreap : Nat → Ptr → Nat → M K (Ptr × Ptr)
  | _, none, _ => pure (none, none)
  | 0, some _, _ => fail .fuel
  | fuel + 1, some a, x => do
    let t ← readT (some a)
    if x = t.key then pure (t.left, t.right)
    else if x < t.key then do
      let r ← splitTreap fuel t.left x
      let t ← readT (some a)
      writeT (some a) { t with left := r.2 }
      updateSize (some a)
      pure (r.1, some a)
    else do
      let r ← splitTreap fuel t.right x
      let t ← readT (some a)
      writeT (some a) { t with right := r.1 }
      updateSize (some a)
      pure (some a, r.2)

/-- treaps.pyx:53-78 `insert` -/
def insertT : Nat → Ptr → Nat → M K Ptr
  | _, none, new => pure (some new)
  | 0, some _, _ => fail .fuel
  | fuel + 1, some a, new => do
    let t ← readT (some a)
    let m ← readT (some new)
    if t.key = m.key then pure (some a)
    else if t.heap > m.heap then do
      if t.key > m.key then do
        let q ← insertT fuel t.left new
        let t ← readT (some a)
        writeT (some a) { t with left := q }
      else do
        let q ← insertT fuel t.right new
        let t ← readT (some a)
        writeT (some a) { t with right := q }
      updateSize (some a)
      pure (some a)
    else do
      let r ← splitTreap (fuel + 1) (some a) m.key
      let m ← readT (some new)
      writeT (some new) { m with left := r.1 }
      let m ← readT (some new)
      writeT (some new) { m with right := r.2 }
      updateSize (some new)
      pure (some new)

/-- treaps.pyx:80-88 `add_to_treap`; `hk` is the number from `rand()` -/
def addToTreap (fuel : Nat) (p : Ptr) (x : Nat) (hk : Int) : M K Ptr := do
  let new ← alloc (.tnode x hk 1 none none)
  insertT fuel p new

/-- treaps.pyx:90-95 `free_treap` -/
def freeTreap : Nat → Ptr → M K Unit
  | _, none => pure ()
  | 0, some _ => fail .fuel
  | fuel + 1, some a => do
    let t ← readT (some a)
    freeTreap fuel t.left
    let t ← readT (some a)
    freeTreap fuel t.right
    free (some a)

/-- treaps.pyx:108-115 `fill_array` -/
def fillArray : Nat → Ptr → Nat → Nat → M K Nat
  | _, none, _, idx => pure idx
  | 0, some _, _, _ => fail .fuel
  | fuel + 1, some a, arr, idx => do
    let t ← readT (some a)
    store intA (some arr) idx t.key
    let idx ← fillArray fuel t.left arr (idx + 1)
    let t ← readT (some a)
    fillArray fuel t.right arr idx

/-- stack.pyx:12-16 `push` -/
def push (st : Ptr) (x : Nat) : M K Ptr := do
  let a ← alloc (.cell x st)
  pure (some a)

/-- stack.pyx:18-21 `pop` -/
def pop (st : Ptr) : M K (Ptr × Nat) := do
  match ← readB st with
  | .cell x btm => do
    free st
    pure (btm, x)
  | _ => fail .wrongType

/-- stack.pyx:23-29 `freestack` -/
def freeStack : Nat → Ptr → M K Unit
  | _, none => pure ()
  | 0, some _ => fail .fuel
  | fuel + 1, some a => do
    match ← readB (some a) with
    | .cell _ btm => do
      free (some a)
      freeStack fuel btm
    | _ => fail .wrongType

/-- stack.pyx:31-35 `ts_push` -/
def tsPush (st : Ptr) (x : Ptr) : M K Ptr := do
  let a ← alloc (.tcell x st)
  pure (some a)

/-- stack.pyx:37-40 `ts_pop` -/
def tsPop (st : Ptr) : M K (Ptr × Ptr) := do
  match ← readB st with
  | .tcell x btm => do
    free st
    pure (btm, x)
  | _ => fail .wrongType

/-- stack.pyx:42-49 `free_tstack` -/
def freeTStack : Nat → Ptr → M K Unit
  | _, none => pure ()
  | 0, some _ => fail .fuel
  | fuel + 1, some a => do
    match ← readB (some a) with
    | .tcell x btm => do
      freeTreap fuel x
      free (some a)
      freeTStack fuel btm
    | _ => fail .wrongType

end Verif.Model.Mem
