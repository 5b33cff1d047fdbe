import Verif.Model.TreapMem
import Verif.Model.Graph
/-!
# `switss/utils/graph.pyx` with pointers

The class `Graph` with the blocks it gets from `malloc` and gives back with `free`.  Loops `while j < n` and
`for i in range(n)` go through the number of remaining rounds and the current index.  The fields of a `Node` are read once
per loop.  Recursive calls and loops that follow pointers are bounded by `fuel`.  Integers have unlimited size.  Numbers from `rand()` are parameters, as in `Model/Graph`.
-/

namespace Verif.Model.Mem
variable {K : Type}

/-- graph.pyx:29-31: the fields of a `Graph` object -/
structure GraphC where
  nodes : Ptr
  n : Nat

/-- graph.pyx:37-38 -/
def initNodes (a : Nat) : Nat → Nat → M K Unit
  | 0, _ => pure ()
  | m + 1, i => do
    store nodeA (some a) i ⟨none, none, 0, 0⟩
    initNodes a m (i + 1)

/-- graph.pyx:52-53 and 60-61: copy the array -/
def copySaps (src : Ptr) (dst : Nat) : Nat → Nat → M K Unit
  | 0, _ => pure ()
  | m + 1, i => do
    let v ← load sapA src i
    store sapA (some dst) i v
    copySaps src dst m (i + 1)

/-- graph.pyx:46-64 `add_successor` -/
def addSuccessor (g : GraphC) (src a : Nat) (p : K) (dst : Nat) : M K Unit := do
  let f ← load nodeA g.nodes src
  store nodeA g.nodes src { f with succcount := f.succcount + 1 }
  let f ← load nodeA g.nodes src
  let new ← allocArr sapA f.succcount
  copySaps f.succs new (f.succcount - 1) 0
  store sapA (some new) (f.succcount - 1) (dst, a, p)
  free f.succs
  store nodeA g.nodes src { f with succs := some new }
  let t ← load nodeA g.nodes dst
  store nodeA g.nodes dst { t with predcount := t.predcount + 1 }
  let t ← load nodeA g.nodes dst
  let new ← allocArr sapA t.predcount
  copySaps t.preds new (t.predcount - 1) 0
  store sapA (some new) (t.predcount - 1) (src, a, p)
  free t.preds
  store nodeA g.nodes dst { t with preds := some new }

/-- graph.pyx:363-365: the loop of `__free_nodes` -/
def freeNodes (g : GraphC) : Nat → Nat → M K Unit
  | 0, _ => pure ()
  | m + 1, i => do
    let nd ← load nodeA g.nodes i
    free nd.preds
    free nd.succs
    freeNodes g m (i + 1)

/-- graph.pyx:362-369 `__dealloc__` -/
def dealloc (g : GraphC) : M K Unit := do
  freeNodes g g.n 0
  free g.nodes

/-- graph.pyx:39-41: the loop over `P.items()`; the result says whether every row had a state and an action -/
def addItems (g : GraphC) (inv : Nat → Option (Nat × Nat)) : List ((Nat × Nat) × K) → M K Bool
  | [] => pure true
  | ((i, d), p) :: items =>
    match inv i with
    | none => pure false
    | some (s, a) => do
      addSuccessor g s a p d
      addItems g inv items

/-- graph.pyx:33-41 `__cinit__`; after a `KeyError` the object is given back (`__dealloc__`) -/
def newGraph (n : Nat) (inv : Nat → Option (Nat × Nat)) (items : List ((Nat × Nat) × K)) : M K (Except Err GraphC) := do
  let a ← allocArr nodeA n
  initNodes a n 0
  let ok ← addItems ⟨some a, n⟩ inv items
  if ok then pure (.ok ⟨some a, n⟩)
  else do
    dealloc ⟨some a, n⟩
    pure (.error .keyError)

/-- graph.pyx:68-70 and 74-76: the loop of `successors` and `predecessors` -/
def listSaps (p : Ptr) (a : Option Nat) : Nat → Nat → M K (List (Nat × Nat × K))
  | 0, _ => pure []
  | m + 1, i => do
    let v ← load sapA p i
    let rest ← listSaps p a m (i + 1)
    pure (if a.isNone || a == some v.2.1 then v :: rest else rest)

/-- graph.pyx:66-70 `successors`, read to the end -/
def successors (g : GraphC) (s : Nat) (a : Option Nat) : M K (List (Nat × Nat × K)) := do
  let nd ← load nodeA g.nodes s
  listSaps nd.succs a nd.succcount 0

/-- graph.pyx:72-76 `predecessors`, read to the end -/
def predecessors (g : GraphC) (s : Nat) (a : Option Nat) : M K (List (Nat × Nat × K)) := do
  let nd ← load nodeA g.nodes s
  listSaps nd.preds a nd.predcount 0

/-! ### reachable -/

/-- graph.pyx:318-321 -/
def initMasks (mask ins blk : Nat) : Nat → Nat → M K Unit
  | 0, _ => pure ()
  | m + 1, i => do
    store intA (some mask) i 0
    store intA (some ins) i 0
    store intA (some blk) i 0
    initMasks mask ins blk m (i + 1)

/-- graph.pyx:323-325; the states come from the caller, who may give any number -/
def pushFrom (ins : Nat) : List Int → Ptr → M K Ptr
  | [], st => pure st
  | .negSucc _ :: _, _ => fail .outOfBounds
  | .ofNat v :: vs, st => do
    store intA (some ins) v 1
    let st ← push st v
    pushFrom ins vs st

/-- graph.pyx:327-328 -/
def setBlock (blk : Nat) : List Int → M K Unit
  | [] => pure ()
  | .negSucc _ :: _ => fail .outOfBounds
  | .ofNat v :: vs => do
    store intA (some blk) v 1
    setBlock blk vs

/-- graph.pyx:344-350 -/
def pushNbrs (mask ins : Nat) (p : Ptr) : Nat → Nat → Ptr → M K Ptr
  | 0, _, st => pure st
  | m + 1, j, st => do
    let t ← load sapA p j
    let r ← load intA (some mask) t.1
    if r = 0 then do
      let i ← load intA (some ins) t.1
      if i = 0 then do
        store intA (some ins) t.1 1
        let st ← push st t.1
        pushNbrs mask ins p m (j + 1) st
      else pushNbrs mask ins p m (j + 1) st
    else pushNbrs mask ins p m (j + 1) st

/-- graph.pyx:330-350: the `while stack != NULL` loop -/
def reachLoop (g : GraphC) (fwd : Bool) (mask ins blk : Nat) : Nat → Ptr → M K Ptr
  | _, none => pure none
  | 0, some _ => fail .fuel
  | fuel + 1, some p => do
    let q ← pop (some p)
    store intA (some ins) q.2 0
    store intA (some mask) q.2 1
    let b ← load intA (some blk) q.2
    if b = 0 then do
      let nd ← load nodeA g.nodes q.2
      let st ← if fwd then pushNbrs mask ins nd.succs nd.succcount 0 q.1
        else pushNbrs mask ins nd.preds nd.predcount 0 q.1
      reachLoop g fwd mask ins blk fuel st
    else reachLoop g fwd mask ins blk fuel q.1

/-- graph.pyx:352-354: copy to the result -/
def collect (mask : Nat) : Nat → Nat → M K (List Nat)
  | 0, _ => pure []
  | m + 1, i => do
    let v ← load intA (some mask) i
    let rest ← collect mask m (i + 1)
    pure (v :: rest)

/-- graph.pyx:298-360 `reachable` -/
def reachable (fuel : Nat) (g : GraphC) (fromset : List Int) (fwd : Bool) (blocklist : List Int) :
    M K (Except Err (List Nat)) :=
  if fromset.length > 0 then do
    let mask ← allocArr intA g.n
    let ins ← allocArr intA g.n
    let blk ← allocArr intA g.n
    initMasks mask ins blk g.n 0
    let st ← pushFrom ins fromset none
    setBlock blk blocklist
    let st ← reachLoop g fwd mask ins blk fuel st
    let ret ← collect mask g.n 0
    free (some blk)
    free (some mask)
    free (some ins)
    freeStack fuel st
    pure (.ok ret)
  else pure (.error .assertion)

/-! ### strongly connected components -/

/-- graph.pyx:102-106: `bad_actions_treap`; `k` counts the calls of `rand()` -/
def badLoop (fuel : Nat) (succs T : Ptr) (h : Nat → Int) : Nat → Nat → Nat → Ptr → M K Ptr
  | 0, _, _, bad => pure bad
  | m + 1, j, k, bad => do
    let t ← load sapA succs j
    let b ← inTreap fuel T t.1
    if b then badLoop fuel succs T h m (j + 1) k bad
    else do
      let bad ← addToTreap fuel bad t.2.1 (h k)
      badLoop fuel succs T h m (j + 1) (k + 1) bad

/-- the values returned by `strongconnect`: `i`, `scc_counter`, `stack` -/
structure Ret where
  i : Nat
  cnt : Nat
  st : Ptr

/-- graph.pyx:108-120: the loop over the successors; `rec` is the recursive call -/
def succLoop (fuel : Nat) (rec : Nat → Ret → M K Ret) (succs bad : Ptr) (tn v : Nat) : Nat → Nat → Ret → M K Ret
  | 0, _, s => pure s
  | m + 1, j, s => do
    let t ← load sapA succs j
    let b ← inTreap fuel bad t.2.1
    if b then succLoop fuel rec succs bad tn v m (j + 1) s
    else do
      let c ← load tarjanA (some tn) t.1
      let ix ← known c.index
      match ix with
      | none => do
        let s ← rec t.1 s
        let cv ← load tarjanA (some tn) v
        let lv ← known cv.low
        let cw ← load tarjanA (some tn) t.1
        let lw ← known cw.low
        store tarjanA (some tn) v { cv with low := some (min lv lw) }
        succLoop fuel rec succs bad tn v m (j + 1) s
      | some k => do
        let on ← known c.on
        if on then do
          let cv ← load tarjanA (some tn) v
          let lv ← known cv.low
          store tarjanA (some tn) v { cv with low := some (min lv k) }
          succLoop fuel rec succs bad tn v m (j + 1) s
        else succLoop fuel rec succs bad tn v m (j + 1) s

/-- graph.pyx:124-128: pop until `v` -/
def popLoop (tn sccs cnt v : Nat) : Nat → Ptr → M K Ptr
  | 0, _ => fail .fuel
  | m + 1, st => do
    let q ← pop st
    let c ← load tarjanA (some tn) q.2
    store tarjanA (some tn) q.2 { c with on := some false }
    store intA (some sccs) q.2 cnt
    if q.2 = v then pure q.1 else popLoop tn sccs cnt v m q.1

/-- graph.pyx:89-132 `strongconnect` -/
def strongconnect (fuel : Nat) (g : GraphC) (T : Ptr) (h : Nat → Nat → Int) (tn sccs : Nat) : Nat → Nat → Ret → M K Ret
  | 0, _, _ => fail .fuel
  | d + 1, v, s => do
    store tarjanA (some tn) v ⟨some (some s.i), some s.i, some true⟩
    let st ← push s.st v
    let nd ← load nodeA g.nodes v
    let bad ← badLoop fuel nd.succs T (h v) nd.succcount 0 0 none
    let s ← succLoop fuel (strongconnect fuel g T h tn sccs d) nd.succs bad tn v nd.succcount 0 ⟨s.i + 1, s.cnt, st⟩
    let c ← load tarjanA (some tn) v
    let low ← known c.low
    let ix ← known c.index
    if some low = ix then do
      let st ← popLoop tn sccs s.cnt v fuel s.st
      freeTreap fuel bad
      pure ⟨s.i, s.cnt + 1, st⟩
    else do
      freeTreap fuel bad
      pure s

/-- graph.pyx:144-147 -/
def zeroLoop (sccs : Nat) : Nat → Nat → M K Unit
  | 0, _ => pure ()
  | m + 1, j => do
    store intA (some sccs) j 0
    zeroLoop sccs m (j + 1)

/-- graph.pyx:155-158: only the field `index` is written -/
def indexLoop (tn : Nat) : Nat → Nat → M K Unit
  | 0, _ => pure ()
  | m + 1, j => do
    store tarjanA (some tn) j ⟨some none, none, none⟩
    indexLoop tn m (j + 1)

/-- graph.pyx:162-166 -/
def rootLoop (fuel : Nat) (g : GraphC) (T : Ptr) (h : Nat → Nat → Int) (tn sccs arr : Nat) : Nat → Nat → Ret → M K Ret
  | 0, _, s => pure s
  | m + 1, j, s => do
    let r ← load intA (some arr) j
    let c ← load tarjanA (some tn) r
    let ix ← known c.index
    match ix with
    | none => do
      let s ← strongconnect fuel g T h tn sccs (g.n + 1) r s
      rootLoop fuel g T h tn sccs arr m (j + 1) s
    | some _ => rootLoop fuel g T h tn sccs arr m (j + 1) s

/-- graph.pyx:136-174 `strongly_connected_components` -/
def sccM (fuel : Nat) (g : GraphC) (T : Ptr) (h : Nat → Nat → Int) (sccs : Nat) : M K Nat := do
  let t ← readT T
  let arr ← allocArr intA t.size
  let _ ← fillArray fuel T arr 0
  zeroLoop sccs g.n 0
  let tn ← allocArr tarjanA g.n
  indexLoop tn g.n 0
  let s ← rootLoop fuel g T h tn sccs arr t.size 0 ⟨0, 1, none⟩
  free (some tn)
  free (some arr)
  freeStack fuel s.st
  pure (s.cnt - 1)

/-! ### maximal end components -/

/-- graph.pyx:195-199 -/
def addNodes (fuel : Nat) (h : Nat → Int) : Nat → Nat → Ptr → M K Ptr
  | 0, _, p => pure p
  | m + 1, i, p => do
    let p ← addToTreap fuel p i (h i)
    addNodes fuel h m (i + 1) p

/-- graph.pyx:226-229; the result array is a numpy array -/
def assignLoop (n arr cnt : Nat) : Nat → Nat → (Nat → Nat) → M K (Nat → Nat)
  | 0, _, ret => pure ret
  | m + 1, j, ret => do
    let x ← load intA (some arr) j
    if x < n then assignLoop n arr cnt m (j + 1) (Function.update ret x cnt) else fail .outOfBounds

/-- graph.pyx:236-240 -/
def nullLoop (new : Nat) : Nat → Nat → M K Unit
  | 0, _ => pure ()
  | m + 1, j => do
    store ptrA (some new) j none
    nullLoop new m (j + 1)

/-- graph.pyx:242-246; `cs` counts the calls of `rand()` for each component -/
def distribute (fuel arr sccs new : Nat) (h : Nat → Nat → Int) : Nat → Nat → (Nat → Nat) → M K Unit
  | 0, _, _ => pure ()
  | m + 1, j, cs => do
    let x ← load intA (some arr) j
    let c ← load intA (some sccs) x
    if c = 0 then fail .outOfBounds
    else do
      let q ← load ptrA (some new) (c - 1)
      let q ← addToTreap fuel q x (h (c - 1) (cs (c - 1)))
      store ptrA (some new) (c - 1) q
      distribute fuel arr sccs new h m (j + 1) (Function.update cs (c - 1) (cs (c - 1) + 1))

/-- graph.pyx:248-251 -/
def pushLoop (new : Nat) : Nat → Nat → Ptr → M K Ptr
  | 0, _, ts => pure ts
  | m + 1, j, ts => do
    let q ← load ptrA (some new) j
    let ts ← tsPush ts q
    pushLoop new m (j + 1) ts

/-- graph.pyx:182-205: local variables; `ns` and `tid` count the random numbers -/
structure MecS where
  ts : Ptr
  arr : Ptr
  ret : Nat → Nat
  cnt : Nat
  sing : Ptr
  ns : Nat
  tid : Nat

/-- graph.pyx:207-255: the `while treap_stack != NULL` loop.  The loops 214-216 and 220-222 do nothing. -/
def mecLoop (fuel : Nat) (g : GraphC) (ρ : Graph.Rnd) (sccs : Nat) : Nat → MecS → M K MecS
  | k, s =>
    match s.ts, k with
    | none, _ => pure s
    | some _, 0 => fail .fuel
    | some p, k + 1 => do
      let q ← tsPop (some p)
      let t ← readT q.2
      let arr ← allocArr intA t.size
      let _ ← fillArray fuel q.2 arr 0
      let cc ← sccM fuel g q.2 (ρ.bad s.tid) sccs
      if cc = 1 then do
        let ret ← assignLoop g.n arr s.cnt t.size 0 s.ret
        if t.size = 1 then do
          let sing ← addToTreap fuel s.sing s.cnt (ρ.singles s.ns)
          freeTreap fuel q.2
          mecLoop fuel g ρ sccs k ⟨q.1, some arr, ret, s.cnt + 1, sing, s.ns + 1, s.tid + 1⟩
        else do
          freeTreap fuel q.2
          mecLoop fuel g ρ sccs k ⟨q.1, some arr, ret, s.cnt + 1, s.sing, s.ns, s.tid + 1⟩
      else do
        let new ← allocArr ptrA cc
        nullLoop new cc 0
        distribute fuel arr sccs new (fun j => ρ.comp (s.tid + j)) t.size 0 fun _ => 0
        let ts ← pushLoop new cc 0 q.1
        freeTreap fuel q.2
        free (some new)
        mecLoop fuel g ρ sccs k ⟨ts, some arr, s.ret, s.cnt, s.sing, s.ns, s.tid + cc + 1⟩

/-- graph.pyx:278-283; `k`, `k'` count the calls of `rand()` -/
def actLoop (fuel : Nat) (succs : Ptr) (v : Nat) (h h' : Nat → Int) : Nat → Nat → Nat → Nat → Ptr → Ptr → M K (Ptr × Ptr)
  | 0, _, _, _, all, non => pure (all, non)
  | m + 1, j, k, k', all, non => do
    let t ← load sapA succs j
    let all ← addToTreap fuel all t.2.1 (h k)
    if t.1 ≠ v then do
      let non ← addToTreap fuel non t.2.1 (h' k')
      actLoop fuel succs v h h' m (j + 1) (k + 1) (k' + 1) all non
    else actLoop fuel succs v h h' m (j + 1) (k + 1) k' all non

/-- graph.pyx:285-288: is the state proper? -/
def actTest (all non : Ptr) : M K Bool :=
  match non with
  | none => pure true
  | some a => do
    let t ← readT (some a)
    let u ← readT all
    pure (t.size ≠ u.size)

/-- graph.pyx:268-292: the loop over the states; `pm` is a numpy array with `cnt` entries -/
def properLoop (fuel : Nat) (g : GraphC) (ρ : Graph.Rnd) (ret : Nat → Nat) (cnt : Nat) (sing : Ptr) :
    Nat → Nat → (Nat → Bool) → M K (Nat → Bool)
  | 0, _, pm => pure pm
  | m + 1, i, pm => do
    let b ← inTreap fuel sing (ret i)
    if !b then
      if ret i < cnt then properLoop fuel g ρ ret cnt sing m (i + 1) (Function.update pm (ret i) true)
      else fail .outOfBounds
    else do
      let nd ← load nodeA g.nodes i
      let q ← actLoop fuel nd.succs i (ρ.act i) (ρ.act' i) nd.succcount 0 0 0 none none
      let b ← actTest q.1 q.2
      if b then
        if ret i < cnt then do
          freeTreap fuel q.2
          freeTreap fuel q.1
          properLoop fuel g ρ ret cnt sing m (i + 1) (Function.update pm (ret i) true)
        else fail .outOfBounds
      else do
        freeTreap fuel q.2
        freeTreap fuel q.1
        properLoop fuel g ρ ret cnt sing m (i + 1) pm

/-- graph.pyx:180-296 `maximal_end_components` -/
def maximalEndComponents (fuel : Nat) (g : GraphC) (ρ : Graph.Rnd) : M K ((Nat → Nat) × (Nat → Bool) × Nat) := do
  let sccs ← allocArr intA g.n
  let T ← addNodes fuel ρ.top g.n 0 none
  let ts ← tsPush none T
  let s ← mecLoop fuel g ρ sccs (2 * g.n + 1) ⟨ts, none, fun _ => 0, 0, none, 0, 0⟩
  free s.arr
  freeTStack fuel s.ts
  free (some sccs)
  let pm ← properLoop fuel g ρ s.ret s.cnt s.sing g.n 0 fun _ => false
  freeTreap fuel s.sing
  pure (s.ret, pm, s.cnt)

/-! ### the life of a `Graph` object -/

/-- the public methods of `Graph` that touch its memory, with their arguments (graph.pyx:66, 72, 180, 298) -/
inductive Call
  | successors (s : Int) (a : Option Nat)
  | predecessors (s : Int) (a : Option Nat)
  | reachable (fromset : List Int) (fwd : Bool) (blocklist : List Int)
  | mec (ρ : Graph.Rnd)

/-- what a method gives back -/
inductive Res (K : Type)
  | nbrs (l : List (Nat × Nat × K))
  | mask (r : Except Err (List Nat))
  | mecs (comp : Nat → Nat) (proper : Nat → Bool) (cnt : Nat)

/-- one call.  The generators of graph.pyx:66-76 are read to the end; a negative node number addresses memory before the
array (Cython does not wrap indices of C pointers). -/
def call (fuel : Nat) (g : GraphC) : Call → M K (Res K)
  | .successors (.ofNat s) a => do
    let l ← successors g s a
    pure (.nbrs l)
  | .successors (.negSucc _) _ => fail .outOfBounds
  | .predecessors (.ofNat s) a => do
    let l ← predecessors g s a
    pure (.nbrs l)
  | .predecessors (.negSucc _) _ => fail .outOfBounds
  | .reachable F fwd B => do
    let r ← reachable fuel g F fwd B
    pure (.mask r)
  | .mec ρ => do
    let r ← maximalEndComponents fuel g ρ
    pure (.mecs r.1 r.2.1 r.2.2)

/-- calls one after the other; the `AssertionError` of graph.pyx:299 is a result and the caller goes on -/
def calls (fuel : Nat) (g : GraphC) : List Call → M K (List (Res K))
  | [] => pure []
  | k :: ks => do
    let r ← call fuel g k
    let rs ← calls fuel g ks
    pure (r :: rs)

/-- graph.pyx:33-41, calls, and `__dealloc__` (graph.pyx:368-369) when the last reference goes away -/
def lifetime (fuel n : Nat) (inv : Nat → Option (Nat × Nat)) (items : List ((Nat × Nat) × K)) (ks : List Call) :
    M K (Except Err (List (Res K))) := do
  let r ← newGraph n inv items
  match r with
  | .error e => pure (.error e)
  | .ok g => do
    let rs ← calls fuel g ks
    dealloc g
    pure (.ok rs)

end Verif.Model.Mem
