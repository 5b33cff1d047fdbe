import Verif.Model.Py
import Verif.Model.Treap
import Mathlib.Logic.Function.Basic
import Mathlib.Data.List.Range
/-!
# `switss/utils/graph.pyx` (and `switss/utils/stack.pyx`)

C arrays indexed by node are total functions `Nat → _`; linked stacks (stack.pyx:12-21) are lists
with the top first.  `malloc`/`free` are modelled in `Model/GraphMem`.  Treap priorities come from an arbitrary
function, so every outcome of `rand()` is covered.
-/

namespace Verif.Model

/-- graph.pyx:30-31, 16-19: for every node the lists `(neighbour, action, probability)`.  The
probability is a C `float` in the code; rounding to single precision is modelled in `Model/Single`. -/
structure Graph (K : Type) where
  n : Nat
  succ : Nat → List (Nat × Nat × K)
  pred : Nat → List (Nat × Nat × K)

/-- `bidict.inv[i]`: the key with value `i` -/
def invGet? {α β : Type} [DecidableEq β] (d : Dict α β) (i : β) : Option α :=
  (d.find? fun p => p.2 = i).map Prod.fst

namespace Graph
variable {K : Type}

/-- graph.pyx:34-38: nodes without neighbours -/
def empty (n : Nat) : Graph K := ⟨n, fun _ => [], fun _ => []⟩

/-- graph.pyx:46-64 `add_successor` -/
def addSuccessor (g : Graph K) (src a : Nat) (p : K) (dst : Nat) : Graph K :=
  { g with
    succ := Function.update g.succ src (g.succ src ++ [(dst, a, p)])
    pred := Function.update g.pred dst (g.pred dst ++ [(src, a, p)]) }

/-- graph.pyx:33-41 `__cinit__`: loop over `P.items()`.  A missing row index raises `KeyError`.  A
node number `>= n` makes the C code write outside the array; the model stops with `indexError`. -/
def build (n : Nat) (inv : Nat → Option (Nat × Nat)) :
    List ((Nat × Nat) × K) → Graph K → Except Err (Graph K)
  | [], g => .ok g
  | ((i, d), p) :: items, g =>
    match inv i with
    | none => .error .keyError
    | some (s, a) =>
      if s < n ∧ d < n then build n inv items (g.addSuccessor s a p d) else .error .indexError

/-- graph.pyx:66-70 `successors` with the optional action filter -/
def successors (g : Graph K) (s : Nat) (a : Option Nat := none) : List (Nat × Nat × K) :=
  (g.succ s).filter fun t => a.isNone || a == some t.2.1

/-- graph.pyx:72-76 `predecessors` -/
def predecessors (g : Graph K) (s : Nat) (a : Option Nat := none) : List (Nat × Nat × K) :=
  (g.pred s).filter fun t => a.isNone || a == some t.2.1

/-! ### reachable -/

/-- local arrays of graph.pyx:298-360 -/
structure RState where
  stack : List Nat
  instack : Nat → Bool
  mark : Nat → Bool

/-- graph.pyx:344-350: inspect the neighbours of the popped node -/
def pushNeighbours : List Nat → RState → RState
  | [], st => st
  | w :: ws, st =>
    if !st.mark w && !st.instack w then
      pushNeighbours ws { st with stack := w :: st.stack, instack := Function.update st.instack w true }
    else pushNeighbours ws st

/-- graph.pyx:330-350: the `while stack != NULL` loop.  `none` means the fuel ran out. -/
def reachLoop (nbr : Nat → List Nat) (block : Nat → Bool) : Nat → RState → Option (Nat → Bool)
  | _, ⟨[], _, mark⟩ => some mark
  | 0, ⟨_ :: _, _, _⟩ => none
  | fuel + 1, ⟨v :: stack, instack, mark⟩ =>
    let st : RState := ⟨stack, Function.update instack v false, Function.update mark v true⟩
    reachLoop nbr block fuel (if block v then st else pushNeighbours (nbr v) st)

/-- graph.pyx:323-325: the initial stack; `from` in the iteration order of the set -/
def initStack : List Nat → RState → RState
  | [], st => st
  | v :: vs, st => initStack vs { st with stack := v :: st.stack, instack := Function.update st.instack v true }

/-- graph.pyx:298-360 `reachable`.  The fuel `n` is never exhausted (`Proofs/Reach`). -/
def reachable (g : Graph K) (fromset : List Nat) (forward : Bool) (blocklist : List Nat) :
    Except Err (Option (List Bool)) :=
  if fromset.length > 0 then
    let nbr := fun v => ((if forward then g.succ v else g.pred v).map Prod.fst)
    let st := initStack fromset ⟨[], fun _ => false, fun _ => false⟩
    .ok ((reachLoop nbr (fun v => decide (v ∈ blocklist)) g.n st).map fun mark =>
      (List.range g.n).map mark)
  else .error .assertion

/-! ### strongly connected components -/

/-- a treap filled by successive `add_to_treap` calls; `h j` is the `j`-th random heap key -/
def mkTreap {α : Type} [LinearOrder α] (h : Nat → Int) (xs : List α) : Treap α :=
  Treap.addAll Treap.nil (xs.zipIdx.map fun p => (p.1, h p.2))

/-- graph.pyx:21-23 and 89-132: Tarjan's data.  `idx v = none` is `index == -1`. -/
structure TState where
  idx : Nat → Option Nat
  low : Nat → Nat
  on : Nat → Bool
  stack : List Nat
  i : Nat
  sccs : Nat → Nat
  cnt : Nat

/-- graph.pyx:101-106: actions of `v` with a successor outside the treap -/
def badActions (succ : List (Nat × Nat × K)) (T : Treap Nat) (h : Nat → Int) : Treap Nat :=
  mkTreap h ((succ.filter fun t => !T.mem t.1).map fun t => t.2.1)

/-- graph.pyx:108-113: successors that are not skipped -/
def adj (g : Graph K) (T : Treap Nat) (h : Nat → Int) (v : Nat) : List Nat :=
  ((g.succ v).filter fun t => !(badActions (g.succ v) T h).mem t.2.1).map Prod.fst

/-- graph.pyx:124-128: pop until `v` (an empty stack would be a NULL dereference) -/
def popTo (v : Nat) : List Nat → TState → TState
  | [], st => st
  | w :: rest, st =>
    let st' := { st with
      stack := rest
      on := Function.update st.on w false
      sccs := Function.update st.sccs w st.cnt }
    if w = v then st' else popTo v rest st'

/-- graph.pyx:96-98: open the node -/
def openNode (v : Nat) (st : TState) : TState :=
  { st with
    idx := Function.update st.idx v (some st.i)
    low := Function.update st.low v st.i
    on := Function.update st.on v true
    i := st.i + 1
    stack := v :: st.stack }

/-- graph.pyx:123-129: close the component if `v` is its root -/
def closeNode (v : Nat) (st : TState) : TState :=
  if some (st.low v) = st.idx v then
    let st' := popTo v st.stack st
    { st' with cnt := st'.cnt + 1 }
  else st

/-- graph.pyx:89-132 `strongconnect`, recursion bounded by fuel (never exhausted, `Proofs/Tarjan`) -/
def strongconnect (adj : Nat → List Nat) : Nat → Nat → TState → TState
  | 0, _, st => st
  | fuel + 1, v, st =>
    closeNode v ((adj v).foldl (fun st w =>
      match st.idx w with
      | none =>
        let st' := strongconnect adj fuel w st
        { st' with low := Function.update st'.low v (min (st'.low v) (st'.low w)) }
      | some k =>
        if st.on w then { st with low := Function.update st.low v (min (st.low v) k) } else st)
      (openNode v st))

/-- graph.pyx:136-174 `strongly_connected_components` on the state set of the treap; `low0`, `on0`
are the uninitialised array contents.  Returns the component vector and the number of components. -/
def sccOf (g : Graph K) (T : Treap Nat) (h : Nat → Nat → Int) (low0 : Nat → Nat) (on0 : Nat → Bool) :
    (Nat → Nat) × Nat :=
  let st := T.toList.foldl (fun (st : TState) r =>
      match st.idx r with
      | none => strongconnect (fun v => g.adj T (h v) v) (g.n + 1) r st
      | some _ => st)
    ⟨fun _ => none, low0, on0, [], 0, fun _ => 0, 1⟩
  (st.sccs, st.cnt - 1)

/-! ### maximal end components -/

/-- graph.pyx:181-205: local variables of the work-list loop; `tid` numbers the treaps created so
that each gets its own random keys -/
structure MState where
  work : List (Treap Nat)
  ret : Nat → Nat
  cnt : Nat
  singles : List Nat
  tid : Nat

/-- random heap keys and uninitialised memory used by one run -/
structure Rnd where
  top : Nat → Int
  comp : Nat → Nat → Int
  bad : Nat → Nat → Nat → Int
  singles : Nat → Int
  low0 : Nat → Nat → Nat
  on0 : Nat → Nat → Bool
  act : Nat → Nat → Int
  act' : Nat → Nat → Int

/-- graph.pyx:242-246: members of component `j+1` in array order, as a treap -/
def component (arr : List Nat) (sccs : Nat → Nat) (h : Nat → Int) (j : Nat) : Treap Nat :=
  mkTreap h (arr.filter fun v => sccs v - 1 = j)

/-- graph.pyx:207-255: the `while treap_stack != NULL` loop.  `singles` collects the mec numbers put
into `singleton_mecs_treap`. -/
def mecLoop (g : Graph K) (ρ : Rnd) : Nat → MState → Option MState
  | _, ⟨[], ret, cnt, singles, tid⟩ => some ⟨[], ret, cnt, singles, tid⟩
  | 0, ⟨_ :: _, _, _, _, _⟩ => none
  | fuel + 1, ⟨T :: work, ret, cnt, singles, tid⟩ =>
    let arr := T.toList
    let (sccs, cc) := g.sccOf T (ρ.bad tid) (ρ.low0 tid) (ρ.on0 tid)
    if cc = 1 then
      mecLoop g ρ fuel
        ⟨work, arr.foldl (fun ret v => Function.update ret v cnt) ret, cnt + 1,
          (if T.size = 1 then singles ++ [cnt] else singles), tid + 1⟩
    else
      -- components are pushed in order, so the last one is on top
      mecLoop g ρ fuel
        ⟨((List.range cc).map fun j => component arr sccs (ρ.comp (tid + j)) j).reverse ++ work,
          ret, cnt, singles, tid + cc + 1⟩

/-- graph.pyx:276-288: is the single state `v` of a singleton component proper? -/
def singletonProper (g : Graph K) (ρ : Rnd) (v : Nat) : Bool :=
  let all := mkTreap (ρ.act v) ((g.succ v).map fun t => t.2.1)
  let non := mkTreap (ρ.act' v) (((g.succ v).filter fun t => t.1 ≠ v).map fun t => t.2.1)
  match non with
  | .nil => true
  | .node _ _ sz _ _ => sz ≠ all.size

/-- graph.pyx:262-292: the `proper_mecs` vector -/
def properMecs (g : Graph K) (ρ : Rnd) (st : MState) : Nat → Bool :=
  (List.range g.n).foldl (fun pm v =>
    if !(mkTreap ρ.singles st.singles).mem (st.ret v) then Function.update pm (st.ret v) true
    else if g.singletonProper ρ v then Function.update pm (st.ret v) true else pm)
    fun _ => false

/-- graph.pyx:180-296 `maximal_end_components`: component of each state, proper flags, number of
components.  (With zero nodes the C code dereferences NULL; `n > 0` is a hypothesis.)  The fuel `2n`
is never exhausted (`Proofs/Mec`). -/
def maximalEndComponents (g : Graph K) (ρ : Rnd) : Option ((Nat → Nat) × (Nat → Bool) × Nat) :=
  (mecLoop g ρ (2 * g.n)
    ⟨[mkTreap ρ.top (List.range g.n)], fun _ => 0, 0, [], 0⟩).map fun st =>
    (st.ret, g.properMecs ρ st, st.cnt)

end Graph
end Verif.Model
