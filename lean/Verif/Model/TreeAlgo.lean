import Verif.Model.RF
import Verif.Model.TreeDecomp
import Mathlib.Data.List.Sort
/-!
# `switss/utils/tree_decomp.pyx`, `graph_utils.py`: the tree algorithm

`min_witnesses_from_tree_decomp` on exact numbers.  External routines are parameters: `lin` is LAPACK's
`dgesv`, `hull` the pruning with qhull for interfaces of dimension other than one, `order` the result of
`np.flipud(gt.topological_sort(decomp))`.  Not modelled: the timeout.  The rounding of the threshold to
single precision (`float thr`, tree_decomp.pyx:472) is in `Verif.Model.Single`, memory management in `Verif.Model.TreeMem`.
-/

namespace Verif.Model.TreeDecomp

variable {K : Type} [Field K] [LinearOrder K]

/-- what the algorithm reads of a reachability form: `n` states, the keys of `P`, `P`, `to_target`, `initial` -/
structure Chain (K : Type) where
  n : Nat
  edge : Nat → Nat → Bool
  P : Nat → Nat → K
  toTarget : Nat → K
  init : Nat

/-- the reads of `rf.P` (rows are states: the system is a DTMC, tree_algo.py:26), `rf.to_target`, `rf.initial` -/
def _root_.Verif.Model.RF.chain (rf : RF K) : Chain K where
  n := rf.N
  edge u v := decide (u < rf.C) && decide (v < rf.N) && (rf.sys.P.items.get? (u, v)).isSome
  P := rf.P
  toTarget := rf.b
  init := rf.initial

/-- tree_decomp.pyx:38-41 `Point` (and the python dictionaries with `states` and `in_probs`) -/
structure Pt (K : Type) where
  states : Nat
  probs : List (Nat × K)

/-- graph_utils.py:23-25: the last part that contains the vertex; the property map is 0 otherwise -/
def label (parts : List (List Nat)) (v : Nat) : Nat :=
  (List.range parts.length).foldl (fun l p => if v ∈ parts.getD p [] then p else l) 0

section
variable (c : Chain K) (parts : List (List Nat))

/-- graph_utils.py:27-31: the vertices entered from another part -/
def isInterface (v : Nat) : Bool :=
  (List.range c.n).any fun u => c.edge u v && label parts u != label parts v

/-- graph_utils.py:32-34, tree_decomp.pyx:219 `decomp.get_out_neighbors(part_id)`, in increasing order -/
def sucs (p : Nat) : List Nat :=
  (List.range parts.length).filter fun q => q != p &&
    (List.range c.n).any fun u => (List.range c.n).any fun v => c.edge u v && label parts u == p && label parts v == q

/-- tree_decomp.pyx:156-160 `in_partition`: the vertices of the view, in increasing order -/
def view (p : Nat) : List Nat :=
  (List.range c.n).filter fun v => label parts v == p || ((sucs c parts p).contains (label parts v) && isInterface c parts v)

/-- tree_decomp.pyx:171 -/
def isIn (p v : Nat) : Bool := (isInterface c parts v && label parts v == p) || v == c.init

/-- tree_decomp.pyx:173 -/
def isOut (p v : Nat) : Bool := isInterface c parts v && label parts v != p

/-- `part_view.get_out_neighbours(v)` -/
def outNb (p v : Nat) : List Nat := (view c parts p).filter fun w => c.edge v w

/-- `part_view.get_in_neighbours(v)` -/
def inNb (p v : Nat) : List Nat := (view c parts p).filter fun w => c.edge w v

/-- tree_decomp.pyx:166-168, 175 -/
def isTarget (p v : Nat) : Bool :=
  decide (0 < c.toTarget v) || (outNb c parts p v).any fun w => isInterface c parts w && label parts w != p

/-! ### the decision diagram -/

/-- tree_decomp.pyx:418-459 `compute_subsys_bdd`: the formula as a function of the assignment -/
def formula (p : Nat) (x : Nat → Bool) : Bool :=
  let vs := view c parts p
  (vs.all fun i => isOut c parts p i ||
    ((isTarget c parts p i || !x i || (outNb c parts p i).any x) && (isIn c parts p i || !x i || (inNb c parts p i).any x))) &&
  (vs.filter (isIn c parts p)).any x && (vs.filter (isTarget c parts p)).any x && (vs.filter (isOut c parts p)).all x

/-- an empty disjunction is a syntax error of `bdd.add_expr` (a `ValueError` here) -/
def syntaxOk (p : Nat) : Bool :=
  let vs := view c parts p
  (vs.all fun i => isOut c parts p i ||
    ((isTarget c parts p i || !(outNb c parts p i).isEmpty) && (isIn c parts p i || !(inNb c parts p i).isEmpty))) &&
  vs.any (isIn c parts p) && vs.any (isTarget c parts p)

end

/-- all assignments of the variables -/
def assignments : List Nat → List (Dict Nat Bool)
  | [] => [[]]
  | v :: vs => (assignments vs).flatMap fun a => [(v, false) :: a, (v, true) :: a]

/-- an assignment as a function; variables outside do not matter -/
def asFun (a : Dict Nat Bool) (v : Nat) : Bool := (a.get? v).getD false

/-- the variables on which the function depends -/
def support (vs : List Nat) (f : (Nat → Bool) → Bool) : List Nat :=
  vs.filter fun v => (assignments vs).any fun a =>
    f (Function.update (asFun a) v true) != f (Function.update (asFun a) v false)

/-- `bdd.pick_iter(p_expr)` of the library dd: the satisfying assignments *of the variables in the support*, in some
order (here a fixed one) -/
def pick (vs : List Nat) (f : (Nat → Bool) → Bool) : List (Dict Nat Bool) :=
  (assignments (support vs f)).filter fun a => f (asFun a)

/-- tree_decomp.pyx:270-272: `model['x..']` of a variable that is not in the model raises `KeyError` -/
def chosen (vs : List Nat) (a : Dict Nat Bool) : Except Err (List Nat) :=
  if vs.all a.has then .ok (vs.filter (asFun a)) else .error .keyError

/-! ### the points of a subsystem -/

/-- tree_decomp.pyx:87-106 `get_point`; reading beyond the end of an array (C55) is undefined, an `IndexError` here -/
def getPoint (pts : List (List (Pt K))) (it : List Nat) : Except Err (Pt K) :=
  (pts.zip it).foldlM (fun acc e =>
    match e.1[e.2]? with
    | some q => .ok ⟨acc.states + q.states, acc.probs ++ q.probs⟩
    | none => .error .indexError) ⟨0, []⟩

/-- tree_decomp.pyx:123-128 `state_prob` -/
def stateProb (q : Pt K) (v : Nat) : K := (Dict.get? q.probs v).getD (-1)

/-- tree_decomp.pyx:630-635: `P_arr`, from `comp_subsys_edges` (130-136) -/
def sysArr (c : Chain K) (states : List Nat) (k : Nat) : K :=
  let n := states.length
  let i := k / n
  let j := k % n
  if i = j then 1 - c.P (states.getD i 0) (states.getD i 0) else - c.P (states.getD j 0) (states.getD i 0)

/-- one step along the graph from the initial state, `k` times -/
def walk (c : Chain K) : Nat → Nat → Bool
  | 0, v => v == c.init
  | k + 1, v => (List.range c.n).any fun u => walk c k u && c.edge u v

/-- tree_decomp.pyx:200 `gt.shortest_distance` -/
def dist (c : Chain K) (v : Nat) : Nat := ((List.range c.n).find? fun k => walk c k v).getD 2147483647

section
variable (lin : Nat → (Nat → K) → (Nat → K) → Nat → K) (c : Chain K) (parts : List (List Nat))

/-- tree_decomp.pyx:536-547: right-hand side for the state -/
def rhs (p : Nat) (cur : Pt K) (s : Nat) : K :=
  if isOut c parts p s then (if 0 ≤ stateProb cur s then stateProb cur s else 0)
  else if isTarget c parts p s then c.toTarget s else 0

/-- tree_decomp.pyx:525-528 -/
def minDist (p : Nat) (states : List Nat) : Nat :=
  (states.filter (isIn c parts p)).foldl (fun m s => min m (dist c s)) 100000

/-- tree_decomp.pyx:519-575: the body of the loop, for one combination of points of the successors -/
def newPoint (p : Nat) (states : List Nat) (ub : Nat) (thr : K) (cur : Pt K) : Option (Pt K) :=
  let tot := (states.filter fun s => !isOut c parts p s).length + cur.states
  if tot + minDist c parts p states > ub then none
  else
    let x := lin states.length (sysArr c states) fun j => rhs c parts p cur (states.getD j 0)
    let probs := (states.zipIdx.filter fun e => isIn c parts p e.1).map fun e => (e.1, x e.2)
    if (probs.map Prod.snd).sum < thr then none else some ⟨tot, probs⟩

/-- tree_decomp.pyx:463-582 `handle_subsys` -/
def handle (p : Nat) (states : List Nat) (ub : Nat) (thr : K) (pts : List (List (Pt K))) : Except Err (List (Pt K)) := do
  let curs ← (visited (pts.map List.length)).mapM (getPoint pts)
  .ok (curs.filterMap (newPoint lin c parts p states ub thr))

/-- tree_decomp.pyx:251-257 `part_to_input_mapping`: the input states in order -/
def inputs (p : Nat) : List Nat := (view c parts p).filter (isIn c parts p)

/-- tree_decomp.pyx:300-311: sorts the new points by their number of states; a vector has one entry per input -/
def addPoints (ins : List Nat) (d : Dict Nat (List (List K))) (pts : List (Pt K)) : Dict Nat (List (List K)) :=
  pts.foldl (fun d q => d.set q.states ((d.get? q.states).getD [] ++ [ins.map fun v => (Dict.get? q.probs v).getD 0])) d

/-- tree_decomp.pyx:327-333: one input.  `max` of an empty array cannot occur. -/
def prune1 (d : Dict Nat (List (List K))) : List (Nat × List K) :=
  ((d.keys.insertionSort (· ≤ ·)).foldl (fun (acc : K × List (Nat × List K)) k =>
    let best := ((d.get? k).getD []).flatten.foldl max 0
    if acc.1 < best then (best, acc.2 ++ [(k, [best])]) else acc) (0, [])).2

variable (hull : Nat → Dict Nat (List (List K)) → List (Nat × List K))

/-- tree_decomp.pyx:327-386; without any point `conv_hull` is `None` -/
def prune (dim : Nat) (d : Dict Nat (List (List K))) : Except Err (List (Nat × List K)) :=
  if dim = 1 then .ok (prune1 d)
  else if d.isEmpty then .error .attributeError
  else .ok (hull dim d)

/-- tree_decomp.pyx:218-386: one part -/
def solvePart (p : Nat) (ub : Nat) (thr : K) (pts : List (List (Pt K))) : Except Err (List (Pt K)) :=
  if syntaxOk c parts p then do
    let d ← (pick (view c parts p) (formula c parts p)).foldlM (fun d a => do
      let states ← chosen (view c parts p) a
      let new ← handle lin c parts p states ub thr pts
      .ok (addPoints (inputs c parts p) d new)) []
    let kept ← prune hull (inputs c parts p).length d
    .ok (kept.map fun e => ⟨e.1, (inputs c parts p).zip e.2⟩)
  else .error .valueError

/-- tree_decomp.pyx:218: the parts in reverse topological order -/
def solveParts (ub : Nat) (thr : K) (order : List Nat) : Except Err (Dict Nat (List (Pt K))) :=
  order.foldlM (fun (acc : Dict Nat (List (Pt K))) p => do
    let pts ← (sucs c parts p).mapM fun q =>
      match acc.get? q with
      | some l => Except.ok l
      | none => .error .keyError
    let r ← solvePart lin c parts hull p ub thr pts
    .ok (acc.set p r)) []

/-- tree_decomp.pyx:184-391 `min_witnesses_from_tree_decomp`; `min([])` is a `ValueError` -/
def minWitnesses (order : List Nat) (thr : K) (ub : Nat) : Except Err Nat :=
  if ∀ p ∈ parts, ∀ v ∈ p, v < c.n then do
    let d ← solveParts lin c parts hull ub thr order
    match order.getLast? with
    | none => .error .indexError
    | some root =>
      match (((d.get? root).getD []).map Pt.states).min? with
      | none => .error .valueError
      | some k => .ok k
  else .error .valueError

end

end Verif.Model.TreeDecomp
