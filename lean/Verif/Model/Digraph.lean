import Verif.Model.Subsystem
import Verif.Model.Text
/-!
# Pictures: `MDP.digraph`, `DTMC.digraph`, `Subsystem.digraph`

A `graphviz.Digraph` is the list of the `node` calls and the list of the `edge` calls.  The functions `state_map`,
`trans_map` and `action_map` are parameters; they are assumed to depend on their arguments only and to return new
dictionaries (`Subsystem.digraph` changes the dictionary returned by `action_map` in place).
-/

namespace Verif.Model

/-- keyword arguments of `node` and `edge` -/
abbrev Attrs := Dict String (List Char)

/-- `{ **a, **b }` -/
def Attrs.join (a b : Attrs) : Attrs := b.foldl (fun d kv => d.set kv.1 kv.2) a

structure Digraph where
  nodes : List (List Char × Attrs)
  edges : List (List Char × List Char × Attrs)
  deriving DecidableEq, Repr

namespace Digraph
open Text

/-- `str(node)` (mdp.py:100, dtmc.py:88) -/
def stateName (s : Nat) : List Char := fmtD s

/-- mdp.py:107 `"%s-%s" % (source,action)` -/
def actionName (s a : Nat) : List Char := fmtD s ++ '-' :: fmtD a

/-- the variables `dg`, `existing_nodes`, `existing_state_action_pairs` -/
structure St where
  g : Digraph
  seen : List Nat
  rows : List Nat

variable {K : Type}

/-- the functions of a `VisualizationConfig` (graphviz_utils.py:102-106); `action` returns the entries `node` and `edge` -/
structure Maps (K : Type) where
  state : Nat → List String → Except Err Attrs
  trans : Nat → Nat → Nat → K → Except Err Attrs
  action : Nat → Nat → List String → Except Err (Attrs × Attrs)

/-- the functions of a `DTMCVisualizationConfig` (graphviz_utils.py:108-111) -/
structure DTMCMaps (K : Type) where
  state : Nat → List String → Except Err Attrs
  trans : Nat → Nat → K → Except Err Attrs

/-- mdp.py:97-101, dtmc.py:85-89: one pass of the loop over `[source, dest]` -/
def addState (M : Sys K) (sm : Nat → List String → Except Err Attrs) (st : St) (v : Nat) : Except Err St :=
  if v ∈ st.seen then .ok st
  else do
    let ls ← M.labelsByState v
    let x ← sm v ls
    .ok { st with g := { st.g with nodes := st.g.nodes ++ [(stateName v, x)] }, seen := st.seen ++ [v] }

/-- mdp.py:93-114: one pass of the loop over `P.items()` -/
def mdpStep (M : Sys K) (v : Maps K) (st : St) (e : (Nat × Nat) × K) : Except Err St :=
  match invGet? M.idx e.1.1 with
  | none => .error .keyError
  | some (s, a) => do
    let st ← addState M v.state st s
    let st ← addState M v.state st e.1.2
    let t ← v.trans s a e.1.2 e.2
    let ls ← M.labelsByAction (s, a)
    let x ← v.action s a ls
    let st := if e.1.1 ∈ st.rows then st
      else ⟨⟨st.g.nodes ++ [(actionName s a, x.1)], st.g.edges ++ [(stateName s, actionName s a, x.2)]⟩, st.seen, st.rows ++ [e.1.1]⟩
    .ok { st with g := { st.g with edges := st.g.edges ++ [(actionName s a, stateName e.1.2, t)] } }

/-- mdp.py:36-116 `MDP.digraph` (the graph attribute `size` for `small=True` is left out) -/
def mdp (M : Sys K) (v : Maps K) : Except Err Digraph := do
  let st ← M.P.items.foldlM (mdpStep M v) ⟨⟨[], []⟩, [], []⟩
  .ok st.g

/-- dtmc.py:81-95: one pass of the loop over `P.items()` -/
def dtmcStep (M : Sys K) (v : DTMCMaps K) (st : St) (e : (Nat × Nat) × K) : Except Err St :=
  match invGet? M.idx e.1.1 with
  | none => .error .keyError
  | some (s, _) => do
    let st ← addState M v.state st s
    let st ← addState M v.state st e.1.2
    let t ← v.trans s e.1.2 e.2
    .ok { st with g := { st.g with edges := st.g.edges ++ [(stateName s, stateName e.1.2, t)] } }

/-- dtmc.py:42-97 `DTMC.digraph` -/
def dtmc (M : Sys K) (v : DTMCMaps K) : Except Err Digraph := do
  let st ← M.P.items.foldlM (dtmcStep M v) ⟨⟨[], []⟩, [], []⟩
  .ok st.g

/-- subsystem.py:198-199, 216-217: `"c[{}]={:.5f}"` in a new line after the old label; `fmt` is `{:.5f}` -/
def withWeight (fmt : K → List Char) (label : List Char) (i : Nat) (c : K) : List Char :=
  let w := 'c' :: '[' :: fmtD i ++ ']' :: '=' :: fmt c
  if label = [] then w else label ++ '\n' :: w

variable [Field K] [LinearOrder K]

/-- subsystem.py:187-189, 205-206 `in_subsystem` -/
def inSub (m : List Bool) (s : Nat) : Except Err Bool :=
  if s = m.length ∨ s = m.length + 1 then .ok false
  else
    match m[s]? with
    | none => .error .indexError
    | some b => .ok b

/-- subsystem.py:192 `show_state_weights`; the class of the subsystem is asked for only if `certform == "min"` fails -/
def stateWeights (ρ : Graph.Rnd) (x : Subsystem K) (show_weights : Bool) : Except Err Bool :=
  if show_weights = false then .ok false
  else
    match x.mode with
    | .min => .ok true
    | .max =>
      match x.subsys ρ with
      | .error e => .error e
      | .ok r => .ok r.rf.sys.dtmc

/-- subsystem.py:186-202 `state_map`; `weights` is the value of `show_state_weights` (line 192) or the exception raised there -/
def stateBy (weights : Except Err Bool) (cert : List K) (m : List Bool) (fmt : K → List Char)
    (sm : Nat → List String → Except Err Attrs) (s : Nat) (ls : List String) : Except Err Attrs := do
  let inside ← inSub m s
  let a ← sm s ls
  let weights ← weights
  if ¬ (inside = true ∨ s = m.length + 1 ∨ s = m.length) then
    .ok [("label", []), ("color", "azure3".toList), ("style", "filled".toList)]
  else if weights = true ∧ inside = true then
    match a.get? "label", cert[s]? with
    | some l, some c => .ok (a.set "label" (withWeight fmt l s c))
    | none, _ => .error .keyError
    | _, none => .error .indexError
  else .ok a

/-- subsystem.py:186-202 `state_map` for a subsystem of a reachability form -/
def subState (ρ : Graph.Rnd) (x : Subsystem K) (m : List Bool) (fmt : K → List Char) (show_weights : Bool)
    (sm : Nat → List String → Except Err Attrs) (s : Nat) (ls : List String) : Except Err Attrs :=
  stateBy (stateWeights ρ x show_weights) x.cert m fmt sm s ls

/-- subsystem.py:204-220 `action_map` -/
def subAction (x : Subsystem K) (m : List Bool) (fmt : K → List Char) (show_weights : Bool)
    (am : Nat → Nat → List String → Except Err (Attrs × Attrs)) (s a : Nat) (ls : List String) : Except Err (Attrs × Attrs) := do
  let inside ← inSub m s
  let r ← am s a ls
  let node := Attrs.join [("label", [])] r.1
  if show_weights = true ∧ x.mode = .max ∧ inside = true then
    match x.rf.sys.idx.get? (s, a) with
    | none => .error .keyError
    | some i =>
      match x.cert[i]?, node.get? "label" with
      | some c, some l => .ok ((node.set "label" (withWeight fmt l i c)).set "shape" "rectangle".toList, r.2)
      | none, _ => .error .indexError
      | _, none => .error .keyError
  else .ok (node, r.2)

/-- subsystem.py:176-223 `Subsystem.digraph` of a subsystem of an MDP -/
def subMDP (ρ : Graph.Rnd) (x : Subsystem K) (fmt : K → List Char) (show_weights : Bool) (v : Maps K) : Except Err Digraph := do
  let m ← x.mask
  mdp x.rf.sys ⟨subState ρ x m fmt show_weights v.state, v.trans, subAction x m fmt show_weights v.action⟩

/-- the same for a subsystem of a DTMC, whose `digraph` ignores `action_map` -/
def subDTMC (ρ : Graph.Rnd) (x : Subsystem K) (fmt : K → List Char) (show_weights : Bool) (v : DTMCMaps K) : Except Err Digraph := do
  let m ← x.mask
  dtmc x.rf.sys ⟨subState ρ x m fmt show_weights v.state, v.trans⟩

end Digraph
end Verif.Model
