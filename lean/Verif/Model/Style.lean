import Verif.Model.Digraph
import Verif.Model.Reduce
/-!
# How reachability forms are drawn: `switss/model/reachability_form.py`

A form made by the constructor is drawn with the functions of the system it was made from; a form made by `reduce` gets
functions that translate its states and actions back to those of the given system.  The functions are the parameters of
`Model/Digraph`.
-/

namespace Verif.Model.Style
open Digraph

variable {K : Type}

/-- reachability_form.py:89-98, 103-112: the default look of goal (`green`) and fail (`red`) for an MDP; `trans` is
`std_trans_map_mdp` -/
def stdMDP (color : String) (label : String) (trans : Nat → Nat → Nat → K → Except Err Attrs) : Maps K where
  state _ _ := .ok [("color", color.toList), ("style", "filled".toList), ("label", label.toList)]
  trans := trans
  action _ _ _ := .ok ([("shape", "point".toList)], [("dir", "none".toList)])

/-- the same for a DTMC -/
def stdDTMC (color : String) (label : String) (trans : Nat → Nat → K → Except Err Attrs) : DTMCMaps K where
  state _ _ := .ok [("color", color.toList), ("style", "filled".toList), ("label", label.toList)]
  trans := trans

variable [Field K] [LinearOrder K]

/-- `bidict.inv[x]` -/
def back {α β : Type} [DecidableEq α] [DecidableEq β] (d : Dict α β) (x : β) : Except Err α :=
  match invGet? d x with
  | none => .error .keyError
  | some y => .ok y

/-- reachability_form.py:436-442 `_state_style` -/
def adaptState (r : Reduce.Result K) (tgt fail v : Nat → List String → Except Err Attrs) (s : Nat) (ls : List String) :
    Except Err Attrs :=
  if s = r.rf.sys.N - 2 then tgt s ls
  else if s = r.rf.sys.N - 1 then fail s ls
  else do
    let o ← back r.cols s
    v o ls

/-- reachability_form.py:433-473 `__adapt_style` for an MDP: `_state_style`, `_trans_style_mdp`, `_action_style`.  `tgt` and
`fail` are the styles set for goal and fail when the picture is drawn, `v` the style of the given system. -/
def adaptMDP (r : Reduce.Result K) (tgt fail v : Maps K) : Maps K where
  state := adaptState r tgt.state fail.state v.state
  trans s a t p :=
    if t = r.rf.sys.N - 2 then tgt.trans s a t p
    else if t = r.rf.sys.N - 1 then fail.trans s a t p
    else do
      let o ← back r.rows (s, a)
      let u ← back r.cols t
      v.trans o.1 o.2 u p
  action s a ls :=
    if s = r.rf.sys.N - 2 then tgt.action s a ls
    else if s = r.rf.sys.N - 1 then fail.action s a ls
    else do
      let o ← back r.rows (s, a)
      v.action o.1 o.2 ls

/-- reachability_form.py:433-473 `__adapt_style` for a DTMC: `_state_style`, `_trans_style_dtmc` -/
def adaptDTMC (r : Reduce.Result K) (tgt fail v : DTMCMaps K) : DTMCMaps K where
  state := adaptState r tgt.state fail.state v.state
  trans s t p :=
    if t = r.rf.sys.N - 2 then tgt.trans s t p
    else if t = r.rf.sys.N - 1 then fail.trans s t p
    else do
      let o ← back r.cols s
      let u ← back r.cols t
      v.trans o u p

/-- where a form comes from: the constructor, which leaves `system.visualization` as it is (reachability_form.py:23-67), or
`reduce` (line 367) -/
inductive Origin (K : Type)
  | made (rf : RF K)
  | reduced (r : Reduce.Result K)

/-- a form with the styles for goal and fail (`__target_visualization_style`, `__fail_visualization_style`) and the style `v` of
the system that was given to the constructor or to `reduce` -/
structure Drawn (K : Type) where
  origin : Origin K
  tgt : Maps K
  fail : Maps K
  v : Maps K

/-- reachability_form.py:86-98 with an argument -/
def Drawn.setTarget (x : Drawn K) (m : Maps K) : Drawn K := { x with tgt := m }

/-- reachability_form.py:100-112 with an argument -/
def Drawn.setFail (x : Drawn K) (m : Maps K) : Drawn K := { x with fail := m }

/-- `rf.system.digraph()` for an MDP -/
def Drawn.picture (x : Drawn K) : Except Err Digraph :=
  match x.origin with
  | .made rf => Digraph.mdp rf.sys x.v
  | .reduced r => Digraph.mdp r.rf.sys (adaptMDP r x.tgt x.fail x.v)

end Verif.Model.Style
