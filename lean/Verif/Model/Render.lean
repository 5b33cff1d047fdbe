import Verif.Model.Argparse
import Verif.Model.StdMaps
/-!
# `switss render`: bin/switss:158-172

The picture itself is described in `Model/Digraph.lean` and `Model/StdMaps.lean`.  Here the command is put together: the model is
read from the disk and the picture is handed to the library graphviz, which works with two files.  Assumptions about the library
(python package `graphviz`): `render(output, cleanup=True)` writes the text of the graph to the file `output`, lets the program
`dot` write `output.svg`, and removes the file `output` afterwards; if `dot` fails or is missing it raises an exception before the
removal.  Not modelled: directories created for the output, the viewer opened by `--view`, the printed text.
-/

namespace Verif.Model.Render
open Cli Files

variable {F K : Type}

/-- what a picture depends on besides the model -/
structure Viz where
  /-- md5 and `repr` of a string, see `Model/StdMaps.lean` -/
  hash : List Char → Nat
  rep : String → List Char
  /-- `graph.source` -/
  source : Digraph → List Char
  /-- the text that `dot -Tsvg` makes of a source; `none` if it fails -/
  dot : List Char → Option (List Char)

variable [Field K] [LinearOrder K] [IsStrictOrderedRing K] [FloorRing K]

/-- bin/switss:161-168: the graph; the functions for transitions and actions are always the default ones -/
def graph (v : Viz) (kind : Kind) (coloring : Option String) (M : Sys K) : Except Err Digraph :=
  let sm := match coloring with
    | none => StdMaps.state v.hash v.rep
    | some arg => StdMaps.renderState v.hash v.rep arg.toList
  match kind with
  | .mdp => Digraph.mdp M { StdMaps.maps v.hash v.rep with state := sm }
  | .dtmc => Digraph.dtmc M { StdMaps.dtmcMaps v.hash v.rep with state := sm }

/-- bin/switss:169-172 `graph.render(output, cleanup=True)`.  A failure of `dot` is an exception of graphviz, an `osError` here. -/
def draw (w : World F K) [DecidableEq F] (v : Viz) (out : String) (g : Digraph) (d : Disk F) : Disk F × Outcome :=
  if w.canWrite out then
    let d1 := store w d out (v.source g)
    match v.dot (v.source g) with
    | none => (d1, .osError)
    | some svg =>
      if w.canWrite (out ++ ".svg") then
        let d2 := store w d1 (out ++ ".svg") svg
        (fun f => if f = w.loc out then none else d2 f, .exit .done)
      else (d1, .osError)
  else (d, .osError)

/-- bin/switss:158-172 `renderargs` -/
def run (w : World F K) [DecidableEq F] (v : Viz) (kind : Kind) (path : String) (out coloring : Option String) (d : Disk F) :
    Disk F × Outcome :=
  match readModel w d path with
  | .error o => (d, o)
  | .ok (lab, tra) =>
    match loadModel (K := K) kind lab tra with
    | .error e => (d, .exit (.of e))
    | .ok M =>
      match graph v kind coloring M with
      | .error e => (d, .exit (.of e))
      | .ok g => draw w v (out.getD (path ++ "-render")) g d

open Argparse

/-- bin/switss:329-333: the whole script, with all commands; `Argparse.script` leaves out `render` -/
def script (w : World F K) [DecidableEq F] (v : Viz) (ws : List Word) (d : Disk F) : Disk F × List Bool × Ran :=
  match Argparse.script w ws d with
  | some r => r
  | none =>
    match parse ws with
    | .error e => (d, [], .ended e)
    | .ok (_, ns) =>
      let r := run w v ns.kind (ns.str "modelpath" "") (ns.str? "output") (ns.str? "coloring") d
      (r.1, [], .done r.2)

end Verif.Model.Render
