import Verif.Model.TreeAlgo
/-!
# `switss/utils/graph_utils.py` and the check of a partition in `tree_decomp.pyx`

`gt` is the package graph-tool: a directed graph is a number of vertices and a list of edges (parallel edges and loops are possible).
The number of vertices of the largest strongly connected component (`extract_largest_component`) is a parameter `scc`.
-/

namespace Verif.Model.GraphUtils
open Verif.Model.TreeDecomp (label)

variable {K : Type}

/-- `gt.Graph()` -/
structure GT where
  n : Nat
  edges : List (Nat × Nat)
  deriving DecidableEq, Repr

/-- graph_utils.py:10-16 `underlying_graph`; `G.vertex(i)` raises `ValueError` for a number that is not a vertex -/
def underlyingGraph (P : Dok K) : Except Err GT :=
  P.items.foldlM (fun g e => if e.1.1 < g.n ∧ e.1.2 < g.n then .ok ⟨g.n, g.edges ++ [e.1]⟩ else .error .valueError) ⟨P.cols, []⟩

/-- graph_utils.py:27-34: the edge between two parts is added unless it is there (`add_missing`) -/
def quotientStep (lab : Nat → Nat) (g : GT) (e : Nat × Nat) : GT :=
  if lab e.1 = lab e.2 then g
  else if (lab e.1, lab e.2) ∈ g.edges then g
  else ⟨g.n, g.edges ++ [(lab e.1, lab e.2)]⟩

/-- graph_utils.py:18-36 `quotient`: the graph of the parts, the label of a vertex, whether it is entered from another part.
The edges are visited in the order in which they were added (graph-tool groups them by source). -/
def quotient (G : GT) (parts : List (List Nat)) : Except Err (GT × (Nat → Nat) × (Nat → Bool)) :=
  if ∀ l ∈ parts, ∀ v ∈ l, v < G.n then
    .ok (G.edges.foldl (quotientStep (label parts)) ⟨parts.length, []⟩, label parts,
      fun v => G.edges.any fun e => e.2 == v && label parts e.1 != label parts v)
  else .error .valueError

/-- `max(G.get_in_degrees(G.get_vertices()))` for a graph with vertices -/
def maxInDegree (G : GT) : Nat :=
  ((List.range G.n).map fun v => (G.edges.filter fun e => e.2 == v).length).foldl max 0

/-- tree_decomp.pyx:138-141 `is_tree`; `max` of an empty array raises `ValueError` -/
def isTree (scc : GT → Nat) (G : GT) : Except Err Bool :=
  if G.n = 0 then .error .valueError else .ok (decide (scc G = 1) && decide (maxInDegree G = 1))

/-- tree_decomp.pyx:143-149 `tree_decomp_from_partition_graphtool` (it returns nothing) -/
def treeDecompFromPartition (scc : GT → Nat) (P : Dok K) (parts : List (List Nat)) : Except Err Unit := do
  let G ← underlyingGraph P
  let (D, _, _) ← quotient G parts
  if ← isTree scc D then .ok () else .error .assertion

/-- reachability_form.py:42, 133-137 `rf.P`: the matrix without the last two rows and columns -/
def _root_.Verif.Model.RF.matrix (rf : RF K) : Dok K :=
  ⟨rf.sys.C - 2, rf.sys.N - 2, rf.sys.P.items.filter fun e => decide (e.1.1 < rf.sys.C - 2) && decide (e.1.2 < rf.sys.N - 2)⟩

/-- graph_utils.py:46-49, 51-54: the number of each element, the last one for an element that occurs twice -/
def nodeMap (ns : List Nat) : Dict Nat Nat := ns.zipIdx.foldl (fun d e => Dict.set d e.1 e.2) []

/-- graph_utils.py:38-60 `interface`: line 58 uses the name `node_map`, which is not defined -/
def interface (ns1 ns2 : List Nat) (P : Dok K) : Except Err (Dok K × Dict Nat Nat × Dict Nat Nat) :=
  if P.items.any fun e => decide (e.1.1 ∈ ns1) && decide (e.1.2 ∈ ns2) then .error .nameError
  else .ok (Dok.zero ns1.length ns2.length, nodeMap ns1, nodeMap ns2)

end Verif.Model.GraphUtils
