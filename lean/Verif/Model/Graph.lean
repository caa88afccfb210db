import Verif.Base.Res
import Verif.Model.Items
import Mathlib.Logic.Function.Basic

/-!
# Model of `src/Graph.cpp`, `inst/include/Graph.h`, `inst/include/dependenceGraph.h`

`boost::adjacency_list<vecS, vecS, undirectedS, vertexProperties>`: vertices are numbered
in order of insertion, each vertex has a vector of out-edges in order of insertion, an
undirected edge is recorded at both of its ends (twice at a self-loop). `std::map<int, Vertex>`
is a partial function. The counters `numVertices_`, `numEdges_` are `int`s; their increments
and decrements are modelled without overflow, the product in `isComplete` goes through the
arithmetic parameter `ar`.
-/
namespace Verif.DepGraph

/-- inst/include/Graph.h:8-12 `vertexProperties`, with the out-edge vector that Boost keeps
for the vertex (targets only). -/
structure Vtx where
  item : ℤ
  active : Bool
  out : List ℕ

/-- inst/include/Graph.h:14-57 class `Graph`: `graph_` (vertices), `positions_`,
`numVertices_`, `numEdges_`. -/
structure Graph where
  verts : List Vtx
  positions : ℤ → Option ℕ
  numVertices : ℤ
  numEdges : ℤ

/-- `positions_.at(i)` (src/Graph.cpp:23, 34, 35, 93, 108): throws when absent. -/
def posAt (g : Graph) (i : ℤ) : Res ℕ :=
  match g.positions i with
  | some v => Except.ok v
  | none => Res.raise "out_of_range"

/-- src/Graph.cpp:12-19 `addNode`. -/
def addNode (g : Graph) (item : ℤ) : Graph :=
  let v := g.verts.length
  { verts := g.verts ++ [{ item := item, active := true, out := [] }]
    positions := Function.update g.positions item (some v)
    numVertices := g.numVertices + 1
    numEdges := g.numEdges }

/-- src/Graph.cpp:4-10, constructor from an item list. -/
def ofItems (items : List ℤ) : Graph :=
  items.foldl addNode
    { verts := [], positions := fun _ => none, numVertices := 0, numEdges := 0 }

/-- src/Graph.cpp:89-102 `findDegree`: number of active adjacent vertices. -/
def findDegree (g : Graph) (i : ℤ) : Res ℤ := do
  let ri ← posAt g i
  let u ← nth g.verts ri
  u.out.foldlM (fun degree w => do
    let x ← nth g.verts w
    return if x.active then degree + 1 else degree) 0

/-- src/Graph.cpp:104-118 `findNeighbours`: active adjacent items, in out-edge order. -/
def findNeighbours (g : Graph) (i : ℤ) : Res (List ℤ) := do
  let ri ← posAt g i
  let u ← nth g.verts ri
  u.out.foldlM (fun neighbours w => do
    let x ← nth g.verts w
    return if x.active then neighbours ++ [x.item] else neighbours) []

/-- src/Graph.cpp:21-30 `removeNode`: the vertex is only marked inactive; its edges stay in
the Boost graph. -/
def removeNode (g : Graph) (i : ℤ) : Res Graph := do
  let ri ← posAt g i
  let u ← nth g.verts ri
  if u.active then
    let di ← findDegree g i
    let vs ← setN g.verts ri { u with active := false }
    return { g with verts := vs, numVertices := g.numVertices - 1, numEdges := g.numEdges - di }
  else
    return g

/-- src/Graph.cpp:38-41 and 42-45: activate a vertex that was removed. -/
def activate (g : Graph) (r : ℕ) : Res Graph := do
  let u ← nth g.verts r
  if u.active then
    return g
  else
    let vs ← setN g.verts r { u with active := true }
    return { g with verts := vs, numVertices := g.numVertices + 1 }

/-- `boost::add_edge(ri, rj, graph_)` for an undirected graph: append to the out-edges of
both ends. Used for src/Graph.cpp:47-51. -/
def boostAddEdge (vs : List Vtx) (ri rj : ℕ) : Res (List Vtx) := do
  let u ← nth vs ri
  let vs1 ← setN vs ri { u with out := u.out ++ [rj] }
  let w ← nth vs1 rj
  setN vs1 rj { w with out := w.out ++ [ri] }

/-- src/Graph.cpp:47-51: `boost::edge(ri, rj, graph_).second` looks for `rj` among the
out-edges of `ri`; the edge is added and counted when absent. -/
def addIfAbsent (g : Graph) (ri rj : ℕ) : Res Graph := do
  let u ← nth g.verts ri
  if u.out.contains rj then
    return g
  else
    let vs ← boostAddEdge g.verts ri rj
    return { g with verts := vs, numEdges := g.numEdges + 1 }

/-- src/Graph.cpp:32-52 `addEdge`. -/
def addEdge (g : Graph) (i j : ℤ) : Res Graph := do
  let ri ← posAt g i
  let rj ← posAt g j
  let g1 ← activate g ri
  let g2 ← activate g1 rj
  addIfAbsent g2 ri rj

/-- src/Graph.cpp:60-61: the inner loop of `connect`. -/
def connectFrom (g : Graph) (i : ℤ) (rest : List ℤ) : Res Graph :=
  rest.foldlM (fun g j => addEdge g i j) g

/-- src/Graph.cpp:55-63 `connect`: an edge for every pair of positions of the list. -/
def connect (g : Graph) : List ℤ → Res Graph
  | [] => return g
  | i :: rest => do
    let g1 ← connectFrom g i rest
    connect g1 rest

/-- src/Graph.cpp:75-87 `getItems`: items of active vertices in vertex order. -/
def getItems (g : Graph) : List ℤ :=
  g.verts.filterMap fun u => if u.active then some u.item else none

/-- src/Graph.cpp:120-124 `isComplete`. The `int` product `numVertices * (numVertices - 1)`
goes through `ar`; `/` is C++ division. -/
def isComplete (ar : Arith) (g : Graph) : Res Bool := do
  let m ← ar (g.numVertices - 1)
  let p ← ar (g.numVertices * m)
  let possibleEdges ← divA ar p 2
  return g.numEdges == possibleEdges

/-- inst/include/dependenceGraph.h:13-27 `makeDependenceGraph`, on the item lists of the
beliefs. -/
def makeDependenceGraph (beliefs : List (List ℤ)) : Res Graph := do
  let items := beliefs.foldl Items.findItemsUnion []
  beliefs.foldlM connect (ofItems items)

end Verif.DepGraph
