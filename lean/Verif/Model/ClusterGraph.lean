import Verif.Base.Res
import Verif.Model.Items
import Verif.Model.Graph
import Mathlib.Data.Real.Basic

/-!
# Model of `src/ClusterGraph.cpp`, `inst/include/ClusterGraph.h`

The model is generic in the belief type `β` (in the code `MixedContinuousBelief`, modelled
in `Verif.Model.Belief`); `Ops` lists the member functions of the belief type that the
cluster graph calls. `parameters_` is fixed inside `Ops`: `ClusterGraph` never changes it
between messages.
-/
namespace Verif.ClusterGraph

open Verif.Items Verif.DepGraph

/-- The belief operations called in src/ClusterGraph.cpp: `getItems`, construction from an
item list, `operator*=`, `operator/=`, `margin(items, normalApproxOnly, parameters_)`,
`computeLogNormalizingConstant(parameters_)`, `isProper(parameters_)`. -/
structure Ops (β : Type) where
  items : β → List ℤ
  ofItems : List ℤ → β
  mul : β → β → Res β
  div : β → β → Res β
  margin : β → List ℤ → Bool → Res β
  logNorm : β → Res ℝ
  isProper : β → Res Bool

/-- inst/include/ClusterGraph.h:76-87 `ClusterGraphEdge`. -/
structure Edge (β : Type) where
  first : ℤ
  second : ℤ
  belief : β

/-- inst/include/ClusterGraph.h:57-60: `clusters_`, `edges_`. (`isCalibrated_` only guards
repeated calls of `calibrate` in `margin`.) -/
structure CG (β : Type) where
  clusters : List β
  edges : List (Edge β)

variable {β : Type}

/-- `v.at(i)` with an `int` index: a negative index converts to a huge `size_t` and throws.
Used for src/ClusterGraph.cpp:134-157. -/
def atZ {α : Type} (l : List α) (i : ℤ) : Res α :=
  if i < 0 then Res.raise "out_of_range" else atE l i.toNat

/-- `v.at(i) = a` with an `int` index. Used for src/ClusterGraph.cpp:134-157. -/
def setZ {α : Type} (l : List α) (i : ℤ) (a : α) : Res (List α) :=
  if i < 0 then Res.raise "out_of_range" else setE l i.toNat a

/-- src/ClusterGraph.cpp:222 and 258: `edges_.at(edgeId).secondClusterId_ = id`. -/
def setSecond (edges : List (Edge β)) (edgeId : ℕ) (id : ℤ) : Res (List (Edge β)) := do
  let e ← atE edges edgeId
  setE edges edgeId { e with second := id }

/-- src/ClusterGraph.cpp:235-243, loop body: state `(itemToEliminate, minSeparatorSize)`. -/
def chooseStep (g : Graph) (s : ℤ × ℕ) (candidate : ℤ) : Res (ℤ × ℕ) := do
  let candidateSeparator ← findNeighbours g candidate
  return if candidateSeparator.length < s.2 then (candidate, candidateSeparator.length) else s

/-- src/ClusterGraph.cpp:226-243: choice of the item to eliminate. -/
def chooseItem (g : Graph) : Res ℤ := do
  let remainingItems := getItems g
  let c0 ← atE remainingItems 0
  let s ← remainingItems.foldlM (chooseStep g) (c0, remainingItems.length)
  return s.1

/-- src/ClusterGraph.cpp:256-262, loop body: state `(edges_, newHangingEdgeIds)`. -/
def attachStep (ops : Ops β) (cluster : List ℤ) (newClusterId : ℤ)
    (s : List (Edge β) × List ℕ) (edgeId : ℕ) : Res (List (Edge β) × List ℕ) := do
  let e ← atE s.1 edgeId
  if isSubset (ops.items e.belief) cluster then
    let edges ← setSecond s.1 edgeId newClusterId
    return (edges, s.2)
  else
    return (s.1, s.2 ++ [edgeId])

/-- src/ClusterGraph.cpp:221-223, the branch for a complete graph. -/
def finish (ops : Ops β) (g : Graph) (c : CG β) (hanging : List ℕ) : Res (CG β) := do
  let edges ← hanging.foldlM (fun es id => setSecond es id (c.clusters.length : ℤ)) c.edges
  return { clusters := c.clusters ++ [ops.ofItems (getItems g)], edges := edges }

/-- src/ClusterGraph.cpp:226-266, one elimination step: new graph, clusters, edges and
hanging edges, as passed to the recursive call. -/
def eliminate (ops : Ops β) (g : Graph) (c : CG β) (hanging : List ℕ) :
    Res (Graph × CG β × List ℕ) := do
  let item ← chooseItem g
  let separator ← findNeighbours g item
  let cluster := findItemsUnion [item] separator
  let newClusterId : ℤ := c.clusters.length
  let newEdgeId := c.edges.length
  let edges0 := c.edges ++
    [{ first := newClusterId, second := -1, belief := ops.ofItems separator }]
  let s ← hanging.foldlM (attachStep ops cluster newClusterId) (edges0, [])
  let g1 ← connect g separator
  let g2 ← removeNode g1 item
  return (g2, { clusters := c.clusters ++ [ops.ofItems cluster], edges := s.1 },
    s.2 ++ [newEdgeId])

/-- src/ClusterGraph.cpp:217-270 `initializeInternal`. `fuel` bounds the recursion depth
(running out of it, i.e. non-termination, is an error); the proofs show that the number of
vertices is always enough. -/
def initializeInternal (ar : Arith) (ops : Ops β) :
    ℕ → Graph → CG β → List ℕ → Res (CG β)
  | 0, _, _, _ => Res.raise "no termination"
  | fuel + 1, g, c, hanging => do
    let complete ← isComplete ar g
    if complete then finish ops g c hanging
    else
      let s ← eliminate ops g c hanging
      initializeInternal ar ops fuel s.1 s.2.1 s.2.2

/-- src/ClusterGraph.cpp:32-37 `initialize`, starting from the empty cluster graph. -/
def initStructure (ar : Arith) (ops : Ops β) (g : Graph) : Res (CG β) :=
  initializeInternal ar ops (g.verts.length + 1) g { clusters := [], edges := [] } []

/-- src/ClusterGraph.cpp:318-323: multiply the contained beliefs into the cluster
(`multiply` is always true, src/ClusterGraph.cpp:44). -/
def mulAll (ops : Ops β) (cluster : β) (bs : List β) : Res β := bs.foldlM ops.mul cluster

/-- src/ClusterGraph.cpp:301-325 `populateBelief` and the loop of `populateClusters`
(lines 280-288): each cluster in turn takes the beliefs contained in it from the remaining
ones. -/
def populateClusters (ops : Ops β) : List β → List β → Res (List β)
  | [], _ => return []
  | cluster :: rest, beliefs => do
    let isContained := fun b => isSubset (ops.items b) (ops.items cluster)
    let cluster' ← mulAll ops cluster (beliefs.filter isContained)
    let rest' ← populateClusters ops rest (beliefs.filter fun b => !isContained b)
    return cluster' :: rest'

/-- src/ClusterGraph.cpp:40-45 `populate` and 273-277 `populateInternal`. -/
def populate (ops : Ops β) (c : CG β) (beliefs : List β) : Res (CG β) := do
  let cl ← populateClusters ops c.clusters beliefs
  return { c with clusters := cl }

/-- src/ClusterGraph.cpp:23-29, constructor from beliefs. -/
def ofBeliefs (ar : Arith) (ops : Ops β) (beliefs : List β) : Res (CG β) := do
  let g ← makeDependenceGraph (beliefs.map ops.items)
  let c ← initStructure ar ops g
  populate ops c beliefs

/-- src/ClusterGraph.cpp:182-188 `width`. -/
def width (ops : Ops β) (c : CG β) : ℕ :=
  c.clusters.foldl (fun w cl => max w (ops.items cl).length) 0

/-- src/ClusterGraph.cpp:138-145: the pair `(i, j)` of source and target cluster. -/
def ends (e : Edge β) (forward : Bool) : ℤ × ℤ :=
  if forward then (e.first, e.second) else (e.second, e.first)

/-- src/ClusterGraph.cpp:134-157 `passMessage` for the edge number `k` (291-298
`projectClusterOntoEdge` inlined). -/
def passMessage (ops : Ops β) (c : CG β) (k : ℕ) (forward normalApproxOnly : Bool) :
    Res (CG β) := do
  let e ← nth c.edges k
  let ij := ends e forward
  let ci ← atZ c.clusters ij.1
  let b ← ops.margin ci (ops.items e.belief) normalApproxOnly
  let edges ← setN c.edges k { e with belief := b }
  let cj ← atZ c.clusters ij.2
  let cj1 ← ops.mul cj b
  let cj2 ← ops.div cj1 e.belief
  let clusters ← setZ c.clusters ij.2 cj2
  let proper ← ops.isProper cj2
  if proper then return { clusters := clusters, edges := edges }
  else Res.raise "improper cluster belief after passing message"

/-- src/ClusterGraph.cpp:122-131 `calibrateInternal`: all edges in order, or in reverse
order. -/
def calibrateInternal (ops : Ops β) (c : CG β) (forward normalApproxOnly : Bool) :
    Res (CG β) :=
  let order := if forward then List.range c.edges.length else (List.range c.edges.length).reverse
  order.foldlM (fun c k => passMessage ops c k forward normalApproxOnly) c

/-- src/ClusterGraph.cpp:105-108 `calibrateForward`. -/
def calibrateForward (ops : Ops β) (c : CG β) : Res (CG β) := calibrateInternal ops c true false

/-- src/ClusterGraph.cpp:99-103 `computeLogNormalizingConstant`. -/
def logNormalizingConstant (ops : Ops β) (c : CG β) : Res ℝ := do
  let b ← atZ c.clusters ((c.clusters.length : ℤ) - 1)
  ops.logNorm b

/-- src/ClusterGraph.cpp:208-215 `extractBeliefs`. -/
def extractBeliefs (ops : Ops β) (c : CG β) : Res (List β) :=
  c.edges.foldlM (fun bs e => do
    let b ← atZ bs e.second
    let b' ← ops.div b e.belief
    setZ bs e.second b') c.clusters

end Verif.ClusterGraph
