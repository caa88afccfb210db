import Verif.Model.ClusterGraph

/-!
# Model of `src/ClusterGraph.cpp`: calibration in both directions, margins of a cluster graph
-/
namespace Verif.ClusterGraph

open Verif.Items

variable {β : Type}

/-- src/ClusterGraph.cpp:110-113 `calibrateBackward`. -/
def calibrateBackward (ops : Ops β) (c : CG β) : Res (CG β) := calibrateInternal ops c false false

/-- src/ClusterGraph.cpp:115-120 `calibrate`, without the flag `isCalibrated_`. -/
def calibrate (ops : Ops β) (c : CG β) : Res (CG β) := do
  let c1 ← calibrateForward ops c
  calibrateBackward ops c1

/-- src/ClusterGraph.cpp:86-95, the loop of `margin`: the first cluster that contains the items;
`clusterId` counts the clusters passed. Without any cluster the loop does nothing. -/
def firstMargin (ops : Ops β) (items : List ℤ) : List β → Res β
  | [] => Except.ok (ops.ofItems items)
  | [cluster] =>
    if isSubset items (ops.items cluster) then ops.margin cluster items false
    else Res.raise "items not fully contained in any cluster"
  | cluster :: rest =>
    if isSubset items (ops.items cluster) then ops.margin cluster items false
    else firstMargin ops items rest

/-- src/ClusterGraph.cpp:81-82: calibrate unless the flag `isCalibrated_` is set. -/
def calibrated (ops : Ops β) (s : CG β × Bool) : Res (CG β) :=
  if s.2 then Except.ok s.1 else calibrate ops s.1

/-- src/ClusterGraph.cpp:79-97 `margin`; the flag is `isCalibrated_`. Returns the marginal belief and
the new state. -/
def margin (ops : Ops β) (s : CG β × Bool) (items : List ℤ) : Res (β × CG β × Bool) := do
  let c ← calibrated ops s
  let b ← firstMargin ops items c.clusters
  return (b, c, true)

/-- Several calls of `margin`, one after the other. Used for src/ClusterGraph.cpp:79-97. -/
def margins (ops : Ops β) : CG β × Bool → List (List ℤ) → Res (List β)
  | _, [] => Except.ok []
  | s, items :: rest => do
    let r ← margin ops s items
    let bs ← margins ops r.2 rest
    return r.1 :: bs

end Verif.ClusterGraph
