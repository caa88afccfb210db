import Verif.Model.MultiNormal

/-! # Model of `ClusterGraph::setNormalApprox` -/
namespace Verif.Gauss

open Verif.Eigen Verif.Items Verif.Belief Verif.ClusterGraph

variable {γ : Type}

/-- src/ClusterGraph.cpp:50-52 (and 56-58) with src/MixedContinuousBelief.cpp:44: the entries of
the global mean and precision at the items, taken as positions. A negative item would be an
access before the vector (undefined). -/
noncomputable def restrict {n : ℕ} (mean : Fin n → ℝ) (precision : Matrix (Fin n) (Fin n) ℝ)
    (items : List ℤ) : Res NB :=
  if ∀ x ∈ items, 0 ≤ x then do
    let m ← getVectorSubset mean (fun k : Fin items.length => items[k].toNat)
    let p ← getMatrixSubset precision (fun k : Fin items.length => items[k].toNat)
    return { items := items, normal := MN.ofMeanPrecision m p, logNC := 0 }
  else Res.ub

/-- src/MixedContinuousBelief.cpp:40-45 `setNormalApprox(mean, precision)` with the restricted
mean and precision. -/
noncomputable def restrictMixed {n : ℕ} (mean : Fin n → ℝ) (precision : Matrix (Fin n) (Fin n) ℝ)
    (b : Mixed γ NB) : Res (Mixed γ NB) := do
  let nb ← restrict mean precision b.items
  return b.setNormalApprox nb

/-- The same for the belief of an edge. Used for src/ClusterGraph.cpp:49-60. -/
noncomputable def restrictEdge {n : ℕ} (mean : Fin n → ℝ) (precision : Matrix (Fin n) (Fin n) ℝ)
    (e : Edge (Mixed γ NB)) : Res (Edge (Mixed γ NB)) := do
  let b ← restrictMixed mean precision e.belief
  return { first := e.first, second := e.second, belief := b }

/-- src/ClusterGraph.cpp:49-60, the first two loops of `setNormalApprox`. -/
noncomputable def initNormal {n : ℕ} (mean : Fin n → ℝ) (precision : Matrix (Fin n) (Fin n) ℝ)
    (c : CG (Mixed γ NB)) : Res (CG (Mixed γ NB)) := do
  let clusters ← c.clusters.mapM (restrictMixed mean precision)
  let edges ← c.edges.mapM (restrictEdge mean precision)
  return { clusters := clusters, edges := edges }

/-- src/ClusterGraph.cpp:45-72 `setNormalApprox`. -/
noncomputable def setNormalApprox (fo : FactorOps γ) (store : Store γ NB) {n : ℕ}
    (mean : Fin n → ℝ) (precision : Matrix (Fin n) (Fin n) ℝ) (c : CG (Mixed γ NB)) :
    Res (CG (Mixed γ NB)) := do
  let c0 ← initNormal mean precision c
  let c1 ← calibrateInternal (Mixed.ops fo NB.ops store) c0 true true
  let c2 ← calibrateInternal (Mixed.ops fo NB.ops store) c1 false true
  return { clusters := c2.clusters.map Mixed.fixNormalApprox
           edges := c2.edges.map fun e =>
             { first := e.first, second := e.second, belief := e.belief.fixNormalApprox } }

end Verif.Gauss
