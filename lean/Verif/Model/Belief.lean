import Verif.Model.ClusterGraph

/-!
# Model of `src/MixedContinuousBelief.cpp`, `src/BeliefBase.cpp`, `src/matrixHelper.cpp`

Generic in the factor type `γ` (in the code `ContinuousBelief`, a pointer to one of
`GLMMBelief`, `NormalBelief`, `SparseBelief` with virtual dispatch, src/ContinuousBelief.cpp:61-84)
and in the type `ν` of normal approximations (`NormalBelief`). Eigen vectors are lists, Eigen
matrices lists of rows; element access `v(i)` is unchecked (Rcpp packages are built with
`NDEBUG`), so an index outside the vector is undefined behaviour. `parameters` is fixed.
-/
namespace Verif.Belief

open Verif.Items

/-- Virtual functions of `ContinuousBeliefBase` (inst/include/ContinuousBeliefBase.h), called
through src/ContinuousBelief.cpp:61-84. -/
structure FactorOps (γ : Type) where
  items : γ → List ℤ
  eval : γ → List ℝ → Res ℝ
  deriv : γ → List ℝ → Res (List ℝ)
  hess : γ → List ℝ → Res (List (List ℝ))

/-- Member functions of `NormalBelief` used by `MixedContinuousBelief`: `getItems`, constructor
from items, `setItems`, `*=`, `/=`, `margin`, `getNormal().getMean()`, `evaluate` (`none` when
the value is not finite). Used for src/MixedContinuousBelief.cpp:16-20. -/
structure NormalOps (ν : Type) where
  items : ν → List ℤ
  ofItems : List ℤ → ν
  setItems : ν → List ℤ → ν
  mul : ν → ν → Res ν
  div : ν → ν → Res ν
  margin : ν → List ℤ → Res ν
  mean : ν → List ℝ
  eval : ν → List ℝ → Res (Option ℝ)

/-- src/MixedContinuousBelief.cpp:63-101: building the stored factor for the integral over
position `relativeItem` (arguments: position, the three closures, the normal approximation, the
remaining items): `IntegratedFunction` followed by the `SparseBelief` constructor. -/
abbrev Store (γ ν : Type) :=
  ℕ → (List ℝ → Res ℝ) → (List ℝ → Res (List ℝ)) → (List ℝ → Res (List (List ℝ))) → ν →
    List ℤ → Res γ

/-- inst/include/MixedContinuousBelief.h: private members and `items_` of `BeliefBase`. -/
structure Mixed (γ ν : Type) where
  items : List ℤ
  beliefs : List γ
  relativeItems : List (List ℕ)
  isInverted : List Bool
  normalApprox : ν
  isNormalFixed : Bool

variable {γ ν : Type}

/-- src/matrixHelper.cpp:3-12 `findSubset` (src/subsetEigen.cpp:40-47 `getVectorSubset` is the
same loop). -/
def findSubset (x : List ℝ) (subset : List ℕ) : Res (List ℝ) := subset.mapM fun i : ℕ => nth x i

/-- src/matrixHelper.cpp:14-21 `addVectorSubset`: the loop over positions `i` of `subset`. -/
def addVectorSubset (vector : List ℝ) (subset : List ℕ) (toAdd : List ℝ) : Res (List ℝ) :=
  subset.zipIdx.foldlM (fun v s => do
    let old ← nth v s.1
    let d ← nth toAdd s.2
    setN v s.1 (old + d)) vector

/-- src/matrixHelper.cpp:23-30 `addMatrixSubset`, inner loop for row position `s`. -/
def addMatrixRow (matrix : List (List ℝ)) (subset : List ℕ) (toAdd : List (List ℝ))
    (s : ℕ × ℕ) : Res (List (List ℝ)) := do
  let row ← nth matrix s.1
  let add ← nth toAdd s.2
  let row' ← addVectorSubset row subset add
  setN matrix s.1 row'

/-- src/matrixHelper.cpp:23-30 `addMatrixSubset`. -/
def addMatrixSubset (matrix : List (List ℝ)) (subset : List ℕ) (toAdd : List (List ℝ)) :
    Res (List (List ℝ)) :=
  subset.zipIdx.foldlM (fun m s => addMatrixRow m subset toAdd s) matrix

namespace Mixed

/-- src/MixedContinuousBelief.cpp:248-254 `recomputeRelativeItems`. -/
def recomputeRelativeItems (fo : FactorOps γ) (m : Mixed γ ν) : Mixed γ ν :=
  { m with relativeItems := m.beliefs.map fun g => findRelativeItems (fo.items g) m.items }

/-- src/MixedContinuousBelief.cpp:16-20, constructor from items. -/
def ofItems (no : NormalOps ν) (items : List ℤ) : Mixed γ ν :=
  { items := items, beliefs := [], relativeItems := [], isInverted := [],
    normalApprox := no.ofItems items, isNormalFixed := false }

/-- src/MixedContinuousBelief.cpp:22-30, constructor from a factor. -/
def ofFactor (fo : FactorOps γ) (no : NormalOps ν) (g : γ) : Mixed γ ν :=
  recomputeRelativeItems fo
    { items := fo.items g, beliefs := [g], relativeItems := [], isInverted := [false],
      normalApprox := no.ofItems (fo.items g), isNormalFixed := false }

/-- src/MixedContinuousBelief.cpp:32-38 `setItems` (the normal approximation is replaced even
when it is fixed). -/
def setItems (fo : FactorOps γ) (no : NormalOps ν) (m : Mixed γ ν) (items : List ℤ) : Mixed γ ν :=
  recomputeRelativeItems fo
    { items := items, beliefs := m.beliefs, relativeItems := m.relativeItems,
      isInverted := m.isInverted, normalApprox := no.setItems m.normalApprox items,
      isNormalFixed := m.isNormalFixed }

/-- src/MixedContinuousBelief.cpp:40-52 `setNormalApprox`. -/
def setNormalApprox (m : Mixed γ ν) (n : ν) : Mixed γ ν :=
  if m.isNormalFixed then m else { m with normalApprox := n }

/-- src/MixedContinuousBelief.cpp:54-57 `fixNormalApprox`. -/
def fixNormalApprox (m : Mixed γ ν) : Mixed γ ν := { m with isNormalFixed := true }

/-- src/MixedContinuousBelief.cpp:145-148 and 162-165: update of the normal approximation and
of `items_` (`op` is `*=` or `/=` of `NormalBelief`). -/
def combineNormal (op : ν → ν → Res ν) (m other : Mixed γ ν) : Res ν :=
  if m.isNormalFixed then Except.ok m.normalApprox else op m.normalApprox other.normalApprox

/-- src/MixedContinuousBelief.cpp:150-153 and 167-170: the flags `other.isInverted_[i]` (unchecked
access) read for every factor number `i` of `other`. `other` is a different object: on `b *= b`
the loop of the code would not end, since `other.beliefs_` grows with it. -/
def flags (other : Mixed γ ν) : Res (List Bool) :=
  (List.range other.beliefs.length).mapM fun i : ℕ => nth other.isInverted i

/-- src/MixedContinuousBelief.cpp:143-157 `operator*=`. -/
def mul (fo : FactorOps γ) (no : NormalOps ν) (m other : Mixed γ ν) : Res (Mixed γ ν) := do
  let n ← combineNormal no.mul m other
  let inv ← flags other
  return recomputeRelativeItems fo
    { items := no.items n
      beliefs := m.beliefs ++ other.beliefs
      relativeItems := m.relativeItems
      isInverted := m.isInverted ++ inv
      normalApprox := n
      isNormalFixed := m.isNormalFixed }

/-- src/MixedContinuousBelief.cpp:160-173 `operator/=`. -/
def div (fo : FactorOps γ) (no : NormalOps ν) (m other : Mixed γ ν) : Res (Mixed γ ν) := do
  let n ← combineNormal no.div m other
  let inv ← flags other
  return recomputeRelativeItems fo
    { items := no.items n
      beliefs := m.beliefs ++ other.beliefs
      relativeItems := m.relativeItems
      isInverted := m.isInverted ++ inv.map (!·)
      normalApprox := n
      isNormalFixed := m.isNormalFixed }

/-- src/MixedContinuousBelief.cpp:179-189, body of the loop of `evaluate` for factor number
`index`. -/
def evalStep (fo : FactorOps γ) (m : Mixed γ ν) (x : List ℝ) (ret : ℝ) (g : γ × ℕ) : Res ℝ := do
  let rel ← atE m.relativeItems g.2
  let xs ← findSubset x rel
  let beliefValue ← fo.eval g.1 xs
  let inv ← atE m.isInverted g.2
  return if inv then ret - beliefValue else ret + beliefValue

/-- src/MixedContinuousBelief.cpp:176-191 `evaluate`. -/
def evaluate (fo : FactorOps γ) (m : Mixed γ ν) (x : List ℝ) : Res ℝ :=
  m.beliefs.zipIdx.foldlM (evalStep fo m x) 0

/-- src/MixedContinuousBelief.cpp:198-207, loop body of `evaluateDerivative`. -/
def derivStep (fo : FactorOps γ) (m : Mixed γ ν) (x : List ℝ) (ret : List ℝ) (g : γ × ℕ) :
    Res (List ℝ) := do
  let rel := findRelativeItems (fo.items g.1) m.items
  let xs ← findSubset x rel
  let d ← fo.deriv g.1 xs
  let inv ← atE m.isInverted g.2
  addVectorSubset ret rel (if inv then d.map (- ·) else d)

/-- src/MixedContinuousBelief.cpp:193-209 `evaluateDerivative`. -/
def evaluateDerivative (fo : FactorOps γ) (m : Mixed γ ν) (x : List ℝ) : Res (List ℝ) :=
  m.beliefs.zipIdx.foldlM (derivStep fo m x) (List.replicate x.length 0)

/-- src/MixedContinuousBelief.cpp:216-226, loop body of `evaluateSecondDerivative`. -/
def hessStep (fo : FactorOps γ) (m : Mixed γ ν) (x : List ℝ) (ret : List (List ℝ)) (g : γ × ℕ) :
    Res (List (List ℝ)) := do
  let rel := findRelativeItems (fo.items g.1) m.items
  let xs ← findSubset x rel
  let d ← fo.hess g.1 xs
  let inv ← atE m.isInverted g.2
  addMatrixSubset ret rel (if inv then d.map (·.map (- ·)) else d)

/-- src/MixedContinuousBelief.cpp:211-227 `evaluateSecondDerivative`. -/
def evaluateSecondDerivative (fo : FactorOps γ) (m : Mixed γ ν) (x : List ℝ) :
    Res (List (List ℝ)) :=
  m.beliefs.zipIdx.foldlM (hessStep fo m x)
    (List.replicate x.length (List.replicate x.length 0))

/-- `std::isnormal` on real numbers: not zero. (Subnormal numbers do not occur among the reals of
the model.) Used for src/MixedContinuousBelief.cpp:233-238. -/
noncomputable def isNormalFp (v : ℝ) : Bool := v ≠ 0

/-- `std::isnormal` on a value that may not be finite.
Used for src/MixedContinuousBelief.cpp:229-246. -/
noncomputable def isNormalOpt : Option ℝ → Bool
  | some v => isNormalFp v
  | none => false

/-- src/MixedContinuousBelief.cpp:233-238. -/
noncomputable def factorsProper (fo : FactorOps γ) (no : NormalOps ν) (m : Mixed γ ν) :
    Res Bool :=
  if m.beliefs.length > 0 then do
    let e ← evaluate fo m (no.mean m.normalApprox)
    return isNormalFp e
  else
    return true

/-- src/MixedContinuousBelief.cpp:229-246 `isProper`. -/
noncomputable def isProper (fo : FactorOps γ) (no : NormalOps ν) (m : Mixed γ ν) : Res Bool := do
  let p ← factorsProper fo no m
  let e ← no.eval m.normalApprox (no.mean m.normalApprox)
  return p && isNormalOpt e

/-- `v.erase(v.begin() + k)`: undefined when `k` is not the position of an element.
Used for src/MixedContinuousBelief.cpp:59-107. -/
def eraseAt {α : Type} (l : List α) (k : ℕ) : Res (List α) :=
  if k < l.length then Except.ok (l.eraseIdx k) else Res.ub

/-- src/MixedContinuousBelief.cpp:59-107 `integrate`. -/
def integrate (fo : FactorOps γ) (no : NormalOps ν) (store : Store γ ν) (m : Mixed γ ν)
    (item : ℤ) : Res (Mixed γ ν) := do
  let relativeItem := findRelativeItem item m.items
  let remainingItems ← eraseAt m.items relativeItem
  let g ← store relativeItem (evaluate fo m) (evaluateDerivative fo m)
    (evaluateSecondDerivative fo m) m.normalApprox remainingItems
  let n ← no.margin m.normalApprox remainingItems
  return setNormalApprox (ofFactor fo no g) n

/-- src/MixedContinuousBelief.cpp:109-132 `margin`. (`integratedItems` and `remainingItems` of
the loop are written but never read.) -/
def margin (fo : FactorOps γ) (no : NormalOps ν) (store : Store γ ν) (m : Mixed γ ν)
    (items : List ℤ) (normalApproxOnly : Bool) : Res (Mixed γ ν) :=
  if normalApproxOnly then do
    let n ← no.margin m.normalApprox items
    return setNormalApprox (ofItems no items) n
  else
    (findItemsDifference m.items items).foldlM (integrate fo no store) m

/-- src/MixedContinuousBelief.cpp:134-141 `computeLogNormalizingConstant`. -/
def logNorm (fo : FactorOps γ) (no : NormalOps ν) (store : Store γ ν) (m : Mixed γ ν) : Res ℝ := do
  let e ← margin fo no store m [] false
  evaluate fo e []

/-- The belief operations of the cluster graph. Used for src/ClusterGraph.cpp:134-157. -/
noncomputable def ops (fo : FactorOps γ) (no : NormalOps ν) (store : Store γ ν) :
    ClusterGraph.Ops (Mixed γ ν) where
  items := Mixed.items
  ofItems := ofItems no
  mul := mul fo no
  div := div fo no
  margin := margin fo no store
  logNorm := logNorm fo no store
  isProper := isProper fo no

end Mixed

end Verif.Belief
