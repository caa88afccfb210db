import Verif.Model.Eigen
import Verif.Model.Belief
import Mathlib.LinearAlgebra.Matrix.NonsingularInverse
import Mathlib.Analysis.SpecialFunctions.Log.Basic

/-!
# Model of `src/MultiNormal.cpp` and `src/NormalBelief.cpp`

Floating point numbers are real numbers. `Matrix::inverse()` and the solution of a linear system
are modelled by Mathlib's matrix inverse, which is the inverse for invertible matrices and `0`
otherwise (the code then gets infinities or NaN); theorems that use an inverse assume that the
matrix is invertible. `log` of a number `≤ 0` gives an infinity or NaN: the normaliser is then
`none`.
-/
namespace Verif.Gauss

open Verif.Eigen Verif.Items Matrix

/-- inst/include/MultiNormal.h: private members. -/
structure MN (n : ℕ) where
  mean : Fin n → ℝ
  precision : Matrix (Fin n) (Fin n) ℝ
  variance : Matrix (Fin n) (Fin n) ℝ
  normalizer : Option ℝ

/-- src/MultiNormal.cpp:151, the literal (log of the square root of `2π`, rounded). -/
noncomputable def logSqrtTwoPi : ℝ := 0.91893853320467266954

/-- src/MultiNormal.cpp:149-153 `initializeNormalizer`. (`dimension()` is the size of the mean; it
equals the number of rows of the precision whenever this is called, because every constructor
sizes the mean first.) -/
noncomputable def normalizerOf {n : ℕ} (precision : Matrix (Fin n) (Fin n) ℝ) : Option ℝ :=
  if 0 < precision.det then some (-(n : ℝ) * logSqrtTwoPi + 0.5 * Real.log precision.det)
  else none

namespace MN

/-- src/MultiNormal.cpp:50-58 `setPrecision`. -/
noncomputable def setPrecision {n : ℕ} (a : MN n) (p : Matrix (Fin n) (Fin n) ℝ) : MN n :=
  { mean := a.mean, precision := p, variance := p⁻¹, normalizer := normalizerOf p }

/-- src/MultiNormal.cpp:18-23, constructor from mean and precision. -/
noncomputable def ofMeanPrecision {n : ℕ} (mean : Fin n → ℝ) (p : Matrix (Fin n) (Fin n) ℝ) :
    MN n :=
  setPrecision { mean := mean, precision := p, variance := p, normalizer := some 0 } p

/-- src/MultiNormal.cpp:25-41, constructor from derivatives and `initializeFromDerivatives`. -/
noncomputable def ofDerivatives {n : ℕ} (location derivative : Fin n → ℝ)
    (secondDerivative : Matrix (Fin n) (Fin n) ℝ) : MN n :=
  let p := -secondDerivative
  { mean := location + p⁻¹ *ᵥ derivative, precision := p, variance := p⁻¹,
    normalizer := normalizerOf p }

/-- src/MultiNormal.cpp:60-69 `setVariance` on a normal with mean `mean`. -/
noncomputable def ofMeanVariance {n : ℕ} (mean : Fin n → ℝ) (v : Matrix (Fin n) (Fin n) ℝ) :
    MN n :=
  { mean := mean, precision := v⁻¹, variance := v, normalizer := normalizerOf v⁻¹ }

/-- src/MultiNormal.cpp:155-179 `multiplySubsetInternal` (`divide` from 71-81). -/
noncomputable def multiplySubset {n m : ℕ} (a : MN n) (b : MN m) (subset : Fin m → ℕ)
    (divide : Bool) : Res (MN n) := do
  let precisionSubset ← getMatrixSubset a.precision subset
  let normalPrecision := if divide then (-1 : ℝ) • b.precision else b.precision
  let newPrecisionSubset := precisionSubset + normalPrecision
  let meanSubset ← getVectorSubset a.mean subset
  let meanSubset' := newPrecisionSubset⁻¹ *ᵥ
    (precisionSubset *ᵥ meanSubset + normalPrecision *ᵥ b.mean)
  let precision ← setMatrixSubset a.precision newPrecisionSubset subset
  let mean ← setVectorSubset a.mean meanSubset' subset
  return { mean := mean, precision := precision, variance := precision⁻¹,
           normalizer := normalizerOf precision }

/-- src/MultiNormal.cpp:83-86 `isProper`. -/
noncomputable def isProper {n : ℕ} (a : MN n) : Bool :=
  match a.normalizer with
  | some v => v ≠ 0
  | none => false

/-- src/MultiNormal.cpp:88-94 `evaluate`. -/
noncomputable def evaluate {n : ℕ} (a : MN n) (x : Fin n → ℝ) : Option ℝ :=
  a.normalizer.map fun v =>
    let xDiff := x - a.mean
    v + -0.5 * (xDiff ᵥ* a.precision ⬝ᵥ xDiff)

/-- src/MultiNormal.cpp:96-100 `evaluateDerivative`. -/
noncomputable def evaluateDerivative {n : ℕ} (a : MN n) (x : Fin n → ℝ) : Fin n → ℝ :=
  -(x - a.mean) ᵥ* a.precision

/-- src/MultiNormal.cpp:102-105 `evaluateSecondDerivative`. -/
noncomputable def evaluateSecondDerivative {n : ℕ} (a : MN n) : Matrix (Fin n) (Fin n) ℝ :=
  -a.precision

/-- src/MultiNormal.cpp:127-136 `computeMarginal`. (For no items the mean is left as constructed,
a vector without elements.) -/
noncomputable def computeMarginal {n m : ℕ} (a : MN n) (items : Fin m → ℕ) : Res (MN m) := do
  let varianceMarginal ← getMatrixSubset a.variance items
  let meanMarginal ← getVectorSubset a.mean items
  return ofMeanVariance meanMarginal varianceMarginal

/-- src/MultiNormal.cpp:138-147 `integrate`; `junk` and `junkM` are the uninitialised contents of
the vectors filled by `getVectorWithout`, `getMatrixWithout`. -/
noncomputable def integrate {n : ℕ} (a : MN (n + 1)) (item : ℕ) (junk : Fin n → ℝ)
    (junkM : Matrix (Fin n) (Fin n) ℝ) : Res (MN n) := do
  let varianceMarginal ← getMatrixWithout item junkM a.variance
  let meanMarginal ← getVectorWithout item junk a.mean
  return ofMeanVariance meanMarginal varianceMarginal

end MN

/-- inst/include/NormalBelief.h: private members and `items_` of `BeliefBase`. The dimension of
the normal is the number of items (every constructor and every caller passes them so). -/
structure NB where
  items : List ℤ
  normal : MN items.length
  logNC : ℝ

namespace NB

/-- src/NormalBelief.cpp:17-23, constructor from items. -/
noncomputable def ofItems (l : List ℤ) : NB :=
  { items := l, normal := MN.ofMeanPrecision 0 0, logNC := 0 }

/-- src/NormalBelief.cpp:53-58 `setItems`. -/
noncomputable def setItems (a : NB) (l : List ℤ) : NB :=
  { items := l, normal := MN.ofMeanPrecision 0 0, logNC := a.logNC }

/-- `findRelativeItems(items, other)` (src/itemsHelper.cpp) as a function of the position. -/
def relative (l items : List ℤ) (k : Fin l.length) : ℕ := findRelativeItem l[k] items

/-- src/NormalBelief.cpp:61-70 `operator*=`. -/
noncomputable def mul (a b : NB) : Res NB := do
  let n ← a.normal.multiplySubset b.normal (relative b.items a.items) false
  return { items := a.items, normal := n, logNC := a.logNC + b.logNC }

/-- src/NormalBelief.cpp:72-77 `operator/=`. -/
noncomputable def div (a b : NB) : Res NB := do
  let n ← a.normal.multiplySubset b.normal (relative b.items a.items) true
  return { items := a.items, normal := n, logNC := a.logNC - b.logNC }

/-- src/NormalBelief.cpp:79-85 `margin`. -/
noncomputable def margin (a : NB) (l : List ℤ) : Res NB := do
  let n ← a.normal.computeMarginal (relative l a.items)
  return { items := l, normal := n, logNC := a.logNC }

/-- A vector given as a list, seen as a vector of size `n` (undefined behaviour when the sizes
differ, since Eigen does not check them). Used for src/NormalBelief.cpp:99-102. -/
def vec (n : ℕ) (x : List ℝ) : Res (Fin n → ℝ) :=
  if h : x.length = n then Except.ok fun i => x.get (i.cast h.symm) else Res.ub

/-- src/NormalBelief.cpp:99-102 `evaluate` (`parameters` is not used). -/
noncomputable def evaluate (a : NB) (x : List ℝ) : Res (Option ℝ) := do
  let v ← vec a.items.length x
  return (a.normal.evaluate v).map (a.logNC + ·)

/-- The operations of a normal approximation. Used for src/MixedContinuousBelief.cpp:59-107. -/
noncomputable def ops : Belief.NormalOps NB where
  items := NB.items
  ofItems := ofItems
  setItems := setItems
  mul := mul
  div := div
  margin := margin
  mean a := List.ofFn a.normal.mean
  eval := evaluate

end NB

end Verif.Gauss
