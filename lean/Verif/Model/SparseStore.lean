import Verif.Model.MultiNormal
import Verif.Model.SparseGrid
import Verif.Model.Quadrature

/-!
# Model of `src/Quadratic.cpp`, `src/SparseGridTransform.cpp` and `src/SparseStore.cpp`

Floating point numbers are real numbers. Three library functions are parameters: the solution of a
linear system (`solve`, law `IsSolver`), the eigen-decomposition (`eig`, law `Quad.IsEigen`) and
the basis (`BasisI`, law `BasisOk`; instantiated in `Verif.Model.Basis`).
-/
namespace Verif.Store

open Verif.Gauss Verif.Quad Verif.SparseGrid Matrix

/-- `A.colPivHouseholderQr().solve(d)`. Used for src/Quadratic.cpp:23-35. -/
abbrev Solver (n : ℕ) := Matrix (Fin n) (Fin n) ℝ → (Fin n → ℝ) → Fin n → ℝ

/-- What the solver is trusted to do: a system that has a solution is solved. (Otherwise it
returns some vector.) Used for src/Quadratic.cpp:23-35. -/
def IsSolver {n : ℕ} (solve : Solver n) : Prop :=
  ∀ A d, (∃ y, A *ᵥ y = d) → A *ᵥ solve A d = d

/-- `Eigen::SelfAdjointEigenSolver`: eigenvalues and eigenvectors.
Used for src/SparseGridTransform.cpp:42-55. -/
abbrev EigenSolver (n : ℕ) := Matrix (Fin n) (Fin n) ℝ → (Fin n → ℝ) × Matrix (Fin n) (Fin n) ℝ

/-! ## `class Quadratic` -/

/-- inst/include/Quadratic.h: private members. -/
structure Quadratic (n : ℕ) where
  b : Fin n → ℝ
  A : Matrix (Fin n) (Fin n) ℝ

namespace Quadratic

variable {n : ℕ}

/-- src/Quadratic.cpp:7-10 `operator()`. -/
def evaluate (q : Quadratic n) (x : Fin n → ℝ) : ℝ := ((x - q.b) ᵥ* q.A) ⬝ᵥ (x - q.b)

/-- src/Quadratic.cpp:12-15 `derivative`. -/
def derivative (q : Quadratic n) (x : Fin n → ℝ) : Fin n → ℝ := (x - q.b) ᵥ* (q.A + q.Aᵀ)

/-- src/Quadratic.cpp:17-20 `secondDerivative`. -/
def secondDerivative (q : Quadratic n) : Matrix (Fin n) (Fin n) ℝ := q.A + q.Aᵀ

/-- src/Quadratic.cpp:23-35 `initializeFromDerivatives`. (For dimension 0 the members keep their
values, a vector and a matrix without elements.) -/
noncomputable def ofDerivatives (solve : Solver n) (location derivativeAtLocation : Fin n → ℝ)
    (secondDerivativeAtLocation : Matrix (Fin n) (Fin n) ℝ) : Quadratic n :=
  if n > 0 then
    let A := (1 / 2 : ℝ) • (-secondDerivativeAtLocation)
    { A := A
      b := if Real.sqrt (∑ i, ∑ j, A i j ^ 2) > 0 then
          location + (1 / 2 : ℝ) • solve A derivativeAtLocation
        else location }
  else { b := 0, A := 0 }

end Quadratic

/-! ## `class SparseGridTransform` -/

/-- inst/include/SparseGridTransform.h: private members. -/
structure Transform (n : ℕ) where
  grid : Grid
  shift : Fin n → ℝ
  scale : Matrix (Fin n) (Fin n) ℝ
  inverseScale : Matrix (Fin n) (Fin n) ℝ

/-- `operatorInverseSqrt()` of `Eigen::SelfAdjointEigenSolver`.
Used for src/SparseGridTransform.cpp:42-55. -/
noncomputable def operatorInverseSqrt {n : ℕ} (e : (Fin n → ℝ) × Matrix (Fin n) (Fin n) ℝ) :
    Matrix (Fin n) (Fin n) ℝ := e.2 * diagonal (fun i => Real.sqrt (e.1 i)⁻¹) * e.2ᵀ

/-- `operatorSqrt()` of `Eigen::SelfAdjointEigenSolver`.
Used for src/SparseGridTransform.cpp:42-55. -/
noncomputable def operatorSqrt {n : ℕ} (e : (Fin n → ℝ) × Matrix (Fin n) (Fin n) ℝ) :
    Matrix (Fin n) (Fin n) ℝ := e.2 * diagonal (fun i => Real.sqrt (e.1 i)) * e.2ᵀ

/-- The arithmetic, the basis and its largest level, as used by the grid code.
Used for src/SparseGridTransform.cpp:42-55. -/
structure GridEnv where
  ar : Arith
  basis : BasisI
  levelMax : ℕ

/-- A vector coming from the grid code (src/Point.cpp:43-50 creates vectors of the dimension of
the point) used as a vector of size `n`. -/
def ofList {n : ℕ} (z : List ℝ) : Res (Fin n → ℝ) :=
  if h : z.length = n then Except.ok fun i => z[i] else Res.ub

/-- src/SparseGridTransform.cpp:36-38, the lambda `fTransform`. -/
noncomputable def fTransform {n : ℕ} (f : (Fin n → ℝ) → Res ℝ) (shift : Fin n → ℝ)
    (scale : Matrix (Fin n) (Fin n) ℝ) (z : List ℝ) : Res ℝ := do
  let z ← ofList z
  let v ← f (shift + scale *ᵥ z)
  return v + 0.5 * (z ⬝ᵥ z)

namespace Transform

variable {n : ℕ}

/-- src/SparseGridTransform.cpp:42-55 `initializeFromNormal`, with 34-40
`initializeTransformedFunction`. (For dimension 0 the shift and the scales keep their values, a
vector and matrices without elements.) -/
noncomputable def ofNormal (env : GridEnv) (eig : EigenSolver n) (f : (Fin n → ℝ) → Res ℝ)
    (normal : MN n) : Res (Transform n) := do
  let e := eig normal.precision
  let scale := if n > 0 then operatorInverseSqrt e else 0
  let inverseScale := if n > 0 then operatorSqrt e else 0
  let shift := if n > 0 then normal.mean else 0
  let grid ← construct env.ar env.basis (fTransform f shift scale) n env.levelMax
  return { grid := grid, shift := shift, scale := scale, inverseScale := inverseScale }

/-- src/SparseGridTransform.cpp:14-18 `interpolate`. -/
noncomputable def interpolate (env : GridEnv) (t : Transform n) (x : Fin n → ℝ) : Res ℝ := do
  let z := t.inverseScale *ᵥ (x - t.shift)
  let v ← SparseGrid.interpolate env.ar env.basis t.grid (List.ofFn z)
  return v - 0.5 * (z ⬝ᵥ z)

/-- src/SparseGridTransform.cpp:20-24 `interpolateDerivative`. -/
noncomputable def interpolateDerivative (env : GridEnv) (t : Transform n) (x : Fin n → ℝ) :
    Res (Fin n → ℝ) := do
  let z := t.inverseScale *ᵥ (x - t.shift)
  let d ← SparseGrid.interpolateDerivative env.ar env.basis t.grid (List.ofFn z)
  return t.inverseScaleᵀ *ᵥ ((fun i : Fin n => d i) - z)

/-- src/SparseGridTransform.cpp:26-31 `interpolateSecondDerivative`. -/
noncomputable def interpolateSecondDerivative (env : GridEnv) (t : Transform n)
    (x : Fin n → ℝ) : Res (Matrix (Fin n) (Fin n) ℝ) := do
  let z := t.inverseScale *ᵥ (x - t.shift)
  let h ← SparseGrid.interpolateSecondDerivative env.ar env.basis t.grid (List.ofFn z)
  let unscaledReturn := Matrix.of (fun i j : Fin n => h (i, j)) - 1
  return t.inverseScaleᵀ * unscaledReturn * t.inverseScale

end Transform

/-! ## `class SparseStore` -/

/-- inst/include/SparseStore.h: private members. -/
structure SparseStore (n : ℕ) where
  modifier : Quadratic n
  fPlusModifierStored : Transform n

namespace SparseStore

variable {n : ℕ}

/-- src/SparseStore.cpp:18-29, constructor, and 53-75 `initializeFromNormal`. (The constructor in
3-16 does the same with `MultiNormal(location, precision)`.) -/
noncomputable def create (env : GridEnv) (solve : Solver n) (eig : EigenSolver n)
    (f : (Fin n → ℝ) → Res ℝ) (fDerivative : (Fin n → ℝ) → Res (Fin n → ℝ))
    (fSecondDerivative : (Fin n → ℝ) → Res (Matrix (Fin n) (Fin n) ℝ)) (normal : MN n) :
    Res (SparseStore n) := do
  let location := normal.mean
  let d ← fDerivative location
  let derivativeModifier := d - normal.evaluateDerivative location
  let h ← fSecondDerivative location
  let secondDerivativeModifier := h - normal.evaluateSecondDerivative
  let modifier := Quadratic.ofDerivatives solve location derivativeModifier secondDerivativeModifier
  let fModified := fun x => do
    let v ← f x
    return v + modifier.evaluate x
  let stored ← Transform.ofNormal env eig fModified normal
  return { modifier := modifier, fPlusModifierStored := stored }

/-- src/SparseStore.cpp:32-37 `evaluate`. -/
noncomputable def evaluate (env : GridEnv) (s : SparseStore n) (x : Fin n → ℝ) : Res ℝ := do
  let ret ← s.fPlusModifierStored.interpolate env x
  return ret - s.modifier.evaluate x

/-- src/SparseStore.cpp:39-44 `evaluateDerivative`. -/
noncomputable def evaluateDerivative (env : GridEnv) (s : SparseStore n) (x : Fin n → ℝ) :
    Res (Fin n → ℝ) := do
  let ret ← s.fPlusModifierStored.interpolateDerivative env x
  return ret - s.modifier.derivative x

/-- src/SparseStore.cpp:46-51 `evaluateSecondDerivative`. -/
noncomputable def evaluateSecondDerivative (env : GridEnv) (s : SparseStore n) (x : Fin n → ℝ) :
    Res (Matrix (Fin n) (Fin n) ℝ) := do
  let ret ← s.fPlusModifierStored.interpolateSecondDerivative env x
  return ret - s.modifier.secondDerivative

end SparseStore

end Verif.Store
