import Verif.Model.MultiNormal
import Verif.Model.Quadrature

/-!
# Model of `src/IntegratedFunction.cpp`

A factor of `m + 1` arguments with the argument number `integrateOver` integrated out by
quadrature. Floating point numbers are real numbers; `sqrt` of a negative number and `log` of a
number `≤ 0` (NaN or an infinity in the code) take Mathlib's values, and theorems assume or prove
that the arguments are positive.
-/
namespace Verif.Integrated

open Verif.Eigen Verif.Gauss Verif.Quad Matrix

/-- Contents of freshly allocated vectors and matrices (uninitialised memory). One value is used
for all allocations of the same size; no result depends on it.
Used for src/IntegratedFunction.cpp:71-85. -/
structure Junk (m : ℕ) where
  vec : Fin m → ℝ
  mat : Matrix (Fin m) (Fin m) ℝ
  ext : Fin (m + 1) → ℝ

/-- inst/include/IntegratedFunction.h: private members. -/
structure IF (m : ℕ) where
  integrateOver : ℕ
  function : (Fin (m + 1) → ℝ) → Res ℝ
  derivativeFunction : (Fin (m + 1) → ℝ) → Res (Fin (m + 1) → ℝ)
  secondDerivativeFunction : (Fin (m + 1) → ℝ) → Res (Matrix (Fin (m + 1)) (Fin (m + 1)) ℝ)
  normal : MN (m + 1)
  logValueAtMean : ℝ
  mean1 : ℝ
  mean2 : Fin m → ℝ
  cross : Fin m → ℝ
  sigmaConditional : ℝ

/-- `v(i)`, unchecked. Used for src/IntegratedFunction.cpp:71-85. -/
def readAt {α : Type} {n : ℕ} (v : Fin n → α) (i : ℕ) : Res α :=
  if h : i < n then Except.ok (v ⟨i, h⟩) else Res.ub

/-- `a.row(i)`, unchecked. Used for src/IntegratedFunction.cpp:71-85. -/
def rowAt {n : ℕ} (a : Matrix (Fin n) (Fin n) ℝ) (i : ℕ) : Res (Fin n → ℝ) :=
  if h : i < n then Except.ok (a ⟨i, h⟩) else Res.ub

/-- src/IntegratedFunction.cpp:59-67 `initializeNormal`, the first part: an improper normal gets
the identity as precision. -/
noncomputable def properNormal {m : ℕ} (normal : MN (m + 1)) : MN (m + 1) :=
  if normal.isProper then normal else normal.setPrecision 1

/-- src/IntegratedFunction.cpp:71-85 of `initializeConditionalTerms`: `cross_` and
`sigmaConditional_`. `variance.size()` is the number of entries. -/
noncomputable def conditionalTerms {m : ℕ} (junk : Junk m) (integrateOver : ℕ)
    (variance : Matrix (Fin (m + 1)) (Fin (m + 1)) ℝ) : Res ((Fin m → ℝ) × ℝ) :=
  if (m + 1) * (m + 1) > 1 then do
    let variance22 ← getMatrixWithout integrateOver junk.mat variance
    let row ← rowAt variance integrateOver
    let variance21 ← getVectorWithout integrateOver junk.vec row
    let variance11 ← readAt row integrateOver
    let cross := variance22⁻¹ *ᵥ variance21
    let varianceConditional := variance11 - variance21 ⬝ᵥ cross
    return (cross, Real.sqrt varianceConditional)
  else do
    return (junk.vec, Real.sqrt (variance 0 0))

/-- src/IntegratedFunction.cpp:8-25, constructor, with 59-67 `initializeNormal` and 69-92
`initializeConditionalTerms`. -/
noncomputable def create {m : ℕ} (junk : Junk m) (integrateOver : ℕ)
    (function : (Fin (m + 1) → ℝ) → Res ℝ)
    (derivativeFunction : (Fin (m + 1) → ℝ) → Res (Fin (m + 1) → ℝ))
    (secondDerivativeFunction : (Fin (m + 1) → ℝ) → Res (Matrix (Fin (m + 1)) (Fin (m + 1)) ℝ))
    (normal : MN (m + 1)) : Res (IF m) := do
  let normal' := properNormal normal
  let logValueAtMean ← function normal'.mean
  let (cross, sigma) ← conditionalTerms junk integrateOver normal'.variance
  let mean1 ← readAt normal'.mean integrateOver
  let mean2 ← getVectorWithout integrateOver junk.vec normal'.mean
  return { integrateOver := integrateOver
           function := function
           derivativeFunction := derivativeFunction
           secondDerivativeFunction := secondDerivativeFunction
           normal := normal'
           logValueAtMean := logValueAtMean
           mean1 := mean1
           mean2 := mean2
           cross := cross
           sigmaConditional := sigma }

namespace IF

variable {m : ℕ}

/-- src/IntegratedFunction.cpp:94-101 `findConditionalMean`. -/
def findConditionalMean (a : IF m) (x : Fin m → ℝ) : ℝ :=
  if m > 0 then a.mean1 - a.cross ⬝ᵥ (x - a.mean2) else a.mean1

/-- src/IntegratedFunction.cpp:103-108 `extendArgument`. -/
def extendArgument (junk : Junk m) (a : IF m) (x : Fin m → ℝ) : Res (Fin (m + 1) → ℝ) :=
  setVectorWithout a.integrateOver junk.ext x

/-- src/IntegratedFunction.cpp:110-120 `integrateNoLog`. (The lambda overwrites one entry of the
captured `xExt`, which is written anew at every call.) -/
noncomputable def integrateNoLog {k : ℕ} (junk : Junk m) (a : IF m) (x : Fin m → ℝ)
    (conditionalMean : ℝ) (rule : Rule k) : Res ℝ := do
  let xExt ← a.extendArgument junk x
  integrate1D (fun t => do
    let y ← writeAt xExt a.integrateOver t
    let v ← a.function y
    return Real.exp (v - a.logValueAtMean)) conditionalMean a.sigmaConditional rule

/-- src/IntegratedFunction.cpp:122-142 `integrateDerivativeNoLog`. -/
noncomputable def integrateDerivativeNoLog {k : ℕ} (junk : Junk m) (a : IF m) (x : Fin m → ℝ)
    (conditionalMean : ℝ) (rule : Rule k) : Res (Fin m → ℝ) := do
  let xExt ← a.extendArgument junk x
  integrate1D (fun t => do
    let y ← writeAt xExt a.integrateOver t
    let v ← a.function y
    let value := Real.exp (v - a.logValueAtMean)
    let d ← a.derivativeFunction y
    let derivative := value • d
    let derivativeRem ← getVectorWithout a.integrateOver junk.vec derivative
    let d1 ← readAt derivative a.integrateOver
    let correction := d1 • (-a.cross)
    return derivativeRem + correction) conditionalMean a.sigmaConditional rule

/-- src/IntegratedFunction.cpp:144-176 `integrateSecondDerivativeNoLog`. -/
noncomputable def integrateSecondDerivativeNoLog {k : ℕ} (junk : Junk m) (a : IF m)
    (x : Fin m → ℝ) (conditionalMean : ℝ) (rule : Rule k) : Res (Matrix (Fin m) (Fin m) ℝ) := do
  let xExt ← a.extendArgument junk x
  integrate1D (fun t => do
    let y ← writeAt xExt a.integrateOver t
    let v ← a.function y
    let value := Real.exp (v - a.logValueAtMean)
    let derivativeLog ← a.derivativeFunction y
    let h ← a.secondDerivativeFunction y
    let secondDerivative := value • (h + vecMulVec derivativeLog derivativeLog)
    let secondDerivative22 ← getMatrixWithout a.integrateOver junk.mat secondDerivative
    let row ← rowAt secondDerivative a.integrateOver
    let secondDerivative12 ← getVectorWithout a.integrateOver junk.vec row
    let secondDerivative11 ← readAt row a.integrateOver
    return secondDerivative22 - vecMulVec a.cross secondDerivative12
      - vecMulVec secondDerivative12 a.cross
      + secondDerivative11 • vecMulVec a.cross a.cross)
    conditionalMean a.sigmaConditional rule

/-- src/IntegratedFunction.cpp:27-33 `evaluate`. -/
noncomputable def evaluate {k : ℕ} (junk : Junk m) (a : IF m) (x : Fin m → ℝ) (rule : Rule k) :
    Res ℝ := do
  let integral ← a.integrateNoLog junk x (a.findConditionalMean x) rule
  return Real.log integral + a.logValueAtMean

/-- src/IntegratedFunction.cpp:35-43 `evaluateDerivative`. -/
noncomputable def evaluateDerivative {k : ℕ} (junk : Junk m) (a : IF m) (x : Fin m → ℝ)
    (rule : Rule k) : Res (Fin m → ℝ) := do
  let integral ← a.integrateNoLog junk x (a.findConditionalMean x) rule
  let integralDerivative ← a.integrateDerivativeNoLog junk x (a.findConditionalMean x) rule
  return fun i => integralDerivative i / integral

/-- src/IntegratedFunction.cpp:45-57 `evaluateSecondDerivative`. -/
noncomputable def evaluateSecondDerivative {k : ℕ} (junk : Junk m) (a : IF m) (x : Fin m → ℝ)
    (rule : Rule k) : Res (Matrix (Fin m) (Fin m) ℝ) := do
  let integral ← a.integrateNoLog junk x (a.findConditionalMean x) rule
  let integralDerivative ← a.integrateDerivativeNoLog junk x (a.findConditionalMean x) rule
  let integralSecondDerivative ←
    a.integrateSecondDerivativeNoLog junk x (a.findConditionalMean x) rule
  let numerator := integral • integralSecondDerivative -
    vecMulVec integralDerivative integralDerivative
  return Matrix.of fun i j => numerator i j / integral ^ 2

end IF

end Verif.Integrated
