import Verif.Model.Parameters

/-!
# Model of `src/GLMMBelief.cpp`

Floating point numbers are real numbers. The dimensions are parameters of the type: `d` items
(random effects), `n` observations, `p` fixed effects. `X_`, `Zt_`, `Lambdat_`, `response_` and
`weights_` are taken to fit these dimensions, as `R/splitframe.R:30-60` builds them; `Lind_` and the
parameters given by the caller may have any length. The evaluations change the object in place, so
they return the new state of the object beside their result.
-/
namespace Verif.GLMM

open Verif.Family Verif.Pars Matrix

variable {d n p : ℕ}

/-- inst/include/GLMMBelief.h: private members that never change after construction. Of the sparse
matrix `Lambdat_` only the positions of the stored entries matter, listed in the order of
storage (by column). -/
structure Data (d n p : ℕ) where
  X : Matrix (Fin n) (Fin p) ℝ
  Zt : Matrix (Fin d) (Fin n) ℝ
  entries : List (Fin d × Fin d)
  Lind : List ℤ
  response : Fin n → ℝ
  weights : Fin n → ℝ

/-- inst/include/GLMMBelief.h: all private members. -/
structure Belief (d n p : ℕ) extends Data d n p where
  theta : List ℝ
  beta : List ℝ
  LambdatThetaZt : Matrix (Fin d) (Fin n) ℝ
  XBeta : Fin n → ℝ

/-- `theta(k)` for an `int` index. Used for src/GLMMBelief.cpp:79-89. -/
def read (theta : List ℝ) (k : ℤ) : Res ℝ := if k < 0 then Res.ub else nth theta k.toNat

/-- The loops of src/GLMMBelief.cpp:82-87: the stored entries are overwritten in the order of
storage, `index` counts them. `rd theta k` is the outcome of `theta(k)`. -/
def fill (rd : List ℝ → ℤ → Res ℝ) (Lind : List ℤ) (theta : List ℝ) :
    List (Fin d × Fin d) → ℕ → Matrix (Fin d) (Fin d) ℝ → Res (Matrix (Fin d) (Fin d) ℝ)
  | [], _, m => Except.ok m
  | (r, c) :: rest, index, m => do
    let k ← nth Lind index
    let v ← rd theta k
    fill rd Lind theta rest (index + 1) (m.updateRow r (Function.update (fun j => m r j) c v))

/-- src/GLMMBelief.cpp:79-89 `setLambdatThetaZt`, for the given outcome of out-of-range reads. -/
noncomputable def setLambdatThetaZtWith (rd : List ℝ → ℤ → Res ℝ) (b : Belief d n p)
    (theta : List ℝ) : Res (Belief d n p) := do
  let LambdatTheta ← fill rd b.Lind theta b.entries 0 0
  return { b with LambdatThetaZt := LambdatTheta * b.Zt }

/-- src/GLMMBelief.cpp:79-89 `setLambdatThetaZt`. -/
noncomputable def setLambdatThetaZt (b : Belief d n p) (theta : List ℝ) : Res (Belief d n p) :=
  setLambdatThetaZtWith read b theta

/-- The product `X_ * beta` of src/GLMMBelief.cpp:67 and 76; undefined behaviour for a vector of the
wrong length. -/
noncomputable def timesX (X : Matrix (Fin n) (Fin p) ℝ) (beta : List ℝ) : Res (Fin n → ℝ) :=
  if beta.length = p then Except.ok (X *ᵥ fun j => beta.getD j 0) else Res.ub

open Classical in
/-- src/GLMMBelief.cpp:55-61 `setTheta`. -/
noncomputable def setTheta (b : Belief d n p) (theta : List ℝ) : Res (Belief d n p) :=
  if theta.length ≠ b.theta.length ∨ theta ≠ b.theta then
    setLambdatThetaZt { b with theta := theta } theta
  else Except.ok b

open Classical in
/-- src/GLMMBelief.cpp:63-69 `setBeta`. -/
noncomputable def setBeta (b : Belief d n p) (beta : List ℝ) : Res (Belief d n p) :=
  if beta.length ≠ b.beta.length ∨ beta ≠ b.beta then do
    let b := { b with beta := beta }
    let XBeta ← timesX b.X b.beta
    return { b with XBeta := XBeta }
  else Except.ok b

/-- src/GLMMBelief.cpp:71-77 `initializeParameterDependents`, for the given outcome of out-of-range
reads. -/
noncomputable def initializeParameterDependents (rd : List ℝ → ℤ → Res ℝ) (b : Belief d n p) :
    Res (Belief d n p) := do
  let b := { b with theta := List.replicate d 0 }
  let b := { b with beta := List.replicate p 0 }
  let b ← setLambdatThetaZtWith rd b b.theta
  let XBeta ← timesX b.X b.beta
  return { b with XBeta := XBeta }

/-- src/GLMMBelief.cpp:10-23, constructor, for the given outcome of out-of-range reads. -/
noncomputable def createWith (rd : List ℝ → ℤ → Res ℝ) (data : Data d n p) : Res (Belief d n p) :=
  initializeParameterDependents rd ⟨data, [], [], 0, 0⟩

/-- src/GLMMBelief.cpp:10-23, constructor. -/
noncomputable def create (data : Data d n p) : Res (Belief d n p) := createWith read data

/-- src/GLMMBelief.cpp:91-94 `computeLinearPredictor`. -/
noncomputable def computeLinearPredictor (b : Belief d n p) (x : Fin d → ℝ) : Fin n → ℝ :=
  b.XBeta + b.LambdatThetaZtᵀ *ᵥ x

/-- src/GLMMBelief.cpp:25-33 `evaluate`. -/
noncomputable def evaluate (b : Belief d n p) (x : Fin d → ℝ) (parameters : Parameters) :
    Res (ℝ × Belief d n p) := do
  let b ← setTheta b parameters.theta
  let b ← setBeta b parameters.beta
  let family := parameters.family
  let linearPredictor := computeLinearPredictor b x
  let v ← family.evaluate linearPredictor b.response b.weights
  return (v, b)

/-- src/GLMMBelief.cpp:35-43 `evaluateDerivative`. -/
noncomputable def evaluateDerivative (b : Belief d n p) (x : Fin d → ℝ) (parameters : Parameters) :
    Res ((Fin d → ℝ) × Belief d n p) := do
  let b ← setTheta b parameters.theta
  let b ← setBeta b parameters.beta
  let family := parameters.family
  let linearPredictor := computeLinearPredictor b x
  let v ← family.evaluateDerivative linearPredictor b.response b.weights
  return (b.LambdatThetaZt *ᵥ v, b)

/-- src/GLMMBelief.cpp:45-53 `evaluateSecondDerivative`. -/
noncomputable def evaluateSecondDerivative (b : Belief d n p) (x : Fin d → ℝ)
    (parameters : Parameters) : Res (Matrix (Fin d) (Fin d) ℝ × Belief d n p) := do
  let b ← setTheta b parameters.theta
  let b ← setBeta b parameters.beta
  let family := parameters.family
  let linearPredictor := computeLinearPredictor b x
  let v ← family.evaluateSecondDerivative linearPredictor b.response b.weights
  return (b.LambdatThetaZt * diagonal v * b.LambdatThetaZtᵀ, b)

end Verif.GLMM
