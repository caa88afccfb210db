import Verif.Model.Family
import Verif.Model.Basis
import Verif.Model.Quadrature

/-!
# Model of `src/Parameters.cpp` and `src/accessParameters.cpp`

The setters change a `Parameters` object in place and may throw on the way, so they are programs
over a state that survives an exception: `Prog`.
-/
namespace Verif.Pars

open Verif.Family

/-- A C++ function working on an object of type `σ`: the state is kept when an exception is
thrown. Used for src/accessParameters.cpp:24-31. -/
abbrev Prog (σ α : Type) := ExceptT Err (StateM σ) α

/-- Run a program: outcome and final state. Used for src/accessParameters.cpp:4-15. -/
def Prog.exec {σ α : Type} (m : Prog σ α) (s : σ) : Except Err α × σ := (ExceptT.run m).run s

/-- A call of a function that does not touch the object. Used for src/accessParameters.cpp:24-31. -/
def call {σ α : Type} (r : Res α) : Prog σ α := ExceptT.mk (pure r)

/-- inst/include/Basis.h: private members. -/
structure Basis where
  basisLevels : List BasisLevel.Level
  levelMax : ℤ

/-- src/Basis.cpp:3-5, default constructor. -/
def Basis.empty : Basis := ⟨[], 0⟩

/-- src/Basis.cpp:7-11, constructor. (The sum `levelMax + 1` is unbounded here; it overflows only
for the largest `int`, for which the loop could not finish.) For negative `levelMax` the loop does
nothing. -/
noncomputable def Basis.create (ar : Arith) (Q : ℝ → ℝ) (levelMax : ℤ) : Res Basis := do
  if levelMax + 1 ≤ 0 then
    return ⟨[], levelMax⟩
  else
    let levels ← BasisLevel.basisLevels ar Q levelMax.toNat
    return ⟨levels, levelMax⟩

/-- inst/include/QuadratureRule.h: private members. -/
structure QuadratureRule where
  nodes : List ℝ
  weights : List ℝ

/-- src/QuadratureRule.cpp:3-5, default constructor. -/
def QuadratureRule.empty : QuadratureRule := ⟨[], []⟩

/-- Eigenvalues and eigenvectors of matrices of all sizes. Used for src/QuadratureRule.cpp:7-10. -/
abbrev Eigensolver := (n : ℕ) → Matrix (Fin n) (Fin n) ℝ → (Fin n → ℝ) × Matrix (Fin n) (Fin n) ℝ

/-- src/QuadratureRule.cpp:7-10 and 22-32, constructor. A negative size, and the row 0 of a matrix
without rows, are undefined behaviour. -/
noncomputable def QuadratureRule.create (eig : Eigensolver) (n : ℤ) : Res QuadratureRule :=
  match n with
  | Int.ofNat (k + 1) =>
    let e := eig (k + 1) (Quad.hermiteJacobi (k + 1))
    let rule := Quad.ofEigen e.1 e.2
    Except.ok ⟨List.ofFn rule.nodes, List.ofFn rule.weights⟩
  | _ => Res.ub

/-- inst/include/Parameters.h: public members. -/
structure Parameters where
  theta : List ℝ
  beta : List ℝ
  family : Family
  sparseBasis : Basis
  quadratureRule : QuadratureRule

/-- src/Parameters.cpp:3-8, constructor. -/
def Parameters.empty : Parameters := ⟨[], [], Family.empty, Basis.empty, QuadratureRule.empty⟩

/-- The library functions the setters use: integer conversion, normal quantile, eigen-solver.
Used for src/accessParameters.cpp:56-61. -/
structure Env where
  ar : Arith
  Q : ℝ → ℝ
  eig : Eigensolver

/-- inst/calibration_parameters.yml `theta`, access by field. -/
def setTheta (theta : List ℝ) : Prog Parameters Unit := modify fun p => { p with theta := theta }

/-- inst/calibration_parameters.yml `beta`, access by field. -/
def setBeta (beta : List ℝ) : Prog Parameters Unit := modify fun p => { p with beta := beta }

/-- src/accessParameters.cpp:24-31 `setParametersFamily`. -/
def setParametersFamily (familyName : String) : Prog Parameters Unit := do
  let newFamilyGivenMean ← call (FamilyGivenMean.ofName familyName)
  let p ← get
  let family := p.family
  let family := { family with familyGivenMean := newFamilyGivenMean }
  modify fun p => { p with family := family }

/-- src/accessParameters.cpp:40-47 `setParametersLink`. -/
def setParametersLink (linkName : String) : Prog Parameters Unit := do
  let newLink ← call (Link.ofName linkName)
  let p ← get
  let family := p.family
  let family := { family with link := newLink }
  modify fun p => { p with family := family }

/-- src/accessParameters.cpp:56-61 `setParametersNSparseLevels`. -/
noncomputable def setParametersNSparseLevels (env : Env) (nSparseLevels : ℤ) :
    Prog Parameters Unit := do
  let newBasis ← call (Basis.create env.ar env.Q nSparseLevels)
  modify fun p => { p with sparseBasis := newBasis }

/-- src/accessParameters.cpp:69-74 `setParametersNQuadraturePoints`. -/
noncomputable def setParametersNQuadraturePoints (env : Env) (nQuadraturePoints : ℤ) :
    Prog Parameters Unit := do
  let newRule ← call (QuadratureRule.create env.eig nQuadraturePoints)
  modify fun p => { p with quadratureRule := newRule }

/-- src/accessParameters.cpp:17-22 `getParametersFamily`. -/
def getParametersFamily (p : Parameters) : Res String := p.family.familyGivenMean.getName

/-- src/accessParameters.cpp:33-38 `getParametersLink`. -/
def getParametersLink (p : Parameters) : Res String := p.family.link.getName

/-- src/accessParameters.cpp:50-54 `getParametersNSparseLevels`. -/
def getParametersNSparseLevels (p : Parameters) : ℤ := p.sparseBasis.levelMax

/-- src/accessParameters.cpp:63-67 `getParametersNQuadraturePoints`. -/
def getParametersNQuadraturePoints (p : Parameters) : ℤ := p.quadratureRule.nodes.length

/-- src/accessParameters.cpp:4-15 `makeParametersR`. -/
noncomputable def makeParametersR (env : Env) : Res Parameters :=
  let r := Prog.exec (do
    setTheta []
    setBeta []
    setParametersFamily "binomial"
    setParametersLink "logit"
    setParametersNSparseLevels env 1
    setParametersNQuadraturePoints env 1) Parameters.empty
  match r.1 with
  | .ok _ => Except.ok r.2
  | .error e => Except.error e

end Verif.Pars
