import Verif.Base.Res
import Mathlib.Data.Matrix.Mul
import Mathlib.Analysis.SpecialFunctions.Exp
import Mathlib.Analysis.SpecialFunctions.Sqrt

/-!
# Model of `src/QuadratureRule.cpp`

Floating point numbers are real numbers. The eigen-solver is a parameter, described by
`IsEigen`: an exact orthonormal decomposition of the symmetric matrix given by the lower triangle
(`Eigen::SelfAdjointEigenSolver` reads only that).
-/
namespace Verif.Quad

open Matrix

/-- inst/include/QuadratureRule.h: private members, for `n` points. -/
structure Rule (n : ℕ) where
  nodes : Fin n → ℝ
  weights : Fin n → ℝ

/-- src/QuadratureRule.cpp:33-43 `findHermiteJacobi`: only the first subdiagonal is filled. -/
noncomputable def hermiteJacobi (n : ℕ) : Matrix (Fin n) (Fin n) ℝ :=
  Matrix.of fun i j => if (i : ℕ) = j + 1 then Real.sqrt ((i : ℕ) / 2) else 0

/-- The symmetric matrix `Eigen::SelfAdjointEigenSolver` works with: the lower triangle of its
argument, mirrored. Used for src/QuadratureRule.cpp:26. -/
def fromLower {n : ℕ} (a : Matrix (Fin n) (Fin n) ℝ) : Matrix (Fin n) (Fin n) ℝ :=
  Matrix.of fun i j => if j ≤ i then a i j else a j i

/-- What the solver is trusted to return: eigenvalues and orthonormal eigenvectors (columns) of
the symmetric matrix given by the lower triangle of `a`. Used for src/QuadratureRule.cpp:26. -/
structure IsEigen {n : ℕ} (a : Matrix (Fin n) (Fin n) ℝ) (values : Fin n → ℝ)
    (vectors : Matrix (Fin n) (Fin n) ℝ) : Prop where
  orthogonal : vectorsᵀ * vectors = 1
  decomposition : fromLower a * vectors = vectors * diagonal values

/-- src/QuadratureRule.cpp:24, the literal for the square root of `π`. -/
noncomputable def sqrtPi : ℝ := 1.772453851

/-- src/QuadratureRule.cpp:22-31 `initialize` for `n + 1` points (`row(0)` of a matrix without
rows is undefined); `values` and `vectors` are the results of the eigen-solver. -/
noncomputable def ofEigen {n : ℕ} (values : Fin (n + 1) → ℝ)
    (vectors : Matrix (Fin (n + 1)) (Fin (n + 1)) ℝ) : Rule (n + 1) :=
  { nodes := values
    weights := fun k => sqrtPi * vectors 0 k * vectors 0 k }

/-- src/QuadratureRule.cpp:45-60 `integrate1D`, 63-79 `integrate1DVector` and 82-98
`integrate1DMatrix` (the three functions differ only in the type of the values). The integrand may
fail. -/
noncomputable def integrate1D {E : Type} [AddCommGroup E] [Module ℝ E] {n : ℕ} (f : ℝ → Res E)
    (location sigma : ℝ) (rule : Rule n) : Res E := do
  let scale := Real.sqrt 2 * sigma
  let ret ← (List.finRange n).foldlM (fun (ret : E) i => do
    let node := rule.nodes i
    let transformedNode := scale * node + location
    let v ← f transformedNode
    return ret + (rule.weights i * Real.exp (node ^ 2)) • v) 0
  return scale • ret

end Verif.Quad
