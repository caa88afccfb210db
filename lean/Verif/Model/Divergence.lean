import Verif.Model.Hol

/-!
# Model of `find_laplace_divergence`, `R/hol.R`

`numDeriv::grad` and `numDeriv::hessian` are arbitrary routines: they get the function and the point,
and may fail. `determinant(., logarithm = TRUE)$modulus` is the logarithm of the absolute value of the
determinant; the matrices are inverses when it is called, so the determinants are not 0. Missing values
in `Sigma` are not modelled: the function is called before they can arise (R/fit.R:65-66).
-/
namespace Verif.Hol

open Matrix

variable {p : ℕ}

/-- `solve(A)`: an error if `A` is singular. Used for R/hol.R:50-60. -/
noncomputable def solve (A : Matrix (Fin p) (Fin p) ℝ) : Res (Matrix (Fin p) (Fin p) ℝ) :=
  if A.det = 0 then Res.raise "system is exactly singular" else return A⁻¹

/-- R/optimization.R:10-27: the parts of a fit that are read here. -/
structure LaplaceFit (p : ℕ) where
  estim : Fin p → ℝ
  Sigma : Matrix (Fin p) (Fin p) ℝ

/-- R/hol.R:50-60: the divergence with second derivatives. -/
noncomputable def divergenceSecond (fit : LaplaceFit p) (delta_1 : Fin p → ℝ)
    (gamma_1 : Matrix (Fin p) (Fin p) ℝ) : Res ℝ := do
  let Sigma_1 := fit.Sigma
  let J_1 ← solve Sigma_1
  let Sigma_2 ← solve (J_1 - gamma_1)
  let diff := Sigma_2ᵀ *ᵥ delta_1
  let log_det_ratio := Real.log |Sigma_1.det| - Real.log |Sigma_2.det|
  let ratio := J_1 * Sigma_2
  let trace_ratio := ∑ i, ratio i i
  return 0.5 * (log_det_ratio - p + trace_ratio + ∑ i, diff i * (J_1ᵀ *ᵥ diff) i)

/-- R/hol.R:44-65 `find_laplace_divergence`; `epsilon_1` is `find_epsilon_1` (R/hol.R:7-34) as a
function of the parameters, `grad` and `hessian` are those of `numDeriv` (R/hol.R:36-42). -/
noncomputable def findLaplaceDivergence
    (grad : ((Fin p → ℝ) → Res ℝ) → (Fin p → ℝ) → Res (Fin p → ℝ))
    (hessian : ((Fin p → ℝ) → Res ℝ) → (Fin p → ℝ) → Res (Matrix (Fin p) (Fin p) ℝ))
    (epsilon_1 : (Fin p → ℝ) → Res ℝ) (fit : LaplaceFit p) (useSecondDerivatives : Bool) :
    Res ℝ := do
  let delta_1 ← grad epsilon_1 fit.estim
  let Sigma_1 := fit.Sigma
  if useSecondDerivatives then
    let gamma_1 ← hessian epsilon_1 fit.estim
    divergenceSecond fit delta_1 gamma_1
  else
    return 0.5 * ∑ i, delta_1 i * (Sigma_1ᵀ *ᵥ delta_1) i

end Verif.Hol
