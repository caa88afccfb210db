import Verif.Model.IS
import Verif.Model.Family

/-!
# Model of the second-order Laplace approximation, `R/hol.R` and `R/laplace.R`

Numbers are real numbers. The normal approximation is that of R/loglikelihood.R:80-90, as in
`Model/IS.lean`.
-/
namespace Verif.Hol

open Verif.Split Verif.IS Verif.Family Matrix

variable {q n p : ℕ}

/-- R/hol.R:1-5 `find_M`; `Matrix::solve` stops for a singular matrix. -/
noncomputable def findM (pars : List ℝ) (M : ModFr q n p) (nTheta : ℕ) (approx : NormalApprox q) :
    Res (Matrix (Fin n) (Fin n) ℝ) := do
  let LambdatThetaZt ← findLambdatThetaZt pars M nTheta
  if approx.precision.det = 0 then Res.raise "singular"
  else return LambdatThetaZtᵀ * (approx.precision⁻¹ * LambdatThetaZt)

/-- R/hol.R:26-33: the correction, from the derivatives and the matrix `M`. -/
noncomputable def epsilonOf (gamma_3 gamma_4 : Fin n → ℝ) (M : Matrix (Fin n) (Fin n) ℝ) : ℝ :=
  let diag_M := fun j => M j j
  let kappa_4 := ∑ j, gamma_4 j * diag_M j ^ 2
  let gamma_3_diag_M := fun j => gamma_3 j * diag_M j
  let kappa_13_2 := gamma_3_diag_M ⬝ᵥ (Mᵀ *ᵥ gamma_3_diag_M)
  let kappa_23_2 := gamma_3 ⬝ᵥ ((Matrix.of fun i j => M i j ^ 3)ᵀ *ᵥ gamma_3)
  (-1) * kappa_4 / 8 + (2 * kappa_23_2 + 3 * kappa_13_2) / 24

/-- R/hol.R:12-15: the linear predictor at the mode. -/
noncomputable def etaHat (pars : List ℝ) (M : ModFr q n p) (nTheta : ℕ) (approx : NormalApprox q) :
    Res (Fin n → ℝ) := do
  let XBeta ← findXBeta pars M nTheta
  let LambdatThetaZt ← findLambdatThetaZt pars M nTheta
  let eta_hat := findEta (Matrix.of fun i (_ : Fin 1) => approx.mean i) XBeta LambdatThetaZt
  return fun j => eta_hat.getD j 0

/-- R/hol.R:7-34 `find_epsilon_1`; `extended_family` (R/RcppR6.R:126-156) is the class `Family` of
C++. `weights` of length 0 are replaced as in R/IS.R:42-44. -/
noncomputable def findEpsilon1 (family link : String) (pars : List ℝ) (M : ModFr q n p)
    (nTheta : ℕ) (approx : NormalApprox q) : Res ℝ := do
  let modfr_family ← Family.ofNames family link
  let eta_hat ← etaHat pars M nTheta approx
  let weights := fun j : Fin n => (weightsOf M).getD j 0
  let d3 ← modfr_family.evaluateThirdDerivative eta_hat M.resp weights
  let d4 ← modfr_family.evaluateFourthDerivative eta_hat M.resp weights
  let Mm ← findM pars M nTheta approx
  return epsilonOf (fun j => -(d3 j)) (fun j => -(d4 j)) Mm

/-- R/laplace.R:11-25 `find_lfun_Laplace`, the value of `lfun`; `laplace_1` is
`-devfun_laplace_1(x) / 2`, `canonical` is `is_canonical(modfr$family)` (R/utility.R:96-99). For an
order below 1 the function has no value (`lfun` is not defined). -/
noncomputable def lfunLaplace (order : ℤ) (canonical : Bool) (family link : String) (pars : List ℝ)
    (M : ModFr q n p) (nTheta : ℕ) (approx : NormalApprox q) (laplace_1 : ℝ) : Res ℝ :=
  if order = 1 then Except.ok laplace_1
  else if order > 2 then Res.raise "Laplace approximation not yet implemented"
  else if order > 1 ∧ ¬ canonical then
    Res.raise "Laplace approximation not yet implemented for non-canonical link functions"
  else if order = 2 then do
    let epsilon_1 ← findEpsilon1 family link pars M nTheta approx
    return laplace_1 + epsilon_1
  else Res.raise "object 'lfun' not found"

end Verif.Hol
