import Verif.Model.Fit
import Mathlib.Probability.Distributions.Gaussian.Real

/-!
# Model of `summary` and of the tables it prints, `R/glmmFit.R`

Numbers are real numbers; `Inf` is `⊤`, `NA` and `NaN` are `none`. The vector of the estimates is as long
as the covariance matrix has rows and columns (so no recycling). Names and printing are not modelled.
-/
namespace Verif.Fit

open Verif.IS ProbabilityTheory MeasureTheory

/-- `diag(A)` for a square matrix. Used for R/glmmFit.R:104-110. -/
def diagOf (A : List (List (Option ℝ))) : List (Option ℝ) := A.mapIdx fun i row => row.getD i none

/-- `sqrt(x)`: `NaN` if `x` is negative. Used for R/glmmFit.R:104-110. -/
noncomputable def sqrtNa : Option ℝ → Option ℝ
  | none => none
  | some x => if x < 0 then none else some √x

/-- `abs(x / s)`: `x / 0` is infinite, `0 / 0` is `NaN`. Used for R/glmmFit.R:104-110. -/
noncomputable def absRatio (x : ℝ) : Option ℝ → Option (WithTop ℝ)
  | none => none
  | some s => if s = 0 then (if x = 0 then none else some ⊤) else some ((|x / s| : ℝ) : WithTop ℝ)

/-- `pnorm(z, lower.tail = FALSE)`: the probability of the values above `z`.
Used for R/glmmFit.R:104-110. -/
noncomputable def pnormUpper : WithTop ℝ → ℝ
  | ⊤ => 0
  | (z : ℝ) => (gaussianReal 0 1).real (Set.Ioi z)

/-- The parts of an object of class `summaryGlmmFit`. Used for R/glmmFit.R:104-110. -/
structure Summary where
  fit : Opt
  se : List (Option ℝ)
  z : List (Option (WithTop ℝ))
  p_value : List (Option ℝ)

/-- R/glmmFit.R:104-110 `summary.glmmFit`. -/
noncomputable def summary (object : Opt) : Summary :=
  let se := (diagOf object.Sigma).map sqrtNa
  let z := object.estim.zipWith absRatio se
  let p_value := z.map fun x => x.map fun v => 2 * pnormUpper v
  ⟨object, se, z, p_value⟩

/-- `x[idx]` for a vector with missing values. Used for R/glmmFit.R:155-160. -/
def indexNa {α : Type} (x : List (Option α)) (idx : List ℕ) : List (Option α) :=
  (idx.filter fun i => i ≠ 0).map fun i => x.getD (i - 1) none

/-- A row of the table of the fixed effects. Used for R/glmmFit.R:155-160. -/
structure Row where
  estimate : Option ℝ
  stdError : Option ℝ
  z : Option (WithTop ℝ)
  pValue : Option ℝ

/-- R/glmmFit.R:155-160: the matrix of the fixed effects. -/
noncomputable def fixedMat (x : Summary) (p_theta p_beta : ℕ) : List Row :=
  let which_fixed := colon (p_theta + 1) (p_beta + p_theta)
  let estim_fixed := index x.fit.estim which_fixed
  let se_fixed := indexNa x.se which_fixed
  let z_fixed := indexNa x.z which_fixed
  let p_value_fixed := indexNa x.p_value which_fixed
  (List.range estim_fixed.length).map fun i =>
    ⟨estim_fixed.getD i none, se_fixed.getD i none, z_fixed.getD i none, p_value_fixed.getD i none⟩

end Verif.Fit
