import Verif.Model.IS
import Verif.Spec.Split
import Mathlib.Probability.Moments.Covariance

/-!
# Specification of the importance sampling approximation
-/
namespace Verif.IS.Spec

open Verif.Split Verif.IS MeasureTheory ProbabilityTheory Matrix

variable {q n p r : ℕ}

/-- The log-integrand at the random effects `u`: minus half the sum of the deviance residuals of all
observations, plus the standard normal log-density of `u`. -/
noncomputable def logIntegrand (fam : Fam) (M : ModFr q n p) (theta beta : List ℝ)
    (u : Fin q → ℝ) : ℝ :=
  -(1 / 2) * ∑ j, fam.devResid (M.resp j) (fam.linkinv (Split.Spec.eta M theta beta u j))
    (Split.Spec.weight M j) + ∑ i, Real.log (gaussianPDFReal 0 1 (u i))

/-- The distribution of one sample: `q` independent standard normal variables. -/
noncomputable def stdNormal (q : ℕ) : Measure (Fin q → ℝ) := Measure.pi fun _ => gaussianReal 0 1

/-- The distribution of `r` independent samples. -/
noncomputable def samples (q r : ℕ) : Measure (Fin r → Fin q → ℝ) :=
  Measure.pi fun _ => stdNormal q

/-- The matrix whose columns are given samples. -/
def columns (z : Fin r → Fin q → ℝ) : Matrix (Fin q) (Fin r) ℝ := Matrix.of fun i s => z s i

/-- `g` is a density of the random vector `T z`, where `z` is standard normal. -/
def IsDensity (T : (Fin q → ℝ) → (Fin q → ℝ)) (g : (Fin q → ℝ) → ℝ) : Prop :=
  Measurable g ∧ (∀ u, 0 < g u) ∧
    (stdNormal q).map T = volume.withDensity fun u => ENNReal.ofReal (g u)

/-- `R` is the Cholesky factor of `A`, as LAPACK defines it: upper triangular with positive diagonal,
`R' R = A`. -/
structure IsChol (A R : Matrix (Fin q) (Fin q) ℝ) : Prop where
  upper : ∀ i j, j < i → R i j = 0
  pos : ∀ i, 0 < R i i
  eq : Rᵀ * R = A

/-- A Cholesky routine: right for every positive definite matrix. -/
def CholRoutine (chol : Matrix (Fin q) (Fin q) ℝ → Matrix (Fin q) (Fin q) ℝ) : Prop :=
  ∀ A, A.PosDef → IsChol A (chol A)

/-- The covariance matrix of the random vector `T z`, where `z` is standard normal. -/
noncomputable def covariance (T : (Fin q → ℝ) → (Fin q → ℝ)) : Matrix (Fin q) (Fin q) ℝ :=
  Matrix.of fun i j => cov[fun z => T z i, fun z => T z j; stdNormal q]

end Verif.IS.Spec
