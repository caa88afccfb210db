import Verif.Spec.IS
import Mathlib.InformationTheory.KullbackLeibler.Basic

/-!
# Specification of the divergence between two normal approximations

The divergence is Mathlib's `InformationTheory.klDiv`.
-/
namespace Verif.Hol.Spec

open MeasureTheory ProbabilityTheory Matrix

variable {p : ℕ}

/-- `ν` is the normal distribution with mean `m` and covariance matrix `Sigma`: the distribution of
`m + A z` for a standard normal vector `z`, where `A A' = Sigma`. -/
def IsNormal (m : Fin p → ℝ) (Sigma : Matrix (Fin p) (Fin p) ℝ) (ν : Measure (Fin p → ℝ)) : Prop :=
  ∃ A : Matrix (Fin p) (Fin p) ℝ, A * Aᵀ = Sigma ∧
    ν = (IS.Spec.stdNormal p).map fun z => m + A *ᵥ z

/-- The second-order expansion, around `estim`, of a log-likelihood with maximum at `estim` and
information `J`, plus a correction with derivatives `delta` and `gamma` at `estim`. -/
noncomputable def expansion (estim : Fin p → ℝ) (J : Matrix (Fin p) (Fin p) ℝ) (delta : Fin p → ℝ)
    (gamma : Matrix (Fin p) (Fin p) ℝ) (x : Fin p → ℝ) : ℝ :=
  -(1 / 2) * ((x - estim) ⬝ᵥ (J *ᵥ (x - estim))) +
    (delta ⬝ᵥ (x - estim) + 1 / 2 * ((x - estim) ⬝ᵥ (gamma *ᵥ (x - estim))))

end Verif.Hol.Spec
