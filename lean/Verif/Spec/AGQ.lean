import Mathlib.Analysis.SpecialFunctions.Exp
import Mathlib.Analysis.SpecialFunctions.Sqrt

/-! # Specification: adaptive Gauss-Hermite quadrature in one dimension -/
namespace Verif.Spec

/-- The quadrature approximation of `∫ f` centred at `μ` with scale `σ`, for a rule given as pairs
of node and weight: the rule is applied to `f (μ + √2 σ x) e^{x²}`, and the factor `√2 σ` comes
from the change of variable. -/
noncomputable def agq (rule : List (ℝ × ℝ)) (μ σ : ℝ) (f : ℝ → ℝ) : ℝ :=
  Real.sqrt 2 * σ *
    (rule.map fun r => r.2 * Real.exp (r.1 ^ 2) * f (μ + Real.sqrt 2 * σ * r.1)).sum

end Verif.Spec
