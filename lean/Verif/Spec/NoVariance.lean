import Verif.Spec.Rotate

/-!
# Specification of C112: the model without random effects
-/
namespace Verif.NoVariance.Spec

open Verif.Split Verif.Family

variable {q n p : ℕ}

/-- Log-likelihood of the generalized linear model with the fixed effects only. -/
noncomputable def fixedLogLik (M : ModFr q n p) (μ : ℝ → ℝ) (beta : List ℝ) : ℝ :=
  ∑ j, logLik μ (M.resp j) (Split.Spec.weight M j) (Rotate.Spec.expected M beta j)

end Verif.NoVariance.Spec
