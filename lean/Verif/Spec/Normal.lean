import Mathlib.Probability.Distributions.Gaussian.Real
import Mathlib.Probability.CDF

/-!
# The standard normal quantile function
-/
namespace Verif.Spec

open MeasureTheory ProbabilityTheory

/-- `Q` inverts the distribution function of the standard normal distribution on `(0, 1)`. This is
what `boost::math::quantile(normal(0, 1), p)` computes, apart from rounding. -/
def IsNormalQuantile (Q : ℝ → ℝ) : Prop :=
  ∀ p, 0 < p → p < 1 → cdf (gaussianReal 0 1) (Q p) = p

end Verif.Spec
