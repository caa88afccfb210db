import Mathlib.Data.Real.Basic
import Mathlib.Tactic.NormNum

/-!
# What is used about the standard normal quantile function

These facts are proved from the Gaussian distribution in `Verif.Proofs.NormalQuantile`.
-/
namespace Verif.Spec

/-- Shape of the quantile function of a symmetric distribution with a density that decreases away
from 0. -/
structure QuantileOk (Q : ℝ → ℝ) : Prop where
  strictMono : ∀ p q, 0 < p → p < q → q < 1 → Q p < Q q
  half : Q (1 / 2) = 0
  symm : ∀ p, 0 < p → p < 1 → Q (1 - p) = -Q p
  spread : ∀ a h, 1 / 2 ≤ a → 0 < h → a + h < 1 → Q (1 / 2 + h) ≤ Q (a + h) - Q a

end Verif.Spec
