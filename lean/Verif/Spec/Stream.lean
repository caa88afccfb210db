import Verif.Spec.IS
import Mathlib.Probability.Independence.Basic

/-!
# Specification: random numbers
-/
namespace Verif.IS.Spec

open MeasureTheory ProbabilityTheory

variable {Ω : Type} [MeasurableSpace Ω] {q : ℕ}

/-- Independent standard normal random numbers: what a random number generator delivers one after the
other. -/
structure Stream (N : ℕ → Ω → ℝ) (P : Measure Ω) : Prop where
  measurable : ∀ i, Measurable (N i)
  indep : iIndepFun N P
  law : ∀ i, P.map (N i) = gaussianReal 0 1

/-- The matrix with `q` rows and `r` columns filled by columns with the first numbers. -/
def fill (q r : ℕ) (x : ℕ → ℝ) : Matrix (Fin q) (Fin r) ℝ := Matrix.of fun i s => x (i + q * s)

end Verif.IS.Spec
