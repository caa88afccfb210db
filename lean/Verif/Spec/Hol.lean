import Verif.Model.Hol
import Verif.Spec.Split
import Mathlib.Analysis.Calculus.IteratedDeriv.Defs

/-!
# Specification of the second-order Laplace approximation
-/
namespace Verif.Hol.Spec

open Matrix

variable {q : ℕ}

/-- Unit vector. -/
noncomputable def unit (i : Fin q) : Fin q → ℝ := Pi.single i 1

/-- Third partial derivatives. -/
noncomputable def third (g : (Fin q → ℝ) → ℝ) (u : Fin q → ℝ) (i j k : Fin q) : ℝ :=
  iteratedFDeriv ℝ 3 g u ![unit i, unit j, unit k]

/-- Fourth partial derivatives. -/
noncomputable def fourth (g : (Fin q → ℝ) → ℝ) (u : Fin q → ℝ) (i j k l : Fin q) : ℝ :=
  iteratedFDeriv ℝ 4 g u ![unit i, unit j, unit k, unit l]

/-- The first correction term of the Laplace expansion of the integral of `exp (-g)`, from the
third and fourth derivatives at the mode and the inverse `h` of the matrix of second derivatives. -/
noncomputable def correction (g3 : Fin q → Fin q → Fin q → ℝ)
    (g4 : Fin q → Fin q → Fin q → Fin q → ℝ) (h : Matrix (Fin q) (Fin q) ℝ) : ℝ :=
  -(1 / 8) * (∑ i, ∑ j, ∑ k, ∑ l, g4 i j k l * h i j * h k l) +
    1 / 8 * (∑ i, ∑ j, ∑ k, ∑ l, ∑ m, ∑ n, g3 i j k * g3 l m n * h i j * h k l * h m n) +
    1 / 12 * (∑ i, ∑ j, ∑ k, ∑ l, ∑ m, ∑ n, g3 i j k * g3 l m n * h i l * h j m * h k n)

end Verif.Hol.Spec
