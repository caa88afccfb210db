import Verif.Spec.Hol

/-!
# Specification of C108: rotated random effects
-/
namespace Verif.Rotate.Spec

open Verif.Split Verif.IS Matrix

variable {q n p p' : ℕ}

/-- The same responses and weights; the linear predictor of the first model at random effects `u` is
that of the second at the rotated random effects `R u` (`R` is orthogonal: rotations, changes of order
and of sign). -/
structure Rotated (R : Matrix (Fin q) (Fin q) ℝ) (M : ModFr q n p) (M' : ModFr q n p')
    (theta beta theta' beta' : List ℝ) : Prop where
  orthogonal : Rᵀ * R = 1
  resp : ∀ j, M'.resp j = M.resp j
  weight : ∀ j, Split.Spec.weight M' j = Split.Spec.weight M j
  eta : ∀ u j, Split.Spec.eta M' theta' beta' (R *ᵥ u) j = Split.Spec.eta M theta beta u j

/-- The normal distribution of rotated variables. -/
structure RotatedNormal (R : Matrix (Fin q) (Fin q) ℝ) (a a' : NormalApprox q) : Prop where
  mean : a'.mean = R *ᵥ a.mean
  precision : a'.precision = R * a.precision * Rᵀ

/-- The covariance matrix of the linear predictor `Z Λ Λ' Z'` that the random effects give. -/
noncomputable def covariance (M : ModFr q n p) (theta : List ℝ) : Matrix (Fin n) (Fin n) ℝ :=
  (Matrix.of (Split.Spec.lambdat M theta) * M.Zt)ᵀ * (Matrix.of (Split.Spec.lambdat M theta) * M.Zt)

/-- The expected linear predictor. -/
noncomputable def expected (M : ModFr q n p) (beta : List ℝ) (j : Fin n) : ℝ :=
  ∑ k : Fin p, M.X j k * beta.getD k 0

end Verif.Rotate.Spec
