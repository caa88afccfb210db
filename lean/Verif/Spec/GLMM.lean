import Verif.Model.GLMM

/-!
# Specification of a GLMM factor

Written without the caches and loops of the code.
-/
namespace Verif.GLMM.Spec

open Verif.GLMM Verif.Family Verif.Pars Matrix

variable {d n p : ℕ}

/-- The stored entry number `k` is the variance parameter number `Lind k`; all others are 0. -/
noncomputable def lambdat (D : Data d n p) (theta : List ℝ) : Matrix (Fin d) (Fin d) ℝ :=
  Matrix.of fun r c => ∑ k : Fin D.entries.length,
    if D.entries[k] = (r, c) then theta.getD (D.Lind.getD k 0).toNat 0 else 0

/-- Every stored entry has a parameter, and it exists. -/
def Indexed (D : Data d n p) (size : ℕ) : Prop :=
  ∀ k < D.entries.length, k < D.Lind.length ∧ 0 ≤ D.Lind.getD k 0 ∧ D.Lind.getD k 0 < size

/-- Parameters that fit the factor. -/
def Fit (D : Data d n p) (theta beta : List ℝ) : Prop :=
  Indexed D theta.length ∧ beta.length = p

/-- Design matrix of the random effects. -/
noncomputable def design (D : Data d n p) (theta : List ℝ) : Matrix (Fin d) (Fin n) ℝ :=
  lambdat D theta * D.Zt

/-- Linear predictor. -/
noncomputable def eta (D : Data d n p) (theta beta : List ℝ) (u : Fin d → ℝ) : Fin n → ℝ := fun i =>
  (∑ j : Fin p, D.X i j * beta.getD j 0) + ∑ r, design D theta r i * u r

/-- Value, gradient and Hessian for given parameters and point, computed from the data alone. -/
noncomputable def value (D : Data d n p) (pars : Parameters) (u : Fin d → ℝ) : Res ℝ :=
  pars.family.evaluate (eta D pars.theta pars.beta u) D.response D.weights

noncomputable def gradient (D : Data d n p) (pars : Parameters) (u : Fin d → ℝ) :
    Res (Fin d → ℝ) := do
  let v ← pars.family.evaluateDerivative (eta D pars.theta pars.beta u) D.response D.weights
  return fun r => ∑ i, design D pars.theta r i * v i

noncomputable def hessian (D : Data d n p) (pars : Parameters) (u : Fin d → ℝ) :
    Res (Matrix (Fin d) (Fin d) ℝ) := do
  let v ← pars.family.evaluateSecondDerivative (eta D pars.theta pars.beta u) D.response D.weights
  return Matrix.of fun r s => ∑ i, design D pars.theta r i * v i * design D pars.theta s i

end Verif.GLMM.Spec
