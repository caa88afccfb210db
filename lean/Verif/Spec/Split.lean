import Verif.Model.Split
import Verif.Props.GLMM

/-!
# Specification of the splitting of a model frame
-/
namespace Verif.Split.Spec

open Verif.Split Verif.GLMM Verif.Family Verif.Pars

variable {q n p : ℕ}

/-- The active random effects of an observation: those whose row of `Lambda' Z'` has a stored entry
for it. -/
def Active (M : ModFr q n p) (j : Fin n) : Set (Fin q) :=
  {r | ∃ c, (r, c) ∈ M.lambdat ∧ M.ztStored c j = true}

/-- Every observation has an active random effect. -/
def Covered (M : ModFr q n p) : Prop := ∀ j, (Active M j).Nonempty

/-- Observations are assigned to cliques: in the lists of all cliques together each observation
appears exactly once. -/
def Partition (ext : List (List (Fin q) × List (Fin n))) : Prop :=
  ∀ j, (ext.map fun e => e.2.count j).sum = 1

/-- Each observation is in a clique containing its active random effects. -/
def Contained (M : ModFr q n p) (ext : List (List (Fin q) × List (Fin n))) : Prop :=
  ∀ e ∈ ext, ∀ j ∈ e.2, ∀ r ∈ Active M j, r ∈ e.1

/-- What `lme4` guarantees of a model frame with `size` variance parameters: `Lambdat` stores each
position once, its diagonal is stored, each stored entry has the number of a variance parameter, and
entries of `Zt` that are not stored are 0. -/
structure WellFormed (M : ModFr q n p) (size : ℕ) : Prop where
  nodup : M.lambdat.Nodup
  diag : ∀ c, (c, c) ∈ M.lambdat
  length : M.Lind.length = M.lambdat.length
  lind : ∀ l ∈ M.Lind, 1 ≤ l ∧ l ≤ size
  zt : ∀ c j, M.Zt c j ≠ 0 → M.ztStored c j = true

/-- `Lambda'` for given variance parameters. -/
noncomputable def lambdat (M : ModFr q n p) (theta : List ℝ) (r c : Fin q) : ℝ :=
  ∑ k : Fin M.lambdat.length,
    if M.lambdat.get k = (r, c) then theta.getD (M.Lind.getD k 0 - 1).toNat 0 else 0

/-- Linear predictor `X beta + (Lambda' Z')' u`. -/
noncomputable def eta (M : ModFr q n p) (theta beta : List ℝ) (u : Fin q → ℝ) (j : Fin n) : ℝ :=
  (∑ k : Fin p, M.X j k * beta.getD k 0) +
    ∑ r, (∑ c, lambdat M theta r c * M.Zt c j) * u r

/-- Prior weights. -/
def weight (M : ModFr q n p) (j : Fin n) : ℝ := match M.weights with
  | none => 1
  | some w => w j

/-- Log-integrand: log-likelihood of all observations plus standard normal log-density. -/
noncomputable def logIntegrand (M : ModFr q n p) (μ : ℝ → ℝ) (theta beta : List ℝ)
    (u : Fin q → ℝ) : ℝ :=
  (∑ j, logLik μ (M.resp j) (weight M j) (eta M theta beta u j)) +
    ∑ r, Real.log (ProbabilityTheory.gaussianPDFReal 0 1 (u r))

end Verif.Split.Spec
