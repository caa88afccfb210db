import Verif.Spec.Split

/-!
# Specification: the same model with other parameters

Two model frames with the same observations and pattern of random effects, but other covariates,
numbers of fixed effects and of variance parameters.
-/
namespace Verif.Reparam.Spec

open Verif.Split

variable {q n p p' : ℕ}

/-- The same responses, weights and active random effects. -/
structure SameData (M : ModFr q n p) (M' : ModFr q n p') : Prop where
  resp : M.resp = M'.resp
  weight : Split.Spec.weight M = Split.Spec.weight M'
  active : ∀ j, Split.Spec.Active M j = Split.Spec.Active M' j

/-- The parameters of the two model frames give the same linear predictor, for all random effects. -/
def SamePredictor (M : ModFr q n p) (M' : ModFr q n p') (theta beta theta' beta' : List ℝ) : Prop :=
  ∀ u j, Split.Spec.eta M theta beta u j = Split.Spec.eta M' theta' beta' u j

/-- The same weights and active random effects, and the same responses where the weight is not 0. -/
structure SameCounted (M : ModFr q n p) (M' : ModFr q n p') : Prop where
  resp : ∀ j, Split.Spec.weight M j ≠ 0 → M.resp j = M'.resp j
  weight : Split.Spec.weight M = Split.Spec.weight M'
  active : ∀ j, Split.Spec.Active M j = Split.Spec.Active M' j

/-- The same linear predictor of the observations whose weight is not 0. -/
def SamePredictorCounted (M : ModFr q n p) (M' : ModFr q n p') (theta beta theta' beta' : List ℝ) :
    Prop :=
  ∀ u j, Split.Spec.weight M j ≠ 0 →
    Split.Spec.eta M theta beta u j = Split.Spec.eta M' theta' beta' u j

end Verif.Reparam.Spec
