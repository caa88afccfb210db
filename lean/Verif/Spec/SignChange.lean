import Verif.Spec.Reparam
import Verif.Model.IS

/-!
# Specification: random effects with other signs
-/
namespace Verif.Sign.Spec

open Verif.Split

variable {q n p p' : ℕ}

/-- A sign for each random effect. -/
def Signs (s : Fin q → ℝ) : Prop := ∀ r, s r = 1 ∨ s r = -1

/-- The linear predictor of the one model frame at random effects `u` is that of the other at the
random effects with changed signs. -/
def MirrorPredictor (s : Fin q → ℝ) (M : ModFr q n p) (M' : ModFr q n p')
    (theta beta theta' beta' : List ℝ) : Prop :=
  ∀ u j, Split.Spec.eta M theta beta u j = Split.Spec.eta M' theta' beta' (fun r => s r * u r) j

/-- The same weights and active random effects, with successes and failures exchanged (the response is
the proportion of successes). -/
structure SwapData (M : ModFr q n p) (M' : ModFr q n p') : Prop where
  resp : ∀ j, M'.resp j = 1 - M.resp j
  weight : Split.Spec.weight M = Split.Spec.weight M'
  active : ∀ j, Split.Spec.Active M j = Split.Spec.Active M' j

/-- The linear predictor of the one model frame at random effects `u` is minus that of the other at the
random effects with changed signs. -/
def SwapPredictor (s : Fin q → ℝ) (M : ModFr q n p) (M' : ModFr q n p')
    (theta beta theta' beta' : List ℝ) : Prop :=
  ∀ u j, Split.Spec.eta M' theta' beta' (fun r => s r * u r) j = -Split.Spec.eta M theta beta u j

/-- Normal approximations that differ by a change of signs. -/
structure MirrorNormal (s : Fin q → ℝ) (a a' : IS.NormalApprox q) : Prop where
  mean : ∀ r, a'.mean r = s r * a.mean r
  precision : ∀ r c, a'.precision r c = s r * a.precision r c * s c

end Verif.Sign.Spec
