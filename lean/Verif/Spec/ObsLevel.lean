import Verif.Spec.Split

/-!
# Models with one random effect for each observation
-/
namespace Verif.ObsLevel.Spec

open Verif.Split

variable {q n p : ℕ}

/-- A term `(1 | group)` where each group has one observation: one variance parameter, and the random
effect `ρ j` for the observation `j` only. -/
structure ObsLevel (M : ModFr q n p) (ρ : Fin n ≃ Fin q) : Prop where
  lambdat : ∀ t r c, Split.Spec.lambdat M [t] r c = if r = c then t else 0
  zt : ∀ c j, M.Zt c j = if c = ρ j then 1 else 0

/-- Each observation is a success or a failure. -/
def Binary (M : ModFr q n p) : Prop :=
  ∀ j, Split.Spec.weight M j = 1 ∧ (M.resp j = 0 ∨ M.resp j = 1)

end Verif.ObsLevel.Spec
