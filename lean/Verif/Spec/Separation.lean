import Verif.Spec.Split

/-!
# Separation of successes and failures by the fixed effects
-/
namespace Verif.Separation.Spec

open Verif.Split

variable {q n p : ℕ}

/-- How much the linear predictor of an observation moves where the fixed effects move by `d`. -/
noncomputable def move (M : ModFr q n p) (d : Fin p → ℝ) (j : Fin n) : ℝ := ∑ k, M.X j k * d k

/-- In the direction `d` no success gets less likely and no failure does. -/
def Separates (M : ModFr q n p) (d : Fin p → ℝ) : Prop :=
  ∀ j, 0 < Split.Spec.weight M j →
    (M.resp j < 1 → move M d j ≤ 0) ∧ (0 < M.resp j → 0 ≤ move M d j)

/-- There is no such direction, apart from those in which nothing moves. -/
def Overlap (M : ModFr q n p) : Prop :=
  ∀ d, Separates M d → ∀ j, 0 < Split.Spec.weight M j → move M d j = 0

/-- Different fixed effects give different linear predictors. -/
def FullRank (M : ModFr q n p) : Prop :=
  ∀ d, (∀ j, 0 < Split.Spec.weight M j → move M d j = 0) → d = 0

/-- The likelihood that the methods approximate. -/
noncomputable def likelihood (M : ModFr q n p) (μ : ℝ → ℝ) (theta : List ℝ) (b : Fin p → ℝ) : ℝ :=
  ∫ u, Real.exp (Split.Spec.logIntegrand M μ theta (List.ofFn b) u)

end Verif.Separation.Spec
