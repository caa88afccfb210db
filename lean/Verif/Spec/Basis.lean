import Mathlib.Data.Real.Basic

/-!
# Specification of a hierarchical basis

A family of knots `κ level position` and functions `φ x level position`, for levels up to `k`
and positions below `2^level`.
-/
namespace Verif.Spec

/-- Each basis function has value 1 at its own knot and 0 at every other knot of the same or a
lower level. -/
structure Hierarchical (k : ℕ) (κ : ℕ → ℕ → ℝ) (φ : ℝ → ℕ → ℕ → ℝ) : Prop where
  own : ∀ l p, l ≤ k → p < 2 ^ l → φ (κ l p) l p = 1
  other : ∀ l p l' p', l' ≤ k → p' < 2 ^ l' → l ≤ l' → p < 2 ^ l → (l, p) ≠ (l', p') →
    φ (κ l p) l' p' = 0

end Verif.Spec
