import Verif.Spec.Split

/-!
# Specification of C106: nested random effects
-/
namespace Verif.Nested.Spec

/-- For every two items, one occurs in all factors (with at least two items) in which the other occurs,
or there is no factor with both. -/
def Nested (factors : List (List ℤ)) : Prop :=
  ∀ x y : ℤ, (∀ F ∈ factors, 2 ≤ F.length → x ∈ F → y ∈ F) ∨
    (∀ F ∈ factors, 2 ≤ F.length → y ∈ F → x ∈ F) ∨ ∀ F ∈ factors, ¬ (x ∈ F ∧ y ∈ F)

/-- Random effects are nested: of every two, one is active for all observations for which the other is,
or no observation has both. This is so with groups within groups (schools, classes within schools),
also with several effects (intercept and slope) of each group; it is not so with crossed groups. -/
def NestedEffects {q n p : ℕ} (M : Split.ModFr q n p) : Prop :=
  ∀ r s : Fin q, (∀ k, r ∈ Split.Spec.Active M k → s ∈ Split.Spec.Active M k) ∨
    (∀ k, s ∈ Split.Spec.Active M k → r ∈ Split.Spec.Active M k) ∨
    ∀ k, ¬ (r ∈ Split.Spec.Active M k ∧ s ∈ Split.Spec.Active M k)

/-- The number of random effects of an observation. -/
noncomputable def nActive {q n p : ℕ} (M : Split.ModFr q n p) (k : Fin n) : ℕ :=
  (Split.Spec.Active M k).ncard

end Verif.Nested.Spec
