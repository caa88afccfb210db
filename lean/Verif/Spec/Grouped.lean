import Verif.Spec.Split

/-!
# Specification of C88: grouped observations

Observations with the same covariates and random effects may be given one by one, or as one
observation with the sum of the weights and the weighted mean of the responses; a weight of `k` is
the same as `k` copies.
-/
namespace Verif.Grouped

open Verif.Split

/-- Observation `i` of `M` stands for the observations `k` of `M'` with `ρ k = i`: they have the same
covariates, random effects and offset, their weights add up to the weight of `i`, and its response is
their weighted mean. -/
structure Rows {q n N p : ℕ} (M : ModFr q n p) (M' : ModFr q N p) (ρ : Fin N → Fin n) : Prop where
  X : ∀ k j, M'.X k j = M.X (ρ k) j
  Zt : ∀ r k, M'.Zt r k = M.Zt r (ρ k)
  ztStored : ∀ r k, M'.ztStored r k = M.ztStored r (ρ k)
  offset : ∀ k, M'.offset k = M.offset (ρ k)
  lambdat : M'.lambdat = M.lambdat
  Lind : M'.Lind = M.Lind
  weight : ∀ i, ∑ k with ρ k = i, Split.Spec.weight M' k = Split.Spec.weight M i
  total : ∀ i, ∑ k with ρ k = i, Split.Spec.weight M' k * M'.resp k = Split.Spec.weight M i * M.resp i

/-- The groups are in the order of their first observations. -/
structure Groups {q n N p : ℕ} (M : ModFr q n p) (M' : ModFr q N p) (ρ : Fin N → Fin n) : Prop
    extends Rows M M' ρ where
  order : ((List.finRange N).map ρ).eraseDups = List.finRange n

end Verif.Grouped
