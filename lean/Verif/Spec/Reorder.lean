import Verif.Spec.Grouped

/-!
# Specification of C97: order of the observations
-/
namespace Verif.Reorder.Spec

open Verif.Split Verif.Grouped

variable {q n p : ℕ}

/-- Observation `k` of `M'` is observation `ρ k` of `M`; otherwise the model frames are the same. -/
structure Reordered (M M' : ModFr q n p) (ρ : Fin n ≃ Fin n) : Prop where
  X : ∀ k j, M'.X k j = M.X (ρ k) j
  Zt : ∀ r k, M'.Zt r k = M.Zt r (ρ k)
  ztStored : ∀ r k, M'.ztStored r k = M.ztStored r (ρ k)
  offset : ∀ k, M'.offset k = M.offset (ρ k)
  lambdat : M'.lambdat = M.lambdat
  Lind : M'.Lind = M.Lind
  weight : ∀ k, Split.Spec.weight M' k = Split.Spec.weight M (ρ k)
  resp : ∀ k, M'.resp k = M.resp (ρ k)

/-- Observations depending on nested sets of random effects depend on the same random effects. -/
def NoNested (M : ModFr q n p) : Prop :=
  ∀ j k, Split.Spec.Active M j ⊆ Split.Spec.Active M k →
    Split.Spec.Active M j = Split.Spec.Active M k

theorem Reordered.rows {M M' : ModFr q n p} {ρ : Fin n ≃ Fin n} (h : Reordered M M' ρ) :
    Rows M M' ρ where
  X := h.X
  Zt := h.Zt
  ztStored := h.ztStored
  offset := h.offset
  lambdat := h.lambdat
  Lind := h.Lind
  weight i := by
    rw [Finset.sum_eq_single (ρ.symm i)]
    · rw [h.weight, ρ.apply_symm_apply]
    · intro k hk hne
      exact absurd (by rw [← (Finset.mem_filter.1 hk).2, ρ.symm_apply_apply]) hne
    · intro h0
      exact absurd (by simp) h0
  total i := by
    rw [Finset.sum_eq_single (ρ.symm i)]
    · rw [h.weight, h.resp, ρ.apply_symm_apply]
    · intro k hk hne
      exact absurd (by rw [← (Finset.mem_filter.1 hk).2, ρ.symm_apply_apply]) hne
    · intro h0
      exact absurd (by simp) h0

end Verif.Reorder.Spec
