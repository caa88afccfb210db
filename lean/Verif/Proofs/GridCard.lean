import Verif.Spec.Grid
import Verif.Proofs.Counting
import Mathlib.Algebra.Order.Antidiag.FinsuppEquiv
import Mathlib.Data.Fintype.BigOperators
import Mathlib.Algebra.BigOperators.Fin

/-! Cardinality of the sparse grid. -/
namespace Verif.Counting

open Finset Verif.Spec

/-- Grid points with functions instead of lists. -/
def gridFin (d k : ℕ) : Finset (Σ _ : Σ _ : ℕ, (Fin d →₀ ℕ), (Fin d → ℕ)) :=
  ((range (k + 1)).sigma fun s => (univ : Finset (Fin d)).finsuppAntidiag s).sigma
    fun l => Fintype.piFinset fun t => range (2 ^ l.2 t)

theorem card_gridFin (d k : ℕ) (hd : 0 < d) : (gridFin d k).card = gridCount d k := by
  unfold gridFin gridCount
  rw [card_sigma, sum_sigma]
  refine sum_congr rfl fun s _ => ?_
  rw [sum_congr rfl (g := fun _ => 2 ^ s)]
  · rw [sum_const, smul_eq_mul, card_finsuppAntidiag_nat_eq_choose, card_univ, Fintype.card_fin]
    congr 2
    omega
  · intro l hl
    rw [mem_finsuppAntidiag] at hl
    simp only [Fintype.card_piFinset, card_range]
    rw [prod_pow_eq_pow_sum, hl.1]

theorem gridPoints_eq_image (d k : ℕ) : gridPoints d k =
    ((fun x : (Σ _ : Σ _ : ℕ, (Fin d →₀ ℕ), (Fin d → ℕ)) =>
      (List.ofFn (x.1.2 : Fin d → ℕ), List.ofFn x.2)) '' (gridFin d k : Set _)) := by
  ext ⟨ls, ps⟩
  simp only [gridPoints, Set.mem_setOf_eq, Set.mem_image, mem_coe, gridFin, mem_sigma, mem_range,
    mem_finsuppAntidiag, Fintype.mem_piFinset, Prod.mk.injEq]
  constructor
  · rintro ⟨rfl, h2, h3, h4⟩
    refine ⟨⟨⟨ls.sum, Finsupp.equivFunOnFinite.symm fun t => ls[t]⟩,
      fun t => ps[(t : ℕ)]'(by rw [h2]; exact t.2)⟩, ⟨⟨by simp; omega, ⟨?_, by simp⟩⟩, ?_⟩, ?_, ?_⟩
    · simp
    · intro t
      simpa using h4 t (by exact t.2) (by rw [h2]; exact t.2)
    · simp
    · apply List.ext_getElem
      · simp [h2]
      · intro n h1 h2
        simp
  · rintro ⟨⟨⟨s, l⟩, p⟩, ⟨⟨h1, h2⟩, h3⟩, rfl, rfl⟩
    refine ⟨by simp, by simp, ?_, ?_⟩
    · rw [List.sum_ofFn]
      have h4 : ∑ t, l t = s := h2.1
      have h5 : s < k + 1 := h1
      change ∑ t, l t ≤ k
      omega
    · intro t h4 h5
      simpa using h3 ⟨t, by simpa using h4⟩

theorem gridPoints_finite (d k : ℕ) : (gridPoints d k).Finite := by
  rw [gridPoints_eq_image]
  exact (finite_toSet _).image _

theorem ncard_gridPoints (d k : ℕ) (hd : 0 < d) : (gridPoints d k).ncard = gridCount d k := by
  rw [gridPoints_eq_image, Set.InjOn.ncard_image, Set.ncard_coe_finset, card_gridFin d k hd]
  rintro ⟨⟨s, l⟩, p⟩ hx ⟨⟨s', l'⟩, p'⟩ hy h
  simp only [Prod.mk.injEq, List.ofFn_inj, DFunLike.coe_fn_eq] at h
  obtain ⟨rfl, rfl⟩ := h
  simp only [gridFin, coe_sigma, Set.mem_sigma_iff, mem_coe, mem_finsuppAntidiag] at hx hy
  obtain rfl : s = s' := hx.1.2.1.symm.trans hy.1.2.1
  rfl

end Verif.Counting
