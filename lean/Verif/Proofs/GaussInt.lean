import Verif.Proofs.Gauss
import Mathlib.Analysis.Matrix.Spectrum
import Mathlib.Analysis.SpecialFunctions.Gaussian.GaussianIntegral
import Mathlib.MeasureTheory.Integral.Pi
import Mathlib.MeasureTheory.Measure.Lebesgue.Basic
import Mathlib.MeasureTheory.Group.Integral

/-! The integral of a Gaussian density. -/
namespace Verif.Gauss

open Matrix MeasureTheory

variable {n m : ℕ}

theorem posDef_factor {p : Matrix (Fin n) (Fin n) ℝ} (hp : p.PosDef) :
    ∃ b : Matrix (Fin n) (Fin n) ℝ, p = bᵀ * b := by
  have hA := hp.isHermitian
  set u : Matrix (Fin n) (Fin n) ℝ := (hA.eigenvectorUnitary : Matrix (Fin n) (Fin n) ℝ) with hu
  refine ⟨diagonal (fun i => √(hA.eigenvalues i)) * uᵀ, ?_⟩
  have h := hA.spectral_theorem
  rw [Unitary.conjStarAlgAut_apply] at h
  have h2 : diagonal (fun i => √(hA.eigenvalues i)) * diagonal (fun i => √(hA.eigenvalues i)) =
      diagonal (RCLike.ofReal ∘ hA.eigenvalues : Fin n → ℝ) := by
    rw [diagonal_mul_diagonal]
    congr 1
    funext i
    simp [Real.mul_self_sqrt (hp.eigenvalues_pos i).le]
  rw [transpose_mul, transpose_transpose, diagonal_transpose, Matrix.mul_assoc,
    ← Matrix.mul_assoc (diagonal _), h2]
  rw [Matrix.mul_assoc, star_eq_conjTranspose, conjTranspose_eq_transpose_of_trivial] at h
  exact h

theorem integral_linear (b : Matrix (Fin n) (Fin n) ℝ) (hb : b.det ≠ 0) (f : (Fin n → ℝ) → ℝ)
    (hf : Continuous f) : ∫ x, f (b *ᵥ x) = |b.det|⁻¹ * ∫ y, f y := by
  have h := Real.map_matrix_volume_pi_eq_smul_volume_pi hb
  have h1 : ∫ y, f y ∂(Measure.map (toLin' b) volume) = ∫ x, f (toLin' b x) := by
    refine integral_map ?_ hf.aestronglyMeasurable
    exact (LinearMap.continuous_of_finiteDimensional (toLin' b)).aemeasurable
  rw [h, integral_smul_measure] at h1
  simp only [toLin'_apply] at h1
  rw [← h1, ENNReal.toReal_ofReal (abs_nonneg _), abs_inv, smul_eq_mul]

theorem gaussian_integral {p : Matrix (Fin n) (Fin n) ℝ} (hp : p.PosDef) (μ : Fin n → ℝ) :
    ∫ x, Real.exp (-0.5 * quad μ p x) = √(2 * Real.pi) ^ n * (√p.det)⁻¹ := by
  have h0 : ∫ x, Real.exp (-0.5 * quad μ p x) = ∫ x : Fin n → ℝ, Real.exp (-0.5 * (x ⬝ᵥ (p *ᵥ x))) := by
    have := integral_sub_right_eq_self (μ := (volume : Measure (Fin n → ℝ)))
      (fun x : Fin n → ℝ => Real.exp (-0.5 * (x ⬝ᵥ (p *ᵥ x)))) μ
    simpa [quad] using this
  obtain ⟨b, hb⟩ := posDef_factor hp
  have hdet : p.det = b.det * b.det := by rw [hb, det_mul, det_transpose]
  have hb0 : b.det ≠ 0 := by
    intro h
    have := hp.det_pos
    rw [hdet, h] at this
    simp at this
  have h1 : ∀ x : Fin n → ℝ, Real.exp (-0.5 * (x ⬝ᵥ (p *ᵥ x))) =
      (fun y : Fin n → ℝ => ∏ i, Real.exp (-(1 / 2) * y i ^ 2)) (b *ᵥ x) := by
    intro x
    simp only
    rw [← Real.exp_sum, ← Finset.mul_sum, hb, ← mulVec_mulVec, dotProduct_mulVec, vecMul_transpose]
    congr 1
    rw [dotProduct]
    have : ∀ i, (b *ᵥ x) i * (b *ᵥ x) i = (b *ᵥ x) i ^ 2 := fun i => (sq _).symm
    simp only [this]
    ring
  rw [h0]
  simp only [h1]
  rw [integral_linear b hb0 (fun y : Fin n → ℝ => ∏ i, Real.exp (-(1 / 2) * y i ^ 2))
    (by fun_prop), integral_fintype_prod_volume_eq_prod (fun _ (y : ℝ) => Real.exp (-(1 / 2) * y ^ 2))]
  simp only [integral_gaussian, Finset.prod_const, Finset.card_univ, Fintype.card_fin]
  rw [hdet, Real.sqrt_mul_self_eq_abs, mul_comm]
  congr 3
  ring

end Verif.Gauss
