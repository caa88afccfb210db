import Verif.Model.Divergence
import Verif.Spec.Divergence
import Verif.Proofs.ISMeasure
import Verif.Proofs.GaussInt

/-! The Kullback-Leibler divergence between two normal distributions. -/
namespace Verif.Hol

open MeasureTheory ProbabilityTheory Matrix InformationTheory Verif.IS

variable {p : ℕ}

theorem integral_sq_affine (m : Fin p → ℝ) (A : Matrix (Fin p) (Fin p) ℝ) :
    Integrable (fun z => affine m A z ⬝ᵥ affine m A z) (IS.Spec.stdNormal p) ∧
    ∫ z, affine m A z ⬝ᵥ affine m A z ∂(IS.Spec.stdNormal p) = m ⬝ᵥ m + (A * Aᵀ).trace := by
  have hL : ∀ i, MemLp (fun z => affine m A z i) 2 (IS.Spec.stdNormal p) := fun i =>
    (memLp_const (m i)).add (memLp_mulVec A i)
  have hi : ∀ i, Integrable (fun z => affine m A z i * affine m A z i) (IS.Spec.stdNormal p) :=
    fun i => (hL i).integrable_mul (hL i)
  refine ⟨by unfold dotProduct; exact integrable_finset_sum _ fun i _ => hi i, ?_⟩
  unfold dotProduct
  rw [integral_finset_sum _ fun i _ => hi i, trace, ← Finset.sum_add_distrib]
  refine Finset.sum_congr rfl fun i _ => ?_
  have h := congrFun (congrFun (affine_covariance m A) i) i
  unfold IS.Spec.covariance at h
  rw [Matrix.of_apply, covariance_eq_sub (hL i) (hL i), affine_mean] at h
  simp only [Pi.mul_apply] at h
  rw [diag_apply, ← h]
  ring

theorem log_affineDensity (m : Fin p → ℝ) {A : Matrix (Fin p) (Fin p) ℝ} (hA : A.det ≠ 0)
    (u : Fin p → ℝ) : Real.log (affineDensity m A u) =
      -(1 / 2) * Real.log ((A * Aᵀ).det) - p * Real.log (√(2 * Real.pi)) -
        1 / 2 * ((A⁻¹ *ᵥ (u - m)) ⬝ᵥ (A⁻¹ *ᵥ (u - m))) := by
  have hpi : (0 : ℝ) < √(2 * Real.pi) := Real.sqrt_pos.2 (by positivity)
  have h1 : ∀ x : ℝ, Real.log (gaussianPDFReal 0 1 x) = -Real.log (√(2 * Real.pi)) - x * x / 2 := by
    intro x
    simp only [gaussianPDFReal, NNReal.coe_one, mul_one, sub_zero]
    rw [Real.log_mul (inv_ne_zero hpi.ne') (Real.exp_pos _).ne', Real.log_inv, Real.log_exp]
    ring
  have hd : 0 < |A.det⁻¹| := abs_pos.2 (inv_ne_zero hA)
  unfold affineDensity stdDensity
  rw [Real.log_mul hd.ne' (Finset.prod_ne_zero_iff.2 fun i _ => (gaussianPDFReal_pos 0 1 _ one_ne_zero).ne'),
    Real.log_prod (fun i _ => (gaussianPDFReal_pos 0 1 _ one_ne_zero).ne')]
  simp only [h1]
  rw [Finset.sum_sub_distrib, Finset.sum_const, Finset.card_univ, Fintype.card_fin, nsmul_eq_mul,
    ← Finset.sum_div, Real.log_abs, Real.log_inv, det_mul, det_transpose, Real.log_mul hA hA]
  unfold dotProduct
  ring

theorem trace_ratio (A₁ A₂ : Matrix (Fin p) (Fin p) ℝ) :
    ((A₁⁻¹ * A₂) * (A₁⁻¹ * A₂)ᵀ).trace = ((A₁ * A₁ᵀ)⁻¹ * (A₂ * A₂ᵀ)).trace := by
  rw [Matrix.mul_inv_rev, transpose_mul, ← Matrix.mul_assoc, trace_mul_comm, transpose_nonsing_inv]
  simp only [Matrix.mul_assoc]

theorem normal_kl {m₁ m₂ : Fin p → ℝ} {S₁ S₂ : Matrix (Fin p) (Fin p) ℝ} (h1 : S₁.det ≠ 0)
    (h2 : S₂.det ≠ 0) {ν₁ ν₂ : Measure (Fin p → ℝ)} (hν₁ : Spec.IsNormal m₁ S₁ ν₁)
    (hν₂ : Spec.IsNormal m₂ S₂ ν₂) :
    klDiv ν₂ ν₁ ≠ ⊤ ∧ (klDiv ν₂ ν₁).toReal = 1 / 2 * (Real.log S₁.det - Real.log S₂.det - p +
      (S₁⁻¹ * S₂).trace + (m₂ - m₁) ⬝ᵥ (S₁⁻¹ *ᵥ (m₂ - m₁))) := by
  obtain ⟨A₁, hA₁, hν₁⟩ := hν₁
  obtain ⟨A₂, hA₂, hν₂⟩ := hν₂
  have d1 : A₁.det ≠ 0 := fun h => h1 (by rw [← hA₁, det_mul, h, zero_mul])
  have d2 : A₂.det ≠ 0 := fun h => h2 (by rw [← hA₂, det_mul, h, zero_mul])
  have hν₁' : ν₁ = (IS.Spec.stdNormal p).map (affine m₁ A₁) := hν₁
  have hν₂' : ν₂ = (IS.Spec.stdNormal p).map (affine m₂ A₂) := hν₂
  obtain ⟨g1m, g1p, g1⟩ := affine_isDensity m₁ d1
  obtain ⟨g2m, g2p, g2⟩ := affine_isDensity m₂ d2
  haveI : IsProbabilityMeasure ν₁ := hν₁' ▸ Measure.isProbabilityMeasure_map
    (measurable_affine m₁ A₁).aemeasurable
  haveI : IsProbabilityMeasure ν₂ := hν₂' ▸ Measure.isProbabilityMeasure_map
    (measurable_affine m₂ A₂).aemeasurable
  have hrm : Measurable fun u => ENNReal.ofReal (affineDensity m₂ A₂ u / affineDensity m₁ A₁ u) :=
    (g2m.div g1m).ennreal_ofReal
  have hwd : ν₂ = ν₁.withDensity fun u =>
      ENNReal.ofReal (affineDensity m₂ A₂ u / affineDensity m₁ A₁ u) := by
    rw [hν₁', g1, ← withDensity_mul _ g1m.ennreal_ofReal hrm, hν₂', g2]
    congr 1
    funext u
    rw [Pi.mul_apply, ← ENNReal.ofReal_mul (g1p u).le, mul_div_cancel₀ _ (g1p u).ne']
  have hac : ν₂ ≪ ν₁ := by
    rw [hwd]
    exact withDensity_absolutelyContinuous _ _
  have hllr : llr ν₂ ν₁ =ᵐ[ν₂] fun u =>
      Real.log (affineDensity m₂ A₂ u) - Real.log (affineDensity m₁ A₁ u) := by
    have h := Measure.rnDeriv_withDensity ν₁ hrm
    rw [← hwd] at h
    filter_upwards [hac.ae_le h] with u hu
    rw [llr_def]
    simp only
    rw [hu, ENNReal.toReal_ofReal (div_nonneg (g2p u).le (g1p u).le),
      Real.log_div (g2p u).ne' (g1p u).ne']
  have hval : ∀ z, Real.log (affineDensity m₂ A₂ (affine m₂ A₂ z)) -
      Real.log (affineDensity m₁ A₁ (affine m₂ A₂ z)) =
      1 / 2 * (Real.log S₁.det - Real.log S₂.det) - 1 / 2 * (affine 0 1 z ⬝ᵥ affine 0 1 z) +
        1 / 2 * (affine (A₁⁻¹ *ᵥ (m₂ - m₁)) (A₁⁻¹ * A₂) z ⬝ᵥ
          affine (A₁⁻¹ *ᵥ (m₂ - m₁)) (A₁⁻¹ * A₂) z) := by
    intro z
    rw [log_affineDensity m₂ d2, log_affineDensity m₁ d1, affine_inv m₂ d2, hA₁, hA₂]
    have e1 : affine 0 1 z = z := by
      unfold affine
      rw [one_mulVec, zero_add]
    have e2 : affine (A₁⁻¹ *ᵥ (m₂ - m₁)) (A₁⁻¹ * A₂) z = A₁⁻¹ *ᵥ (affine m₂ A₂ z - m₁) := by
      unfold affine
      rw [← mulVec_mulVec, ← mulVec_add]
      congr 1
      abel
    rw [e1, e2]
    ring
  have i1 := integral_sq_affine (0 : Fin p → ℝ) 1
  have i2 := integral_sq_affine (A₁⁻¹ *ᵥ (m₂ - m₁)) (A₁⁻¹ * A₂)
  have hint : Integrable (fun z => Real.log (affineDensity m₂ A₂ (affine m₂ A₂ z)) -
      Real.log (affineDensity m₁ A₁ (affine m₂ A₂ z))) (IS.Spec.stdNormal p) := by
    simp only [hval]
    exact ((integrable_const _).sub (i1.1.const_mul _)).add (i2.1.const_mul _)
  have hm : Measurable fun u =>
      Real.log (affineDensity m₂ A₂ u) - Real.log (affineDensity m₁ A₁ u) := g2m.log.sub g1m.log
  have hint2 : Integrable (fun u =>
      Real.log (affineDensity m₂ A₂ u) - Real.log (affineDensity m₁ A₁ u)) ν₂ := by
    rw [hν₂', integrable_map_measure hm.aestronglyMeasurable (measurable_affine m₂ A₂).aemeasurable]
    exact hint
  have hint3 : Integrable (llr ν₂ ν₁) ν₂ := hint2.congr hllr.symm
  refine ⟨klDiv_ne_top hac hint3, ?_⟩
  rw [toReal_klDiv_of_measure_eq hac (by rw [measure_univ, measure_univ]), integral_congr_ae hllr,
    hν₂', integral_map (measurable_affine m₂ A₂).aemeasurable hm.aestronglyMeasurable]
  simp only [hval]
  rw [integral_add (by exact (integrable_const _).sub (i1.1.const_mul _)) (i2.1.const_mul _),
    integral_sub (integrable_const _) (i1.1.const_mul _), integral_const, probReal_univ, one_smul,
    integral_const_mul, integral_const_mul, i1.2, i2.2, trace_ratio, hA₁, hA₂]
  have hq : (A₁⁻¹ *ᵥ (m₂ - m₁)) ⬝ᵥ (A₁⁻¹ *ᵥ (m₂ - m₁)) = (m₂ - m₁) ⬝ᵥ (S₁⁻¹ *ᵥ (m₂ - m₁)) := by
    rw [← hA₁, Matrix.mul_inv_rev, ← transpose_nonsing_inv, ← mulVec_mulVec, dotProduct_mulVec (m₂ - m₁),
      vecMul_transpose]
  rw [hq, transpose_one, Matrix.one_mul, trace_one, Fintype.card_fin, zero_dotProduct]
  ring

theorem exists_normal (m : Fin p → ℝ) {S : Matrix (Fin p) (Fin p) ℝ} (h : S.PosDef) :
    ∃ ν, Spec.IsNormal m S ν := by
  obtain ⟨b, hb⟩ := Gauss.posDef_factor h
  exact ⟨_, bᵀ, by rw [transpose_transpose, ← hb], rfl⟩

end Verif.Hol
