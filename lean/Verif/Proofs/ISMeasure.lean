import Verif.Spec.IS
import Mathlib.MeasureTheory.Integral.Pi
import Mathlib.MeasureTheory.Measure.Lebesgue.Basic
import Mathlib.MeasureTheory.Function.LocallyIntegrable
import Mathlib.Probability.Distributions.Gaussian.Real
import Mathlib.Probability.Independence.Basic

/-!
# The standard normal distribution and its images under affine maps
-/
namespace Verif.IS

open MeasureTheory ProbabilityTheory Matrix

variable {q r : ℕ}

/-- Density of the standard normal distribution. -/
noncomputable def stdDensity (z : Fin q → ℝ) : ℝ := ∏ i, gaussianPDFReal 0 1 (z i)

theorem stdDensity_pos (z : Fin q → ℝ) : 0 < stdDensity z :=
  Finset.prod_pos fun _ _ => gaussianPDFReal_pos _ _ _ one_ne_zero

theorem measurable_stdDensity : Measurable (stdDensity (q := q)) :=
  Finset.measurable_fun_prod _ fun i _ =>
    (measurable_gaussianPDFReal 0 1).comp (measurable_pi_apply i)

theorem stdNormal_density :
    Spec.stdNormal q = volume.withDensity fun z => ENNReal.ofReal (stdDensity z) := by
  unfold Spec.stdNormal
  apply Measure.pi_eq
  intro s hs
  have hmeas : MeasurableSet (Set.univ.pi s) := MeasurableSet.univ_pi hs
  rw [withDensity_apply _ hmeas, ← lintegral_indicator hmeas]
  have h1 : ∀ z, (Set.univ.pi s).indicator (fun z => ENNReal.ofReal (stdDensity z)) z =
      ENNReal.ofReal (∏ i, (s i).indicator (gaussianPDFReal 0 1) (z i)) := by
    intro z
    by_cases hz : z ∈ Set.univ.pi s
    · rw [Set.indicator_of_mem hz]
      congr 1
      refine Finset.prod_congr rfl fun i _ => ?_
      rw [Set.indicator_of_mem (hz i (Set.mem_univ i))]
    · rw [Set.indicator_of_notMem hz]
      rw [Set.mem_univ_pi, not_forall] at hz
      obtain ⟨i, hi⟩ := hz
      rw [Finset.prod_eq_zero (Finset.mem_univ i) (Set.indicator_of_notMem hi _),
        ENNReal.ofReal_zero]
  simp only [h1]
  have hint : ∀ i, Integrable ((s i).indicator (gaussianPDFReal 0 1)) volume := fun i =>
    (integrable_gaussianPDFReal 0 1).indicator (hs i)
  have hnn : ∀ i x, 0 ≤ (s i).indicator (gaussianPDFReal 0 1) x := fun i x =>
    Set.indicator_nonneg (fun y _ => gaussianPDFReal_nonneg 0 1 y) x
  rw [← ofReal_integral_eq_lintegral_ofReal]
  · rw [integral_fintype_prod_volume_eq_prod fun i => (s i).indicator (gaussianPDFReal 0 1),
      ENNReal.ofReal_prod_of_nonneg fun i _ => integral_nonneg (hnn i)]
    refine Finset.prod_congr rfl fun i _ => ?_
    rw [integral_indicator (hs i), gaussianReal_apply_eq_integral 0 one_ne_zero]
  · exact Integrable.fintype_prod hint
  · exact ae_of_all _ fun z => Finset.prod_nonneg fun i _ => hnn i (z i)

instance : IsProbabilityMeasure (Spec.stdNormal q) := by
  unfold Spec.stdNormal
  infer_instance

instance : IsProbabilityMeasure (Spec.samples q r) := by
  unfold Spec.samples
  infer_instance

/-- The affine map with matrix `A`. -/
noncomputable def affine (m : Fin q → ℝ) (A : Matrix (Fin q) (Fin q) ℝ) (z : Fin q → ℝ) :
    Fin q → ℝ := m + A *ᵥ z

theorem measurable_mulVec (A : Matrix (Fin q) (Fin q) ℝ) :
    Measurable fun z : Fin q → ℝ => A *ᵥ z :=
  (Continuous.matrix_mulVec continuous_const continuous_id).measurable

theorem measurable_affine (m : Fin q → ℝ) (A : Matrix (Fin q) (Fin q) ℝ) :
    Measurable (affine m A) := (measurable_mulVec A).const_add m

theorem map_affine (m : Fin q → ℝ) {A : Matrix (Fin q) (Fin q) ℝ} (hA : A.det ≠ 0) :
    (volume : Measure (Fin q → ℝ)).map (affine m A) = ENNReal.ofReal |A.det⁻¹| • volume := by
  have h1 : affine m A = (fun z => m + z) ∘ fun z => A *ᵥ z := rfl
  have h2 : (fun z : Fin q → ℝ => A *ᵥ z) = Matrix.toLin' A := by
    funext z
    rw [Matrix.toLin'_apply]
  rw [h1, ← Measure.map_map (measurable_const_add m) (measurable_mulVec A), h2,
    Real.map_matrix_volume_pi_eq_smul_volume_pi hA, Measure.map_smul, map_add_left_eq_self]

/-- Density of the image of the standard normal distribution. -/
noncomputable def affineDensity (m : Fin q → ℝ) (A : Matrix (Fin q) (Fin q) ℝ) (u : Fin q → ℝ) : ℝ :=
  |A.det⁻¹| * stdDensity (A⁻¹ *ᵥ (u - m))

theorem affine_inv (m : Fin q → ℝ) {A : Matrix (Fin q) (Fin q) ℝ} (hA : A.det ≠ 0)
    (z : Fin q → ℝ) : A⁻¹ *ᵥ (affine m A z - m) = z := by
  unfold affine
  rw [add_sub_cancel_left, Matrix.mulVec_mulVec, Matrix.nonsing_inv_mul _ (Ne.isUnit hA),
    Matrix.one_mulVec]

theorem affine_isDensity (m : Fin q → ℝ) {A : Matrix (Fin q) (Fin q) ℝ} (hA : A.det ≠ 0) :
    Spec.IsDensity (affine m A) (affineDensity m A) := by
  have hm : Measurable fun u : Fin q → ℝ => stdDensity (A⁻¹ *ᵥ (u - m)) :=
    measurable_stdDensity.comp ((measurable_mulVec _).comp (measurable_id.sub_const m))
  have hpos : 0 < |A.det⁻¹| := abs_pos.2 (inv_ne_zero hA)
  refine ⟨hm.const_mul _, fun u => mul_pos hpos (stdDensity_pos _), ?_⟩
  ext s hs
  rw [Measure.map_apply (measurable_affine m A) hs, stdNormal_density,
    withDensity_apply _ (measurable_affine m A hs), withDensity_apply _ hs,
    ← lintegral_indicator (measurable_affine m A hs), ← lintegral_indicator hs]
  have h1 : ∀ z, (affine m A ⁻¹' s).indicator (fun z => ENNReal.ofReal (stdDensity z)) z =
      s.indicator (fun u => ENNReal.ofReal (stdDensity (A⁻¹ *ᵥ (u - m)))) (affine m A z) := by
    intro z
    by_cases hz : affine m A z ∈ s
    · rw [Set.indicator_of_mem hz, Set.indicator_of_mem (Set.mem_preimage.2 hz), affine_inv m hA]
    · rw [Set.indicator_of_notMem hz, Set.indicator_of_notMem (fun h => hz (Set.mem_preimage.1 h))]
  simp only [h1]
  rw [← lintegral_map (hm.ennreal_ofReal.indicator hs) (measurable_affine m A), map_affine m hA,
    lintegral_smul_measure, smul_eq_mul, ← lintegral_const_mul _ (hm.ennreal_ofReal.indicator hs)]
  refine lintegral_congr fun u => ?_
  by_cases hu : u ∈ s
  · rw [Set.indicator_of_mem hu, Set.indicator_of_mem hu, affineDensity,
      ENNReal.ofReal_mul hpos.le]
  · rw [Set.indicator_of_notMem hu, Set.indicator_of_notMem hu, mul_zero]

/-- Weighting by integrand over density gives the integral. -/
theorem lintegral_weight {T : (Fin q → ℝ) → (Fin q → ℝ)} {g : (Fin q → ℝ) → ℝ} (hT : Measurable T)
    (hg : Spec.IsDensity T g) {f : (Fin q → ℝ) → ℝ} (hf : Measurable f) (hf0 : ∀ u, 0 ≤ f u) :
    ∫⁻ z, ENNReal.ofReal (f (T z) / g (T z)) ∂(Spec.stdNormal q) =
      ∫⁻ u, ENNReal.ofReal (f u) := by
  obtain ⟨h1, h2, h3⟩ := hg
  have hm : Measurable fun u => ENNReal.ofReal (f u / g u) := (hf.div h1).ennreal_ofReal
  rw [← lintegral_map hm hT, h3, lintegral_withDensity_eq_lintegral_mul _ h1.ennreal_ofReal hm]
  refine lintegral_congr fun u => ?_
  rw [Pi.mul_apply, ← ENNReal.ofReal_mul (h2 u).le]
  congr 1
  field_simp [(h2 u).ne']

theorem lintegral_sample {f : (Fin q → ℝ) → ENNReal} (hf : Measurable f) (s : Fin r) :
    ∫⁻ z, f (z s) ∂(Spec.samples q r) = ∫⁻ x, f x ∂(Spec.stdNormal q) :=
  (measurePreserving_eval (fun _ : Fin r => Spec.stdNormal q) s).lintegral_comp hf

/-! ## Covariance -/

theorem memLp_coord (i : Fin q) : MemLp (fun z : Fin q → ℝ => z i) 2 (Spec.stdNormal q) :=
  (memLp_id_gaussianReal (μ := 0) (v := 1) 2).comp_measurePreserving
    (measurePreserving_eval (fun _ : Fin q => gaussianReal 0 1) i)

theorem cov_coord (i j : Fin q) :
    cov[fun z => z i, fun z => z j; Spec.stdNormal q] = if i = j then 1 else 0 := by
  by_cases h : i = j
  · subst h
    rw [if_pos rfl, covariance_self (memLp_coord i).aemeasurable]
    have hmp := measurePreserving_eval (fun _ : Fin q => gaussianReal 0 1) i
    have h1 := variance_map (X := id) (μ := Spec.stdNormal q) (Y := fun z => z i)
      (by exact measurable_id.aemeasurable) (measurable_pi_apply i).aemeasurable
    have h2 : (Spec.stdNormal q).map (fun z => z i) = gaussianReal 0 1 := hmp.map_eq
    rw [h2, variance_id_gaussianReal] at h1
    simpa using h1.symm
  · rw [if_neg h]
    exact IndepFun.covariance_eq_zero ((iIndepFun_pi (X := fun (_ : Fin q) (x : ℝ) => x)
      (μ := fun _ : Fin q => gaussianReal 0 1) fun _ => measurable_id.aemeasurable).indepFun h)
      (memLp_coord i) (memLp_coord j)

theorem memLp_mulVec (A : Matrix (Fin q) (Fin q) ℝ) (i : Fin q) :
    MemLp (fun z : Fin q → ℝ => (A *ᵥ z) i) 2 (Spec.stdNormal q) := by
  have : (fun z : Fin q → ℝ => (A *ᵥ z) i) = ∑ k, fun z => A i k * z k := by
    funext z
    rw [Finset.sum_apply]
    rfl
  rw [this]
  exact memLp_finset_sum' _ fun k _ => (memLp_coord k).const_mul _

theorem affine_covariance (m : Fin q → ℝ) (A : Matrix (Fin q) (Fin q) ℝ) :
    Spec.covariance (affine m A) = A * Aᵀ := by
  ext i j
  unfold Spec.covariance affine
  rw [Matrix.of_apply]
  simp only [Pi.add_apply]
  rw [covariance_const_add_left ((memLp_mulVec A i).integrable one_le_two),
    covariance_const_add_right ((memLp_mulVec A j).integrable one_le_two)]
  have h : ∀ i, (fun z : Fin q → ℝ => (A *ᵥ z) i) = fun z => ∑ k, A i k * z k := fun i => rfl
  rw [h i, h j, covariance_fun_sum_fun_sum (fun k => (memLp_coord k).const_mul _)
    (fun k => (memLp_coord k).const_mul _), Matrix.mul_apply]
  refine Finset.sum_congr rfl fun k _ => ?_
  rw [Finset.sum_eq_single k]
  · rw [covariance_const_mul_left, covariance_const_mul_right, cov_coord, if_pos rfl,
      Matrix.transpose_apply]
    ring
  · intro l _ hl
    rw [covariance_const_mul_left, covariance_const_mul_right, cov_coord, if_neg (Ne.symm hl)]
    ring
  · intro h
    exact absurd (Finset.mem_univ k) h

theorem affine_mean (m : Fin q → ℝ) (A : Matrix (Fin q) (Fin q) ℝ) (i : Fin q) :
    ∫ z, affine m A z i ∂(Spec.stdNormal q) = m i := by
  unfold affine
  simp only [Pi.add_apply]
  rw [integral_add (integrable_const _) ((memLp_mulVec A i).integrable one_le_two)]
  have h : (fun z : Fin q → ℝ => (A *ᵥ z) i) = fun z => ∑ k, A i k * z k := rfl
  rw [h, integral_finset_sum _ fun k _ => ((memLp_coord k).const_mul _).integrable one_le_two]
  have hz : ∀ k, ∫ z : Fin q → ℝ, z k ∂(Spec.stdNormal q) = 0 := by
    intro k
    have := integral_comp_eval (μ := fun _ : Fin q => gaussianReal 0 1) (i := k)
      (f := fun x : ℝ => x) measurable_id.aestronglyMeasurable
    exact this.trans integral_id_gaussianReal
  simp only [integral_const_mul, hz, mul_zero, Finset.sum_const_zero, add_zero, integral_const,
    probReal_univ, one_smul]

end Verif.IS
