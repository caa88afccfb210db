import Verif.Props.Family
import Mathlib.Probability.Distributions.Gaussian.Real

/-!
# The mean of a normal distribution function at a normal variable
-/
namespace Verif.Family

open MeasureTheory ProbabilityTheory Set
open scoped NNReal

/-- If `Z` and `U` are independent standard normal variables, the probability of `Z ≤ a + s U` is the
probability of `Z ≤ a / √(1 + s²)`. -/
theorem probit_normal (a s : ℝ) :
    ∫ u, gaussianPDFReal 0 1 u * invProbit (a + s * u) = invProbit (a / Real.sqrt (1 + s ^ 2)) := by
  have hv : 0 < 1 + s ^ 2 := by positivity
  set c := Real.sqrt (1 + s ^ 2) with hc
  have c0 : 0 < c := Real.sqrt_pos.2 hv
  have csq : c ^ 2 = 1 + s ^ 2 := Real.sq_sqrt hv.le
  -- both sides as probabilities of the sum
  have h1 : ((gaussianReal 0 1).map ((-s) * ·)).conv (gaussianReal 0 1) = (gaussianReal 0 1).map (c * ·) := by
    rw [gaussianReal_map_const_mul, gaussianReal_map_const_mul, gaussianReal_conv_gaussianReal]
    congr 1
    · simp
    · ext
      simp [csq, add_comm]
  have h2 : (gaussianReal 0 1).map (c * ·) (Iic a) = gaussianReal 0 1 (Iic (a / c)) := by
    rw [Measure.map_apply (by fun_prop) measurableSet_Iic]
    congr 1
    ext x
    simp only [mem_preimage, mem_Iic, le_div_iff₀ c0, mul_comm]
  have h3 : ((gaussianReal 0 1).map ((-s) * ·)).conv (gaussianReal 0 1) (Iic a) =
      ∫⁻ u, gaussianReal 0 1 (Iic (a + s * u)) ∂(gaussianReal 0 1) := by
    have hm : MeasurableSet ((fun x : ℝ × ℝ => x.1 + x.2) ⁻¹' Iic a) :=
      measurableSet_Iic.preimage (by fun_prop)
    rw [Measure.conv, Measure.map_apply (by fun_prop) measurableSet_Iic, Measure.prod_apply hm,
      lintegral_map (measurable_measure_prodMk_left hm) (by fun_prop)]
    refine lintegral_congr fun u => congrArg _ ?_
    ext z
    simp only [mem_preimage, mem_Iic]
    constructor <;> intro h <;> linarith
  have h4 : ∫ u, invProbit (a + s * u) ∂(gaussianReal 0 1) = invProbit (a / c) := by
    unfold invProbit
    simp only [Measure.real]
    rw [integral_toReal]
    · rw [← h3, h1, h2]
    · have : Measurable fun u : ℝ => gaussianReal 0 1 (Iic (a + s * u)) := by
        have hmono : Monotone fun x : ℝ => gaussianReal 0 1 (Iic x) := fun x y h =>
          measure_mono (Iic_subset_Iic.2 h)
        exact hmono.measurable.comp (by fun_prop)
      exact this.aemeasurable
    · exact Filter.Eventually.of_forall fun u => measure_lt_top _ _
  rw [← h4, integral_gaussianReal_eq_integral_smul one_ne_zero]
  rfl

end Verif.Family
