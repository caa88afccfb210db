import Verif.Proofs.NormalQuantile
import Mathlib.Analysis.Complex.ExponentialBounds
import Mathlib.Analysis.Real.Pi.Bounds

/-! Sharper bounds of the standard normal quantile function. -/
namespace Verif.NormalQuantile

open MeasureTheory ProbabilityTheory Verif.Spec Set Filter Topology

theorem mass_upper {b : ℝ} (hb : 0 ≤ b) : γ.real (Ioc 0 b) ≤ b / 2 := by
  rw [measureReal_def]
  have : γ (Ioc 0 b) ≤ ENNReal.ofReal (b / 2) := by
    rw [gaussianReal_apply _ one_ne]
    calc ∫⁻ x in Ioc 0 b, gaussianPDF 0 1 x ≤ ∫⁻ _ in Ioc 0 b, ENNReal.ofReal (1 / 2) := by
          apply setLIntegral_mono measurable_const
          intro y _
          unfold gaussianPDF
          apply ENNReal.ofReal_le_ofReal
          rw [gaussianPDFReal_def]
          simp only [NNReal.coe_one, mul_one]
          have e1 : Real.exp (-(y - 0) ^ 2 / 2) ≤ 1 := by
            rw [← Real.exp_zero]
            apply Real.exp_le_exp.mpr
            have := sq_nonneg (y - 0)
            linarith
          have e2 : (√(2 * Real.pi))⁻¹ ≤ 1 / 2 := by
            rw [one_div]
            apply inv_anti₀ (by norm_num)
            rw [Real.le_sqrt' (by norm_num)]
            have := Real.two_le_pi
            linarith
          calc (√(2 * Real.pi))⁻¹ * Real.exp (-(y - 0) ^ 2 / 2)
              ≤ 1 / 2 * 1 := mul_le_mul e2 e1 (Real.exp_nonneg _) (by norm_num)
            _ = 1 / 2 := by ring
      _ = ENNReal.ofReal (b / 2) := by
          rw [setLIntegral_const, Real.volume_Ioc, ← ENNReal.ofReal_mul (by norm_num)]
          congr 1; ring
  exact ENNReal.toReal_le_of_le_ofReal (by positivity) this

theorem mass_lower {a b : ℝ} (ha : 0 ≤ a) (hab : a ≤ b) :
    (b - a) * (39 / 100 * Real.exp (-b ^ 2 / 2)) ≤ γ.real (Ioc a b) := by
  rw [measureReal_def]
  have : ENNReal.ofReal ((b - a) * (39 / 100 * Real.exp (-b ^ 2 / 2))) ≤ γ (Ioc a b) := by
    rw [gaussianReal_apply _ one_ne]
    calc ENNReal.ofReal ((b - a) * (39 / 100 * Real.exp (-b ^ 2 / 2)))
        = ∫⁻ _ in Ioc a b, ENNReal.ofReal (39 / 100 * Real.exp (-b ^ 2 / 2)) := by
          rw [setLIntegral_const, Real.volume_Ioc, ← ENNReal.ofReal_mul (by positivity), mul_comm]
      _ ≤ ∫⁻ x in Ioc a b, gaussianPDF 0 1 x := by
          apply setLIntegral_mono (measurable_gaussianPDF _ _)
          intro y hy
          unfold gaussianPDF
          apply ENNReal.ofReal_le_ofReal
          rw [gaussianPDFReal_def]
          simp only [NNReal.coe_one, mul_one, sub_zero]
          have e1 : Real.exp (-b ^ 2 / 2) ≤ Real.exp (-y ^ 2 / 2) := by
            apply Real.exp_le_exp.mpr
            have : y ^ 2 ≤ b ^ 2 := pow_le_pow_left₀ (by linarith [hy.1]) hy.2 2
            linarith
          have e2 : (39 / 100 : ℝ) ≤ (√(2 * Real.pi))⁻¹ := by
            rw [le_inv_comm₀ (by norm_num) (by positivity), Real.sqrt_le_left (by norm_num)]
            have := Real.pi_lt_d2
            norm_num
            linarith
          exact mul_le_mul e2 e1 (Real.exp_nonneg _) (by positivity)
  exact (ENNReal.ofReal_le_iff_le_toReal (measure_ne_top _ _)).1 this

theorem quantile_lower2 {Q : ℝ → ℝ} (h : IsNormalQuantile Q) {t : ℝ} (ht : 0 < t)
    (ht1 : t < 1 / 2) : 2 * t ≤ Q (1 / 2 + t) := by
  rw [← F_strictMono.le_iff_le, h _ (by linarith) (by linarith)]
  have h1 := F_sub (show (0 : ℝ) ≤ 2 * t by linarith)
  have h2 := mass_upper (show (0 : ℝ) ≤ 2 * t by linarith)
  rw [F_zero] at h1
  linarith

/-- Chernoff's inequality. -/
theorem quantile_tail {Q : ℝ → ℝ} (h : IsNormalQuantile Q) {t : ℝ} (ht : 0 < t)
    (ht1 : t < 1 / 2) : t ≤ Real.exp (-Q (1 - t) ^ 2 / 2) := by
  have hok := quantileOk h
  have hpos : 0 < Q (1 - t) := by
    rw [← hok.half]
    exact hok.strictMono _ _ (by norm_num) (by linarith) (by linarith)
  set c := Q (1 - t) with hc
  have hF : cdf γ c = 1 - t := h _ (by linarith) (by linarith)
  have hm := measure_ge_le_exp_mul_mgf (μ := γ) (X := id) c hpos.le
    (integrable_exp_mul_gaussianReal c)
  rw [mgf_id_gaussianReal, ← Real.exp_add] at hm
  have h2 : γ.real {x : ℝ | c ≤ id x} = t := by
    have e : {x : ℝ | c ≤ id x} = Ici c := rfl
    have h2 : γ.real (Ici c) = γ.real (Ioi c) := measureReal_congr Ioi_ae_eq_Ici.symm
    rw [e, h2, ← compl_Iic, probReal_compl_eq_one_sub measurableSet_Iic, ← F_eq, hF]
    ring
  rw [h2] at hm
  refine hm.trans (le_of_eq (congrArg Real.exp ?_))
  simp only [NNReal.coe_one]
  ring

/-- The largest quantile that occurs with 25 levels. -/
theorem quantile_top {Q : ℝ → ℝ} (h : IsNormalQuantile Q) {t : ℝ} (ht : 1 / 2 ^ 26 ≤ t)
    (ht1 : t < 1 / 2) : Q (1 - t) ≤ 61 / 10 := by
  have h1 := quantile_tail h (lt_of_lt_of_le (by positivity) ht) ht1
  by_contra hc
  rw [not_le] at hc
  have h2 : (61 / 10 : ℝ) ^ 2 < Q (1 - t) ^ 2 := pow_lt_pow_left₀ hc (by norm_num) (by norm_num)
  have h3 : Real.exp (-Q (1 - t) ^ 2 / 2) ≤ Real.exp (-(37 / 2)) :=
    Real.exp_le_exp.2 (by linarith)
  have h4 : Real.exp (-(37 / 2)) < 1 / 2 ^ 26 := by
    rw [Real.exp_neg, one_div]
    apply inv_strictAnti₀ (by positivity)
    have h5 : (2.7182818283 : ℝ) ^ 37 < Real.exp 1 ^ 37 :=
      pow_lt_pow_left₀ Real.exp_one_gt_d9 (by norm_num) (by norm_num)
    have h6 : Real.exp (37 / 2) ^ 2 = Real.exp 1 ^ 37 := by
      rw [← Real.exp_nat_mul, ← Real.exp_nat_mul]; norm_num
    refine lt_of_pow_lt_pow_left₀ 2 (Real.exp_nonneg _) ?_
    rw [h6]
    refine lt_trans ?_ h5
    norm_num
  linarith

/-- Bounds for 26 levels. -/
theorem quantile_far {Q : ℝ → ℝ} (h : IsNormalQuantile Q) {t : ℝ} (ht0 : 0 < t)
    (ht : t ≤ 1 / 2 ^ 27) : 5 ≤ Q (1 - t) ∧ Q (1 / 2 + t) ≤ 3 * t := by
  have hsmall : t ≤ 1 / 1000 := ht.trans (by norm_num)
  constructor
  · rw [← F_strictMono.le_iff_le, h _ (by linarith) (by linarith)]
    have h1 := F_sub (show (5 : ℝ) ≤ 11 / 2 by norm_num)
    have h2 := mass_lower (show (0 : ℝ) ≤ 5 by norm_num) (show (5 : ℝ) ≤ 11 / 2 by norm_num)
    have h3 : cdf γ (11 / 2) ≤ 1 := cdf_le_one _ _
    have h4 : Real.exp (-16) ≤ Real.exp (-(11 / 2) ^ 2 / 2) :=
      Real.exp_le_exp.2 (by norm_num)
    have h5 : (1 / 9000000 : ℝ) ≤ Real.exp (-16) := by
      rw [Real.exp_neg, one_div]
      apply inv_anti₀ (Real.exp_pos _)
      have h6 : Real.exp 1 ^ 16 ≤ (2.7182818286 : ℝ) ^ 16 :=
        pow_le_pow_left₀ (Real.exp_nonneg _) Real.exp_one_lt_d9.le 16
      rw [← Real.exp_nat_mul] at h6
      norm_num at h6 ⊢
      linarith
    have h7 : t ≤ 1 / 100000000 := ht.trans (by norm_num)
    nlinarith
  · rw [← F_strictMono.le_iff_le, h _ (by linarith) (by linarith)]
    have h1 := F_sub (show (0 : ℝ) ≤ 3 * t by linarith)
    have h2 := mass_lower le_rfl (show (0 : ℝ) ≤ 3 * t by linarith)
    rw [F_zero] at h1
    have h3 : (99 / 100 : ℝ) ≤ Real.exp (-(3 * t) ^ 2 / 2) := by
      have := Real.add_one_le_exp (-(3 * t) ^ 2 / 2)
      nlinarith
    nlinarith
end Verif.NormalQuantile
