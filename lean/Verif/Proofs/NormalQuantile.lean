import Verif.Spec.Normal
import Verif.Spec.Quantile
import Mathlib.Probability.Moments.Variance
import Mathlib.Topology.Order.IntermediateValue

/-! The standard normal quantile function has the shape `QuantileOk`, it exists, and bounds. -/
namespace Verif.NormalQuantile

open MeasureTheory ProbabilityTheory Verif.Spec Set Filter Topology

/-- Standard normal distribution. -/
noncomputable abbrev γ : Measure ℝ := gaussianReal 0 1

theorem one_ne : (1 : NNReal) ≠ 0 := one_ne_zero

instance : NullSingletonClass γ := nullSingletonClass_gaussianReal one_ne

theorem F_eq (x : ℝ) : cdf γ x = γ.real (Iic x) := cdf_eq_real _ x

theorem F_sub {a b : ℝ} (h : a ≤ b) : cdf γ b - cdf γ a = γ.real (Ioc a b) := by
  rw [F_eq, F_eq, ← Iic_union_Ioc_eq_Iic h, measureReal_union _ measurableSet_Ioc]
  · ring
  · rw [Set.disjoint_left]
    intro x hx hx'
    exact absurd hx (not_le.mpr hx'.1)

theorem F_strictMono : StrictMono (cdf γ) := by
  intro a b h
  have h1 := F_sub h.le
  have h2 : 0 < γ.real (Ioc a b) := by
    rw [measureReal_def, ENNReal.toReal_pos_iff]
    refine ⟨?_, measure_lt_top _ _⟩
    rw [pos_iff_ne_zero]
    intro h0
    have := gaussianReal_absolutelyContinuous' 0 one_ne h0
    rw [Real.volume_Ioc, ENNReal.ofReal_eq_zero] at this
    linarith
  linarith

theorem F_neg (x : ℝ) : cdf γ (-x) = 1 - cdf γ x := by
  have hmap : γ.map (fun x => -x) = γ := by
    have := gaussianReal_map_neg (μ := 0) (v := 1)
    rwa [neg_zero] at this
  have h1 : γ.real (Iic (-x)) = γ.real (Ici x) := by
    conv_lhs => rw [← hmap]
    rw [map_measureReal_apply measurable_neg measurableSet_Iic]
    congr 1
    ext y
    simp
  rw [F_eq, F_eq, h1]
  have h2 : γ.real (Ici x) = γ.real (Ioi x) := measureReal_congr Ioi_ae_eq_Ici.symm
  rw [h2, ← compl_Iic, probReal_compl_eq_one_sub measurableSet_Iic]

theorem F_zero : cdf γ 0 = 1 / 2 := by
  have := F_neg 0
  rw [neg_zero] at this
  linarith

/-- Mass of an interval moved towards the mode does not decrease. -/
theorem mass_le {u w : ℝ} (hu : 0 ≤ u) (hw : 0 ≤ w) :
    cdf γ (u + w) - cdf γ u ≤ cdf γ w - cdf γ 0 := by
  rw [F_sub (by linarith), F_sub hw]
  have hmap : γ.map (fun x => x - u) = gaussianReal (-u) 1 := by
    have := gaussianReal_map_sub_const (μ := 0) (v := 1) u
    rwa [zero_sub] at this
  have h1 : γ (Ioc u (u + w)) = gaussianReal (-u) 1 (Ioc 0 w) := by
    rw [← hmap, Measure.map_apply (by fun_prop) measurableSet_Ioc]
    congr 1
    ext y
    simp only [mem_Ioc, mem_preimage]
    constructor <;> rintro ⟨a, b⟩ <;> constructor <;> linarith
  rw [measureReal_def, measureReal_def]
  apply ENNReal.toReal_mono (measure_ne_top _ _)
  rw [h1, gaussianReal_apply _ one_ne, gaussianReal_apply _ one_ne]
  apply setLIntegral_mono (measurable_gaussianPDF _ _)
  intro y hy
  unfold gaussianPDF
  apply ENNReal.ofReal_le_ofReal
  rw [gaussianPDFReal_def, gaussianPDFReal_def]
  simp only [NNReal.coe_one, mul_one]
  apply mul_le_mul_of_nonneg_left _ (by positivity)
  apply Real.exp_le_exp.mpr
  have hy0 := hy.1
  have : 0 ≤ y * u := mul_nonneg hy0.le hu
  rw [div_le_div_iff_of_pos_right (by norm_num)]
  nlinarith [sq_nonneg u]

theorem quantileOk {Q : ℝ → ℝ} (h : IsNormalQuantile Q) : QuantileOk Q := by
  have half : Q (1 / 2) = 0 := by
    apply F_strictMono.injective
    rw [h _ (by norm_num) (by norm_num), F_zero]
  have mono : ∀ p q, 0 < p → p < q → q < 1 → Q p < Q q := by
    intro p q hp hpq hq
    rw [← F_strictMono.lt_iff_lt, h p hp (by linarith), h q (by linarith) hq]
    exact hpq
  refine ⟨mono, half, ?_, ?_⟩
  · intro p hp hp1
    apply F_strictMono.injective
    rw [h _ (by linarith) (by linarith), F_neg, h p hp hp1]
  · intro a t ha ht hat
    have hu : 0 ≤ Q a := by
      rw [← half]
      rcases eq_or_lt_of_le ha with e | e
      · rw [e]
      · exact (mono _ _ (by norm_num) e (by linarith)).le
    have hlt := mono a (a + t) (by linarith) (by linarith) hat
    have hm := mass_le hu (show 0 ≤ Q (a + t) - Q a by linarith)
    rw [show Q a + (Q (a + t) - Q a) = Q (a + t) by ring, h _ (by linarith) hat,
      h a (by linarith) (by linarith), F_zero] at hm
    rw [← F_strictMono.le_iff_le, h _ (by linarith) (by linarith)]
    linarith

theorem F_continuous : Continuous (cdf γ) := by
  rw [continuous_iff_continuousAt]
  intro x
  rw [(cdf γ).mono.continuousAt_iff_leftLim_eq_rightLim, (cdf γ).rightLim_eq]
  have := (cdf γ).measure_singleton x
  rw [measure_cdf, measure_singleton] at this
  have h2 := ENNReal.ofReal_eq_zero.mp this.symm
  have h3 := (cdf γ).mono.leftLim_le (le_refl x)
  linarith

/-- The standard normal quantile function exists. -/
theorem exists_quantile : ∃ Q, IsNormalQuantile Q := by
  have h : ∀ p : ℝ, ∃ x, 0 < p → p < 1 → cdf γ x = p := by
    intro p
    by_cases hp : 0 < p ∧ p < 1
    · obtain ⟨a, ha⟩ := ((tendsto_cdf_atBot γ).eventually (gt_mem_nhds hp.1)).exists
      obtain ⟨b, hb⟩ := ((tendsto_cdf_atTop γ).eventually (lt_mem_nhds hp.2)).exists
      obtain ⟨x, hx⟩ := mem_range_of_exists_le_of_exists_ge F_continuous ⟨a, ha.le⟩ ⟨b, hb.le⟩
      exact ⟨x, fun _ _ => hx⟩
    · exact ⟨0, fun h1 h2 => absurd ⟨h1, h2⟩ hp⟩
  choose Q hQ using h
  exact ⟨Q, hQ⟩

/-- The density is at most 1. -/
theorem quantile_lower {Q : ℝ → ℝ} (h : IsNormalQuantile Q) {t : ℝ} (ht : 0 < t) (ht1 : t < 1 / 2) :
    t ≤ Q (1 / 2 + t) := by
  rw [← F_strictMono.le_iff_le, h _ (by linarith) (by linarith)]
  have h1 := F_sub ht.le
  have h2 : γ.real (Ioc 0 t) ≤ t := by
    rw [measureReal_def]
    have : γ (Ioc 0 t) ≤ ENNReal.ofReal t := by
      rw [gaussianReal_apply _ one_ne]
      calc ∫⁻ x in Ioc 0 t, gaussianPDF 0 1 x ≤ ∫⁻ _ in Ioc 0 t, 1 := by
            apply setLIntegral_mono measurable_const
            intro y _
            unfold gaussianPDF
            rw [← ENNReal.ofReal_one]
            apply ENNReal.ofReal_le_ofReal
            rw [gaussianPDFReal_def]
            simp only [NNReal.coe_one, mul_one]
            have e1 : Real.exp (-(y - 0) ^ 2 / 2) ≤ 1 := by
              rw [← Real.exp_zero]
              apply Real.exp_le_exp.mpr
              have := sq_nonneg (y - 0)
              linarith
            have e2 : (√(2 * Real.pi))⁻¹ ≤ 1 := by
              apply inv_le_one_of_one_le₀
              rw [Real.one_le_sqrt]
              have := Real.two_le_pi
              linarith
            exact mul_le_one₀ e2 (Real.exp_nonneg _) e1
        _ = ENNReal.ofReal t := by simp
    exact ENNReal.toReal_le_of_le_ofReal ht.le this
  rw [F_zero] at h1
  linarith

/-- Chebyshev's inequality. -/
theorem quantile_upper {Q : ℝ → ℝ} (h : IsNormalQuantile Q) {t : ℝ} (ht : 0 < t) (ht1 : t < 1 / 2) :
    2 * t * Q (1 - t) ^ 2 ≤ 1 := by
  have hok := quantileOk h
  have hpos : 0 < Q (1 - t) := by
    rw [← hok.half]
    exact hok.strictMono _ _ (by norm_num) (by linarith) (by linarith)
  set c := Q (1 - t) with hc
  have hF : cdf γ c = 1 - t := h _ (by linarith) (by linarith)
  have hL : MemLp (fun x : ℝ => x) 2 γ := memLp_id_gaussianReal 2
  have hcheb := meas_ge_le_variance_div_sq hL hpos
  rw [variance_fun_id_gaussianReal, integral_id_gaussianReal] at hcheb
  simp only [sub_zero, NNReal.coe_one] at hcheb
  have hset : {x : ℝ | c ≤ |x|} = Iic (-c) ∪ Ici c := by
    ext x
    simp only [mem_ofPred_eq, mem_union, mem_Iic, mem_Ici, le_abs]
    constructor
    · rintro (a | a)
      · exact Or.inr a
      · exact Or.inl (by linarith)
    · rintro (a | a)
      · exact Or.inr (by linarith)
      · exact Or.inl a
  have hm : γ.real {x : ℝ | c ≤ |x|} = 2 * t := by
    rw [hset, measureReal_union _ measurableSet_Ici, ← F_eq, F_neg, hF]
    · have h2 : γ.real (Ici c) = γ.real (Ioi c) := measureReal_congr Ioi_ae_eq_Ici.symm
      rw [h2, ← compl_Iic, probReal_compl_eq_one_sub measurableSet_Iic, ← F_eq, hF]
      ring
    · rw [Set.disjoint_left]
      intro x hx hx'
      simp only [mem_Iic, mem_Ici] at hx hx'
      linarith
  have : γ.real {x : ℝ | c ≤ |x|} ≤ 1 / c ^ 2 := by
    rw [measureReal_def]
    exact ENNReal.toReal_le_of_le_ofReal (by positivity) hcheb
  rw [hm, le_div_iff₀ (by positivity)] at this
  exact this

end Verif.NormalQuantile
