import Verif.Model.Family
import Verif.Proofs.NormalQuantile
import Mathlib.Analysis.SpecialFunctions.Log.Deriv
import Mathlib.Analysis.SpecialFunctions.ExpDeriv
import Mathlib.Analysis.Calculus.Deriv.ZPow
import Mathlib.Analysis.Calculus.IteratedDeriv.Lemmas
import Mathlib.MeasureTheory.Integral.IntervalIntegral.FundThmCalculus

/-! Derivatives of the links and of the binomial log-likelihood. -/
namespace Verif.Family

open MeasureTheory ProbabilityTheory Set Filter Topology

/-- A link whose mean lies in (0,1) and has the four derivatives given. -/
structure LinkOk (μ μ1 μ2 μ3 μ4 : ℝ → ℝ) : Prop where
  pos : ∀ x, 0 < μ x
  lt_one : ∀ x, μ x < 1
  d1 : ∀ x, HasDerivAt μ (μ1 x) x
  d2 : ∀ x, HasDerivAt μ1 (μ2 x) x
  d3 : ∀ x, HasDerivAt μ2 (μ3 x) x
  d4 : ∀ x, HasDerivAt μ3 (μ4 x) x
  d1_pos : ∀ x, 0 < μ1 x

/-! ## Logit -/

noncomputable def lo0 (x : ℝ) : ℝ := Real.exp x / (1 + Real.exp x)
noncomputable def lo1 (x : ℝ) : ℝ := Real.exp x / (1 + Real.exp x) ^ 2
noncomputable def lo2 (x : ℝ) : ℝ := Real.exp x * (1 - Real.exp x) / (1 + Real.exp x) ^ 3
noncomputable def lo3 (x : ℝ) : ℝ :=
  Real.exp x * (-4 * Real.exp x + Real.exp (2 * x) + 1) / (1 + Real.exp x) ^ 4
noncomputable def lo4 (x : ℝ) : ℝ :=
  -Real.exp x * (11 * Real.exp x - 11 * Real.exp (2 * x) + Real.exp (3 * x) - 1) /
    (1 + Real.exp x) ^ 5

theorem exp_two (x : ℝ) : Real.exp (2 * x) = Real.exp x ^ 2 := by
  rw [← Real.exp_nat_mul]; norm_num

theorem exp_three (x : ℝ) : Real.exp (3 * x) = Real.exp x ^ 3 := by
  rw [← Real.exp_nat_mul]; norm_num

theorem logit_ok : LinkOk lo0 lo1 lo2 lo3 lo4 := by
  have hpos : ∀ x : ℝ, 0 < 1 + Real.exp x := fun x => by positivity
  have hE : ∀ x, HasDerivAt (fun y => Real.exp y) (Real.exp x) x := Real.hasDerivAt_exp
  have hD : ∀ x, HasDerivAt (fun y => 1 + Real.exp y) (Real.exp x) x := fun x =>
    (hE x).const_add 1
  refine ⟨fun x => by unfold lo0; positivity, fun x => ?_, fun x => ?_, fun x => ?_, fun x => ?_,
    fun x => ?_, fun x => by unfold lo1; positivity⟩
  · unfold lo0
    rw [div_lt_one (hpos x)]
    linarith
  · refine ((hE x).div (hD x) (hpos x).ne').congr_deriv ?_
    unfold lo1
    have := (hpos x).ne'
    field_simp
    ring
  · refine ((hE x).div ((hD x).pow 2) (pow_ne_zero _ (hpos x).ne')).congr_deriv ?_
    unfold lo2
    have := (hpos x).ne'
    field_simp
    simp
    ring
  · refine (((hE x).mul ((hE x).const_sub 1)).div ((hD x).pow 3)
      (pow_ne_zero _ (hpos x).ne')).congr_deriv ?_
    unfold lo3
    have := (hpos x).ne'
    rw [exp_two]
    field_simp
    simp
    ring
  · have e : lo3 = fun x => Real.exp x * (-4 * Real.exp x + Real.exp x ^ 2 + 1) /
        (1 + Real.exp x) ^ 4 := by
      funext y
      rw [lo3, exp_two]
    rw [e]
    refine (((hE x).mul ((((hE x).const_mul (-4)).add ((hE x).pow 2)).add_const 1)).div
      ((hD x).pow 4) (pow_ne_zero _ (hpos x).ne')).congr_deriv ?_
    unfold lo4
    have := (hpos x).ne'
    rw [exp_two, exp_three]
    field_simp
    simp
    ring

/-! ## Probit -/

theorem normalPdf_eq (x : ℝ) : normalPdf x = gaussianPDFReal 0 1 x := by
  rw [normalPdf, gaussianPDFReal]
  simp only [NNReal.coe_one, mul_one, sub_zero]
  rw [div_eq_inv_mul]

theorem normalPdf_hasDerivAt (x : ℝ) : HasDerivAt normalPdf (-x * normalPdf x) x := by
  have h := (((((hasDerivAt_id x).pow 2).neg).div_const 2).exp).div_const (Real.sqrt (2 * Real.pi))
  refine h.congr_deriv ?_
  unfold normalPdf
  simp
  ring

theorem normalPdf_pos (x : ℝ) : 0 < normalPdf x := by
  unfold normalPdf
  positivity

theorem normalPdf_continuous : Continuous normalPdf :=
  continuous_iff_continuousAt.mpr fun x => (normalPdf_hasDerivAt x).continuousAt

theorem cdf_sub_eq {a b : ℝ} (h : a ≤ b) :
    normalCdf b - normalCdf a = ∫ t in a..b, normalPdf t := by
  rw [normalCdf, normalCdf, NormalQuantile.F_sub h, intervalIntegral.integral_of_le h,
    measureReal_def, gaussianReal_apply_eq_integral 0 one_ne_zero]
  rw [ENNReal.toReal_ofReal (integral_nonneg fun t => gaussianPDFReal_nonneg 0 1 t)]
  simp only [normalPdf_eq]

theorem normalCdf_hasDerivAt (x : ℝ) : HasDerivAt normalCdf (normalPdf x) x := by
  have h1 : normalCdf = fun y => normalCdf 0 + ∫ t in (0 : ℝ)..y, normalPdf t := by
    funext y
    rcases le_total 0 y with h | h
    · rw [← cdf_sub_eq h]; ring
    · rw [intervalIntegral.integral_symm, ← cdf_sub_eq h]; ring
  rw [h1]
  exact (intervalIntegral.integral_hasDerivAt_right
    (normalPdf_continuous.intervalIntegrable _ _)
    (normalPdf_continuous.stronglyMeasurableAtFilter _ _) normalPdf_continuous.continuousAt).const_add _

theorem normalCdf_mem (x : ℝ) : 0 < normalCdf x ∧ normalCdf x < 1 := by
  have hm := NormalQuantile.F_strictMono
  constructor
  · exact lt_of_le_of_lt (cdf_nonneg _ (x - 1)) (hm (by linarith))
  · exact lt_of_lt_of_le (hm (show x < x + 1 by linarith)) (cdf_le_one _ _)

noncomputable def pr2 (x : ℝ) : ℝ := -x * normalPdf x
noncomputable def pr3 (x : ℝ) : ℝ := (x ^ 2 - 1) * normalPdf x
noncomputable def pr4 (x : ℝ) : ℝ := (-x ^ 3 + 3 * x) * normalPdf x

theorem probit_ok : LinkOk normalCdf normalPdf pr2 pr3 pr4 := by
  refine ⟨fun x => (normalCdf_mem x).1, fun x => (normalCdf_mem x).2, normalCdf_hasDerivAt,
    normalPdf_hasDerivAt, fun x => ?_, fun x => ?_, normalPdf_pos⟩
  · refine ((hasDerivAt_id x).neg.mul (normalPdf_hasDerivAt x)).congr_deriv ?_
    unfold pr3
    simp
    ring
  · refine ((((hasDerivAt_id x).pow 2).sub_const 1).mul (normalPdf_hasDerivAt x)).congr_deriv ?_
    unfold pr4
    simp
    ring

/-! ## Binomial -/

section
variable (w y : ℝ)

noncomputable def b0 (m : ℝ) : ℝ := w * (y * Real.log m + (1 - y) * Real.log (1 - m))
noncomputable def b1 (m : ℝ) : ℝ := w * (y / m - (1 - y) / (1 - m))
noncomputable def b2 (m : ℝ) : ℝ := -w * (y * m ^ (-2 : ℤ) + (1 - y) * (1 - m) ^ (-2 : ℤ))
noncomputable def b3 (m : ℝ) : ℝ := 2 * w * (y * m ^ (-3 : ℤ) - (1 - y) * (1 - m) ^ (-3 : ℤ))
noncomputable def b4 (m : ℝ) : ℝ := -6 * w * (y * m ^ (-4 : ℤ) + (1 - y) * (1 - m) ^ (-4 : ℤ))

variable {m : ℝ}

theorem hasDerivAt_one_sub_zpow (k : ℤ) (hm : m < 1) :
    HasDerivAt (fun t : ℝ => (1 - t) ^ k) (-(k * (1 - m) ^ (k - 1))) m := by
  have h1 : HasDerivAt (fun t : ℝ => 1 - t) (-1) m := by
    simpa using (hasDerivAt_id m).const_sub 1
  have h2 := HasDerivAt.comp (h := fun t : ℝ => 1 - t) m
    (hasDerivAt_zpow k (1 - m) (Or.inl (by linarith))) h1
  refine h2.congr_deriv ?_
  ring

theorem b0_deriv (h0 : 0 < m) (h1 : m < 1) : HasDerivAt (b0 w y) (b1 w y m) m := by
  have h2 : HasDerivAt (fun t : ℝ => 1 - t) (-1) m := by
    simpa using (hasDerivAt_id m).const_sub 1
  have h3 : (1 - m) ≠ 0 := by linarith
  refine ((((Real.hasDerivAt_log h0.ne').const_mul y).add
    ((h2.log h3).const_mul (1 - y))).const_mul w).congr_deriv ?_
  unfold b1
  have := h0.ne'
  field_simp
  ring

theorem b1_deriv (h0 : 0 < m) (h1 : m < 1) : HasDerivAt (b1 w y) (b2 w y m) m := by
  have e : b1 w y = fun m => w * (y * m ^ (-1 : ℤ) - (1 - y) * (1 - m) ^ (-1 : ℤ)) := by
    funext t
    simp only [b1, zpow_neg_one, div_eq_mul_inv]
  rw [e]
  refine ((((hasDerivAt_zpow (-1) m (Or.inl h0.ne')).const_mul y).sub
    ((hasDerivAt_one_sub_zpow (-1) h1).const_mul (1 - y))).const_mul w).congr_deriv ?_
  unfold b2
  norm_num
  ring

theorem b2_deriv (h0 : 0 < m) (h1 : m < 1) : HasDerivAt (b2 w y) (b3 w y m) m := by
  refine ((((hasDerivAt_zpow (-2) m (Or.inl h0.ne')).const_mul y).add
    ((hasDerivAt_one_sub_zpow (-2) h1).const_mul (1 - y))).const_mul (-w)).congr_deriv ?_
  unfold b3
  norm_num
  ring

theorem b3_deriv (h0 : 0 < m) (h1 : m < 1) : HasDerivAt (b3 w y) (b4 w y m) m := by
  refine ((((hasDerivAt_zpow (-3) m (Or.inl h0.ne')).const_mul y).sub
    ((hasDerivAt_one_sub_zpow (-3) h1).const_mul (1 - y))).const_mul (2 * w)).congr_deriv ?_
  unfold b4
  norm_num
  ring

end

/-! ## Chain rule -/

section
variable {μ μ1 μ2 μ3 μ4 : ℝ → ℝ} (h : LinkOk μ μ1 μ2 μ3 μ4) (w y : ℝ)
include h

/-- Derivatives of the log-likelihood of one observation. -/
noncomputable def t1 (μ μ1 : ℝ → ℝ) (w y x : ℝ) : ℝ := μ1 x * b1 w y (μ x)
noncomputable def t2 (μ μ1 μ2 : ℝ → ℝ) (w y x : ℝ) : ℝ :=
  μ1 x ^ 2 * b2 w y (μ x) + μ2 x * b1 w y (μ x)
noncomputable def t3 (μ μ1 μ2 μ3 : ℝ → ℝ) (w y x : ℝ) : ℝ :=
  μ1 x ^ 3 * b3 w y (μ x) + 3 * μ1 x * μ2 x * b2 w y (μ x) + μ3 x * b1 w y (μ x)
noncomputable def t4 (μ μ1 μ2 μ3 μ4 : ℝ → ℝ) (w y x : ℝ) : ℝ :=
  μ1 x ^ 4 * b4 w y (μ x) + 6 * μ1 x ^ 2 * μ2 x * b3 w y (μ x) +
    (4 * μ1 x * μ3 x + 3 * μ2 x ^ 2) * b2 w y (μ x) + μ4 x * b1 w y (μ x)

theorem t0_deriv (x : ℝ) : HasDerivAt (fun x => b0 w y (μ x)) (t1 μ μ1 w y x) x := by
  refine ((b0_deriv w y (h.pos x) (h.lt_one x)).comp x (h.d1 x)).congr_deriv ?_
  rw [t1]; ring

theorem t1_deriv (x : ℝ) : HasDerivAt (t1 μ μ1 w y) (t2 μ μ1 μ2 w y x) x := by
  refine ((h.d2 x).mul ((b1_deriv w y (h.pos x) (h.lt_one x)).comp x (h.d1 x))).congr_deriv ?_
  rw [t2]; simp; ring

theorem t2_deriv (x : ℝ) : HasDerivAt (t2 μ μ1 μ2 w y) (t3 μ μ1 μ2 μ3 w y x) x := by
  refine ((((h.d2 x).pow 2).mul ((b2_deriv w y (h.pos x) (h.lt_one x)).comp x (h.d1 x))).add
    ((h.d3 x).mul ((b1_deriv w y (h.pos x) (h.lt_one x)).comp x (h.d1 x)))).congr_deriv ?_
  rw [t3]; simp; ring

theorem t3_deriv (x : ℝ) : HasDerivAt (t3 μ μ1 μ2 μ3 w y) (t4 μ μ1 μ2 μ3 μ4 w y x) x := by
  refine (((((h.d2 x).pow 3).mul ((b3_deriv w y (h.pos x) (h.lt_one x)).comp x (h.d1 x))).add
    ((((h.d2 x).const_mul 3).mul (h.d3 x)).mul
      ((b2_deriv w y (h.pos x) (h.lt_one x)).comp x (h.d1 x)))).add
    ((h.d4 x).mul ((b1_deriv w y (h.pos x) (h.lt_one x)).comp x (h.d1 x)))).congr_deriv ?_
  rw [t4]; simp; ring

theorem iter1 : iteratedDeriv 1 (fun x => b0 w y (μ x)) = t1 μ μ1 w y := by
  rw [iteratedDeriv_one]
  funext x
  exact (t0_deriv h w y x).deriv

theorem iter2 : iteratedDeriv 2 (fun x => b0 w y (μ x)) = t2 μ μ1 μ2 w y := by
  rw [iteratedDeriv_succ, iter1 h]
  funext x
  exact (t1_deriv h w y x).deriv

theorem iter3 : iteratedDeriv 3 (fun x => b0 w y (μ x)) = t3 μ μ1 μ2 μ3 w y := by
  rw [iteratedDeriv_succ, iter2 h]
  funext x
  exact (t2_deriv h w y x).deriv

theorem iter4 : iteratedDeriv 4 (fun x => b0 w y (μ x)) = t4 μ μ1 μ2 μ3 μ4 w y := by
  rw [iteratedDeriv_succ, iter3 h]
  funext x
  exact (t3_deriv h w y x).deriv

end

end Verif.Family
