import Verif.Proofs.SignFamily
import Verif.Props.Split
import Verif.Props.GLMM
import Verif.Props.Factorization
import Mathlib.Probability.Moments.Basic
import Mathlib.Analysis.Convex.Continuous
import Mathlib.Probability.Distributions.Gaussian.Real

/-!
# C110: the log-integrand of a binomial model has exactly one maximum
-/
namespace Verif.Family

open ProbabilityTheory Set

/-- Chernoff's inequality for the lower tail. -/
theorem normalCdf_chernoff {x : ℝ} (hx : x ≤ 0) : normalCdf x ≤ Real.exp (-x ^ 2 / 2) := by
  have hm := measure_le_le_exp_mul_mgf (μ := gaussianReal 0 1) (X := id) x hx
    (integrable_exp_mul_gaussianReal x)
  rw [mgf_id_gaussianReal, ← Real.exp_add] at hm
  rw [normalCdf_eq]
  refine hm.trans (le_of_eq (congrArg Real.exp ?_))
  simp only [NNReal.coe_one]
  ring

/-- Inequality of Mills' ratio. -/
theorem mills (x : ℝ) : 0 < x * normalCdf x + normalPdf x := by
  have hd : ∀ y, HasDerivAt (fun x => x * normalCdf x + normalPdf x) (normalCdf y) y := fun y => by
    refine (((hasDerivAt_id y).mul (normalCdf_hasDerivAt y)).add (normalPdf_hasDerivAt y)).congr_deriv ?_
    simp
  have hmono : StrictMono fun x => x * normalCdf x + normalPdf x :=
    strictMono_of_deriv_pos fun y => by
      rw [(hd y).deriv]
      exact (normalCdf_mem y).1
  by_contra hneg
  rw [not_lt] at hneg
  set e := -((x - 1) * normalCdf (x - 1) + normalPdf (x - 1)) with he
  have he0 : 0 < e := by
    have := hmono (show x - 1 < x by linarith)
    change (x - 1) * normalCdf (x - 1) + normalPdf (x - 1) < x * normalCdf x + normalPdf x at this
    linarith
  obtain ⟨y, hy1, hy2, hy3⟩ : ∃ y : ℝ, y ≤ x - 1 ∧ y < 0 ∧ y < -(2 / e) := by
    refine ⟨min (x - 1) (min (-1) (-(2 / e) - 1)), min_le_left _ _, ?_, ?_⟩
    · exact lt_of_le_of_lt ((min_le_right _ _).trans (min_le_left _ _)) (by norm_num)
    · exact lt_of_le_of_lt ((min_le_right _ _).trans (min_le_right _ _)) (by linarith)
  have h1 : y * normalCdf y + normalPdf y ≤ -e := by
    have := hmono.monotone hy1
    change y * normalCdf y + normalPdf y ≤ (x - 1) * normalCdf (x - 1) + normalPdf (x - 1) at this
    linarith
  have h2 := normalPdf_pos y
  have h3 := normalCdf_chernoff hy2.le
  have h4 : Real.exp (-y ^ 2 / 2) * (1 + y ^ 2 / 2) ≤ 1 := by
    have h5 := Real.add_one_le_exp (y ^ 2 / 2)
    calc Real.exp (-y ^ 2 / 2) * (1 + y ^ 2 / 2) ≤ Real.exp (-y ^ 2 / 2) * Real.exp (y ^ 2 / 2) :=
          mul_le_mul_of_nonneg_left (by linarith) (Real.exp_pos _).le
      _ = 1 := by
          rw [← Real.exp_add]
          simp [neg_div]
  have h5 : e < -y * normalCdf y := by linarith
  have h6 : normalCdf y * (y ^ 2 / 2) ≤ 1 := by
    have h7 := mul_le_mul_of_nonneg_right h3 (show 0 ≤ y ^ 2 / 2 by positivity)
    have := Real.exp_pos (-y ^ 2 / 2)
    linarith
  have h7 : e * (-y) < 2 := by
    have := mul_lt_mul_of_pos_right h5 (neg_pos.2 hy2)
    nlinarith
  have h8 : 2 < e * (-y) := by
    have := mul_lt_mul_of_pos_left hy3 he0
    rw [mul_neg, mul_div_cancel₀ _ he0.ne'] at this
    linarith
  linarith

/-- The second derivative of the probit log-likelihood. -/
theorem probit_t2 {w y : ℝ} (h0 : 0 ≤ y) (h1 : y ≤ 1) (x : ℝ) :
    ∃ k > 0, t2 normalCdf normalPdf pr2 w y x = -w * k := by
  obtain ⟨hp, hq⟩ := normalCdf_mem x
  have hf := normalPdf_pos x
  have m1 := mills x
  have m2 := mills (-x)
  rw [Verif.Sign.normalCdf_neg] at m2
  have hsym : normalPdf (-x) = normalPdf x := by
    unfold normalPdf
    rw [neg_sq]
  rw [hsym] at m2
  have hq' : 0 < 1 - normalCdf x := by linarith
  refine ⟨normalPdf x * (y * ((x * normalCdf x + normalPdf x) / normalCdf x ^ 2) +
    (1 - y) * ((-x * (1 - normalCdf x) + normalPdf x) / (1 - normalCdf x) ^ 2)), ?_, ?_⟩
  · refine mul_pos hf ?_
    have a1 : 0 < (x * normalCdf x + normalPdf x) / normalCdf x ^ 2 := by positivity
    have a2 : 0 < (-x * (1 - normalCdf x) + normalPdf x) / (1 - normalCdf x) ^ 2 := by positivity
    rcases h0.eq_or_lt with e | e
    · rw [← e]
      linarith
    · have := mul_pos e a1
      have := mul_nonneg (show 0 ≤ 1 - y by linarith) a2.le
      linarith
  · rw [t2, b2, b1, pr2, zpow_neg, zpow_neg]
    have e1 := hp.ne'
    have e2 := hq'.ne'
    norm_cast
    field_simp
    ring

/-- `evaluate_d2` for the probit link is not positive, and negative where the weight is positive. -/
theorem c110_d2 : ∃ f, Family.ofNames "binomial" "probit" = Except.ok f ∧
    ∀ (n : ℕ) (eta y w : Fin n → ℝ),
      (∀ i, 1e-8 ≤ invProbit (eta i) ∧ invProbit (eta i) ≤ 1 - 1e-8) → (∀ i, 0 ≤ w i) →
      (∀ i, 0 ≤ y i ∧ y i ≤ 1) →
      ∃ D2, f.evaluateSecondDerivative eta y w = Except.ok D2 ∧
        (∀ i, D2 i ≤ 0) ∧ ∀ i, 0 < w i → D2 i < 0 := by
  refine ⟨⟨some .probit, some .binomial⟩, rfl, fun n eta y w hm hw hy => ⟨_, rfl, ?_⟩⟩
  have hm' : Binomial.checkMean (ProbitLink.computeMean eta) = fun i => normalCdf (eta i) :=
    checkMean_id (mean := fun i => normalCdf (eta i)) (by rw [normalCdf_eq]; exact hm)
  rw [hm']
  constructor
  · intro i
    show t2 normalCdf normalPdf pr2 (w i) (y i) (eta i) ≤ 0
    obtain ⟨k, hk, e⟩ := probit_t2 (w := w i) (hy i).1 (hy i).2 (eta i)
    rw [e, neg_mul]
    exact neg_nonpos.mpr (mul_nonneg (hw i) hk.le)
  · intro i hi
    show t2 normalCdf normalPdf pr2 (w i) (y i) (eta i) < 0
    obtain ⟨k, hk, e⟩ := probit_t2 (w := w i) (hy i).1 (hy i).2 (eta i)
    rw [e, neg_mul]
    exact neg_neg_of_pos (mul_pos hi hk)

end Verif.Family

namespace Verif.Mode

open Verif.Family Verif.Split Verif.GLMM Set ProbabilityTheory

variable {q n p : ℕ}

/-- The log-likelihood of an observation is concave for both links. -/
theorem logLik_concave {link : String} {μ : ℝ → ℝ} (hl : IsLink link μ) {w y : ℝ} (hw : 0 ≤ w)
    (h0 : 0 ≤ y) (h1 : y ≤ 1) : ConcaveOn ℝ univ (logLik μ y w) := by
  rcases hl with _ | _
  · exact GLMM.logLik_concave hw y
  · have e : logLik invProbit y w = fun x => b0 w y (normalCdf x) := by rw [← normalCdf_eq]; rfl
    have d0 := fun x => t0_deriv probit_ok w y x
    have d1 := fun x => t1_deriv probit_ok w y x
    have e1 : deriv (fun x => b0 w y (normalCdf x)) = t1 normalCdf normalPdf w y :=
      funext fun x => (d0 x).deriv
    rw [e]
    refine concaveOn_univ_of_deriv2_nonpos (fun x => (d0 x).differentiableAt) ?_ fun x => ?_
    · rw [e1]
      exact fun x => (d1 x).differentiableAt
    · show deriv (deriv fun x => b0 w y (normalCdf x)) x ≤ 0
      obtain ⟨k, hk, e2⟩ := probit_t2 (w := w) h0 h1 x
      rw [e1, (d1 x).deriv, e2]
      have := mul_nonneg hw hk.le
      linarith

theorem eta_affine (M : ModFr q n p) (theta beta : List ℝ) {a b : ℝ} (hab : a + b = 1)
    (u v : Fin q → ℝ) (j : Fin n) : Split.Spec.eta M theta beta (a • u + b • v) j =
      a • Split.Spec.eta M theta beta u j + b • Split.Spec.eta M theta beta v j := by
  unfold Split.Spec.eta
  simp only [Pi.add_apply, Pi.smul_apply, smul_eq_mul, mul_add, Finset.sum_add_distrib]
  have h1 : ∀ (c : ℝ) (z : Fin q → ℝ), ∑ r, (∑ k, Split.Spec.lambdat M theta r k * M.Zt k j) * (c * z r) =
      c * ∑ r, (∑ k, Split.Spec.lambdat M theta r k * M.Zt k j) * z r := fun c z => by
    rw [Finset.mul_sum]
    exact Finset.sum_congr rfl fun r _ => by ring
  rw [h1, h1]
  have hb : b = 1 - a := by linarith
  rw [hb]
  ring

/-- C110, concavity. -/
theorem c110_concave {link : String} {μ : ℝ → ℝ} (hl : IsLink link μ) {M : ModFr q n p}
    (hw : ∀ j, 0 ≤ Split.Spec.weight M j) (hy : ∀ j, 0 ≤ M.resp j ∧ M.resp j ≤ 1) (theta beta : List ℝ) :
    StrictConcaveOn ℝ univ (Split.Spec.logIntegrand M μ theta beta) := by
  have h1 : ConcaveOn ℝ univ fun u => ∑ j, logLik μ (M.resp j) (Split.Spec.weight M j)
      (Split.Spec.eta M theta beta u j) := by
    refine ⟨convex_univ, fun u _ v _ a b ha hb hab => ?_⟩
    simp only
    rw [Finset.smul_sum, Finset.smul_sum, ← Finset.sum_add_distrib]
    refine Finset.sum_le_sum fun j _ => ?_
    rw [eta_affine M theta beta hab]
    exact (logLik_concave hl (hw j) (hy j).1 (hy j).2).2 (mem_univ _) (mem_univ _) ha hb hab
  exact h1.add_strictConcaveOn gaussian_concave

theorem logLik_nonpos {link : String} {μ : ℝ → ℝ} (hl : IsLink link μ) {w y : ℝ} (hw : 0 ≤ w)
    (h0 : 0 ≤ y) (h1 : y ≤ 1) (x : ℝ) : logLik μ y w x ≤ 0 := by
  have hr : 0 < μ x ∧ μ x < 1 := by
    rcases hl with _ | _
    · rw [← lo0_eq]
      exact ⟨logit_ok.pos x, logit_ok.lt_one x⟩
    · rw [← normalCdf_eq]
      exact normalCdf_mem x
  have a1 := Real.log_nonpos hr.1.le hr.2.le
  have a2 : Real.log (1 - μ x) ≤ 0 := Real.log_nonpos (by linarith [hr.2]) (by linarith [hr.1])
  have b1 := mul_nonneg h0 (neg_nonneg.2 a1)
  have b2 := mul_nonneg (show 0 ≤ 1 - y by linarith) (neg_nonneg.2 a2)
  have : 0 ≤ w * (y * -Real.log (μ x) + (1 - y) * -Real.log (1 - μ x)) := mul_nonneg hw (by linarith)
  unfold logLik
  nlinarith

/-- C110: the log-integrand has exactly one maximum, and no other local maximum. -/
theorem c110 {link : String} {μ : ℝ → ℝ} (hl : IsLink link μ) {M : ModFr q n p}
    (hw : ∀ j, 0 ≤ Split.Spec.weight M j) (hy : ∀ j, 0 ≤ M.resp j ∧ M.resp j ≤ 1) (theta beta : List ℝ) :
    ∃ u, (∀ v, v ≠ u → Split.Spec.logIntegrand M μ theta beta v <
        Split.Spec.logIntegrand M μ theta beta u) ∧
      ∀ v, IsLocalMax (Split.Spec.logIntegrand M μ theta beta) v → v = u := by
  have hc := c110_concave hl hw hy theta beta
  set f := Split.Spec.logIntegrand M μ theta beta with hf
  have hcont : Continuous f :=
    continuousOn_univ.1 (ConcaveOn.continuousOn isOpen_univ hc.concaveOn)
  set K := (q : ℝ) * Real.log (gaussianPDFReal 0 1 0) with hK
  have hle : ∀ u, f u ≤ K - ‖u‖ ^ 2 / 2 := by
    intro u
    have e1 : ∑ j, logLik μ (M.resp j) (Split.Spec.weight M j) (Split.Spec.eta M theta beta u j) ≤ 0 :=
      Finset.sum_nonpos fun j _ => logLik_nonpos hl (hw j) (hy j).1 (hy j).2 _
    have e2 : ∑ r, Real.log (gaussianPDFReal 0 1 (u r)) = K - ∑ r, u r ^ 2 / 2 := by
      rw [Finset.sum_congr rfl fun r _ => log_gaussian (u r), Finset.sum_sub_distrib]
      simp [hK]
    have e3 : ‖u‖ ^ 2 / 2 ≤ ∑ r, u r ^ 2 / 2 := by
      rw [← Finset.sum_div]
      refine div_le_div_of_nonneg_right ?_ (by norm_num)
      have hs : 0 ≤ ∑ r, u r ^ 2 := Finset.sum_nonneg fun r _ => sq_nonneg _
      have : ‖u‖ ≤ √(∑ r, u r ^ 2) := by
        refine (pi_norm_le_iff_of_nonneg (Real.sqrt_nonneg _)).2 fun r => ?_
        rw [Real.norm_eq_abs]
        refine Real.abs_le_sqrt ?_
        exact Finset.single_le_sum (f := fun r => u r ^ 2) (fun r _ => sq_nonneg _) (Finset.mem_univ r)
      calc ‖u‖ ^ 2 ≤ √(∑ r, u r ^ 2) ^ 2 := pow_le_pow_left₀ (norm_nonneg _) this 2
        _ = _ := Real.sq_sqrt hs
    show _ + _ ≤ _
    rw [e2]
    linarith
  obtain ⟨u, hu⟩ : ∃ u, ∀ v, f v ≤ f u := by
    refine hcont.exists_forall_ge' 0 ?_
    have hlim : Filter.Tendsto (fun u : Fin q → ℝ => ‖u‖) (Filter.cocompact _) Filter.atTop :=
      tendsto_norm_cocompact_atTop
    filter_upwards [hlim.eventually_ge_atTop (|K - f 0| + 2)] with v hv
    have h1 := hle v
    have h2 := le_abs_self (K - f 0)
    have h3 := abs_nonneg (K - f 0)
    nlinarith
  have huniq : ∀ v, (∀ x, f x ≤ f v) → v = u := fun v hv =>
    hc.eq_of_isMaxOn (fun x _ => hv x) (fun x _ => hu x) (mem_univ v) (mem_univ u)
  refine ⟨u, fun v hv => lt_of_le_of_ne (hu v) fun e => hv (huniq v fun x => e ▸ hu x), fun v hv => ?_⟩
  refine huniq v fun x => ?_
  exact IsMaxOn.of_isLocalMaxOn_of_concaveOn (mem_univ v) (hv.on univ) hc.concaveOn (mem_univ x)

/-- C110: the likelihood is a probability: positive and at most 1. -/
theorem c110_likelihood {link : String} {μ : ℝ → ℝ} (hl : IsLink link μ) {M : ModFr q n p}
    (hw : ∀ j, 0 ≤ Split.Spec.weight M j) (hy : ∀ j, 0 ≤ M.resp j ∧ M.resp j ≤ 1) (theta beta : List ℝ) :
    MeasureTheory.Integrable (fun u => Real.exp (Split.Spec.logIntegrand M μ theta beta u)) ∧
      0 < ∫ u, Real.exp (Split.Spec.logIntegrand M μ theta beta u) ∧
      ∫ u, Real.exp (Split.Spec.logIntegrand M μ theta beta u) ≤ 1 := by
  have hcont : Continuous fun u => Real.exp (Split.Spec.logIntegrand M μ theta beta u) :=
    Real.continuous_exp.comp (continuousOn_univ.1
      (ConcaveOn.continuousOn isOpen_univ (c110_concave hl hw hy theta beta).concaveOn))
  have hle : ∀ u, Real.exp (Split.Spec.logIntegrand M μ theta beta u) ≤
      ∏ r, gaussianPDFReal 0 1 (u r) := by
    intro u
    have e1 : ∑ j, logLik μ (M.resp j) (Split.Spec.weight M j) (Split.Spec.eta M theta beta u j) ≤ 0 :=
      Finset.sum_nonpos fun j _ => logLik_nonpos hl (hw j) (hy j).1 (hy j).2 _
    have e2 : ∏ r, gaussianPDFReal 0 1 (u r) =
        Real.exp (∑ r, Real.log (gaussianPDFReal 0 1 (u r))) := by
      rw [Real.exp_sum]
      exact Finset.prod_congr rfl fun r _ =>
        (Real.exp_log (gaussianPDFReal_pos 0 1 _ one_ne_zero)).symm
    rw [e2]
    exact Real.exp_le_exp.2 (by unfold Split.Spec.logIntegrand; linarith)
  have hg : MeasureTheory.Integrable fun u : Fin q → ℝ => ∏ r, gaussianPDFReal 0 1 (u r) :=
    MeasureTheory.Integrable.fintype_prod fun _ => integrable_gaussianPDFReal 0 1
  have hint : MeasureTheory.Integrable (fun u => Real.exp (Split.Spec.logIntegrand M μ theta beta u)) :=
    hg.mono' hcont.aestronglyMeasurable (Filter.Eventually.of_forall fun u => by
      rw [Real.norm_eq_abs, abs_of_pos (Real.exp_pos _)]
      exact hle u)
  refine ⟨hint, ?_, ?_⟩
  · rw [MeasureTheory.integral_pos_iff_support_of_nonneg (fun u => (Real.exp_pos _).le) hint]
    have : Function.support (fun u => Real.exp (Split.Spec.logIntegrand M μ theta beta u)) = univ := by
      ext u
      simp [Real.exp_ne_zero]
    rw [this]
    exact MeasureTheory.Measure.measure_univ_pos.2 (NeZero.ne _)
  · refine (MeasureTheory.integral_mono hint hg hle).trans (le_of_eq ?_)
    rw [MeasureTheory.integral_fintype_prod_volume_eq_prod (fun _ => gaussianPDFReal 0 1)]
    simp [integral_gaussianPDFReal_eq_one]

/-- Two random effects, probit link. -/
example : ∃ u, (∀ v, v ≠ u → Split.Spec.logIntegrand crossed invProbit [1, 2] [0] v <
      Split.Spec.logIntegrand crossed invProbit [1, 2] [0] u) ∧
    ∀ v, IsLocalMax (Split.Spec.logIntegrand crossed invProbit [1, 2] [0]) v → v = u :=
  c110 .probit (fun j => by simp [Split.Spec.weight, crossed])
    (fun j => by fin_cases j <;> simp [crossed]) _ _

example : 0 < ∫ u, Real.exp (Split.Spec.logIntegrand crossed invProbit [1, 2] [0] u) :=
  (c110_likelihood .probit (fun j => by simp [Split.Spec.weight, crossed])
    (fun j => by fin_cases j <;> simp [crossed]) _ _).2.1

/-- The hypotheses of `c110_d2` are met: linear predictor 0. -/
example : ∃ f D2, Family.ofNames "binomial" "probit" = Except.ok f ∧
    f.evaluateSecondDerivative (fun _ : Fin 1 => 0) (fun _ => 1) (fun _ => 1) = Except.ok D2 ∧ D2 0 < 0 := by
  obtain ⟨f, hf, h⟩ := c110_d2
  have h0 : invProbit 0 = 1 / 2 := by
    rw [← normalCdf_eq]
    have := Verif.Sign.normalCdf_neg 0
    rw [neg_zero] at this
    linarith
  obtain ⟨D2, h1, -, h2⟩ := h 1 (fun _ => 0) (fun _ => 1) (fun _ => 1)
    (fun _ => by rw [h0]; norm_num) (fun _ => by norm_num) (fun _ => by norm_num)
  exact ⟨f, D2, hf, h1, h2 0 (by norm_num)⟩

end Verif.Mode
