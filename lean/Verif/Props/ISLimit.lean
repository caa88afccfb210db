import Verif.Proofs.ISLimit
import Verif.Props.IS
import Verif.Props.Whole

/-!
# C92: importance sampling converges to the log-likelihood
-/
namespace Verif.IS

open Verif.Split Verif.IS.Spec MeasureTheory ProbabilityTheory Matrix Filter Topology
open scoped ENNReal

variable {q n p : ℕ}

/-- The integral of the integrand of importance sampling. -/
noncomputable def Spec.total (fam : Fam) (M : ModFr q n p) (theta beta : List ℝ) : ℝ≥0∞ :=
  ∫⁻ u, ENNReal.ofReal (Real.exp (Spec.logIntegrand fam M theta beta u))

theorem total_pos (fam : Fam) (M : ModFr q n p) (theta beta : List ℝ)
    (h1 : Measurable fam.linkinv) (h2 : ∀ y w, Measurable fun m => fam.devResid y m w) :
    Spec.total fam M theta beta ≠ 0 := by
  unfold Spec.total
  rw [Ne, lintegral_eq_zero_iff (measurable_logIntegrand M theta beta h1 h2).exp.ennreal_ofReal]
  intro h
  have := h.exists
  obtain ⟨u, hu⟩ := this
  exact absurd hu (by simpa using Real.exp_pos _)

/-- The weight of a sample. -/
theorem exists_weight {chol : Matrix (Fin q) (Fin q) ℝ → Matrix (Fin q) (Fin q) ℝ}
    {approx : NormalApprox q} (hc : IsChol approx.precision (chol approx.precision))
    {fam : Fam} (h1 : Measurable fam.linkinv) (h2 : ∀ y w, Measurable fun m => fam.devResid y m w)
    {M : ModFr q n p} {theta beta : List ℝ} (h : Split.Spec.WellFormed M theta.length)
    (ht : theta ≠ []) (hb : beta.length = p) :
    ∃ W : (Fin q → ℝ) → ℝ, Measurable W ∧ (∀ z, 0 < W z) ∧
      (∀ z, W z = Real.exp (Spec.logIntegrand fam M theta beta (sampleMap chol approx z)) /
        affineDensity approx.mean ((chol approx.precision)⁻¹)ᵀ (sampleMap chol approx z)) ∧
      ∫⁻ z, ENNReal.ofReal (W z) ∂(stdNormal q) = Spec.total fam M theta beta ∧
      ∀ r : ℕ, 0 < r → ∀ x : ℕ → ℝ,
        lfun chol fam M theta.length approx (fill q r x) (theta ++ beta) =
          Except.ok (Real.log ((∑ s ∈ Finset.range r, W fun i => x (i + q * s)) / r)) := by
  obtain ⟨f, hf, hval⟩ := findLogIntegrand_ok fam h ht hb
  have hg : IsDensity (sampleMap chol approx)
      (affineDensity approx.mean ((chol approx.precision)⁻¹)ᵀ) := by
    rw [sampleMap_eq]
    exact affine_isDensity _ (det_sample hc)
  have hT : Measurable (sampleMap chol approx) := by
    rw [sampleMap_eq]
    exact measurable_affine _ _
  have hℓ := (measurable_logIntegrand M theta beta h1 h2).exp
  refine ⟨fun z => Real.exp (Spec.logIntegrand fam M theta beta (sampleMap chol approx z)) /
        affineDensity approx.mean ((chol approx.precision)⁻¹)ᵀ (sampleMap chol approx z),
    (hℓ.div hg.1).comp hT, fun z => div_pos (Real.exp_pos _) (hg.2.1 _), fun _ => rfl,
    lintegral_weight hT hg hℓ fun u => (Real.exp_pos _).le, fun r hr x => ?_⟩
  unfold lfun
  rw [hf, res_ok_bind, res_pure, c47_average hr]
  congr 3
  rw [Finset.sum_range]
  exact Finset.sum_congr rfl fun s _ => exp_logWeight hc (f r) _ (fill q r x) s fun u => hval r u s

/-- C92: for every model frame, parameters, normal approximation and family for which the integral of
the integrand is finite, with probability one the importance sampling approximation converges to the
logarithm of the integral as the number of samples grows. -/
theorem c92 {Ω : Type} [MeasurableSpace Ω] {P : Measure Ω} {N : ℕ → Ω → ℝ} (hN : Stream N P)
    {chol : Matrix (Fin q) (Fin q) ℝ → Matrix (Fin q) (Fin q) ℝ}
    {approx : NormalApprox q} (hc : IsChol approx.precision (chol approx.precision))
    {fam : Fam} (h1 : Measurable fam.linkinv) (h2 : ∀ y w, Measurable fun m => fam.devResid y m w)
    {M : ModFr q n p} {theta beta : List ℝ} (h : Split.Spec.WellFormed M theta.length)
    (ht : theta ≠ []) (hb : beta.length = p) (hfin : Spec.total fam M theta beta ≠ ⊤) :
    ∃ v : ℕ → Ω → ℝ,
      (∀ r, 0 < r → ∀ ω, lfun chol fam M theta.length approx (fill q r fun i => N i ω)
        (theta ++ beta) = Except.ok (v r ω)) ∧
      ∀ᵐ ω ∂P, Tendsto (fun r => v r ω) atTop
        (𝓝 (Real.log (Spec.total fam M theta beta).toReal)) := by
  obtain ⟨W, hW, hpos, -, htot, hl⟩ := exists_weight hc h1 h2 h ht hb
  refine ⟨fun r ω => Real.log ((∑ s ∈ Finset.range r, W (col q N s ω)) / r),
    fun r hr ω => hl r hr _, ?_⟩
  have hi : Integrable W (stdNormal q) := by
    refine ⟨hW.aestronglyMeasurable, ?_⟩
    rw [hasFiniteIntegral_iff_ofReal (ae_of_all _ fun z => (hpos z).le), htot]
    exact lt_top_iff_ne_top.2 hfin
  have hint : ∫ z, W z ∂(stdNormal q) = (Spec.total fam M theta beta).toReal := by
    rw [← htot, integral_eq_lintegral_of_nonneg_ae (ae_of_all _ fun z => (hpos z).le)
      hW.aestronglyMeasurable]
  filter_upwards [average_tendsto hN hW hi] with ω hω
  rw [hint] at hω
  exact (Real.continuousAt_log (ENNReal.toReal_pos (total_pos fam M theta beta h1 h2) hfin).ne').tendsto.comp hω

/-- C92, for every number of samples: the approximation exceeds the logarithm of the integral by `t`
with probability at most `exp (-t)`. -/
theorem c92_tail {Ω : Type} [MeasurableSpace Ω] {P : Measure Ω} {N : ℕ → Ω → ℝ} (hN : Stream N P)
    {chol : Matrix (Fin q) (Fin q) ℝ → Matrix (Fin q) (Fin q) ℝ}
    {approx : NormalApprox q} (hc : IsChol approx.precision (chol approx.precision))
    {fam : Fam} (h1 : Measurable fam.linkinv) (h2 : ∀ y w, Measurable fun m => fam.devResid y m w)
    {M : ModFr q n p} {theta beta : List ℝ} (h : Split.Spec.WellFormed M theta.length)
    (ht : theta ≠ []) (hb : beta.length = p) (hfin : Spec.total fam M theta beta ≠ ⊤)
    {r : ℕ} (hr : 0 < r) (t : ℝ) :
    P {ω | ∃ v, lfun chol fam M theta.length approx (fill q r fun i => N i ω) (theta ++ beta) =
        Except.ok v ∧ Real.log (Spec.total fam M theta beta).toReal + t ≤ v} ≤
      ENNReal.ofReal (Real.exp (-t)) := by
  obtain ⟨W, hW, hpos, -, htot, hl⟩ := exists_weight hc h1 h2 h ht hb
  have hr' : (0 : ℝ) < r := by exact_mod_cast hr
  have hT := ENNReal.toReal_pos (total_pos fam M theta beta h1 h2) hfin
  set L := (Spec.total fam M theta beta).toReal with hL
  have hmean : ∀ ω, 0 < (∑ s ∈ Finset.range r, W (col q N s ω)) / r := fun ω =>
    div_pos (Finset.sum_pos (fun s _ => hpos _) ⟨0, Finset.mem_range.2 hr⟩) hr'
  have hm : ∀ s, Measurable fun ω => ENNReal.ofReal (W (col q N s ω)) := fun s =>
    (hW.comp (measurable_col hN s)).ennreal_ofReal
  have hE : ∀ s, ∫⁻ ω, ENNReal.ofReal (W (col q N s ω)) ∂P = Spec.total fam M theta beta := fun s => by
    rw [← htot, ← col_law hN s, lintegral_map hW.ennreal_ofReal (measurable_col hN s)]
  have hsum : ∫⁻ ω, ∑ s ∈ Finset.range r, ENNReal.ofReal (W (col q N s ω)) ∂P =
      r * Spec.total fam M theta beta := by
    rw [lintegral_finset_sum _ fun s _ => hm s, Finset.sum_congr rfl fun s _ => hE s,
      Finset.sum_const, Finset.card_range, nsmul_eq_mul]
  have hsub : {ω | ∃ v, lfun chol fam M theta.length approx (fill q r fun i => N i ω)
      (theta ++ beta) = Except.ok v ∧ Real.log L + t ≤ v} ⊆
      {ω | ENNReal.ofReal (r * L * Real.exp t) ≤
        ∑ s ∈ Finset.range r, ENNReal.ofReal (W (col q N s ω))} := by
    rintro ω ⟨v, hv, hle⟩
    rw [hl r hr] at hv
    cases Except.ok.inj hv
    have : Real.exp (Real.log L + t) ≤ Real.exp (Real.log
      ((∑ s ∈ Finset.range r, W (col q N s ω)) / r)) := Real.exp_le_exp.2 hle
    rw [Real.exp_log (hmean ω), Real.exp_add, Real.exp_log hT, le_div_iff₀ hr'] at this
    rw [Set.mem_setOf_eq]
    rw [← ENNReal.ofReal_sum_of_nonneg fun s _ => (hpos _).le]
    refine ENNReal.ofReal_le_ofReal (le_trans (le_of_eq (by ring)) this)
  refine (measure_mono hsub).trans ?_
  have hlt : 0 < r * L * Real.exp t := by positivity
  refine (meas_ge_le_lintegral_div (Finset.measurable_fun_sum _ fun s _ => hm s).aemeasurable
    (by simpa using hlt) ENNReal.ofReal_ne_top).trans ?_
  rw [hsum, ENNReal.ofReal_mul (by positivity), ENNReal.ofReal_mul hr'.le, ENNReal.ofReal_natCast,
    hL, ENNReal.ofReal_toReal hfin, Real.exp_neg, ENNReal.ofReal_inv_of_pos (Real.exp_pos _)]
  have hc0 : (r : ℝ≥0∞) * Spec.total fam M theta beta ≠ 0 :=
    mul_ne_zero (by exact_mod_cast hr.ne') (total_pos fam M theta beta h1 h2)
  have hct : (r : ℝ≥0∞) * Spec.total fam M theta beta ≠ ⊤ :=
    ENNReal.mul_ne_top (ENNReal.natCast_ne_top r) hfin
  rw [ENNReal.div_eq_inv_mul, ENNReal.mul_inv (Or.inl hc0) (Or.inl hct), mul_right_comm,
    ENNReal.inv_mul_cancel hc0 hct, one_mul]

/-! ## Binomial models -/

theorem measurable_binomialDev (y w : ℝ) : Measurable fun m => binomialDev y m w := by
  unfold binomialDev
  refine Measurable.const_mul (Measurable.add ?_ ?_) _
  · by_cases hy : y = 0
    · simp [hy]
    · simp only [ne_eq, hy, not_false_eq_true, if_true]
      exact (measurable_const.div measurable_id).log.const_mul _
  · by_cases hy : 1 - y = 0
    · simp [hy]
    · simp only [ne_eq, hy, not_false_eq_true, if_true]
      exact (measurable_const.div (measurable_const.sub measurable_id)).log.const_mul _

/-- The log-likelihood of an observation is at most zero. -/
theorem logLik_nonpos {link : String} {μ : ℝ → ℝ} (hl : GLMM.IsLink link μ) {y w : ℝ} (h0 : 0 ≤ y)
    (h1 : y ≤ 1) (hw : 0 ≤ w) (x : ℝ) : Family.logLik μ y w x ≤ 0 := by
  obtain ⟨g0, g1⟩ := (link_range hl).1 x
  unfold Family.logLik
  refine mul_nonpos_of_nonneg_of_nonpos hw (add_nonpos ?_ ?_)
  · exact mul_nonpos_of_nonneg_of_nonpos h0 (Real.log_nonpos g0.le g1.le)
  · exact mul_nonpos_of_nonneg_of_nonpos (by linarith) (Real.log_nonpos (by linarith) (by linarith))

/-- The integrand of a binomial model is at most the standard normal density. -/
theorem integrand_le {link : String} {μ : ℝ → ℝ} (hl : GLMM.IsLink link μ) {M : ModFr q n p}
    (hy : ∀ j, 0 ≤ M.resp j ∧ M.resp j ≤ 1) (hw : ∀ j, 0 ≤ Split.Spec.weight M j)
    (theta beta : List ℝ) (u : Fin q → ℝ) :
    Real.exp (Split.Spec.logIntegrand M μ theta beta u) ≤ stdDensity u := by
  unfold Split.Spec.logIntegrand
  rw [Real.exp_add, Real.exp_sum (s := Finset.univ (α := Fin q))]
  refine (mul_le_of_le_one_left (Finset.prod_nonneg fun i _ => (Real.exp_pos _).le) ?_).trans
    (le_of_eq (Finset.prod_congr rfl fun i _ =>
      Real.exp_log (gaussianPDFReal_pos _ _ _ one_ne_zero)))
  rw [Real.exp_le_one_iff]
  exact Finset.sum_nonpos fun j _ => logLik_nonpos hl (hy j).1 (hy j).2 (hw j) _

/-- The likelihood of the model. -/
noncomputable def Spec.likelihood (M : ModFr q n p) (μ : ℝ → ℝ) (theta beta : List ℝ) : ℝ≥0∞ :=
  ∫⁻ u, ENNReal.ofReal (Real.exp (Split.Spec.logIntegrand M μ theta beta u))

theorem likelihood_le_one {link : String} {μ : ℝ → ℝ} (hl : GLMM.IsLink link μ) {M : ModFr q n p}
    (hy : ∀ j, 0 ≤ M.resp j ∧ M.resp j ≤ 1) (hw : ∀ j, 0 ≤ Split.Spec.weight M j)
    (theta beta : List ℝ) : Spec.likelihood M μ theta beta ≤ 1 := by
  have h1 : ∫⁻ u : Fin q → ℝ, ENNReal.ofReal (stdDensity u) = 1 := by
    have := measure_univ (μ := Spec.stdNormal q)
    rwa [stdNormal_density, withDensity_apply _ MeasurableSet.univ, Measure.restrict_univ] at this
  rw [← h1]
  exact lintegral_mono fun u => ENNReal.ofReal_le_ofReal (integrand_le hl hy hw theta beta u)

/-- The integral of the integrand of importance sampling is the likelihood over that of the saturated
model. -/
theorem total_eq {link : String} {μ : ℝ → ℝ} (hl : GLMM.IsLink link μ) (M : ModFr q n p)
    (theta beta : List ℝ) : Spec.total ⟨μ, binomialDev⟩ M theta beta =
      Spec.likelihood M μ theta beta *
        ENNReal.ofReal (Real.exp (-∑ j, Spec.saturated (M.resp j) (Split.Spec.weight M j))) := by
  unfold Spec.total Spec.likelihood
  rw [← lintegral_mul_const' _ _ ENNReal.ofReal_ne_top]
  refine lintegral_congr fun u => ?_
  rw [binomial_logIntegrand hl, sub_eq_add_neg, Real.exp_add, ENNReal.ofReal_mul (Real.exp_pos _).le]

/-- C92 for binomial models with logit or probit link, with any numbers of trials: with probability one
the importance sampling approximation converges to the log-likelihood, up to the constant of the
saturated model (which is zero for responses 0 and 1). -/
theorem c92_binomial {Ω : Type} [MeasurableSpace Ω] {P : Measure Ω} {N : ℕ → Ω → ℝ}
    (hN : Stream N P) {chol : Matrix (Fin q) (Fin q) ℝ → Matrix (Fin q) (Fin q) ℝ}
    {approx : NormalApprox q} (hc : IsChol approx.precision (chol approx.precision))
    {link : String} {μ : ℝ → ℝ} (hl : GLMM.IsLink link μ) {M : ModFr q n p}
    (hy : ∀ j, 0 ≤ M.resp j ∧ M.resp j ≤ 1) (hw : ∀ j, 0 ≤ Split.Spec.weight M j)
    {theta beta : List ℝ} (h : Split.Spec.WellFormed M theta.length)
    (ht : theta ≠ []) (hb : beta.length = p) :
    ∃ v : ℕ → Ω → ℝ,
      (∀ r, 0 < r → ∀ ω, lfun chol ⟨μ, binomialDev⟩ M theta.length approx
        (fill q r fun i => N i ω) (theta ++ beta) = Except.ok (v r ω)) ∧
      ∀ᵐ ω ∂P, Tendsto (fun r => v r ω) atTop
        (𝓝 (Real.log (Spec.likelihood M μ theta beta).toReal -
          ∑ j, Spec.saturated (M.resp j) (Split.Spec.weight M j))) := by
  have hm := (link_range hl).2.measurable
  have hle := likelihood_le_one hl hy hw theta beta
  have hfin : Spec.likelihood M μ theta beta ≠ ⊤ := (hle.trans_lt ENNReal.one_lt_top).ne
  obtain ⟨v, h1, h2⟩ := c92 hN hc (fam := ⟨μ, binomialDev⟩) hm measurable_binomialDev h ht hb
    (by rw [total_eq hl]; exact ENNReal.mul_ne_top hfin ENNReal.ofReal_ne_top)
  refine ⟨v, h1, ?_⟩
  have h0 : Spec.likelihood M μ theta beta ≠ 0 := by
    intro h0
    have := total_pos ⟨μ, binomialDev⟩ M theta beta hm measurable_binomialDev
    rw [total_eq hl, h0, zero_mul] at this
    exact this rfl
  rw [total_eq hl, ENNReal.toReal_mul, ENNReal.toReal_ofReal (Real.exp_pos _).le,
    Real.log_mul (ENNReal.toReal_pos h0 hfin).ne' (Real.exp_pos _).ne', Real.log_exp,
    ← sub_eq_add_neg] at h2
  exact h2

/-- A case meeting the hypotheses: two crossed random effects and a precision that is not diagonal. -/
example : ∃ (chol : Matrix (Fin 2) (Fin 2) ℝ → Matrix (Fin 2) (Fin 2) ℝ) (Ω : Type)
    (_ : MeasurableSpace Ω) (P : Measure Ω) (N : ℕ → Ω → ℝ) (v : ℕ → Ω → ℝ), Stream N P ∧
      (∀ r, 0 < r → ∀ ω, lfun chol ⟨Family.expit, binomialDev⟩ crossed 2 ⟨![1, 2], !![1, 1; 1, 2]⟩
        (fill 2 r fun i => N i ω) [1, 2, 0.5] = Except.ok (v r ω)) ∧
      ∀ᵐ ω ∂P, Tendsto (fun r => v r ω) atTop
        (𝓝 (Real.log (Spec.likelihood crossed Family.expit [1, 2] [0.5]).toReal -
          ∑ j, Spec.saturated (crossed.resp j) (Split.Spec.weight crossed j))) := by
  obtain ⟨Ω, i, P, N, hN⟩ := exists_stream
  obtain ⟨v, h1, h2⟩ := c92_binomial hN (chol := fun _ => !![1, 1; 0, 1])
    (approx := ⟨![1, 2], !![1, 1; 1, 2]⟩) (M := crossed) (theta := [1, 2]) (beta := [0.5]) (by
      constructor
      · intro i j
        fin_cases i <;> fin_cases j <;> simp
      · intro i
        fin_cases i <;> simp
      · ext i j
        fin_cases i <;> fin_cases j <;> simp [Matrix.mul_apply, Fin.sum_univ_two]
        norm_num) .logit
    (fun j => by fin_cases j <;> simp [crossed]) (fun j => by simp [Split.Spec.weight, crossed])
    crossed_wf (by simp) rfl
  exact ⟨_, Ω, i, P, N, v, hN, h1, h2⟩

end Verif.IS

namespace Verif.Whole

open Verif.Split Verif.IS Verif.IS.Spec MeasureTheory ProbabilityTheory Filter Topology Verif.Pars Matrix
  Verif.Lfun

variable {q n p : ℕ}

/-- With method "IS" and `nIS = r`, the approximation is that of `lfun` with the first random numbers. -/
theorem is_run {x : ℕ → ℝ} (X : Ext q) (hX : ∀ m, X.rnorm m = (List.range m).map x) (F : Frame q n p)
    {d1 : List ℝ → Res (ℝ × PP q)} (hd : X.devfun 1 = Except.ok d1) (hq : 0 < q) {y : List ℝ} {d : ℝ}
    {pp : PP q} (hpp : d1 y = Except.ok (d, pp)) {r : ℕ} (hr : 0 < r) :
    ∃ s f, findLfunGlmm X F ["IS"] (.named [("nIS", .num r)]) = Except.ok (s, f) ∧
      Gives f y (IS.lfun X.chol F.fam F.M F.nTheta ⟨pp.delu, pp.Pᵀ * (pp.L * pp.Lᵀ) * pp.P⟩
        (fill q r x) y) := by
  obtain ⟨s, f, e, hf⟩ := c85_is X F hq (control := .named [("nIS", .num r)]) hr
    (by simp [Control.value, Control.given]) hd
  refine ⟨s, f, e, ?_⟩
  convert (hf y).2 d pp hpp using 3
  ext i s
  rw [hX]
  have hlt : (i : ℕ) + q * s < q * r := by
    calc (i : ℕ) + q * s < q + q * s := by have := i.2; omega
      _ = q * (s + 1) := by ring
      _ ≤ q * r := Nat.mul_le_mul_left _ s.2
  simp [fill, hlt]

/-- C92 for `glmm`: with method "IS", as the number of samples given in the control list grows, the
approximation at parameters where lme4 returns a normal approximation with positive definite precision
converges to the log-likelihood, with probability one over the random numbers. -/
theorem c92_glmm {Ω : Type} [MeasurableSpace Ω] {P : Measure Ω} {N : ℕ → Ω → ℝ} (hN : Stream N P)
    (X : Ω → Ext q) (hX : ∀ ω m, (X ω).rnorm m = (List.range m).map fun i => N i ω) (F : Frame q n p)
    {chol : Matrix (Fin q) (Fin q) ℝ → Matrix (Fin q) (Fin q) ℝ} (hchol : ∀ ω, (X ω).chol = chol)
    {d1 : List ℝ → Res (ℝ × PP q)} (hd : ∀ ω, (X ω).devfun 1 = Except.ok d1) (hq : 0 < q)
    {link : String} {μ : ℝ → ℝ} (hl : GLMM.IsLink link μ) (hF : F.fam = ⟨μ, binomialDev⟩)
    (hy : ∀ j, 0 ≤ F.M.resp j ∧ F.M.resp j ≤ 1) (hw : ∀ j, 0 ≤ Split.Spec.weight F.M j)
    {theta beta : List ℝ} (h : Split.Spec.WellFormed F.M theta.length) (hth : theta.length = F.nTheta)
    (ht : theta ≠ []) (hb : beta.length = p) {d : ℝ} {pp : PP q}
    (hpp : d1 (theta ++ beta) = Except.ok (d, pp))
    (hc : IsChol (pp.Pᵀ * (pp.L * pp.Lᵀ) * pp.P) (chol (pp.Pᵀ * (pp.L * pp.Lᵀ) * pp.P))) :
    ∃ v : ℕ → Ω → ℝ,
      (∀ r : ℕ, 0 < r → ∀ ω, ∃ s f, findLfunGlmm (X ω) F ["IS"] (.named [("nIS", .num r)]) =
        Except.ok (s, f) ∧ Gives f (theta ++ beta) (Except.ok (v r ω))) ∧
      ∀ᵐ ω ∂P, Tendsto (fun r => v r ω) atTop
        (𝓝 (Real.log (Spec.likelihood F.M μ theta beta).toReal -
          ∑ j, Spec.saturated (F.M.resp j) (Split.Spec.weight F.M j))) := by
  obtain ⟨v, h1, h2⟩ := c92_binomial hN (approx := ⟨pp.delu, pp.Pᵀ * (pp.L * pp.Lᵀ) * pp.P⟩) hc hl
    hy hw h ht hb
  refine ⟨v, fun r hr ω => ?_, h2⟩
  obtain ⟨s, f, e, hf⟩ := is_run (X ω) (hX ω) F (hd ω) hq hpp hr
  rw [hchol, hF, ← hth, h1 r hr ω] at hf
  exact ⟨s, f, e, hf⟩

/-! ## A case -/

/-- One group with two observations. -/
noncomputable def pair : ModFr 1 2 1 where
  X := Matrix.of fun _ _ => 1
  Zt := Matrix.of fun _ _ => 1
  ztStored _ _ := true
  lambdat := [(0, 0)]
  Lind := [1]
  resp j := if j = 0 then 1 else 0
  weights := none
  offset := 0

theorem pair_wf : Split.Spec.WellFormed pair 1 where
  nodup := by decide
  diag c := by
    unfold pair
    revert c
    decide
  length := rfl
  lind := by
    unfold pair
    decide
  zt _ _ _ := rfl

noncomputable def pairFrame : Frame 1 2 1 :=
  ⟨pair, 1, [0], "binomial", "logit", ⟨Family.expit, binomialDev⟩⟩

/-- What lme4 finds at standard deviation 2 and intercept 0 (see `pair_mode`). -/
noncomputable def pairPP : PP 1 := ⟨!![√3], 1, 0⟩

/-- The Cholesky factor of a matrix with one row. -/
noncomputable def chol1 (A : Matrix (Fin 1) (Fin 1) ℝ) : Matrix (Fin 1) (Fin 1) ℝ := A.map Real.sqrt

theorem pair_precision : pairPP.Pᵀ * (pairPP.L * pairPP.Lᵀ) * pairPP.P = !![3] := by
  ext i j
  fin_cases i
  fin_cases j
  simp [pairPP, Matrix.vecMul, dotProduct]

theorem chol1_right {a : ℝ} (ha : 0 < a) : IsChol !![a] (chol1 !![a]) where
  upper i j h := absurd h (by omega)
  pos i := by
    fin_cases i
    simp [chol1, ha]
  eq := by
    ext i j
    fin_cases i
    fin_cases j
    simp [chol1, Matrix.mul_apply, ha.le]

noncomputable def pairExt (lib : SR.Lib) (env : Env) (ops : Control.Ops) (x : ℕ → ℝ) : Ext 1 where
  lib := lib
  env := env
  ops := ops
  devfun _ := Except.ok fun y => Except.ok (y.getD 0 0 ^ 2, pairPP)
  rnorm m := (List.range m).map x
  chol := chol1
  grad _ _ _ := Except.ok 0
  hessian _ _ _ := Except.ok 0

/-- A case meeting the hypotheses. -/
example (lib : SR.Lib) (env : Env) (ops : Control.Ops) : ∃ (Ω : Type) (_ : MeasurableSpace Ω)
    (P : Measure Ω) (N : ℕ → Ω → ℝ) (v : ℕ → Ω → ℝ), Stream N P ∧
      (∀ r : ℕ, 0 < r → ∀ ω, ∃ s f, findLfunGlmm (pairExt lib env ops fun i => N i ω) pairFrame ["IS"]
        (.named [("nIS", .num r)]) = Except.ok (s, f) ∧ Gives f [2, 0] (Except.ok (v r ω))) ∧
      ∀ᵐ ω ∂P, Tendsto (fun r => v r ω) atTop
        (𝓝 (Real.log (Spec.likelihood pair Family.expit [2] [0]).toReal -
          ∑ j, Spec.saturated (pair.resp j) (Split.Spec.weight pair j))) := by
  obtain ⟨Ω, i, P, N, hN⟩ := exists_stream
  obtain ⟨v, h1, h2⟩ := c92_glmm hN (fun ω => pairExt lib env ops fun i => N i ω) (fun _ _ => rfl)
    pairFrame (chol := chol1) (fun _ => rfl) (fun _ => rfl) one_pos .logit rfl
    (fun j => by fin_cases j <;> simp [pairFrame, pair])
    (fun j => by simp [Split.Spec.weight, pairFrame, pair]) (theta := [2]) (beta := [0]) pair_wf rfl
    (by simp) rfl (pp := pairPP) rfl (by
      rw [pair_precision]
      exact chol1_right three_pos)
  exact ⟨Ω, i, P, N, v, hN, h1, h2⟩

end Verif.Whole
