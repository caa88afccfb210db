import Verif.Proofs.ISVariance
import Verif.Props.ISLimit
import Mathlib.Algebra.Order.Chebyshev

/-!
# C93: when the importance sampling estimate of the likelihood has a finite variance
-/
namespace Verif.IS

open Verif.Split Verif.IS.Spec MeasureTheory ProbabilityTheory Matrix Filter Topology
open scoped ENNReal

variable {q n p : ℕ}

/-! ## Specification -/

/-- The part of the log-integrand that comes from the observations. -/
noncomputable def Spec.dataPart (fam : Fam) (M : ModFr q n p) (theta beta : List ℝ)
    (u : Fin q → ℝ) : ℝ :=
  -(1 / 2) * ∑ j, fam.devResid (M.resp j) (fam.linkinv (Split.Spec.eta M theta beta u j))
    (Split.Spec.weight M j)

/-- The second moment of the importance sampling estimate of the likelihood (the exponential of the
value of `lfun`) with `r` samples. -/
noncomputable def Spec.secondMoment {Ω : Type} [MeasurableSpace Ω] (P : Measure Ω) (v : Ω → ℝ) :
    ℝ≥0∞ := ∫⁻ ω, ENNReal.ofReal (Real.exp (v ω) ^ 2) ∂P

/-! ## The second moment of a weight -/

theorem stdDensity_eq : ∃ K : ℝ, 0 < K ∧ ∀ z : Fin q → ℝ, stdDensity z = K * Real.exp (-(z ⬝ᵥ z) / 2) := by
  refine ⟨∏ _i : Fin q, (√(2 * Real.pi * 1))⁻¹, Finset.prod_pos fun _ _ => by positivity, fun z => ?_⟩
  unfold stdDensity
  rw [show -(z ⬝ᵥ z) / 2 = ∑ i, -(z i) ^ 2 / 2 by
      simp only [dotProduct, pow_two, ← Finset.sum_div, Finset.sum_neg_distrib], Real.exp_sum,
    ← Finset.prod_mul_distrib]
  refine Finset.prod_congr rfl fun i _ => ?_
  simp [gaussianPDFReal]

theorem second_moment_weight (fam : Fam) (M : ModFr q n p) (theta beta : List ℝ) (m : Fin q → ℝ)
    {A : Matrix (Fin q) (Fin q) ℝ} (hA : A.det ≠ 0) {W : (Fin q → ℝ) → ℝ}
    (hW : ∀ z, W z = Real.exp (Spec.logIntegrand fam M theta beta (affine m A z)) /
      affineDensity m A (affine m A z)) (hWm : Measurable W) :
    ∃ C : ℝ, 0 < C ∧ ∫⁻ z, ENNReal.ofReal (W z ^ 2) ∂(stdNormal q) = ENNReal.ofReal C *
      ∫⁻ z, ENNReal.ofReal (Real.exp (expo (Spec.dataPart fam M theta beta) m A z)) := by
  obtain ⟨K, hK, hd⟩ := stdDensity_eq (q := q)
  have hc : 0 < |A.det⁻¹| := abs_pos.2 (inv_ne_zero hA)
  refine ⟨K / |A.det⁻¹| ^ 2, by positivity, ?_⟩
  rw [stdNormal_density, lintegral_withDensity_eq_lintegral_mul _
    measurable_stdDensity.ennreal_ofReal (hWm.pow_const 2).ennreal_ofReal,
    ← lintegral_const_mul' _ _ ENNReal.ofReal_ne_top]
  refine lintegral_congr fun z => ?_
  rw [Pi.mul_apply, ← ENNReal.ofReal_mul (stdDensity_pos z).le, ← ENNReal.ofReal_mul (by positivity)]
  congr 1
  have hℓ : Real.exp (Spec.logIntegrand fam M theta beta (affine m A z)) =
      Real.exp (Spec.dataPart fam M theta beta (affine m A z)) * stdDensity (affine m A z) := by
    unfold Spec.logIntegrand Spec.dataPart
    rw [Real.exp_add, Real.exp_sum (s := Finset.univ (α := Fin q))]
    congr 1
    exact Finset.prod_congr rfl fun i _ => Real.exp_log (gaussianPDFReal_pos _ _ _ one_ne_zero)
  rw [hW, hℓ, affineDensity, affine_inv m hA, hd (affine m A z), hd z]
  set u := affine m A z
  have e : Real.exp (expo (Spec.dataPart fam M theta beta) m A z) =
      Real.exp (Spec.dataPart fam M theta beta u) ^ 2 * Real.exp (-(u ⬝ᵥ u) / 2) ^ 2 /
        Real.exp (-(z ⬝ᵥ z) / 2) := by
    rw [← Real.exp_nat_mul, ← Real.exp_nat_mul, ← Real.exp_add, ← Real.exp_sub]
    congr 1
    unfold expo
    push_cast
    ring
  rw [e]
  have := Real.exp_pos (-(z ⬝ᵥ z) / 2)
  field_simp

/-- The second moment of the average of `r` weights is finite exactly when that of one weight is. -/
theorem secondMoment_iff {Ω : Type} [MeasurableSpace Ω] {P : Measure Ω} {N : ℕ → Ω → ℝ}
    (hN : Stream N P) {W : (Fin q → ℝ) → ℝ} (hWm : Measurable W) (hpos : ∀ z, 0 < W z) {r : ℕ}
    (hr : 0 < r) :
    Spec.secondMoment P (fun ω => Real.log ((∑ s ∈ Finset.range r, W (col q N s ω)) / r)) = ⊤ ↔
      ∫⁻ z, ENNReal.ofReal (W z ^ 2) ∂(stdNormal q) = ⊤ := by
  have hr' : (0 : ℝ) < r := by exact_mod_cast hr
  have hmean : ∀ ω, 0 < (∑ s ∈ Finset.range r, W (col q N s ω)) / r := fun ω =>
    div_pos (Finset.sum_pos (fun s _ => hpos _) ⟨0, Finset.mem_range.2 hr⟩) hr'
  have hE : ∀ s, ∫⁻ ω, ENNReal.ofReal (W (col q N s ω) ^ 2) ∂P =
      ∫⁻ z, ENNReal.ofReal (W z ^ 2) ∂(stdNormal q) := fun s => by
    rw [← col_law hN s, lintegral_map (hWm.pow_const 2).ennreal_ofReal (measurable_col hN s)]
  unfold Spec.secondMoment
  simp only [Real.exp_log (hmean _)]
  constructor
  · intro h
    by_contra hcon
    have hle : ∫⁻ ω, ENNReal.ofReal (((∑ s ∈ Finset.range r, W (col q N s ω)) / r) ^ 2) ∂P ≤
        ∫⁻ ω, ∑ s ∈ Finset.range r, ENNReal.ofReal (W (col q N s ω) ^ 2) ∂P := by
      refine lintegral_mono fun ω => ?_
      rw [← ENNReal.ofReal_sum_of_nonneg fun s _ => sq_nonneg _]
      refine ENNReal.ofReal_le_ofReal ?_
      have h1 := sq_sum_le_card_mul_sum_sq (s := Finset.range r) (f := fun s => W (col q N s ω))
      rw [Finset.card_range] at h1
      have h2 : 0 ≤ ∑ s ∈ Finset.range r, W (col q N s ω) ^ 2 :=
        Finset.sum_nonneg fun s _ => sq_nonneg _
      rw [div_pow, div_le_iff₀ (by positivity)]
      refine h1.trans ?_
      have h3 : (1 : ℝ) ≤ r := by exact_mod_cast hr
      nlinarith [mul_nonneg h2 (mul_nonneg hr'.le (by linarith : (0 : ℝ) ≤ r - 1))]
    rw [h, lintegral_finset_sum _ fun s _ =>
      show Measurable fun ω => ENNReal.ofReal (W (col q N s ω) ^ 2) from
        ((hWm.comp (measurable_col hN s)).pow_const 2).ennreal_ofReal,
      Finset.sum_congr rfl fun s _ => hE s, Finset.sum_const, Finset.card_range, nsmul_eq_mul,
      top_le_iff] at hle
    exact ENNReal.mul_ne_top (ENNReal.natCast_ne_top r) hcon hle
  · intro h
    have hle : ENNReal.ofReal ((r : ℝ) ^ 2)⁻¹ * ∫⁻ ω, ENNReal.ofReal (W (col q N 0 ω) ^ 2) ∂P ≤
        ∫⁻ ω, ENNReal.ofReal (((∑ s ∈ Finset.range r, W (col q N s ω)) / r) ^ 2) ∂P := by
      rw [← lintegral_const_mul' _ _ ENNReal.ofReal_ne_top]
      refine lintegral_mono fun ω => ?_
      rw [← ENNReal.ofReal_mul (by positivity)]
      refine ENNReal.ofReal_le_ofReal ?_
      rw [div_pow, inv_mul_eq_div]
      refine div_le_div_of_nonneg_right (pow_le_pow_left₀ (hpos _).le ?_ 2) (by positivity)
      exact Finset.single_le_sum (f := fun s => W (col q N s ω)) (fun s _ => (hpos _).le)
        (Finset.mem_range.2 hr)
    rw [hE, h, ENNReal.mul_top (by simpa using hr.ne'), top_le_iff] at hle
    exact hle

/-! ## C93 -/

/-- C93, finite variance: for every number of samples, if the log-likelihood of the observations is
bounded above and all eigenvalues of the precision of the normal approximation are below 2, the
estimate of the likelihood has a finite second moment. -/
theorem c93_partial {Ω : Type} [MeasurableSpace Ω] {P : Measure Ω} {N : ℕ → Ω → ℝ} (hN : Stream N P)
    {chol : Matrix (Fin q) (Fin q) ℝ → Matrix (Fin q) (Fin q) ℝ}
    {approx : NormalApprox q} (hc : IsChol approx.precision (chol approx.precision))
    {fam : Fam} (h1 : Measurable fam.linkinv) (h2 : ∀ y w, Measurable fun m => fam.devResid y m w)
    {M : ModFr q n p} {theta beta : List ℝ} (h : Split.Spec.WellFormed M theta.length)
    (ht : theta ≠ []) (hb : beta.length = p) {a : ℝ} (ha : ∀ u, Spec.dataPart fam M theta beta u ≤ a)
    (hA : ((2 : ℝ) • (1 : Matrix (Fin q) (Fin q) ℝ) - approx.precision).PosDef) {r : ℕ} (hr : 0 < r) :
    ∃ v : Ω → ℝ, (∀ ω, lfun chol fam M theta.length approx (fill q r fun i => N i ω)
        (theta ++ beta) = Except.ok (v ω)) ∧ Spec.secondMoment P v ≠ ⊤ := by
  obtain ⟨W, hW, hpos, hval, -, hl⟩ := exists_weight hc h1 h2 h ht hb
  refine ⟨_, fun ω => hl r hr fun i => N i ω, ?_⟩
  show Spec.secondMoment P (fun ω => Real.log ((∑ s ∈ Finset.range r, W (col q N s ω)) / r)) ≠ ⊤
  rw [Ne, secondMoment_iff hN hW hpos hr]
  obtain ⟨C, hC, e⟩ := second_moment_weight fam M theta beta approx.mean (det_sample hc) hval hW
  obtain ⟨ε, hε, hl⟩ := long_of_posDef hc hA
  rw [e]
  exact ENNReal.mul_ne_top ENNReal.ofReal_ne_top (expo_finite ha approx.mean hε hl)

/-- C93, infinite variance: if the log-likelihood of the observations decreases at most linearly, and
the precision of the normal approximation has an eigenvalue above 2, the estimate of the likelihood has
an infinite second moment, whatever the number of samples. -/
theorem c93_infinite {Ω : Type} [MeasurableSpace Ω] {P : Measure Ω} {N : ℕ → Ω → ℝ} (hN : Stream N P)
    {chol : Matrix (Fin q) (Fin q) ℝ → Matrix (Fin q) (Fin q) ℝ}
    {approx : NormalApprox q} (hc : IsChol approx.precision (chol approx.precision))
    {fam : Fam} (h1 : Measurable fam.linkinv) (h2 : ∀ y w, Measurable fun m => fam.devResid y m w)
    {M : ModFr q n p} {theta beta : List ℝ} (h : Split.Spec.WellFormed M theta.length)
    (ht : theta ≠ []) (hb : beta.length = p) {a b : ℝ} (hb0 : 0 ≤ b)
    (ha : ∀ u, -a - b * ‖u‖ ≤ Spec.dataPart fam M theta beta u) {x : Fin q → ℝ}
    (hx : 2 * (x ⬝ᵥ x) < x ⬝ᵥ (approx.precision *ᵥ x)) {r : ℕ} (hr : 0 < r) :
    ∃ v : Ω → ℝ, (∀ ω, lfun chol fam M theta.length approx (fill q r fun i => N i ω)
        (theta ++ beta) = Except.ok (v ω)) ∧ Spec.secondMoment P v = ⊤ := by
  obtain ⟨W, hW, hpos, hval, -, hl⟩ := exists_weight hc h1 h2 h ht hb
  refine ⟨_, fun ω => hl r hr fun i => N i ω, ?_⟩
  show Spec.secondMoment P (fun ω => Real.log ((∑ s ∈ Finset.range r, W (col q N s ω)) / r)) = ⊤
  rw [secondMoment_iff hN hW hpos hr]
  obtain ⟨C, hC, e⟩ := second_moment_weight fam M theta beta approx.mean (det_sample hc) hval hW
  obtain ⟨z0, hz⟩ := short_of_large hc hx
  rw [e, expo_infinite hb0 ha approx.mean hz, ENNReal.mul_top]
  simpa using hC

/-! ## Binomial models -/

theorem dataPart_binomial {link : String} {μ : ℝ → ℝ} (hl : GLMM.IsLink link μ)
    (M : ModFr q n p) (theta beta : List ℝ) (u : Fin q → ℝ) :
    Spec.dataPart ⟨μ, binomialDev⟩ M theta beta u =
      ∑ j, Family.logLik μ (M.resp j) (Split.Spec.weight M j) (Split.Spec.eta M theta beta u j) -
      ∑ j, Spec.saturated (M.resp j) (Split.Spec.weight M j) := by
  have h := binomial_logIntegrand hl M theta beta u
  unfold Spec.logIntegrand Split.Spec.logIntegrand at h
  unfold Spec.dataPart
  linarith

/-- C93 for binomial models: finite variance if all eigenvalues of the precision are below 2. -/
theorem c93_binomial_partial {Ω : Type} [MeasurableSpace Ω] {P : Measure Ω} {N : ℕ → Ω → ℝ}
    (hN : Stream N P) {chol : Matrix (Fin q) (Fin q) ℝ → Matrix (Fin q) (Fin q) ℝ}
    {approx : NormalApprox q} (hc : IsChol approx.precision (chol approx.precision))
    {link : String} {μ : ℝ → ℝ} (hl : GLMM.IsLink link μ) {M : ModFr q n p}
    (hy : ∀ j, 0 ≤ M.resp j ∧ M.resp j ≤ 1) (hw : ∀ j, 0 ≤ Split.Spec.weight M j)
    {theta beta : List ℝ} (h : Split.Spec.WellFormed M theta.length)
    (ht : theta ≠ []) (hb : beta.length = p)
    (hA : ((2 : ℝ) • (1 : Matrix (Fin q) (Fin q) ℝ) - approx.precision).PosDef) {r : ℕ} (hr : 0 < r) :
    ∃ v : Ω → ℝ, (∀ ω, lfun chol ⟨μ, binomialDev⟩ M theta.length approx (fill q r fun i => N i ω)
        (theta ++ beta) = Except.ok (v ω)) ∧ Spec.secondMoment P v ≠ ⊤ :=
  c93_partial hN hc (link_range hl).2.measurable measurable_binomialDev h ht hb
    (a := -∑ j, Spec.saturated (M.resp j) (Split.Spec.weight M j)) (fun u => by
      rw [dataPart_binomial hl]
      have := Finset.sum_nonpos fun j (_ : j ∈ Finset.univ) =>
        logLik_nonpos hl (hy j).1 (hy j).2 (hw j) (Split.Spec.eta M theta beta u j)
      linarith) hA hr

theorem log_expit (x : ℝ) : -(|x| + Real.log 2) ≤ Real.log (Family.expit x) := by
  unfold Family.expit
  rw [Real.log_inv, neg_le_neg_iff, ← Real.log_exp |x|,
    ← Real.log_mul (Real.exp_pos _).ne' two_ne_zero]
  refine Real.log_le_log (by positivity) ?_
  have h1 : Real.exp (-x) ≤ Real.exp |x| := Real.exp_le_exp.2 (neg_le_abs x)
  have h2 : (1 : ℝ) ≤ Real.exp |x| := Real.one_le_exp (abs_nonneg x)
  linarith

theorem expit_neg (x : ℝ) : 1 - Family.expit x = Family.expit (-x) := by
  unfold Family.expit
  have h := Real.exp_pos x
  rw [neg_neg, Real.exp_neg]
  field_simp
  ring

/-- The log-likelihood of an observation decreases at most linearly for the logit link. -/
theorem logLik_logit {y w : ℝ} (h0 : 0 ≤ y) (h1 : y ≤ 1) (hw : 0 ≤ w) (x : ℝ) :
    -(w * (|x| + Real.log 2)) ≤ Family.logLik Family.expit y w x := by
  unfold Family.logLik
  rw [expit_neg, ← mul_neg]
  refine mul_le_mul_of_nonneg_left ?_ hw
  have e1 := mul_le_mul_of_nonneg_left (log_expit x) h0
  have e2 := mul_le_mul_of_nonneg_left (log_expit (-x)) (sub_nonneg.2 h1)
  rw [abs_neg] at e2
  nlinarith

theorem eta_le (M : ModFr q n p) (theta beta : List ℝ) (j : Fin n) :
    ∃ c b : ℝ, 0 ≤ b ∧ ∀ u, |Split.Spec.eta M theta beta u j| ≤ c + b * ‖u‖ := by
  refine ⟨|∑ k : Fin p, M.X j k * beta.getD k 0|,
    ∑ r, |∑ c, Split.Spec.lambdat M theta r c * M.Zt c j|,
    Finset.sum_nonneg fun _ _ => abs_nonneg _, fun u => ?_⟩
  unfold Split.Spec.eta
  refine (abs_add_le _ _).trans (add_le_add le_rfl ((Finset.abs_sum_le_sum_abs _ _).trans ?_))
  rw [Finset.sum_mul]
  refine Finset.sum_le_sum fun r _ => ?_
  rw [abs_mul]
  exact mul_le_mul_of_nonneg_left (norm_le_pi_norm u r) (abs_nonneg _)

theorem dataPart_logit {M : ModFr q n p} (hy : ∀ j, 0 ≤ M.resp j ∧ M.resp j ≤ 1)
    (hw : ∀ j, 0 ≤ Split.Spec.weight M j) (theta beta : List ℝ) :
    ∃ a b : ℝ, 0 ≤ b ∧
      ∀ u, -a - b * ‖u‖ ≤ Spec.dataPart ⟨Family.expit, binomialDev⟩ M theta beta u := by
  choose c b hb hη using eta_le M theta beta
  refine ⟨∑ j, Split.Spec.weight M j * (c j + Real.log 2) +
      ∑ j, Spec.saturated (M.resp j) (Split.Spec.weight M j), ∑ j, Split.Spec.weight M j * b j,
    Finset.sum_nonneg fun j _ => mul_nonneg (hw j) (hb j), fun u => ?_⟩
  rw [dataPart_binomial .logit, Finset.sum_mul]
  have : ∑ j, -(Split.Spec.weight M j * (c j + b j * ‖u‖ + Real.log 2)) ≤
      ∑ j, Family.logLik Family.expit (M.resp j) (Split.Spec.weight M j)
        (Split.Spec.eta M theta beta u j) :=
    Finset.sum_le_sum fun j _ => le_trans (neg_le_neg (mul_le_mul_of_nonneg_left
      (by linarith [hη j u]) (hw j))) (logLik_logit (hy j).1 (hy j).2 (hw j) _)
  rw [Finset.sum_neg_distrib] at this
  have e : ∑ j, Split.Spec.weight M j * (c j + b j * ‖u‖ + Real.log 2) =
      ∑ j, Split.Spec.weight M j * (c j + Real.log 2) + ∑ j, Split.Spec.weight M j * b j * ‖u‖ := by
    rw [← Finset.sum_add_distrib]
    exact Finset.sum_congr rfl fun j _ => by ring
  rw [e] at this
  linarith

/-- C93 for binomial models with logit link: infinite variance if the precision of the normal
approximation has an eigenvalue above 2. -/
theorem c93_logit {Ω : Type} [MeasurableSpace Ω] {P : Measure Ω} {N : ℕ → Ω → ℝ}
    (hN : Stream N P) {chol : Matrix (Fin q) (Fin q) ℝ → Matrix (Fin q) (Fin q) ℝ}
    {approx : NormalApprox q} (hc : IsChol approx.precision (chol approx.precision))
    {M : ModFr q n p} (hy : ∀ j, 0 ≤ M.resp j ∧ M.resp j ≤ 1) (hw : ∀ j, 0 ≤ Split.Spec.weight M j)
    {theta beta : List ℝ} (h : Split.Spec.WellFormed M theta.length)
    (ht : theta ≠ []) (hb : beta.length = p) {x : Fin q → ℝ}
    (hx : 2 * (x ⬝ᵥ x) < x ⬝ᵥ (approx.precision *ᵥ x)) {r : ℕ} (hr : 0 < r) :
    ∃ v : Ω → ℝ, (∀ ω, lfun chol ⟨Family.expit, binomialDev⟩ M theta.length approx
        (fill q r fun i => N i ω) (theta ++ beta) = Except.ok (v ω)) ∧
      Spec.secondMoment P v = ⊤ := by
  obtain ⟨a, b, hb0, ha⟩ := dataPart_logit hy hw theta beta
  exact c93_infinite hN hc (link_range .logit).2.measurable measurable_binomialDev h ht hb hb0 ha hx hr

theorem quadratic (U : Matrix (Fin q) (Fin n) ℝ) (w : Fin n → ℝ) (x : Fin q → ℝ) :
    x ⬝ᵥ ((U * diagonal w * Uᵀ) *ᵥ x) = ∑ j, w j * (∑ r, U r j * x r) ^ 2 := by
  rw [Matrix.mul_assoc, ← Matrix.mulVec_mulVec, ← Matrix.mulVec_mulVec, Matrix.dotProduct_mulVec,
    ← Matrix.mulVec_transpose]
  refine Finset.sum_congr rfl fun j _ => ?_
  have : (Uᵀ *ᵥ x) j = ∑ r, U r j * x r := rfl
  rw [Matrix.mulVec_diagonal, this]
  ring

/-- C93 in terms of the data: for the normal approximation of lme4 the condition is that in some
direction the observations carry more information about the random effects than their prior
distribution does. -/
theorem c93_laplace {Ω : Type} [MeasurableSpace Ω] {P : Measure Ω} {N : ℕ → Ω → ℝ}
    (hN : Stream N P) {chol : Matrix (Fin q) (Fin q) ℝ → Matrix (Fin q) (Fin q) ℝ}
    {M : ModFr q n p} (hy : ∀ j, 0 ≤ M.resp j ∧ M.resp j ≤ 1) (hw : ∀ j, 0 ≤ Split.Spec.weight M j)
    {theta beta : List ℝ} (h : Split.Spec.WellFormed M theta.length)
    (ht : theta ≠ []) (hb : beta.length = p) {w : Fin n → ℝ} {pp : Lfun.PP q}
    (hL : Lfun.Laplace M theta w pp)
    (hc : IsChol (pp.Pᵀ * (pp.L * pp.Lᵀ) * pp.P) (chol (pp.Pᵀ * (pp.L * pp.Lᵀ) * pp.P)))
    {x : Fin q → ℝ} (hx : x ⬝ᵥ x < ∑ j, w j *
      (∑ r, (∑ c, Split.Spec.lambdat M theta r c * M.Zt c j) * x r) ^ 2) {r : ℕ} (hr : 0 < r) :
    ∃ v : Ω → ℝ, (∀ ω, lfun chol ⟨Family.expit, binomialDev⟩ M theta.length
        ⟨pp.delu, pp.Pᵀ * (pp.L * pp.Lᵀ) * pp.P⟩ (fill q r fun i => N i ω) (theta ++ beta) =
          Except.ok (v ω)) ∧
      Spec.secondMoment P v = ⊤ := by
  refine c93_logit hN (approx := ⟨pp.delu, pp.Pᵀ * (pp.L * pp.Lᵀ) * pp.P⟩) hc hy hw h ht hb (x := x)
    ?_ hr
  set U := Matrix.of (Split.Spec.lambdat M theta) * M.Zt with hU
  have hP : pp.Pᵀ * (pp.L * pp.Lᵀ) * pp.P = U * diagonal w * Uᵀ + 1 := by
    rw [hL.factor, ← hU]
    calc pp.Pᵀ * (pp.P * (U * diagonal w * Uᵀ + 1) * pp.Pᵀ) * pp.P
        = (pp.Pᵀ * pp.P) * (U * diagonal w * Uᵀ + 1) * (pp.Pᵀ * pp.P) := by
          simp only [Matrix.mul_assoc]
      _ = _ := by rw [hL.permutation, Matrix.one_mul, Matrix.mul_one]
  show 2 * (x ⬝ᵥ x) < x ⬝ᵥ ((pp.Pᵀ * (pp.L * pp.Lᵀ) * pp.P) *ᵥ x)
  have hq : x ⬝ᵥ ((U * diagonal w * Uᵀ) *ᵥ x) = ∑ j, w j *
      (∑ r, (∑ c, Split.Spec.lambdat M theta r c * M.Zt c j) * x r) ^ 2 := quadratic U w x
  rw [hP, Matrix.add_mulVec, Matrix.one_mulVec, dotProduct_add, hq]
  linarith

/-- A case with a finite variance: two crossed random effects. -/
example : ∃ (chol : Matrix (Fin 2) (Fin 2) ℝ → Matrix (Fin 2) (Fin 2) ℝ) (Ω : Type)
    (_ : MeasurableSpace Ω) (P : Measure Ω) (N : ℕ → Ω → ℝ) (v : Ω → ℝ), Stream N P ∧
      (∀ ω, lfun chol ⟨Family.expit, binomialDev⟩ crossed 2 ⟨![1, 2], !![1, 1 / 2; 1 / 2, 5 / 4]⟩
        (fill 2 100 fun i => N i ω) [1, 2, 0.5] = Except.ok (v ω)) ∧
      Spec.secondMoment P v ≠ ⊤ := by
  obtain ⟨Ω, i, P, N, hN⟩ := exists_stream
  obtain ⟨v, h1, h2⟩ := c93_binomial_partial hN (chol := fun _ => !![1, 1 / 2; 0, 1])
    (approx := ⟨![1, 2], !![1, 1 / 2; 1 / 2, 5 / 4]⟩) (M := crossed) (theta := [1, 2]) (beta := [0.5])
    (by
      constructor
      · intro i j
        fin_cases i <;> fin_cases j <;> simp
      · intro i
        fin_cases i <;> simp
      · ext i j
        fin_cases i <;> fin_cases j <;> simp [Matrix.mul_apply, Fin.sum_univ_two]
        norm_num) .logit
    (fun j => by fin_cases j <;> simp [crossed]) (fun j => by simp [Split.Spec.weight, crossed])
    crossed_wf (by simp) rfl (by
      refine Matrix.PosDef.of_dotProduct_mulVec_pos ?_ fun x hx => ?_
      · ext i j
        fin_cases i <;> fin_cases j <;> simp
      · have e : star x ⬝ᵥ (((2 : ℝ) • (1 : Matrix (Fin 2) (Fin 2) ℝ) -
            !![1, 1 / 2; 1 / 2, 5 / 4]) *ᵥ x) = (x 0 - x 1 / 2) ^ 2 + x 1 ^ 2 / 2 := by
          simp [Matrix.mulVec, dotProduct, Fin.sum_univ_two]
          ring
        show 0 < star x ⬝ᵥ (((2 : ℝ) • (1 : Matrix (Fin 2) (Fin 2) ℝ) -
            !![1, 1 / 2; 1 / 2, 5 / 4]) *ᵥ x)
        rw [e]
        by_contra hn
        have h0 := sq_nonneg (x 0 - x 1 / 2)
        have h1 := sq_nonneg (x 1)
        have z1 : x 1 = 0 := by
          have : x 1 ^ 2 = 0 := by linarith
          simpa using this
        have z0 : x 0 = 0 := by
          have : (x 0 - x 1 / 2) ^ 2 = 0 := by linarith
          rw [z1] at this
          simpa using this
        exact hx (funext fun i => by fin_cases i <;> assumption)) (r := 100) (by norm_num)
  exact ⟨_, Ω, i, P, N, v, hN, h1, h2⟩

end Verif.IS

namespace Verif.Whole

open Verif.Split Verif.IS Verif.IS.Spec MeasureTheory ProbabilityTheory Filter Topology Verif.Pars Matrix
  Verif.Lfun

theorem pair_lambdat (r c : Fin 1) : Split.Spec.lambdat pair [2] r c = 2 := by
  fin_cases r
  fin_cases c
  show ∑ k : Fin 1, _ = _
  simp [pair]

theorem pair_eta (u : Fin 1 → ℝ) (j : Fin 2) : Split.Spec.eta pair [2] [0] u j = 2 * u 0 := by
  unfold Split.Spec.eta
  simp only [pair_lambdat]
  simp [pair]

/-- `pairPP` is what it should be: the mean is the mode of the integrand, and the precision that of the
Laplace approximation there. -/
theorem pair_mode :
    (∀ u, Split.Spec.logIntegrand pair Family.expit [2] [0] u ≤
      Split.Spec.logIntegrand pair Family.expit [2] [0] pairPP.delu) ∧
    Lfun.Laplace pair [2] (fun j => Family.expit (Split.Spec.eta pair [2] [0] pairPP.delu j) *
      (1 - Family.expit (Split.Spec.eta pair [2] [0] pairPP.delu j))) pairPP := by
  have e0 : Family.expit 0 = 1 / 2 := by
    unfold Family.expit
    norm_num
  have e1 : ∀ j, Split.Spec.eta pair [2] [0] pairPP.delu j = 0 := fun j => by
    rw [pair_eta]
    simp [pairPP]
  refine ⟨fun u => ?_, fun j => ?_, by simp [pairPP], ?_⟩
  · unfold Split.Spec.logIntegrand
    refine add_le_add ?_ ?_
    · have hl : ∀ x, Family.logLik Family.expit (pair.resp 0) (Split.Spec.weight pair 0) x +
          Family.logLik Family.expit (pair.resp 1) (Split.Spec.weight pair 1) x =
          Real.log (Family.expit x) + Real.log (1 - Family.expit x) := fun x => by
        simp [Family.logLik, pair, Split.Spec.weight]
      rw [Fin.sum_univ_two, Fin.sum_univ_two, e1, e1, pair_eta, pair_eta, hl, hl, e0]
      have hx : 0 < Family.expit (2 * u 0) ∧ Family.expit (2 * u 0) < 1 :=
        (link_range .logit).1 _
      generalize Family.expit (2 * u 0) = m at hx
      rw [← Real.log_mul hx.1.ne' (sub_pos.2 hx.2).ne', ← Real.log_mul (by norm_num) (by norm_num)]
      exact Real.log_le_log (mul_pos hx.1 (sub_pos.2 hx.2)) (by nlinarith [sq_nonneg (m - 1 / 2)])
    · refine Finset.sum_le_sum fun i _ => Real.log_le_log (gaussianPDFReal_pos _ _ _ one_ne_zero) ?_
      unfold gaussianPDFReal
      refine mul_le_mul_of_nonneg_left (Real.exp_le_exp.2 ?_) (by positivity)
      have : pairPP.delu i = 0 := rfl
      rw [this]
      have := sq_nonneg (u i)
      simp only [sub_zero, NNReal.coe_one]
      linarith
  · rw [e1, e0]
    norm_num
  · have hU : Matrix.of (Split.Spec.lambdat pair [2]) * pair.Zt = Matrix.of fun _ _ => 2 := by
      ext i j
      rw [Matrix.mul_apply]
      simp only [Matrix.of_apply, pair_lambdat]
      simp [pair]
    rw [hU]
    ext i j
    fin_cases i
    fin_cases j
    simp only [e1, e0]
    simp [pairPP, Matrix.mul_apply, Matrix.vecMul, dotProduct, Matrix.diagonal]
    norm_num

/-- C93 is violated: for two observations in a group, one success and one failure, a standard deviation
of 2 and an intercept of 0, the estimate of the likelihood by method "IS" has an infinite variance, for
every number of samples. -/
theorem c93_violated (lib : SR.Lib) (env : Env) (ops : Control.Ops) {Ω : Type} [MeasurableSpace Ω]
    {P : Measure Ω} {N : ℕ → Ω → ℝ} (hN : Stream N P) {r : ℕ} (hr : 0 < r) :
    ∃ v : Ω → ℝ, (∀ ω, ∃ s f, findLfunGlmm (pairExt lib env ops fun i => N i ω) pairFrame ["IS"]
      (.named [("nIS", .num r)]) = Except.ok (s, f) ∧ Gives f [2, 0] (Except.ok (v ω))) ∧
      Spec.secondMoment P v = ⊤ := by
  obtain ⟨v, h1, h2⟩ := c93_laplace hN (chol := chol1) (M := pair)
    (fun j => by fin_cases j <;> simp [pair]) (fun j => by simp [Split.Spec.weight, pair])
    (theta := [2]) (beta := [0]) pair_wf (by simp) rfl pair_mode.2 (by
      rw [pair_precision]
      exact chol1_right three_pos) (x := fun _ => 1) (by
      have e1 : ∀ j, Split.Spec.eta pair [2] [0] pairPP.delu j = 0 := fun j => by
        rw [pair_eta]
        simp [pairPP]
      have e0 : Family.expit 0 = 1 / 2 := by
        unfold Family.expit
        norm_num
      simp only [e1, e0, pair_lambdat]
      simp [dotProduct, pair]
      norm_num) hr
  refine ⟨v, fun ω => ?_, h2⟩
  obtain ⟨s, f, e, hf⟩ := is_run (pairExt lib env ops fun i => N i ω) (fun _ => rfl) pairFrame rfl
    one_pos (y := [2, 0]) (pp := pairPP) rfl hr
  refine ⟨s, f, e, ?_⟩
  rw [← h1 ω]
  exact hf

end Verif.Whole
