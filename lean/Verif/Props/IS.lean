import Verif.Proofs.IS
import Verif.Proofs.ISMeasure
import Mathlib.Analysis.Matrix.LDL
import Mathlib.LinearAlgebra.Matrix.Block

/-!
# C47, C48: importance sampling
-/
namespace Verif.IS

open Verif.Split Verif.IS.Spec MeasureTheory ProbabilityTheory Matrix

variable {q n p r : ℕ}

/-! ## Cholesky factors -/

theorem Spec.IsChol.det_pos {A R : Matrix (Fin q) (Fin q) ℝ} (h : IsChol A R) : 0 < R.det := by
  rw [Matrix.det_of_upperTriangular]
  · exact Finset.prod_pos fun i _ => h.pos i
  · intro i j hij
    exact h.upper i j hij

theorem Spec.IsChol.det_eq {A R : Matrix (Fin q) (Fin q) ℝ} (h : IsChol A R) : A.det = R.det ^ 2 := by
  rw [← h.eq, Matrix.det_mul, Matrix.det_transpose, sq]

/-- Every positive definite matrix has a Cholesky factor, so a routine as assumed below exists. -/
theorem exists_chol {A : Matrix (Fin q) (Fin q) ℝ} (hA : A.PosDef) : ∃ R, IsChol A R := by
  have hL : ∀ i j, i < j → LDL.lower hA i j = 0 := by
    intro i j hij
    have := blockTriangular_inv_of_blockTriangular (M := LDL.lowerInv hA)
      (b := OrderDual.toDual) fun i j hij => LDL.lowerInv_triangular hA hij
    exact this hij
  have hdet : (LDL.lower hA).det ≠ 0 := by
    unfold LDL.lower
    exact ((Matrix.isUnit_iff_isUnit_det _).1
      (Matrix.isUnit_nonsing_inv_iff.2 (isUnit_of_invertible _))).ne_zero
  have hLd : ∀ i, LDL.lower hA i i ≠ 0 := by
    rw [Matrix.det_of_lowerTriangular _ fun i j hij => hL i j hij] at hdet
    exact fun i => Finset.prod_ne_zero_iff.1 hdet i (Finset.mem_univ i)
  have hD : (LDL.diag hA).PosDef := by
    rw [LDL.diag_eq_lowerInv_conj]
    refine hA.mul_mul_conjTranspose_same ?_
    exact Matrix.vecMul_injective_of_isUnit (isUnit_of_invertible _)
  have hd : ∀ i, 0 < LDL.diagEntries hA i := by
    intro i
    have := hD.diag_pos (i := i)
    unfold LDL.diag at this
    rwa [Matrix.diagonal_apply_eq] at this
  refine ⟨Matrix.of fun i j => SignType.sign (LDL.lower hA i i) * √(LDL.diagEntries hA i) *
    LDL.lower hA j i, ?_, ?_, ?_⟩
  · intro i j hij
    rw [Matrix.of_apply, hL j i hij, mul_zero]
  · intro i
    rw [Matrix.of_apply, mul_right_comm, sign_mul_self]
    exact mul_pos (abs_pos.2 (hLd i)) (Real.sqrt_pos.2 (hd i))
  · conv_rhs => rw [← LDL.lower_conj_diag hA]
    ext i j
    rw [Matrix.mul_apply, Matrix.mul_apply]
    refine Finset.sum_congr rfl fun k _ => ?_
    unfold LDL.diag
    rw [Matrix.mul_diagonal, Matrix.transpose_apply, Matrix.of_apply, Matrix.of_apply,
      Matrix.conjTranspose_apply, star_trivial]
    have hs : ((SignType.sign (LDL.lower hA k k) : SignType) : ℝ) ^ 2 = 1 := by
      rcases lt_or_gt_of_ne (hLd k) with h | h
      · rw [sign_neg h]; simp
      · rw [sign_pos h]; simp
    have hr := Real.sq_sqrt (hd k).le
    calc _ = ((SignType.sign (LDL.lower hA k k) : SignType) : ℝ) ^ 2 *
          √(LDL.diagEntries hA k) ^ 2 * LDL.lower hA i k * LDL.lower hA j k := by ring
      _ = _ := by rw [hs, hr]; ring

/-! ## C47 -/

/-- C47, the shift by the mean cancels: the value is the logarithm of the average of the weights. -/
theorem c47_average (hr : 0 < r) (lw : Fin r → ℝ) :
    logMeanExp lw = Real.log ((∑ s, Real.exp (lw s)) / r) := by
  unfold logMeanExp
  dsimp only
  set b := (∑ s, lw s) / r
  have hpos : 0 < (∑ s, Real.exp (lw s - b)) / r := by
    have : (Finset.univ : Finset (Fin r)).Nonempty := ⟨⟨0, hr⟩, Finset.mem_univ _⟩
    exact div_pos (Finset.sum_pos (fun s _ => Real.exp_pos _) this) (by exact_mod_cast hr)
  conv_lhs => enter [2]; rw [← Real.log_exp b]
  rw [← Real.log_mul hpos.ne' (Real.exp_pos _).ne', div_mul_eq_mul_div, Finset.sum_mul]
  simp only [← Real.exp_add, sub_add_cancel]

/-- Weights of very different size. -/
example : logMeanExp ![1000, -1000] = Real.log ((Real.exp 1000 + Real.exp (-1000)) / 2) := by
  rw [c47_average (by norm_num)]
  simp [Fin.sum_univ_two]

/-- The map applied to each sample. -/
noncomputable def sampleMap (chol : Matrix (Fin q) (Fin q) ℝ → Matrix (Fin q) (Fin q) ℝ)
    (approx : NormalApprox q) : (Fin q → ℝ) → (Fin q → ℝ) :=
  fun z i => transformNormal chol (Matrix.of fun i (_ : Fin 1) => z i) approx i 0

theorem sampleMap_eq (chol : Matrix (Fin q) (Fin q) ℝ → Matrix (Fin q) (Fin q) ℝ)
    (approx : NormalApprox q) :
    sampleMap chol approx = affine approx.mean ((chol approx.precision)⁻¹)ᵀ := by
  rfl

theorem transform_column (chol : Matrix (Fin q) (Fin q) ℝ → Matrix (Fin q) (Fin q) ℝ)
    (approx : NormalApprox q) (z : Matrix (Fin q) (Fin r) ℝ) (s : Fin r) :
    (fun i => transformNormal chol z approx i s) = sampleMap chol approx fun i => z i s := rfl

theorem det_sample {A R : Matrix (Fin q) (Fin q) ℝ} (h : IsChol A R) : ((R⁻¹)ᵀ).det ≠ 0 := by
  rw [Matrix.det_transpose, Matrix.det_nonsing_inv, Ring.inverse_eq_inv']
  exact inv_ne_zero h.det_pos.ne'

theorem exp_logWeight {chol : Matrix (Fin q) (Fin q) ℝ → Matrix (Fin q) (Fin q) ℝ}
    {approx : NormalApprox q} (hc : IsChol approx.precision (chol approx.precision))
    (f : Matrix (Fin q) (Fin r) ℝ → Fin r → ℝ) (ℓ : (Fin q → ℝ) → ℝ)
    (z : Matrix (Fin q) (Fin r) ℝ) (s : Fin r) (hf : ∀ u, f u s = ℓ fun i => u i s) :
    Real.exp (findLogWeights chol z f approx s) =
      Real.exp (ℓ (sampleMap chol approx fun i => z i s)) /
        affineDensity approx.mean ((chol approx.precision)⁻¹)ᵀ
          (sampleMap chol approx fun i => z i s) := by
  unfold findLogWeights
  dsimp only
  rw [hf, transform_column, Real.exp_sub]
  congr 1
  rw [sampleMap_eq, affineDensity, affine_inv _ (det_sample hc), Real.exp_add, mul_comm]
  congr 1
  · rw [hc.det_eq, Matrix.det_transpose, Matrix.det_nonsing_inv, Ring.inverse_eq_inv', inv_inv,
      abs_of_pos hc.det_pos, abs_of_pos (by have := hc.det_pos; positivity), Real.log_pow]
    rw [show ((2 : ℕ) : ℝ) * Real.log (chol approx.precision).det / 2 =
      Real.log (chol approx.precision).det by push_cast; ring, Real.exp_log hc.det_pos]
  · rw [Real.exp_sum]
    refine Finset.prod_congr rfl fun i _ => ?_
    rw [logDnorm_eq, Real.exp_log (gaussianPDFReal_pos _ _ _ one_ne_zero)]

/-- C47, weights: for every integrand that works on columns, the weight of a sample is the integrand
over the density of the transformed sample, at the transformed sample; it depends on that sample
only. -/
theorem c47_weight {chol : Matrix (Fin q) (Fin q) ℝ → Matrix (Fin q) (Fin q) ℝ}
    {approx : NormalApprox q} (hc : IsChol approx.precision (chol approx.precision))
    (f : ∀ r, Matrix (Fin q) (Fin r) ℝ → Fin r → ℝ) (ℓ : (Fin q → ℝ) → ℝ)
    (hf : ∀ r u s, f r u s = ℓ fun i => u i s) :
    ∃ g, IsDensity (sampleMap chol approx) g ∧
      ∀ r (z : Matrix (Fin q) (Fin r) ℝ) (s : Fin r),
        (fun i => transformNormal chol z approx i s) = sampleMap chol approx (fun i => z i s) ∧
        Real.exp (findLogWeights chol z (f r) approx s) =
          Real.exp (ℓ (sampleMap chol approx fun i => z i s)) /
            g (sampleMap chol approx fun i => z i s) := by
  refine ⟨affineDensity approx.mean ((chol approx.precision)⁻¹)ᵀ, ?_, ?_⟩
  · rw [sampleMap_eq]
    exact affine_isDensity _ (det_sample hc)
  · intro r z s
    refine ⟨rfl, ?_⟩
    exact exp_logWeight hc (f r) ℓ z s fun u => hf r u s

theorem measurable_logIntegrand {fam : Fam} (M : ModFr q n p) (theta beta : List ℝ)
    (h1 : Measurable fam.linkinv) (h2 : ∀ y w, Measurable fun m => fam.devResid y m w) :
    Measurable (Spec.logIntegrand fam M theta beta) := by
  have hη : ∀ j, Measurable fun u => Split.Spec.eta M theta beta u j := by
    intro j
    unfold Split.Spec.eta
    exact (Finset.measurable_fun_sum _ fun i _ => (measurable_pi_apply i).const_mul _).const_add _
  refine Measurable.add (Measurable.const_mul ?_ _) ?_
  · exact Finset.measurable_fun_sum _ fun j _ => (h2 _ _).comp (h1.comp (hη j))
  · exact Finset.measurable_fun_sum _ fun i _ =>
      ((measurable_gaussianPDFReal 0 1).comp (measurable_pi_apply i)).log

/-- C47: for every model frame, parameters, normal approximation and family, the exponential of the
importance sampling approximation is the average over the samples of integrand over density of the
transformed sample, and its expectation over independent standard normal samples is the integral of
the integrand. -/
theorem c47 {chol : Matrix (Fin q) (Fin q) ℝ → Matrix (Fin q) (Fin q) ℝ}
    {approx : NormalApprox q} (hc : IsChol approx.precision (chol approx.precision))
    {fam : Fam} (h1 : Measurable fam.linkinv) (h2 : ∀ y w, Measurable fun m => fam.devResid y m w)
    {M : ModFr q n p} {theta beta : List ℝ} (h : Split.Spec.WellFormed M theta.length)
    (ht : theta ≠ []) (hb : beta.length = p) (hr : 0 < r) :
    ∃ v : (Fin r → Fin q → ℝ) → ℝ,
      (∀ z, lfun chol fam M theta.length approx (columns z) (theta ++ beta) =
        Except.ok (v z)) ∧
      (∃ g, IsDensity (sampleMap chol approx) g ∧ ∀ z, Real.exp (v z) =
        (∑ s, Real.exp (Spec.logIntegrand fam M theta beta (sampleMap chol approx (z s))) /
          g (sampleMap chol approx (z s))) / r) ∧
      ∫⁻ z, ENNReal.ofReal (Real.exp (v z)) ∂(samples q r) =
        ∫⁻ u, ENNReal.ofReal (Real.exp (Spec.logIntegrand fam M theta beta u)) := by
  obtain ⟨f, hf, hval⟩ := findLogIntegrand_ok fam h ht hb
  obtain ⟨g, hg, hw⟩ := c47_weight hc f _ hval
  have hform : ∀ z : Fin r → Fin q → ℝ,
      Real.exp (logMeanExp (findLogWeights chol (columns z) (f r) approx)) =
      (∑ s, Real.exp (Spec.logIntegrand fam M theta beta (sampleMap chol approx (z s))) /
          g (sampleMap chol approx (z s))) / r := by
    intro z
    rw [c47_average hr, Real.exp_log]
    · congr 1
      exact Finset.sum_congr rfl fun s _ => (hw r (columns z) s).2
    · have : (Finset.univ : Finset (Fin r)).Nonempty := ⟨⟨0, hr⟩, Finset.mem_univ _⟩
      exact div_pos (Finset.sum_pos (fun s _ => Real.exp_pos _) this) (by exact_mod_cast hr)
  refine ⟨fun z => logMeanExp (findLogWeights chol (columns z) (f r) approx), ?_,
    ⟨g, hg, hform⟩, ?_⟩
  · intro z
    unfold lfun
    rw [hf, res_ok_bind]
    rfl
  · simp only [hform]
    have hT : Measurable (sampleMap chol approx) := by
      rw [sampleMap_eq]
      exact measurable_affine _ _
    have hℓ := (measurable_logIntegrand M theta beta h1 h2).exp
    have hm : Measurable fun x => ENNReal.ofReal (Real.exp (Spec.logIntegrand fam M theta beta
        (sampleMap chol approx x)) / g (sampleMap chol approx x)) :=
      ((hℓ.div hg.1).comp hT).ennreal_ofReal
    have hsum : ∀ z : Fin r → Fin q → ℝ, ENNReal.ofReal
        ((∑ s, Real.exp (Spec.logIntegrand fam M theta beta (sampleMap chol approx (z s))) /
          g (sampleMap chol approx (z s))) / r) = (∑ s, ENNReal.ofReal
        (Real.exp (Spec.logIntegrand fam M theta beta (sampleMap chol approx (z s))) /
          g (sampleMap chol approx (z s)))) * (r : ENNReal)⁻¹ := by
      intro z
      rw [ENNReal.ofReal_div_of_pos (by exact_mod_cast hr), ENNReal.ofReal_natCast,
        ENNReal.ofReal_sum_of_nonneg fun s _ => (div_pos (Real.exp_pos _) (hg.2.1 _)).le]
      rfl
    simp only [hsum]
    have hms : ∀ s : Fin r, Measurable fun z : Fin r → Fin q → ℝ => ENNReal.ofReal
        (Real.exp (Spec.logIntegrand fam M theta beta (sampleMap chol approx (z s))) /
          g (sampleMap chol approx (z s))) := fun s => hm.comp (measurable_pi_apply s)
    rw [lintegral_mul_const _ (Finset.measurable_fun_sum _ fun s _ => hms s),
      lintegral_finset_sum _ fun s _ => hms s]
    simp only [lintegral_sample hm]
    rw [lintegral_weight hT hg hℓ fun u => (Real.exp_pos _).le, Finset.sum_const,
      Finset.card_univ, Fintype.card_fin, nsmul_eq_mul, mul_right_comm, ENNReal.mul_inv_cancel,
      one_mul]
    · exact_mod_cast hr.ne'
    · exact ENNReal.natCast_ne_top r

/-! ## Binomial models -/

/-- `binomial()$dev.resids` (R's `binomial_dev_resids`, not part of the package). -/
noncomputable def binomialDev (y m w : ℝ) : ℝ :=
  2 * w * ((if y ≠ 0 then y * Real.log (y / m) else 0) +
    (if 1 - y ≠ 0 then (1 - y) * Real.log ((1 - y) / (1 - m)) else 0))

/-- Log-likelihood of the saturated model, up to the same constant as `logLik`. -/
noncomputable def Spec.saturated (y w : ℝ) : ℝ :=
  w * (y * Real.log y + (1 - y) * Real.log (1 - y))

theorem link_range {link : String} {μ : ℝ → ℝ} (hl : GLMM.IsLink link μ) :
    (∀ x, 0 < μ x ∧ μ x < 1) ∧ Continuous μ := by
  rcases hl with _ | _
  · rw [← Family.lo0_eq]
    exact ⟨fun x => ⟨Family.logit_ok.pos x, Family.logit_ok.lt_one x⟩,
      continuous_iff_continuousAt.2 fun x => (Family.logit_ok.d1 x).continuousAt⟩
  · rw [← Family.normalCdf_eq]
    exact ⟨fun x => ⟨Family.probit_ok.pos x, Family.probit_ok.lt_one x⟩,
      continuous_iff_continuousAt.2 fun x => (Family.probit_ok.d1 x).continuousAt⟩

theorem yLogY (y m : ℝ) (hm : 0 < m) :
    (if y ≠ 0 then y * Real.log (y / m) else 0) = y * Real.log y - y * Real.log m := by
  by_cases hy : y = 0
  · subst hy
    simp
  · rw [if_pos hy, Real.log_div hy hm.ne', mul_sub]

/-- For binomial models the log-integrand is that of the model, minus the log-likelihood of the
saturated model. -/
theorem binomial_logIntegrand {link : String} {μ : ℝ → ℝ} (hl : GLMM.IsLink link μ)
    (M : ModFr q n p) (theta beta : List ℝ) (u : Fin q → ℝ) :
    Spec.logIntegrand ⟨μ, binomialDev⟩ M theta beta u = Split.Spec.logIntegrand M μ theta beta u -
      ∑ j, Spec.saturated (M.resp j) (Split.Spec.weight M j) := by
  unfold Spec.logIntegrand Split.Spec.logIntegrand
  rw [Finset.mul_sum, add_sub_right_comm, ← Finset.sum_sub_distrib]
  congr 1
  refine Finset.sum_congr rfl fun j _ => ?_
  obtain ⟨h1, h2⟩ := (link_range hl).1 (Split.Spec.eta M theta beta u j)
  unfold binomialDev Family.logLik Spec.saturated
  dsimp only
  rw [yLogY _ _ h1, yLogY _ _ (sub_pos.2 h2)]
  ring

/-- C47 for binomial models with responses 0 and 1: the expectation of the exponential of the importance
sampling approximation is the integral that the other approximations approximate. -/
theorem c47_binomial {chol : Matrix (Fin q) (Fin q) ℝ → Matrix (Fin q) (Fin q) ℝ}
    {approx : NormalApprox q} (hc : IsChol approx.precision (chol approx.precision))
    {link : String} {μ : ℝ → ℝ} (hl : GLMM.IsLink link μ)
    {M : ModFr q n p} (hy : ∀ j, M.resp j = 0 ∨ M.resp j = 1)
    {theta beta : List ℝ} (h : Split.Spec.WellFormed M theta.length)
    (ht : theta ≠ []) (hb : beta.length = p) (hr : 0 < r) :
    ∃ v : (Fin r → Fin q → ℝ) → ℝ,
      (∀ z, lfun chol ⟨μ, binomialDev⟩ M theta.length approx (columns z) (theta ++ beta) =
        Except.ok (v z)) ∧
      ∫⁻ z, ENNReal.ofReal (Real.exp (v z)) ∂(samples q r) =
        ∫⁻ u, ENNReal.ofReal (Real.exp (Split.Spec.logIntegrand M μ theta beta u)) := by
  obtain ⟨v, h1, -, h2⟩ := c47 (r := r) hc (fam := ⟨μ, binomialDev⟩)
    (link_range hl).2.measurable (by
      intro y w
      unfold binomialDev
      refine Measurable.const_mul (Measurable.add ?_ ?_) _
      · by_cases hy : y = 0
        · simp [hy]
        · simp only [ne_eq, hy, not_false_eq_true, if_true]
          exact (measurable_const.div measurable_id).log.const_mul _
      · by_cases hy : 1 - y = 0
        · simp [hy]
        · simp only [ne_eq, hy, not_false_eq_true, if_true]
          exact (measurable_const.div (measurable_const.sub measurable_id)).log.const_mul _)
    h ht hb hr
  refine ⟨v, h1, h2.trans ?_⟩
  refine lintegral_congr fun u => ?_
  rw [binomial_logIntegrand hl, Finset.sum_eq_zero, sub_zero]
  intro j _
  unfold Spec.saturated
  rcases hy j with h0 | h0 <;> rw [h0] <;> simp

/-- A case meeting the hypotheses: two crossed random effects, a precision that is not diagonal,
three samples. -/
example : ∃ (chol : Matrix (Fin 2) (Fin 2) ℝ → Matrix (Fin 2) (Fin 2) ℝ)
    (v : (Fin 3 → Fin 2 → ℝ) → ℝ),
      (∀ z, lfun chol ⟨Family.expit, binomialDev⟩ crossed 2 ⟨![1, 2], !![1, 1; 1, 2]⟩ (columns z)
        [1, 2, 0.5] = Except.ok (v z)) ∧
      ∫⁻ z, ENNReal.ofReal (Real.exp (v z)) ∂(samples 2 3) = ∫⁻ u, ENNReal.ofReal
        (Real.exp (Split.Spec.logIntegrand crossed Family.expit [1, 2] [0.5] u)) := by
  refine ⟨fun _ => !![1, 1; 0, 1], c47_binomial (approx := ⟨![1, 2], !![1, 1; 1, 2]⟩)
    (theta := [1, 2]) (beta := [0.5]) ?_ .logit ?_ crossed_wf
    (by simp) rfl (by norm_num)⟩
  · constructor
    · intro i j
      fin_cases i <;> fin_cases j <;> simp
    · intro i
      fin_cases i <;> simp
    · ext i j
      fin_cases i <;> fin_cases j <;> simp [Matrix.mul_apply, Fin.sum_univ_two]
      norm_num
  · intro j
    fin_cases j <;> simp [crossed]

/-! ## C48 -/

/-- C48, what the covariance is. -/
theorem c48_covariance {chol : Matrix (Fin q) (Fin q) ℝ → Matrix (Fin q) (Fin q) ℝ}
    {approx : NormalApprox q} (hc : IsChol approx.precision (chol approx.precision)) :
    Spec.covariance (sampleMap chol approx) =
      (chol approx.precision * (chol approx.precision)ᵀ)⁻¹ := by
  rw [sampleMap_eq, affine_covariance, Matrix.transpose_transpose, Matrix.mul_inv_rev,
    Matrix.transpose_nonsing_inv]

/-- The mean is that of the approximation. -/
theorem c48_mean (chol : Matrix (Fin q) (Fin q) ℝ → Matrix (Fin q) (Fin q) ℝ)
    (approx : NormalApprox q) (i : Fin q) :
    ∫ z, sampleMap chol approx z i ∂(stdNormal q) = approx.mean i := by
  rw [sampleMap_eq, affine_mean]

/-- An upper triangular normal matrix is diagonal. -/
theorem diag_of_normal {R : Matrix (Fin q) (Fin q) ℝ} (hu : ∀ i j, j < i → R i j = 0)
    (h : R * Rᵀ = Rᵀ * R) : ∀ i j, i ≠ j → R i j = 0 := by
  have key : ∀ m, ∀ i : Fin q, (i : ℕ) = m → ∀ j, i < j → R i j = 0 := by
    intro m
    induction m using Nat.strong_induction_on with
    | _ m ih =>
      intro i hi j hij
      have h1 := congrFun (congrFun h i) i
      rw [Matrix.mul_apply, Matrix.mul_apply] at h1
      simp only [Matrix.transpose_apply] at h1
      have h2 : ∑ k, R k i * R k i = R i i * R i i := by
        refine Finset.sum_eq_single i (fun k _ hk => ?_) fun h => absurd (Finset.mem_univ i) h
        rcases lt_or_gt_of_ne hk with hlt | hgt
        · rw [ih k (by rw [← hi]; exact hlt) k rfl i hlt, mul_zero]
        · rw [hu k i hgt, mul_zero]
      rw [h2, ← Finset.add_sum_erase _ _ (Finset.mem_univ i)] at h1
      have h3 : ∑ k ∈ Finset.univ.erase i, R i k * R i k = 0 := by linarith
      have h4 := (Finset.sum_eq_zero_iff_of_nonneg fun k _ => mul_self_nonneg (R i k)).1 h3 j
        (Finset.mem_erase.2 ⟨hij.ne', Finset.mem_univ j⟩)
      exact mul_self_eq_zero.1 h4
  intro i j hij
  rcases lt_or_gt_of_ne hij with h1 | h1
  · exact key i i rfl j h1
  · exact hu i j h1

/-- The Cholesky factor of a diagonal matrix is diagonal. -/
theorem chol_diag {A R : Matrix (Fin q) (Fin q) ℝ} (h : IsChol A R)
    (hA : ∀ i j, i ≠ j → A i j = 0) : ∀ i j, i ≠ j → R i j = 0 := by
  have key : ∀ m, ∀ i : Fin q, (i : ℕ) = m → ∀ j, i < j → R i j = 0 := by
    intro m
    induction m using Nat.strong_induction_on with
    | _ m ih =>
      intro i hi j hij
      have h1 := hA i j hij.ne
      rw [← h.eq, Matrix.mul_apply, Finset.sum_eq_single i] at h1
      · exact (mul_eq_zero.1 h1).resolve_left (h.pos i).ne'
      · intro k _ hk
        rw [Matrix.transpose_apply]
        rcases lt_or_gt_of_ne hk with hlt | hgt
        · rw [ih k (by rw [← hi]; exact hlt) k rfl i hlt, zero_mul]
        · rw [h.upper k i hgt, zero_mul]
      · exact fun h => absurd (Finset.mem_univ i) h
  intro i j hij
  rcases lt_or_gt_of_ne hij with h1 | h1
  · exact key i i rfl j h1
  · exact h.upper i j h1

/-- C48, exact domain: the transformed samples have the covariance of the approximation if and only if
its precision is diagonal. -/
theorem c48_iff {chol : Matrix (Fin q) (Fin q) ℝ → Matrix (Fin q) (Fin q) ℝ}
    {approx : NormalApprox q} (hc : IsChol approx.precision (chol approx.precision)) :
    Spec.covariance (sampleMap chol approx) = approx.precision⁻¹ ↔
      ∀ i j, i ≠ j → approx.precision i j = 0 := by
  rw [c48_covariance hc]
  have hdet : IsUnit (chol approx.precision).det := hc.det_pos.ne'.isUnit
  have hdet' : IsUnit ((chol approx.precision)ᵀ).det := by rwa [Matrix.det_transpose]
  constructor
  · intro h
    have h' : chol approx.precision * (chol approx.precision)ᵀ = approx.precision := by
      rw [← Matrix.nonsing_inv_nonsing_inv (chol approx.precision * (chol approx.precision)ᵀ)
        (by rw [Matrix.det_mul]; exact hdet.mul hdet'), h, Matrix.nonsing_inv_nonsing_inv _ (by
        rw [hc.det_eq]; exact hdet.pow 2)]
    have hd := diag_of_normal hc.upper (h'.trans hc.eq.symm)
    intro i j hij
    rw [← hc.eq, Matrix.mul_apply]
    refine Finset.sum_eq_zero fun k _ => ?_
    rw [Matrix.transpose_apply]
    by_cases hk : k = i
    · subst hk
      rw [hd k j hij, mul_zero]
    · rw [hd k i hk, zero_mul]
  · intro h
    have hd := chol_diag hc h
    have : (chol approx.precision)ᵀ = chol approx.precision := by
      ext i j
      rw [Matrix.transpose_apply]
      by_cases hij : i = j
      · rw [hij]
      · rw [hd i j hij, hd j i (Ne.symm hij)]
    rw [this]
    congr 1
    conv_rhs => rw [← hc.eq, this]

/-- C48, the part that holds: diagonal precisions. Missing: all other precisions (`c48_iff`,
`c48_violated`). -/
theorem c48_partial {chol : Matrix (Fin q) (Fin q) ℝ → Matrix (Fin q) (Fin q) ℝ}
    {approx : NormalApprox q} (hc : IsChol approx.precision (chol approx.precision))
    (h : ∀ i j, i ≠ j → approx.precision i j = 0) :
    Spec.covariance (sampleMap chol approx) = approx.precision⁻¹ := (c48_iff hc).2 h

/-- Two dependent random effects. -/
noncomputable def dependent : NormalApprox 2 := ⟨![1, 2], !![1, 1; 1, 2]⟩

theorem dependent_posDef : dependent.precision.PosDef := by
  rw [Matrix.posDef_iff_dotProduct_mulVec]
  refine ⟨?_, ?_⟩
  · ext i j
    fin_cases i <;> fin_cases j <;> simp [dependent]
  · intro x hx
    have hne : x 0 ≠ 0 ∨ x 1 ≠ 0 := by
      by_contra hcon
      push Not at hcon
      exact hx (by ext i; fin_cases i <;> simp [hcon])
    simp only [dependent, star_trivial, Matrix.cons_mulVec, Matrix.empty_mulVec, dotProduct,
      Fin.sum_univ_two, Matrix.cons_val_zero, Matrix.cons_val_one]
    have : 0 < (x 0 + x 1) ^ 2 + x 1 ^ 2 := by
      rcases eq_or_ne (x 1) 0 with h1 | h1
      · rw [h1]
        have h0 := hne.resolve_right (by simp [h1])
        have := pow_pos (abs_pos.2 h0) 2
        rw [sq_abs] at this
        nlinarith
      · have := pow_pos (abs_pos.2 h1) 2
        rw [sq_abs] at this
        nlinarith [sq_nonneg (x 0 + x 1)]
    nlinarith

/-- The violation of C48: for this positive definite precision no Cholesky routine that is right gives
samples with the covariance of the approximation. -/
theorem c48_violated : dependent.precision.PosDef ∧ (∃ chol :
      Matrix (Fin 2) (Fin 2) ℝ → Matrix (Fin 2) (Fin 2) ℝ, IsChol dependent.precision
      (chol dependent.precision)) ∧
    ∀ chol : Matrix (Fin 2) (Fin 2) ℝ → Matrix (Fin 2) (Fin 2) ℝ,
      IsChol dependent.precision (chol dependent.precision) →
      Spec.covariance (sampleMap chol dependent) ≠ dependent.precision⁻¹ := by
  refine ⟨dependent_posDef, ?_, ?_⟩
  · obtain ⟨R, hR⟩ := exists_chol dependent_posDef
    exact ⟨fun _ => R, hR⟩
  · intro chol hc h
    have := (c48_iff hc).1 h 0 1 (by decide)
    simp [dependent] at this

end Verif.IS
