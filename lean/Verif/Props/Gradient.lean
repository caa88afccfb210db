import Verif.Props.NoVariance
import Mathlib.Analysis.Calculus.ParametricIntegral
import Mathlib.Analysis.SpecialFunctions.ExpDeriv

/-!
# C114: the log-likelihood of a binomial model is differentiable in the parameters
-/
namespace Verif.Gradient

open Verif.Split Verif.Family Verif.GLMM ProbabilityTheory MeasureTheory

variable {q n p m k : ℕ} {μ : ℝ → ℝ} {link : String} {w y : ℝ}

/-! ## The log-likelihood of one observation -/

theorem differentiable_logLik (hl : IsLink link μ) (w y : ℝ) : Differentiable ℝ (logLik μ y w) := by
  rcases hl with _ | _
  · have e : logLik expit y w = fun x => b0 w y (lo0 x) := by rw [lo0_eq]; rfl
    rw [e]
    exact fun x => (t0_deriv logit_ok w y x).differentiableAt
  · have e : logLik invProbit y w = fun x => b0 w y (normalCdf x) := by rw [← normalCdf_eq]; rfl
    rw [e]
    exact fun x => (t0_deriv probit_ok w y x).differentiableAt

theorem normalCdf_lower (x : ℝ) : -(1 + (|x| + 1) ^ 2) ≤ Real.log (normalCdf x) := by
  obtain ⟨ξ, ⟨h1, h2⟩, h3⟩ := exists_hasDerivAt_eq_slope normalCdf normalPdf (by linarith : x - 1 < x)
    (fun z _ => (normalCdf_hasDerivAt z).continuousAt.continuousWithinAt)
    fun z _ => normalCdf_hasDerivAt z
  rw [show x - (x - 1) = 1 by ring, div_one] at h3
  have h4 : normalPdf ξ ≤ normalCdf x := by
    have := (normalCdf_mem (x - 1)).1
    linarith
  have h5 : Real.log (normalPdf ξ) = -ξ ^ 2 / 2 - Real.log (Real.sqrt (2 * Real.pi)) := by
    unfold normalPdf
    rw [Real.log_div (Real.exp_ne_zero _) (Real.sqrt_pos.2 (by positivity)).ne', Real.log_exp]
  have h6 : Real.log (Real.sqrt (2 * Real.pi)) ≤ 1 := by
    rw [Real.log_le_iff_le_exp (Real.sqrt_pos.2 (by positivity)), Real.sqrt_le_iff]
    refine ⟨(Real.exp_pos 1).le, ?_⟩
    have := Real.pi_lt_d2
    have := Real.exp_one_gt_d9
    nlinarith
  have h7 : ξ ^ 2 ≤ (|x| + 1) ^ 2 := by
    rw [sq_le_sq, abs_of_nonneg (by positivity : 0 ≤ |x| + 1), abs_le]
    have := neg_abs_le x
    have := le_abs_self x
    constructor <;> linarith
  have h8 := Real.log_le_log (normalPdf_pos ξ) h4
  have := sq_nonneg ξ
  rw [h5] at h8
  nlinarith

theorem expit_lower (x : ℝ) : -(1 + (|x| + 1) ^ 2) ≤ Real.log (expit x) := by
  have h1 : 1 + Real.exp (-x) ≤ Real.exp (1 + |x|) := by
    have e1 : Real.exp (-x) ≤ Real.exp |x| := Real.exp_le_exp.2 (neg_le_abs x)
    have e2 : 1 ≤ Real.exp |x| := Real.one_le_exp (abs_nonneg x)
    rw [Real.exp_add]
    have := Real.exp_one_gt_d9
    nlinarith
  unfold expit
  rw [Real.log_inv]
  have h2 := Real.log_le_log (by positivity) h1
  rw [Real.log_exp] at h2
  nlinarith [abs_nonneg x]

theorem logLik_lower (hl : IsLink link μ) (hw : 0 ≤ w) (h0 : 0 ≤ y) (h1 : y ≤ 1) (x : ℝ) :
    -(w * (1 + (|x| + 1) ^ 2)) ≤ logLik μ y w x := by
  have hb : -(1 + (|x| + 1) ^ 2) ≤ Real.log (μ x) ∧ -(1 + (|x| + 1) ^ 2) ≤ Real.log (1 - μ x) := by
    rcases hl with _ | _
    · refine ⟨expit_lower x, ?_⟩
      have e : 1 - expit x = expit (-x) := by
        unfold expit
        rw [neg_neg, Real.exp_neg]
        have := Real.exp_pos x
        field_simp
        ring
      rw [e]
      have := expit_lower (-x)
      rwa [abs_neg] at this
    · rw [← normalCdf_eq]
      refine ⟨normalCdf_lower x, ?_⟩
      have := normalCdf_lower (-x)
      rwa [abs_neg, Verif.Sign.normalCdf_neg] at this
  unfold logLik
  have e : -(w * (1 + (|x| + 1) ^ 2)) = w * (y * -(1 + (|x| + 1) ^ 2) + (1 - y) * -(1 + (|x| + 1) ^ 2)) := by
    ring
  rw [e]
  exact mul_le_mul_of_nonneg_left (add_le_add (mul_le_mul_of_nonneg_left hb.1 h0)
    (mul_le_mul_of_nonneg_left hb.2 (by linarith))) hw

/-- The score of an observation grows at most quadratically. -/
theorem score_bound (hl : IsLink link μ) (hw : 0 ≤ w) (h0 : 0 ≤ y) (h1 : y ≤ 1) (x : ℝ) :
    |deriv (logLik μ y w) x| ≤ w * (1 + (|x| + 2) ^ 2) := by
  have hc := Mode.logLik_concave hl hw h0 h1
  have hd := (differentiable_logLik hl w y x).hasDerivAt
  have hn := Mode.logLik_nonpos hl hw h0 h1 x
  have k1 := logLik_lower hl hw h0 h1 (x + 1)
  have k2 := logLik_lower hl hw h0 h1 (x - 1)
  have m1 : w * (1 + (|x + 1| + 1) ^ 2) ≤ w * (1 + (|x| + 2) ^ 2) := by
    have := abs_add_le x 1
    rw [abs_one] at this
    refine mul_le_mul_of_nonneg_left (add_le_add_right (pow_le_pow_left₀ (by positivity) ?_ 2) 1) hw
    linarith
  have m2 : w * (1 + (|x - 1| + 1) ^ 2) ≤ w * (1 + (|x| + 2) ^ 2) := by
    have := abs_sub x 1
    rw [abs_one] at this
    refine mul_le_mul_of_nonneg_left (add_le_add_right (pow_le_pow_left₀ (by positivity) ?_ 2) 1) hw
    linarith
  have s1 := hc.slope_le_of_hasDerivAt (Set.mem_univ x) (Set.mem_univ (x + 1)) (by linarith) hd
  have s2 := hc.le_slope_of_hasDerivAt (Set.mem_univ (x - 1)) (Set.mem_univ x) (by linarith) hd
  rw [slope_def_field, add_sub_cancel_left, div_one] at s1
  rw [slope_def_field, sub_sub_cancel, div_one] at s2
  rw [abs_le]
  constructor <;> linarith

/-! ## The linear predictor as a function of the parameters -/

/-- Element `l` of a vector, zero beyond its end. -/
noncomputable def pick (m l : ℕ) : (Fin m → ℝ) →L[ℝ] ℝ :=
  if h : l < m then ContinuousLinearMap.proj ⟨l, h⟩ else 0

theorem pick_apply (x : Fin m → ℝ) (l : ℕ) : pick m l x = (List.ofFn x).getD l 0 := by
  unfold pick
  split_ifs with h
  · rw [List.getD_eq_getElem _ _ (by simpa using h), List.getElem_ofFn]
    rfl
  · rw [List.getD_eq_default _ _ (by simpa using h)]
    rfl

/-- The part of the fixed effects. -/
noncomputable def linB (M : ModFr q n p) (m k : ℕ) (j : Fin n) : (Fin m → ℝ) × (Fin k → ℝ) →L[ℝ] ℝ :=
  ∑ i : Fin p, M.X j i • (pick k i).comp (ContinuousLinearMap.snd ℝ _ _)

/-- The part of random effect `r`. -/
noncomputable def linA (M : ModFr q n p) (m k : ℕ) (j : Fin n) (r : Fin q) :
    (Fin m → ℝ) × (Fin k → ℝ) →L[ℝ] ℝ :=
  ∑ c, M.Zt c j • ∑ l : Fin M.lambdat.length,
    if M.lambdat.get l = (r, c) then
      (pick m (M.Lind.getD l 0 - 1).toNat).comp (ContinuousLinearMap.fst ℝ _ _) else 0

/-- The linear predictor. -/
noncomputable def lin (M : ModFr q n p) (m k : ℕ) (j : Fin n) (u : Fin q → ℝ) :
    (Fin m → ℝ) × (Fin k → ℝ) →L[ℝ] ℝ := linB M m k j + ∑ r, u r • linA M m k j r

theorem lin_apply (M : ModFr q n p) (j : Fin n) (u : Fin q → ℝ) (x : (Fin m → ℝ) × (Fin k → ℝ)) :
    lin M m k j u x = Split.Spec.eta M (List.ofFn x.1) (List.ofFn x.2) u j := by
  have hA : ∀ r, linA M m k j r x = ∑ c, Split.Spec.lambdat M (List.ofFn x.1) r c * M.Zt c j := by
    intro r
    unfold linA Split.Spec.lambdat
    simp only [ContinuousLinearMap.sum_apply, ContinuousLinearMap.smul_apply, smul_eq_mul]
    refine Finset.sum_congr rfl fun c _ => ?_
    rw [mul_comm]
    congr 1
    refine Finset.sum_congr rfl fun l _ => ?_
    split_ifs
    · exact pick_apply _ _
    · rfl
  have hB : linB M m k j x = ∑ i : Fin p, M.X j i * (List.ofFn x.2).getD i 0 := by
    unfold linB
    simp only [ContinuousLinearMap.sum_apply, ContinuousLinearMap.smul_apply, smul_eq_mul]
    exact Finset.sum_congr rfl fun i _ => congrArg (M.X j i * ·) (pick_apply _ _)
  unfold lin Split.Spec.eta
  simp only [ContinuousLinearMap.add_apply, ContinuousLinearMap.sum_apply,
    ContinuousLinearMap.smul_apply, smul_eq_mul, hA, hB]
  congr 1
  exact Finset.sum_congr rfl fun r _ => mul_comm _ _

/-- A function of the random effects that grows faster than any polynomial. -/
noncomputable def grow (u : Fin q → ℝ) : ℝ := Real.exp (∑ r, |u r|)

theorem one_le_grow (u : Fin q → ℝ) : 1 ≤ grow u :=
  Real.one_le_exp (Finset.sum_nonneg fun _ _ => abs_nonneg _)

theorem le_grow (u : Fin q → ℝ) (r : Fin q) : |u r| ≤ grow u := by
  have h1 : |u r| ≤ ∑ s, |u s| :=
    Finset.single_le_sum (f := fun s => |u s|) (fun _ _ => abs_nonneg _) (Finset.mem_univ r)
  have h2 := Real.add_one_le_exp (∑ s, |u s|)
  unfold grow
  linarith

/-- Size of the coefficients of observation `j`. -/
noncomputable def size (M : ModFr q n p) (m k : ℕ) (j : Fin n) : ℝ :=
  ‖linB M m k j‖ + ∑ r, ‖linA M m k j r‖

theorem size_nonneg (M : ModFr q n p) (m k : ℕ) (j : Fin n) : 0 ≤ size M m k j := by
  unfold size
  positivity

theorem norm_lin (M : ModFr q n p) (j : Fin n) (u : Fin q → ℝ) :
    ‖lin M m k j u‖ ≤ size M m k j * grow u := by
  have h1 : ‖∑ r, u r • linA M m k j r‖ ≤ ∑ r, ‖linA M m k j r‖ * grow u := by
    refine (norm_sum_le _ _).trans (Finset.sum_le_sum fun r _ => ?_)
    rw [norm_smul, Real.norm_eq_abs, mul_comm]
    exact mul_le_mul_of_nonneg_left (le_grow u r) (norm_nonneg _)
  have h2 : ‖linB M m k j‖ ≤ ‖linB M m k j‖ * grow u :=
    le_mul_of_one_le_right (norm_nonneg _) (one_le_grow u)
  refine (norm_add_le _ _).trans ?_
  rw [size, add_mul, Finset.sum_mul]
  exact add_le_add h2 h1

theorem continuous_lin (M : ModFr q n p) (j : Fin n) : Continuous fun u => lin M m k j u := by
  unfold lin
  exact continuous_const.add (continuous_finsetSum _ fun r _ => (continuous_apply r).smul continuous_const)

theorem integrable_grow (q : ℕ) : Integrable fun u : Fin q → ℝ =>
    grow u ^ 3 * ∏ r, gaussianPDFReal 0 1 (u r) := by
  have h1 : Integrable fun t : ℝ => Real.exp (3 * |t|) * gaussianPDFReal 0 1 t := by
    have hs : ∀ c : ℝ, Integrable fun t : ℝ => Real.exp (c * t) * gaussianPDFReal 0 1 t := by
      intro c
      have e : (fun t : ℝ => Real.exp (c * t) * gaussianPDFReal 0 1 t) =
          fun t => Real.exp (c ^ 2 / 2) * gaussianPDFReal c 1 t := by
        funext t
        unfold gaussianPDFReal
        rw [mul_left_comm, ← Real.exp_add, mul_left_comm, ← Real.exp_add]
        congr 2
        simp only [NNReal.coe_one]
        ring
      rw [e]
      exact (integrable_gaussianPDFReal c 1).const_mul _
    refine ((hs 3).add (hs (-3))).mono' ?_ (Filter.Eventually.of_forall fun t => ?_)
    · exact (((continuous_const.mul continuous_abs).rexp).measurable.mul
        (measurable_gaussianPDFReal 0 1)).aestronglyMeasurable
    · have hp := (gaussianPDFReal_pos 0 1 t one_ne_zero).le
      rw [Real.norm_eq_abs, abs_of_nonneg (mul_nonneg (Real.exp_pos _).le hp)]
      show _ ≤ Real.exp (3 * t) * gaussianPDFReal 0 1 t + Real.exp (-3 * t) * gaussianPDFReal 0 1 t
      rcases abs_cases t with ⟨e, -⟩ | ⟨e, -⟩ <;> rw [e]
      · have := mul_nonneg (Real.exp_pos (-3 * t)).le hp
        linarith
      · rw [mul_neg, ← neg_mul]
        have := mul_nonneg (Real.exp_pos (3 * t)).le hp
        linarith
  have h2 := Integrable.fintype_prod (ι := Fin q) (μ := fun _ => volume)
    (f := fun _ t => Real.exp (3 * |t|) * gaussianPDFReal 0 1 t) fun _ => h1
  refine h2.congr (Filter.Eventually.of_forall fun u => ?_)
  show ∏ r, (Real.exp (3 * |u r|) * gaussianPDFReal 0 1 (u r)) = _
  rw [Finset.prod_mul_distrib, ← Real.exp_sum, ← Finset.mul_sum]
  congr 1
  unfold grow
  rw [← Real.exp_nat_mul]
  norm_num

/-! ## The likelihood -/

/-- The score of the observations given the random effects. -/
noncomputable def dlog (M : ModFr q n p) (μ : ℝ → ℝ) (x : (Fin m → ℝ) × (Fin k → ℝ)) (u : Fin q → ℝ) :
    (Fin m → ℝ) × (Fin k → ℝ) →L[ℝ] ℝ :=
  ∑ j, deriv (logLik μ (M.resp j) (Split.Spec.weight M j)) (lin M m k j u x) • lin M m k j u

theorem hasFDerivAt_integrand (hl : IsLink link μ) (M : ModFr q n p) (u : Fin q → ℝ)
    (x : (Fin m → ℝ) × (Fin k → ℝ)) :
    HasFDerivAt (fun x : (Fin m → ℝ) × (Fin k → ℝ) =>
        Real.exp (Split.Spec.logIntegrand M μ (List.ofFn x.1) (List.ofFn x.2) u))
      (Real.exp (Split.Spec.logIntegrand M μ (List.ofFn x.1) (List.ofFn x.2) u) • dlog M μ x u) x := by
  refine HasFDerivAt.exp ?_
  unfold Split.Spec.logIntegrand
  refine HasFDerivAt.add_const _ ?_
  simp only [← lin_apply (m := m) (k := k)]
  refine HasFDerivAt.fun_sum fun j _ => ?_
  exact (differentiable_logLik hl _ _ _).hasDerivAt.comp_hasFDerivAt x (lin M m k j u).hasFDerivAt

theorem integrand_le (hl : IsLink link μ) {M : ModFr q n p} (hw : ∀ j, 0 ≤ Split.Spec.weight M j)
    (hy : ∀ j, 0 ≤ M.resp j ∧ M.resp j ≤ 1) (theta beta : List ℝ) (u : Fin q → ℝ) :
    Real.exp (Split.Spec.logIntegrand M μ theta beta u) ≤ ∏ r, gaussianPDFReal 0 1 (u r) := by
  rw [← NoVariance.prod_gaussian]
  have e1 : ∑ j, logLik μ (M.resp j) (Split.Spec.weight M j) (Split.Spec.eta M theta beta u j) ≤ 0 :=
    Finset.sum_nonpos fun j _ => Mode.logLik_nonpos hl (hw j) (hy j).1 (hy j).2 _
  exact Real.exp_le_exp.2 (by unfold Split.Spec.logIntegrand; linarith)

theorem norm_dlog (hl : IsLink link μ) {M : ModFr q n p} (hw : ∀ j, 0 ≤ Split.Spec.weight M j)
    (hy : ∀ j, 0 ≤ M.resp j ∧ M.resp j ≤ 1) {x : (Fin m → ℝ) × (Fin k → ℝ)} {R : ℝ} (hx : ‖x‖ ≤ R)
    (u : Fin q → ℝ) : ‖dlog M μ x u‖ ≤
      (∑ j, Split.Spec.weight M j * (1 + (size M m k j * R + 2) ^ 2) * size M m k j) * grow u ^ 3 := by
  have hR : 0 ≤ R := (norm_nonneg x).trans hx
  have hg := one_le_grow u
  unfold dlog
  rw [Finset.sum_mul]
  refine (norm_sum_le _ _).trans (Finset.sum_le_sum fun j _ => ?_)
  have hs := size_nonneg M m k j
  have hL := norm_lin (m := m) (k := k) M j u
  have h1 : |lin M m k j u x| ≤ size M m k j * R * grow u := by
    have := (lin M m k j u).le_opNorm x
    rw [Real.norm_eq_abs] at this
    calc _ ≤ _ := this
      _ ≤ size M m k j * grow u * R := mul_le_mul hL hx (norm_nonneg _) (by positivity)
      _ = _ := by ring
  have h2 : |lin M m k j u x| + 2 ≤ (size M m k j * R + 2) * grow u := by nlinarith
  have h3 : 1 + (|lin M m k j u x| + 2) ^ 2 ≤ (1 + (size M m k j * R + 2) ^ 2) * grow u ^ 2 := by
    have a1 := pow_le_pow_left₀ (by positivity) h2 2
    rw [mul_pow] at a1
    have a2 : 1 ≤ grow u ^ 2 := one_le_pow₀ hg
    linarith
  rw [norm_smul, Real.norm_eq_abs]
  calc _ ≤ Split.Spec.weight M j * (1 + (|lin M m k j u x| + 2) ^ 2) * (size M m k j * grow u) :=
        mul_le_mul (score_bound hl (hw j) (hy j).1 (hy j).2 _) hL (norm_nonneg _)
          (mul_nonneg (hw j) (by positivity))
    _ ≤ Split.Spec.weight M j * ((1 + (size M m k j * R + 2) ^ 2) * grow u ^ 2) *
        (size M m k j * grow u) :=
        mul_le_mul_of_nonneg_right (mul_le_mul_of_nonneg_left h3 (hw j)) (by positivity)
    _ = _ := by ring

theorem measurable_dlog (hl : IsLink link μ) {M : ModFr q n p} (hw : ∀ j, 0 ≤ Split.Spec.weight M j)
    (hy : ∀ j, 0 ≤ M.resp j ∧ M.resp j ≤ 1) (x : (Fin m → ℝ) × (Fin k → ℝ)) :
    AEStronglyMeasurable (fun u =>
      Real.exp (Split.Spec.logIntegrand M μ (List.ofFn x.1) (List.ofFn x.2) u) • dlog M μ x u) volume := by
  refine (Mode.c110_likelihood hl hw hy _ _).1.aestronglyMeasurable.smul ?_
  unfold dlog
  refine Finset.aestronglyMeasurable_fun_sum _ fun j _ => ?_
  have h1 : AEStronglyMeasurable (fun u => deriv (logLik μ (M.resp j) (Split.Spec.weight M j))
      (lin M m k j u x)) volume := ((measurable_deriv _).comp
    ((continuous_lin M j).clm_apply continuous_const).measurable).aestronglyMeasurable
  exact h1.smul (continuous_lin M j).aestronglyMeasurable

theorem integrable_dlog (hl : IsLink link μ) {M : ModFr q n p} (hw : ∀ j, 0 ≤ Split.Spec.weight M j)
    (hy : ∀ j, 0 ≤ M.resp j ∧ M.resp j ≤ 1) (x : (Fin m → ℝ) × (Fin k → ℝ)) :
    Integrable fun u =>
      Real.exp (Split.Spec.logIntegrand M μ (List.ofFn x.1) (List.ofFn x.2) u) • dlog M μ x u := by
  refine ((integrable_grow q).const_mul
    (∑ j, Split.Spec.weight M j * (1 + (size M m k j * ‖x‖ + 2) ^ 2) * size M m k j)).mono'
    (measurable_dlog hl hw hy x) (Filter.Eventually.of_forall fun u => ?_)
  rw [norm_smul, Real.norm_eq_abs, abs_of_pos (Real.exp_pos _)]
  calc _ ≤ _ := mul_le_mul (integrand_le hl hw hy _ _ u) (norm_dlog hl hw hy le_rfl u) (norm_nonneg _)
        (Finset.prod_nonneg fun r _ => (gaussianPDFReal_pos 0 1 _ one_ne_zero).le)
    _ = _ := by ring

theorem hasFDerivAt_likelihood (hl : IsLink link μ) {M : ModFr q n p}
    (hw : ∀ j, 0 ≤ Split.Spec.weight M j) (hy : ∀ j, 0 ≤ M.resp j ∧ M.resp j ≤ 1)
    (x : (Fin m → ℝ) × (Fin k → ℝ)) :
    HasFDerivAt (fun x : (Fin m → ℝ) × (Fin k → ℝ) =>
        ∫ u, Real.exp (Split.Spec.logIntegrand M μ (List.ofFn x.1) (List.ofFn x.2) u))
      (∫ u, Real.exp (Split.Spec.logIntegrand M μ (List.ofFn x.1) (List.ofFn x.2) u) • dlog M μ x u) x := by
  refine hasFDerivAt_integral_of_dominated_of_fderiv_le (Metric.ball_mem_nhds x one_pos)
    (Filter.Eventually.of_forall fun x => (Mode.c110_likelihood hl hw hy _ _).1.aestronglyMeasurable)
    (Mode.c110_likelihood hl hw hy _ _).1 (measurable_dlog hl hw hy x)
    (bound := fun u => (∑ j, Split.Spec.weight M j * (1 + (size M m k j * (‖x‖ + 1) + 2) ^ 2) *
      size M m k j) * (grow u ^ 3 * ∏ r, gaussianPDFReal 0 1 (u r)))
    (Filter.Eventually.of_forall fun u z hz => ?_) ((integrable_grow q).const_mul _)
    (Filter.Eventually.of_forall fun u z _ => hasFDerivAt_integrand hl M u z)
  have hz' : ‖z‖ ≤ ‖x‖ + 1 := by
    have h1 := norm_add_le x (z - x)
    rw [add_sub_cancel] at h1
    have h2 : ‖z - x‖ < 1 := by simpa [dist_eq_norm] using hz
    linarith
  rw [norm_smul, Real.norm_eq_abs, abs_of_pos (Real.exp_pos _)]
  calc _ ≤ _ := mul_le_mul (integrand_le hl hw hy _ _ u) (norm_dlog hl hw hy hz' u) (norm_nonneg _)
        (Finset.prod_nonneg fun r _ => (gaussianPDFReal_pos 0 1 _ one_ne_zero).le)
    _ = _ := by ring

/-- C114: the log-likelihood is differentiable at all parameters, and its derivative in a direction is
the mean of the scores of the observations over the conditional distribution of the random effects. -/
theorem c114 (hl : IsLink link μ) {M : ModFr q n p} (hw : ∀ j, 0 ≤ Split.Spec.weight M j)
    (hy : ∀ j, 0 ≤ M.resp j ∧ M.resp j ≤ 1) (x : (Fin m → ℝ) × (Fin k → ℝ)) :
    ∃ D : (Fin m → ℝ) × (Fin k → ℝ) →L[ℝ] ℝ,
      HasFDerivAt (fun x : (Fin m → ℝ) × (Fin k → ℝ) =>
        Real.log (∫ u, Real.exp (Split.Spec.logIntegrand M μ (List.ofFn x.1) (List.ofFn x.2) u))) D x ∧
      ∀ d, D d = (∫ u, Real.exp (Split.Spec.logIntegrand M μ (List.ofFn x.1) (List.ofFn x.2) u) *
          ∑ j, deriv (logLik μ (M.resp j) (Split.Spec.weight M j))
              (Split.Spec.eta M (List.ofFn x.1) (List.ofFn x.2) u j) *
            Split.Spec.eta M (List.ofFn d.1) (List.ofFn d.2) u j) /
        ∫ u, Real.exp (Split.Spec.logIntegrand M μ (List.ofFn x.1) (List.ofFn x.2) u) := by
  have hpos := (Mode.c110_likelihood hl hw hy (List.ofFn x.1) (List.ofFn x.2)).2.1
  refine ⟨_, (hasFDerivAt_likelihood hl hw hy x).log hpos.ne', fun d => ?_⟩
  rw [ContinuousLinearMap.smul_apply, ContinuousLinearMap.integral_apply (integrable_dlog hl hw hy x),
    smul_eq_mul, inv_mul_eq_div]
  congr 1
  refine integral_congr_ae (Filter.Eventually.of_forall fun u => ?_)
  simp only [dlog, ContinuousLinearMap.smul_apply, ContinuousLinearMap.sum_apply, smul_eq_mul, lin_apply]

/-! ## A case meeting the hypotheses -/

/-- The model `crossed` with standard deviations 1 and 2, and intercept 0.5. -/
example : ∃ D : (Fin 2 → ℝ) × (Fin 1 → ℝ) →L[ℝ] ℝ,
    HasFDerivAt (fun x : (Fin 2 → ℝ) × (Fin 1 → ℝ) => Real.log (∫ u,
      Real.exp (Split.Spec.logIntegrand crossed invProbit (List.ofFn x.1) (List.ofFn x.2) u))) D
      (![1, 2], ![0.5]) :=
  (c114 .probit (fun j => by simp [Split.Spec.weight, crossed])
    (fun j => by fin_cases j <;> simp [crossed]) _).imp fun _ h => h.1

end Verif.Gradient
