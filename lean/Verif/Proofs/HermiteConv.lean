import Verif.Proofs.Jacobi
import Mathlib.MeasureTheory.Measure.LevyConvergence
import Mathlib.Probability.Distributions.Gaussian.Real
import Mathlib.Analysis.Normed.Group.Tannery

/-! Convergence of Gauss-Hermite quadrature. -/
namespace Verif.Quad

open Polynomial Matrix MeasureTheory ProbabilityTheory Filter Topology

/-! ## Moments -/

theorem jac_entry_nonneg (n : ℕ) (i j : Fin (n + 1)) : 0 ≤ jac n i j := by
  rw [jac, fromLower, Matrix.of_apply, hermiteJacobi]
  split <;> rw [Matrix.of_apply] <;> split <;> first | exact Real.sqrt_nonneg _ | exact le_rfl

theorem jac_cast {n N : ℕ} (h : n + 1 ≤ N + 1) (i j : Fin (n + 1)) :
    jac N (Fin.castLE h i) (Fin.castLE h j) = jac n i j := by
  simp only [jac, fromLower, hermiteJacobi, Matrix.of_apply, Fin.val_castLE, Fin.le_def]

theorem jac_pow_nonneg (n m : ℕ) (i j : Fin (n + 1)) : 0 ≤ (jac n ^ m) i j := by
  induction m generalizing j with
  | zero =>
    rw [pow_zero, Matrix.one_apply]
    split <;> norm_num
  | succ m ih =>
    rw [pow_succ, Matrix.mul_apply]
    exact Finset.sum_nonneg fun k _ => mul_nonneg (ih k) (jac_entry_nonneg n k j)

/-- The powers grow with the size: there are more paths. -/
theorem jac_pow_mono {n N : ℕ} (h : n + 1 ≤ N + 1) (m : ℕ) (i j : Fin (n + 1)) :
    (jac n ^ m) i j ≤ (jac N ^ m) (Fin.castLE h i) (Fin.castLE h j) := by
  induction m generalizing j with
  | zero =>
    rw [pow_zero, pow_zero, Matrix.one_apply, Matrix.one_apply]
    simp only [(Fin.castLE_injective h).eq_iff, le_refl]
  | succ m ih =>
    rw [pow_succ, pow_succ, Matrix.mul_apply, Matrix.mul_apply]
    calc _ ≤ ∑ k : Fin (n + 1), (jac N ^ m) (Fin.castLE h i) (Fin.castLE h k) *
            jac N (Fin.castLE h k) (Fin.castLE h j) := by
          refine Finset.sum_le_sum fun k _ => ?_
          rw [jac_cast h]
          exact mul_le_mul_of_nonneg_right (ih k) (jac_entry_nonneg n k j)
      _ = ∑ k ∈ Finset.univ.map (Fin.castLEEmb h), (jac N ^ m) (Fin.castLE h i) k *
            jac N k (Fin.castLE h j) := by
          rw [Finset.sum_map]
          rfl
      _ ≤ _ := Finset.sum_le_sum_of_subset_of_nonneg (Finset.subset_univ _) fun k _ _ =>
          mul_nonneg (jac_pow_nonneg N m _ k) (jac_entry_nonneg N k _)

/-- The distribution with density proportional to `exp (-x²)`. -/
noncomputable def gam : Measure ℝ := gaussianReal 0 (1 / 2)

instance : IsProbabilityMeasure gam := by unfold gam; infer_instance

theorem gam_integral (f : ℝ → ℝ) :
    ∫ x, f x ∂gam = (Real.sqrt Real.pi)⁻¹ * ∫ x, f x * Real.exp (-x ^ 2) := by
  rw [gam, integral_gaussianReal_eq_integral_smul (by norm_num), ← integral_const_mul]
  refine integral_congr_ae (Eventually.of_forall fun x => ?_)
  simp only [gaussianPDFReal, smul_eq_mul, sub_zero]
  have e1 : (2 * Real.pi * ((1 / 2 : NNReal) : ℝ)) = Real.pi := by
    push_cast
    ring
  have e2 : -x ^ 2 / (2 * ((1 / 2 : NNReal) : ℝ)) = -x ^ 2 := by
    push_cast
    ring
  rw [e1, e2]
  ring

/-- Moments. -/
noncomputable def gm (m : ℕ) : ℝ := ∫ x, x ^ m ∂gam

theorem moment_eq {n m : ℕ} (hm : m ≤ 2 * n + 1) : (jac n ^ m) 0 0 = gm m := by
  have h := moment (n := n) m hm
  have s : Real.sqrt Real.pi ≠ 0 := (Real.sqrt_pos.mpr Real.pi_pos).ne'
  have e : gint (X ^ m) = ∫ x : ℝ, x ^ m * Real.exp (-x ^ 2) := by simp [gint]
  rw [gm, gam_integral, ← e, ← h, inv_mul_cancel_left₀ s]

theorem moment_le (n m : ℕ) : (jac n ^ m) 0 0 ≤ gm m := by
  have h : n + 1 ≤ n + m + 1 := by omega
  have := jac_pow_mono h m 0 0
  rwa [show Fin.castLE h 0 = 0 from rfl, moment_eq (n := n + m) (by omega)] at this

/-! ## Exponentials -/

theorem gam_integrable {f : ℝ → ℝ} (hf : Integrable fun x => f x * Real.exp (-x ^ 2)) :
    Integrable f gam := by
  rw [gam, gaussianReal_of_var_ne_zero _ (by norm_num), integrable_withDensity_iff_integrable_smul'
    (measurable_gaussianPDF _ _) (Eventually.of_forall fun x => by rw [gaussianPDF]; exact ENNReal.ofReal_lt_top)]
  refine (hf.const_mul (Real.sqrt Real.pi)⁻¹).congr (Eventually.of_forall fun x => ?_)
  simp only [toReal_gaussianPDF, gaussianPDFReal, smul_eq_mul, sub_zero]
  have e1 : (2 * Real.pi * ((1 / 2 : NNReal) : ℝ)) = Real.pi := by
    push_cast
    ring
  have e2 : -x ^ 2 / (2 * ((1 / 2 : NNReal) : ℝ)) = -x ^ 2 := by
    push_cast
    ring
  rw [e1, e2]
  ring

theorem gam_exp_sq {c : ℝ} (hc : c < 1) : Integrable (fun x => Real.exp (c * x ^ 2)) gam := by
  refine gam_integrable ((integrable_exp_neg_mul_sq (b := 1 - c) (by linarith)).congr
    (Eventually.of_forall fun x => ?_))
  simp only
  rw [← Real.exp_add]
  congr 1
  ring

theorem gam_pow (m : ℕ) : Integrable (fun x : ℝ => x ^ m) gam := by
  refine gam_integrable ?_
  simpa using integrable_poly (X ^ m)

theorem real_exp_hasSum (x : ℝ) : HasSum (fun k : ℕ => x ^ k / (k.factorial : ℝ)) (Real.exp x) := by
  rw [Real.exp_eq_exp_ℝ]
  exact NormedSpace.expSeries_div_hasSum_exp x

theorem complex_exp_hasSum (x : ℂ) :
    HasSum (fun k : ℕ => x ^ k / (k.factorial : ℂ)) (Complex.exp x) := by
  rw [Complex.exp_eq_exp_ℂ]
  exact NormedSpace.expSeries_div_hasSum_exp x

theorem gm_nonneg (m : ℕ) : 0 ≤ gm m := by
  rw [← moment_eq (n := m) (by omega)]
  exact jac_pow_nonneg _ _ _ _

variable {n : ℕ} {values : Fin (n + 1) → ℝ} {vectors : Matrix (Fin (n + 1)) (Fin (n + 1)) ℝ}

/-- The rule applied to `exp (c x²)` is at most the integral. -/
theorem rule_exp_sq (h : IsEigen (hermiteJacobi (n + 1)) values vectors) {c : ℝ} (hc0 : 0 ≤ c)
    (hc : c < 1) :
    ∑ i, vectors 0 i * vectors 0 i * Real.exp (c * values i ^ 2) ≤
      ∫ x, Real.exp (c * x ^ 2) ∂gam := by
  have h1 : HasSum (fun k : ℕ => ∑ i, vectors 0 i * vectors 0 i *
      ((c * values i ^ 2) ^ k / (k.factorial : ℝ)))
      (∑ i, vectors 0 i * vectors 0 i * Real.exp (c * values i ^ 2)) :=
    hasSum_sum fun i _ => (real_exp_hasSum _).mul_left _
  refine hasSum_le_of_sum_le h1 fun s => ?_
  have h2 : ∀ k : ℕ, ∑ i, vectors 0 i * vectors 0 i *
      ((c * values i ^ 2) ^ k / (k.factorial : ℝ)) ≤ c ^ k / (k.factorial : ℝ) * gm (2 * k) := by
    intro k
    have e : ∑ i, vectors 0 i * vectors 0 i * ((c * values i ^ 2) ^ k / (k.factorial : ℝ)) =
        c ^ k / (k.factorial : ℝ) * (jac n ^ (2 * k)) 0 0 := by
      rw [eigen_entry h, Finset.mul_sum]
      refine Finset.sum_congr rfl fun i _ => ?_
      rw [mul_pow, ← pow_mul]
      ring
    rw [e]
    exact mul_le_mul_of_nonneg_left (moment_le _ _) (by positivity)
  have e : ∀ x : ℝ, ∀ k : ℕ, (c * x ^ 2) ^ k / (k.factorial : ℝ) =
      c ^ k / (k.factorial : ℝ) * x ^ (2 * k) := by
    intro x k
    rw [mul_pow, ← pow_mul]
    ring
  calc _ ≤ ∑ k ∈ s, c ^ k / (k.factorial : ℝ) * gm (2 * k) := Finset.sum_le_sum fun k _ => h2 k
    _ = ∫ x, ∑ k ∈ s, (c * x ^ 2) ^ k / (k.factorial : ℝ) ∂gam := by
        simp only [e]
        rw [integral_finsetSum _ fun k _ => (gam_pow _).const_mul _]
        refine Finset.sum_congr rfl fun k _ => ?_
        rw [integral_const_mul]
        rfl
    _ ≤ _ := by
        refine integral_mono ?_ (gam_exp_sq hc) fun x => ?_
        · simp only [e]
          exact integrable_finsetSum _ fun k _ => (gam_pow _).const_mul _
        · exact sum_le_hasSum s (fun k _ => by positivity) (real_exp_hasSum _)

/-! ## Characteristic functions -/

theorem exp_abs_le (t x : ℝ) : Real.exp (|t| * |x|) ≤ Real.exp (t ^ 2) * Real.exp (1 / 4 * x ^ 2) := by
  rw [← Real.exp_add, Real.exp_le_exp]
  have := sq_nonneg (|t| - |x| / 2)
  rw [← sq_abs t, ← sq_abs x]
  nlinarith

theorem gam_exp_abs (t : ℝ) : Integrable (fun x => Real.exp (|t| * |x|)) gam := by
  refine Integrable.mono' ((gam_exp_sq (c := 1 / 4) (by norm_num)).const_mul (Real.exp (t ^ 2)))
    (by fun_prop) (Eventually.of_forall fun x => ?_)
  rw [Real.norm_of_nonneg (Real.exp_pos _).le]
  exact exp_abs_le t x

theorem summable_moments (t : ℝ) : Summable fun k : ℕ => |t| ^ k / (k.factorial : ℝ) * gm k := by
  refine summable_of_sum_range_le (c := ∫ x, Real.exp (|t| * |x|) ∂gam)
    (fun k => mul_nonneg (by positivity) (gm_nonneg k)) fun K => ?_
  have e : ∑ k ∈ Finset.range K, |t| ^ k / (k.factorial : ℝ) * gm k =
      ∫ x, ∑ k ∈ Finset.range K, |t| ^ k / (k.factorial : ℝ) * x ^ k ∂gam := by
    rw [integral_finsetSum _ fun k _ => (gam_pow _).const_mul _]
    refine Finset.sum_congr rfl fun k _ => ?_
    rw [integral_const_mul]
    rfl
  rw [e]
  refine integral_mono (integrable_finsetSum _ fun k _ => (gam_pow _).const_mul _) (gam_exp_abs t)
    fun x => ?_
  refine le_trans (Finset.sum_le_sum (g := fun k : ℕ => (|t| * |x|) ^ k / (k.factorial : ℝ))
    fun k _ => ?_) (sum_le_hasSum _ (fun k _ => by positivity) (real_exp_hasSum _))
  rw [mul_pow, div_mul_eq_mul_div]
  refine div_le_div_of_nonneg_right (mul_le_mul_of_nonneg_left ?_ (by positivity)) (by positivity)
  rw [← abs_pow]
  exact le_abs_self _

/-- Terms of the series of the characteristic function. -/
noncomputable def cterm (t : ℝ) (k : ℕ) (m : ℝ) : ℂ := (t * Complex.I) ^ k / (k.factorial : ℂ) * (m : ℂ)

theorem charFun_gam (t : ℝ) : HasSum (fun k => cterm t k (gm k)) (charFun gam t) := by
  rw [charFun_apply_real]
  have h := hasSum_integral_of_dominated_convergence (μ := gam)
    (F := fun (k : ℕ) (x : ℝ) => ((t : ℂ) * x * Complex.I) ^ k / (k.factorial : ℂ))
    (f := fun x : ℝ => Complex.exp (t * x * Complex.I))
    (fun k x => (|t| * |x|) ^ k / (k.factorial : ℝ)) (fun k => by fun_prop)
    (fun k => Eventually.of_forall fun x => by
      rw [norm_div, norm_pow, norm_mul, norm_mul, Complex.norm_real, Complex.norm_real,
        Complex.norm_I, mul_one, Complex.norm_natCast, Real.norm_eq_abs, Real.norm_eq_abs])
    (Eventually.of_forall fun x => (real_exp_hasSum _).summable)
    (by
      have : (fun x : ℝ => ∑' k : ℕ, (|t| * |x|) ^ k / (k.factorial : ℝ)) =
          fun x => Real.exp (|t| * |x|) := funext fun x => (real_exp_hasSum _).tsum_eq
      rw [this]
      exact gam_exp_abs t)
    (Eventually.of_forall fun x => complex_exp_hasSum _)
  refine (show (fun k => cterm t k (gm k)) = _ from funext fun k => ?_) ▸ h
  have e : ∀ x : ℝ, ((t : ℂ) * x * Complex.I) ^ k / (k.factorial : ℂ) =
      (t * Complex.I) ^ k / (k.factorial : ℂ) * ((x ^ k : ℝ) : ℂ) := by
    intro x
    push_cast
    ring
  simp only [e]
  rw [integral_const_mul, integral_complex_ofReal]
  rfl

/-- The rule as a distribution. -/
noncomputable def ruleMeasure (values : Fin (n + 1) → ℝ)
    (vectors : Matrix (Fin (n + 1)) (Fin (n + 1)) ℝ) : Measure ℝ :=
  ∑ i, ENNReal.ofReal (vectors 0 i * vectors 0 i) • Measure.dirac (values i)

theorem ruleMeasure_integral {E : Type} [NormedAddCommGroup E] [NormedSpace ℝ E] [CompleteSpace E]
    (f : ℝ → E) : ∫ x, f x ∂(ruleMeasure values vectors) =
      ∑ i, (vectors 0 i * vectors 0 i) • f (values i) := by
  rw [ruleMeasure, integral_finsetSum_measure]
  · refine Finset.sum_congr rfl fun i _ => ?_
    rw [integral_smul_measure, integral_dirac, ENNReal.toReal_ofReal (mul_self_nonneg _)]
  · intro i _
    exact (integrable_dirac (by simp)).smul_measure ENNReal.ofReal_ne_top

theorem rule_total (h : IsEigen (hermiteJacobi (n + 1)) values vectors) :
    ∑ i, vectors 0 i * vectors 0 i = 1 := by
  have := eigen_entry h 0
  simpa using this.symm

theorem ruleMeasure_prob (h : IsEigen (hermiteJacobi (n + 1)) values vectors) :
    IsProbabilityMeasure (ruleMeasure values vectors) := by
  refine ⟨?_⟩
  rw [ruleMeasure, Measure.finsetSum_apply]
  simp only [Measure.smul_apply, measure_univ, smul_eq_mul, mul_one]
  rw [← ENNReal.ofReal_sum_of_nonneg fun i _ => mul_self_nonneg _, rule_total h, ENNReal.ofReal_one]

theorem charFun_rule (h : IsEigen (hermiteJacobi (n + 1)) values vectors) (t : ℝ) :
    HasSum (fun k => cterm t k ((jac n ^ k) 0 0)) (charFun (ruleMeasure values vectors) t) := by
  rw [charFun_apply_real, ruleMeasure_integral]
  have h1 : HasSum (fun k : ℕ => ∑ i, (vectors 0 i * vectors 0 i) •
      (((t : ℂ) * (values i : ℝ) * Complex.I) ^ k / (k.factorial : ℂ)))
      (∑ i, (vectors 0 i * vectors 0 i) • Complex.exp (t * (values i : ℝ) * Complex.I)) :=
    hasSum_sum fun i _ => (complex_exp_hasSum _).const_smul _
  refine (show (fun k => cterm t k ((jac n ^ k) 0 0)) = _ from funext fun k => ?_) ▸ h1
  rw [cterm, eigen_entry h]
  push_cast
  rw [Finset.mul_sum]
  refine Finset.sum_congr rfl fun i _ => ?_
  rw [Complex.real_smul]
  push_cast
  ring

/-! ## Convergence -/

variable {vals : (n : ℕ) → Fin (n + 1) → ℝ}
  {vecs : (n : ℕ) → Matrix (Fin (n + 1)) (Fin (n + 1)) ℝ}

theorem charFun_tendsto (h : ∀ n, IsEigen (hermiteJacobi (n + 1)) (vals n) (vecs n)) (t : ℝ) :
    Tendsto (fun n => charFun (ruleMeasure (vals n) (vecs n)) t) atTop (𝓝 (charFun gam t)) := by
  rw [← (charFun_gam t).tsum_eq]
  simp only [← (charFun_rule (h _) t).tsum_eq]
  refine tendsto_tsum_of_dominated_convergence (summable_moments t) (fun k => ?_)
    (Eventually.of_forall fun n k => ?_)
  · refine tendsto_const_nhds.congr' ?_
    filter_upwards [eventually_ge_atTop k] with n hn
    rw [moment_eq (by omega)]
  · rw [cterm, norm_mul, norm_div, norm_pow, norm_mul, Complex.norm_real, Complex.norm_I, mul_one,
      Complex.norm_natCast, Complex.norm_real, Real.norm_eq_abs, Real.norm_eq_abs,
      abs_of_nonneg (jac_pow_nonneg _ _ _ _)]
    exact mul_le_mul_of_nonneg_left (moment_le _ _) (by positivity)

/-- Bounded continuous functions. -/
theorem bounded_tendsto (h : ∀ n, IsEigen (hermiteJacobi (n + 1)) (vals n) (vecs n)) {f : ℝ → ℝ}
    (hf : Continuous f) {B : ℝ} (hB : ∀ x, |f x| ≤ B) :
    Tendsto (fun n => ∑ i, vecs n 0 i * vecs n 0 i * f (vals n i)) atTop (𝓝 (∫ x, f x ∂gam)) := by
  have hw : Tendsto (β := ProbabilityMeasure ℝ)
      (fun n => ⟨ruleMeasure (vals n) (vecs n), ruleMeasure_prob (h n)⟩) atTop
      (𝓝 ⟨gam, inferInstance⟩) :=
    ProbabilityMeasure.tendsto_of_tendsto_charFun fun t => charFun_tendsto h t
  have := ProbabilityMeasure.tendsto_iff_forall_integral_tendsto.mp hw
    (BoundedContinuousFunction.ofNormedAddCommGroup f hf B hB)
  simpa [ruleMeasure_integral] using this

/-- A continuous function that is 1 up to `R` and 0 from `R + 1` on. -/
noncomputable def cut (R x : ℝ) : ℝ := max 0 (min 1 (R + 1 - |x|))

theorem cut_nonneg (R x : ℝ) : 0 ≤ cut R x := le_max_left _ _

theorem cut_le (R x : ℝ) : cut R x ≤ 1 := max_le zero_le_one (min_le_left _ _)

theorem cut_one {R x : ℝ} (h : |x| ≤ R) : cut R x = 1 := by
  rw [cut, min_eq_left (by linarith), max_eq_right zero_le_one]

theorem cut_zero {R x : ℝ} (h : R + 1 ≤ |x|) : cut R x = 0 := by
  rw [cut, max_eq_left]
  exact (min_le_right _ _).trans (by linarith)

theorem cut_continuous (R : ℝ) : Continuous (cut R) := by
  unfold cut
  fun_prop

theorem cut_error {f : ℝ → ℝ} {C c c' : ℝ} (hf : ∀ x, |f x| ≤ C * Real.exp (c * x ^ 2))
    (hcc : c ≤ c') {R : ℝ} (hR : 0 ≤ R) (x : ℝ) :
    |f x - f x * cut R x| ≤ C * Real.exp (-((c' - c) * R ^ 2)) * Real.exp (c' * x ^ 2) := by
  have hC : 0 ≤ C := by
    have := (abs_nonneg _).trans (hf 0)
    simpa using this
  by_cases h : |x| ≤ R
  · rw [cut_one h, mul_one, sub_self, abs_zero]
    positivity
  · push Not at h
    have h1 : |f x - f x * cut R x| ≤ |f x| := by
      rw [show f x - f x * cut R x = f x * (1 - cut R x) by ring, abs_mul]
      refine mul_le_of_le_one_right (abs_nonneg _) ?_
      rw [abs_of_nonneg (by linarith [cut_le R x])]
      linarith [cut_nonneg R x]
    refine h1.trans ((hf x).trans ?_)
    rw [mul_assoc, ← Real.exp_add]
    refine mul_le_mul_of_nonneg_left (Real.exp_le_exp.mpr ?_) hC
    have h2 : R ^ 2 ≤ x ^ 2 := by
      rw [← sq_abs x]
      exact pow_le_pow_left₀ hR h.le 2
    nlinarith [mul_le_mul_of_nonneg_left h2 (sub_nonneg.mpr hcc)]

/-- The rules converge for continuous functions that grow more slowly than `exp (x²)`. -/
theorem rule_tendsto (h : ∀ n, IsEigen (hermiteJacobi (n + 1)) (vals n) (vecs n)) {f : ℝ → ℝ}
    (hf : Continuous f) {C c : ℝ} (hc0 : 0 ≤ c) (hc : c < 1)
    (hfc : ∀ x, |f x| ≤ C * Real.exp (c * x ^ 2)) :
    Tendsto (fun n => ∑ i, vecs n 0 i * vecs n 0 i * f (vals n i)) atTop (𝓝 (∫ x, f x ∂gam)) := by
  have hC : 0 ≤ C := by
    have := (abs_nonneg _).trans (hfc 0)
    simpa using this
  set c' : ℝ := (1 + c) / 2 with hc'
  have hcc : c < c' := by rw [hc']; linarith
  have hc1 : c' < 1 := by rw [hc']; linarith
  have hc'0 : 0 ≤ c' := by linarith
  set B : ℝ := ∫ x, Real.exp (c' * x ^ 2) ∂gam with hB
  have hB0 : 0 ≤ B := integral_nonneg fun x => (Real.exp_pos _).le
  -- the error of the cut
  have hlim : Tendsto (fun R : ℝ => C * Real.exp (-((c' - c) * R ^ 2)) * B) atTop (𝓝 0) := by
    have h1 : Tendsto (fun R : ℝ => (c' - c) * R ^ 2) atTop atTop :=
      (tendsto_pow_atTop two_ne_zero).const_mul_atTop (by linarith)
    have h2 := (Real.tendsto_exp_neg_atTop_nhds_zero.comp h1).const_mul C
    have h3 := h2.mul_const B
    simpa using h3
  have hint : Integrable f gam := Integrable.mono' ((gam_exp_sq hc).const_mul C)
    hf.aestronglyMeasurable (Eventually.of_forall fun x => by
      rw [Real.norm_eq_abs]
      exact hfc x)
  rw [Metric.tendsto_atTop]
  intro ε hε
  obtain ⟨R, hR, hRε⟩ : ∃ R : ℝ, 0 ≤ R ∧ C * Real.exp (-((c' - c) * R ^ 2)) * B < ε / 3 := by
    have h1 := (hlim.eventually (gt_mem_nhds (show (0 : ℝ) < ε / 3 by linarith))).and
      (eventually_ge_atTop 0)
    obtain ⟨R, h1, h2⟩ := h1.exists
    exact ⟨R, h2, h1⟩
  have hcont : Continuous fun x => f x * cut R x := hf.mul (cut_continuous R)
  have hbd : ∀ x, |f x * cut R x| ≤ C * Real.exp (c * (R + 1) ^ 2) := by
    intro x
    rw [abs_mul, abs_of_nonneg (cut_nonneg R x)]
    by_cases hx : R + 1 ≤ |x|
    · rw [cut_zero hx, mul_zero]
      positivity
    · push Not at hx
      refine (mul_le_of_le_one_right (abs_nonneg _) (cut_le R x)).trans ((hfc x).trans ?_)
      refine mul_le_mul_of_nonneg_left (Real.exp_le_exp.mpr ?_) hC
      refine mul_le_mul_of_nonneg_left ?_ hc0
      rw [← sq_abs x]
      exact pow_le_pow_left₀ (abs_nonneg _) hx.le 2
  have hcint : Integrable (fun x => f x * cut R x) gam := Integrable.mono' (integrable_const _)
    hcont.aestronglyMeasurable (Eventually.of_forall fun x => by
      rw [Real.norm_eq_abs]
      exact hbd x)
  obtain ⟨N, hN⟩ := Metric.tendsto_atTop.mp (bounded_tendsto h hcont hbd) (ε / 3) (by linarith)
  refine ⟨N, fun n hn => ?_⟩
  have h1 := hN n hn
  rw [Real.dist_eq] at h1 ⊢
  have h2 : |∑ i, vecs n 0 i * vecs n 0 i * f (vals n i) -
      ∑ i, vecs n 0 i * vecs n 0 i * (f (vals n i) * cut R (vals n i))| < ε / 3 := by
    refine lt_of_le_of_lt ?_ hRε
    rw [← Finset.sum_sub_distrib]
    refine (Finset.abs_sum_le_sum_abs _ _).trans ?_
    calc _ ≤ ∑ i, vecs n 0 i * vecs n 0 i * (C * Real.exp (-((c' - c) * R ^ 2)) *
          Real.exp (c' * vals n i ^ 2)) := by
          refine Finset.sum_le_sum fun i _ => ?_
          rw [← mul_sub, abs_mul, abs_of_nonneg (mul_self_nonneg _)]
          exact mul_le_mul_of_nonneg_left (cut_error hfc hcc.le hR _) (mul_self_nonneg _)
      _ = C * Real.exp (-((c' - c) * R ^ 2)) *
          ∑ i, vecs n 0 i * vecs n 0 i * Real.exp (c' * vals n i ^ 2) := by
          rw [Finset.mul_sum]
          exact Finset.sum_congr rfl fun i _ => by ring
      _ ≤ _ := mul_le_mul_of_nonneg_left (rule_exp_sq (h n) hc'0 hc1) (by positivity)
  have h3 : |∫ x, f x * cut R x ∂gam - ∫ x, f x ∂gam| < ε / 3 := by
    refine lt_of_le_of_lt ?_ hRε
    rw [abs_sub_comm, ← integral_sub hint hcint]
    refine (abs_integral_le_integral_abs).trans ?_
    rw [hB, ← integral_const_mul]
    exact integral_mono (hint.sub hcint).abs ((gam_exp_sq hc1).const_mul _)
      fun x => cut_error hfc hcc.le hR x
  calc _ = |(∑ i, vecs n 0 i * vecs n 0 i * f (vals n i) -
        ∑ i, vecs n 0 i * vecs n 0 i * (f (vals n i) * cut R (vals n i))) +
        ((∑ i, vecs n 0 i * vecs n 0 i * (f (vals n i) * cut R (vals n i)) -
          ∫ x, f x * cut R x ∂gam) + (∫ x, f x * cut R x ∂gam - ∫ x, f x ∂gam))| := by
        congr 1
        ring
    _ ≤ _ := (abs_add_le _ _).trans (add_le_add_right (abs_add_le _ _) _)
    _ < ε := by linarith

end Verif.Quad
