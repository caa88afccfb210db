import Verif.Props.SRLaplace
import Verif.Proofs.HermiteConv

/-!
# C84: for two-level models sequential reduction converges to the log-likelihood
-/
namespace Verif.SR

open Verif.Gauss Verif.Belief Verif.ClusterGraph Verif.Store Verif.Pars Verif.Split
open Verif.Split.Spec Verif.GLMM Verif.Family ProbabilityTheory Filter
open scoped Topology

variable {q n p : ℕ}

/-! ## Adaptive quadrature converges -/

/-- The pairs of node and weight of the rule with `k + 1` points. -/
theorem agq_create {eig : Eigensolver} {k : ℕ} {rule : QuadratureRule}
    (hc : QuadratureRule.create eig ((k + 1 : ℕ) : ℤ) = Except.ok rule) (m s : ℝ) (F : ℝ → ℝ) :
    Verif.Spec.agq (rule.nodes.zip rule.weights) m s F = Quad.sqrtPi *
      ∑ i, (eig (k + 1) (Quad.hermiteJacobi (k + 1))).2 0 i *
        (eig (k + 1) (Quad.hermiteJacobi (k + 1))).2 0 i *
        (Real.sqrt 2 * s * Real.exp ((eig (k + 1) (Quad.hermiteJacobi (k + 1))).1 i ^ 2) *
          F (m + Real.sqrt 2 * s * (eig (k + 1) (Quad.hermiteJacobi (k + 1))).1 i)) := by
  have hc' := Except.ok.inj hc
  subst hc'
  have hz : ∀ {N : ℕ} (a b : Fin N → ℝ),
      (List.ofFn a).zip (List.ofFn b) = List.ofFn fun i => (a i, b i) := by
    intro N a b
    refine List.ext_getElem (by simp) fun i h1 h2 => ?_
    simp
  rw [Verif.Spec.agq, hz, List.map_ofFn, List.sum_ofFn, Finset.mul_sum, Finset.mul_sum]
  refine Finset.sum_congr rfl fun i _ => ?_
  simp only [Function.comp_apply, Quad.ofEigen]
  ring

/-- Adaptive quadrature of a continuous function with Gaussian tails converges to the integral, up
to the error of the literal for `√π`, from every centre and for every scale. -/
theorem agq_tendsto {eig : Eigensolver} (hE : ∀ k : ℕ, Quad.IsEigen (Quad.hermiteJacobi (k + 1))
      (eig (k + 1) (Quad.hermiteJacobi (k + 1))).1 (eig (k + 1) (Quad.hermiteJacobi (k + 1))).2)
    {rule : ℕ → QuadratureRule}
    (hr : ∀ k : ℕ, QuadratureRule.create eig ((k + 1 : ℕ) : ℤ) = Except.ok (rule k))
    {F : ℝ → ℝ} (hF : Continuous F) {C a : ℝ} (ha : 0 < a)
    (hFC : ∀ t, |F t| ≤ C * Real.exp (-(a * t ^ 2))) (m : ℝ) {s : ℝ} (hs : 0 < s) :
    Tendsto (fun k => Verif.Spec.agq ((rule k).nodes.zip (rule k).weights) m s F) atTop
      (𝓝 (Quad.sqrtPi / Real.sqrt Real.pi * ∫ t, F t)) := by
  have hC : 0 ≤ C := by
    have := (abs_nonneg _).trans (hFC 0)
    simpa using this
  have h2 : 0 < Real.sqrt 2 * s := mul_pos (Real.sqrt_pos.mpr two_pos) hs
  set g : ℝ → ℝ := fun x => Real.sqrt 2 * s * Real.exp (x ^ 2) * F (m + Real.sqrt 2 * s * x) with hg
  have hgc : Continuous g := by
    rw [hg]
    fun_prop
  have hgb : ∀ x, |g x| ≤ Real.sqrt 2 * s * C * Real.exp (a * m ^ 2) *
      Real.exp (max 0 (1 - a * s ^ 2) * x ^ 2) := by
    intro x
    have h3 := hFC (m + Real.sqrt 2 * s * x)
    have h4 : s ^ 2 * x ^ 2 - m ^ 2 ≤ (m + Real.sqrt 2 * s * x) ^ 2 := by
      have := Real.sq_sqrt (zero_le_two (α := ℝ))
      nlinarith [sq_nonneg (Real.sqrt 2 * m + s * x)]
    rw [hg]
    simp only
    rw [abs_mul, abs_of_pos (mul_pos h2 (Real.exp_pos _))]
    refine (mul_le_mul_of_nonneg_left h3 (mul_pos h2 (Real.exp_pos _)).le).trans ?_
    rw [show ∀ u v w z : ℝ, u * v * (w * z) = u * w * (v * z) from fun u v w z => by ring,
      mul_assoc (Real.sqrt 2 * s * C), ← Real.exp_add, ← Real.exp_add]
    refine mul_le_mul_of_nonneg_left (Real.exp_le_exp.mpr ?_) (mul_nonneg h2.le hC)
    have h5 : (1 - a * s ^ 2) * x ^ 2 ≤ max 0 (1 - a * s ^ 2) * x ^ 2 :=
      mul_le_mul_of_nonneg_right (le_max_right _ _) (sq_nonneg x)
    nlinarith [mul_le_mul_of_nonneg_left h4 ha.le]
  have h := (Quad.rule_tendsto hE hgc (le_max_left 0 (1 - a * s ^ 2))
    (max_lt one_pos (by nlinarith [mul_pos ha (pow_pos hs 2)])) hgb).const_mul Quad.sqrtPi
  rw [Quad.gam_integral] at h
  have hI : ∫ x, g x * Real.exp (-x ^ 2) = ∫ t, F t := by
    have e1 : (fun x => g x * Real.exp (-x ^ 2)) =
        fun x => Real.sqrt 2 * s * F (m + Real.sqrt 2 * s * x) := by
      funext x
      rw [hg]
      simp only
      rw [mul_right_comm, mul_assoc (Real.sqrt 2 * s), ← Real.exp_add]
      simp
    rw [e1, MeasureTheory.integral_const_mul,
      MeasureTheory.Measure.integral_comp_mul_left (fun y => F (m + y)) (Real.sqrt 2 * s),
      MeasureTheory.integral_add_left_eq_self (fun y => F y) m, abs_of_pos (inv_pos.mpr h2),
      smul_eq_mul, ← mul_assoc, mul_inv_cancel₀ h2.ne', one_mul]
  rw [hI, ← mul_assoc, ← div_eq_mul_inv] at h
  refine h.congr fun k => ?_
  rw [agq_create (hr k)]

/-! ## The integrand of a group -/

variable {lib : Lib} {μ : ℝ → ℝ} {M : ModFr q n p}

theorem logLikClamped_continuous {link : String} (hl : IsLink link μ) (y w : ℝ) :
    Continuous (logLikClamped μ y w) := by
  obtain ⟨μ1, μ2, μ3, μ4, h⟩ := linkOk hl
  have hμ : Continuous μ := continuous_iff_continuousAt.2 fun x => (h.d1 x).continuousAt
  have hm : Continuous fun x => moved (μ x) := by
    unfold moved
    fun_prop
  have h0 : (0 : ℝ) < 1e-8 := by norm_num
  unfold logLikClamped logLik
  refine continuous_const.mul ((continuous_const.mul (hm.log fun x => ?_)).add
    (continuous_const.mul ((continuous_const.sub hm).log fun x => ?_)))
  · exact (lt_of_lt_of_le h0 (moved_mem (μ x)).1).ne'
  · exact (by linarith [(moved_mem (μ x)).2] : 0 < 1 - moved (μ x)).ne'

theorem groupIntegrand_continuous {link : String} (hl : IsLink link μ) (theta beta : List ℝ)
    (g : Fin n → Fin q) (r : Fin q) :
    Continuous (groupIntegrand (logLikClamped μ) M theta beta g r) := by
  unfold groupIntegrand
  refine (Real.continuous_exp.comp ?_).mul (by unfold gaussianPDFReal; fun_prop)
  unfold groupLogLik
  refine continuous_finset_sum _ fun j _ => (logLikClamped_continuous hl _ _).comp ?_
  unfold Verif.Split.Spec.eta
  refine continuous_const.add (continuous_finset_sum _ fun s _ => continuous_const.mul ?_)
  by_cases h : s = r
  · subst h
    simpa using continuous_id'
  · simpa [Pi.single_eq_of_ne h] using continuous_const

theorem groupIntegrand_pos (theta beta : List ℝ) (g : Fin n → Fin q) (r : Fin q) (t : ℝ) :
    0 < groupIntegrand (logLikClamped μ) M theta beta g r t :=
  mul_pos (Real.exp_pos _) (pdf_pos t)

theorem groupIntegrand_tail (theta beta : List ℝ) (g : Fin n → Fin q) (r : Fin q) :
    ∃ C, ∀ t, |groupIntegrand (logLikClamped μ) M theta beta g r t| ≤
      C * Real.exp (-(1 / 2 * t ^ 2)) := by
  choose K hK using fun j : Fin n => logLikClamped_bounded μ (M.resp j) (weight M j)
  refine ⟨Real.exp (∑ j with g j = r, K j) * (Real.sqrt (2 * Real.pi))⁻¹, fun t => ?_⟩
  rw [abs_of_pos (groupIntegrand_pos theta beta g r t), groupIntegrand, mul_assoc]
  refine mul_le_mul (Real.exp_le_exp.mpr (Finset.sum_le_sum fun j _ =>
    (abs_le.mp (hK j _)).2)) (le_of_eq ?_) (pdf_pos t).le (Real.exp_pos _).le
  rw [gaussianPDFReal]
  simp only [NNReal.coe_one, mul_one, sub_zero]
  congr 2
  ring

theorem groupIntegrand_integrable {link : String} (hl : IsLink link μ) (theta beta : List ℝ)
    (g : Fin n → Fin q) (r : Fin q) :
    MeasureTheory.Integrable (groupIntegrand (logLikClamped μ) M theta beta g r) := by
  obtain ⟨C, hC⟩ := groupIntegrand_tail (M := M) (μ := μ) theta beta g r
  refine MeasureTheory.Integrable.mono' ((integrable_exp_neg_mul_sq (b := 1 / 2)
    (by norm_num)).const_mul C)
    (groupIntegrand_continuous hl theta beta g r).aestronglyMeasurable
    (Eventually.of_forall fun t => ?_)
  rw [Real.norm_eq_abs]
  have := hC t
  rwa [neg_mul]

theorem groupIntegrand_integral_pos {link : String} (hl : IsLink link μ) (theta beta : List ℝ)
    (g : Fin n → Fin q) (r : Fin q) :
    0 < ∫ t, groupIntegrand (logLikClamped μ) M theta beta g r t := by
  rw [MeasureTheory.integral_pos_iff_support_of_nonneg
    (fun t => (groupIntegrand_pos theta beta g r t).le) (groupIntegrand_integrable hl theta beta g r)]
  rw [Function.support_eq_univ fun t => (groupIntegrand_pos theta beta g r t).ne']
  simp

/-- For responses that are proportions and a total weight of at least 1, the integral of a group is
at most `1 - 1e-8`. -/
theorem groupIntegrand_integral_le {link : String} (hl : IsLink link μ) (theta beta : List ℝ)
    {g : Fin n → Fin q} {r : Fin q} (hy : ∀ j, 0 ≤ M.resp j ∧ M.resp j ≤ 1)
    (hw : ∀ j, 0 ≤ weight M j) (hg : 1 ≤ ∑ j with g j = r, weight M j) :
    ∫ t, groupIntegrand (logLikClamped μ) M theta beta g r t ≤ 1 - 1e-8 := by
  have h0 : (0 : ℝ) < 1 - 1e-8 := by norm_num
  have hlog : Real.log (1 - 1e-8) ≤ 0 := Real.log_nonpos h0.le (by norm_num)
  calc _ ≤ ∫ t, (1 - 1e-8) * gaussianPDFReal 0 1 t := by
        refine MeasureTheory.integral_mono (groupIntegrand_integrable hl theta beta g r)
          ((integrable_gaussianPDFReal 0 1).const_mul _) fun t => ?_
        refine mul_le_mul_of_nonneg_right ?_ (pdf_pos t).le
        rw [← Real.exp_log h0, Real.exp_le_exp]
        calc groupLogLik (logLikClamped μ) M theta beta g r t
            ≤ ∑ j with g j = r, weight M j * Real.log (1 - 1e-8) :=
              Finset.sum_le_sum fun j _ => logLikClamped_le μ (hy j).1 (hy j).2 (hw j) _
          _ = (∑ j with g j = r, weight M j) * Real.log (1 - 1e-8) := by rw [Finset.sum_mul]
          _ ≤ _ := by nlinarith
    _ = 1 - 1e-8 := by
        rw [MeasureTheory.integral_const_mul, integral_gaussianPDFReal_eq_one 0 one_ne_zero, mul_one]

/-! ## C84 -/

section Main

variable {eig : Eigensolver} (hE : ∀ k : ℕ, Quad.IsEigen (Quad.hermiteJacobi (k + 1))
    (eig (k + 1) (Quad.hermiteJacobi (k + 1))).1 (eig (k + 1) (Quad.hermiteJacobi (k + 1))).2)
  {theta beta : List ℝ} {mean : Fin q → ℝ} {Q : Matrix (Fin q) (Fin q) ℝ}
  {rule : ℕ → QuadratureRule}

include hE

theorem groupAgq_tendsto {link : String} (hl : IsLink link μ) (hQ : Q.PosDef)
    (hr : ∀ k : ℕ, QuadratureRule.create eig ((k + 1 : ℕ) : ℤ) = Except.ok (rule k))
    (g : Fin n → Fin q) (r : Fin q) :
    Tendsto (fun k => groupAgq (rule k) mean Q
        (groupIntegrand (logLikClamped μ) M theta beta g) r) atTop
      (𝓝 (Quad.sqrtPi / Real.sqrt Real.pi *
        ∫ t, groupIntegrand (logLikClamped μ) M theta beta g r t)) := by
  obtain ⟨C, hC⟩ := groupIntegrand_tail (M := M) (μ := μ) theta beta g r
  exact agq_tendsto hE hr (groupIntegrand_continuous hl theta beta g r) (by norm_num) hC _
    (Real.sqrt_pos.mpr (inv_pos.mpr hQ.diag_pos))

theorem total_tendsto {link : String} (hl : IsLink link μ) (hQ : Q.PosDef)
    (hr : ∀ k : ℕ, QuadratureRule.create eig ((k + 1 : ℕ) : ℤ) = Except.ok (rule k))
    {g : Fin n → Fin q} (h2 : TwoLevel M g) {size : ℕ} (hM : WellFormed M size) :
    Tendsto (fun k => ∑ r, Real.log (groupAgq (rule k) mean Q
        (groupIntegrand (logLikClamped μ) M theta beta g) r) + q * literalError) atTop
      (𝓝 (Real.log (marginal (logLikClamped μ) M theta beta) +
        q * (literalError + Real.log (Quad.sqrtPi / Real.sqrt Real.pi)))) := by
  have h0 : 0 < Quad.sqrtPi / Real.sqrt Real.pi := by
    have := abs_lt.1 Quad.c25_constant
    linarith [this.1, (by norm_num : (1e-10 : ℝ) < 1)]
  have h := (tendsto_finset_sum Finset.univ fun r _ =>
    (groupAgq_tendsto hE (theta := theta) (beta := beta) (mean := mean) (M := M) hl hQ hr g r).log
      (mul_pos h0 (groupIntegrand_integral_pos hl theta beta g r)).ne').add_const
        ((q : ℝ) * literalError)
  have e : ∑ r, Real.log (Quad.sqrtPi / Real.sqrt Real.pi *
      ∫ t, groupIntegrand (logLikClamped μ) M theta beta g r t) + q * literalError =
      Real.log (marginal (logLikClamped μ) M theta beta) +
        q * (literalError + Real.log (Quad.sqrtPi / Real.sqrt Real.pi)) := by
    rw [c80_likelihood _ h2 hM, Real.log_prod fun r _ =>
      (groupIntegrand_integral_pos hl theta beta g r).ne']
    rw [Finset.sum_congr rfl fun r _ => Real.log_mul h0.ne'
      (groupIntegrand_integral_pos hl theta beta g r).ne', Finset.sum_add_distrib]
    simp
    ring
  rw [← e]
  exact h

omit hE in
/-- The rule with `k + 1` points. -/
theorem create_exists (eig : Eigensolver) : ∃ rule : ℕ → QuadratureRule,
    ∀ k : ℕ, QuadratureRule.create eig ((k + 1 : ℕ) : ℤ) = Except.ok (rule k) :=
  ⟨fun _ => _, fun _ => rfl⟩

variable {pars : ℕ → Parameters} {N : ℕ → ℕ} (hN : Tendsto N atTop atTop)

include hN

/-- C84: for a two-level model, with the quadrature rules the package makes, the value sequential
reduction returns converges to the logarithm of the likelihood as the number of quadrature points
grows, whatever the centre and the (positive) scales of the normal approximation, up to the errors
of the literals for `log √(2π)` and `√π`, at most 1e-9 for each group. (As in `c80` the other
possibility is the exception for improper beliefs.) -/
theorem c84 {link : String} (hl : IsLink link μ)
    (hfam : ∀ k, Family.ofNames "binomial" link = Except.ok (pars k).family)
    (hth : ∀ k, (pars k).theta = theta) (hbe : ∀ k, (pars k).beta = beta)
    (hrule : ∀ k : ℕ, QuadratureRule.create eig ((N k + 1 : ℕ) : ℤ) =
      Except.ok (pars k).quadratureRule)
    (hM : WellFormed M theta.length) {g : Fin n → Fin q} (h2 : TwoLevel M g)
    (hb : beta.length = p) (hq : 0 < q) (hrd : Reads lib.rd M)
    (har : lib.ar = exactZ ∨ lib.ar = i32 ∧ q ≤ 46341) (hQ : Q.PosDef)
    (hd : ∀ i j, i ≠ j → Q i j = 0) (hlog : ∀ i, Real.log (Q i i) ≠ 2 * logSqrtTwoPi)
    {ε : ℝ} (hε : 0 < ε) :
    ∃ K, ∀ k ≥ K, ∃ c, clusterGraph lib (pars k) M = Except.ok c ∧
      (computeLogNormalizingConstant lib (pars k) c mean Q =
          Res.raise "improper cluster belief after passing message" ∨
        ∃ v, computeLogNormalizingConstant lib (pars k) c mean Q = Except.ok v ∧
          |v - Real.log (marginal (logLikClamped μ) M theta beta)| ≤ q * 1e-9 + ε) := by
  obtain ⟨rule, hr⟩ := create_exists eig
  have hrN : ∀ k, (pars k).quadratureRule = rule (N k) := fun k =>
    Except.ok.inj ((hrule k).symm.trans (hr (N k)))
  have ht := (total_tendsto hE (theta := theta) (beta := beta) (mean := mean) hl hQ hr h2 hM).comp hN
  obtain ⟨K, hK⟩ := Metric.tendsto_atTop.mp ht ε hε
  refine ⟨K, fun k hk => ?_⟩
  obtain ⟨c, e, -, h⟩ := c80 hl (hfam k) (by rw [hth]; exact hM) h2 (by rw [hbe]; exact hb) hq hrd
    har (ruleOk_create (hE (N k)) (hrule k)) hQ hd hlog (mean := mean) (lib := lib)
  refine ⟨c, e, ?_⟩
  rcases h with ⟨h, -⟩ | h
  · exact Or.inl h
  · refine Or.inr ⟨_, h, ?_⟩
    rw [hth, hbe, hrN]
    have h1 := hK k hk
    rw [Real.dist_eq, Function.comp_apply] at h1
    have h3 : |(q : ℝ) * (literalError + Real.log (Quad.sqrtPi / Real.sqrt Real.pi))| ≤
        q * 1e-9 := by
      rw [abs_mul, abs_of_nonneg (Nat.cast_nonneg q)]
      refine mul_le_mul_of_nonneg_left ?_ (Nat.cast_nonneg q)
      refine (abs_add_le _ _).trans ?_
      have e1 := literalError_small
      have e2 := log_ratio
      have e3 : (2 : ℝ) / 10 ^ 12 + 2e-10 ≤ 1e-9 := by norm_num
      linarith
    have h4 := abs_le.mp h3
    have h5 := abs_le.mp h1.le
    rw [abs_le]
    constructor <;> linarith [h4.1, h4.2, h5.1, h5.2]

/-- C84: for responses that are proportions, weights that are not negative and groups with total
weight at least 1 there is no exception once there are enough quadrature points. -/
theorem c84_runs {link : String} (hl : IsLink link μ)
    (hfam : ∀ k, Family.ofNames "binomial" link = Except.ok (pars k).family)
    (hth : ∀ k, (pars k).theta = theta) (hbe : ∀ k, (pars k).beta = beta)
    (hrule : ∀ k : ℕ, QuadratureRule.create eig ((N k + 1 : ℕ) : ℤ) =
      Except.ok (pars k).quadratureRule)
    (hM : WellFormed M theta.length) {g : Fin n → Fin q} (h2 : TwoLevel M g)
    (hb : beta.length = p) (hq : 0 < q) (hrd : Reads lib.rd M)
    (har : lib.ar = exactZ ∨ lib.ar = i32 ∧ q ≤ 46341) (hQ : Q.PosDef)
    (hd : ∀ i j, i ≠ j → Q i j = 0) (hlog : ∀ i, Real.log (Q i i) ≠ 2 * logSqrtTwoPi)
    (hy : ∀ j, 0 ≤ M.resp j ∧ M.resp j ≤ 1) (hw : ∀ j, 0 ≤ weight M j)
    (hg : ∀ r, 1 ≤ ∑ j with g j = r, weight M j) {ε : ℝ} (hε : 0 < ε) :
    ∃ K, ∀ k ≥ K, ∃ c v, clusterGraph lib (pars k) M = Except.ok c ∧
      computeLogNormalizingConstant lib (pars k) c mean Q = Except.ok v ∧
      |v - Real.log (marginal (logLikClamped μ) M theta beta)| ≤ q * 1e-9 + ε := by
  obtain ⟨rule, hr⟩ := create_exists eig
  have hrN : ∀ k, (pars k).quadratureRule = rule (N k) := fun k =>
    Except.ok.inj ((hrule k).symm.trans (hr (N k)))
  obtain ⟨K, hK⟩ := c84 hE hN hl hfam hth hbe hrule hM h2 hb hq hrd har hQ hd hlog hε (mean := mean)
    (lib := lib)
  have hev : ∀ᶠ k in atTop, ∀ r, groupAgq (pars k).quadratureRule mean Q
      (groupIntegrand (logLikClamped μ) M theta beta g) r < 1 - 1e-11 := by
    simp only [hrN]
    rw [eventually_all]
    intro r
    refine (hN.eventually ((groupAgq_tendsto hE hl hQ hr g r).eventually (gt_mem_nhds ?_)))
    have h1 := (abs_lt.1 Quad.c25_constant).2
    have h3 := groupIntegrand_integral_le hl theta beta hy hw (hg r)
    have h4 := groupIntegrand_integral_pos (M := M) hl theta beta g r
    calc _ ≤ (1 + 1e-10) * (1 - 1e-8 : ℝ) :=
          mul_le_mul (by linarith) h3 h4.le (by norm_num)
      _ < _ := by norm_num
  obtain ⟨K', hK'⟩ := eventually_atTop.mp hev
  refine ⟨max K K', fun k hk => ?_⟩
  obtain ⟨c, e, h⟩ := hK k (le_of_max_le_left hk)
  obtain ⟨c', e', h'⟩ := c80_runs hl (hfam k) (by rw [hth]; exact hM) h2 (by rw [hbe]; exact hb) hq
    hrd har (ruleOk_create (hE (N k)) (hrule k)) hQ hd hlog hy hw (mean := mean) (lib := lib)
    (by rw [hth, hbe]; exact fun r => (hK' k (le_of_max_le_right hk) r).le)
  cases Except.ok.inj (e.symm.trans e')
  rcases h with h | ⟨v, h, hv⟩
  · rw [h'] at h
    cases h
  · exact ⟨c, v, e, h, hv⟩

omit hN

/-- C84 for the numbers of points the package uses, `2^(nSL + 1) - 1`. -/
theorem c84_levels {link : String} (hl : IsLink link μ)
    (hfam : ∀ l, Family.ofNames "binomial" link = Except.ok (pars l).family)
    (hth : ∀ l, (pars l).theta = theta) (hbe : ∀ l, (pars l).beta = beta)
    (hrule : ∀ l : ℕ, QuadratureRule.create eig (2 ^ (l + 1) - 1) =
      Except.ok (pars l).quadratureRule)
    (hM : WellFormed M theta.length) {g : Fin n → Fin q} (h2 : TwoLevel M g)
    (hb : beta.length = p) (hq : 0 < q) (hrd : Reads lib.rd M)
    (har : lib.ar = exactZ ∨ lib.ar = i32 ∧ q ≤ 46341) (hQ : Q.PosDef)
    (hd : ∀ i j, i ≠ j → Q i j = 0) (hlog : ∀ i, Real.log (Q i i) ≠ 2 * logSqrtTwoPi)
    (hy : ∀ j, 0 ≤ M.resp j ∧ M.resp j ≤ 1) (hw : ∀ j, 0 ≤ weight M j)
    (hg : ∀ r, 1 ≤ ∑ j with g j = r, weight M j) {ε : ℝ} (hε : 0 < ε) :
    ∃ L, ∀ l ≥ L, ∃ c v, clusterGraph lib (pars l) M = Except.ok c ∧
      computeLogNormalizingConstant lib (pars l) c mean Q = Except.ok v ∧
      |v - Real.log (marginal (logLikClamped μ) M theta beta)| ≤ q * 1e-9 + ε := by
  have hN : Tendsto (fun l : ℕ => 2 ^ (l + 1) - 2) atTop atTop := by
    refine tendsto_atTop_mono (fun l => ?_) tendsto_id
    have : l + 1 < 2 ^ (l + 1) := Nat.lt_two_pow_self
    show l ≤ 2 ^ (l + 1) - 2
    omega
  refine c84_runs hE hN hl hfam hth hbe (fun l => ?_) hM h2 hb hq hrd har hQ hd hlog hy hw hg hε
  rw [← hrule l]
  congr 1
  have : 2 ≤ 2 ^ (l + 1) := Nat.le_self_pow (by omega) 2
  rw [show 2 ^ (l + 1) - 2 + 1 = 2 ^ (l + 1) - 1 by omega, Nat.cast_sub (by omega)]
  push_cast
  rfl

end Main

/-! ## A case meeting the hypotheses -/

/-- The two groups of `twoGroups`, logit link, and an eigen-solver that is right for all sizes: with
the rules of the package the value comes within `1e-6` of the log-likelihood. -/
example (lib : Lib) (har : lib.ar = i32) (hrd : lib.rd = GLMM.read) {eig : Eigensolver}
    (hE : ∀ k : ℕ, Quad.IsEigen (Quad.hermiteJacobi (k + 1))
      (eig (k + 1) (Quad.hermiteJacobi (k + 1))).1 (eig (k + 1) (Quad.hermiteJacobi (k + 1))).2)
    {rule : ℕ → QuadratureRule}
    (hrule : ∀ l : ℕ, QuadratureRule.create eig (2 ^ (l + 1) - 1) = Except.ok (rule l)) :
    ∃ L, ∀ l ≥ L, ∃ c v,
      clusterGraph lib { logitPars 1 0.5 with quadratureRule := rule l } twoGroups = Except.ok c ∧
      computeLogNormalizingConstant lib { logitPars 1 0.5 with quadratureRule := rule l } c
        (0 : Fin 2 → ℝ) 1 = Except.ok v ∧
      |v - Real.log (marginal (logLikClamped expit) twoGroups [1] [0.5])| ≤ (2 : ℕ) * 1e-9 + 1e-6 :=
  c84_levels hE .logit (pars := fun l => { logitPars 1 0.5 with quadratureRule := rule l })
    (fun _ => rfl) (fun _ => rfl) (fun _ => rfl) hrule twoGroups_wf twoGroups_level rfl two_pos
    (by rw [hrd]; exact ⟨fun _ _ _ _ => rfl, Or.inl (by simp [twoGroups])⟩)
    (Or.inr ⟨har, by norm_num⟩) Matrix.PosDef.one (fun i j h => Matrix.one_apply_ne h)
    (fun i => by rw [Matrix.one_apply_eq, Real.log_one, logSqrtTwoPi]; norm_num)
    twoGroups_resp (fun j => by rw [twoGroups_weight]; exact zero_le_one)
    (fun r => by
      simp only [twoGroups_weight, Finset.sum_const, nsmul_eq_mul, mul_one]
      exact Nat.one_le_cast.mpr ((by decide : ∀ r : Fin 2, 1 ≤ (Finset.univ.filter
        fun j : Fin 3 => (![0, 0, 1] : Fin 3 → Fin 2) j = r).card) r)) (by norm_num)

/-- Such eigen-solvers exist. -/
example : ∃ eig : Eigensolver, ∀ k : ℕ, Quad.IsEigen (Quad.hermiteJacobi (k + 1))
    (eig (k + 1) (Quad.hermiteJacobi (k + 1))).1 (eig (k + 1) (Quad.hermiteJacobi (k + 1))).2 := by
  classical
  choose v V h using Quad.c25_exists
  exact ⟨fun k _ => match k with
    | 0 => (Fin.elim0, 1)
    | k + 1 => (v k, V k), h⟩

end Verif.SR
