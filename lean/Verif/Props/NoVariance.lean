import Verif.Spec.NoVariance
import Verif.Props.Mode
import Verif.Props.Rotate
import Verif.Props.SwapIS
import Mathlib.MeasureTheory.Integral.DominatedConvergence

/-!
# C112: without variance of the random effects, and continuity of the likelihood
-/
namespace Verif.NoVariance

open Verif.Split Verif.Family Verif.NoVariance.Spec Verif.Rotate.Spec Verif.IS Verif.IS.Spec Verif.GLMM
open ProbabilityTheory Matrix

variable {q n p r : ℕ} {M : ModFr q n p} {theta beta : List ℝ}

theorem lambdat_zero (h : ∀ t ∈ theta, t = 0) : Matrix.of (Split.Spec.lambdat M theta) = 0 := by
  ext i c
  show Split.Spec.lambdat M theta i c = 0
  unfold Split.Spec.lambdat
  refine Finset.sum_eq_zero fun k _ => ?_
  split_ifs
  · rw [List.getD_eq_getElem?_getD]
    rcases he : theta[(M.Lind.getD (↑k) 0 - 1).toNat]? with _ | t
    · rfl
    · exact h t (List.mem_of_getElem? he)
  · rfl

theorem eta_zero (h : ∀ t ∈ theta, t = 0) (u : Fin q → ℝ) (j : Fin n) :
    Split.Spec.eta M theta beta u j = expected M beta j := by
  rw [Rotate.eta_eq, lambdat_zero h, Matrix.zero_mul, vecMul_zero, Pi.zero_apply, add_zero]

theorem logIntegrand_zero (h : ∀ t ∈ theta, t = 0) (μ : ℝ → ℝ) (u : Fin q → ℝ) :
    Split.Spec.logIntegrand M μ theta beta u =
      fixedLogLik M μ beta + ∑ r, Real.log (gaussianPDFReal 0 1 (u r)) := by
  unfold Split.Spec.logIntegrand fixedLogLik
  congr 1
  exact Finset.sum_congr rfl fun j _ => by rw [eta_zero h]

theorem prod_gaussian (u : Fin q → ℝ) : Real.exp (∑ r, Real.log (gaussianPDFReal 0 1 (u r))) =
    ∏ r, gaussianPDFReal 0 1 (u r) := by
  rw [Real.exp_sum]
  exact Finset.prod_congr rfl fun r _ => Real.exp_log (gaussianPDFReal_pos 0 1 _ one_ne_zero)

/-- C112: the likelihood with variance parameters zero is that of the model without random effects. -/
theorem c112_likelihood (h : ∀ t ∈ theta, t = 0) (μ : ℝ → ℝ) :
    ∫ u, Real.exp (Split.Spec.logIntegrand M μ theta beta u) = Real.exp (fixedLogLik M μ beta) := by
  simp only [logIntegrand_zero h, Real.exp_add, prod_gaussian]
  rw [MeasureTheory.integral_const_mul,
    MeasureTheory.integral_fintype_prod_volume_eq_prod (fun _ => gaussianPDFReal 0 1)]
  simp [integral_gaussianPDFReal_eq_one]

/-- The mode is zero. -/
theorem c112_mode (h : ∀ t ∈ theta, t = 0) (μ : ℝ → ℝ) (u : Fin q → ℝ) :
    (∀ v, Split.Spec.logIntegrand M μ theta beta v ≤ Split.Spec.logIntegrand M μ theta beta u) ↔ u = 0 := by
  have hg : ∀ v : Fin q → ℝ, Split.Spec.logIntegrand M μ theta beta v =
      fixedLogLik M μ beta + ∑ r : Fin q, Real.log (gaussianPDFReal 0 1 0) - ∑ r, v r ^ 2 / 2 := by
    intro v
    rw [logIntegrand_zero h, add_sub_assoc, ← Finset.sum_sub_distrib]
    congr 1
    refine Finset.sum_congr rfl fun r _ => ?_
    rw [log_gaussian, log_gaussian]
  simp only [hg]
  constructor
  · intro hv
    have h0 := hv 0
    simp only [Pi.zero_apply] at h0
    have h1 : ∑ r, u r ^ 2 / 2 ≤ 0 := by
      have : ∑ r : Fin q, (0 : ℝ) ^ 2 / 2 = 0 := by simp
      linarith
    funext r
    have h2 := (Finset.sum_eq_zero_iff_of_nonneg fun r _ => by positivity).1
      (le_antisymm h1 (Finset.sum_nonneg fun r _ => by positivity)) r (Finset.mem_univ r)
    have h3 : u r ^ 2 = 0 := by linarith
    exact pow_eq_zero_iff two_ne_zero |>.1 h3
  · rintro rfl v
    have h1 : 0 ≤ ∑ r, v r ^ 2 / 2 := Finset.sum_nonneg fun r _ => by positivity
    simp only [Pi.zero_apply]
    have : ∑ r : Fin q, (0 : ℝ) ^ 2 / 2 = 0 := by simp
    linarith

/-- The precision matrix of the normal approximation is the identity. -/
theorem c112_precision (h : ∀ t ∈ theta, t = 0) {W : Fin n → ℝ} {d : ℝ} {pp : Lfun.PP q}
    (hL : Lfun.Laplace M theta W pp) : (Lfun.computeNormalApprox (d, pp)).2.precision = 1 := by
  rw [Lfun.precision_eq hL, lambdat_zero h]
  simp

/-- The second-order correction is zero. -/
theorem c112_hol (h : ∀ t ∈ theta, t = 0) (hM : Split.Spec.WellFormed M theta.length)
    (ht : theta ≠ []) (hb : beta.length = p) {link : String} {μ : ℝ → ℝ} (hl : IsLink link μ)
    {a : NormalApprox q} (ha : a.precision = 1) :
    Hol.findEpsilon1 "binomial" link (theta ++ beta) M theta.length a = Except.ok 0 := by
  have hMm : Hol.findM (theta ++ beta) M theta.length a = Except.ok 0 := by
    unfold Hol.findM
    rw [IS.findLambdatThetaZt_ok beta hM ht]
    simp only [res_ok_bind]
    rw [ha, det_one, if_neg one_ne_zero]
    refine congrArg Except.ok ?_
    have e := lambdat_zero (M := M) h
    change (Matrix.of fun i c => Split.Spec.lambdat M theta i c) = 0 at e
    rw [e, Matrix.zero_mul, Matrix.mul_zero, Matrix.mul_zero]
  have he : ∀ g3 g4 : Fin n → ℝ, Hol.epsilonOf g3 g4 0 = 0 := by
    intro g3 g4
    have e1 : (Matrix.of fun i j => (0 : Matrix (Fin n) (Fin n) ℝ) i j ^ 3) = 0 := by
      ext i j
      simp
    unfold Hol.epsilonOf
    dsimp only
    rw [e1]
    simp
  unfold Hol.findEpsilon1
  rw [Hol.etaHat_eq hM ht hb, hMm]
  cases hl <;> exact congrArg Except.ok (he _ _)

theorem transform_one {chol : Matrix (Fin q) (Fin q) ℝ → Matrix (Fin q) (Fin q) ℝ}
    (hchol : CholRoutine chol) (z : Matrix (Fin q) (Fin r) ℝ) :
    transformNormal chol z ⟨0, 1⟩ = z := by
  have h1 : chol 1 = 1 := Sign.chol_unique (hchol 1 Matrix.PosDef.one)
    ⟨fun i j hij => one_apply_ne hij.ne', fun i => by simp, by simp⟩
  ext i s
  show (0 : ℝ) + (((chol 1)⁻¹)ᵀ * z) i s = z i s
  rw [h1]
  simp

/-- Importance sampling gives the log-likelihood of the model without random effects, whatever the
samples (minus the log-likelihood of the saturated model, as deviances do). -/
theorem c112_IS {chol : Matrix (Fin q) (Fin q) ℝ → Matrix (Fin q) (Fin q) ℝ} (hchol : CholRoutine chol)
    (h : ∀ t ∈ theta, t = 0) (hM : Split.Spec.WellFormed M theta.length)
    (ht : theta ≠ []) (hb : beta.length = p) {link : String} {μ : ℝ → ℝ} (hl : IsLink link μ)
    (hr : 0 < r) (z : Matrix (Fin q) (Fin r) ℝ) :
    IS.lfun chol ⟨μ, binomialDev⟩ M theta.length ⟨0, 1⟩ z (theta ++ beta) =
      Except.ok (fixedLogLik M μ beta - ∑ j, saturated (M.resp j) (Split.Spec.weight M j)) := by
  obtain ⟨f, hf, hv⟩ := IS.findLogIntegrand_ok ⟨μ, binomialDev⟩ hM ht hb
  unfold IS.lfun
  rw [hf, res_ok_bind]
  refine congrArg Except.ok ?_
  have hw : findLogWeights chol z (f r) ⟨0, 1⟩ = fun _ =>
      fixedLogLik M μ beta - ∑ j, saturated (M.resp j) (Split.Spec.weight M j) := by
    funext s
    unfold findLogWeights
    dsimp only
    rw [hv, transform_one hchol, binomial_logIntegrand hl, logIntegrand_zero h, det_one, abs_one,
      Real.log_one]
    have : ∑ i, logDnorm (z i s) = ∑ i, Real.log (gaussianPDFReal 0 1 (z i s)) :=
      Finset.sum_congr rfl fun i _ => logDnorm_eq _
    rw [this]
    ring
  rw [hw]
  unfold logMeanExp
  have hr' : (r : ℝ) ≠ 0 := by exact_mod_cast hr.ne'
  simp [hr']

/-! ## Continuity -/

theorem continuous_getD_ofFn {m : ℕ} (k : ℕ) : Continuous fun x : Fin m → ℝ => (List.ofFn x).getD k 0 := by
  by_cases hk : k < m
  · have : (fun x : Fin m → ℝ => (List.ofFn x).getD k 0) = fun x => x ⟨k, hk⟩ := by
      funext x
      rw [List.getD_eq_getElem _ _ (by simpa using hk), List.getElem_ofFn]
    rw [this]
    exact continuous_apply _
  · have : (fun x : Fin m → ℝ => (List.ofFn x).getD k 0) = fun _ => 0 := by
      funext x
      rw [List.getD_eq_default _ _ (by simpa using hk)]
    rw [this]
    exact continuous_const

/-- C112: the likelihood is a continuous function of the parameters. -/
theorem c112_continuous {link : String} {μ : ℝ → ℝ} (hl : IsLink link μ)
    (hw : ∀ j, 0 ≤ Split.Spec.weight M j) (hy : ∀ j, 0 ≤ M.resp j ∧ M.resp j ≤ 1) (m k : ℕ) :
    Continuous fun x : (Fin m → ℝ) × (Fin k → ℝ) =>
      ∫ u, Real.exp (Split.Spec.logIntegrand M μ (List.ofFn x.1) (List.ofFn x.2) u) := by
  refine MeasureTheory.continuous_of_dominated (bound := fun u => ∏ r, gaussianPDFReal 0 1 (u r)) ?_ ?_ ?_ ?_
  · intro x
    exact (Mode.c110_likelihood hl hw hy _ _).1.aestronglyMeasurable
  · intro x
    refine Filter.Eventually.of_forall fun u => ?_
    rw [Real.norm_eq_abs, abs_of_pos (Real.exp_pos _), ← prod_gaussian]
    have e1 : ∑ j, logLik μ (M.resp j) (Split.Spec.weight M j)
        (Split.Spec.eta M (List.ofFn x.1) (List.ofFn x.2) u j) ≤ 0 :=
      Finset.sum_nonpos fun j _ => Mode.logLik_nonpos hl (hw j) (hy j).1 (hy j).2 _
    exact Real.exp_le_exp.2 (by unfold Split.Spec.logIntegrand; linarith)
  · exact MeasureTheory.Integrable.fintype_prod fun _ => integrable_gaussianPDFReal 0 1
  · refine Filter.Eventually.of_forall fun u => Real.continuous_exp.comp ?_
    unfold Split.Spec.logIntegrand
    refine Continuous.add (continuous_finsetSum _ fun j _ => ?_) continuous_const
    have hη : Continuous fun x : (Fin m → ℝ) × (Fin k → ℝ) =>
        Split.Spec.eta M (List.ofFn x.1) (List.ofFn x.2) u j := by
      unfold Split.Spec.eta Split.Spec.lambdat
      refine Continuous.add (continuous_finsetSum _ fun i _ =>
        continuous_const.mul ((continuous_getD_ofFn _).comp continuous_snd)) ?_
      refine continuous_finsetSum _ fun i _ => Continuous.mul ?_ continuous_const
      refine continuous_finsetSum _ fun c _ => Continuous.mul ?_ continuous_const
      refine continuous_finsetSum _ fun l _ => ?_
      split_ifs
      · exact (continuous_getD_ofFn _).comp continuous_fst
      · exact continuous_const
    have hc : Continuous (logLik μ (M.resp j) (Split.Spec.weight M j)) :=
      continuousOn_univ.1 (ConcaveOn.continuousOn isOpen_univ
        (Mode.logLik_concave hl (hw j) (hy j).1 (hy j).2))
    exact hc.comp hη

/-! ## A case meeting the hypotheses -/

theorem zeros : ∀ t ∈ [(0 : ℝ), 0], t = 0 := by simp

/-- The model `crossed`, with both variances zero. -/
example : ∫ u, Real.exp (Split.Spec.logIntegrand crossed invProbit [0, 0] [0.5] u) =
    Real.exp (fixedLogLik crossed invProbit [0.5]) :=
  c112_likelihood zeros _

/-- What lme4 leaves behind for it. -/
noncomputable def zeroPP : Lfun.PP 2 := ⟨1, 1, 0⟩

theorem zeroPP_laplace : Lfun.Laplace crossed [0, 0] (fun _ => 1 / 2) zeroPP where
  weights _ := by norm_num
  permutation := by simp [zeroPP]
  factor := by
    rw [lambdat_zero zeros]
    simp [zeroPP]

example (d : ℝ) : Hol.findEpsilon1 "binomial" "logit" [0, 0, 0.5] crossed 2
    (Lfun.computeNormalApprox (d, zeroPP)).2 = Except.ok 0 :=
  c112_hol (theta := [0, 0]) (beta := [0.5]) zeros crossed_wf (by simp) rfl .logit
    (c112_precision zeros zeroPP_laplace)

example {chol : Matrix (Fin 2) (Fin 2) ℝ → Matrix (Fin 2) (Fin 2) ℝ} (hchol : CholRoutine chol)
    (z : Matrix (Fin 2) (Fin 5) ℝ) :
    IS.lfun chol ⟨expit, binomialDev⟩ crossed 2 ⟨0, 1⟩ z [0, 0, 0.5] =
      Except.ok (fixedLogLik crossed expit [0.5] -
        ∑ j, saturated (crossed.resp j) (Split.Spec.weight crossed j)) :=
  c112_IS hchol (theta := [0, 0]) (beta := [0.5]) zeros crossed_wf (by simp) rfl .logit (by norm_num) z

example : Continuous fun x : (Fin 2 → ℝ) × (Fin 1 → ℝ) =>
    ∫ u, Real.exp (Split.Spec.logIntegrand crossed expit (List.ofFn x.1) (List.ofFn x.2) u) :=
  c112_continuous .logit (fun j => by simp [Split.Spec.weight, crossed])
    (fun j => by fin_cases j <;> simp [crossed]) 2 1

end Verif.NoVariance
