import Verif.Spec.Rotate
import Verif.Props.Parts
import Verif.Props.Lfun
import Mathlib.MeasureTheory.Measure.Lebesgue.Basic
import Mathlib.Analysis.InnerProductSpace.PiL2

/-!
# C108: rotating the random effects does not matter
-/
namespace Verif.Rotate

open Verif.Split Verif.IS Verif.Rotate.Spec Matrix MeasureTheory

variable {q n p p' : ℕ} {R : Matrix (Fin q) (Fin q) ℝ} {M : ModFr q n p} {M' : ModFr q n p'}
  {theta beta theta' beta' : List ℝ}

theorem sum_log_pdf (u : Fin q → ℝ) :
    ∑ r, Real.log (ProbabilityTheory.gaussianPDFReal 0 1 (u r)) =
      -(q * Real.log (√(2 * Real.pi))) - (u ⬝ᵥ u) / 2 := by
  have h1 : ∀ x : ℝ, Real.log (ProbabilityTheory.gaussianPDFReal 0 1 x) =
      -Real.log (√(2 * Real.pi)) - x * x / 2 := by
    intro x
    unfold ProbabilityTheory.gaussianPDFReal
    have h2 : (0 : ℝ) < √(2 * Real.pi) := by positivity
    rw [Real.log_mul (by simpa using h2.ne') (Real.exp_ne_zero _), Real.log_exp, Real.log_inv]
    simp
    ring
  simp only [h1, dotProduct, Finset.sum_sub_distrib, Finset.sum_const, Finset.card_univ,
    Fintype.card_fin, nsmul_eq_mul, Finset.sum_div]
  ring

theorem dot_rotate (hR : Rᵀ * R = 1) (u : Fin q → ℝ) : (R *ᵥ u) ⬝ᵥ (R *ᵥ u) = u ⬝ᵥ u := by
  rw [dotProduct_mulVec, vecMul_mulVec, hR, Matrix.vecMul_one]

/-- C108, the integrand: that of the second model at the rotated random effects. -/
theorem c108_integrand (h : Rotated R M M' theta beta theta' beta') (μ : ℝ → ℝ) (u : Fin q → ℝ) :
    Split.Spec.logIntegrand M' μ theta' beta' (R *ᵥ u) = Split.Spec.logIntegrand M μ theta beta u := by
  unfold Split.Spec.logIntegrand
  simp only [h.resp, h.weight, h.eta]
  rw [sum_log_pdf, sum_log_pdf, dot_rotate h.orthogonal]

theorem det_sq (hR : Rᵀ * R = 1) : R.det * R.det = 1 := by
  have := congrArg Matrix.det hR
  rwa [det_mul, det_transpose, det_one] at this

/-- C108, the likelihood: it is the same. -/
theorem c108_likelihood (h : Rotated R M M' theta beta theta' beta') (μ : ℝ → ℝ) :
    ∫ u, Real.exp (Split.Spec.logIntegrand M' μ theta' beta' u) =
      ∫ u, Real.exp (Split.Spec.logIntegrand M μ theta beta u) := by
  have hd := det_sq h.orthogonal
  have h0 : R.det ≠ 0 := fun e => by rw [e] at hd; norm_num at hd
  have habs : |R.det⁻¹| = 1 := by
    rw [abs_inv, inv_eq_one]
    have : |R.det| * |R.det| = 1 := by rw [← abs_mul, hd, abs_one]
    nlinarith [abs_nonneg R.det]
  have hmap := Real.map_matrix_volume_pi_eq_smul_volume_pi h0
  rw [habs, ENNReal.ofReal_one, one_smul] at hmap
  have hmp : MeasurePreserving (toLin' R) (volume : Measure (Fin q → ℝ)) volume :=
    ⟨(toLin' R).continuous_of_finiteDimensional.measurable, hmap⟩
  have hinj : Function.Injective (toLin' R) := by
    intro u v huv
    simp only [toLin'_apply] at huv
    have := congrArg (Rᵀ *ᵥ ·) huv
    simpa [mulVec_mulVec, h.orthogonal] using this
  have hemb : MeasurableEmbedding (toLin' R) :=
    (LinearMap.isClosedEmbedding_of_injective (LinearMap.ker_eq_bot.2 hinj)).measurableEmbedding
  rw [← hmp.integral_comp hemb]
  refine integral_congr_ae (.of_forall fun u => ?_)
  simp only [toLin'_apply]
  rw [c108_integrand h]

/-- The mode is rotated as well. -/
theorem c108_mode (h : Rotated R M M' theta beta theta' beta') (μ : ℝ → ℝ) {u : Fin q → ℝ}
    (hu : ∀ v, Split.Spec.logIntegrand M μ theta beta v ≤ Split.Spec.logIntegrand M μ theta beta u)
    (v : Fin q → ℝ) :
    Split.Spec.logIntegrand M' μ theta' beta' v ≤ Split.Spec.logIntegrand M' μ theta' beta' (R *ᵥ u) := by
  have hv : v = R *ᵥ (Rᵀ *ᵥ v) := by
    rw [mulVec_mulVec, mul_eq_one_comm.1 h.orthogonal, one_mulVec]
  rw [hv, c108_integrand h, c108_integrand h]
  exact hu _

/-! ## Laplace approximation of second order -/

theorem eta_eq (M : ModFr q n p) (theta beta : List ℝ) (u : Fin q → ℝ) (j : Fin n) :
    Split.Spec.eta M theta beta u j = expected M beta j +
      (u ᵥ* (Matrix.of (Split.Spec.lambdat M theta) * M.Zt)) j := by
  unfold Split.Spec.eta expected
  congr 1
  simp only [vecMul, dotProduct, Matrix.mul_apply, of_apply]
  exact Finset.sum_congr rfl fun r _ => mul_comm _ _

theorem design_rotate (h : Rotated R M M' theta beta theta' beta') :
    Matrix.of (Split.Spec.lambdat M' theta') * M'.Zt =
      R * (Matrix.of (Split.Spec.lambdat M theta) * M.Zt) := by
  set A := Matrix.of (Split.Spec.lambdat M theta) * M.Zt with hA
  set A' := Matrix.of (Split.Spec.lambdat M' theta') * M'.Zt with hA'
  have h1 : ∀ u j, (u ᵥ* (Rᵀ * A')) j = (u ᵥ* A) j := by
    intro u j
    have a := h.eta u j
    have b := h.eta 0 j
    rw [eta_eq, eta_eq, ← hA, ← hA'] at a b
    rw [mulVec_zero, zero_vecMul, zero_vecMul] at b
    rw [← vecMul_vecMul, vecMul_transpose]
    simp only [Pi.zero_apply, add_zero] at b
    linarith
  have h2 : Rᵀ * A' = A := by
    ext i j
    have := h1 (Pi.single i 1) j
    simpa using this
  rw [← h2, ← Matrix.mul_assoc, mul_eq_one_comm.1 h.orthogonal, Matrix.one_mul]

theorem inv_rotate (hR : Rᵀ * R = 1) {P : Matrix (Fin q) (Fin q) ℝ} (hP : P.det ≠ 0) :
    (R * P * Rᵀ)⁻¹ = R * P⁻¹ * Rᵀ := by
  refine inv_eq_right_inv ?_
  have : R * P * Rᵀ * (R * P⁻¹ * Rᵀ) = R * (P * (Rᵀ * R) * P⁻¹) * Rᵀ := by
    simp only [Matrix.mul_assoc]
  rw [this, hR, Matrix.mul_one, mul_nonsing_inv P (isUnit_iff_ne_zero.2 hP), Matrix.mul_one,
    mul_eq_one_comm.1 hR]

/-- C108, Laplace approximation of second order: the correction is the same, or both calls stop with
the same error. -/
theorem c108_hol (h : Rotated R M M' theta beta theta' beta')
    (hM : Split.Spec.WellFormed M theta.length) (hM' : Split.Spec.WellFormed M' theta'.length)
    (ht : theta ≠ []) (ht' : theta' ≠ []) (hb : beta.length = p) (hb' : beta'.length = p')
    {a a' : NormalApprox q} (ha : RotatedNormal R a a') (family link : String) :
    Hol.findEpsilon1 family link (theta' ++ beta') M' theta'.length a' =
      Hol.findEpsilon1 family link (theta ++ beta) M theta.length a := by
  have hw : ∀ {r m s : ℕ} (F : ModFr r m s),
      (fun j : Fin m => (IS.weightsOf F).getD j 0) = Split.Spec.weight F := fun F => by
    funext j
    rw [IS.weightsOf_eq, List.getD_eq_getElem _ _ (by simp), List.getElem_ofFn]
  have he : Split.Spec.eta M' theta' beta' a'.mean = Split.Spec.eta M theta beta a.mean := by
    funext j
    rw [ha.mean, h.eta]
  have hwt : Split.Spec.weight M' = Split.Spec.weight M := funext h.weight
  have hresp : M'.resp = M.resp := funext h.resp
  have hMm : Hol.findM (theta' ++ beta') M' theta'.length a' =
      Hol.findM (theta ++ beta) M theta.length a := by
    unfold Hol.findM
    rw [IS.findLambdatThetaZt_ok beta hM ht, IS.findLambdatThetaZt_ok beta' hM' ht']
    simp only [res_ok_bind]
    have hdet : a'.precision.det = a.precision.det := by
      rw [ha.precision, det_mul, det_mul, det_transpose, mul_right_comm, det_sq h.orthogonal, one_mul]
    rw [hdet]
    split_ifs with hd
    · rfl
    · refine congrArg Except.ok ?_
      have e1 := design_rotate h
      change (Matrix.of fun i c => Split.Spec.lambdat M' theta' i c) * M'.Zt =
        R * ((Matrix.of fun i c => Split.Spec.lambdat M theta i c) * M.Zt) at e1
      rw [e1, ha.precision, inv_rotate h.orthogonal hd]
      generalize (Matrix.of fun i c => Split.Spec.lambdat M theta i c) * M.Zt = A
      have : (R * A)ᵀ * (R * a.precision⁻¹ * Rᵀ * (R * A)) =
          Aᵀ * ((Rᵀ * R) * (a.precision⁻¹ * ((Rᵀ * R) * A))) := by
        rw [transpose_mul]
        simp only [Matrix.mul_assoc]
      rw [this, h.orthogonal, Matrix.one_mul, Matrix.one_mul]
  unfold Hol.findEpsilon1
  simp only [Hol.etaHat_eq hM ht hb, Hol.etaHat_eq hM' ht' hb', hw, he, hwt, hresp, hMm]

/-- The precision matrices that lme4 finds with the same working weights are rotated. -/
theorem c108_precision (h : Rotated R M M' theta beta theta' beta') {W : Fin n → ℝ} {d d' : ℝ}
    {r r' : Lfun.PP q} (hL : Lfun.Laplace M theta W r) (hL' : Lfun.Laplace M' theta' W r') :
    (Lfun.computeNormalApprox (d', r')).2.precision =
      R * (Lfun.computeNormalApprox (d, r)).2.precision * Rᵀ := by
  rw [Lfun.precision_eq hL, Lfun.precision_eq hL', design_rotate h]
  generalize Matrix.of (Split.Spec.lambdat M theta) * M.Zt = A
  rw [Matrix.mul_add, Matrix.add_mul, Matrix.mul_one, mul_eq_one_comm.1 h.orthogonal, transpose_mul]
  simp only [Matrix.mul_assoc]

/-! ## Only the covariance matrix of the linear predictor matters -/

/-- Matrices with the same products of columns differ by a rotation. -/
theorem exists_rotation {A A' : Matrix (Fin q) (Fin n) ℝ} (h : Aᵀ * A = A'ᵀ * A') :
    ∃ R : Matrix (Fin q) (Fin q) ℝ, Rᵀ * R = 1 ∧ A' = R * A := by
  let w := (WithLp.linearEquiv 2 ℝ (Fin q → ℝ)).symm
  let a : (Fin n → ℝ) →ₗ[ℝ] EuclideanSpace ℝ (Fin q) := w.toLinearMap ∘ₗ toLin' A
  let a' : (Fin n → ℝ) →ₗ[ℝ] EuclideanSpace ℝ (Fin q) := w.toLinearMap ∘ₗ toLin' A'
  have inner_w : ∀ u v : Fin q → ℝ, inner ℝ (w u) (w v) = v ⬝ᵥ u := by
    intro u v
    simp [w, PiLp.inner_apply, dotProduct]
  have hsq : ∀ (B : Matrix (Fin q) (Fin n) ℝ) x, (B *ᵥ x) ⬝ᵥ (B *ᵥ x) = x ⬝ᵥ ((Bᵀ * B) *ᵥ x) := by
    intro B x
    rw [dotProduct_mulVec, vecMul_mulVec, ← dotProduct_mulVec]
  have hnorm : ∀ x, ‖a' x‖ = ‖a x‖ := by
    intro x
    have e : inner ℝ (a' x) (a' x) = inner ℝ (a x) (a x) := by
      change inner ℝ (w (A' *ᵥ x)) (w (A' *ᵥ x)) = inner ℝ (w (A *ᵥ x)) (w (A *ᵥ x))
      rw [inner_w, inner_w, hsq, hsq, h]
    rw [real_inner_self_eq_norm_sq, real_inner_self_eq_norm_sq] at e
    exact (pow_left_inj₀ (norm_nonneg _) (norm_nonneg _) two_ne_zero).1 e
  have hker : LinearMap.ker a ≤ LinearMap.ker a' := by
    intro x hx
    rw [LinearMap.mem_ker] at hx ⊢
    rw [← norm_eq_zero, hnorm, hx, norm_zero]
  let L0 : LinearMap.range a →ₗ[ℝ] EuclideanSpace ℝ (Fin q) :=
    (Submodule.liftQ _ a' hker) ∘ₗ a.quotKerEquivRange.symm.toLinearMap
  have hL0 : ∀ x, L0 ⟨a x, LinearMap.mem_range_self a x⟩ = a' x := by
    intro x
    show Submodule.liftQ _ a' hker (a.quotKerEquivRange.symm ⟨a x, LinearMap.mem_range_self a x⟩) = _
    rw [LinearMap.quotKerEquivRange_symm_apply_image]
    rfl
  let L : LinearMap.range a →ₗᵢ[ℝ] EuclideanSpace ℝ (Fin q) := ⟨L0, by
    rintro ⟨_, x, rfl⟩
    rw [hL0, hnorm]
    rfl⟩
  let E := L.extend
  have hE : ∀ x, E (a x) = a' x := by
    intro x
    have := L.extend_apply ⟨a x, LinearMap.mem_range_self a x⟩
    exact this.trans (hL0 x)
  let R : Matrix (Fin q) (Fin q) ℝ := LinearMap.toMatrix' (w.symm.toLinearMap ∘ₗ E.toLinearMap ∘ₗ w.toLinearMap)
  have hRv : ∀ u, w (R *ᵥ u) = E (w u) := by
    intro u
    rw [← toLin'_apply, toLin'_toMatrix']
    simp
  refine ⟨R, ?_, ?_⟩
  · ext i j
    have e : (R *ᵥ Pi.single j 1) ⬝ᵥ (R *ᵥ Pi.single i 1) =
        (Pi.single j 1 : Fin q → ℝ) ⬝ᵥ Pi.single i 1 := by
      rw [← inner_w, ← inner_w, hRv, hRv, E.inner_map_map]
    rw [mulVec_single_one, mulVec_single_one] at e
    rw [Matrix.mul_apply, one_apply]
    simp only [dotProduct, Pi.single_apply] at e
    simpa [mul_comm, transpose_apply, eq_comm] using e
  · ext i j
    have e := hE (Pi.single j 1)
    have e2 : w (R *ᵥ (A *ᵥ Pi.single j 1)) = w (A' *ᵥ Pi.single j 1) := (hRv _).trans e
    have e3 := w.injective e2
    rw [mulVec_mulVec, mulVec_single_one, mulVec_single_one] at e3
    exact (congrFun e3 i).symm

/-- C108: models with the same responses, weights, expected linear predictors and covariance matrices
of the linear predictor are rotations of each other. -/
theorem c108_covariance (hr : ∀ j, M'.resp j = M.resp j)
    (hw : ∀ j, Split.Spec.weight M' j = Split.Spec.weight M j)
    (he : ∀ j, expected M' beta' j = expected M beta j)
    (hc : covariance M theta = covariance M' theta') :
    ∃ R, Rotated R M M' theta beta theta' beta' := by
  obtain ⟨R, hR, hA⟩ := exists_rotation hc
  refine ⟨R, hR, hr, hw, fun u j => ?_⟩
  rw [eta_eq, eta_eq, he, hA, ← vecMul_vecMul, ← mulVec_transpose R, mulVec_mulVec, hR, one_mulVec]

/-- C108: the likelihood depends on the variance parameters only through the covariance matrix of the
random effects `Λ Λ'`. -/
theorem c108_parameters (M : ModFr q n p) {theta theta' beta : List ℝ}
    (h : (Matrix.of (Split.Spec.lambdat M theta))ᵀ * Matrix.of (Split.Spec.lambdat M theta) =
      (Matrix.of (Split.Spec.lambdat M theta'))ᵀ * Matrix.of (Split.Spec.lambdat M theta')) (μ : ℝ → ℝ) :
    ∫ u, Real.exp (Split.Spec.logIntegrand M μ theta' beta u) =
      ∫ u, Real.exp (Split.Spec.logIntegrand M μ theta beta u) := by
  obtain ⟨R, hR⟩ := c108_covariance (M := M) (M' := M) (theta := theta) (theta' := theta')
    (beta := beta) (beta' := beta) (fun _ => rfl) (fun _ => rfl) (fun _ => rfl) (by
      unfold covariance
      simp only [transpose_mul, Matrix.mul_assoc]
      simp only [← Matrix.mul_assoc, h])
  exact c108_likelihood hR μ

/-! ## Example: a random intercept and slope for one group -/

/-- Two observations of one group at the times 0 and 1, with a random intercept and a random slope
that may be correlated. -/
noncomputable def slope : ModFr 2 2 1 where
  X := fun _ _ => 1
  Zt := !![1, 1; 0, 1]
  ztStored := fun _ _ => true
  lambdat := [(0, 0), (0, 1), (1, 1)]
  Lind := [1, 2, 3]
  resp := ![1, 0]
  weights := none
  offset := fun _ => 0

theorem slope_wf : Split.Spec.WellFormed slope 3 where
  nodup := by simp [slope]
  diag := by intro c; fin_cases c <;> simp [slope]
  length := rfl
  lind := by simp [slope]
  zt := by simp [slope]

theorem slope_lambdat (a b c : ℝ) :
    Matrix.of (Split.Spec.lambdat slope [a, b, c]) = !![a, b; 0, c] := by
  ext i j
  fin_cases i <;> fin_cases j <;> simp [Split.Spec.lambdat, slope, Fin.sum_univ_succ]

/-- Without variance of the intercept, the parameters 3 and 4 of the slope give the same likelihood as
5 and 0. -/
example : ∫ u, Real.exp (Split.Spec.logIntegrand slope Verif.Family.expit [0, 5, 0] [1] u) =
    ∫ u, Real.exp (Split.Spec.logIntegrand slope Verif.Family.expit [0, 3, 4] [1] u) := by
  refine c108_parameters slope ?_ _
  rw [slope_lambdat, slope_lambdat]
  ext i j
  fin_cases i <;> fin_cases j <;> norm_num [Matrix.mul_apply, Fin.sum_univ_succ]

/-- The rotation. -/
noncomputable def turn : Matrix (Fin 2) (Fin 2) ℝ := !![3 / 5, 4 / 5; -4 / 5, 3 / 5]

theorem turned : Rotated turn slope slope [0, 3, 4] [1] [0, 5, 0] [1] where
  orthogonal := by
    ext i j
    fin_cases i <;> fin_cases j <;> norm_num [turn, Matrix.mul_apply, Fin.sum_univ_succ]
  resp := fun _ => rfl
  weight := fun _ => rfl
  eta := by
    intro u j
    rw [eta_eq, eta_eq, slope_lambdat, slope_lambdat]
    congr 1
    fin_cases j <;>
      norm_num [turn, slope, vecMul, mulVec, dotProduct, Matrix.mul_apply, Fin.sum_univ_succ] <;> ring

/-- The normal approximation `IS.dependent`, rotated. -/
noncomputable def turnedNormal : NormalApprox 2 :=
  ⟨turn *ᵥ IS.dependent.mean, turn * IS.dependent.precision * turnᵀ⟩

example (family link : String) :
    Hol.findEpsilon1 family link [0, 5, 0, 1] slope 3 turnedNormal =
      Hol.findEpsilon1 family link [0, 3, 4, 1] slope 3 IS.dependent :=
  c108_hol turned slope_wf slope_wf (by simp) (by simp) rfl rfl ⟨rfl, rfl⟩ family link

end Verif.Rotate
