import Verif.Props.Swap
import Verif.Props.Reorder

/-!
# C100 and C101 for importance sampling

The samples of the one model frame are those of the other with the signs of the random effects
changed, which has the same distribution.
-/
namespace Verif.Sign

open Verif.Split Verif.Reparam.Spec Verif.Sign.Spec Verif.IS Verif.IS.Spec Verif.Family
open Matrix

variable {q n p p' r : ℕ} {M : ModFr q n p} {M' : ModFr q n p'} {s : Fin q → ℝ}

/-- The Cholesky factor is unique. -/
theorem chol_unique {A R T : Matrix (Fin q) (Fin q) ℝ} (h : IsChol A R) (h' : IsChol A T) : R = T := by
  have key : ∀ k : ℕ, ∀ i : Fin q, (i : ℕ) = k → ∀ j, R i j = T i j := by
    intro k
    induction k using Nat.strong_induction_on with
    | _ k ih =>
      intro i hi j
      have row : ∀ l : Fin q, l < i → ∀ j, R l j = T l j := fun l hl j =>
        ih l (by rw [← hi]; exact hl) l rfl j
      have e : ∀ j, R i i * R i j = T i i * T i j := by
        intro j
        have h1 : (Rᵀ * R) i j = (Tᵀ * T) i j := by rw [h.eq, h'.eq]
        rw [Matrix.mul_apply, Matrix.mul_apply, ← sub_eq_zero, ← Finset.sum_sub_distrib,
          Finset.sum_eq_single i] at h1
        · exact sub_eq_zero.mp h1
        · intro l _ hl
          rcases lt_or_gt_of_ne hl with hl | hl
          · rw [Matrix.transpose_apply, Matrix.transpose_apply, row l hl, row l hl, sub_self]
          · rw [Matrix.transpose_apply, Matrix.transpose_apply, h.upper l i hl, h'.upper l i hl,
              zero_mul, zero_mul, sub_self]
        · exact fun hn => absurd (Finset.mem_univ i) hn
      have hd : R i i = T i i := by
        have := e i
        have h1 := h.pos i
        have h2 := h'.pos i
        nlinarith
      have := e j
      rw [hd] at this
      exact mul_left_cancel₀ (h'.pos i).ne' this
  ext i j
  exact key i i rfl j

/-- The Cholesky factor of a matrix with changed signs. -/
theorem chol_flip (hs : Signs s) {A R : Matrix (Fin q) (Fin q) ℝ} (h : IsChol A R) :
    IsChol (diagonal s * A * diagonal s) (diagonal s * R * diagonal s) where
  upper i j hij := by
    rw [mul_diagonal, diagonal_mul, h.upper i j hij, mul_zero, zero_mul]
  pos i := by
    rw [mul_diagonal, diagonal_mul]
    have := h.pos i
    rcases hs i with e | e <;> rw [e] <;> linarith
  eq := by
    have h1 : diagonal s * diagonal s = 1 := by
      rw [diagonal_mul_diagonal, ← diagonal_one]
      congr 1
      funext i
      rcases hs i with e | e <;> rw [e] <;> norm_num
    rw [transpose_mul, transpose_mul, diagonal_transpose, ← h.eq]
    calc diagonal s * (Rᵀ * diagonal s) * (diagonal s * R * diagonal s)
        = diagonal s * Rᵀ * (diagonal s * diagonal s) * R * diagonal s := by
          simp only [Matrix.mul_assoc]
      _ = _ := by rw [h1, Matrix.mul_one, Matrix.mul_assoc (diagonal s)]

/-- The samples with changed signs. -/
def flipZ (s : Fin q → ℝ) (z : Matrix (Fin q) (Fin r) ℝ) : Matrix (Fin q) (Fin r) ℝ :=
  Matrix.of fun i t => s i * z i t

theorem transform_flip {chol : Matrix (Fin q) (Fin q) ℝ → Matrix (Fin q) (Fin q) ℝ}
    (hchol : CholRoutine chol) (hs : Signs s) {a a' : NormalApprox q} (h : MirrorNormal s a a')
    (ha : a.precision.PosDef) (z : Matrix (Fin q) (Fin r) ℝ) (i : Fin q) (t : Fin r) :
    transformNormal chol (flipZ s z) a' i t = s i * transformNormal chol z a i t := by
  have h1 : diagonal s * diagonal s = 1 := by
    rw [diagonal_mul_diagonal, ← diagonal_one]
    congr 1
    funext i
    rcases hs i with e | e <;> rw [e] <;> norm_num
  have e : a'.precision = diagonal s * a.precision * diagonal s := by
    ext i j
    rw [h.precision, mul_diagonal, diagonal_mul]
  have hc : chol a'.precision = diagonal s * chol a.precision * diagonal s := by
    refine chol_unique (hchol _ (mirror_posDef hs h ha)) ?_
    rw [e]
    exact chol_flip hs (hchol _ ha)
  have hdi : (diagonal s)⁻¹ = diagonal s := Matrix.inv_eq_left_inv h1
  have hz : flipZ s z = diagonal s * z := by
    ext i t
    rw [diagonal_mul]
    rfl
  show a'.mean i + (((chol a'.precision)⁻¹)ᵀ * flipZ s z) i t =
    s i * (a.mean i + (((chol a.precision)⁻¹)ᵀ * z) i t)
  rw [hc, hz, Matrix.mul_inv_rev, Matrix.mul_inv_rev, hdi, transpose_mul, transpose_mul,
    diagonal_transpose, h.mean]
  have : diagonal s * ((chol a.precision)⁻¹)ᵀ * diagonal s * (diagonal s * z) =
      diagonal s * (((chol a.precision)⁻¹)ᵀ * z) := by
    calc diagonal s * ((chol a.precision)⁻¹)ᵀ * diagonal s * (diagonal s * z)
        = diagonal s * ((chol a.precision)⁻¹)ᵀ * (diagonal s * diagonal s) * z := by
          simp only [Matrix.mul_assoc]
      _ = _ := by rw [h1, Matrix.mul_one, Matrix.mul_assoc]
  rw [this, diagonal_mul, mul_add]

theorem logDnorm_flip (hs : Signs s) (i : Fin q) (x : ℝ) : logDnorm (s i * x) = logDnorm x := by
  unfold logDnorm
  rcases hs i with e | e <;> rw [e]
  · rw [one_mul]
  · rw [neg_one_mul, neg_sq]

theorem density_flip (hs : Signs s) (i : Fin q) (x : ℝ) :
    ProbabilityTheory.gaussianPDFReal 0 1 (s i * x) = ProbabilityTheory.gaussianPDFReal 0 1 x := by
  rcases hs i with e | e <;> rw [e]
  · rw [one_mul]
  · rw [neg_one_mul, ProbabilityTheory.gaussianPDFReal, ProbabilityTheory.gaussianPDFReal, sub_zero,
      sub_zero, neg_sq]

theorem det_flip (hs : Signs s) {a a' : NormalApprox q} (h : MirrorNormal s a a') :
    a'.precision.det = a.precision.det := by
  rw [mirror_fm h, fm_det (sn_sign hs)]

/-- The importance sampling approximation for integrands that are the same up to the signs. -/
theorem IS_flip {chol : Matrix (Fin q) (Fin q) ℝ → Matrix (Fin q) (Fin q) ℝ}
    (hchol : CholRoutine chol) (hs : Signs s) {fam : Fam} {theta beta theta' beta' : List ℝ}
    (hM : Split.Spec.WellFormed M theta.length) (hM' : Split.Spec.WellFormed M' theta'.length)
    (ht : theta ≠ []) (ht' : theta' ≠ []) (hb : beta.length = p) (hb' : beta'.length = p')
    {a a' : NormalApprox q} (h : MirrorNormal s a a') (ha : a.precision.PosDef)
    (hi : ∀ u, IS.Spec.logIntegrand fam M' theta' beta' (fun i => s i * u i) =
      IS.Spec.logIntegrand fam M theta beta u) (z : Matrix (Fin q) (Fin r) ℝ) :
    IS.lfun chol fam M' theta'.length a' (flipZ s z) (theta' ++ beta') =
      IS.lfun chol fam M theta.length a z (theta ++ beta) := by
  obtain ⟨f, hf, hv⟩ := IS.findLogIntegrand_ok fam hM ht hb
  obtain ⟨f', hf', hv'⟩ := IS.findLogIntegrand_ok fam hM' ht' hb'
  unfold IS.lfun
  rw [hf, hf', res_ok_bind, res_ok_bind]
  refine congrArg (fun w => Except.ok (logMeanExp w)) (funext fun t => ?_)
  unfold findLogWeights
  dsimp only
  rw [hv, hv', det_flip hs h]
  simp only [transform_flip hchol hs h ha]
  rw [hi]
  congr 2
  exact Finset.sum_congr rfl fun i _ => logDnorm_flip hs i _

/-- C100 for importance sampling. -/
theorem c100_IS {chol : Matrix (Fin q) (Fin q) ℝ → Matrix (Fin q) (Fin q) ℝ}
    (hchol : CholRoutine chol) (hs : Signs s) (hd : SameData M M') (fam : Fam)
    {theta beta theta' beta' : List ℝ} (hp : MirrorPredictor s M M' theta beta theta' beta')
    (hM : Split.Spec.WellFormed M theta.length) (hM' : Split.Spec.WellFormed M' theta'.length)
    (ht : theta ≠ []) (ht' : theta' ≠ []) (hb : beta.length = p) (hb' : beta'.length = p')
    {a a' : NormalApprox q} (h : MirrorNormal s a a') (ha : a.precision.PosDef)
    (z : Matrix (Fin q) (Fin r) ℝ) :
    IS.lfun chol fam M' theta'.length a' (flipZ s z) (theta' ++ beta') =
      IS.lfun chol fam M theta.length a z (theta ++ beta) := by
  refine IS_flip hchol hs hM hM' ht ht' hb hb' h ha (fun u => ?_) z
  unfold IS.Spec.logIntegrand
  simp only [← hp u, density_flip hs, hd.resp, hd.weight]

/-- C101 for importance sampling: the inverse link function is symmetric, and the deviance residuals do
not change when successes and failures are exchanged. -/
theorem c101_IS {chol : Matrix (Fin q) (Fin q) ℝ → Matrix (Fin q) (Fin q) ℝ}
    (hchol : CholRoutine chol) (hs : Signs s) (hd : SwapData M M') {fam : Fam}
    (hlink : ∀ x, fam.linkinv (-x) = 1 - fam.linkinv x)
    (hdev : ∀ y m w, fam.devResid (1 - y) (1 - m) w = fam.devResid y m w)
    {theta beta theta' beta' : List ℝ} (hp : SwapPredictor s M M' theta beta theta' beta')
    (hM : Split.Spec.WellFormed M theta.length) (hM' : Split.Spec.WellFormed M' theta'.length)
    (ht : theta ≠ []) (ht' : theta' ≠ []) (hb : beta.length = p) (hb' : beta'.length = p')
    {a a' : NormalApprox q} (h : MirrorNormal s a a') (ha : a.precision.PosDef)
    (z : Matrix (Fin q) (Fin r) ℝ) :
    IS.lfun chol fam M' theta'.length a' (flipZ s z) (theta' ++ beta') =
      IS.lfun chol fam M theta.length a z (theta ++ beta) := by
  refine IS_flip hchol hs hM hM' ht ht' hb hb' h ha (fun u => ?_) z
  unfold IS.Spec.logIntegrand
  simp only [hp u, density_flip hs, hd.resp, ← hd.weight, hlink, hdev]

/-- The deviance residuals of binomial models. -/
theorem binomialDev_swap (y m w : ℝ) : binomialDev (1 - y) (1 - m) w = binomialDev y m w := by
  unfold binomialDev
  rw [sub_sub_cancel, sub_sub_cancel, add_comm (ite _ _ _)]

theorem link_swap {link : String} {μ : ℝ → ℝ} (hl : GLMM.IsLink link μ) (x : ℝ) :
    μ (-x) = 1 - μ x := by
  cases hl with
  | logit =>
    have h0 := Real.exp_pos x
    have h1 : Real.exp x + 1 ≠ 0 := by positivity
    have h2 : 1 + Real.exp x ≠ 0 := by positivity
    unfold expit
    rw [neg_neg, Real.exp_neg]
    field_simp
    ring
  | probit =>
    rw [← normalCdf_eq]
    exact normalCdf_neg x

/-- C101 for importance sampling of binomial models. -/
theorem c101_IS_binomial {link : String} {μ : ℝ → ℝ} (hl : GLMM.IsLink link μ)
    {chol : Matrix (Fin q) (Fin q) ℝ → Matrix (Fin q) (Fin q) ℝ} (hchol : CholRoutine chol)
    {theta beta : List ℝ} (hM : Split.Spec.WellFormed M theta.length) (ht : theta ≠ [])
    (hb : beta.length = p) {a a' : NormalApprox q} (h : MirrorNormal (fun _ => -1) a a')
    (ha : a.precision.PosDef) (z : Matrix (Fin q) (Fin r) ℝ) :
    IS.lfun chol ⟨μ, binomialDev⟩ (swapped M) theta.length a' (-z) (theta ++ beta.map fun b => -b) =
      IS.lfun chol ⟨μ, binomialDev⟩ M theta.length a z (theta ++ beta) := by
  have e : -z = flipZ (fun _ => -1) z := by
    ext i t
    exact (neg_one_mul _).symm
  rw [e]
  exact c101_IS hchol (fun _ => Or.inr rfl) (swapped_data M) (link_swap hl) binomialDev_swap
    (swapped_predictor M theta beta) hM (swapped_wf hM) ht ht hb (by rw [List.length_map, hb]) h ha z

/-- The samples with changed signs have the same distribution. -/
theorem stdNormal_flip (hs : Signs s) :
    (stdNormal q).map (fun z i => s i * z i) = stdNormal q := by
  unfold stdNormal
  rw [MeasureTheory.Measure.pi_map_pi fun i => (measurable_const_mul (s i)).aemeasurable]
  congr 1
  funext i
  rw [ProbabilityTheory.gaussianReal_map_const_mul]
  rcases hs i with e | e <;> simp [e]

theorem samples_flip (hs : Signs s) :
    (samples q r).map (fun z t i => s i * z t i) = samples q r := by
  unfold samples
  have hm : Measurable fun (z : Fin q → ℝ) i => s i * z i :=
    measurable_pi_lambda _ fun i =>
      measurable_const.mul (measurable_pi_apply i)
  haveI : MeasureTheory.IsProbabilityMeasure (stdNormal q) := by
    unfold stdNormal
    infer_instance
  haveI : MeasureTheory.SigmaFinite ((stdNormal q).map fun z i => s i * z i) := by
    rw [stdNormal_flip hs]
    infer_instance
  rw [MeasureTheory.Measure.pi_map_pi (f := fun (_ : Fin r) (z : Fin q → ℝ) i => s i * z i)
    fun _ => hm.aemeasurable]
  congr 1
  funext _
  exact stdNormal_flip hs

/-! ## A case meeting the hypotheses -/

/-- The model `crossed` with successes and failures exchanged. -/
example {chol : Matrix (Fin 2) (Fin 2) ℝ → Matrix (Fin 2) (Fin 2) ℝ} (hchol : CholRoutine chol) (d : ℝ)
    (z : Matrix (Fin 2) (Fin r) ℝ) :
    IS.lfun chol ⟨expit, binomialDev⟩ (swapped crossed) 2
        (Lfun.computeNormalApprox (d, crossedSwapPP)).2 (-z) [1, 2, -0.5] =
      IS.lfun chol ⟨expit, binomialDev⟩ crossed 2 (Lfun.computeNormalApprox (d, Lfun.crossedPP)).2 z
        [1, 2, 0.5] :=
  c101_IS_binomial .logit hchol (theta := [1, 2]) (beta := [0.5]) crossed_wf (by simp) rfl
    (crossed_swap d) (Lfun.precision_posDef Lfun.crossedPP_laplace) z

end Verif.Sign
