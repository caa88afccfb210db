import Verif.Proofs.Integrated
import Verif.Props.Gauss
import Mathlib.Analysis.Calculus.Deriv.Inv
import Mathlib.Algebra.Order.Star.Real

/-! # Integrated factors (C27, C28) -/
namespace Verif.Integrated

open Verif.Eigen Verif.Gauss Verif.Quad Matrix

variable {m k : ℕ} {F : (Fin (m + 1) → ℝ) → ℝ} {G : (Fin (m + 1) → ℝ) → Fin (m + 1) → ℝ}
  {H : (Fin (m + 1) → ℝ) → Matrix (Fin (m + 1)) (Fin (m + 1)) ℝ}

/-- Row `i` of the variance without its diagonal entry. -/
def v21 (v : Matrix (Fin (m + 1)) (Fin (m + 1)) ℝ) (i : Fin (m + 1)) (r : Fin m) : ℝ :=
  v i (i.succAbove r)

/-- The variance without row and column `i`. -/
def v22 (v : Matrix (Fin (m + 1)) (Fin (m + 1)) ℝ) (i : Fin (m + 1)) : Matrix (Fin m) (Fin m) ℝ :=
  v.submatrix i.succAbove i.succAbove

theorem conditionalTerms_ok (junk : Junk m) (i : Fin (m + 1))
    (v : Matrix (Fin (m + 1)) (Fin (m + 1)) ℝ) :
    conditionalTerms junk i v = Except.ok ((v22 v i)⁻¹ *ᵥ v21 v i,
      Real.sqrt (v i i - v21 v i ⬝ᵥ ((v22 v i)⁻¹ *ᵥ v21 v i))) := by
  rw [conditionalTerms]
  split
  · rw [getMatrixWithout_ok, rowAt_ok]
    simp only [res_ok_bind]
    rw [getVectorWithout_ok, readAt_ok]
    rfl
  · rename_i h
    obtain rfl : m = 0 := by
      by_contra h0
      have : 1 ≤ m := by omega
      nlinarith
    obtain rfl : i = 0 := Fin.fin_one_eq_zero i
    rw [res_pure]
    congr 2
    · exact Subsingleton.elim _ _
    · simp

theorem create_ok (junk : Junk m) (i : Fin (m + 1)) (F : (Fin (m + 1) → ℝ) → ℝ)
    (G : (Fin (m + 1) → ℝ) → Fin (m + 1) → ℝ)
    (H : (Fin (m + 1) → ℝ) → Matrix (Fin (m + 1)) (Fin (m + 1)) ℝ) (normal : MN (m + 1)) :
    ∃ a, create junk i (fun y => Except.ok (F y)) (fun y => Except.ok (G y))
        (fun y => Except.ok (H y)) normal = Except.ok a ∧ Holds a i F G H ∧
      a.mean1 = normal.mean i ∧ (a.mean2 = fun r => normal.mean (i.succAbove r)) ∧
      a.cross = (v22 (properNormal normal).variance i)⁻¹ *ᵥ v21 (properNormal normal).variance i ∧
      a.sigmaConditional = Real.sqrt ((properNormal normal).variance i i -
        v21 (properNormal normal).variance i ⬝ᵥ a.cross) := by
  have hm : (properNormal normal).mean = normal.mean := by
    rw [properNormal]
    split <;> rfl
  rw [create]
  simp only [res_ok_bind]
  rw [conditionalTerms_ok]
  simp only [res_ok_bind]
  rw [readAt_ok, getVectorWithout_ok]
  simp only [res_ok_bind, res_pure]
  refine ⟨_, rfl, ⟨rfl, fun _ => rfl, fun _ => rfl, fun _ => rfl⟩, ?_, ?_, rfl, rfl⟩
  · rw [hm]
  · simp only [hm]

/-! ## C27 -/

theorem evaluate_ok {a : IF m} {i : Fin (m + 1)} (h : Holds a i F G H) (junk : Junk m)
    (rule : Rule k) (x : Fin m → ℝ) :
    a.evaluate junk x rule = Except.ok (Real.log (I0 a i F rule x) + a.logValueAtMean) ∧
    a.evaluateDerivative junk x rule =
      Except.ok (fun r => I1 a i F G rule x r / I0 a i F rule x) ∧
    a.evaluateSecondDerivative junk x rule =
      Except.ok (Matrix.of fun r s => (I0 a i F rule x * I2 a i F G H rule x r s -
        I1 a i F G rule x r * I1 a i F G rule x s) / I0 a i F rule x ^ 2) := by
  refine ⟨?_, ?_, ?_⟩
  · rw [IF.evaluate, integrateNoLog_ok h]
    rfl
  · rw [IF.evaluateDerivative, integrateNoLog_ok h, integrateDerivativeNoLog_ok h]
    rfl
  · rw [IF.evaluateSecondDerivative, integrateNoLog_ok h, integrateDerivativeNoLog_ok h,
      integrateSecondDerivativeNoLog_ok h]
    simp only [res_ok_bind, res_pure]
    rfl

/-- C27: for every twice differentiable factor, every normal approximation and every rule, the
object can be built, its value, gradient and Hessian are computed everywhere, and wherever the
quadrature sum is positive the gradient and the Hessian are the exact derivatives of the
value. -/
theorem c27_derivatives (hF : TwiceDiff F G H) (junk : Junk m) (i : Fin (m + 1))
    (normal : MN (m + 1)) (rule : Rule k) :
    ∃ (a : IF m) (val : (Fin m → ℝ) → ℝ) (grad : (Fin m → ℝ) → Fin m → ℝ)
      (hess : (Fin m → ℝ) → Matrix (Fin m) (Fin m) ℝ), create junk i (fun y => Except.ok (F y)) (fun y => Except.ok (G y))
        (fun y => Except.ok (H y)) normal = Except.ok a ∧
      (∀ x, a.evaluate junk x rule = Except.ok (val x)) ∧
      (∀ x, a.evaluateDerivative junk x rule = Except.ok (grad x)) ∧
      (∀ x, a.evaluateSecondDerivative junk x rule = Except.ok (hess x)) ∧
      ∀ x I, a.integrateNoLog junk x (a.findConditionalMean x) rule = Except.ok I → 0 < I →
        HasFDerivAt val (lin (grad x)) x ∧
        ∀ r, HasFDerivAt (fun y => grad y r) (lin (hess x r)) x := by
  obtain ⟨a, ha, h, -⟩ := create_ok junk i F G H normal
  refine ⟨a, _, _, _, ha, fun x => (evaluate_ok h junk rule x).1,
    fun x => (evaluate_ok h junk rule x).2.1, fun x => (evaluate_ok h junk rule x).2.2, ?_⟩
  intro x I hI hpos
  rw [integrateNoLog_ok h] at hI
  cases hI
  have h0 := hasFDerivAt_I0 hF a i rule x
  constructor
  · refine ((h0.log hpos.ne').add_const _).congr_fderiv ?_
    ext z
    simp only [ContinuousLinearMap.smul_apply, lin_apply, smul_eq_mul, Finset.mul_sum]
    exact Finset.sum_congr rfl fun r _ => by ring
  · intro r
    have h1 := hasFDerivAt_I1 hF a i rule x r
    have h2 : HasFDerivAt (fun y => (I0 a i F rule y)⁻¹)
        ((-(I0 a i F rule x ^ 2)⁻¹) • lin (I1 a i F G rule x)) x :=
      (hasDerivAt_inv hpos.ne').comp_hasFDerivAt x h0
    have h3 := h1.mul h2
    have e : (fun y => I1 a i F G rule y r / I0 a i F rule y) =
        fun y => I1 a i F G rule y r * (I0 a i F rule y)⁻¹ := by
      funext y
      rw [div_eq_mul_inv]
    simp only [e]
    refine HasFDerivAt.congr_fderiv h3 ?_
    ext z
    simp only [ContinuousLinearMap.smul_apply, ContinuousLinearMap.add_apply, lin_apply,
      smul_eq_mul, Finset.mul_sum, Matrix.of_apply, ← Finset.sum_add_distrib]
    refine Finset.sum_congr rfl fun s _ => ?_
    have := hpos.ne'
    field_simp
    ring

/-! ## C28 -/

/-- Specification: under the normal with mean `μ` and precision `p`, coordinate `i` given that the
others are `x` has mean `c` and standard deviation `s`: along that coordinate the log density is,
up to a constant, the one of that normal distribution. -/
def IsConditional (μ : Fin (m + 1) → ℝ) (p : Matrix (Fin (m + 1)) (Fin (m + 1)) ℝ)
    (i : Fin (m + 1)) (x : Fin m → ℝ) (c s : ℝ) : Prop :=
  0 < s ∧ ∃ C : ℝ, ∀ t : ℝ,
    -(1 / 2) * ((i.insertNth t x - μ) ⬝ᵥ (p *ᵥ (i.insertNth t x - μ))) =
      C - (t - c) ^ 2 / (2 * s ^ 2)

/-- The conditional mean is determined. -/
theorem IsConditional.unique {μ : Fin (m + 1) → ℝ} {p : Matrix (Fin (m + 1)) (Fin (m + 1)) ℝ}
    {i : Fin (m + 1)} {x : Fin m → ℝ} {c s c' s' : ℝ} (h : IsConditional μ p i x c s)
    (h' : IsConditional μ p i x c' s') : c = c' ∧ s = s' := by
  obtain ⟨hs, C, hC⟩ := h
  obtain ⟨hs', C', hC'⟩ := h'
  have e : ∀ t, C - (t - c) ^ 2 / (2 * s ^ 2) = C' - (t - c') ^ 2 / (2 * s' ^ 2) := fun t =>
    (hC t).symm.trans (hC' t)
  set u := 1 / (2 * s ^ 2) with hu
  set u' := 1 / (2 * s' ^ 2) with hu'
  have hu0 : 0 < u := by positivity
  have e' : ∀ t, C - (t - c) ^ 2 * u = C' - (t - c') ^ 2 * u' := by
    intro t
    have := e t
    rw [div_eq_mul_one_div, div_eq_mul_one_div ((t - c') ^ 2)] at this
    exact this
  have e0 := e' 0
  have e1 := e' 1
  have e2 := e' (-1)
  have huu : u = u' := by nlinarith
  rw [← huu] at e0 e1 e2
  have hc : c = c' := by
    have : u * (c - c') = 0 := by nlinarith
    rcases mul_eq_zero.mp this with h | h
    · exact absurd h hu0.ne'
    · linarith
  refine ⟨hc, ?_⟩
  have : s ^ 2 = s' ^ 2 := by
    rw [hu, hu'] at huu
    have := inv_injective (by rw [← one_div, ← one_div]; exact huu : (2 * s ^ 2)⁻¹ = (2 * s' ^ 2)⁻¹)
    linarith
  exact (sq_eq_sq₀ hs.le hs'.le).mp this

/-- Conditional mean and standard deviation from the variance. -/
theorem conditional_of_variance {p : Matrix (Fin (m + 1)) (Fin (m + 1)) ℝ} (hp : p.PosDef)
    (μ : Fin (m + 1) → ℝ) (i : Fin (m + 1)) (x : Fin m → ℝ) :
    IsConditional μ p i x
      (μ i + ((v22 p⁻¹ i)⁻¹ *ᵥ v21 p⁻¹ i) ⬝ᵥ (x - fun r => μ (i.succAbove r)))
      (Real.sqrt (p⁻¹ i i - v21 p⁻¹ i ⬝ᵥ ((v22 p⁻¹ i)⁻¹ *ᵥ v21 p⁻¹ i))) := by
  have hV : p⁻¹.PosDef := hp.inv
  have h22 : (v22 p⁻¹ i).PosDef := hV.submatrix Fin.succAbove_right_injective
  have hu : IsUnit p.det := (Matrix.isUnit_iff_isUnit_det _).mp hp.isUnit
  have hu22 : IsUnit (v22 p⁻¹ i).det := (Matrix.isUnit_iff_isUnit_det _).mp h22.isUnit
  set V := p⁻¹ with hVdef
  set cross := (v22 V i)⁻¹ *ᵥ v21 V i with hcross
  set d : Fin m → ℝ := x - fun r => μ (i.succAbove r) with hd
  have hVs := posDef_symm hV
  have h22s := posDef_symm h22
  have hVi : ∀ r, V (i.succAbove r) i = v21 V i r := fun r =>
    (congrFun (congrFun hVs (i.succAbove r)) i).symm
  have hpV : p * V = 1 := Matrix.mul_nonsing_inv _ hu
  -- the vector with `V u = s² eᵢ`
  set w : Fin (m + 1) → ℝ := i.insertNth 1 (-cross) with hw
  set s2 : ℝ := V i i - v21 V i ⬝ᵥ cross with hs2
  have mulV : ∀ (t : ℝ) (y : Fin m → ℝ), (V *ᵥ i.insertNth t y) =
      i.insertNth (V i i * t + v21 V i ⬝ᵥ y) (t • v21 V i + v22 V i *ᵥ y) := by
    intro t y
    funext b
    rcases Fin.eq_self_or_eq_succAbove i b with rfl | ⟨r, rfl⟩
    · rw [Fin.insertNth_apply_same, mulVec, dotProduct, Fin.sum_univ_succAbove _ b,
        Fin.insertNth_apply_same]
      simp only [Fin.insertNth_apply_succAbove]
      rfl
    · rw [Fin.insertNth_apply_succAbove, mulVec, dotProduct, Fin.sum_univ_succAbove _ i,
        Fin.insertNth_apply_same, hVi]
      simp only [Fin.insertNth_apply_succAbove, Pi.add_apply, Pi.smul_apply, smul_eq_mul]
      rw [mul_comm]
      rfl
  have hcr : v22 V i *ᵥ cross = v21 V i := by
    rw [hcross, mulVec_mulVec, Matrix.mul_nonsing_inv _ hu22, one_mulVec]
  have hVw : V *ᵥ w = i.insertNth s2 (0 : Fin m → ℝ) := by
    rw [hw, mulV, mulVec_neg, hcr, dotProduct_neg]
    congr 1
    · rw [hs2]; ring
    · rw [one_smul, add_neg_cancel]
  have hpw : s2 * p i i = 1 := by
    have h1 : p *ᵥ (V *ᵥ w) = w := by rw [mulVec_mulVec, hpV, one_mulVec]
    rw [hVw] at h1
    have h2 := congrFun h1 i
    rw [hw, Fin.insertNth_apply_same, mulVec, dotProduct, Fin.sum_univ_succAbove _ i,
      Fin.insertNth_apply_same] at h2
    simp only [Fin.insertNth_apply_succAbove, Pi.zero_apply, mul_zero, Finset.sum_const_zero,
      add_zero] at h2
    rw [mul_comm, h2]
  have hpii : 0 < p i i := hp.diag_pos
  have hs2pos : 0 < s2 := by
    by_contra h
    have : s2 * p i i ≤ 0 := mul_nonpos_of_nonpos_of_nonneg (not_lt.mp h) hpii.le
    linarith
  have hps := posDef_symm hp
  -- the centre
  set z : Fin (m + 1) → ℝ := i.insertNth (cross ⬝ᵥ d) d with hz
  have hVz : z = V *ᵥ i.insertNth 0 ((v22 V i)⁻¹ *ᵥ d) := by
    rw [mulV, hz, mulVec_mulVec, Matrix.mul_nonsing_inv _ hu22, one_mulVec, zero_smul, zero_add,
      mul_zero, zero_add]
    congr 1
    rw [hcross, dotProduct_comm, dotProduct_mulVec, ← mulVec_transpose, transpose_nonsing_inv,
      h22s, dotProduct_comm, dotProduct_comm (v21 V i)]
  have hpz : (p *ᵥ z) i = 0 := by
    rw [hVz, mulVec_mulVec, hpV, one_mulVec, Fin.insertNth_apply_same]
  refine ⟨Real.sqrt_pos.mpr hs2pos, -(1 / 2) * (z ⬝ᵥ (p *ᵥ z)), fun t => ?_⟩
  rw [Real.sq_sqrt hs2pos.le]
  have he : (i.insertNth t x - μ : Fin (m + 1) → ℝ) =
      z + (t - (μ i + cross ⬝ᵥ d)) • Pi.single i 1 := by
    funext b
    rcases Fin.eq_self_or_eq_succAbove i b with rfl | ⟨r, rfl⟩
    · simp [hz]
      ring
    · simp [hz, hd, Pi.single_apply]
  rw [he]
  set τ := t - (μ i + cross ⬝ᵥ d) with hτ
  have h1 : z ⬝ᵥ (p *ᵥ Pi.single i 1) = 0 := by
    rw [symm_dot hps, single_one_dotProduct, hpz]
  have h2 : (Pi.single i 1 : Fin (m + 1) → ℝ) ⬝ᵥ (p *ᵥ z) = 0 := by
    rw [single_one_dotProduct, hpz]
  have h3 : (Pi.single i 1 : Fin (m + 1) → ℝ) ⬝ᵥ (p *ᵥ Pi.single i 1) = p i i := by
    rw [single_one_dotProduct]
    simp
  rw [mulVec_add, mulVec_smul, add_dotProduct, dotProduct_add, dotProduct_add, smul_dotProduct,
    smul_dotProduct, dotProduct_smul, dotProduct_smul, h1, h2, h3]
  simp only [smul_eq_mul]
  have : p i i = 1 / s2 := by rw [eq_div_iff hs2pos.ne', mul_comm, hpw]
  rw [this]
  field_simp
  ring

/-- C27, the remaining hypothesis: with a Gauss-Hermite rule (C25) and a normal approximation that
is either positive definite or improper (then it is replaced), the quadrature sum is positive
everywhere. -/
theorem c27_positive (junk : Junk m) (i : Fin (m + 1)) (μ : Fin (m + 1) → ℝ)
    {p : Matrix (Fin (m + 1)) (Fin (m + 1)) ℝ}
    (hp : p.PosDef ∨ ¬ (MN.ofMeanPrecision μ p).isProper) {n : ℕ} {values : Fin (n + 1) → ℝ}
    {vectors : Matrix (Fin (n + 1)) (Fin (n + 1)) ℝ}
    (h : IsEigen (hermiteJacobi (n + 1)) values vectors) {a : IF m}
    (ha : create junk i (fun y => Except.ok (F y)) (fun y => Except.ok (G y))
        (fun y => Except.ok (H y)) (MN.ofMeanPrecision μ p) = Except.ok a) (x : Fin m → ℝ) :
    ∃ I, a.integrateNoLog junk x (a.findConditionalMean x) (ofEigen values vectors) =
      Except.ok I ∧ 0 < I := by
  obtain ⟨a', ha', hh, -, -, h3, h4⟩ := create_ok junk i F G H (MN.ofMeanPrecision μ p)
  rw [ha] at ha'
  cases ha'
  refine ⟨_, integrateNoLog_ok hh junk _ x, ?_⟩
  have hs : 0 < a.sigmaConditional := by
    obtain ⟨q, hq, hv⟩ : ∃ q : Matrix (Fin (m + 1)) (Fin (m + 1)) ℝ, q.PosDef ∧
        (properNormal (MN.ofMeanPrecision μ p)).variance = q⁻¹ := by
      rw [properNormal]
      split
      · rename_i hpr
        rcases hp with hp | hp
        · exact ⟨p, hp, rfl⟩
        · exact absurd hpr hp
      · exact ⟨1, Matrix.PosDef.one, rfl⟩
    rw [hv] at h3 h4
    rw [h4, h3]
    exact (conditional_of_variance hq 0 i 0).1
  have hrow : ∑ j, vectors 0 j * vectors 0 j = 1 := by
    have := mul_eq_one_comm.mp h.orthogonal
    have h0 := congrFun (congrFun this 0) 0
    simpa [Matrix.mul_apply] using h0
  obtain ⟨j0, -, hj0⟩ : ∃ j ∈ Finset.univ, 0 < vectors 0 j * vectors 0 j := by
    by_contra hcon
    push Not at hcon
    have := Finset.sum_nonpos hcon
    rw [hrow] at this
    norm_num at this
  have h2 : (0 : ℝ) < Real.sqrt 2 := Real.sqrt_pos.mpr (by norm_num)
  refine Finset.sum_pos' (fun j _ => ?_) ⟨j0, Finset.mem_univ _, ?_⟩
  · rw [wt]
    have := c25_weights (values := values) (vectors := vectors) j
    exact mul_nonneg (mul_nonneg (mul_pos h2 hs).le (mul_nonneg this (Real.exp_pos _).le))
      (Real.exp_pos _).le
  · rw [wt]
    have hw : 0 < (ofEigen values vectors).weights j0 := by
      show 0 < sqrtPi * vectors 0 j0 * vectors 0 j0
      rw [mul_assoc]
      exact mul_pos (by rw [sqrtPi]; norm_num) hj0
    exact mul_pos (mul_pos (mul_pos h2 hs) (mul_pos hw (Real.exp_pos _))) (Real.exp_pos _)


/-- C28, the part that holds: for every positive-definite precision the quadrature is scaled by
the conditional standard deviation; its centre is the reflection of the conditional mean `c` at
the unconditional mean of the item.
What is missing from C28: the centre should be `c` itself (`c28_violated`). -/
theorem c28_partial {p : Matrix (Fin (m + 1)) (Fin (m + 1)) ℝ} (hp : p.PosDef)
    (μ : Fin (m + 1) → ℝ) (hn : (MN.ofMeanPrecision μ p).isProper) (junk : Junk m)
    (i : Fin (m + 1)) (F : (Fin (m + 1) → ℝ) → ℝ) (G : (Fin (m + 1) → ℝ) → Fin (m + 1) → ℝ)
    (H : (Fin (m + 1) → ℝ) → Matrix (Fin (m + 1)) (Fin (m + 1)) ℝ) :
    ∃ a, create junk i (fun y => Except.ok (F y)) (fun y => Except.ok (G y))
        (fun y => Except.ok (H y)) (MN.ofMeanPrecision μ p) = Except.ok a ∧
      ∀ x, ∃ c, IsConditional μ p i x c a.sigmaConditional ∧
        a.findConditionalMean x = μ i - (c - μ i) := by
  obtain ⟨a, ha, h, h1, h2, h3, h4⟩ := create_ok junk i F G H (MN.ofMeanPrecision μ p)
  refine ⟨a, ha, fun x => ?_⟩
  have hv : (properNormal (MN.ofMeanPrecision μ p)).variance = p⁻¹ := by
    rw [properNormal, if_pos hn]
    rfl
  rw [hv] at h3 h4
  rw [h3] at h4
  refine ⟨μ i + ((v22 p⁻¹ i)⁻¹ *ᵥ v21 p⁻¹ i) ⬝ᵥ (x - fun r => μ (i.succAbove r)), ?_, ?_⟩
  · rw [h4]
    exact conditional_of_variance hp μ i x
  · rw [findConditionalMean_eq, h1, h2, h3]
    show μ i - _ = _
    rw [add_sub_cancel_left]
    rfl

/-- C28: the centre is right exactly where the conditional mean is the unconditional one. -/
theorem c28_iff {p : Matrix (Fin (m + 1)) (Fin (m + 1)) ℝ} (hp : p.PosDef)
    (μ : Fin (m + 1) → ℝ) (hn : (MN.ofMeanPrecision μ p).isProper) (junk : Junk m)
    (i : Fin (m + 1)) (F : (Fin (m + 1) → ℝ) → ℝ) (G : (Fin (m + 1) → ℝ) → Fin (m + 1) → ℝ)
    (H : (Fin (m + 1) → ℝ) → Matrix (Fin (m + 1)) (Fin (m + 1)) ℝ) {a : IF m}
    (ha : create junk i (fun y => Except.ok (F y)) (fun y => Except.ok (G y))
        (fun y => Except.ok (H y)) (MN.ofMeanPrecision μ p) = Except.ok a) (x : Fin m → ℝ)
    {c s : ℝ} (hc : IsConditional μ p i x c s) :
    a.findConditionalMean x = c ↔ c = μ i := by
  obtain ⟨a', ha', h⟩ := c28_partial hp μ hn junk i F G H
  rw [ha] at ha'
  cases ha'
  obtain ⟨c', h1, h2⟩ := h x
  obtain ⟨rfl, -⟩ := hc.unique h1
  rw [h2]
  constructor <;> intro h <;> linarith

/-! ## Concrete cases -/

/-- The normal used below is proper. -/
theorem corr_proper : (MN.ofMeanPrecision 0 corr).isProper := by
  have hd : corr.det = 3 := by
    rw [corr, Matrix.det_fin_two_of]
    norm_num
  rw [MN.isProper]
  simp only [MN.ofMeanPrecision, MN.setPrecision, normalizerOf, hd]
  rw [if_pos (by norm_num)]
  have h : Real.log 3 ≤ 3 - 1 := Real.log_le_sub_one_of_pos (by norm_num)
  simp only [decide_eq_true_eq, ne_eq]
  intro h0
  have : (0 : ℝ) = -(2 : ℕ) * logSqrtTwoPi + 0.5 * Real.log 3 := h0.symm
  rw [logSqrtTwoPi] at this
  norm_num at this
  linarith

/-- A twice differentiable factor of two arguments: the log density of a correlated normal. -/
theorem corr_twice : TwiceDiff (fun y => val ((MN.ofMeanPrecision 0 corr).evaluate y))
    (MN.ofMeanPrecision 0 corr).evaluateDerivative
    fun _ => (MN.ofMeanPrecision 0 corr).evaluateSecondDerivative := by
  obtain ⟨v, hv⟩ : ∃ v, (MN.ofMeanPrecision 0 corr).normalizer = some v := by
    have := corr_proper
    rw [MN.isProper] at this
    cases h : (MN.ofMeanPrecision 0 corr).normalizer with
    | none => rw [h] at this; cases this
    | some v => exact ⟨v, rfl⟩
  exact ⟨fun y => (c29_derivatives _ corr_symm hv y).1,
    fun y => (c29_derivatives _ corr_symm hv y).2⟩

/-- C27 with a correlated factor, a correlated normal and a rule with two points: all hypotheses
are met, at every point. -/
example (junk : Junk 1) : ∃ (a : IF 1) (val grad : (Fin 1 → ℝ) → ℝ), (∀ x : Fin 1 → ℝ, 
    HasFDerivAt val (lin fun _ => grad x) x) ∧ 
    create junk 0 (fun y => Except.ok (Gauss.val ((MN.ofMeanPrecision 0 corr).evaluate y)))
      (fun y => Except.ok ((MN.ofMeanPrecision 0 corr).evaluateDerivative y))
      (fun _ => Except.ok ((MN.ofMeanPrecision 0 corr).evaluateSecondDerivative))
      (MN.ofMeanPrecision 0 corr) = Except.ok a := by
  obtain ⟨values, vectors, he⟩ := c25_exists 1
  obtain ⟨a, v, g, h, ha, -, -, -, hd⟩ := c27_derivatives corr_twice junk 0
    (MN.ofMeanPrecision 0 corr) (ofEigen values vectors)
  refine ⟨a, v, fun x => g x 0, fun x => ?_, ha⟩
  obtain ⟨I, hI, hpos⟩ := c27_positive junk 0 0 (Or.inl corr_posDef) he ha x
  have e : (fun _ : Fin 1 => g x 0) = g x := by
    funext j
    rw [Fin.fin_one_eq_zero j]
  rw [e]
  exact (hd x I hI hpos).1

/-- C28 fails: with precision `(2 1; 1 2)` the first item given that the second is `1` has
conditional mean `-1/2`; the code centres the quadrature at `1/2`. -/
theorem c28_violated (junk : Junk 1) (F : (Fin 2 → ℝ) → ℝ) (G : (Fin 2 → ℝ) → Fin 2 → ℝ)
    (H : (Fin 2 → ℝ) → Matrix (Fin 2) (Fin 2) ℝ) :
    ∃ a, create junk 0 (fun y => Except.ok (F y)) (fun y => Except.ok (G y))
        (fun y => Except.ok (H y)) (MN.ofMeanPrecision 0 corr) = Except.ok a ∧
      IsConditional 0 corr 0 ![1] (-1 / 2) a.sigmaConditional ∧
      a.findConditionalMean ![1] = 1 / 2 := by
  have hc : IsConditional 0 corr 0 ![1] (-1 / 2) (Real.sqrt (1 / 2)) := by
    refine ⟨Real.sqrt_pos.mpr (by norm_num), -3 / 4, fun t => ?_⟩
    rw [Real.sq_sqrt (by norm_num)]
    simp [corr, mulVec, dotProduct, Fin.sum_univ_two, Fin.insertNth_zero]
    ring
  obtain ⟨a, ha, h⟩ := c28_partial corr_posDef 0 corr_proper junk 0 F G H
  obtain ⟨c, h1, h2⟩ := h ![1]
  obtain ⟨rfl, -⟩ := hc.unique h1
  refine ⟨a, ha, h1, ?_⟩
  rw [h2]
  norm_num

end Verif.Integrated
