import Verif.Proofs.GaussInt
import Mathlib.Analysis.Calculus.FDeriv.Mul
import Mathlib.Analysis.Calculus.FDeriv.Pi
import Mathlib.Analysis.Complex.ExponentialBounds
import Mathlib.Analysis.Real.Pi.Bounds
import Mathlib.LinearAlgebra.Matrix.Notation
import Mathlib.LinearAlgebra.Matrix.Determinant.Basic
import Mathlib.LinearAlgebra.Matrix.Adjugate
import Mathlib.Tactic.NormNum
import Mathlib.Tactic.FieldSimp

/-!
# C29: Gaussians built from derivatives; C23: products of Gaussians on a subset
-/
namespace Verif.Gauss

open Matrix MeasureTheory Verif.Eigen

variable {n m : ℕ}

/-- C29: a normal built from a location, a gradient and a symmetric invertible Hessian has that
gradient and that Hessian at the location. -/
theorem c29_at_location (x d : Fin n → ℝ) (h : Matrix (Fin n) (Fin n) ℝ) (hs : h.IsSymm)
    (hd : h.det ≠ 0) :
    (MN.ofDerivatives x d h).evaluateDerivative x = d ∧
    (MN.ofDerivatives x d h).evaluateSecondDerivative = h := by
  have hu : IsUnit (-h).det := by
    rw [det_neg, isUnit_iff_ne_zero]
    exact mul_ne_zero (pow_ne_zero _ (by norm_num)) hd
  constructor
  · rw [MN.evaluateDerivative, MN.ofDerivatives]
    simp only
    rw [sub_add_cancel_left, neg_neg, ← mulVec_transpose, transpose_neg, hs.eq, mulVec_mulVec,
      Matrix.mul_nonsing_inv _ hu, one_mulVec]
  · simp [MN.evaluateSecondDerivative, MN.ofDerivatives]

/-- Value of a log density (the alternative is never used when the normaliser is finite). -/
def val (v : Option ℝ) : ℝ := v.getD 0

theorem hasFDerivAt_quad {p : Matrix (Fin n) (Fin n) ℝ} (hp : pᵀ = p) (μ x : Fin n → ℝ) :
    HasFDerivAt (quad μ p) (∑ i, (2 * (p *ᵥ (x - μ)) i) •
      (ContinuousLinearMap.proj i : (Fin n → ℝ) →L[ℝ] ℝ)) x := by
  have h1 : ∀ i, HasFDerivAt (fun y : Fin n → ℝ => (y - μ) i)
      (ContinuousLinearMap.proj i : (Fin n → ℝ) →L[ℝ] ℝ) x := fun i =>
    ((ContinuousLinearMap.proj i : (Fin n → ℝ) →L[ℝ] ℝ).hasFDerivAt).sub_const (μ i)
  have h2 : ∀ i, HasFDerivAt (fun y : Fin n → ℝ => (p *ᵥ (y - μ)) i)
      (∑ j, p i j • (ContinuousLinearMap.proj j : (Fin n → ℝ) →L[ℝ] ℝ)) x := fun i => by
    have := HasFDerivAt.fun_sum (u := Finset.univ) fun j _ => (h1 j).const_mul (p i j)
    simpa [mulVec, dotProduct] using this
  have h3 := HasFDerivAt.fun_sum (u := Finset.univ) fun i _ => (h1 i).mul (h2 i)
  have : quad μ p = fun y => ∑ i, (y - μ) i * (p *ᵥ (y - μ)) i := by
    funext y
    rfl
  rw [this]
  refine h3.congr_fderiv ?_
  ext z
  simp only [ContinuousLinearMap.sum_apply, ContinuousLinearMap.add_apply,
    ContinuousLinearMap.smul_apply, ContinuousLinearMap.proj_apply, smul_eq_mul,
    Finset.sum_add_distrib]
  have h4 := symm_dot hp (x - μ) z
  simp only [dotProduct, mulVec] at h4 ⊢
  rw [h4, ← Finset.sum_add_distrib]
  exact Finset.sum_congr rfl fun i _ => by ring

/-- C29: the reported derivatives are the derivatives of the log density, everywhere. -/
theorem c29_derivatives (a : MN n) (hs : a.precision.IsSymm) {v : ℝ}
    (hv : a.normalizer = some v) (x : Fin n → ℝ) :
    HasFDerivAt (fun y => val (a.evaluate y)) (∑ i, a.evaluateDerivative x i •
      (ContinuousLinearMap.proj i : (Fin n → ℝ) →L[ℝ] ℝ)) x ∧
    ∀ i, HasFDerivAt (fun y => a.evaluateDerivative y i) (∑ j, a.evaluateSecondDerivative i j •
      (ContinuousLinearMap.proj j : (Fin n → ℝ) →L[ℝ] ℝ)) x := by
  constructor
  · have : (fun y => val (a.evaluate y)) = fun y => v + -0.5 * quad a.mean a.precision y := by
      funext y
      rw [evaluate_eq, hv]
      rfl
    rw [this]
    refine (((hasFDerivAt_quad hs.eq a.mean x).const_mul (-0.5)).const_add v).congr_fderiv ?_
    ext z
    simp only [ContinuousLinearMap.smul_apply, ContinuousLinearMap.sum_apply,
      ContinuousLinearMap.proj_apply, smul_eq_mul, MN.evaluateDerivative, Finset.mul_sum]
    refine Finset.sum_congr rfl fun i _ => ?_
    rw [← mulVec_transpose, hs.eq, mulVec_neg, Pi.neg_apply]
    ring
  · intro i
    have h1 : ∀ j, HasFDerivAt (fun y : Fin n → ℝ => (y - a.mean) j)
        (ContinuousLinearMap.proj j : (Fin n → ℝ) →L[ℝ] ℝ) x := fun j =>
      ((ContinuousLinearMap.proj j : (Fin n → ℝ) →L[ℝ] ℝ).hasFDerivAt).sub_const (a.mean j)
    have h2 := HasFDerivAt.fun_sum (u := Finset.univ) fun j _ =>
      (h1 j).const_mul (-a.precision i j)
    have : (fun y => a.evaluateDerivative y i) =
        fun y => ∑ j, -a.precision i j * (y - a.mean) j := by
      funext y
      rw [MN.evaluateDerivative, ← mulVec_transpose, hs.eq, mulVec_neg]
      simp [mulVec, dotProduct]
    rw [this]
    refine h2.congr_fderiv ?_
    exact Finset.sum_congr rfl fun j _ => by rw [MN.evaluateSecondDerivative, Matrix.neg_apply]

/-- C29: the density integrates to one for every positive-definite precision, up to the rounding
of the literal for `log √(2π)` in the code (ratio to the power of the dimension; see
`literal_close`). -/
theorem c29_density (μ : Fin n → ℝ) {p : Matrix (Fin n) (Fin n) ℝ} (hp : p.PosDef) :
    (∀ x, ((MN.ofMeanPrecision μ p).evaluate x).isSome) ∧
    ∫ x, Real.exp (val ((MN.ofMeanPrecision μ p).evaluate x)) =
      (√(2 * Real.pi) / Real.exp logSqrtTwoPi) ^ n := by
  have hd := hp.det_pos
  have he : ∀ x, (MN.ofMeanPrecision μ p).evaluate x =
      some (-(n : ℝ) * logSqrtTwoPi + 0.5 * Real.log p.det + -0.5 * quad μ p x) := by
    intro x
    rw [evaluate_eq]
    simp only [MN.ofMeanPrecision, MN.setPrecision, normalizerOf, if_pos hd, Option.map_some]
  refine ⟨fun x => by rw [he]; rfl, ?_⟩
  simp only [he, val, Option.getD_some]
  simp only [Real.exp_add]
  rw [integral_const_mul, gaussian_integral hp μ]
  have h1 : Real.exp (0.5 * Real.log p.det) = √p.det := by
    rw [Real.sqrt_eq_rpow, Real.rpow_def_of_pos hd]
    congr 1
    ring
  have h2 : Real.exp (-(n : ℝ) * logSqrtTwoPi) = (Real.exp logSqrtTwoPi ^ n)⁻¹ := by
    rw [neg_mul, Real.exp_neg, Real.exp_nat_mul]
  rw [h1, h2, div_pow]
  have h3 : √p.det ≠ 0 := (Real.sqrt_pos.mpr hd).ne'
  field_simp

/-- The literal of the code is within `10⁻¹²` of `log √(2π)`, as the ratio above. -/
theorem literal_close : |√(2 * Real.pi) / Real.exp logSqrtTwoPi - 1| ≤ 1 / 10 ^ 12 := by
  have h0 : (0 : ℝ) ≤ logSqrtTwoPi := by norm_num [logSqrtTwoPi]
  have h1 : logSqrtTwoPi ≤ 1 := by norm_num [logSqrtTwoPi]
  have hu := Real.exp_bound' h0 h1 (n := 18) (by norm_num)
  have hl := Real.sum_le_exp_of_nonneg h0 18
  have e1 : Real.exp logSqrtTwoPi ≤ 2.5066282746310006 := by
    refine hu.trans ?_
    rw [logSqrtTwoPi]
    simp only [Finset.sum_range_succ, Finset.sum_range_zero, Nat.factorial]
    norm_num
  have e2 : 2.5066282746310002 ≤ Real.exp logSqrtTwoPi := by
    refine le_trans ?_ hl
    rw [logSqrtTwoPi]
    simp only [Finset.sum_range_succ, Finset.sum_range_zero, Nat.factorial]
    norm_num
  have p1 := Real.pi_gt_d20
  have p2 := Real.pi_lt_d20
  have s1 : 2.5066282746310002 ≤ √(2 * Real.pi) := by
    refine Real.le_sqrt_of_sq_le ?_
    norm_num at p1 ⊢
    linarith
  have s2 : √(2 * Real.pi) ≤ 2.5066282746310006 := by
    refine Real.sqrt_le_iff.mpr ⟨by norm_num, ?_⟩
    norm_num at p2 ⊢
    linarith
  have hpos := Real.exp_pos logSqrtTwoPi
  rw [div_sub_one hpos.ne', abs_div, abs_of_pos hpos, div_le_iff₀ hpos, abs_le]
  constructor <;> norm_num at * <;> linarith

/-! ## C23 -/

/-- Log density up to its constant. -/
noncomputable def logKernel (a : MN n) (x : Fin n → ℝ) : ℝ :=
  -((x - a.mean) ⬝ᵥ (a.precision *ᵥ (x - a.mean))) / 2

theorem logKernel_eq (a : MN n) (x : Fin n → ℝ) :
    logKernel a x = -quad a.mean a.precision x / 2 := rfl

theorem sub_mulVec_scatter {e : Fin m → Fin n} (he : Function.Injective e)
    (p : Matrix (Fin n) (Fin n) ℝ) (y : Fin m → ℝ) (μ : Fin n → ℝ) :
    p *ᵥ scatter e y μ = p *ᵥ μ + p *ᵥ ((sel e)ᵀ *ᵥ fun k => y k - μ (e k)) := by
  rw [← mulVec_add]
  congr 1
  funext i
  rw [Pi.add_apply]
  by_cases hi : ∃ k, e k = i
  · obtain ⟨k, rfl⟩ := hi
    rw [scatter_mem he, padVec_mem he]
    ring
  · rw [scatter_notMem _ _ fun k h => hi ⟨k, h⟩, padVec_notMem _ fun k h => hi ⟨k, h⟩, add_zero]

/-- Two quadratics with the same second-order part differ by a constant exactly when their linear
parts agree. -/
theorem const_iff (f : (Fin n → ℝ) → ℝ) (w : Fin n → ℝ) (c0 : ℝ)
    (hf : ∀ x, f x = x ⬝ᵥ w + c0) : (∃ c, ∀ x, f x = c) ↔ w = 0 := by
  constructor
  · rintro ⟨c, hc⟩
    have h1 := hc w
    have h2 := hc 0
    rw [hf] at h1 h2
    rw [zero_dotProduct] at h2
    have : w ⬝ᵥ w = 0 := by linarith
    exact dotProduct_self_eq_zero.mp this
  · rintro rfl
    exact ⟨c0, fun x => by rw [hf, dotProduct_zero, zero_add]⟩

/-- C23, exactly when the result is right: multiplying (dividing) a Gaussian by a Gaussian on a
duplicate-free subset gives the Gaussian proportional to the product (quotient) of the densities
if and only if the rows of the precision outside the subset annihilate the change of the mean. -/
theorem c23_iff (a : MN n) (b : MN m) (s : Fin m → ℕ) (hr : InRange n s)
    (hs : Function.Injective s) (ha : a.precision.IsSymm) (hb : b.precision.IsSymm)
    (divide : Bool)
    (hinv : (a.precision.submatrix (toFin hr) (toFin hr) + sg divide • b.precision).det ≠ 0) :
    ∃ r, a.multiplySubset b s divide = Except.ok r ∧
      ((∃ c, ∀ x, logKernel r x = logKernel a x + sg divide * logKernel b (fun k => x (toFin hr k)) + c)
        ↔ ∀ i, (∀ k, toFin hr k ≠ i) →
          ∑ k, a.precision i (toFin hr k) * (r.mean (toFin hr k) - a.mean (toFin hr k)) = 0) := by
  refine ⟨_, multiplySubset_ok hr hs a b divide, ?_⟩
  have he : Function.Injective (toFin hr) := fun k l hkl => hs (congrArg Fin.val hkl)
  set e := toFin hr with hedef
  set B := sg divide • b.precision with hB
  have hBs : Bᵀ = B := by rw [hB, transpose_smul, hb.eq]
  set p' := a.precision + pad e B with hp'
  have hp's : p'ᵀ = p' := by rw [hp', transpose_add, ha.eq, pad_symm e hBs]
  set y := newMean e a b divide with hy
  set μ' := scatter e y a.mean with hμ'
  have hu : IsUnit (a.precision.submatrix e e + B).det := isUnit_iff_ne_zero.mpr hinv
  have hnew : a.precision.submatrix e e *ᵥ y + B *ᵥ y =
      a.precision.submatrix e e *ᵥ (fun k => a.mean (e k)) + B *ᵥ b.mean := by
    rw [← add_mulVec, hy, newMean, mulVec_mulVec, Matrix.mul_nonsing_inv _ hu, one_mulVec]
  -- linear part of the difference
  set w := p' *ᵥ μ' - a.precision *ᵥ a.mean - (sel e)ᵀ *ᵥ (B *ᵥ b.mean) with hw
  have hmean : (fun k => μ' (e k)) = y := by funext k; rw [hμ', scatter_mem he]
  have hwi : ∀ i, (∀ k, e k ≠ i) → w i = ∑ k, a.precision i (e k) * (y k - a.mean (e k)) := by
    intro i hi
    rw [hw, Pi.sub_apply, Pi.sub_apply, padVec_notMem _ hi, hp', add_mulVec, Pi.add_apply,
      pad_mulVec_notMem _ hi, hμ', sub_mulVec_scatter he, Pi.add_apply]
    have : (a.precision *ᵥ ((sel e)ᵀ *ᵥ fun k => y k - a.mean (e k))) i =
        ∑ k, a.precision i (e k) * (y k - a.mean (e k)) := by
      rw [mulVec, dot_padVec]
      rfl
    rw [this]
    ring
  have hwk : ∀ k, w (e k) = 0 := by
    intro k
    rw [hw, Pi.sub_apply, Pi.sub_apply, padVec_mem he, hp', add_mulVec, Pi.add_apply,
      pad_mulVec_mem he, hmean, hμ', sub_mulVec_scatter he, Pi.add_apply]
    have h1 : (a.precision *ᵥ ((sel e)ᵀ *ᵥ fun k => y k - a.mean (e k))) (e k) =
        (a.precision.submatrix e e *ᵥ y) k -
          (a.precision.submatrix e e *ᵥ fun k => a.mean (e k)) k := by
      rw [mulVec, dot_padVec, ← Pi.sub_apply, ← mulVec_sub]
      rfl
    have h2 := congrFun hnew k
    rw [Pi.add_apply, Pi.add_apply] at h2
    rw [h1]
    linarith
  have hw0 : w = 0 ↔ ∀ i, (∀ k, e k ≠ i) →
      ∑ k, a.precision i (e k) * (y k - a.mean (e k)) = 0 := by
    constructor
    · intro h i hi
      rw [← hwi i hi, h]
      rfl
    · intro h
      funext i
      by_cases hi : ∃ k, e k = i
      · obtain ⟨k, rfl⟩ := hi
        exact hwk k
      · rw [hwi i fun k hk => hi ⟨k, hk⟩, h i fun k hk => hi ⟨k, hk⟩]
        rfl
  have hsum : ∀ i, ∑ k, a.precision i (e k) * (μ' (e k) - a.mean (e k)) =
      ∑ k, a.precision i (e k) * (y k - a.mean (e k)) := fun i =>
    Finset.sum_congr rfl fun k _ => by rw [hμ', scatter_mem he]
  simp only [hsum]
  rw [← hw0]
  have hdiff : ∀ x : Fin n → ℝ, logKernel ⟨μ', p', p'⁻¹, normalizerOf p'⟩ x - (logKernel a x +
      sg divide * logKernel b (fun k => x (e k))) = x ⬝ᵥ w + -(μ' ⬝ᵥ (p' *ᵥ μ') -
        a.mean ⬝ᵥ (a.precision *ᵥ a.mean) - b.mean ⬝ᵥ (B *ᵥ b.mean)) / 2 := by
    intro x
    have hbq : sg divide * quad b.mean b.precision (fun k => x (e k)) =
        quad b.mean B (fun k => x (e k)) := by
      rw [quad, quad, hB, smul_mulVec, dotProduct_smul, smul_eq_mul]
    simp only [logKernel_eq]
    rw [quad_expand hp's, quad_expand ha.eq]
    have hq := quad_expand hBs b.mean fun k => x (e k)
    rw [← hbq] at hq
    have h3 : x ⬝ᵥ w = x ⬝ᵥ (p' *ᵥ μ') - x ⬝ᵥ (a.precision *ᵥ a.mean) -
        (fun k => x (e k)) ⬝ᵥ (B *ᵥ b.mean) := by
      rw [hw, dotProduct_sub, dotProduct_sub, dot_padVec]
    have h4 : x ⬝ᵥ (p' *ᵥ x) = x ⬝ᵥ (a.precision *ᵥ x) +
        (fun k => x (e k)) ⬝ᵥ (B *ᵥ fun k => x (e k)) := by
      rw [hp', add_mulVec, dotProduct_add, dot_pad]
    rw [h3, h4]
    linarith
  rw [← const_iff _ w _ hdiff]
  constructor
  · rintro ⟨c, hc⟩
    exact ⟨c, fun x => by rw [hc x]; ring⟩
  · rintro ⟨c, hc⟩
    exact ⟨c, fun x => by linarith [hc x]⟩

/-- The precision of the result is always the padded sum (difference). -/
theorem c23_precision (a : MN n) (b : MN m) (s : Fin m → ℕ) (hr : InRange n s)
    (hs : Function.Injective s) (divide : Bool) :
    ∃ r, a.multiplySubset b s divide = Except.ok r ∧
      (∀ k l, r.precision (toFin hr k) (toFin hr l) =
        a.precision (toFin hr k) (toFin hr l) + sg divide * b.precision k l) ∧
      ∀ i j, ((∀ k, toFin hr k ≠ i) ∨ ∀ k, toFin hr k ≠ j) → r.precision i j = a.precision i j := by
  have he : Function.Injective (toFin hr) := fun k l hkl => hs (congrArg Fin.val hkl)
  refine ⟨_, multiplySubset_ok hr hs a b divide, fun k l => ?_, fun i j hij => ?_⟩
  · simp only
    rw [Matrix.add_apply, pad_mem he, Matrix.smul_apply, smul_eq_mul]
  · simp only
    rw [Matrix.add_apply]
    rcases hij with h | h
    · rw [pad_row _ h, add_zero]
    · rw [pad_col _ h, add_zero]

/-- C23, right case: the means agree on the subset, or the precision between the subset and the
other coordinates vanishes. -/
theorem c23_partial (a : MN n) (b : MN m) (s : Fin m → ℕ) (hr : InRange n s)
    (hs : Function.Injective s) (ha : a.precision.IsSymm) (hb : b.precision.IsSymm)
    (divide : Bool)
    (hinv : (a.precision.submatrix (toFin hr) (toFin hr) + sg divide • b.precision).det ≠ 0)
    (hgood : (∀ k, a.mean (toFin hr k) = b.mean k) ∨
      ∀ i k, (∀ l, toFin hr l ≠ i) → a.precision i (toFin hr k) = 0) :
    ∃ r, a.multiplySubset b s divide = Except.ok r ∧
      ∃ c, ∀ x, logKernel r x =
        logKernel a x + sg divide * logKernel b (fun k => x (toFin hr k)) + c := by
  obtain ⟨r, h1, h2⟩ := c23_iff a b s hr hs ha hb divide hinv
  refine ⟨r, h1, h2.mpr fun i hi => ?_⟩
  rcases hgood with hg | hg
  · have he : Function.Injective (toFin hr) := fun k l hkl => hs (congrArg Fin.val hkl)
    have hu := isUnit_iff_ne_zero.mpr hinv
    have hm : newMean (toFin hr) a b divide = fun k => a.mean (toFin hr k) := by
      rw [newMean, show b.mean = fun k => a.mean (toFin hr k) from funext fun k => (hg k).symm,
        ← add_mulVec, mulVec_mulVec, Matrix.nonsing_inv_mul _ hu, one_mulVec]
    rw [multiplySubset_ok hr hs] at h1
    injection h1 with h1
    rw [← h1]
    refine Finset.sum_eq_zero fun k _ => ?_
    simp only
    rw [scatter_mem he, hm, sub_self, mul_zero]
  · exact Finset.sum_eq_zero fun k _ => by rw [hg i k hi, zero_mul]

/-! ## Concrete cases -/

/-- A correlated precision. -/
def corr : Matrix (Fin 2) (Fin 2) ℝ := !![2, 1; 1, 2]

theorem corr_symm : corr.IsSymm := by
  ext i j
  fin_cases i <;> fin_cases j <;> rfl

theorem corr_posDef : corr.PosDef := by
  refine posDef_of corr_symm.eq fun x hx => ?_
  have h : x ⬝ᵥ (corr *ᵥ x) = x 0 ^ 2 + x 1 ^ 2 + (x 0 + x 1) ^ 2 := by
    simp [corr, mulVec, dotProduct, Fin.sum_univ_two]
    ring
  rw [h]
  by_contra hcon
  have h0 : x 0 = 0 := by nlinarith [sq_nonneg (x 0), sq_nonneg (x 1), sq_nonneg (x 0 + x 1)]
  have h1 : x 1 = 0 := by nlinarith [sq_nonneg (x 0), sq_nonneg (x 1), sq_nonneg (x 0 + x 1)]
  exact hx (by funext i; fin_cases i <;> assumption)

/-- C23 is violated in general: a correlated Gaussian times a Gaussian on its first coordinate,
with different means. -/
theorem c23_violated : ∃ (a : MN 2) (b : MN 1), a.precision.PosDef ∧ b.precision.PosDef ∧
    ∃ r, a.multiplySubset b (fun _ => 0) false = Except.ok r ∧
      ¬ ∃ c, ∀ x, logKernel r x = logKernel a x + logKernel b (fun _ => x 0) + c := by
  have hr : InRange 2 (fun _ : Fin 1 => 0) := fun _ => by norm_num
  have hs : Function.Injective (fun _ : Fin 1 => 0) := fun _ _ _ => Subsingleton.elim _ _
  have hdet : ((MN.ofMeanPrecision 0 corr).precision.submatrix (toFin hr) (toFin hr) +
      sg false • (MN.ofMeanPrecision (fun _ => 1) (1 : Matrix (Fin 1) (Fin 1) ℝ)).precision).det
        = 3 := by
    rw [det_fin_one]
    simp [MN.ofMeanPrecision, MN.setPrecision, toFin, corr, sg]
    norm_num
  obtain ⟨r, h1, h2⟩ := c23_iff (MN.ofMeanPrecision 0 corr)
    (MN.ofMeanPrecision (fun _ => 1) (1 : Matrix (Fin 1) (Fin 1) ℝ)) (fun _ => 0) hr hs
    corr_symm (by ext i j; simp [MN.ofMeanPrecision, MN.setPrecision, Matrix.one_apply, eq_comm])
    false (by rw [hdet]; norm_num)
  refine ⟨_, _, corr_posDef, ?_, r, h1, fun hcon => ?_⟩
  · refine posDef_of (transpose_one) fun x hx => ?_
    simp only [MN.ofMeanPrecision, MN.setPrecision, one_mulVec]
    have h0 : x 0 ≠ 0 := fun h => hx (by funext i; fin_cases i; exact h)
    rw [dotProduct, Fin.sum_univ_one]
    exact mul_self_pos.mpr h0
  simp only [sg, Bool.false_eq_true, if_false, one_mul] at h2
  have h3 := h2.mp hcon 1 (fun k => by simp [toFin])
  rw [multiplySubset_ok hr hs] at h1
  injection h1 with h1
  have he : Function.Injective (toFin hr) := fun k l _ => Subsingleton.elim _ _
  have hm : r.mean (toFin hr 0) = 1 / 3 := by
    rw [← h1]
    simp only
    rw [scatter_mem he, newMean]
    have : ((MN.ofMeanPrecision 0 corr).precision.submatrix (toFin hr) (toFin hr) +
      sg false • (MN.ofMeanPrecision (fun _ => 1) (1 : Matrix (Fin 1) (Fin 1) ℝ)).precision)⁻¹ =
        Matrix.of fun _ _ => 1 / 3 := by
      refine Matrix.inv_eq_left_inv ?_
      ext i j
      fin_cases i
      fin_cases j
      simp [MN.ofMeanPrecision, MN.setPrecision, toFin, corr, sg, Matrix.mul_apply]
      norm_num
    rw [this]
    simp [MN.ofMeanPrecision, MN.setPrecision, mulVec, dotProduct, sg]
  rw [Fin.sum_univ_one, hm] at h3
  simp [MN.ofMeanPrecision, MN.setPrecision, toFin, corr] at h3

/-- The hypotheses of `c23_partial` are met by the same correlated Gaussian when the means
agree. -/
example : ∃ r, (MN.ofMeanPrecision 0 corr).multiplySubset
      (MN.ofMeanPrecision 0 (1 : Matrix (Fin 1) (Fin 1) ℝ)) (fun _ => 0) false = Except.ok r ∧
      ∃ c, ∀ x, logKernel r x = logKernel (MN.ofMeanPrecision 0 corr) x +
        1 * logKernel (MN.ofMeanPrecision 0 (1 : Matrix (Fin 1) (Fin 1) ℝ)) (fun _ => x 0) + c := by
  refine c23_partial _ _ _ (fun _ => by norm_num) (fun _ _ _ => Subsingleton.elim _ _) corr_symm
    (by ext i j; simp [MN.ofMeanPrecision, MN.setPrecision, Matrix.one_apply, eq_comm]) false ?_
    (Or.inl fun k => rfl)
  rw [det_fin_one]
  simp [MN.ofMeanPrecision, MN.setPrecision, toFin, corr, sg]
  norm_num

/-- The hypotheses of C29 are met by the Hessian `-corr`. -/
example (x d : Fin 2 → ℝ) : (MN.ofDerivatives x d (-corr)).evaluateDerivative x = d :=
  (c29_at_location x d (-corr) (by rw [IsSymm, transpose_neg, corr_symm.eq]) (by
    simp [corr, det_fin_two]
    norm_num)).1

end Verif.Gauss
