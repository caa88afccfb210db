import Verif.Proofs.ISLimit
import Verif.Props.IS
import Mathlib.MeasureTheory.Integral.Gamma
import Mathlib.Analysis.SpecialFunctions.Gaussian.GaussianIntegral

/-!
# Second moments of weights: integrals of exponentials of quadratic functions
-/
namespace Verif.IS

open MeasureTheory ProbabilityTheory Matrix Filter Topology
open scoped ENNReal

variable {q : ℕ}

/-! ## Quadratic forms -/

theorem dot_self_nonneg (x : Fin q → ℝ) : 0 ≤ x ⬝ᵥ x :=
  Finset.sum_nonneg fun i _ => mul_self_nonneg (x i)

theorem dot_sq_le (x y : Fin q → ℝ) : (x ⬝ᵥ y) ^ 2 ≤ (x ⬝ᵥ x) * (y ⬝ᵥ y) := by
  have := Finset.sum_mul_sq_le_sq_mul_sq Finset.univ x y
  simpa only [dotProduct, pow_two] using this

theorem dot_expand (t : ℝ) (a b : Fin q → ℝ) :
    (t • a + b) ⬝ᵥ (t • a + b) = t ^ 2 * (a ⬝ᵥ a) + 2 * t * (a ⬝ᵥ b) + b ⬝ᵥ b := by
  rw [add_dotProduct, dotProduct_add, dotProduct_add, smul_dotProduct, smul_dotProduct,
    dotProduct_smul, dotProduct_smul, dotProduct_comm b a]
  simp only [smul_eq_mul]
  ring

/-- A matrix changes squared lengths by a bounded factor. -/
theorem exists_mulVec_le (C : Matrix (Fin q) (Fin q) ℝ) :
    ∃ c, 0 < c ∧ ∀ x : Fin q → ℝ, (C *ᵥ x) ⬝ᵥ (C *ᵥ x) ≤ c * (x ⬝ᵥ x) := by
  refine ⟨∑ i, C i ⬝ᵥ C i + 1, by
    have := Finset.sum_nonneg fun i (_ : i ∈ Finset.univ) => dot_self_nonneg (C i)
    linarith, fun x => ?_⟩
  have h : (C *ᵥ x) ⬝ᵥ (C *ᵥ x) ≤ (∑ i, C i ⬝ᵥ C i) * (x ⬝ᵥ x) := by
    rw [Finset.sum_mul]
    refine Finset.sum_le_sum fun i _ => ?_
    rw [← pow_two]
    exact dot_sq_le (C i) x
  have := dot_self_nonneg x
  nlinarith

/-- A positive definite form is at least a multiple of the squared length. -/
theorem posDef_lower {B : Matrix (Fin q) (Fin q) ℝ} (hB : B.PosDef) :
    ∃ ε, 0 < ε ∧ ∀ x : Fin q → ℝ, ε * (x ⬝ᵥ x) ≤ x ⬝ᵥ (B *ᵥ x) := by
  obtain ⟨R, hR⟩ := exists_chol hB
  obtain ⟨c, hc, h⟩ := exists_mulVec_le R⁻¹
  refine ⟨c⁻¹, inv_pos.2 hc, fun x => ?_⟩
  have h1 := h (R *ᵥ x)
  rw [Matrix.mulVec_mulVec, Matrix.nonsing_inv_mul _ (Ne.isUnit hR.det_pos.ne'),
    Matrix.one_mulVec] at h1
  rw [inv_mul_le_iff₀ hc, ← hR.eq, ← Matrix.mulVec_mulVec, Matrix.dotProduct_mulVec,
    Matrix.vecMul_transpose]
  exact h1

theorem dot_gram (R : Matrix (Fin q) (Fin q) ℝ) (x : Fin q → ℝ) :
    x ⬝ᵥ ((Rᵀ * R) *ᵥ x) = (R *ᵥ x) ⬝ᵥ (R *ᵥ x) := by
  rw [← Matrix.mulVec_mulVec, Matrix.dotProduct_mulVec, Matrix.vecMul_transpose]

theorem transpose_inv_cancel {R : Matrix (Fin q) (Fin q) ℝ} (hR : R.det ≠ 0) (z : Fin q → ℝ) :
    Rᵀ *ᵥ ((R⁻¹)ᵀ *ᵥ z) = z := by
  rw [Matrix.mulVec_mulVec, ← Matrix.transpose_mul, Matrix.nonsing_inv_mul _ (Ne.isUnit hR),
    Matrix.transpose_one, Matrix.one_mulVec]

theorem inv_transpose_cancel {R : Matrix (Fin q) (Fin q) ℝ} (hR : R.det ≠ 0) (z : Fin q → ℝ) :
    (R⁻¹)ᵀ *ᵥ (Rᵀ *ᵥ z) = z := by
  rw [Matrix.mulVec_mulVec, ← Matrix.transpose_mul, Matrix.mul_nonsing_inv _ (Ne.isUnit hR),
    Matrix.transpose_one, Matrix.one_mulVec]

/-- `R` and its transpose have the same largest stretch. -/
theorem transpose_le {R : Matrix (Fin q) (Fin q) ℝ} {c : ℝ} (hc : 0 ≤ c)
    (h : ∀ x, (R *ᵥ x) ⬝ᵥ (R *ᵥ x) ≤ c * (x ⬝ᵥ x)) (u : Fin q → ℝ) :
    (Rᵀ *ᵥ u) ⬝ᵥ (Rᵀ *ᵥ u) ≤ c * (u ⬝ᵥ u) := by
  set y := Rᵀ *ᵥ u with hy
  have h1 : y ⬝ᵥ y = u ⬝ᵥ (R *ᵥ y) := by
    conv_lhs => rw [hy, dotProduct_comm]
    rw [Matrix.dotProduct_mulVec, ← hy, ← Matrix.vecMul_transpose, dotProduct_comm]
  have h2 := dot_sq_le u (R *ᵥ y)
  rw [← h1] at h2
  have h3 := h y
  have h4 := dot_self_nonneg u
  rcases (dot_self_nonneg y).eq_or_lt with h0 | h0
  · rw [← h0]
    positivity
  · have : (y ⬝ᵥ y) * (y ⬝ᵥ y) ≤ c * (u ⬝ᵥ u) * (y ⬝ᵥ y) := by nlinarith
    exact le_of_mul_le_mul_right this h0

/-- If the precision has all eigenvalues below 2, transformed samples are long. -/
theorem long_of_posDef {A R : Matrix (Fin q) (Fin q) ℝ} (hc : Spec.IsChol A R)
    (hA : ((2 : ℝ) • (1 : Matrix (Fin q) (Fin q) ℝ) - A).PosDef) :
    ∃ ε, 0 < ε ∧ ∀ z : Fin q → ℝ,
      (1 / 2 + ε) * (z ⬝ᵥ z) ≤ ((R⁻¹)ᵀ *ᵥ z) ⬝ᵥ ((R⁻¹)ᵀ *ᵥ z) := by
  obtain ⟨ε, hε, h⟩ := posDef_lower hA
  have h1 : ∀ x : Fin q → ℝ, (R *ᵥ x) ⬝ᵥ (R *ᵥ x) ≤ (2 - ε) * (x ⬝ᵥ x) := fun x => by
    have := h x
    rw [Matrix.sub_mulVec, Matrix.smul_mulVec, Matrix.one_mulVec, dotProduct_sub, dotProduct_smul,
      smul_eq_mul, ← hc.eq, dot_gram] at this
    linarith
  have h2 : ∀ x : Fin q → ℝ, (R *ᵥ x) ⬝ᵥ (R *ᵥ x) ≤ max (2 - ε) 0 * (x ⬝ᵥ x) := fun x =>
    (h1 x).trans (mul_le_mul_of_nonneg_right (le_max_left _ _) (dot_self_nonneg x))
  refine ⟨min ε 2 / 4, by positivity, fun z => ?_⟩
  have h3 := transpose_le (le_max_right _ _) h2 ((R⁻¹)ᵀ *ᵥ z)
  rw [transpose_inv_cancel hc.det_pos.ne'] at h3
  set y := ((R⁻¹)ᵀ *ᵥ z) ⬝ᵥ ((R⁻¹)ᵀ *ᵥ z) with hy
  have hy0 : 0 ≤ y := dot_self_nonneg _
  rcases le_total ε 2 with he | he
  · rw [max_eq_left (by linarith)] at h3
    rw [min_eq_left he]
    nlinarith [mul_nonneg hy0 (mul_self_nonneg ε)]
  · rw [max_eq_right (by linarith), zero_mul] at h3
    rw [min_eq_right he]
    linarith

/-- If the precision has an eigenvalue above 2, some transformed sample is short. -/
theorem short_of_large {A R : Matrix (Fin q) (Fin q) ℝ} (hc : Spec.IsChol A R) {x : Fin q → ℝ}
    (hx : 2 * (x ⬝ᵥ x) < x ⬝ᵥ (A *ᵥ x)) :
    ∃ z : Fin q → ℝ, ((R⁻¹)ᵀ *ᵥ z) ⬝ᵥ ((R⁻¹)ᵀ *ᵥ z) < z ⬝ᵥ z / 2 := by
  rw [← hc.eq, dot_gram] at hx
  refine ⟨Rᵀ *ᵥ (R *ᵥ x), ?_⟩
  rw [inv_transpose_cancel hc.det_pos.ne']
  set u := R *ᵥ x with hu
  have h1 : u ⬝ᵥ u = x ⬝ᵥ (Rᵀ *ᵥ u) := by
    rw [Matrix.dotProduct_mulVec x, Matrix.vecMul_transpose]
  have h2 := dot_sq_le x (Rᵀ *ᵥ u)
  rw [← h1] at h2
  have h3 := dot_self_nonneg x
  have h4 := dot_self_nonneg (Rᵀ *ᵥ u)
  by_contra hcon
  rw [not_lt] at hcon
  have h5 : 0 < u ⬝ᵥ u := by linarith
  have h6 : (x ⬝ᵥ x) * ((Rᵀ *ᵥ u) ⬝ᵥ (Rᵀ *ᵥ u)) ≤ (x ⬝ᵥ x) * (2 * (u ⬝ᵥ u)) :=
    mul_le_mul_of_nonneg_left (by linarith) h3
  nlinarith

/-! ## Integrals -/

/-- The exponential of a function below a negative definite form has a finite integral. -/
theorem lintegral_exp_lt {h : (Fin q → ℝ) → ℝ} {c ε : ℝ} (hε : 0 < ε)
    (hh : ∀ z, h z ≤ c - ε * (z ⬝ᵥ z)) : ∫⁻ z, ENNReal.ofReal (Real.exp (h z)) ≠ ⊤ := by
  have hi : Integrable (fun z : Fin q → ℝ => ∏ i, Real.exp (-ε * z i ^ 2)) :=
    Integrable.fintype_prod (f := fun (_ : Fin q) (x : ℝ) => Real.exp (-ε * x ^ 2))
      fun _ => integrable_exp_neg_mul_sq hε
  have hi2 := (hi.const_mul (Real.exp c)).lintegral_lt_top
  refine (lt_of_le_of_lt (lintegral_mono fun z => ENNReal.ofReal_le_ofReal ?_) hi2).ne
  rw [← Real.exp_sum, ← Real.exp_add, Real.exp_le_exp, ← Finset.mul_sum]
  refine (hh z).trans (le_of_eq ?_)
  simp only [dotProduct, pow_two]
  ring

/-- The exponential of a function that grows quadratically in some direction, uniformly near it, has an
infinite integral. -/
theorem lintegral_exp_top {h : (Fin q → ℝ) → ℝ} {z0 : Fin q → ℝ} {δ D : ℝ} (hδ : 0 < δ)
    (hD : 0 ≤ D) (hh : ∀ t : ℝ, 0 ≤ t → ∀ d ∈ Metric.closedBall (0 : Fin q → ℝ) 1,
      δ * t ^ 2 - D * t - D ≤ h (t • z0 + d)) :
    ∫⁻ z, ENNReal.ofReal (Real.exp (h z)) = ⊤ := by
  set V := (volume : Measure (Fin q → ℝ)) (Metric.closedBall 0 1) with hV
  have hV0 : V ≠ 0 := (Metric.measure_closedBall_pos volume _ one_pos).ne'
  have hVt : V ≠ ⊤ := measure_closedBall_lt_top.ne
  have key : ∀ K : ℝ, ENNReal.ofReal (Real.exp K) * V ≤ ∫⁻ z, ENNReal.ofReal (Real.exp (h z)) := by
    intro K
    set t := (2 * D + |K|) / δ + 1 with ht
    have ht1 : 1 ≤ t := by
      have : 0 ≤ (2 * D + |K|) / δ := by positivity
      linarith
    have hδt : 2 * D + |K| ≤ δ * t := by
      have : δ * t = 2 * D + |K| + δ := by rw [ht]; field_simp
      linarith
    have hK : K ≤ δ * t ^ 2 - D * t - D := by
      have h1 : |K| ≤ |K| * t := le_mul_of_one_le_right (abs_nonneg K) ht1
      have h2 : D ≤ D * t := le_mul_of_one_le_right hD ht1
      have h3 := le_abs_self K
      nlinarith
    rw [← lintegral_add_left_eq_self (fun z => ENNReal.ofReal (Real.exp (h z))) (t • z0),
      ← setLIntegral_const]
    refine (setLIntegral_mono' Metric.isClosed_closedBall.measurableSet fun d hd =>
      ENNReal.ofReal_le_ofReal (Real.exp_le_exp.2 (hK.trans (hh t (by linarith) d hd)))).trans
      (setLIntegral_le_lintegral _ _)
  refine ENNReal.eq_top_of_forall_nnreal_le fun r => ?_
  have hVr : 0 < V.toReal := ENNReal.toReal_pos hV0 hVt
  refine le_trans ?_ (key (Real.log (r / V.toReal + 1)))
  rw [Real.exp_log (by positivity)]
  conv_rhs => rw [show V = ENNReal.ofReal V.toReal from (ENNReal.ofReal_toReal hVt).symm,
    ENNReal.toReal_ofReal hVr.le]
  rw [← ENNReal.ofReal_mul (by positivity), ← ENNReal.ofReal_coe_nnreal]
  refine ENNReal.ofReal_le_ofReal ?_
  rw [add_mul, div_mul_cancel₀ _ hVr.ne', one_mul]
  linarith

/-! ## The exponent -/

/-- The logarithm of (squared weight times density), up to a constant: `k` is the log-likelihood. -/
noncomputable def expo (k : (Fin q → ℝ) → ℝ) (m : Fin q → ℝ) (A : Matrix (Fin q) (Fin q) ℝ)
    (z : Fin q → ℝ) : ℝ :=
  2 * k (affine m A z) - affine m A z ⬝ᵥ affine m A z + z ⬝ᵥ z / 2

theorem expo_finite {k : (Fin q → ℝ) → ℝ} {a : ℝ} (hk : ∀ u, k u ≤ a) (m : Fin q → ℝ)
    {A : Matrix (Fin q) (Fin q) ℝ} {ε : ℝ} (hε : 0 < ε)
    (hA : ∀ z : Fin q → ℝ, (1 / 2 + ε) * (z ⬝ᵥ z) ≤ (A *ᵥ z) ⬝ᵥ (A *ᵥ z)) :
    ∫⁻ z, ENNReal.ofReal (Real.exp (expo k m A z)) ≠ ⊤ := by
  refine lintegral_exp_lt (ε := ε / 2) (c := 2 * a + 2 / ε * ((Aᵀ *ᵥ m) ⬝ᵥ (Aᵀ *ᵥ m))) (by positivity)
    fun z => ?_
  unfold expo affine
  have h1 := hk (m + A *ᵥ z)
  have h2 := hA z
  have h3 : (m + A *ᵥ z) ⬝ᵥ (m + A *ᵥ z) =
      m ⬝ᵥ m + 2 * ((Aᵀ *ᵥ m) ⬝ᵥ z) + (A *ᵥ z) ⬝ᵥ (A *ᵥ z) := by
    rw [add_dotProduct, dotProduct_add, dotProduct_add, dotProduct_comm (A *ᵥ z) m,
      Matrix.dotProduct_mulVec m A z, Matrix.mulVec_transpose]
    ring
  have h4 : 0 ≤ ε / 2 * (z ⬝ᵥ z) + 2 * ((Aᵀ *ᵥ m) ⬝ᵥ z) + 2 / ε * ((Aᵀ *ᵥ m) ⬝ᵥ (Aᵀ *ᵥ m)) := by
    set w := Aᵀ *ᵥ m
    have h5 := dot_self_nonneg ((ε / 2) • z + w)
    rw [add_dotProduct, dotProduct_add, dotProduct_add, smul_dotProduct, smul_dotProduct,
      dotProduct_smul, dotProduct_smul, dotProduct_comm z w] at h5
    simp only [smul_eq_mul] at h5
    have h6 : ε / 2 * (z ⬝ᵥ z) + 2 * (w ⬝ᵥ z) + 2 / ε * (w ⬝ᵥ w) =
        2 / ε * (ε / 2 * (ε / 2 * (z ⬝ᵥ z)) + ε / 2 * (w ⬝ᵥ z) + (ε / 2 * (w ⬝ᵥ z) + w ⬝ᵥ w)) := by
      field_simp
      ring
    rw [h6]
    positivity
  have h7 := dot_self_nonneg m
  nlinarith

theorem expo_infinite {k : (Fin q → ℝ) → ℝ} {a b : ℝ} (hb : 0 ≤ b) (hk : ∀ u, -a - b * ‖u‖ ≤ k u)
    (m : Fin q → ℝ) {A : Matrix (Fin q) (Fin q) ℝ} {z0 : Fin q → ℝ}
    (hz : (A *ᵥ z0) ⬝ᵥ (A *ᵥ z0) < z0 ⬝ᵥ z0 / 2) :
    ∫⁻ z, ENNReal.ofReal (Real.exp (expo k m A z)) = ⊤ := by
  set u0 := A *ᵥ z0 with hu0
  have hcomp : IsCompact (Metric.closedBall (0 : Fin q → ℝ) 1) := isCompact_closedBall _ _
  have hcA : Continuous fun d : Fin q → ℝ => m + A *ᵥ d :=
    continuous_const.add (Continuous.matrix_mulVec continuous_const continuous_id)
  obtain ⟨c1, h1⟩ := hcomp.exists_bound_of_continuousOn (f := fun d => u0 ⬝ᵥ (m + A *ᵥ d))
    (Continuous.dotProduct continuous_const hcA).continuousOn
  obtain ⟨c2, h2⟩ := hcomp.exists_bound_of_continuousOn
    (f := fun d => (m + A *ᵥ d) ⬝ᵥ (m + A *ᵥ d)) (Continuous.dotProduct hcA hcA).continuousOn
  obtain ⟨c3, h3⟩ := hcomp.exists_bound_of_continuousOn (f := fun d : Fin q → ℝ => z0 ⬝ᵥ d)
    (Continuous.dotProduct continuous_const continuous_id).continuousOn
  obtain ⟨c4, h4⟩ := hcomp.exists_bound_of_continuousOn (f := fun d : Fin q → ℝ => m + A *ᵥ d)
    hcA.continuousOn
  set D := 2 * |a| + |c2| + 2 * b * |c4| + 2 * b * ‖u0‖ + 2 * |c1| + |c3| with hD
  refine lintegral_exp_top (z0 := z0) (δ := z0 ⬝ᵥ z0 / 2 - u0 ⬝ᵥ u0) (D := D) (by linarith)
    (by positivity) fun t ht d hd => ?_
  have e1 : affine m A (t • z0 + d) = t • u0 + (m + A *ᵥ d) := by
    unfold affine
    rw [Matrix.mulVec_add, Matrix.mulVec_smul]
    abel
  unfold expo
  rw [e1]
  have g1 := (le_abs_self _).trans ((h1 d hd).trans (le_abs_self c1))
  have g2 := (le_abs_self _).trans ((h2 d hd).trans (le_abs_self c2))
  have g3 := (neg_abs_le _).trans' (neg_le_neg ((h3 d hd).trans (le_abs_self c3)))
  have g4 := (h4 d hd).trans (le_abs_self c4)
  set y := m + A *ᵥ d with hy
  have g5 := hk (t • u0 + y)
  have g6 : ‖t • u0 + y‖ ≤ t * ‖u0‖ + |c4| := by
    refine (norm_add_le _ _).trans (add_le_add (le_of_eq ?_) g4)
    rw [norm_smul, Real.norm_of_nonneg ht]
  have g7 : (t • u0 + y) ⬝ᵥ (t • u0 + y) = t ^ 2 * (u0 ⬝ᵥ u0) + 2 * t * (u0 ⬝ᵥ y) + y ⬝ᵥ y :=
    dot_expand t u0 y
  have g8 : (t • z0 + d) ⬝ᵥ (t • z0 + d) = t ^ 2 * (z0 ⬝ᵥ z0) + 2 * t * (z0 ⬝ᵥ d) + d ⬝ᵥ d :=
    dot_expand t z0 d
  rw [g7, g8]
  have g9 := dot_self_nonneg d
  have f1 : b * ‖t • u0 + y‖ ≤ b * (t * ‖u0‖ + |c4|) := mul_le_mul_of_nonneg_left g6 hb
  have f2 : t * (u0 ⬝ᵥ y) ≤ t * |c1| := mul_le_mul_of_nonneg_left g1 ht
  have f3 : -(t * |c3|) ≤ t * (z0 ⬝ᵥ d) := by
    have := mul_le_mul_of_nonneg_left g3 ht
    linarith
  have f4 := le_abs_self a
  have f5 : 0 ≤ t * (2 * |a| + |c2| + 2 * b * |c4|) := by positivity
  have f6 : 0 ≤ 2 * b * ‖u0‖ + 2 * |c1| + |c3| := by positivity
  have f7 : D * t + D = t * (2 * |a| + |c2| + 2 * b * |c4|) + t * (2 * b * ‖u0‖ + 2 * |c1| + |c3|) +
      (2 * |a| + |c2| + 2 * b * |c4|) + (2 * b * ‖u0‖ + 2 * |c1| + |c3|) := by rw [hD]; ring
  nlinarith

end Verif.IS
