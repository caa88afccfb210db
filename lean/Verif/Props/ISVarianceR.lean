import Verif.Props.ISVariance

/-!
# C93 for the family objects of R

The functions `linkinv` of R's `binomial()` keep the fitted mean away from 0 and 1
(`logit_linkinv` in R's `src/library/stats/src/family.c`, `make.link("probit")` in
`src/library/stats/R/family.R`). The log-likelihood is then bounded below as well, and the variance of
the importance sampling estimate is finite exactly when all eigenvalues of the precision are below 2.
-/
namespace Verif.IS

open Verif.Split Verif.IS.Spec MeasureTheory ProbabilityTheory Matrix Filter Topology
open scoped ENNReal

variable {q n p : ℕ}

/-! ## Integrals in the boundary case -/

/-- A function bounded below along a tube has an exponential with infinite integral. -/
theorem lintegral_tube_top {h : (Fin q → ℝ) → ℝ} {z0 : Fin q → ℝ} (hz : z0 ≠ 0) {D : ℝ}
    (hh : ∀ t : ℝ, 0 ≤ t → ∀ d ∈ Metric.closedBall (0 : Fin q → ℝ) 1, -D ≤ h (t • z0 + d)) :
    ∫⁻ z, ENNReal.ofReal (Real.exp (h z)) = ⊤ := by
  have hz' : 0 < ‖z0‖ := norm_pos_iff.2 hz
  set c : ℝ := 3 / ‖z0‖ with hc
  have hc0 : 0 ≤ c := by positivity
  set B : ℕ → Set (Fin q → ℝ) := fun k => Metric.closedBall (((k : ℝ) * c) • z0) 1 with hB
  have hdis : Pairwise (Function.onFun Disjoint B) := by
    intro i j hij
    refine Metric.closedBall_disjoint_closedBall ?_
    rw [dist_eq_norm, ← sub_smul, norm_smul, ← sub_mul, norm_mul, Real.norm_of_nonneg hc0, hc]
    have h1 : (1 : ℝ) ≤ ‖(i : ℝ) - j‖ := by
      rw [Real.norm_eq_abs]
      have h2 : (1 : ℤ) ≤ |(i : ℤ) - j| := Int.one_le_abs (sub_ne_zero.2 (by exact_mod_cast hij))
      exact_mod_cast h2
    have h3 : ‖(i : ℝ) - j‖ * (3 / ‖z0‖) * ‖z0‖ = 3 * ‖(i : ℝ) - j‖ := by field_simp
    rw [h3]
    linarith
  set V := (volume : Measure (Fin q → ℝ)) (Metric.closedBall 0 1) with hV
  have hV0 : V ≠ 0 := (Metric.measure_closedBall_pos volume _ one_pos).ne'
  have key : ∀ k, ENNReal.ofReal (Real.exp (-D)) * V ≤ ∫⁻ z in B k, ENNReal.ofReal (Real.exp (h z)) := by
    intro k
    have hVk : V = volume (B k) := by
      rw [hV, hB]
      simp only [MeasureTheory.Measure.addHaar_closedBall_center]
    rw [hVk, ← setLIntegral_const]
    refine setLIntegral_mono' Metric.isClosed_closedBall.measurableSet fun z hz1 =>
      ENNReal.ofReal_le_ofReal (Real.exp_le_exp.2 ?_)
    have := hh (k * c) (by positivity) (z - ((k : ℝ) * c) • z0) (by
      rw [mem_closedBall_zero_iff, ← dist_eq_norm]
      exact hz1)
    rwa [add_sub_cancel] at this
  rw [← top_le_iff]
  calc (⊤ : ℝ≥0∞) = ∑' _ : ℕ, ENNReal.ofReal (Real.exp (-D)) * V :=
        (ENNReal.tsum_const_eq_top_of_ne_zero (mul_ne_zero (by
          simpa using Real.exp_pos (-D)) hV0)).symm
    _ ≤ ∑' k, ∫⁻ z in B k, ENNReal.ofReal (Real.exp (h z)) := ENNReal.tsum_le_tsum key
    _ = ∫⁻ z in ⋃ k, B k, ENNReal.ofReal (Real.exp (h z)) :=
        (lintegral_iUnion (fun k => Metric.isClosed_closedBall.measurableSet) hdis _).symm
    _ ≤ ∫⁻ z, ENNReal.ofReal (Real.exp (h z)) := setLIntegral_le_lintegral _ _

/-- The exponent with a log-likelihood bounded below: the integral is infinite as soon as one
transformed sample is not longer than the sample divided by `√2`. -/
theorem expo_infinite_le {k : (Fin q → ℝ) → ℝ} {a : ℝ} (hk : ∀ u, -a ≤ k u)
    (m : Fin q → ℝ) {A : Matrix (Fin q) (Fin q) ℝ} {z0 : Fin q → ℝ} (h0 : z0 ≠ 0)
    (hz : (A *ᵥ z0) ⬝ᵥ (A *ᵥ z0) ≤ z0 ⬝ᵥ z0 / 2) :
    ∫⁻ z, ENNReal.ofReal (Real.exp (expo k m A z)) = ⊤ := by
  by_cases hs : ∃ z : Fin q → ℝ, (A *ᵥ z) ⬝ᵥ (A *ᵥ z) < z ⬝ᵥ z / 2
  · obtain ⟨z, hz⟩ := hs
    exact expo_infinite (a := a) le_rfl (fun u => by simpa using hk u) m hz
  push Not at hs
  -- the form `|A z|² - |z|² / 2` is positive semidefinite and vanishes at `z0`
  set G : Matrix (Fin q) (Fin q) ℝ := Aᵀ * A - (1 / 2 : ℝ) • (1 : Matrix (Fin q) (Fin q) ℝ) with hG
  have hform : ∀ z : Fin q → ℝ, z ⬝ᵥ (G *ᵥ z) = (A *ᵥ z) ⬝ᵥ (A *ᵥ z) - z ⬝ᵥ z / 2 := fun z => by
    rw [hG, Matrix.sub_mulVec, dotProduct_sub, dot_gram, Matrix.smul_mulVec, Matrix.one_mulVec,
      dotProduct_smul, smul_eq_mul]
    ring
  have hpsd : G.PosSemidef := by
    refine Matrix.PosSemidef.of_dotProduct_mulVec_nonneg ?_ fun z => ?_
    · rw [hG, Matrix.IsHermitian, Matrix.conjTranspose_eq_transpose_of_trivial]
      simp [Matrix.transpose_sub, Matrix.transpose_mul]
    · show 0 ≤ star z ⬝ᵥ (G *ᵥ z)
      rw [star_trivial, hform]
      linarith [hs z]
  have hker : G *ᵥ z0 = 0 := by
    rw [← hpsd.dotProduct_mulVec_zero_iff, star_trivial, hform]
    linarith [hs z0]
  -- the sign of the direction is chosen so that the linear part does not decrease
  obtain ⟨z1, h1, hz1, hk1⟩ : ∃ z1 : Fin q → ℝ, z1 ≠ 0 ∧ (Aᵀ *ᵥ m) ⬝ᵥ z1 ≤ 0 ∧ G *ᵥ z1 = 0 := by
    rcases le_total ((Aᵀ *ᵥ m) ⬝ᵥ z0) 0 with hle | hle
    · exact ⟨z0, h0, hle, hker⟩
    · exact ⟨-z0, neg_ne_zero.2 h0, by rw [dotProduct_neg]; linarith, by rw [Matrix.mulVec_neg, hker, neg_zero]⟩
  have hcomp : IsCompact (Metric.closedBall (0 : Fin q → ℝ) 1) := isCompact_closedBall _ _
  have hcA : Continuous fun d : Fin q → ℝ => G *ᵥ d :=
    Continuous.matrix_mulVec continuous_const continuous_id
  obtain ⟨c1, b1⟩ := hcomp.exists_bound_of_continuousOn (f := fun d => (Aᵀ *ᵥ m) ⬝ᵥ d)
    (Continuous.dotProduct continuous_const continuous_id).continuousOn
  obtain ⟨c2, b2⟩ := hcomp.exists_bound_of_continuousOn
    (f := fun d => d ⬝ᵥ (G *ᵥ d)) (Continuous.dotProduct continuous_id hcA).continuousOn
  refine lintegral_tube_top h1 (D := 2 * a + m ⬝ᵥ m + 2 * c1 + c2) fun t ht d hd => ?_
  have g1 := (le_abs_self _).trans (b1 d hd)
  have g2 := (le_abs_self _).trans (b2 d hd)
  set z := t • z1 + d with hzd
  have e1 : affine m A z ⬝ᵥ affine m A z =
      m ⬝ᵥ m + 2 * ((Aᵀ *ᵥ m) ⬝ᵥ z) + (A *ᵥ z) ⬝ᵥ (A *ᵥ z) := by
    unfold affine
    rw [add_dotProduct, dotProduct_add, dotProduct_add, dotProduct_comm (A *ᵥ z) m,
      Matrix.dotProduct_mulVec m A z, Matrix.mulVec_transpose]
    ring
  have e2 : z ⬝ᵥ (G *ᵥ z) = d ⬝ᵥ (G *ᵥ d) := by
    have hGt : z1 ⬝ᵥ (G *ᵥ d) = 0 := by
      rw [Matrix.dotProduct_mulVec, ← Matrix.mulVec_transpose]
      have : Gᵀ = G := by
        have := hpsd.isHermitian
        rwa [Matrix.IsHermitian, Matrix.conjTranspose_eq_transpose_of_trivial] at this
      rw [this, hk1, zero_dotProduct]
    rw [hzd, Matrix.mulVec_add, Matrix.mulVec_smul, hk1, smul_zero, zero_add, add_dotProduct,
      smul_dotProduct, hGt, smul_zero, zero_add]
  have e3 : (Aᵀ *ᵥ m) ⬝ᵥ z = t * ((Aᵀ *ᵥ m) ⬝ᵥ z1) + (Aᵀ *ᵥ m) ⬝ᵥ d := by
    rw [hzd, dotProduct_add, dotProduct_smul, smul_eq_mul]
  have e4 := hform z
  have e5 := hk (affine m A z)
  have e6 : t * ((Aᵀ *ᵥ m) ⬝ᵥ z1) ≤ 0 := mul_nonpos_of_nonneg_of_nonpos ht hz1
  unfold expo
  rw [e1]
  linarith

/-- If the precision has an eigenvalue of at least 2, some transformed sample is short. -/
theorem short_of_le {A R : Matrix (Fin q) (Fin q) ℝ} (hc : Spec.IsChol A R) {x : Fin q → ℝ}
    (h0 : x ≠ 0) (hx : 2 * (x ⬝ᵥ x) ≤ x ⬝ᵥ (A *ᵥ x)) :
    ∃ z : Fin q → ℝ, z ≠ 0 ∧ ((R⁻¹)ᵀ *ᵥ z) ⬝ᵥ ((R⁻¹)ᵀ *ᵥ z) ≤ z ⬝ᵥ z / 2 := by
  rw [← hc.eq, dot_gram] at hx
  have hxx : 0 < x ⬝ᵥ x := (dot_self_nonneg x).lt_of_ne fun h => h0 (dotProduct_self_eq_zero.1 h.symm)
  refine ⟨Rᵀ *ᵥ (R *ᵥ x), fun h => ?_, ?_⟩
  · have h1 : (R *ᵥ x) ⬝ᵥ (R *ᵥ x) = 0 := by
      rw [show (R *ᵥ x) ⬝ᵥ (R *ᵥ x) = x ⬝ᵥ (Rᵀ *ᵥ (R *ᵥ x)) by
        rw [Matrix.dotProduct_mulVec x, Matrix.vecMul_transpose], h, dotProduct_zero]
    linarith
  · rw [inv_transpose_cancel hc.det_pos.ne']
    set u := R *ᵥ x with hu
    have h1 : u ⬝ᵥ u = x ⬝ᵥ (Rᵀ *ᵥ u) := by
      rw [Matrix.dotProduct_mulVec x, Matrix.vecMul_transpose]
    have h2 := dot_sq_le x (Rᵀ *ᵥ u)
    rw [← h1] at h2
    by_contra hcon
    rw [not_le] at hcon
    have h5 : 0 < u ⬝ᵥ u := by linarith
    have h6 : (x ⬝ᵥ x) * ((Rᵀ *ᵥ u) ⬝ᵥ (Rᵀ *ᵥ u)) < (x ⬝ᵥ x) * (2 * (u ⬝ᵥ u)) :=
      mul_lt_mul_of_pos_left (by linarith) hxx
    nlinarith

/-! ## C93 -/

/-- C93 for log-likelihoods bounded below and above: for every number of samples the estimate of the
likelihood has a finite second moment if and only if all eigenvalues of the precision of the normal
approximation are below 2. -/
theorem c93_bounded_iff {Ω : Type} [MeasurableSpace Ω] {P : Measure Ω} {N : ℕ → Ω → ℝ} (hN : Stream N P)
    {chol : Matrix (Fin q) (Fin q) ℝ → Matrix (Fin q) (Fin q) ℝ}
    {approx : NormalApprox q} (hc : IsChol approx.precision (chol approx.precision))
    {fam : Fam} (h1 : Measurable fam.linkinv) (h2 : ∀ y w, Measurable fun m => fam.devResid y m w)
    {M : ModFr q n p} {theta beta : List ℝ} (h : Split.Spec.WellFormed M theta.length)
    (ht : theta ≠ []) (hb : beta.length = p) {a : ℝ} (ha : ∀ u, |Spec.dataPart fam M theta beta u| ≤ a)
    {r : ℕ} (hr : 0 < r) :
    ∃ v : Ω → ℝ, (∀ ω, lfun chol fam M theta.length approx (fill q r fun i => N i ω)
        (theta ++ beta) = Except.ok (v ω)) ∧
      (Spec.secondMoment P v ≠ ⊤ ↔ ∀ x : Fin q → ℝ, x ≠ 0 →
        x ⬝ᵥ (approx.precision *ᵥ x) < 2 * (x ⬝ᵥ x)) := by
  obtain ⟨W, hW, hpos, hval, -, hl⟩ := exists_weight hc h1 h2 h ht hb
  refine ⟨_, fun ω => hl r hr fun i => N i ω, ?_⟩
  show Spec.secondMoment P (fun ω => Real.log ((∑ s ∈ Finset.range r, W (col q N s ω)) / r)) ≠ ⊤ ↔ _
  rw [Ne, secondMoment_iff hN hW hpos hr]
  obtain ⟨C, hC, e⟩ := second_moment_weight fam M theta beta approx.mean (det_sample hc) hval hW
  rw [e]
  constructor
  · intro hfin x hx
    by_contra hcon
    rw [not_lt] at hcon
    obtain ⟨z, hz, hs⟩ := short_of_le hc hx hcon
    rw [expo_infinite_le (a := a) (fun u => (abs_le.1 (ha u)).1) approx.mean hz hs, ENNReal.mul_top]
      at hfin
    · exact hfin rfl
    · simpa using hC
  · intro hx
    have hA : ((2 : ℝ) • (1 : Matrix (Fin q) (Fin q) ℝ) - approx.precision).PosDef := by
      refine Matrix.PosDef.of_dotProduct_mulVec_pos ?_ fun x h0 => ?_
      · rw [Matrix.IsHermitian, Matrix.conjTranspose_eq_transpose_of_trivial, ← hc.eq]
        simp [Matrix.transpose_sub, Matrix.transpose_mul]
      · show 0 < star x ⬝ᵥ (((2 : ℝ) • (1 : Matrix (Fin q) (Fin q) ℝ) - approx.precision) *ᵥ x)
        rw [star_trivial, Matrix.sub_mulVec, Matrix.smul_mulVec, Matrix.one_mulVec, dotProduct_sub,
          dotProduct_smul, smul_eq_mul]
        linarith [hx x h0]
    obtain ⟨ε, hε, hl⟩ := long_of_posDef hc hA
    exact ENNReal.mul_ne_top ENNReal.ofReal_ne_top
      (expo_finite (fun u => (abs_le.1 (ha u)).2) approx.mean hε hl)

/-! ## The functions of R -/

/-- `.Machine$double.eps`. -/
noncomputable def doubleEps : ℝ := (2 : ℝ) ^ (-52 : ℤ)

/-- `binomial(link = "logit")$linkinv` (R, src/library/stats/src/family.c, `logit_linkinv`, with
`THRESH` 30, `MTHRESH` -30 and `INVEPS` one over the machine epsilon). -/
noncomputable def rLogit (eta : ℝ) : ℝ :=
  let tmp := if eta < -30 then doubleEps else if eta > 30 then 1 / doubleEps else Real.exp eta
  tmp / (1 + tmp)

/-- `binomial(link = "probit")$linkinv` (R, src/library/stats/R/family.R, `make.link`):
`thresh <- -qnorm(.Machine$double.eps); eta <- pmin(pmax(eta, -thresh), thresh); pnorm(eta)`. -/
noncomputable def rProbit (thresh eta : ℝ) : ℝ :=
  Family.invProbit (min (max eta (-thresh)) thresh)

/-- Means that stay away from 0 and 1 give bounded deviance residuals. -/
theorem binomialDev_bounded {lo hi : ℝ} (hlo : 0 < lo) (hhi : hi < 1) (y w : ℝ) :
    ∃ c, ∀ m, lo ≤ m → m ≤ hi → |binomialDev y m w| ≤ c := by
  have hcont : ContinuousOn (fun m => binomialDev y m w) (Set.Icc lo hi) := by
    unfold binomialDev
    refine ContinuousOn.mul continuousOn_const (ContinuousOn.add ?_ ?_)
    · by_cases hy : y = 0
      · simp only [hy, ne_eq, not_true_eq_false, if_false]
        exact continuousOn_const
      · simp only [ne_eq, hy, not_false_eq_true, if_true]
        refine ContinuousOn.mul continuousOn_const (ContinuousOn.log (ContinuousOn.div continuousOn_const
          continuousOn_id fun m hm => ?_) fun m hm => ?_)
        · exact (hlo.trans_le hm.1).ne'
        · exact div_ne_zero hy (hlo.trans_le hm.1).ne'
    · by_cases hy : 1 - y = 0
      · simp only [hy, ne_eq, not_true_eq_false, if_false]
        exact continuousOn_const
      · simp only [ne_eq, hy, not_false_eq_true, if_true]
        have hm1 : ∀ m ∈ Set.Icc lo hi, 1 - m ≠ 0 := fun m hm =>
          (by linarith [hm.2] : (0 : ℝ) < 1 - m).ne'
        exact ContinuousOn.mul continuousOn_const (ContinuousOn.log (ContinuousOn.div continuousOn_const
          (continuousOn_const.sub continuousOn_id) hm1) fun m hm => div_ne_zero hy (hm1 m hm))
  obtain ⟨c, hc⟩ := isCompact_Icc.exists_bound_of_continuousOn hcont
  exact ⟨c, fun m h1 h2 => hc m ⟨h1, h2⟩⟩

/-- C93 for binomial models with fitted means kept away from 0 and 1. -/
theorem c93_clamped_iff {Ω : Type} [MeasurableSpace Ω] {P : Measure Ω} {N : ℕ → Ω → ℝ}
    (hN : Stream N P) {chol : Matrix (Fin q) (Fin q) ℝ → Matrix (Fin q) (Fin q) ℝ}
    {approx : NormalApprox q} (hc : IsChol approx.precision (chol approx.precision))
    {μ : ℝ → ℝ} (hμ : Measurable μ) {lo hi : ℝ} (hlo : 0 < lo) (hhi : hi < 1)
    (hr1 : ∀ x, lo ≤ μ x ∧ μ x ≤ hi) {M : ModFr q n p}
    {theta beta : List ℝ} (h : Split.Spec.WellFormed M theta.length)
    (ht : theta ≠ []) (hb : beta.length = p) {r : ℕ} (hr : 0 < r) :
    ∃ v : Ω → ℝ, (∀ ω, lfun chol ⟨μ, binomialDev⟩ M theta.length approx (fill q r fun i => N i ω)
        (theta ++ beta) = Except.ok (v ω)) ∧
      (Spec.secondMoment P v ≠ ⊤ ↔ ∀ x : Fin q → ℝ, x ≠ 0 →
        x ⬝ᵥ (approx.precision *ᵥ x) < 2 * (x ⬝ᵥ x)) := by
  choose c hcb using fun j => binomialDev_bounded hlo hhi (M.resp j) (Split.Spec.weight M j)
  refine c93_bounded_iff hN hc (fam := ⟨μ, binomialDev⟩) hμ measurable_binomialDev h ht hb
    (a := 1 / 2 * ∑ j, c j) (fun u => ?_) hr
  unfold Spec.dataPart
  rw [abs_mul, show |-(1 / 2 : ℝ)| = 1 / 2 by norm_num]
  refine mul_le_mul_of_nonneg_left ((Finset.abs_sum_le_sum_abs _ _).trans
    (Finset.sum_le_sum fun j _ => hcb j _ (hr1 _).1 (hr1 _).2)) (by norm_num)

theorem rLogit_range : ∃ lo hi : ℝ, 0 < lo ∧ hi < 1 ∧ ∀ x, lo ≤ rLogit x ∧ rLogit x ≤ hi := by
  have hε : 0 < doubleEps := by unfold doubleEps; positivity
  set lo0 := min doubleEps (min (1 / doubleEps) (Real.exp (-30))) with hlo0
  set hi0 := max doubleEps (max (1 / doubleEps) (Real.exp 30)) with hhi0
  have hl : 0 < lo0 := by
    refine lt_min hε (lt_min (by positivity) (Real.exp_pos _))
  have hmono : ∀ s t : ℝ, 0 < s → s ≤ t → s / (1 + s) ≤ t / (1 + t) := fun s t hs hst => by
    rw [div_le_div_iff₀ (by linarith) (by linarith)]
    nlinarith
  have hh : 0 < hi0 := lt_of_lt_of_le hε (le_max_left _ _)
  refine ⟨lo0 / (1 + lo0), hi0 / (1 + hi0), by positivity, ?_, fun x => ?_⟩
  · rw [div_lt_one (by linarith)]
    linarith
  · have hb : lo0 ≤ (if x < -30 then doubleEps else if x > 30 then 1 / doubleEps else Real.exp x) ∧
        (if x < -30 then doubleEps else if x > 30 then 1 / doubleEps else Real.exp x) ≤ hi0 := by
      split_ifs with c1 c2
      · exact ⟨min_le_left _ _, le_max_left _ _⟩
      · exact ⟨(min_le_right _ _).trans (min_le_left _ _), (le_max_left _ _).trans (le_max_right _ _)⟩
      · exact ⟨(min_le_right _ _).trans ((min_le_right _ _).trans (Real.exp_le_exp.2 (not_lt.1 c1))),
          (Real.exp_le_exp.2 (not_lt.1 c2)).trans ((le_max_right _ _).trans (le_max_right _ _))⟩
    exact ⟨hmono _ _ hl hb.1, hmono _ _ (hl.trans_le hb.1) hb.2⟩

theorem rLogit_measurable : Measurable rLogit := by
  unfold rLogit
  have h1 : Measurable fun eta : ℝ => if eta < -30 then doubleEps else
      if eta > 30 then 1 / doubleEps else Real.exp eta :=
    Measurable.ite (measurableSet_lt measurable_id measurable_const) measurable_const
      (Measurable.ite (measurableSet_lt measurable_const measurable_id) measurable_const
        Real.measurable_exp)
  exact h1.div (measurable_const.add h1)

theorem rProbit_range {thresh : ℝ} (ht : 0 ≤ thresh) :
    ∃ lo hi : ℝ, 0 < lo ∧ hi < 1 ∧ ∀ x, lo ≤ rProbit thresh x ∧ rProbit thresh x ≤ hi := by
  obtain ⟨hr, hcont⟩ := link_range .probit
  have hne : (Set.Icc (-thresh) thresh).Nonempty := ⟨0, by constructor <;> linarith⟩
  obtain ⟨a, -, ha⟩ := isCompact_Icc.exists_isMinOn hne hcont.continuousOn
  obtain ⟨b, -, hb⟩ := isCompact_Icc.exists_isMaxOn hne hcont.continuousOn
  refine ⟨_, _, (hr a).1, (hr b).2, fun x => ?_⟩
  have hm : min (max x (-thresh)) thresh ∈ Set.Icc (-thresh) thresh :=
    ⟨le_min (le_max_right _ _) (by linarith), min_le_right _ _⟩
  exact ⟨ha hm, hb hm⟩

theorem rProbit_measurable (thresh : ℝ) : Measurable (rProbit thresh) :=
  (link_range .probit).2.measurable.comp ((measurable_id.max measurable_const).min measurable_const)

/-- C93 for R's `binomial(link = "logit")`: the variance is finite if and only if all eigenvalues of
the precision are below 2. -/
theorem c93_rLogit_iff {Ω : Type} [MeasurableSpace Ω] {P : Measure Ω} {N : ℕ → Ω → ℝ}
    (hN : Stream N P) {chol : Matrix (Fin q) (Fin q) ℝ → Matrix (Fin q) (Fin q) ℝ}
    {approx : NormalApprox q} (hc : IsChol approx.precision (chol approx.precision))
    {M : ModFr q n p} {theta beta : List ℝ} (h : Split.Spec.WellFormed M theta.length)
    (ht : theta ≠ []) (hb : beta.length = p) {r : ℕ} (hr : 0 < r) :
    ∃ v : Ω → ℝ, (∀ ω, lfun chol ⟨rLogit, binomialDev⟩ M theta.length approx
        (fill q r fun i => N i ω) (theta ++ beta) = Except.ok (v ω)) ∧
      (Spec.secondMoment P v ≠ ⊤ ↔ ∀ x : Fin q → ℝ, x ≠ 0 →
        x ⬝ᵥ (approx.precision *ᵥ x) < 2 * (x ⬝ᵥ x)) := by
  obtain ⟨lo, hi, hlo, hhi, h1⟩ := rLogit_range
  exact c93_clamped_iff hN hc rLogit_measurable hlo hhi h1 h ht hb hr

/-- C93 for R's `binomial(link = "probit")`, for any threshold (R has about 8.1). -/
theorem c93_rProbit_iff {Ω : Type} [MeasurableSpace Ω] {P : Measure Ω} {N : ℕ → Ω → ℝ}
    (hN : Stream N P) {chol : Matrix (Fin q) (Fin q) ℝ → Matrix (Fin q) (Fin q) ℝ}
    {approx : NormalApprox q} (hc : IsChol approx.precision (chol approx.precision))
    {thresh : ℝ} (h0 : 0 ≤ thresh)
    {M : ModFr q n p} {theta beta : List ℝ} (h : Split.Spec.WellFormed M theta.length)
    (ht : theta ≠ []) (hb : beta.length = p) {r : ℕ} (hr : 0 < r) :
    ∃ v : Ω → ℝ, (∀ ω, lfun chol ⟨rProbit thresh, binomialDev⟩ M theta.length approx
        (fill q r fun i => N i ω) (theta ++ beta) = Except.ok (v ω)) ∧
      (Spec.secondMoment P v ≠ ⊤ ↔ ∀ x : Fin q → ℝ, x ≠ 0 →
        x ⬝ᵥ (approx.precision *ᵥ x) < 2 * (x ⬝ᵥ x)) := by
  obtain ⟨lo, hi, hlo, hhi, h1⟩ := rProbit_range h0
  exact c93_clamped_iff hN hc (rProbit_measurable thresh) hlo hhi h1 h ht hb hr

/-- The boundary case: two crossed random effects, an eigenvalue of exactly 2 (and one of 1), infinite
variance for every number of samples. -/
example : ∃ (chol : Matrix (Fin 2) (Fin 2) ℝ → Matrix (Fin 2) (Fin 2) ℝ) (Ω : Type)
    (_ : MeasurableSpace Ω) (P : Measure Ω) (N : ℕ → Ω → ℝ), Stream N P ∧ ∀ r, 0 < r →
      ∃ v : Ω → ℝ, (∀ ω, lfun chol ⟨rProbit 8, binomialDev⟩ crossed 2 ⟨![1, 2], !![1, 0; 0, 2]⟩
        (fill 2 r fun i => N i ω) [1, 2, 0.5] = Except.ok (v ω)) ∧
      Spec.secondMoment P v = ⊤ := by
  obtain ⟨Ω, i, P, N, hN⟩ := exists_stream
  refine ⟨fun _ => !![1, 0; 0, √2], Ω, i, P, N, hN, fun r hr => ?_⟩
  obtain ⟨v, h1, h2⟩ := c93_rProbit_iff hN (chol := fun _ => !![1, 0; 0, √2])
    (approx := ⟨![1, 2], !![1, 0; 0, 2]⟩) (by
      constructor
      · intro i j
        fin_cases i <;> fin_cases j <;> simp
      · intro i
        fin_cases i <;> simp
      · ext i j
        fin_cases i <;> fin_cases j <;> simp [Matrix.mul_apply, Fin.sum_univ_two])
    (thresh := 8) (by norm_num) (M := crossed) (theta := [1, 2]) (beta := [0.5]) crossed_wf (by simp)
    rfl hr
  refine ⟨v, h1, ?_⟩
  by_contra hne
  have := h2.1 hne ![0, 1] (fun h => by simpa using congrFun h 1)
  simp [Matrix.mulVec, dotProduct, Fin.sum_univ_two] at this

end Verif.IS
