import Verif.Proofs.Family
import Verif.Proofs.Integrated
import Verif.Props.GridDeriv
import Mathlib.Analysis.Calculus.Deriv.MeanValue
import Mathlib.Analysis.Calculus.Deriv.Pi
import Mathlib.Analysis.Complex.ExponentialBounds

/-! # Log-likelihoods and their derivatives (C31–C34) -/
namespace Verif.Family

open MeasureTheory ProbabilityTheory Set Filter Topology Verif.Integrated

variable {n : ℕ}

/-! ## Specification -/

/-- Log-likelihood of one observation (up to a constant) as a function of the linear predictor,
for mean function `μ`, response `y` and weight `w`. -/
noncomputable def logLik (μ : ℝ → ℝ) (y w : ℝ) (x : ℝ) : ℝ :=
  w * (y * Real.log (μ x) + (1 - y) * Real.log (1 - μ x))

/-- Inverse logit. -/
noncomputable def expit (x : ℝ) : ℝ := (1 + Real.exp (-x))⁻¹

/-- Inverse probit: probability that a standard normal variable is at most `x`. -/
noncomputable def invProbit (x : ℝ) : ℝ := (gaussianReal 0 1).real (Iic x)

/-- `D1 … D4` are the first four derivatives of `L` at `x`. -/
def IsFourDerivs (L : ℝ → ℝ) (x D1 D2 D3 D4 : ℝ) : Prop :=
  HasDerivAt L D1 x ∧ HasDerivAt (iteratedDeriv 1 L) D2 x ∧ HasDerivAt (iteratedDeriv 2 L) D3 x ∧
    HasDerivAt (iteratedDeriv 3 L) D4 x

/-! ## C31, C32 -/

theorem lo0_eq : lo0 = expit := by
  funext x
  rw [lo0, expit, Real.exp_neg]
  have := Real.exp_pos x
  field_simp
  rw [add_comm]

theorem normalCdf_eq : normalCdf = invProbit := by
  funext x
  exact cdf_eq_real _ x

theorem checkMean_id {mean : Fin n → ℝ}
    (h : ∀ i, 1e-8 ≤ mean i ∧ mean i ≤ 1 - 1e-8) : Binomial.checkMean mean = mean := by
  funext i
  have h1 := (h i).1
  have h2 := (h i).2
  unfold Binomial.checkMean Binomial.epsilon
  simp only [gt_iff_lt]
  rw [if_neg (not_lt.mpr h1), if_neg (not_lt.mpr h2)]

theorem fourDerivs {μ μ1 μ2 μ3 μ4 : ℝ → ℝ} (h : LinkOk μ μ1 μ2 μ3 μ4) (w y x : ℝ) :
    IsFourDerivs (logLik μ y w) x (t1 μ μ1 w y x) (t2 μ μ1 μ2 w y x) (t3 μ μ1 μ2 μ3 w y x)
      (t4 μ μ1 μ2 μ3 μ4 w y x) := by
  refine ⟨t0_deriv h w y x, ?_, ?_, ?_⟩
  · rw [show logLik μ y w = fun x => b0 w y (μ x) from rfl, iter1 h]
    exact t1_deriv h w y x
  · rw [show logLik μ y w = fun x => b0 w y (μ x) from rfl, iter2 h]
    exact t2_deriv h w y x
  · rw [show logLik μ y w = fun x => b0 w y (μ x) from rfl, iter3 h]
    exact t3_deriv h w y x

/-- C31. For all linear predictors with means in `[1e-8, 1 - 1e-8]`, all responses and weights, the
binomial family with the logit link returns the log-likelihood and, for each observation, its first
four derivatives. -/
theorem c31_logit : ∃ f, Family.ofNames "binomial" "logit" = Except.ok f ∧
    ∀ (n : ℕ) (eta y w : Fin n → ℝ),
      (∀ i, 1e-8 ≤ expit (eta i) ∧ expit (eta i) ≤ 1 - 1e-8) →
      f.evaluate eta y w = Except.ok (∑ i, logLik expit (y i) (w i) (eta i)) ∧
      ∃ D1 D2 D3 D4 : Fin n → ℝ, f.evaluateDerivative eta y w = Except.ok D1 ∧
        f.evaluateSecondDerivative eta y w = Except.ok D2 ∧
        f.evaluateThirdDerivative eta y w = Except.ok D3 ∧
        f.evaluateFourthDerivative eta y w = Except.ok D4 ∧
        ∀ i, IsFourDerivs (logLik expit (y i) (w i)) (eta i) (D1 i) (D2 i) (D3 i) (D4 i) := by
  refine ⟨⟨some .logit, some .binomial⟩, rfl, fun n eta y w hm => ?_⟩
  have hm' : Binomial.checkMean (LogitLink.computeMean eta) = fun i => lo0 (eta i) :=
    checkMean_id (mean := fun i => lo0 (eta i)) (by rw [lo0_eq]; exact hm)
  refine ⟨?_, _, _, _, _, rfl, rfl, rfl, rfl, fun i => ?_⟩
  · show Except.ok (Binomial.evaluate (Binomial.checkMean (LogitLink.computeMean eta)) y w) = _
    rw [hm', ← lo0_eq]
    rfl
  · simp only [hm']
    rw [← lo0_eq]
    exact fourDerivs logit_ok (w i) (y i) (eta i)

/-- C32. The same for the probit link. -/
theorem c32_probit : ∃ f, Family.ofNames "binomial" "probit" = Except.ok f ∧
    ∀ (n : ℕ) (eta y w : Fin n → ℝ),
      (∀ i, 1e-8 ≤ invProbit (eta i) ∧ invProbit (eta i) ≤ 1 - 1e-8) →
      f.evaluate eta y w = Except.ok (∑ i, logLik invProbit (y i) (w i) (eta i)) ∧
      ∃ D1 D2 D3 D4 : Fin n → ℝ, f.evaluateDerivative eta y w = Except.ok D1 ∧
        f.evaluateSecondDerivative eta y w = Except.ok D2 ∧
        f.evaluateThirdDerivative eta y w = Except.ok D3 ∧
        f.evaluateFourthDerivative eta y w = Except.ok D4 ∧
        ∀ i, IsFourDerivs (logLik invProbit (y i) (w i)) (eta i) (D1 i) (D2 i) (D3 i) (D4 i) := by
  refine ⟨⟨some .probit, some .binomial⟩, rfl, fun n eta y w hm => ?_⟩
  have hm' : Binomial.checkMean (ProbitLink.computeMean eta) = fun i => normalCdf (eta i) :=
    checkMean_id (mean := fun i => normalCdf (eta i)) (by rw [normalCdf_eq]; exact hm)
  refine ⟨?_, _, _, _, _, rfl, rfl, rfl, rfl, fun i => ?_⟩
  · show Except.ok (Binomial.evaluate (Binomial.checkMean (ProbitLink.computeMean eta)) y w) = _
    rw [hm', ← normalCdf_eq]
    rfl
  · simp only [hm']
    rw [← normalCdf_eq]
    exact fourDerivs probit_ok (w i) (y i) (eta i)

/-- The hypotheses of C31 and C32 are met: linear predictors 0. -/
example : (1e-8 ≤ expit 0 ∧ expit 0 ≤ 1 - 1e-8) ∧
    (1e-8 ≤ invProbit 0 ∧ invProbit 0 ≤ 1 - 1e-8) := by
  have h1 : expit 0 = 1 / 2 := by simp [expit]; norm_num
  have h2 : invProbit 0 = 1 / 2 := by rw [← normalCdf_eq]; exact NormalQuantile.F_zero
  rw [h1, h2]
  norm_num

/-! ## C33 -/

/-- Closed form of the clamped mean. -/
noncomputable def clamp (m : ℝ) : ℝ := max 1e-8 (min m (1 - 1e-8))

theorem checkMean_eq (mean : Fin n → ℝ) : Binomial.checkMean mean = fun i => clamp (mean i) := by
  funext i
  unfold Binomial.checkMean Binomial.epsilon clamp
  simp only [gt_iff_lt]
  by_cases h1 : mean i < 1e-8
  · rw [if_pos h1, if_neg (by norm_num), min_eq_left (by linarith), max_eq_left h1.le]
  · rw [if_neg h1]
    by_cases h2 : 1 - 1e-8 < mean i
    · rw [if_pos h2, min_eq_right h2.le, max_eq_right (by norm_num)]
    · rw [if_neg h2, min_eq_left (not_lt.mp h2), max_eq_right (not_lt.mp h1)]

theorem clamp_mem (m : ℝ) : 1e-8 ≤ clamp m ∧ clamp m ≤ 1 - 1e-8 :=
  ⟨le_max_left _ _, max_le (by norm_num) (min_le_right _ _)⟩

theorem clamp_low {m : ℝ} (h : m ≤ 1e-8) : clamp m = 1e-8 :=
  max_eq_left (le_trans (min_le_left _ _) h)

theorem clamp_high {m : ℝ} (h : 1 - 1e-8 ≤ m) : clamp m = 1 - 1e-8 := by
  rw [clamp, min_eq_right h, max_eq_right (by norm_num)]

theorem clamp_mid {m : ℝ} (h1 : 1e-8 ≤ m) (h2 : m ≤ 1 - 1e-8) : clamp m = m := by
  rw [clamp, min_eq_left h2, max_eq_right h1]

theorem b1_zero_iff {w y m : ℝ} (h0 : 0 < m) (h1 : m < 1) : b1 w y m = 0 ↔ w = 0 ∨ y = m := by
  have h2 : 1 - m ≠ 0 := by linarith
  have h3 : y / m - (1 - y) / (1 - m) = (y - m) / (m * (1 - m)) := by
    field_simp
    ring
  rw [b1, h3, mul_eq_zero, div_eq_zero_iff, sub_eq_zero]
  have : m * (1 - m) ≠ 0 := mul_ne_zero h0.ne' h2
  simp [this]

section
variable {μ μ1 μ2 μ3 μ4 : ℝ → ℝ} (h : LinkOk μ μ1 μ2 μ3 μ4)
include h

theorem mu_mono : StrictMono μ :=
  strictMono_of_deriv_pos fun x => by rw [(h.d1 x).deriv]; exact h.d1_pos x

theorem mu_cont : Continuous μ := continuous_iff_continuousAt.mpr fun x => (h.d1 x).continuousAt

/-- One observation: the reported derivative is that of the clamped log-likelihood exactly when the
mean is not clamped or the reported derivative vanishes. -/
theorem clamp_deriv_iff (w y x : ℝ) :
    HasDerivAt (fun t => b0 w y (clamp (μ t))) (μ1 x * b1 w y (clamp (μ x))) x ↔
      (1e-8 < μ x ∧ μ x < 1 - 1e-8) ∨ w = 0 ∨ y = clamp (μ x) := by
  have hc := clamp_mem (μ x)
  have hb : μ1 x * b1 w y (clamp (μ x)) = 0 ↔ w = 0 ∨ y = clamp (μ x) := by
    rw [mul_eq_zero, b1_zero_iff (lt_of_lt_of_le (by norm_num) hc.1)
      (lt_of_le_of_lt hc.2 (by norm_num))]
    simp [(h.d1_pos x).ne']
  by_cases hin : 1e-8 < μ x ∧ μ x < 1 - 1e-8
  · refine ⟨fun _ => Or.inl hin, fun _ => ?_⟩
    rw [clamp_mid hin.1.le hin.2.le]
    refine (t0_deriv h w y x).congr_of_eventuallyEq ?_
    have h1 := (mu_cont h).continuousAt (x := x) |>.eventually (lt_mem_nhds hin.1)
    have h2 := (mu_cont h).continuousAt (x := x) |>.eventually (gt_mem_nhds hin.2)
    filter_upwards [h1, h2] with t ht1 ht2
    rw [clamp_mid ht1.le ht2.le]
  · rw [← hb]
    -- one side is constant
    have key : ∀ s : Set ℝ, UniqueDiffWithinAt ℝ s x →
        (∀ t ∈ s, b0 w y (clamp (μ t)) = b0 w y (clamp (μ x))) →
        HasDerivAt (fun t => b0 w y (clamp (μ t))) (μ1 x * b1 w y (clamp (μ x))) x →
        μ1 x * b1 w y (clamp (μ x)) = 0 := by
      intro s hs hcon hd
      have h1 : HasDerivWithinAt (fun t => b0 w y (clamp (μ t))) 0 s x :=
        (hasDerivWithinAt_const x s (b0 w y (clamp (μ x)))).congr hcon rfl
      exact hs.eq_deriv _ hd.hasDerivWithinAt h1
    rcases le_or_gt (μ x) 1e-8 with hlow | hnl
    · have hcon : ∀ t ∈ Iic x, b0 w y (clamp (μ t)) = b0 w y (clamp (μ x)) := fun t ht => by
        rw [clamp_low hlow, clamp_low (le_trans ((mu_mono h).monotone ht) hlow)]
      constructor
      · intro hd
        exact Or.inr (key (Iic x) (uniqueDiffWithinAt_Iic x) hcon hd)
      · rintro (hd | hd)
        · exact absurd hd hin
        · rw [hd]
          have h1 : HasDerivWithinAt (fun t => b0 w y (clamp (μ t))) 0 (Iic x) x :=
            (hasDerivWithinAt_const x _ (b0 w y (clamp (μ x)))).congr hcon rfl
          have h2 : HasDerivWithinAt (fun t => b0 w y (clamp (μ t))) 0 (Ici x) x := by
            rcases eq_or_lt_of_le hlow with heq | hlt
            · have h3 : HasDerivWithinAt (fun t => b0 w y (μ t)) 0 (Ici x) x := by
                rw [← hd, clamp_mid heq.ge (by rw [heq]; norm_num)]
                exact (t0_deriv h w y x).hasDerivWithinAt
              refine h3.congr_of_eventuallyEq ?_ ?_
              · have h4 := (mu_cont h).continuousAt (x := x) |>.eventually
                  (gt_mem_nhds (show μ x < 1 - 1e-8 by rw [heq]; norm_num))
                filter_upwards [h4.filter_mono nhdsWithin_le_nhds, self_mem_nhdsWithin] with t ht ht'
                rw [clamp_mid (by rw [← heq]; exact (mu_mono h).monotone ht') ht.le]
              · rw [clamp_mid heq.ge (by rw [heq]; norm_num)]
            · refine (hasDerivWithinAt_const x _ (b0 w y (clamp (μ x)))).congr_of_eventuallyEq ?_ rfl
              have h4 := (mu_cont h).continuousAt (x := x) |>.eventually (gt_mem_nhds hlt)
              filter_upwards [h4.filter_mono nhdsWithin_le_nhds] with t ht
              rw [clamp_low hlow, clamp_low ht.le]
          have h3 := h1.union h2
          rw [Iic_union_Ici] at h3
          exact h3.hasDerivAt univ_mem
    · have hhigh : 1 - 1e-8 ≤ μ x := by
        by_contra hcon
        exact hin ⟨hnl, not_le.mp hcon⟩
      have hcon : ∀ t ∈ Ici x, b0 w y (clamp (μ t)) = b0 w y (clamp (μ x)) := fun t ht => by
        rw [clamp_high hhigh, clamp_high (le_trans hhigh ((mu_mono h).monotone ht))]
      constructor
      · intro hd
        exact Or.inr (key (Ici x) (uniqueDiffWithinAt_Ici x) hcon hd)
      · rintro (hd | hd)
        · exact absurd hd hin
        · rw [hd]
          have h1 : HasDerivWithinAt (fun t => b0 w y (clamp (μ t))) 0 (Ici x) x :=
            (hasDerivWithinAt_const x _ (b0 w y (clamp (μ x)))).congr hcon rfl
          have h2 : HasDerivWithinAt (fun t => b0 w y (clamp (μ t))) 0 (Iic x) x := by
            rcases eq_or_lt_of_le hhigh with heq | hlt
            · have h3 : HasDerivWithinAt (fun t => b0 w y (μ t)) 0 (Iic x) x := by
                rw [← hd, clamp_mid (by rw [← heq]; norm_num) heq.ge]
                exact (t0_deriv h w y x).hasDerivWithinAt
              refine h3.congr_of_eventuallyEq ?_ ?_
              · have h4 := (mu_cont h).continuousAt (x := x) |>.eventually
                  (lt_mem_nhds (show 1e-8 < μ x by rw [← heq]; norm_num))
                filter_upwards [h4.filter_mono nhdsWithin_le_nhds, self_mem_nhdsWithin] with t ht ht'
                rw [clamp_mid ht.le (by rw [heq]; exact (mu_mono h).monotone ht')]
              · rw [clamp_mid (by rw [← heq]; norm_num) heq.ge]
            · refine (hasDerivWithinAt_const x _ (b0 w y (clamp (μ x)))).congr_of_eventuallyEq ?_ rfl
              have h4 := (mu_cont h).continuousAt (x := x) |>.eventually (lt_mem_nhds hlt)
              filter_upwards [h4.filter_mono nhdsWithin_le_nhds] with t ht
              rw [clamp_high hhigh, clamp_high ht.le]
          have h3 := h2.union h1
          rw [Iic_union_Ici] at h3
          exact h3.hasDerivAt univ_mem

/-- All observations together. -/
theorem clamp_sum_iff (eta y w : Fin n → ℝ) :
    HasFDerivAt (fun e : Fin n → ℝ => ∑ i, b0 (w i) (y i) (clamp (μ (e i))))
      (lin fun i => μ1 (eta i) * b1 (w i) (y i) (clamp (μ (eta i)))) eta ↔
      ∀ i, (1e-8 < μ (eta i) ∧ μ (eta i) < 1 - 1e-8) ∨ w i = 0 ∨ y i = clamp (μ (eta i)) := by
  constructor
  · intro hd i
    rw [← clamp_deriv_iff h]
    -- restrict to a line
    have h1 : HasDerivAt (fun t : ℝ => Function.update eta i t) (Pi.single i 1) (eta i) :=
      hasDerivAt_update eta i (eta i)
    have hd' : HasFDerivAt (fun e : Fin n → ℝ => ∑ i, b0 (w i) (y i) (clamp (μ (e i))))
        (lin fun i => μ1 (eta i) * b1 (w i) (y i) (clamp (μ (eta i))))
        (Function.update eta i (eta i)) := by rwa [Function.update_eq_self]
    have h2 := hd'.comp_hasDerivAt (eta i) h1
    rw [lin_apply] at h2
    simp only [Pi.single_apply, mul_ite, mul_one, mul_zero, Finset.sum_ite_eq', Finset.mem_univ,
      if_true] at h2
    have h3 : ((fun e : Fin n → ℝ => ∑ i, b0 (w i) (y i) (clamp (μ (e i)))) ∘
        fun t => Function.update eta i t) = fun t => b0 (w i) (y i) (clamp (μ t)) +
          ∑ j ∈ Finset.univ.erase i, b0 (w j) (y j) (clamp (μ (eta j))) := by
      funext t
      show ∑ j, b0 (w j) (y j) (clamp (μ (Function.update eta i t j))) = _
      rw [← Finset.add_sum_erase _ _ (Finset.mem_univ i), Function.update_self]
      congr 1
      refine Finset.sum_congr rfl fun j hj => ?_
      rw [Function.update_of_ne (Finset.ne_of_mem_erase hj)]
    rw [h3] at h2
    have h4 := h2.sub_const (∑ j ∈ Finset.univ.erase i, b0 (w j) (y j) (clamp (μ (eta j))))
    simpa using h4
  · intro hi
    rw [lin]
    refine HasFDerivAt.fun_sum fun i _ => ?_
    have h1 := (clamp_deriv_iff h (w i) (y i) (eta i)).mpr (hi i)
    exact HasDerivAt.comp_hasFDerivAt (h₂ := fun t => b0 (w i) (y i) (clamp (μ t)))
      (f := fun e : Fin n → ℝ => e i) eta h1
      (ContinuousLinearMap.proj i : (Fin n → ℝ) →L[ℝ] ℝ).hasFDerivAt

end

/-- The value of a family as a function of the linear predictors (0 if it fails). -/
noncomputable def value (f : Family) (y w eta : Fin n → ℝ) : ℝ :=
  SparseGrid.val (f.evaluate eta y w)

/-- C33 decided, logit link. For all linear predictors, responses and weights, `evaluate_d1` answers,
and it is the derivative of `evaluate` exactly when each observation has an unclamped mean, or
weight 0, or a response equal to the clamped mean. -/
theorem c33_iff_logit : ∃ f, Family.ofNames "binomial" "logit" = Except.ok f ∧
    ∀ (n : ℕ) (eta y w : Fin n → ℝ), ∃ D1, f.evaluateDerivative eta y w = Except.ok D1 ∧
      (HasFDerivAt (value f y w) (lin D1) eta ↔ ∀ i,
        (1e-8 < expit (eta i) ∧ expit (eta i) < 1 - 1e-8) ∨ w i = 0 ∨
          y i = max 1e-8 (min (expit (eta i)) (1 - 1e-8))) := by
  refine ⟨⟨some .logit, some .binomial⟩, rfl, fun n eta y w => ⟨_, rfl, ?_⟩⟩
  have e1 : value (n := n) ⟨some .logit, some .binomial⟩ y w =
      fun e => ∑ i, b0 (w i) (y i) (clamp (lo0 (e i))) := by
    funext e
    show Binomial.evaluate (Binomial.checkMean (LogitLink.computeMean e)) y w = _
    rw [checkMean_eq]
    rfl
  rw [e1, ← lo0_eq, checkMean_eq]
  exact clamp_sum_iff logit_ok eta y w

/-- C33 decided, probit link. -/
theorem c33_iff_probit : ∃ f, Family.ofNames "binomial" "probit" = Except.ok f ∧
    ∀ (n : ℕ) (eta y w : Fin n → ℝ), ∃ D1, f.evaluateDerivative eta y w = Except.ok D1 ∧
      (HasFDerivAt (value f y w) (lin D1) eta ↔ ∀ i,
        (1e-8 < invProbit (eta i) ∧ invProbit (eta i) < 1 - 1e-8) ∨ w i = 0 ∨
          y i = max 1e-8 (min (invProbit (eta i)) (1 - 1e-8))) := by
  refine ⟨⟨some .probit, some .binomial⟩, rfl, fun n eta y w => ⟨_, rfl, ?_⟩⟩
  have e1 : value (n := n) ⟨some .probit, some .binomial⟩ y w =
      fun e => ∑ i, b0 (w i) (y i) (clamp (normalCdf (e i))) := by
    funext e
    show Binomial.evaluate (Binomial.checkMean (ProbitLink.computeMean e)) y w = _
    rw [checkMean_eq]
    rfl
  rw [e1, ← normalCdf_eq, checkMean_eq]
  exact clamp_sum_iff probit_ok eta y w

theorem expit_far : expit (-20) < 1e-8 := by
  have h2 : (100000000 : ℝ) < Real.exp 20 := by
    have h3 : Real.exp 20 = Real.exp 1 ^ 20 := by rw [← Real.exp_nat_mul]; norm_num
    rw [h3]
    have h4 : (2.7 : ℝ) ^ 20 ≤ Real.exp 1 ^ 20 :=
      pow_le_pow_left₀ (by norm_num) (by have := Real.exp_one_gt_d9; linarith) 20
    have h5 : (100000000 : ℝ) < 2.7 ^ 20 := by norm_num
    linarith
  rw [expit, neg_neg, inv_lt_comm₀ (by positivity) (by norm_num)]
  norm_num
  linarith

/-- C33 is violated: one success with linear predictor -20 (weight 1). -/
theorem c33_violated : ∃ (f : Family) (D1 : Fin 1 → ℝ),
    Family.ofNames "binomial" "logit" = Except.ok f ∧
    f.evaluateDerivative (fun _ => -20) (fun _ => 1) (fun _ => 1) = Except.ok D1 ∧
    ¬ HasFDerivAt (value f (fun _ => 1) (fun _ => 1)) (lin D1) (fun _ => -20) := by
  obtain ⟨f, h1, h2⟩ := c33_iff_logit
  obtain ⟨D1, h3, h4⟩ := h2 1 (fun _ => -20) (fun _ => 1) (fun _ => 1)
  refine ⟨f, D1, h1, h3, fun hd => ?_⟩
  have hlt := expit_far
  rcases h4.mp hd 0 with h | h | h
  · linarith [h.1]
  · exact one_ne_zero h
  · rw [min_eq_left (by linarith), max_eq_left hlt.le] at h
    norm_num at h

/-- C33, the bound: for both links, non-negative weights and responses in [0,1], the value is at
least the sum of the weights times `log 1e-8`. -/
theorem c33_bounded {linkName : String} {f : Family}
    (hf : Family.ofNames "binomial" linkName = Except.ok f) (eta y w : Fin n → ℝ)
    (hw : ∀ i, 0 ≤ w i) (hy : ∀ i, 0 ≤ y i ∧ y i ≤ 1) :
    ∃ v, f.evaluate eta y w = Except.ok v ∧ ∑ i, w i * Real.log 1e-8 ≤ v := by
  have hb : ∀ mean : Fin n → ℝ, ∑ i, w i * Real.log 1e-8 ≤
      Binomial.evaluate (Binomial.checkMean mean) y w := by
    intro mean
    rw [checkMean_eq]
    refine Finset.sum_le_sum fun i _ => mul_le_mul_of_nonneg_left ?_ (hw i)
    have hc := clamp_mem (mean i)
    have h1 : Real.log 1e-8 ≤ Real.log (clamp (mean i)) := Real.log_le_log (by norm_num) hc.1
    have h2 : Real.log 1e-8 ≤ Real.log (1 - clamp (mean i)) :=
      Real.log_le_log (by norm_num) (by linarith [hc.2])
    calc Real.log 1e-8 = y i * Real.log 1e-8 + (1 - y i) * Real.log 1e-8 := by ring
      _ ≤ _ := add_le_add (mul_le_mul_of_nonneg_left h1 (hy i).1)
        (mul_le_mul_of_nonneg_left h2 (by linarith [(hy i).2]))
  unfold Family.ofNames Link.ofName at hf
  by_cases hl : linkName = "logit"
  · rw [if_pos hl] at hf
    cases hf
    exact ⟨_, rfl, hb _⟩
  · rw [if_neg hl] at hf
    by_cases hp : linkName = "probit"
    · rw [if_pos hp] at hf
      cases hf
      exact ⟨_, rfl, hb _⟩
    · rw [if_neg hp] at hf
      cases hf

example : ∃ f v, Family.ofNames "binomial" "probit" = Except.ok f ∧
    f.evaluate (fun i : Fin 3 => (i : ℝ) * 100) (fun _ => 0) (fun _ => 2) = Except.ok v ∧
    ∑ _i : Fin 3, 2 * Real.log 1e-8 ≤ v := by
  obtain ⟨v, h1, h2⟩ := c33_bounded (linkName := "probit") rfl (fun i : Fin 3 => (i : ℝ) * 100)
    (fun _ => 0) (fun _ => 2) (fun _ => by norm_num) (fun _ => by norm_num)
  exact ⟨_, v, rfl, h1, h2⟩

/-! ## C34 -/

/-- Second derivative of the logit log-likelihood. -/
theorem logit_t2 (w y x : ℝ) : t2 lo0 lo1 lo2 w y x = -w * (lo0 x * (1 - lo0 x)) := by
  have h1 : lo0 x = Real.exp x / (1 + Real.exp x) := rfl
  have h2 : 1 - lo0 x = 1 / (1 + Real.exp x) := by
    rw [h1]
    have : (1 + Real.exp x) ≠ 0 := by positivity
    field_simp
    ring
  have hE := Real.exp_pos x
  rw [t2, b2, b1, h2, h1, lo1, lo2, zpow_neg, zpow_neg]
  have h3 : (1 + Real.exp x) ≠ 0 := by positivity
  have h4 := hE.ne'
  norm_cast
  field_simp
  ring

/-- C34. For non-negative weights and any responses, `evaluate_d2` is non-positive at every linear
predictor with unclamped means, and negative where the weight is positive. -/
theorem c34_d2_nonpos : ∃ f, Family.ofNames "binomial" "logit" = Except.ok f ∧
    ∀ (n : ℕ) (eta y w : Fin n → ℝ),
      (∀ i, 1e-8 ≤ expit (eta i) ∧ expit (eta i) ≤ 1 - 1e-8) → (∀ i, 0 ≤ w i) →
      ∃ D2, f.evaluateSecondDerivative eta y w = Except.ok D2 ∧
        (∀ i, D2 i ≤ 0) ∧ ∀ i, 0 < w i → D2 i < 0 := by
  refine ⟨⟨some .logit, some .binomial⟩, rfl, fun n eta y w hm hw => ⟨_, rfl, ?_⟩⟩
  have hm' : Binomial.checkMean (LogitLink.computeMean eta) = fun i => lo0 (eta i) :=
    checkMean_id (mean := fun i => lo0 (eta i)) (by rw [lo0_eq]; exact hm)
  have h2 : ∀ i, lo0 (eta i) * (1 - lo0 (eta i)) > 0 := fun i =>
    mul_pos (logit_ok.pos _) (by have := logit_ok.lt_one (eta i); linarith)
  rw [hm']
  constructor
  · intro i
    show t2 lo0 lo1 lo2 (w i) (y i) (eta i) ≤ 0
    rw [logit_t2, neg_mul]
    exact neg_nonpos.mpr (mul_nonneg (hw i) (h2 i).le)
  · intro i hi
    show t2 lo0 lo1 lo2 (w i) (y i) (eta i) < 0
    rw [logit_t2, neg_mul]
    exact neg_neg_of_pos (mul_pos hi (h2 i))

/-! ## Families that have not been set -/

/-- C38: a link is usable exactly if it has been set; the default-constructed one is not. -/
theorem c38_link_null (link : Link) (eta : Fin n → ℝ) :
    ((∃ v, link.computeMean eta = Except.ok v) ↔ link ≠ none) ∧
    ((∃ v, link.computeMeanDerivative eta = Except.ok v) ↔ link ≠ none) ∧
    ((∃ v, link.computeMeanSecondDerivative eta = Except.ok v) ↔ link ≠ none) ∧
    ((∃ v, link.computeMeanThirdDerivative eta = Except.ok v) ↔ link ≠ none) ∧
    ((∃ v, link.computeMeanFourthDerivative eta = Except.ok v) ↔ link ≠ none) ∧
    ((∃ v, link.getName = Except.ok v) ↔ link ≠ none) := by
  rcases link with _ | _ | _ <;>
    simp [Link.computeMean, Link.computeMeanDerivative, Link.computeMeanSecondDerivative,
      Link.computeMeanThirdDerivative, Link.computeMeanFourthDerivative, Link.getName, Res.ub]

/-- C38: the log-likelihood and its derivatives are defined exactly for a family whose distribution
and link have been set. -/
theorem c38_family_null (f : Family) (eta y w : Fin n → ℝ) :
    ((∃ v, f.evaluate eta y w = Except.ok v) ↔ f.link ≠ none ∧ f.familyGivenMean ≠ none) ∧
    ((∃ v, f.evaluateDerivative eta y w = Except.ok v) ↔
      f.link ≠ none ∧ f.familyGivenMean ≠ none) ∧
    ((∃ v, f.evaluateSecondDerivative eta y w = Except.ok v) ↔
      f.link ≠ none ∧ f.familyGivenMean ≠ none) ∧
    ((∃ v, f.evaluateThirdDerivative eta y w = Except.ok v) ↔
      f.link ≠ none ∧ f.familyGivenMean ≠ none) ∧
    ((∃ v, f.evaluateFourthDerivative eta y w = Except.ok v) ↔
      f.link ≠ none ∧ f.familyGivenMean ≠ none) := by
  have ub : ∀ {α : Type}, ¬ ∃ v : α, (Res.ub : Res α) = Except.ok v := fun ⟨_, h⟩ => nomatch h
  obtain ⟨link, fam⟩ := f
  rcases link with _ | _ | _ <;> rcases fam with _ | _ <;>
    refine ⟨?_, ?_, ?_, ?_, ?_⟩ <;>
    first
    | exact ⟨fun h => absurd h ub, fun h => absurd rfl h.1⟩
    | exact ⟨fun h => absurd h ub, fun h => absurd rfl h.2⟩
    | exact ⟨fun _ => ⟨by simp, by simp⟩, fun _ => ⟨_, rfl⟩⟩

/-- The default-constructed family: nothing is defined. -/
theorem c38_empty (eta y w : Fin n → ℝ) :
    Family.empty.evaluate eta y w = Res.ub ∧ Family.empty.link.getName = Res.ub ∧
      Family.empty.familyGivenMean.getName = Res.ub := ⟨rfl, rfl, rfl⟩

end Verif.Family
