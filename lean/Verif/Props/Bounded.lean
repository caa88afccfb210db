import Verif.Props.SRLaplace
import Verif.Props.Separation

/-!
# C125: log-likelihoods are not positive

The likelihood of counts is a probability. `find_lfun_SR` compares its value with half of lme4's Laplace
approximation (R/loglikelihood.R:70-73), which has the binomial coefficients as well.
-/
namespace Verif.Bounded

open Verif.Split Verif.Split.Spec Verif.GLMM Verif.Family Verif.Pars Verif.SR Verif.Lfun Verif.ClusterGraph
open Verif.Belief Verif.Gauss ProbabilityTheory MeasureTheory Matrix

variable {q n p : ℕ} {link : String} {μ : ℝ → ℝ}

/-! ## Specification -/

/-- The responses are proportions of successes `s` among `N` trials, which are the weights. -/
structure Counts (M : ModFr q n p) (s N : Fin n → ℕ) : Prop where
  weight : ∀ j, Spec.weight M j = N j
  successes : ∀ j, N j * M.resp j = s j
  le : ∀ j, s j ≤ N j

/-- Logarithm of the product of the binomial coefficients. -/
noncomputable def coefficients (s N : Fin n → ℕ) : ℝ := ∑ j, Real.log ((N j).choose (s j))

/-- What lme4's deviance function returns for counts: minus twice the Laplace approximation to the
log-likelihood, at the mean and precision it leaves behind, with the binomial coefficients. -/
def Deviance (M : ModFr q n p) (μ : ℝ → ℝ) (s N : Fin n → ℕ) (theta beta : List ℝ) (d : ℝ)
    (r : PP q) : Prop :=
  -d / 2 = coefficients s N + laplace (jointLog (logLik μ) M theta beta)
    (computeNormalApprox (d, r)).2.mean (computeNormalApprox (d, r)).2.precision

/-! ## Proofs -/

theorem binomial_le {m : ℝ} (h0 : 0 < m) (h1 : m < 1) {N s : ℕ} (h : s ≤ N) :
    Real.log (N.choose s) + (s * Real.log m + (N - s : ℕ) * Real.log (1 - m)) ≤ 0 := by
  have hc : (0 : ℝ) < N.choose s := by exact_mod_cast Nat.choose_pos h
  have e : Real.log (N.choose s) + (s * Real.log m + (N - s : ℕ) * Real.log (1 - m)) =
      Real.log (m ^ s * (1 - m) ^ (N - s) * N.choose s) := by
    have := sub_pos.2 h1
    rw [Real.log_mul (by positivity) hc.ne', Real.log_mul (by positivity) (by positivity),
      Real.log_pow, Real.log_pow]
    ring
  rw [e]
  have h1' := sub_pos.2 h1
  refine Real.log_nonpos (by positivity) ?_
  have hs := add_pow m (1 - m) N
  rw [add_sub_cancel, one_pow] at hs
  refine le_of_le_of_eq ?_ hs.symm
  exact Finset.single_le_sum (f := fun k => m ^ k * (1 - m) ^ (N - k) * (N.choose k : ℝ))
    (fun k _ => by positivity) (Finset.mem_range.2 (Nat.lt_succ_of_le h))

/-- The probability of the responses given the random effects is at most one. -/
theorem given_le (hl : IsLink link μ) {M : ModFr q n p} {s N : Fin n → ℕ} (hc : Counts M s N)
    (theta beta : List ℝ) (u : Fin q → ℝ) :
    coefficients s N + logLikGiven (logLik μ) M theta beta u ≤ 0 := by
  unfold coefficients logLikGiven
  rw [← Finset.sum_add_distrib]
  refine Finset.sum_nonpos fun j _ => ?_
  obtain ⟨h0, h1⟩ := (Separation.link_facts hl).2.1 (Spec.eta M theta beta u j)
  refine le_of_eq_of_le ?_ (binomial_le h0 h1 (hc.le j))
  unfold logLik
  rw [hc.weight, mul_add, ← mul_assoc, ← mul_assoc, hc.successes, mul_sub, mul_one, hc.successes,
    Nat.cast_sub (hc.le j)]

theorem coefficients_nonneg {M : ModFr q n p} {s N : Fin n → ℕ} (hc : Counts M s N) :
    0 ≤ coefficients s N :=
  Finset.sum_nonneg fun j _ => Real.log_nonneg (by exact_mod_cast Nat.choose_pos (hc.le j))

theorem one_le_det {Q : Matrix (Fin q) (Fin q) ℝ} (hQ : Q.PosDef) (h : (Q - 1).PosSemidef) :
    1 ≤ Q.det := by
  have g1 := gaussian_integral (Matrix.PosDef.one (n := Fin q) (R := ℝ)) 0
  have gQ := gaussian_integral hQ 0
  rw [Matrix.det_one, Real.sqrt_one, inv_one, mul_one] at g1
  have spos : 0 < √(2 * Real.pi) := Real.sqrt_pos.2 (by positivity)
  have hi : Integrable fun x : Fin q → ℝ => Real.exp (-0.5 * quad 0 1 x) := by
    by_contra hn
    rw [integral_undef hn] at g1
    exact absurd g1 (by positivity)
  have hle := integral_mono_of_nonneg (μ := volume)
    (f := fun x : Fin q → ℝ => Real.exp (-0.5 * quad 0 Q x))
    (g := fun x : Fin q → ℝ => Real.exp (-0.5 * quad 0 1 x))
    (Filter.Eventually.of_forall fun x => (Real.exp_pos _).le) hi
    (Filter.Eventually.of_forall fun x => by
      refine Real.exp_le_exp.2 ?_
      have := h.dotProduct_mulVec_nonneg x
      rw [star_trivial, sub_mulVec, dotProduct_sub] at this
      simp only [quad, sub_zero]
      linarith)
  rw [g1, gQ] at hle
  have hd := hQ.det_pos
  have h2 : (√Q.det)⁻¹ ≤ 1 := by
    have hp : 0 < √(2 * Real.pi) ^ q := by positivity
    nlinarith
  have h3 : 1 ≤ √Q.det := by
    by_contra hlt
    rw [not_le] at hlt
    exact absurd ((one_lt_inv₀ (Real.sqrt_pos.2 hd)).2 hlt) (not_lt.2 h2)
  rw [← Real.sq_sqrt hd.le]
  nlinarith

theorem precision_det {M : ModFr q n p} {theta : List ℝ} {W : Fin n → ℝ} {d : ℝ} {r : PP q}
    (h : Laplace M theta W r) : 1 ≤ (computeNormalApprox (d, r)).2.precision.det := by
  refine one_le_det (precision_posDef h) ?_
  rw [precision_eq h, add_sub_cancel_right]
  have := (Matrix.PosSemidef.diagonal h.weights).mul_mul_conjTranspose_same
    (Matrix.of (Spec.lambdat M theta) * M.Zt)
  rwa [Matrix.conjTranspose_eq_transpose_of_trivial] at this

theorem normal_le (u : Fin q → ℝ) :
    ∑ r, Real.log (gaussianPDFReal 0 1 (u r)) + q * Real.log (√(2 * Real.pi)) ≤ 0 := by
  have s : 0 < √(2 * Real.pi) := Real.sqrt_pos.2 (by positivity)
  have e : ∀ r, Real.log (gaussianPDFReal 0 1 (u r)) = -Real.log (√(2 * Real.pi)) - u r ^ 2 / 2 := by
    intro r
    unfold gaussianPDFReal
    rw [Real.log_mul (by simp; positivity) (Real.exp_ne_zero _), Real.log_exp, Real.log_inv]
    simp
    ring
  simp only [e]
  rw [Finset.sum_sub_distrib, Finset.sum_const, Finset.card_univ, Fintype.card_fin, nsmul_eq_mul]
  have : 0 ≤ ∑ r, u r ^ 2 / 2 := Finset.sum_nonneg fun r _ => by positivity
  linarith

/-- **C125, Laplace.** The Laplace approximation of lme4 to the log-likelihood of counts is not
positive. -/
theorem c125_laplace (hl : IsLink link μ) {M : ModFr q n p} {s N : Fin n → ℕ} (hc : Counts M s N)
    {theta beta : List ℝ} {W : Fin n → ℝ} {d : ℝ} {r : PP q} (h : Laplace M theta W r)
    (hd : Deviance M μ s N theta beta d r) : -d / 2 ≤ 0 := by
  rw [hd, laplace_eq _ _ (precision_posDef h), jointLog]
  have h1 := given_le hl hc theta beta (computeNormalApprox (d, r)).2.mean
  have h2 := normal_le (computeNormalApprox (d, r)).2.mean
  have h3 := Real.log_nonneg (precision_det (d := d) h)
  linarith

/-- **C125, likelihood.** The likelihood of counts, with the binomial coefficients, is at most one. -/
theorem c125_likelihood (hl : IsLink link μ) {M : ModFr q n p} {s N : Fin n → ℕ} (hc : Counts M s N)
    (theta beta : List ℝ) :
    Real.exp (coefficients s N) * marginal (logLik μ) M theta beta ≤ 1 := by
  unfold marginal
  rw [← integral_const_mul]
  have hone : ∫ u : Fin q → ℝ, ∏ r, gaussianPDFReal 0 1 (u r) = 1 := by
    rw [integral_fintype_prod_volume_eq_prod (fun _ : Fin q => gaussianPDFReal 0 1)]
    simp [integral_gaussianPDFReal_eq_one]
  have hi : Integrable fun u : Fin q → ℝ => ∏ r, gaussianPDFReal 0 1 (u r) := by
    by_contra hn
    rw [integral_undef hn] at hone
    exact absurd hone (by simp)
  rw [← hone]
  refine integral_mono_of_nonneg (Filter.Eventually.of_forall fun u => ?_) hi
    (Filter.Eventually.of_forall fun u => ?_)
  · have : 0 ≤ ∏ r, gaussianPDFReal 0 1 (u r) :=
      Finset.prod_nonneg fun r _ => gaussianPDFReal_nonneg 0 1 (u r)
    show 0 ≤ Real.exp _ * (Real.exp _ * _)
    positivity
  · have hn : 0 ≤ ∏ r, gaussianPDFReal 0 1 (u r) :=
      Finset.prod_nonneg fun r _ => gaussianPDFReal_nonneg 0 1 (u r)
    show Real.exp _ * (Real.exp _ * _) ≤ _
    rw [← mul_assoc, ← Real.exp_add]
    exact mul_le_of_le_one_left hn (Real.exp_le_one_iff.2 (given_le hl hc theta beta u))

/-- **C125.** For counts, whatever the cluster graph and the options are: every log-likelihood that the
function of `find_lfun_SR` returns is at most half of lme4's Laplace approximation, and so not positive;
and a value of sequential reduction that is at most the Laplace approximation made without the binomial
coefficients, as sequential reduction is, is never called unstable. -/
theorem c125 (hl : IsLink link μ) {M : ModFr q n p} {s N : Fin n → ℕ} (hc : Counts M s N)
    {lib : Lib} {nFixed nTheta : ℕ} {c : CG (Mixed Factor NB)} {devfun : List ℝ → Res (ℝ × PP q)}
    {x : List ℝ} {s0 : Parameters} {W : Fin n → ℝ} {d : ℝ} {r : PP q}
    (hdev : devfun x = Except.ok (d, r)) (h : Laplace M (x.take nTheta) W r)
    (hd : Deviance M μ s N (x.take nTheta) (x.drop nTheta) d r) :
    (∀ v, ((lfun lib nFixed nTheta c devfun x).exec s0).1 = Except.ok v → v ≤ -d / 2 / 2 ∧ v ≤ 0) ∧
    ∀ v, x.length = nFixed + nTheta →
      computeLogNormalizingConstant lib (assign nTheta x s0) c (computeNormalApprox (d, r)).2.mean
        (computeNormalApprox (d, r)).2.precision = Except.ok v →
      v ≤ laplace (jointLog (logLik μ) M (x.take nTheta) (x.drop nTheta))
        (computeNormalApprox (d, r)).2.mean (computeNormalApprox (d, r)).2.precision →
      ((lfun lib nFixed nTheta c devfun x).exec s0).1 = Except.ok v := by
  have hneg := c125_laplace hl hc h hd
  refine ⟨fun v hv => ?_, fun v hx hv hle => ?_⟩
  · rw [exec_lfun] at hv
    dsimp only at hv
    unfold Lfun.value at hv
    split_ifs at hv with hx
    · cases hv
    rw [hdev] at hv
    have hv : checkedValue lib (assign nTheta x s0) c (computeNormalApprox (d, r)) =
      Except.ok v := hv
    unfold checkedValue at hv
    rcases hL : computeLogNormalizingConstant lib (assign nTheta x s0) c
      (computeNormalApprox (d, r)).2.mean (computeNormalApprox (d, r)).2.precision with e | w
    · rw [hL] at hv; cases hv
    · rw [hL] at hv
      have hv : (if w > -d / 2 / 2 then
        (Res.raise "Suspect sequential reduction approximation is unstable" : Res ℝ)
        else Except.ok w) = Except.ok v := hv
      split_ifs at hv with hgt
      · cases hv
      cases Except.ok.inj hv
      have := not_lt.1 hgt
      exact ⟨this, by linarith⟩
  · rw [exec_lfun]
    dsimp only
    unfold Lfun.value
    rw [if_neg (not_not.2 hx), hdev]
    show checkedValue lib (assign nTheta x s0) c (computeNormalApprox (d, r)) = _
    unfold checkedValue
    rw [hv]
    show (if v > -d / 2 / 2 then _ else Except.ok v) = _
    rw [if_neg]
    rw [not_lt]
    have h0 := coefficients_nonneg hc
    have : v ≤ -d / 2 := by rw [hd]; linarith
    linarith

/-! ## A concrete case -/

/-- One success of three trials, one of two, and one of one, in two groups. -/
noncomputable def trials : ModFr 2 3 1 :=
  { twoGroups with resp := ![1 / 3, 1 / 2, 1], weights := some ![3, 2, 1] }

theorem trials_counts : Counts trials ![1, 1, 1] ![3, 2, 1] where
  weight j := by fin_cases j <;> simp [Spec.weight, trials]
  successes j := by fin_cases j <;> simp [trials]
  le j := by fin_cases j <;> simp

theorem trials_laplace : Laplace trials [1] twoW twoPP :=
  ⟨twoGroups_laplace.weights, twoGroups_laplace.permutation, twoGroups_laplace.factor⟩

/-- The binomial coefficients are 3, 2 and 1. -/
example : coefficients ![1, 1, 1] ![3, 2, 1] = Real.log 6 := by
  unfold coefficients
  rw [Fin.sum_univ_three]
  show Real.log (Nat.choose 3 1 : ℕ) + Real.log (Nat.choose 2 1 : ℕ) + Real.log (Nat.choose 1 1 : ℕ) = _
  norm_num
  rw [← Real.log_mul (by norm_num) (by norm_num)]
  norm_num

/-- lme4's deviance function for this model. -/
theorem trials_deviance : ∃ d, Deviance trials expit ![1, 1, 1] ![3, 2, 1] [1] [0.5] d twoPP :=
  ⟨-2 * (coefficients ![1, 1, 1] ![3, 2, 1] + laplace (jointLog (logLik expit) trials [1] [0.5])
    (computeNormalApprox (0, twoPP)).2.mean (computeNormalApprox (0, twoPP)).2.precision), by
    unfold Deviance
    show _ = coefficients ![1, 1, 1] ![3, 2, 1] + laplace (jointLog (logLik expit) trials [1] [0.5])
      (computeNormalApprox (0, twoPP)).2.mean (computeNormalApprox (0, twoPP)).2.precision
    ring⟩

example {lib : Lib} {c : CG (Mixed Factor NB)} {s0 : Parameters} {d v : ℝ}
    (hd : Deviance trials expit ![1, 1, 1] ![3, 2, 1] [1] [0.5] d twoPP)
    (hv : ((lfun lib 1 1 c (fun _ => Except.ok (d, twoPP)) [1, 0.5]).exec s0).1 = Except.ok v) :
    v ≤ 0 :=
  ((c125 .logit trials_counts (devfun := fun _ => Except.ok (d, twoPP)) (x := [1, 0.5]) (nTheta := 1) rfl
    trials_laplace hd).1 v hv).2

end Verif.Bounded
