import Verif.Model.Family
import Mathlib.Tactic.Ring

/-!
# The log-likelihood and its derivatives ignore observations of weight zero
-/
namespace Verif.Family

variable {n : ℕ} {eta eta' r r' w : Fin n → ℝ}

/-- The two sets of observations agree but for observations of weight zero. -/
def Counted (eta eta' r r' w : Fin n → ℝ) : Prop := ∀ i, w i ≠ 0 → eta i = eta' i ∧ r i = r' i

theorem checkMean_at {m m' : Fin n → ℝ} {i : Fin n} (h : m i = m' i) :
    Binomial.checkMean m i = Binomial.checkMean m' i := by
  unfold Binomial.checkMean
  rw [h]

theorem logit_at {i : Fin n} (h : eta i = eta' i) :
    Binomial.checkMean (LogitLink.computeMean eta) i =
        Binomial.checkMean (LogitLink.computeMean eta') i ∧
      LogitLink.computeMeanDerivative eta i = LogitLink.computeMeanDerivative eta' i ∧
      LogitLink.computeMeanSecondDerivative eta i = LogitLink.computeMeanSecondDerivative eta' i ∧
      LogitLink.computeMeanThirdDerivative eta i = LogitLink.computeMeanThirdDerivative eta' i ∧
      LogitLink.computeMeanFourthDerivative eta i = LogitLink.computeMeanFourthDerivative eta' i := by
  refine ⟨checkMean_at ?_, ?_, ?_, ?_, ?_⟩
  · unfold LogitLink.computeMean; rw [h]
  · unfold LogitLink.computeMeanDerivative; rw [h]
  · unfold LogitLink.computeMeanSecondDerivative; rw [h]
  · unfold LogitLink.computeMeanThirdDerivative; rw [h]
  · unfold LogitLink.computeMeanFourthDerivative; rw [h]

theorem probit_at {i : Fin n} (h : eta i = eta' i) :
    Binomial.checkMean (ProbitLink.computeMean eta) i =
        Binomial.checkMean (ProbitLink.computeMean eta') i ∧
      ProbitLink.computeMeanDerivative eta i = ProbitLink.computeMeanDerivative eta' i ∧
      ProbitLink.computeMeanSecondDerivative eta i = ProbitLink.computeMeanSecondDerivative eta' i ∧
      ProbitLink.computeMeanThirdDerivative eta i = ProbitLink.computeMeanThirdDerivative eta' i ∧
      ProbitLink.computeMeanFourthDerivative eta i =
        ProbitLink.computeMeanFourthDerivative eta' i := by
  refine ⟨checkMean_at ?_, ?_, ?_, ?_, ?_⟩
  · unfold ProbitLink.computeMean; rw [h]
  · unfold ProbitLink.computeMeanDerivative; rw [h]
  · unfold ProbitLink.computeMeanSecondDerivative; rw [h]
  · unfold ProbitLink.computeMeanThirdDerivative; rw [h]
  · unfold ProbitLink.computeMeanFourthDerivative; rw [h]

theorem evaluate_counted (f : Family) (h : Counted eta eta' r r' w) :
    f.evaluate eta r w = f.evaluate eta' r' w := by
  obtain ⟨link, fam⟩ := f
  rcases link with _ | ⟨⟩ | ⟨⟩ <;> rcases fam with _ | ⟨⟩ <;> first
    | rfl
    | (refine congrArg Except.ok (Finset.sum_congr rfl fun i _ => ?_)
       by_cases hw : w i = 0
       · simp only [hw, zero_mul]
       · obtain ⟨h1, h2⟩ := h i hw
         simp only [h2, (logit_at h1).1, (logit_at h1).2.1,
           (logit_at h1).2.2.1, (logit_at h1).2.2.2.1, (logit_at h1).2.2.2.2, (probit_at h1).1,
           (probit_at h1).2.1, (probit_at h1).2.2.1, (probit_at h1).2.2.2.1, (probit_at h1).2.2.2.2])

theorem derivative_counted (f : Family) (h : Counted eta eta' r r' w) :
    f.evaluateDerivative eta r w = f.evaluateDerivative eta' r' w := by
  obtain ⟨link, fam⟩ := f
  rcases link with _ | ⟨⟩ | ⟨⟩ <;> rcases fam with _ | ⟨⟩ <;> first
    | rfl
    | (refine congrArg Except.ok (funext fun i => ?_)
       by_cases hw : w i = 0
       · simp only [Pi.mul_apply, Binomial.evaluateDerivative, hw, zero_mul, mul_zero]
       · obtain ⟨h1, h2⟩ := h i hw
         simp only [Pi.mul_apply, Binomial.evaluateDerivative, h2, (logit_at h1).1, (logit_at h1).2.1,
           (logit_at h1).2.2.1, (logit_at h1).2.2.2.1, (logit_at h1).2.2.2.2, (probit_at h1).1,
           (probit_at h1).2.1, (probit_at h1).2.2.1, (probit_at h1).2.2.2.1, (probit_at h1).2.2.2.2])

theorem second_counted (f : Family) (h : Counted eta eta' r r' w) :
    f.evaluateSecondDerivative eta r w = f.evaluateSecondDerivative eta' r' w := by
  obtain ⟨link, fam⟩ := f
  rcases link with _ | ⟨⟩ | ⟨⟩ <;> rcases fam with _ | ⟨⟩ <;> first
    | rfl
    | (refine congrArg Except.ok (funext fun i => ?_)
       by_cases hw : w i = 0
       · simp only [Pi.mul_apply, Pi.add_apply, Binomial.evaluateDerivative,
           Binomial.evaluateSecondDerivative, hw, neg_zero, zero_mul, mul_zero, add_zero]
       · obtain ⟨h1, h2⟩ := h i hw
         simp only [Pi.mul_apply, Pi.add_apply, Pi.pow_apply, Binomial.evaluateDerivative,
           Binomial.evaluateSecondDerivative, h2, (logit_at h1).1, (logit_at h1).2.1,
           (logit_at h1).2.2.1, (logit_at h1).2.2.2.1, (logit_at h1).2.2.2.2, (probit_at h1).1,
           (probit_at h1).2.1, (probit_at h1).2.2.1, (probit_at h1).2.2.2.1, (probit_at h1).2.2.2.2])

theorem third_counted (f : Family) (h : Counted eta eta' r r' w) :
    f.evaluateThirdDerivative eta r w = f.evaluateThirdDerivative eta' r' w := by
  obtain ⟨link, fam⟩ := f
  rcases link with _ | ⟨⟩ | ⟨⟩ <;> rcases fam with _ | ⟨⟩ <;> first
    | rfl
    | (refine congrArg Except.ok (funext fun i => ?_)
       by_cases hw : w i = 0
       · simp only [Pi.mul_apply, Pi.add_apply, Binomial.evaluateDerivative,
           Binomial.evaluateSecondDerivative, Binomial.evaluateThirdDerivative, hw, neg_zero, zero_mul,
           mul_zero, add_zero]
       · obtain ⟨h1, h2⟩ := h i hw
         simp only [Pi.mul_apply, Pi.add_apply, Pi.pow_apply, Binomial.evaluateDerivative,
           Binomial.evaluateSecondDerivative, Binomial.evaluateThirdDerivative, h2, (logit_at h1).1, (logit_at h1).2.1,
           (logit_at h1).2.2.1, (logit_at h1).2.2.2.1, (logit_at h1).2.2.2.2, (probit_at h1).1,
           (probit_at h1).2.1, (probit_at h1).2.2.1, (probit_at h1).2.2.2.1, (probit_at h1).2.2.2.2])

theorem fourth_counted (f : Family) (h : Counted eta eta' r r' w) :
    f.evaluateFourthDerivative eta r w = f.evaluateFourthDerivative eta' r' w := by
  obtain ⟨link, fam⟩ := f
  rcases link with _ | ⟨⟩ | ⟨⟩ <;> rcases fam with _ | ⟨⟩ <;> first
    | rfl
    | (refine congrArg Except.ok (funext fun i => ?_)
       by_cases hw : w i = 0
       · simp only [Pi.mul_apply, Pi.add_apply, Binomial.evaluateDerivative,
           Binomial.evaluateSecondDerivative, Binomial.evaluateThirdDerivative,
           Binomial.evaluateFourthDerivative, hw, neg_zero, zero_mul, mul_zero, add_zero]
       · obtain ⟨h1, h2⟩ := h i hw
         simp only [Pi.mul_apply, Pi.add_apply, Pi.pow_apply, Binomial.evaluateDerivative,
           Binomial.evaluateSecondDerivative, Binomial.evaluateThirdDerivative,
           Binomial.evaluateFourthDerivative, h2, (logit_at h1).1, (logit_at h1).2.1,
           (logit_at h1).2.2.1, (logit_at h1).2.2.2.1, (logit_at h1).2.2.2.2, (probit_at h1).1,
           (probit_at h1).2.1, (probit_at h1).2.2.1, (probit_at h1).2.2.2.1, (probit_at h1).2.2.2.2])

theorem derivative_zero (f : Family) {v : Fin n → ℝ} (h : f.evaluateDerivative eta r w = Except.ok v)
    {i : Fin n} (hw : w i = 0) : v i = 0 := by
  obtain ⟨link, fam⟩ := f
  rcases link with _ | ⟨⟩ | ⟨⟩ <;> rcases fam with _ | ⟨⟩ <;> cases h <;>
    simp only [Pi.mul_apply, Binomial.evaluateDerivative, hw, zero_mul, mul_zero]

theorem second_zero (f : Family) {v : Fin n → ℝ}
    (h : f.evaluateSecondDerivative eta r w = Except.ok v) {i : Fin n} (hw : w i = 0) : v i = 0 := by
  obtain ⟨link, fam⟩ := f
  rcases link with _ | ⟨⟩ | ⟨⟩ <;> rcases fam with _ | ⟨⟩ <;> cases h <;>
    simp only [Pi.mul_apply, Pi.add_apply, Binomial.evaluateDerivative,
      Binomial.evaluateSecondDerivative, hw, neg_zero, zero_mul, mul_zero, add_zero]

theorem third_zero (f : Family) {v : Fin n → ℝ}
    (h : f.evaluateThirdDerivative eta r w = Except.ok v) {i : Fin n} (hw : w i = 0) : v i = 0 := by
  obtain ⟨link, fam⟩ := f
  rcases link with _ | ⟨⟩ | ⟨⟩ <;> rcases fam with _ | ⟨⟩ <;> cases h <;>
    simp only [Pi.mul_apply, Pi.add_apply, Binomial.evaluateDerivative,
      Binomial.evaluateSecondDerivative, Binomial.evaluateThirdDerivative, hw, neg_zero, zero_mul,
      mul_zero, add_zero]

theorem fourth_zero (f : Family) {v : Fin n → ℝ}
    (h : f.evaluateFourthDerivative eta r w = Except.ok v) {i : Fin n} (hw : w i = 0) : v i = 0 := by
  obtain ⟨link, fam⟩ := f
  rcases link with _ | ⟨⟩ | ⟨⟩ <;> rcases fam with _ | ⟨⟩ <;> cases h <;>
    simp only [Pi.mul_apply, Pi.add_apply, Binomial.evaluateDerivative,
      Binomial.evaluateSecondDerivative, Binomial.evaluateThirdDerivative,
      Binomial.evaluateFourthDerivative, hw, neg_zero, zero_mul, mul_zero, add_zero]

end Verif.Family
