import Verif.Props.Family

/-!
# The binomial family with successes and failures exchanged
-/
namespace Verif.Sign

open Verif.Family MeasureTheory ProbabilityTheory

/-- The response for the linear predictor times `τ`, where `τ` is 1 or -1: the proportion of successes
or that of failures. -/
noncomputable def turn (τ r : ℝ) : ℝ := (1 - τ) / 2 + τ * r

theorem turn_one (r : ℝ) : turn 1 r = r := by
  unfold turn
  ring

theorem turn_neg (r : ℝ) : turn (-1) r = 1 - r := by
  unfold turn
  ring

/-- The linear predictor may be multiplied by `τ` if the response is changed with it. -/
structure Turns (τ : ℝ) (f : Family) : Prop where
  value : ∀ {m : ℕ} (eta resp w : Fin m → ℝ),
    f.evaluate (fun i => τ * eta i) (fun i => turn τ (resp i)) w = f.evaluate eta resp w
  deriv : ∀ {m : ℕ} (eta resp w : Fin m → ℝ),
    f.evaluateDerivative (fun i => τ * eta i) (fun i => turn τ (resp i)) w =
      f.evaluateDerivative eta resp w >>= fun v => pure fun i => τ * v i
  second : ∀ {m : ℕ} (eta resp w : Fin m → ℝ),
    f.evaluateSecondDerivative (fun i => τ * eta i) (fun i => turn τ (resp i)) w =
      f.evaluateSecondDerivative eta resp w

theorem turns_one (f : Family) : Turns 1 f := by
  constructor <;> intro m eta resp w <;> simp only [turn_one, one_mul]
  rcases f.evaluateDerivative eta resp w with e | v <;> rfl

theorem turns_empty (τ : ℝ) : Turns τ Family.empty :=
  ⟨fun _ _ _ => rfl, fun _ _ _ => rfl, fun _ _ _ => rfl⟩

/-! ## Links -/

theorem normalCdf_neg (x : ℝ) : normalCdf (-x) = 1 - normalCdf x := by
  have hd : ∀ y, HasDerivAt (fun x => normalCdf (-x) + normalCdf x) 0 y := by
    intro y
    have h1 := ((normalCdf_hasDerivAt (-y)).comp y (hasDerivAt_neg y)).add (normalCdf_hasDerivAt y)
    have h2 : normalPdf (-y) * -1 + normalPdf y = 0 := by
      unfold normalPdf
      rw [neg_sq]
      ring
    rw [h2] at h1
    exact h1
  have hc : ∀ y, normalCdf (-y) + normalCdf y = normalCdf (-0) + normalCdf 0 := fun y =>
    is_const_of_deriv_eq_zero (fun z => (hd z).differentiableAt) (fun z => (hd z).deriv) y 0
  have ht : Filter.Tendsto (fun y => normalCdf (-y) + normalCdf y) Filter.atTop (nhds (0 + 1)) :=
    ((tendsto_cdf_atBot _).comp Filter.tendsto_neg_atTop_atBot).add (tendsto_cdf_atTop _)
  rw [show (fun y => normalCdf (-y) + normalCdf y) = fun _ => normalCdf (-0) + normalCdf 0 from
    funext hc, zero_add] at ht
  have := tendsto_nhds_unique tendsto_const_nhds ht
  have h1 := hc x
  linarith

/-- A mean with its first two derivatives that is symmetric about 1/2. -/
structure SymLink (μ μ1 μ2 : ℝ → ℝ) : Prop where
  mean : ∀ x, μ (-x) = 1 - μ x
  first : ∀ x, μ1 (-x) = μ1 x
  second : ∀ x, μ2 (-x) = -μ2 x

theorem clamp_neg (t : ℝ) :
    (if (if 1 - t < 1e-8 then 1e-8 else 1 - t) > (1 : ℝ) - 1e-8 then (1 : ℝ) - 1e-8 else
      if 1 - t < 1e-8 then 1e-8 else 1 - t) =
    1 - if (if t < 1e-8 then 1e-8 else t) > (1 : ℝ) - 1e-8 then (1 : ℝ) - 1e-8 else
      if t < 1e-8 then 1e-8 else t := by
  norm_num
  split_ifs <;> linarith

theorem checkMean_neg {μ : ℝ → ℝ} (h : ∀ x, μ (-x) = 1 - μ x) {m : ℕ} (eta : Fin m → ℝ) :
    Binomial.checkMean (fun i => μ (-1 * eta i)) = fun i =>
      1 - Binomial.checkMean (fun i => μ (eta i)) i := by
  have e : (fun i => μ (-1 * eta i)) = fun i => 1 - μ (eta i) := by
    funext i
    rw [neg_one_mul, h]
  rw [e]
  funext i
  exact clamp_neg (μ (eta i))

theorem binomial_neg {link : Link} {μ μ1 μ2 : ℝ → ℝ} (h : SymLink μ μ1 μ2)
    (l0 : ∀ {m : ℕ} (eta : Fin m → ℝ), link.computeMean eta = Except.ok fun i => μ (eta i))
    (l1 : ∀ {m : ℕ} (eta : Fin m → ℝ), link.computeMeanDerivative eta = Except.ok fun i => μ1 (eta i))
    (l2 : ∀ {m : ℕ} (eta : Fin m → ℝ), link.computeMeanSecondDerivative eta =
      Except.ok fun i => μ2 (eta i)) : Turns (-1) ⟨link, some .binomial⟩ := by
  constructor <;> intro m eta resp w
  · unfold Family.evaluate
    simp only [l0, res_ok_bind, FamilyGivenMean.checkMean, FamilyGivenMean.evaluate,
      checkMean_neg h.mean, Binomial.evaluate, turn_neg]
    refine congrArg Except.ok (Finset.sum_congr rfl fun i _ => ?_)
    rw [sub_sub_cancel, sub_sub_cancel]
    ring
  · unfold Family.evaluateDerivative
    simp only [l0, l1, res_ok_bind, res_pure, FamilyGivenMean.checkMean,
      FamilyGivenMean.evaluateDerivative, checkMean_neg h.mean]
    refine congrArg Except.ok (funext fun i => ?_)
    simp only [Pi.mul_apply, Binomial.evaluateDerivative, turn_neg, neg_one_mul, h.first,
      sub_sub_cancel]
    ring
  · unfold Family.evaluateSecondDerivative
    simp only [l0, l1, l2, res_ok_bind, res_pure, FamilyGivenMean.checkMean,
      FamilyGivenMean.evaluateDerivative, FamilyGivenMean.evaluateSecondDerivative,
      checkMean_neg h.mean]
    refine congrArg Except.ok (funext fun i => ?_)
    simp only [Pi.mul_apply, Pi.add_apply, Pi.pow_apply, Binomial.evaluateDerivative,
      Binomial.evaluateSecondDerivative, turn_neg, neg_one_mul, h.first, h.second, sub_sub_cancel]
    ring

theorem logit_sym : SymLink (fun x => Real.exp x / (1 + Real.exp x))
    (fun x => Real.exp x / (1 + Real.exp x) ^ 2)
    (fun x => Real.exp x * (1 - Real.exp x) / (1 + Real.exp x) ^ 3) := by
  constructor <;> intro x <;> rw [Real.exp_neg] <;> have h0 := Real.exp_pos x <;>
    have h1 : 1 + Real.exp x ≠ 0 := by positivity
  all_goals
    have h2 : 1 + (Real.exp x)⁻¹ ≠ 0 := by positivity
    have h3 : Real.exp x + 1 ≠ 0 := by positivity
    field_simp
    ring

theorem probit_sym : SymLink normalCdf normalPdf (fun x => -x * normalPdf x) := by
  have h : ∀ x, normalPdf (-x) = normalPdf x := fun x => by
    unfold normalPdf
    rw [neg_sq]
  refine ⟨normalCdf_neg, h, fun x => ?_⟩
  show - -x * normalPdf (-x) = -(-x * normalPdf x)
  rw [h]
  ring

/-- The binomial families. -/
theorem turns_binomial {f : Family} {link : String} (h : Family.ofNames "binomial" link = Except.ok f) :
    Turns (-1) f := by
  unfold Family.ofNames Link.ofName at h
  split_ifs at h
  · cases h
    exact binomial_neg logit_sym (fun _ => rfl) (fun _ => rfl) fun _ => rfl
  · cases h
    exact binomial_neg probit_sym (fun _ => rfl) (fun _ => rfl) fun _ => rfl
  · cases h

end Verif.Sign
