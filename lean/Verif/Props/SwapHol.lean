import Verif.Props.SwapIS
import Verif.Props.Hol

/-!
# C100 and C101 for the Laplace approximation of second order
-/
namespace Verif.Sign

open Verif.Split Verif.Reparam.Spec Verif.Sign.Spec Verif.IS Verif.Family
open Matrix

variable {q n p p' : ℕ} {M : ModFr q n p} {M' : ModFr q n p'} {s : Fin q → ℝ}

/-! ## Derivatives of order three and four -/

theorem binomial_high {link : Link} {μ μ1 μ2 μ3 μ4 : ℝ → ℝ} (h : SymLink μ μ1 μ2)
    (h3 : ∀ x, μ3 (-x) = μ3 x) (h4 : ∀ x, μ4 (-x) = -μ4 x)
    (l0 : ∀ {m : ℕ} (eta : Fin m → ℝ), link.computeMean eta = Except.ok fun i => μ (eta i))
    (l1 : ∀ {m : ℕ} (eta : Fin m → ℝ), link.computeMeanDerivative eta = Except.ok fun i => μ1 (eta i))
    (l2 : ∀ {m : ℕ} (eta : Fin m → ℝ), link.computeMeanSecondDerivative eta =
      Except.ok fun i => μ2 (eta i))
    (l3 : ∀ {m : ℕ} (eta : Fin m → ℝ), link.computeMeanThirdDerivative eta =
      Except.ok fun i => μ3 (eta i))
    (l4 : ∀ {m : ℕ} (eta : Fin m → ℝ), link.computeMeanFourthDerivative eta =
      Except.ok fun i => μ4 (eta i)) {m : ℕ} (eta resp w : Fin m → ℝ) :
    (Family.mk link (some .binomial)).evaluateThirdDerivative (-eta) (1 - resp) w =
        ((Family.mk link (some .binomial)).evaluateThirdDerivative eta resp w >>=
          fun v => pure (-v)) ∧
      (Family.mk link (some .binomial)).evaluateFourthDerivative (-eta) (1 - resp) w =
        (Family.mk link (some .binomial)).evaluateFourthDerivative eta resp w := by
  have hc : Binomial.checkMean (fun i => μ ((-eta) i)) = fun i =>
      1 - Binomial.checkMean (fun i => μ (eta i)) i := by
    have := checkMean_neg h.mean eta
    simp only [neg_one_mul] at this
    exact this
  constructor
  · unfold Family.evaluateThirdDerivative
    simp only [l0, l1, l2, l3, res_ok_bind, res_pure, FamilyGivenMean.checkMean,
      FamilyGivenMean.evaluateDerivative, FamilyGivenMean.evaluateSecondDerivative,
      FamilyGivenMean.evaluateThirdDerivative, hc]
    refine congrArg Except.ok (funext fun i => ?_)
    simp only [Pi.mul_apply, Pi.add_apply, Pi.pow_apply, Pi.neg_apply, Pi.sub_apply, Pi.one_apply,
      Pi.ofNat_apply, Binomial.evaluateDerivative, Binomial.evaluateSecondDerivative,
      Binomial.evaluateThirdDerivative, h.first, h.second, h3, sub_sub_cancel]
    ring
  · unfold Family.evaluateFourthDerivative
    simp only [l0, l1, l2, l3, l4, res_ok_bind, res_pure, FamilyGivenMean.checkMean,
      FamilyGivenMean.evaluateDerivative, FamilyGivenMean.evaluateSecondDerivative,
      FamilyGivenMean.evaluateThirdDerivative, FamilyGivenMean.evaluateFourthDerivative, hc]
    refine congrArg Except.ok (funext fun i => ?_)
    simp only [Pi.mul_apply, Pi.add_apply, Pi.pow_apply, Pi.neg_apply, Pi.sub_apply, Pi.one_apply,
      Pi.ofNat_apply, Binomial.evaluateDerivative, Binomial.evaluateSecondDerivative,
      Binomial.evaluateThirdDerivative, Binomial.evaluateFourthDerivative, h.first, h.second, h3, h4,
      sub_sub_cancel]
    ring

/-- C101, the binomial family: exchanging successes and failures and the sign of the linear predictor
changes the sign of the third derivatives and keeps the fourth. -/
theorem c101_family_high {link : String} {f : Family}
    (h : Family.ofNames "binomial" link = Except.ok f) {m : ℕ} (eta resp w : Fin m → ℝ) :
    f.evaluateThirdDerivative (-eta) (1 - resp) w =
        (f.evaluateThirdDerivative eta resp w >>= fun v => pure (-v)) ∧
      f.evaluateFourthDerivative (-eta) (1 - resp) w = f.evaluateFourthDerivative eta resp w := by
  unfold Family.ofNames Link.ofName at h
  split_ifs at h
  · cases h
    refine binomial_high
      (μ3 := fun x => Real.exp x * (-4 * Real.exp x + Real.exp (2 * x) + 1) / (1 + Real.exp x) ^ 4)
      (μ4 := fun x => -Real.exp x * (11 * Real.exp x - 11 * Real.exp (2 * x) + Real.exp (3 * x) - 1) /
        (1 + Real.exp x) ^ 5) logit_sym (fun x => ?_) (fun x => ?_) (fun _ => rfl) (fun _ => rfl)
      (fun _ => rfl) (fun _ => rfl) (fun _ => rfl) eta resp w
    all_goals
      have e2 : ∀ y : ℝ, Real.exp (2 * y) = Real.exp y ^ 2 := fun y => by
        rw [← Real.exp_nat_mul]; norm_num
      have e3 : ∀ y : ℝ, Real.exp (3 * y) = Real.exp y ^ 3 := fun y => by
        rw [← Real.exp_nat_mul]; norm_num
      simp only [e2, e3, Real.exp_neg]
      have h0 := Real.exp_pos x
      have h1 : 1 + Real.exp x ≠ 0 := by positivity
      have h2 : 1 + (Real.exp x)⁻¹ ≠ 0 := by positivity
      have h3 : Real.exp x + 1 ≠ 0 := by positivity
      field_simp
      ring
  · cases h
    refine binomial_high (μ3 := fun x => (x ^ 2 - 1) * normalPdf x)
      (μ4 := fun x => (-x ^ 3 + 3 * x) * normalPdf x) probit_sym (fun x => ?_) (fun x => ?_)
      (fun _ => rfl) (fun _ => rfl) (fun _ => rfl) (fun _ => rfl) (fun _ => rfl) eta resp w
    all_goals
      have h : normalPdf (-x) = normalPdf x := by
        unfold normalPdf
        rw [neg_sq]
      simp only [h]
      ring
  · cases h

/-! ## The matrix of the correction -/

theorem design_turn {τ : ℝ} (hs : Signs s) {theta beta theta' beta' : List ℝ}
    (hp : ∀ u j, Split.Spec.eta M' theta' beta' (fun r => s r * u r) j =
      τ * Split.Spec.eta M theta beta u j) (r : Fin q) (j : Fin n) :
    ((Matrix.of fun i c => Split.Spec.lambdat M' theta' i c) * M'.Zt) r j =
      τ * s r * ((Matrix.of fun i c => Split.Spec.lambdat M theta i c) * M.Zt) r j := by
  have h0 := hp 0 j
  have h1 := hp (Pi.single r 1) j
  simp only [Split.Spec.eta, Pi.zero_apply, mul_zero, Finset.sum_const_zero, add_zero] at h0
  simp only [Split.Spec.eta, h0, Pi.single_apply, mul_ite, mul_one, mul_zero, Finset.sum_ite_eq',
    Finset.mem_univ, if_true, mul_add] at h1
  simp only [Matrix.mul_apply, Matrix.of_apply]
  have h2 := add_left_cancel h1
  have h3 : s r * s r = 1 := by rcases hs r with e | e <;> rw [e] <;> norm_num
  linear_combination s r * h2 - (∑ c, Split.Spec.lambdat M' theta' r c * M'.Zt c j) * h3

theorem quad_turn {τ : ℝ} (hτ : τ * τ = 1) (hs : Signs s) {P : Matrix (Fin q) (Fin q) ℝ}
    {D D' : Matrix (Fin q) (Fin n) ℝ} (hD : ∀ r j, D' r j = τ * s r * D r j) :
    D'ᵀ * ((fm (sn s) P)⁻¹ * D') = Dᵀ * (P⁻¹ * D) := by
  have hsn : ∀ r : Fin q, sn s r = s r := fun r => by rw [sn, dif_pos r.2]
  have h1 : ∀ r, s r * s r = 1 := fun r => by rcases hs r with e | e <;> rw [e] <;> norm_num
  rw [fm_inv (sn_sign hs)]
  ext i j
  simp only [Matrix.mul_apply, transpose_apply, fm, Matrix.of_apply, hsn, hD, Finset.mul_sum]
  refine Finset.sum_congr rfl fun r _ => Finset.sum_congr rfl fun c _ => ?_
  linear_combination (D r i * (P⁻¹ r c * D c j)) * (τ * τ * (s r * s r) * h1 c + τ * τ * h1 r + hτ)

theorem findM_turn {τ : ℝ} (hτ : τ * τ = 1) (hs : Signs s) {theta beta theta' beta' : List ℝ}
    (hp : ∀ u j, Split.Spec.eta M' theta' beta' (fun r => s r * u r) j =
      τ * Split.Spec.eta M theta beta u j)
    (hM : Split.Spec.WellFormed M theta.length) (hM' : Split.Spec.WellFormed M' theta'.length)
    (ht : theta ≠ []) (ht' : theta' ≠ []) {a a' : NormalApprox q} (h : MirrorNormal s a a') :
    Hol.findM (theta' ++ beta') M' theta'.length a' = Hol.findM (theta ++ beta) M theta.length a := by
  unfold Hol.findM
  simp only [IS.findLambdatThetaZt_ok beta hM ht, IS.findLambdatThetaZt_ok beta' hM' ht', res_ok_bind]
  rw [det_flip hs h, mirror_fm h, quad_turn hτ hs (design_turn hs hp)]

theorem etaHat_turn {τ : ℝ} {theta beta theta' beta' : List ℝ}
    (hp : ∀ u j, Split.Spec.eta M' theta' beta' (fun r => s r * u r) j =
      τ * Split.Spec.eta M theta beta u j)
    (hM' : Split.Spec.WellFormed M' theta'.length)
    (ht' : theta' ≠ []) (hb' : beta'.length = p')
    {a a' : NormalApprox q} (h : MirrorNormal s a a') :
    Hol.etaHat (theta' ++ beta') M' theta'.length a' =
      Except.ok fun j => τ * Split.Spec.eta M theta beta a.mean j := by
  rw [Hol.etaHat_eq hM' ht' hb', show a'.mean = fun r => s r * a.mean r from funext h.mean]
  exact congrArg Except.ok (funext fun j => hp _ j)

/-! ## C100 and C101 -/

/-- C100 for the Laplace approximation of second order: the correction does not depend on the signs of
the random effects. -/
theorem c100_hol (hs : Signs s) (hd : SameData M M') {theta beta theta' beta' : List ℝ}
    (hp : MirrorPredictor s M M' theta beta theta' beta')
    (hM : Split.Spec.WellFormed M theta.length) (hM' : Split.Spec.WellFormed M' theta'.length)
    (ht : theta ≠ []) (ht' : theta' ≠ []) (hb : beta.length = p) (hb' : beta'.length = p')
    {a a' : NormalApprox q} (h : MirrorNormal s a a') (family link : String) :
    Hol.findEpsilon1 family link (theta' ++ beta') M' theta'.length a' =
      Hol.findEpsilon1 family link (theta ++ beta) M theta.length a := by
  have hp' : ∀ u j, Split.Spec.eta M' theta' beta' (fun r => s r * u r) j =
      1 * Split.Spec.eta M theta beta u j := fun u j => by rw [hp u j, one_mul]
  unfold Hol.findEpsilon1
  rw [findM_turn (by norm_num) hs hp' hM hM' ht ht' h, etaHat_turn hp' hM' ht' hb' h,
    Hol.etaHat_eq hM ht hb]
  simp only [one_mul, IS.weightsOf_eq, ← hd.weight, ← hd.resp]

theorem epsilonOf_neg (g3 g4 : Fin n → ℝ) (A : Matrix (Fin n) (Fin n) ℝ) :
    Hol.epsilonOf (fun j => -g3 j) g4 A = Hol.epsilonOf g3 g4 A := by
  have h : (fun j => -g3 j) = -g3 := rfl
  have h' : (fun j => -g3 j * A j j) = -fun j => g3 j * A j j := by
    funext j
    rw [Pi.neg_apply, neg_mul]
  unfold Hol.epsilonOf
  dsimp only
  rw [h', h]
  simp only [mulVec_neg, dotProduct_neg, neg_dotProduct, neg_neg]

/-- C101 for the Laplace approximation of second order: the correction does not depend on which outcome
is called success. -/
theorem c101_hol (hs : Signs s) (hd : SwapData M M') {theta beta theta' beta' : List ℝ}
    (hp : SwapPredictor s M M' theta beta theta' beta')
    (hM : Split.Spec.WellFormed M theta.length) (hM' : Split.Spec.WellFormed M' theta'.length)
    (ht : theta ≠ []) (ht' : theta' ≠ []) (hb : beta.length = p) (hb' : beta'.length = p')
    {a a' : NormalApprox q} (h : MirrorNormal s a a') (link : String) :
    Hol.findEpsilon1 "binomial" link (theta' ++ beta') M' theta'.length a' =
      Hol.findEpsilon1 "binomial" link (theta ++ beta) M theta.length a := by
  have hp' : ∀ u j, Split.Spec.eta M' theta' beta' (fun r => s r * u r) j =
      -1 * Split.Spec.eta M theta beta u j := fun u j => by rw [hp u j, neg_one_mul]
  have e1 : (fun j => -1 * Split.Spec.eta M theta beta a.mean j) =
      -Split.Spec.eta M theta beta a.mean := funext fun j => neg_one_mul _
  have e2 : M'.resp = 1 - M.resp := funext hd.resp
  unfold Hol.findEpsilon1
  rw [findM_turn (by norm_num) hs hp' hM hM' ht ht' h, etaHat_turn hp' hM' ht' hb' h,
    Hol.etaHat_eq hM ht hb, e1, e2]
  simp only [IS.weightsOf_eq, ← hd.weight, res_ok_bind]
  rcases hf : Family.ofNames "binomial" link with e | f
  · rfl
  simp only [res_ok_bind, (c101_family_high hf _ _ _).1, (c101_family_high hf _ _ _).2]
  rcases f.evaluateThirdDerivative _ _ _ with e | d3
  · rfl
  simp only [res_ok_bind, res_pure]
  rcases f.evaluateFourthDerivative _ _ _ with e | d4
  · rfl
  simp only [res_ok_bind]
  rcases Hol.findM _ _ _ _ with e | A
  · rfl
  simp only [res_ok_bind]
  refine congrArg Except.ok ?_
  exact epsilonOf_neg (fun j => -d3 j) (fun j => -d4 j) A

/-! ## A case meeting the hypotheses -/

/-- The model `crossed` with successes and failures exchanged. -/
example (d : ℝ) :
    Hol.findEpsilon1 "binomial" "logit" [1, 2, -0.5] (swapped crossed) 2
        (Lfun.computeNormalApprox (d, crossedSwapPP)).2 =
      Hol.findEpsilon1 "binomial" "logit" [1, 2, 0.5] crossed 2
        (Lfun.computeNormalApprox (d, Lfun.crossedPP)).2 :=
  c101_hol (fun _ => Or.inr rfl) (swapped_data crossed) (theta := [1, 2]) (beta := [0.5])
    (theta' := [1, 2]) (beta' := [-0.5]) (swapped_predictor crossed [1, 2] [0.5]) crossed_wf
    (swapped_wf crossed_wf) (by simp) (by simp) rfl rfl (crossed_swap d) "logit"

/-- The model `crossed` with standard deviations 1 and 2, and with 1 and -2. -/
example (d : ℝ) :
    Hol.findEpsilon1 "binomial" "logit" [1, -2, 0.5] crossed 2
        (Lfun.computeNormalApprox (d, crossedPP')).2 =
      Hol.findEpsilon1 "binomial" "logit" [1, 2, 0.5] crossed 2
        (Lfun.computeNormalApprox (d, Lfun.crossedPP)).2 := by
  have hs : Signs (![1, -1] : Fin 2 → ℝ) := by
    intro r
    fin_cases r
    · exact Or.inl rfl
    · exact Or.inr rfl
  refine c100_hol hs (theta := [1, 2]) (beta := [0.5]) (theta' := [1, -2]) (beta' := [0.5])
    ⟨rfl, rfl, fun _ => rfl⟩ (mirror_theta crossed [0.5] hs fun k => ?_) crossed_wf crossed_wf (by simp)
    (by simp) rfl rfl (crossed_mirror d) "binomial" "logit"
  have h2 : crossed.lambdat.length = 2 := rfl
  obtain ⟨k, hk⟩ := k
  rw [h2] at hk
  interval_cases k
  · show (1 : ℝ) = 1 * 1
    norm_num
  · show (-2 : ℝ) = -1 * 2
    norm_num

end Verif.Sign
