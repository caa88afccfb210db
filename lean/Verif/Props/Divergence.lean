import Verif.Proofs.Divergence

/-!
# C72: the divergence reported for the first-order Laplace approximation

With `Sigma_1` the covariance of the fit and `delta_1`, `gamma_1` the derivatives of the second-order
correction at the estimates, the value is the Kullback-Leibler divergence, from the normal approximation
to the likelihood corrected to second order, to that of the likelihood of the fit.
-/
namespace Verif.Hol

open MeasureTheory ProbabilityTheory Matrix InformationTheory Verif.IS

variable {p : ℕ}

theorem expansion_eq {H : Matrix (Fin p) (Fin p) ℝ} (hH : H.PosDef) {J gamma : Matrix (Fin p) (Fin p) ℝ}
    (hJ : J - gamma = H) (m delta x : Fin p → ℝ) :
    Spec.expansion m J delta gamma x = Spec.expansion m J delta gamma (m + H⁻¹ *ᵥ delta) -
      1 / 2 * ((x - (m + H⁻¹ *ᵥ delta)) ⬝ᵥ (H *ᵥ (x - (m + H⁻¹ *ᵥ delta)))) := by
  have hs : Hᵀ = H := Gauss.posDef_symm hH
  have e : ∀ d, Spec.expansion m J delta gamma (m + d) =
      delta ⬝ᵥ d - 1 / 2 * (d ⬝ᵥ (H *ᵥ d)) := by
    intro d
    unfold Spec.expansion
    rw [add_sub_cancel_left, ← hJ, sub_mulVec, dotProduct_sub]
    ring
  obtain ⟨d, hd⟩ : ∃ d, x = m + d := ⟨x - m, by abel⟩
  subst hd
  rw [e, e, add_sub_add_left_eq_sub]
  generalize hsd : H⁻¹ *ᵥ delta = s
  have hd : delta = H *ᵥ s := by
    rw [← hsd, mulVec_mulVec, mul_nonsing_inv _ (Ne.isUnit hH.det_pos.ne'), one_mulVec]
  have hc : d ⬝ᵥ (H *ᵥ s) = s ⬝ᵥ (H *ᵥ d) := by
    rw [Gauss.symm_dot hs]
  rw [hd, mulVec_sub, sub_dotProduct, dotProduct_sub, dotProduct_sub, dotProduct_comm (H *ᵥ s) d,
    dotProduct_comm (H *ᵥ s) s, hc]
  ring

theorem expansion_lt {H : Matrix (Fin p) (Fin p) ℝ} (hH : H.PosDef) {J gamma : Matrix (Fin p) (Fin p) ℝ}
    (hJ : J - gamma = H) (m delta : Fin p → ℝ) {x : Fin p → ℝ} (hx : x ≠ m + H⁻¹ *ᵥ delta) :
    Spec.expansion m J delta gamma x < Spec.expansion m J delta gamma (m + H⁻¹ *ᵥ delta) := by
  rw [expansion_eq hH hJ]
  have := Gauss.posDef_pos hH (sub_ne_zero.2 hx)
  linarith

/-- **C72, as `glmm` calls the function.** The value is the divergence from the normal distribution
around the maximum of the expansion corrected to first order to the normal approximation of the fit. -/
theorem c72 (grad : ((Fin p → ℝ) → Res ℝ) → (Fin p → ℝ) → Res (Fin p → ℝ))
    (hessian : ((Fin p → ℝ) → Res ℝ) → (Fin p → ℝ) → Res (Matrix (Fin p) (Fin p) ℝ))
    (epsilon_1 : (Fin p → ℝ) → Res ℝ) (fit : LaplaceFit p) (hS : fit.Sigma.PosDef)
    {delta : Fin p → ℝ} (hd : grad epsilon_1 fit.estim = Except.ok delta) :
    ∃ v m₂, findLaplaceDivergence grad hessian epsilon_1 fit false = Except.ok v ∧
      (∀ x, x ≠ m₂ → Spec.expansion fit.estim fit.Sigma⁻¹ delta 0 x <
        Spec.expansion fit.estim fit.Sigma⁻¹ delta 0 m₂) ∧
      0 ≤ v ∧ (v = 0 ↔ delta = 0) ∧
      ∀ ν₁ ν₂, Spec.IsNormal fit.estim fit.Sigma ν₁ → Spec.IsNormal m₂ fit.Sigma ν₂ →
        klDiv ν₂ ν₁ = ENNReal.ofReal v := by
  have hs : fit.Sigmaᵀ = fit.Sigma := Gauss.posDef_symm hS
  have hu : IsUnit fit.Sigma.det := Ne.isUnit hS.det_pos.ne'
  refine ⟨0.5 * (delta ⬝ᵥ (fit.Sigma *ᵥ delta)), fit.estim + fit.Sigma *ᵥ delta, ?_, ?_, ?_, ?_, ?_⟩
  · unfold findLaplaceDivergence
    rw [hd]
    simp only [res_ok_bind, Bool.false_eq_true, if_false, hs]
    rfl
  · intro x hx
    have := expansion_lt (H := fit.Sigma⁻¹) (J := fit.Sigma⁻¹) (gamma := 0) hS.inv (sub_zero _)
      fit.estim delta (x := x)
    rw [nonsing_inv_nonsing_inv _ hu] at this
    exact this hx
  · have := Gauss.posDef_nonneg hS delta
    linarith
  · constructor
    · intro h
      by_contra hne
      have := Gauss.posDef_pos hS hne
      linarith
    · rintro rfl
      simp
  · intro ν₁ ν₂ h1 h2
    obtain ⟨hk, hv⟩ := normal_kl hS.det_pos.ne' hS.det_pos.ne' h1 h2
    rw [← ENNReal.ofReal_toReal hk, hv]
    congr 1
    rw [add_sub_cancel_left, nonsing_inv_mul _ hu, trace_one, Fintype.card_fin, mulVec_mulVec,
      nonsing_inv_mul _ hu, one_mulVec, dotProduct_comm]
    ring

/-- **C72, with second derivatives.** -/
theorem c72_second (grad : ((Fin p → ℝ) → Res ℝ) → (Fin p → ℝ) → Res (Fin p → ℝ))
    (hessian : ((Fin p → ℝ) → Res ℝ) → (Fin p → ℝ) → Res (Matrix (Fin p) (Fin p) ℝ))
    (epsilon_1 : (Fin p → ℝ) → Res ℝ) (fit : LaplaceFit p) (hS : fit.Sigma.PosDef)
    {delta : Fin p → ℝ} (hd : grad epsilon_1 fit.estim = Except.ok delta)
    {gamma : Matrix (Fin p) (Fin p) ℝ} (hg : hessian epsilon_1 fit.estim = Except.ok gamma)
    (hH : (fit.Sigma⁻¹ - gamma).PosDef) :
    ∃ v m₂, findLaplaceDivergence grad hessian epsilon_1 fit true = Except.ok v ∧
      (∀ x, x ≠ m₂ → Spec.expansion fit.estim fit.Sigma⁻¹ delta gamma x <
        Spec.expansion fit.estim fit.Sigma⁻¹ delta gamma m₂) ∧
      0 ≤ v ∧
      ∀ ν₁ ν₂, Spec.IsNormal fit.estim fit.Sigma ν₁ →
        Spec.IsNormal m₂ (fit.Sigma⁻¹ - gamma)⁻¹ ν₂ → klDiv ν₂ ν₁ = ENNReal.ofReal v := by
  have hH2 := hH.inv
  have hs2 : ((fit.Sigma⁻¹ - gamma)⁻¹)ᵀ = (fit.Sigma⁻¹ - gamma)⁻¹ := Gauss.posDef_symm hH2
  have hs1 : (fit.Sigma⁻¹)ᵀ = fit.Sigma⁻¹ := Gauss.posDef_symm hS.inv
  set m₂ := fit.estim + (fit.Sigma⁻¹ - gamma)⁻¹ *ᵥ delta with hm
  set v := 1 / 2 * (Real.log fit.Sigma.det - Real.log ((fit.Sigma⁻¹ - gamma)⁻¹).det - p +
      (fit.Sigma⁻¹ * (fit.Sigma⁻¹ - gamma)⁻¹).trace +
      (m₂ - fit.estim) ⬝ᵥ (fit.Sigma⁻¹ *ᵥ (m₂ - fit.estim))) with hvd
  have hkl : ∀ ν₁ ν₂, Spec.IsNormal fit.estim fit.Sigma ν₁ →
      Spec.IsNormal m₂ (fit.Sigma⁻¹ - gamma)⁻¹ ν₂ →
        klDiv ν₂ ν₁ ≠ ⊤ ∧ (klDiv ν₂ ν₁).toReal = v := fun ν₁ ν₂ h1 h2 =>
    normal_kl hS.det_pos.ne' hH2.det_pos.ne' h1 h2
  refine ⟨v, m₂, ?_, fun x hx => expansion_lt hH rfl fit.estim delta hx, ?_, ?_⟩
  · unfold findLaplaceDivergence
    rw [hd]
    simp only [res_ok_bind, if_true]
    rw [hg]
    simp only [res_ok_bind]
    unfold divergenceSecond solve
    dsimp only
    rw [if_neg hS.det_pos.ne']
    simp only [res_pure, res_ok_bind]
    rw [if_neg hH.det_pos.ne']
    simp only [res_ok_bind, hs2, hs1, Real.log_abs]
    rw [hvd, hm, add_sub_cancel_left]
    congr 1
    unfold trace diag dotProduct
    ring
  · obtain ⟨ν₁, h1⟩ := exists_normal fit.estim hS
    obtain ⟨ν₂, h2⟩ := exists_normal m₂ hH2
    rw [← (hkl ν₁ ν₂ h1 h2).2]
    exact ENNReal.toReal_nonneg
  · intro ν₁ ν₂ h1 h2
    obtain ⟨hk, hv⟩ := hkl ν₁ ν₂ h1 h2
    rw [← ENNReal.ofReal_toReal hk, hv]

/-- **C72, where it fails.** Whether the corrected information `J_1 - gamma_1` is positive definite is
not checked; if it is not, the value can be negative. -/
theorem c72_indefinite : ∃ (fit : LaplaceFit 1) (delta : Fin 1 → ℝ) (gamma : Matrix (Fin 1) (Fin 1) ℝ),
    fit.Sigma.PosDef ∧ divergenceSecond fit delta gamma = Except.ok (-1) := by
  refine ⟨⟨0, 1⟩, 0, 2, PosDef.one, ?_⟩
  have h1 : (1 : Matrix (Fin 1) (Fin 1) ℝ) - 2 = -1 := by
    rw [show (2 : Matrix (Fin 1) (Fin 1) ℝ) = 1 + 1 from (one_add_one_eq_two).symm]
    abel
  have h2 : (-1 : Matrix (Fin 1) (Fin 1) ℝ)⁻¹ = -1 := by
    apply inv_eq_right_inv
    simp
  have h3 : (-1 : Matrix (Fin 1) (Fin 1) ℝ).det = -1 := by simp
  unfold divergenceSecond solve
  simp only [det_one, one_ne_zero, if_false, res_pure, res_ok_bind, inv_one, h1, h2, h3]
  rw [if_neg (by norm_num)]
  simp only [res_ok_bind, h3]
  congr 1
  simp
  norm_num

/-! ## The hypotheses can be met -/

/-- Two parameters with correlated estimates. -/
noncomputable def twoFit : LaplaceFit 2 := ⟨![1, -1], !![2, 1; 1, 2]⟩

theorem twoFit_posDef : twoFit.Sigma.PosDef := by
  refine Gauss.posDef_of ?_ ?_
  · ext i j
    fin_cases i <;> fin_cases j <;> rfl
  · intro x hx
    have h : x ⬝ᵥ (twoFit.Sigma *ᵥ x) = x 0 ^ 2 + x 1 ^ 2 + (x 0 + x 1) ^ 2 := by
      simp [twoFit, dotProduct, mulVec, Fin.sum_univ_two]
      ring
    rw [h]
    by_contra hle
    refine hx (funext fun i => ?_)
    have h0 : x 0 ^ 2 = 0 := by nlinarith [sq_nonneg (x 0), sq_nonneg (x 1), sq_nonneg (x 0 + x 1)]
    have h1 : x 1 ^ 2 = 0 := by nlinarith [sq_nonneg (x 0), sq_nonneg (x 1), sq_nonneg (x 0 + x 1)]
    fin_cases i
    · exact pow_eq_zero_iff (two_ne_zero) |>.1 h0
    · exact pow_eq_zero_iff (two_ne_zero) |>.1 h1

/-- With gradient `(1, 1)` the value is 3, a divergence between two distributions that exist. -/
example (hessian : ((Fin 2 → ℝ) → Res ℝ) → (Fin 2 → ℝ) → Res (Matrix (Fin 2) (Fin 2) ℝ)) :
    findLaplaceDivergence (fun _ _ => Except.ok ![1, 1]) hessian (fun x => Except.ok (x 0 + x 1)) twoFit
      false = Except.ok 3 ∧
    ∃ ν₁ ν₂ m₂, Spec.IsNormal twoFit.estim twoFit.Sigma ν₁ ∧ Spec.IsNormal m₂ twoFit.Sigma ν₂ ∧
      klDiv ν₂ ν₁ = 3 := by
  have hv : findLaplaceDivergence (fun _ _ => Except.ok ![1, 1]) hessian
      (fun x => Except.ok (x 0 + x 1)) twoFit false = Except.ok 3 := by
    unfold findLaplaceDivergence
    simp only [res_ok_bind, Bool.false_eq_true, if_false, res_pure]
    congr 1
    simp [twoFit, mulVec, dotProduct, Fin.sum_univ_two]
    norm_num
  refine ⟨hv, ?_⟩
  obtain ⟨v, m₂, h1, _, _, _, h5⟩ := c72 (fun _ _ => Except.ok ![1, 1]) hessian
    (fun x => Except.ok (x 0 + x 1)) twoFit twoFit_posDef rfl
  obtain ⟨ν₁, hν₁⟩ := exists_normal twoFit.estim twoFit_posDef
  obtain ⟨ν₂, hν₂⟩ := exists_normal m₂ twoFit_posDef
  have : v = 3 := Except.ok.inj (h1.symm.trans hv)
  exact ⟨ν₁, ν₂, m₂, hν₁, hν₂, by rw [h5 ν₁ ν₂ hν₁ hν₂, this]; norm_num⟩

/-- Second derivatives `gamma = 0` and `gamma = -1` meet the hypothesis. -/
example : (twoFit.Sigma⁻¹ - 0).PosDef ∧ (twoFit.Sigma⁻¹ - (-1)).PosDef := by
  refine ⟨by rw [sub_zero]; exact twoFit_posDef.inv, ?_⟩
  rw [sub_neg_eq_add]
  exact twoFit_posDef.inv.add PosDef.one

end Verif.Hol
