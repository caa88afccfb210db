import Verif.Spec.ObsLevel
import Verif.Proofs.ProbitNormal
import Verif.Props.Separation

/-!
# C122: the variance of random effects for single binary observations cannot be estimated (probit link)
-/
namespace Verif.ObsLevel

open Verif.Split Verif.Family Verif.GLMM ProbabilityTheory MeasureTheory
open Verif.ObsLevel.Spec Verif.Separation.Spec

variable {q n p : ℕ} {M : ModFr q n p} {ρ : Fin n ≃ Fin q}

theorem eta_obs (hM : ObsLevel M ρ) (t : ℝ) (b : Fin p → ℝ) (u : Fin q → ℝ) (j : Fin n) :
    Split.Spec.eta M [t] (List.ofFn b) u j = move M b j + t * u (ρ j) := by
  rw [Separation.eta_split]
  congr 1
  simp only [hM.lambdat, hM.zt, ite_mul, zero_mul, Finset.sum_ite_eq, Finset.mem_univ, if_true,
    mul_ite, mul_one, mul_zero, Finset.sum_ite_eq']

/-- The probability of the response of a binary observation. -/
noncomputable def prob (y x : ℝ) : ℝ := if y = 1 then invProbit x else 1 - invProbit x

theorem exp_logLik {y : ℝ} (hy : y = 0 ∨ y = 1) (x : ℝ) : Real.exp (logLik invProbit y 1 x) = prob y x := by
  obtain ⟨h0, h1⟩ := (Separation.link_facts .probit).2.1 x
  rcases hy with rfl | rfl
  · simp [logLik, prob, Real.exp_log (sub_pos.2 h1)]
  · simp [logLik, prob, Real.exp_log h0]

theorem prob_normal {y : ℝ} (hy : y = 0 ∨ y = 1) (a s : ℝ) :
    ∫ u, gaussianPDFReal 0 1 u * prob y (a + s * u) = prob y (a / Real.sqrt (1 + s ^ 2)) := by
  rcases hy with rfl | rfl
  · simp only [prob, zero_ne_one, if_false, mul_sub, mul_one]
    have hi : Integrable fun u => gaussianPDFReal 0 1 u * invProbit (a + s * u) := by
      refine (integrable_gaussianPDFReal 0 1).mono' ?_ (Filter.Eventually.of_forall fun u => ?_)
      · have hm := (Separation.link_facts .probit).1.monotone.measurable
        exact ((measurable_gaussianPDFReal 0 1).mul (hm.comp (by fun_prop))).aestronglyMeasurable
      · obtain ⟨h0, h1⟩ := (Separation.link_facts .probit).2.1 (a + s * u)
        have hg := gaussianPDFReal_pos 0 1 u one_ne_zero
        rw [Real.norm_of_nonneg (mul_pos hg h0).le]
        nlinarith
    rw [integral_sub (integrable_gaussianPDFReal 0 1) hi, integral_gaussianPDFReal_eq_one 0 one_ne_zero,
      probit_normal]
  · simp only [prob, if_true]
    exact probit_normal a s

/-- The likelihood is that of a probit regression with the linear predictors divided by `√(1 + t²)`. -/
theorem c122_product (hM : ObsLevel M ρ) (hB : Binary M) (t : ℝ) (b : Fin p → ℝ) :
    likelihood M invProbit [t] b = ∏ j, prob (M.resp j) (move M b j / Real.sqrt (1 + t ^ 2)) := by
  have h1 : ∀ u : Fin q → ℝ, Real.exp (Split.Spec.logIntegrand M invProbit [t] (List.ofFn b) u) =
      ∏ r, gaussianPDFReal 0 1 (u r) * prob (M.resp (ρ.symm r)) (move M b (ρ.symm r) + t * u r) := by
    intro u
    unfold Split.Spec.logIntegrand
    rw [Real.exp_add, NoVariance.prod_gaussian, Real.exp_sum, Finset.prod_mul_distrib, mul_comm]
    congr 1
    refine Fintype.prod_equiv ρ _ _ fun j => ?_
    rw [(hB j).1, exp_logLik (hB j).2, eta_obs hM, Equiv.symm_apply_apply]
  unfold likelihood
  simp only [h1]
  rw [integral_fintype_prod_volume_eq_prod (fun r x => gaussianPDFReal 0 1 x *
    prob (M.resp (ρ.symm r)) (move M b (ρ.symm r) + t * x))]
  refine (Fintype.prod_equiv ρ _ _ fun j => ?_).symm
  rw [prob_normal (hB _).2, Equiv.symm_apply_apply]

/-- C122: another standard deviation, with other fixed effects, gives the same likelihood. -/
theorem c122 (hM : ObsLevel M ρ) (hB : Binary M) (t s : ℝ) (b : Fin p → ℝ) :
    likelihood M invProbit [s] ((Real.sqrt (1 + s ^ 2) / Real.sqrt (1 + t ^ 2)) • b) =
      likelihood M invProbit [t] b := by
  rw [c122_product hM hB, c122_product hM hB]
  refine Finset.prod_congr rfl fun j _ => congrArg _ ?_
  have hs : Real.sqrt (1 + s ^ 2) ≠ 0 := (Real.sqrt_pos.2 (by positivity)).ne'
  rw [Separation.move_smul]
  field_simp

/-- C122: so every standard deviation is part of a maximum of the likelihood, if one is. -/
theorem c122_all (hM : ObsLevel M ρ) (hB : Binary M) {t : ℝ} {b : Fin p → ℝ}
    (h : ∀ t' b', likelihood M invProbit [t'] b' ≤ likelihood M invProbit [t] b) (s : ℝ) :
    ∃ b₀, ∀ t' b', likelihood M invProbit [t'] b' ≤ likelihood M invProbit [s] b₀ :=
  ⟨_, fun t' b' => by
    rw [c122 hM hB t s b]
    exact h t' b'⟩

/-- C122: through any parameters there is a curve, with every standard deviation on it, along which the
likelihood does not change. -/
theorem c122_ridge (hM : ObsLevel M ρ) (hB : Binary M) (t : ℝ) (b : Fin p → ℝ) :
    ∃ c : ℝ → Fin p → ℝ, c t = b ∧ Continuous c ∧
      ∀ s, likelihood M invProbit [s] (c s) = likelihood M invProbit [t] b := by
  refine ⟨fun s => (Real.sqrt (1 + s ^ 2) / Real.sqrt (1 + t ^ 2)) • b, ?_, by fun_prop,
    fun s => c122 hM hB t s b⟩
  show (Real.sqrt (1 + t ^ 2) / Real.sqrt (1 + t ^ 2)) • b = b
  rw [div_self (Real.sqrt_pos.2 (by positivity)).ne', one_smul]

/-! ## A case meeting the hypotheses -/

/-- A success and a failure in two groups. -/
noncomputable def two : ModFr 2 2 1 where
  X := Matrix.of fun _ _ => 1
  Zt := Matrix.of fun r j => if r = j then 1 else 0
  ztStored r j := r = j
  lambdat := [(0, 0), (1, 1)]
  Lind := [1, 1]
  resp j := if j = 0 then 1 else 0
  weights := none
  offset := 0

theorem two_obs : ObsLevel two (Equiv.refl _) where
  lambdat t r c := by
    unfold Split.Spec.lambdat
    show (∑ k : Fin 2, if two.lambdat.get k = (r, c) then [t].getD (two.Lind.getD k 0 - 1).toNat 0
      else 0) = _
    rw [Fin.sum_univ_two]
    fin_cases r <;> fin_cases c <;> simp [two]
  zt c j := rfl

theorem two_binary : Binary two := fun j => by
  fin_cases j <;> simp [two, Split.Spec.weight]

/-- Standard deviation 4 and intercept 3 give the same likelihood as 0 and `3 / √17`. -/
example : likelihood two invProbit [0] ((Real.sqrt (1 + 0 ^ 2) / Real.sqrt (1 + 4 ^ 2)) • fun _ => 3) =
    likelihood two invProbit [4] fun _ => 3 := c122 two_obs two_binary 4 0 _

end Verif.ObsLevel
