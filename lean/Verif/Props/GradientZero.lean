import Verif.Props.Gradient
import Verif.Props.Signs

/-!
# C115: the derivative in a standard deviation is zero where the standard deviation is zero
-/
namespace Verif.Gradient

open Verif.Split Verif.Family Verif.GLMM

variable {q n p m k : ℕ} {μ : ℝ → ℝ} {link : String}

/-- A function that is even along a line has no slope there. -/
theorem even_slope {E : Type*} [NormedAddCommGroup E] [NormedSpace ℝ E] {F : E → ℝ} {D : E →L[ℝ] ℝ}
    {x : E} (hD : HasFDerivAt F D x) (d : E) (he : ∀ t : ℝ, F (x + t • d) = F (x + (-t) • d)) :
    HasDerivAt (fun t : ℝ => F (x + t • d)) 0 0 := by
  have h1 : HasDerivAt (fun t : ℝ => F (x + t • d)) (D d) 0 := by
    have hl : HasDerivAt (fun t : ℝ => x + t • d) d 0 := by
      simpa using ((hasDerivAt_id (0 : ℝ)).smul_const d).const_add x
    have hD' : HasFDerivAt F D (x + (0 : ℝ) • d) := by simpa using hD
    exact hD'.comp_hasDerivAt (0 : ℝ) hl
  have h2 : HasDerivAt (fun t : ℝ => F (x + t • d)) (-D d) 0 := by
    have h3 : HasDerivAt (fun t : ℝ => F (x + (-t) • d)) (-D d) 0 := by
      have hl : HasDerivAt (fun t : ℝ => x + (-t) • d) (-d) 0 := by
        simpa using (((hasDerivAt_id (0 : ℝ)).neg).smul_const d).const_add x
      have hD' : HasFDerivAt F D (x + (-(0 : ℝ)) • d) := by simpa using hD
      have := hD'.comp_hasDerivAt (0 : ℝ) hl
      rwa [map_neg] at this
    have e : (fun t : ℝ => F (x + t • d)) = fun t => F (x + (-t) • d) := funext he
    rw [e]
    exact h3
  have h0 : D d = 0 := by
    have := h1.unique h2
    linarith
  rwa [h0] at h1

/-- C115: with independent random effects, the log-likelihood has no slope in a standard deviation where
it is zero, whatever the other parameters. -/
theorem c115 (hl : IsLink link μ) {M : ModFr q n p} {size : ℕ} (hM : Split.Spec.WellFormed M size)
    (hd : Fit.Spec.Diagonal M) (hw : ∀ j, 0 ≤ Split.Spec.weight M j)
    (hy : ∀ j, 0 ≤ M.resp j ∧ M.resp j ≤ 1) {x : (Fin m → ℝ) × (Fin k → ℝ)} {c : Fin m} (hc : x.1 c = 0) :
    HasDerivAt (fun t : ℝ => Real.log (∫ u, Real.exp (Split.Spec.logIntegrand M μ
      (List.ofFn (Function.update x.1 c t)) (List.ofFn x.2) u))) 0 0 := by
  obtain ⟨D, hD, -⟩ := c114 (m := m) (k := k) hl hw hy x
  have e : ∀ t : ℝ, x + t • ((Pi.single c 1, 0) : (Fin m → ℝ) × (Fin k → ℝ)) =
      (Function.update x.1 c t, x.2) := by
    intro t
    refine Prod.ext ?_ (by simp)
    funext i
    show x.1 i + t * (Pi.single c (1 : ℝ) : Fin m → ℝ) i = _
    by_cases hi : i = c
    · subst hi
      simp [hc]
    · simp [hi]
  have := even_slope hD (Pi.single c 1, 0) fun t => by
    rw [e, e]
    refine congrArg Real.log (Fit.c66 hM hd μ (fun l => ?_) _)
    by_cases hlm : l < m
    · rw [List.getD_eq_getElem _ _ (by simpa using hlm), List.getD_eq_getElem _ _ (by simpa using hlm),
        List.getElem_ofFn, List.getElem_ofFn]
      dsimp only
      by_cases hi : (⟨l, hlm⟩ : Fin m) = c
      · rw [hi, Function.update_self, Function.update_self, abs_neg]
      · rw [Function.update_of_ne hi, Function.update_of_ne hi]
    · rw [List.getD_eq_default _ _ (by simpa using hlm), List.getD_eq_default _ _ (by simpa using hlm)]
  simpa only [e] using this

/-- C115: with any random effects, the log-likelihood has no slope in any variance parameter where all
of them are zero. -/
theorem c115_all (hl : IsLink link μ) {M : ModFr q n p} (hw : ∀ j, 0 ≤ Split.Spec.weight M j)
    (hy : ∀ j, 0 ≤ M.resp j ∧ M.resp j ≤ 1) (d : Fin m → ℝ) (b : Fin k → ℝ) :
    HasDerivAt (fun t : ℝ => Real.log (∫ u, Real.exp (Split.Spec.logIntegrand M μ
      (List.ofFn (t • d)) (List.ofFn b) u))) 0 0 := by
  obtain ⟨D, hD, -⟩ := c114 (m := m) (k := k) hl hw hy (0, b)
  have e : ∀ t : ℝ, ((0, b) : (Fin m → ℝ) × (Fin k → ℝ)) + t • (d, 0) = (t • d, b) := by
    intro t
    refine Prod.ext ?_ ?_ <;> simp
  have hneg : ∀ (t : ℝ) (u : Fin q → ℝ) (j : Fin n),
      Split.Spec.eta M (List.ofFn (t • d)) (List.ofFn b) (-u) j =
        Split.Spec.eta M (List.ofFn ((-t) • d)) (List.ofFn b) u j := by
    intro t u j
    rw [← lin_apply M j (-u) (t • d, b), ← lin_apply M j u ((-t) • d, b)]
    have hA : ∀ (r : Fin q), linA M m k j r (t • d, b) = -linA M m k j r ((-t) • d, b) := by
      intro r
      rw [← map_neg]
      unfold linA
      simp only [ContinuousLinearMap.sum_apply, ContinuousLinearMap.smul_apply]
      refine Finset.sum_congr rfl fun c _ => congrArg _ (Finset.sum_congr rfl fun l _ => ?_)
      split_ifs
      · simp
      · rfl
    have hB : linB M m k j (t • d, b) = linB M m k j ((-t) • d, b) := by
      unfold linB
      simp only [ContinuousLinearMap.sum_apply, ContinuousLinearMap.smul_apply]
      rfl
    unfold lin
    simp only [ContinuousLinearMap.add_apply, ContinuousLinearMap.sum_apply,
      ContinuousLinearMap.smul_apply, smul_eq_mul, hA, hB, Pi.neg_apply, neg_mul_neg]
  have := even_slope hD (d, 0) fun t => by
    rw [e, e]
    refine congrArg Real.log ?_
    rw [← MeasureTheory.integral_neg_eq_self]
    refine congrArg (MeasureTheory.integral _) (funext fun u => congrArg Real.exp ?_)
    unfold Split.Spec.logIntegrand
    simp only [hneg]
    congr 1
    refine Finset.sum_congr rfl fun r _ => ?_
    rw [log_gaussian (u r), Pi.neg_apply, log_gaussian (-u r), neg_sq]
  simpa only [e] using this

/-! ## A case meeting the hypotheses -/

/-- The model `crossed` with standard deviations 0 and 2, and intercept 0.5. -/
example : HasDerivAt (fun t : ℝ => Real.log (∫ u, Real.exp (Split.Spec.logIntegrand crossed expit
    (List.ofFn (Function.update ![0, 2] (0 : Fin 2) t)) (List.ofFn ![0.5]) u))) 0 0 :=
  c115 .logit crossed_wf (by unfold Fit.Spec.Diagonal crossed; decide)
    (fun j => by simp [Split.Spec.weight, crossed])
    (fun j => by fin_cases j <;> simp [crossed]) (x := (![0, 2], ![0.5])) rfl

example (d : Fin 2 → ℝ) : HasDerivAt (fun t : ℝ => Real.log (∫ u, Real.exp
    (Split.Spec.logIntegrand crossed invProbit (List.ofFn (t • d)) (List.ofFn ![0.5]) u))) 0 0 :=
  c115_all .probit (fun j => by simp [Split.Spec.weight, crossed])
    (fun j => by fin_cases j <;> simp [crossed]) d ![0.5]

end Verif.Gradient
