import Verif.Proofs.Prekopa
import Verif.Props.Gradient
import Verif.Props.ISLimit
import Verif.Props.ISVariance
import Mathlib.Analysis.Convex.Extrema

/-!
# C116: for given variance parameters the log-likelihood is a concave function of the fixed effects
-/
namespace Verif.Gradient

open Verif.Split Verif.Family Verif.GLMM ProbabilityTheory Set

variable {q n p k : ℕ} {μ : ℝ → ℝ} {link : String}

theorem eta_jointly (M : ModFr q n p) (theta : List ℝ) {a b : ℝ} (x y : (Fin q → ℝ) × (Fin k → ℝ))
    (j : Fin n) : Split.Spec.eta M theta (List.ofFn (a • x + b • y).2) (a • x + b • y).1 j =
      a * Split.Spec.eta M theta (List.ofFn x.2) x.1 j + b * Split.Spec.eta M theta (List.ofFn y.2) y.1 j := by
  unfold Split.Spec.eta
  simp only [← pick_apply, Prod.snd_add, Prod.smul_snd, Prod.fst_add, Prod.smul_fst, map_add, map_smul,
    Pi.add_apply, Pi.smul_apply, smul_eq_mul]
  rw [mul_add, mul_add, Finset.mul_sum, Finset.mul_sum, Finset.mul_sum, Finset.mul_sum,
    add_add_add_comm, ← Finset.sum_add_distrib, ← Finset.sum_add_distrib]
  congr 1
  · exact Finset.sum_congr rfl fun i _ => by ring
  · exact Finset.sum_congr rfl fun i _ => by ring

theorem jointly_concave (hl : IsLink link μ) {M : ModFr q n p} (hw : ∀ j, 0 ≤ Split.Spec.weight M j)
    (hy : ∀ j, 0 ≤ M.resp j ∧ M.resp j ≤ 1) (theta : List ℝ) :
    ConcaveOn ℝ univ fun x : (Fin q → ℝ) × (Fin k → ℝ) =>
      Split.Spec.logIntegrand M μ theta (List.ofFn x.2) x.1 := by
  refine ⟨convex_univ, fun x _ y _ a b ha hb hab => ?_⟩
  unfold Split.Spec.logIntegrand
  simp only [eta_jointly, smul_eq_mul]
  rw [mul_add, mul_add, Finset.mul_sum, Finset.mul_sum, Finset.mul_sum, Finset.mul_sum,
    add_add_add_comm, ← Finset.sum_add_distrib, ← Finset.sum_add_distrib]
  refine add_le_add (Finset.sum_le_sum fun j _ => ?_) (Finset.sum_le_sum fun r _ => ?_)
  · exact (Mode.logLik_concave hl (hw j) (hy j).1 (hy j).2).2 (mem_univ _) (mem_univ _) ha hb hab
  · rw [log_gaussian (x.1 r), log_gaussian (y.1 r), log_gaussian ((a • x + b • y).1 r)]
    have h1 : (a * x.1 r + b * y.1 r) ^ 2 ≤ a * x.1 r ^ 2 + b * y.1 r ^ 2 :=
      (even_two.convexOn_pow (𝕜 := ℝ)).2 (mem_univ (x.1 r)) (mem_univ (y.1 r)) ha hb hab
    have e : (a • x + b • y).1 r = a * x.1 r + b * y.1 r := rfl
    rw [e]
    have h2 : a * Real.log (gaussianPDFReal 0 1 0) + b * Real.log (gaussianPDFReal 0 1 0) =
        Real.log (gaussianPDFReal 0 1 0) := by rw [← add_mul, hab, one_mul]
    linarith

/-- C116: concave in the fixed effects. -/
theorem c116 (hl : IsLink link μ) {M : ModFr q n p} (hw : ∀ j, 0 ≤ Split.Spec.weight M j)
    (hy : ∀ j, 0 ≤ M.resp j ∧ M.resp j ≤ 1) (theta : List ℝ) :
    ConcaveOn ℝ univ fun b : Fin k → ℝ =>
      Real.log (∫ u, Real.exp (Split.Spec.logIntegrand M μ theta (List.ofFn b) u)) :=
  Prekopa.marginal (C := fun _ => 1) (jointly_concave hl hw hy theta) fun u v => by
    rw [one_mul]
    exact integrand_le hl hw hy _ _ u

/-- C116: fixed effects at which the log-likelihood has a local maximum, or no slope, maximize it. -/
theorem c116_max (hl : IsLink link μ) {M : ModFr q n p} (hw : ∀ j, 0 ≤ Split.Spec.weight M j)
    (hy : ∀ j, 0 ≤ M.resp j ∧ M.resp j ≤ 1) (theta : List ℝ) {b : Fin k → ℝ}
    (h : IsLocalMax (fun b : Fin k → ℝ =>
        Real.log (∫ u, Real.exp (Split.Spec.logIntegrand M μ theta (List.ofFn b) u))) b ∨
      HasFDerivAt (fun b : Fin k → ℝ =>
        Real.log (∫ u, Real.exp (Split.Spec.logIntegrand M μ theta (List.ofFn b) u)))
        (0 : (Fin k → ℝ) →L[ℝ] ℝ) b) (b' : Fin k → ℝ) :
    ∫ u, Real.exp (Split.Spec.logIntegrand M μ theta (List.ofFn b') u) ≤
      ∫ u, Real.exp (Split.Spec.logIntegrand M μ theta (List.ofFn b) u) := by
  have hc := c116 (k := k) hl hw hy theta
  have hpos := fun b : Fin k → ℝ => (Mode.c110_likelihood hl hw hy theta (List.ofFn b)).2.1
  rw [← Real.log_le_log_iff (hpos b') (hpos b)]
  rcases h with h | h
  · exact IsMaxOn.of_isLocalMax_of_convex_univ h hc b'
  · set f := fun b : Fin k → ℝ =>
      Real.log (∫ u, Real.exp (Split.Spec.logIntegrand M μ theta (List.ofFn b) u)) with hf
    by_contra hn
    push Not at hn
    have hn : f b < f b' := hn
    have hline : HasDerivAt (fun t : ℝ => f (b + t • (b' - b))) 0 0 := by
      have hl' : HasDerivAt (fun t : ℝ => b + t • (b' - b)) (b' - b) 0 := by
        simpa using ((hasDerivAt_id (0 : ℝ)).smul_const (b' - b)).const_add b
      have h' : HasFDerivAt f (0 : (Fin k → ℝ) →L[ℝ] ℝ) (b + (0 : ℝ) • (b' - b)) := by simpa using h
      exact h'.comp_hasDerivAt (0 : ℝ) hl'
    have hcl : ConcaveOn ℝ univ fun t : ℝ => f (b + t • (b' - b)) := by
      refine ⟨convex_univ, fun s _ t _ a c ha hc' hac => ?_⟩
      have := hc.2 (mem_univ (b + s • (b' - b))) (mem_univ (b + t • (b' - b))) ha hc' hac
      refine this.trans (le_of_eq (congrArg f ?_))
      have e : a • b + c • b = b := by rw [← add_smul, hac, one_smul]
      rw [smul_add, smul_add, add_add_add_comm, e, smul_smul, smul_smul, ← add_smul]
      rfl
    have := hcl.slope_le_of_hasDerivAt (mem_univ 0) (mem_univ 1) one_pos hline
    rw [slope_def_field] at this
    simp at this
    linarith

/-! ## A case meeting the hypotheses -/

/-- The model `crossed` with standard deviations 1 and 2. -/
example : ConcaveOn ℝ univ fun b : Fin 1 → ℝ => Real.log (∫ u,
    Real.exp (Split.Spec.logIntegrand crossed invProbit [1, 2] (List.ofFn b) u)) :=
  c116 .probit (fun j => by simp [Split.Spec.weight, crossed])
    (fun j => by fin_cases j <;> simp [crossed]) _

/-- The log-likelihood of the model `pair` (one group, a success and a failure) with standard deviation
2 is even in the intercept. -/
theorem pair_even (b : Fin 1 → ℝ) :
    ∫ u, Real.exp (Split.Spec.logIntegrand Whole.pair expit [2] (List.ofFn (-b)) u) =
      ∫ u, Real.exp (Split.Spec.logIntegrand Whole.pair expit [2] (List.ofFn b) u) := by
  have eta : ∀ (b : Fin 1 → ℝ) (u : Fin 1 → ℝ) j,
      Split.Spec.eta Whole.pair [2] (List.ofFn b) u j = b 0 + 2 * u 0 := by
    intro b u j
    simp [Split.Spec.eta, Split.Spec.lambdat, Whole.pair]
    exact Or.inl rfl
  rw [← MeasureTheory.integral_neg_eq_self]
  refine congrArg (MeasureTheory.integral _) (funext fun u => congrArg Real.exp ?_)
  unfold Split.Spec.logIntegrand
  simp only [eta, Fin.sum_univ_two, Fin.sum_univ_one, logLik]
  rw [log_gaussian (u 0), log_gaussian ((-u) 0)]
  have e : (-b) 0 + 2 * (-u) 0 = -(b 0 + 2 * u 0) := by
    simp only [Pi.neg_apply]
    ring
  rw [e, IS.expit_neg, IS.expit_neg, neg_neg]
  simp [Whole.pair, Split.Spec.weight]
  ring

/-- So the intercept 0 meets the hypotheses of `c116_max`. -/
theorem pair_local : IsLocalMax (fun b : Fin 1 → ℝ =>
    Real.log (∫ u, Real.exp (Split.Spec.logIntegrand Whole.pair expit [2] (List.ofFn b) u))) 0 := by
  have hc := c116 (k := 1) .logit (M := Whole.pair) (fun j => by simp [Split.Spec.weight, Whole.pair])
    (fun j => by fin_cases j <;> simp [Whole.pair]) [2]
  refine Filter.Eventually.of_forall fun b => ?_
  have := hc.2 (mem_univ b) (mem_univ (-b)) (by norm_num : (0 : ℝ) ≤ 1 / 2) (by norm_num : (0 : ℝ) ≤ 1 / 2)
    (by norm_num)
  simp only [pair_even] at this
  rw [smul_neg, add_neg_cancel, ← add_smul] at this
  norm_num at this
  exact this

example (b : Fin 1 → ℝ) :
    ∫ u, Real.exp (Split.Spec.logIntegrand Whole.pair expit [2] (List.ofFn b) u) ≤
      ∫ u, Real.exp (Split.Spec.logIntegrand Whole.pair expit [2] (List.ofFn (0 : Fin 1 → ℝ)) u) :=
  c116_max .logit (fun j => by simp [Split.Spec.weight, Whole.pair])
    (fun j => by fin_cases j <;> simp [Whole.pair]) [2] (Or.inl pair_local) b

end Verif.Gradient
