import Verif.Proofs.PrekopaStrict
import Verif.Props.Separation

/-!
# C120: maximum likelihood estimates of the fixed effects are unique
-/
namespace Verif.Separation

open Verif.Split Verif.Family Verif.GLMM ProbabilityTheory MeasureTheory Set
open Verif.Separation.Spec

variable {q n p : ℕ} {μ : ℝ → ℝ} {link : String} {w y : ℝ}

/-- The log-likelihood of an observation with weight is strictly concave. -/
theorem logLik_strict (hl : IsLink link μ) (hw : 0 < w) (h0 : 0 ≤ y) (h1 : y ≤ 1) :
    StrictConcaveOn ℝ univ (logLik μ y w) := by
  rcases hl with _ | _
  · have e : logLik expit y w = fun x => b0 w y (lo0 x) := by rw [← lo0_eq]; rfl
    have d0 := fun x => t0_deriv logit_ok w y x
    have d1 := fun x => t1_deriv logit_ok w y x
    have e1 : deriv (fun x => b0 w y (lo0 x)) = t1 lo0 lo1 w y := funext fun x => (d0 x).deriv
    rw [e]
    refine strictConcaveOn_univ_of_deriv2_neg
      (continuous_iff_continuousAt.2 fun x => (d0 x).continuousAt) fun x => ?_
    show deriv (deriv fun x => b0 w y (lo0 x)) x < 0
    rw [e1, (d1 x).deriv, logit_t2]
    have h2 := logit_ok.pos x
    have h3 := logit_ok.lt_one x
    have : 0 < w * (lo0 x * (1 - lo0 x)) := mul_pos hw (mul_pos h2 (by linarith))
    linarith
  · have e : logLik invProbit y w = fun x => b0 w y (normalCdf x) := by rw [← normalCdf_eq]; rfl
    have d0 := fun x => t0_deriv probit_ok w y x
    have d1 := fun x => t1_deriv probit_ok w y x
    have e1 : deriv (fun x => b0 w y (normalCdf x)) = t1 normalCdf normalPdf w y :=
      funext fun x => (d0 x).deriv
    rw [e]
    refine strictConcaveOn_univ_of_deriv2_neg
      (continuous_iff_continuousAt.2 fun x => (d0 x).continuousAt) fun x => ?_
    show deriv (deriv fun x => b0 w y (normalCdf x)) x < 0
    obtain ⟨k, hk, e2⟩ := probit_t2 (w := w) h0 h1 x
    rw [e1, (d1 x).deriv, e2]
    have := mul_pos hw hk
    linarith

/-- The log-integrand is strictly concave in the random and the fixed effects together. -/
theorem jointly_strict (hl : IsLink link μ) {M : ModFr q n p} (hw : ∀ j, 0 ≤ Split.Spec.weight M j)
    (hy : ∀ j, 0 ≤ M.resp j ∧ M.resp j ≤ 1) (hM : FullRank M) (theta : List ℝ) :
    StrictConcaveOn ℝ univ fun x : (Fin q → ℝ) × (Fin p → ℝ) =>
      Split.Spec.logIntegrand M μ theta (List.ofFn x.2) x.1 := by
  refine ⟨convex_univ, fun x _ y _ hxy a b ha hb hab => ?_⟩
  unfold Split.Spec.logIntegrand
  simp only [Gradient.eta_jointly, smul_eq_mul]
  rw [mul_add, mul_add, Finset.mul_sum, Finset.mul_sum, Finset.mul_sum, Finset.mul_sum,
    add_add_add_comm, ← Finset.sum_add_distrib, ← Finset.sum_add_distrib]
  have hobs : ∀ j, a * logLik μ (M.resp j) (Split.Spec.weight M j)
        (Split.Spec.eta M theta (List.ofFn x.2) x.1 j) +
      b * logLik μ (M.resp j) (Split.Spec.weight M j) (Split.Spec.eta M theta (List.ofFn y.2) y.1 j) ≤
      logLik μ (M.resp j) (Split.Spec.weight M j)
        (a * Split.Spec.eta M theta (List.ofFn x.2) x.1 j +
          b * Split.Spec.eta M theta (List.ofFn y.2) y.1 j) := fun j =>
    (Mode.logLik_concave hl (hw j) (hy j).1 (hy j).2).2 (mem_univ _) (mem_univ _) ha.le hb.le hab
  have hsq : ∀ r, (a * x.1 r + b * y.1 r) ^ 2 = a * x.1 r ^ 2 + b * y.1 r ^ 2 -
      a * b * (x.1 r - y.1 r) ^ 2 := fun r => by
    obtain rfl : b = 1 - a := by linarith
    ring
  have hgauss : ∀ r, Real.log (gaussianPDFReal 0 1 ((a • x + b • y).1 r)) =
      a * Real.log (gaussianPDFReal 0 1 (x.1 r)) + b * Real.log (gaussianPDFReal 0 1 (y.1 r)) +
        a * b * (x.1 r - y.1 r) ^ 2 / 2 := fun r => by
    rw [log_gaussian (x.1 r), log_gaussian (y.1 r), log_gaussian ((a • x + b • y).1 r)]
    have e : (a • x + b • y).1 r = a * x.1 r + b * y.1 r := rfl
    rw [e, hsq]
    obtain rfl : b = 1 - a := by linarith
    ring
  have hr : ∀ r, a * Real.log (gaussianPDFReal 0 1 (x.1 r)) + b * Real.log (gaussianPDFReal 0 1 (y.1 r)) ≤
      Real.log (gaussianPDFReal 0 1 ((a • x + b • y).1 r)) := fun r => by
    rw [hgauss]
    have : 0 ≤ a * b * (x.1 r - y.1 r) ^ 2 / 2 := by positivity
    linarith
  by_cases h1 : x.1 = y.1
  · have h2 : x.2 - y.2 ≠ 0 := fun h => hxy (Prod.ext h1 (sub_eq_zero.1 h))
    have h3 : ∃ j, 0 < Split.Spec.weight M j ∧ move M (x.2 - y.2) j ≠ 0 := by
      by_contra hn
      push Not at hn
      exact h2 (hM _ hn)
    obtain ⟨j, hj, hm⟩ := h3
    refine add_lt_add_of_lt_of_le ?_ (Finset.sum_le_sum fun r _ => hr r)
    refine Finset.sum_lt_sum (fun i _ => hobs i) ⟨j, Finset.mem_univ _, ?_⟩
    refine (logLik_strict hl hj (hy j).1 (hy j).2).2 (mem_univ _) (mem_univ _) ?_ ha hb hab
    rw [eta_split, eta_split, h1]
    intro h
    have h4 : move M x.2 j = move M y.2 j := add_right_cancel h
    apply hm
    have := move_add M (x.2 - y.2) y.2 j
    rw [sub_add_cancel, h4] at this
    linarith
  · obtain ⟨r, hne⟩ := Function.ne_iff.1 h1
    refine add_lt_add_of_le_of_lt (Finset.sum_le_sum fun j _ => hobs j) ?_
    refine Finset.sum_lt_sum (fun r _ => hr r) ⟨r, Finset.mem_univ _, ?_⟩
    rw [hgauss]
    have : 0 < (x.1 r - y.1 r) ^ 2 := by
      have := sub_ne_zero.2 hne
      positivity
    have : 0 < a * b * (x.1 r - y.1 r) ^ 2 / 2 := by positivity
    linarith

/-- C120: for given variance parameters, if different fixed effects give different linear predictors, the
log-likelihood is a strictly concave function of the fixed effects. -/
theorem c120 (hl : IsLink link μ) {M : ModFr q n p} (hw : ∀ j, 0 ≤ Split.Spec.weight M j)
    (hy : ∀ j, 0 ≤ M.resp j ∧ M.resp j ≤ 1) (hM : FullRank M) (theta : List ℝ) :
    StrictConcaveOn ℝ univ fun b => Real.log (likelihood M μ theta b) :=
  Prekopa.marginal_strict (C := fun _ => 1) (jointly_strict hl hw hy hM theta) fun u v => by
    rw [one_mul]
    exact Gradient.integrand_le hl hw hy _ _ u

/-- C120: there is exactly one maximum likelihood estimate of the fixed effects just if no direction
separates. -/
theorem c120_unique (hl : IsLink link μ) {M : ModFr q n p} (hw : ∀ j, 0 ≤ Split.Spec.weight M j)
    (hy : ∀ j, 0 ≤ M.resp j ∧ M.resp j ≤ 1) (theta : List ℝ) :
    (∃! b, ∀ b', likelihood M μ theta b' ≤ likelihood M μ theta b) ↔ ∀ d, Separates M d → d = 0 := by
  constructor
  · rintro ⟨b, hb, hu⟩ d hd
    have hov := (c118 hl hw hy theta).1 ⟨b, hb⟩ d hd
    have e : moves M (b + d) = moves M b := by
      rw [map_add, add_eq_left]
      funext j
      by_cases hj : 0 < Split.Spec.weight M j
      · rw [moves_apply hj, hov j hj]
        rfl
      · exact if_neg hj
    have := hu (b + d) fun b' => by
      rw [likelihood_moves (μ := μ) hw theta e]
      exact hb b'
    simpa using this
  · intro h
    have hM : FullRank M := fun d hd => h d fun j hj => by
      rw [hd j hj]
      exact ⟨fun _ => le_rfl, fun _ => le_rfl⟩
    obtain ⟨b, hb⟩ := (c118 hl hw hy theta).2 fun d hd j _ => by
      rw [h d hd]
      simp [move]
    refine ⟨b, hb, fun b' hb' => ?_⟩
    have hpos := fun b : Fin p → ℝ => (Mode.c110_likelihood hl hw hy theta (List.ofFn b)).2.1
    refine (c120 hl hw hy hM theta).eq_of_isMaxOn (fun c _ => ?_) (fun c _ => ?_) (mem_univ _) (mem_univ _)
    · exact Real.log_le_log (hpos c) (hb' c)
    · exact Real.log_le_log (hpos c) (hb c)

/-! ## A case meeting the hypotheses -/

theorem pair_full : FullRank Whole.pair := by
  intro d hd
  have := hd 0 (by simp [Split.Spec.weight, Whole.pair])
  simp [move, Whole.pair] at this
  funext i
  rw [Subsingleton.elim i 0, this]
  rfl

example : StrictConcaveOn ℝ univ fun b => Real.log (likelihood Whole.pair expit [2] b) :=
  c120 .logit (fun j => by simp [Split.Spec.weight, Whole.pair])
    (fun j => by fin_cases j <;> simp [Whole.pair]) pair_full [2]

/-- The estimate of the intercept of `pair` is 0, and is the only one. -/
example (b : Fin 1 → ℝ) (h : ∀ b', likelihood Whole.pair expit [2] b' ≤ likelihood Whole.pair expit [2] b) :
    b = 0 := by
  have hw : ∀ j, 0 ≤ Split.Spec.weight Whole.pair j := fun j => by simp [Split.Spec.weight, Whole.pair]
  have hy : ∀ j, 0 ≤ Whole.pair.resp j ∧ Whole.pair.resp j ≤ 1 := fun j => by
    fin_cases j <;> simp [Whole.pair]
  have hu := (c120_unique .logit hw hy [2]).2 fun d hd => pair_full d (pair_overlap d hd)
  exact hu.unique h fun b' => Gradient.c116_max .logit hw hy [2] (Or.inl Gradient.pair_local) b'

end Verif.Separation
