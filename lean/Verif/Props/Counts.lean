import Verif.Model.Counts
import Verif.Props.Factorization
import Verif.Props.Hol

/-!
# C90: responses with two columns
-/
namespace Verif.Counts

open Verif.GLMM Verif.Split Verif.Split.Spec Verif.Family Verif.IS Verif.Pars Verif.Gauss

open scoped Matrix

variable {q n p r : ℕ}

/-! ## Specification -/

/-- Log-likelihood (up to a constant) of `s` successes and `f` failures. -/
noncomputable def Spec.logLik (μ : ℝ → ℝ) (s f w x : ℝ) : ℝ :=
  w * (s * Real.log (μ x) + f * Real.log (1 - μ x))

/-- Log-integrand of the model with successes and failures in the columns of `Y`. -/
noncomputable def Spec.logIntegrand (M : ModFr q n p) (Y : Matrix (Fin n) (Fin 2) ℝ) (μ : ℝ → ℝ)
    (theta beta : List ℝ) (u : Fin q → ℝ) : ℝ :=
  (∑ j, Spec.logLik μ (Y j 0) (Y j 1) (weight M j) (Split.Spec.eta M theta beta u j)) +
    ∑ r, Real.log (ProbabilityTheory.gaussianPDFReal 0 1 (u r))

/-- The model frame with the first column as response. -/
def first (M : ModFr q n p) (Y : Matrix (Fin n) (Fin 2) ℝ) : ModFr q n p :=
  { M with resp := fun j => Y j 0 }

/-! ## Sequential reduction -/

theorem operand_asArray {m : ℕ} (Y : Matrix (Fin m) (Fin 2) ℝ) :
    operand (asArray Y) m = fun i => Y i 0 := by
  funext i
  unfold operand asArray
  rw [List.getD_append _ _ _ _ (by simp), List.getD_eq_getElem _ _ (by simp), List.getElem_ofFn]

/-- C90: sequential reduction sees only the first column. -/
theorem c90_terms (M : ModFr q n p) (Y : Matrix (Fin n) (Fin 2) ℝ) :
    findFactorizationTerms M Y = Split.findFactorizationTerms (first M Y) := by
  have h : ∀ C (obs_C : List (Fin n)),
      findLocalTerm C obs_C M Y = Split.findLocalTerm C obs_C (first M Y) := by
    intro C obs_C
    unfold findLocalTerm
    rw [operand_asArray]
    rfl
  unfold findFactorizationTerms
  simp only [h]
  rfl

theorem difference (M : ModFr q n p) (Y : Matrix (Fin n) (Fin 2) ℝ) (μ : ℝ → ℝ)
    (theta beta : List ℝ) (u : Fin q → ℝ) :
    Split.Spec.logIntegrand (first M Y) μ theta beta u = Spec.logIntegrand M Y μ theta beta u +
      ∑ j, weight M j * (Y j 0 + Y j 1 - 1) *
        -Real.log (1 - μ (Split.Spec.eta M theta beta u j)) := by
  unfold Split.Spec.logIntegrand Spec.logIntegrand
  rw [add_right_comm, ← Finset.sum_add_distrib]
  congr 1
  refine Finset.sum_congr rfl fun j _ => ?_
  show weight M j * (Y j 0 * Real.log (μ (Split.Spec.eta M theta beta u j)) +
    (1 - Y j 0) * Real.log (1 - μ (Split.Spec.eta M theta beta u j))) = _
  unfold Spec.logLik
  ring

/-- **C90, sequential reduction.** For counts of at least one trial with positive weights, and random
effects with unclamped means, the factors can be evaluated. The sum of their logarithms exceeds the
log-integrand by the sum of `(trials - 1) * -log (1 - mean)`; so it is right exactly if every
observation is a single trial, and too large otherwise. -/
theorem c90_iff {link : String} {μ : ℝ → ℝ} (hl : IsLink link μ) {M : ModFr q n p}
    {pars : Parameters} (hfam : Family.ofNames "binomial" link = Except.ok pars.family)
    (hM : WellFormed M pars.theta.length) (hc : Covered M) (hb : pars.beta.length = p)
    {Y : Matrix (Fin n) (Fin 2) ℝ} (hY : ∀ j, 1 ≤ Y j 0 + Y j 1) (hw : ∀ j, 0 < weight M j)
    (u : Fin q → ℝ) (hu : ∀ j, 1e-8 ≤ μ (Split.Spec.eta M pars.theta pars.beta u j) ∧
      μ (Split.Spec.eta M pars.theta pars.beta u j) ≤ 1 - 1e-8) :
    ∃ terms vs, findFactorizationTerms M Y = Except.ok terms ∧
      List.Forall₂ (Evaluates pars u) terms vs ∧
      vs.sum = Spec.logIntegrand M Y μ pars.theta pars.beta u + (∑ j, weight M j *
        (Y j 0 + Y j 1 - 1) * -Real.log (1 - μ (Split.Spec.eta M pars.theta pars.beta u j))) +
          q * literalError ∧
      Spec.logIntegrand M Y μ pars.theta pars.beta u + q * literalError ≤ vs.sum ∧
      (vs.sum = Spec.logIntegrand M Y μ pars.theta pars.beta u + q * literalError ↔
        ∀ j, Y j 0 + Y j 1 = 1) := by
  obtain ⟨terms, vs, h1, h2, h3⟩ := c41_integrand hl hfam (M := first M Y)
    ⟨hM.nodup, hM.diag, hM.length, hM.lind, hM.zt⟩ hc hb u hu
  rw [difference] at h3
  have hneg : ∀ j, 0 < -Real.log (1 - μ (Split.Spec.eta M pars.theta pars.beta u j)) := fun j => by
    have := hu j
    have := Real.log_neg (x := 1 - μ (Split.Spec.eta M pars.theta pars.beta u j))
      (by linarith) (by linarith)
    linarith
  have hnn : ∀ j ∈ Finset.univ, 0 ≤ weight M j * (Y j 0 + Y j 1 - 1) *
      -Real.log (1 - μ (Split.Spec.eta M pars.theta pars.beta u j)) := fun j _ =>
    mul_nonneg (mul_nonneg (hw j).le (by linarith [hY j])) (hneg j).le
  refine ⟨terms, vs, (c90_terms M Y).trans h1, h2, h3, ?_, ?_⟩
  · have := Finset.sum_nonneg hnn
    linarith
  · rw [h3, add_right_comm, add_eq_left, Finset.sum_eq_zero_iff_of_nonneg hnn]
    constructor
    · intro h j
      have := h j (Finset.mem_univ j)
      rcases mul_eq_zero.1 this with h | h
      · rcases mul_eq_zero.1 h with h | h
        · exact absurd h (hw j).ne'
        · linarith
      · exact absurd h (hneg j).ne'
    · intro h j _
      rw [h j]; ring

/-- The inverse links are increasing with values between 0 and 1. -/
theorem link_mono {link : String} {μ : ℝ → ℝ} (hl : IsLink link μ) :
    StrictMono μ ∧ ∀ x, 0 < μ x ∧ μ x < 1 := by
  rcases hl with _ | _
  · rw [← lo0_eq]
    exact ⟨mu_mono logit_ok, fun x => ⟨logit_ok.pos x, logit_ok.lt_one x⟩⟩
  · rw [← normalCdf_eq]
    exact ⟨mu_mono probit_ok, fun x => ⟨probit_ok.pos x, probit_ok.lt_one x⟩⟩

/-- C90, the consequence: if every observation has at least one success, then what sequential reduction
integrates (`c90_terms`, `c41_integrand`) increases with the linear predictors at every value of the
random effects, whatever the numbers of failures; so with an intercept in the model it has no maximum
as long as no mean is clamped. -/
theorem c90_increasing {link : String} {μ : ℝ → ℝ} (hl : IsLink link μ) (M : ModFr q n p)
    {Y : Matrix (Fin n) (Fin 2) ℝ} (hY : ∀ j, 1 ≤ Y j 0) (hw : ∀ j, 0 < weight M j) (hn : 0 < n)
    (theta beta beta' : List ℝ) (u : Fin q → ℝ)
    (h : ∀ j, Split.Spec.eta M theta beta u j < Split.Spec.eta M theta beta' u j) :
    Split.Spec.logIntegrand (first M Y) μ theta beta u <
      Split.Spec.logIntegrand (first M Y) μ theta beta' u := by
  obtain ⟨hm, h01⟩ := link_mono hl
  unfold Split.Spec.logIntegrand
  refine add_lt_add_left (Finset.sum_lt_sum_of_nonempty ⟨⟨0, hn⟩, Finset.mem_univ _⟩ fun j _ => ?_) _
  show weight M j * (Y j 0 * Real.log (μ (Split.Spec.eta M theta beta u j)) +
      (1 - Y j 0) * Real.log (1 - μ (Split.Spec.eta M theta beta u j))) <
    weight M j * (Y j 0 * Real.log (μ (Split.Spec.eta M theta beta' u j)) +
      (1 - Y j 0) * Real.log (1 - μ (Split.Spec.eta M theta beta' u j)))
  have hlt := hm (h j)
  have h1 := Real.log_lt_log (h01 _).1 hlt
  have h2 : Real.log (1 - μ (Split.Spec.eta M theta beta' u j)) <
      Real.log (1 - μ (Split.Spec.eta M theta beta u j)) :=
    Real.log_lt_log (by linarith [(h01 (Split.Spec.eta M theta beta' u j)).2]) (by linarith)
  refine mul_lt_mul_of_pos_left ?_ (hw j)
  have h3 := mul_lt_mul_of_pos_left h1 (show 0 < Y j 0 by linarith [hY j])
  have h4 := mul_le_mul_of_nonpos_left h2.le (show 1 - Y j 0 ≤ 0 by linarith [hY j])
  linarith

/-! A case meeting the hypotheses: crossed random effects; 2 successes of 5 trials and 1 of 4. -/

/-- Counts for the two observations of `crossed`. -/
def someCounts : Matrix (Fin 2) (Fin 2) ℝ := !![2, 3; 1, 3]

theorem crossed_eta (u : Fin 2 → ℝ) (b : ℝ) (j : Fin 2) :
    Split.Spec.eta crossed [1, 2] [b] u j = b + u 0 + if j = 0 then 0 else 2 * u 1 := by
  have hlam : ∀ r c : Fin 2, Split.Spec.lambdat crossed [1, 2] r c =
      if r = c then (if r = 0 then 1 else 2) else 0 := by
    intro r c
    unfold Split.Spec.lambdat
    show ∑ k : Fin 2, _ = _
    rw [Fin.sum_univ_two]
    fin_cases r <;> fin_cases c <;> simp [crossed]
  unfold Split.Spec.eta
  simp only [hlam]
  fin_cases j <;> simp [crossed, Fin.sum_univ_two]
  ring

theorem crossed_half (j : Fin 2) : expit (Split.Spec.eta crossed [1, 2] [0] 0 j) = 1 / 2 := by
  rw [crossed_eta]
  simp [expit]
  norm_num

/-- At the origin the sum of the logarithms is too large by `7 * log 2`. -/
example : ∃ terms vs, findFactorizationTerms crossed someCounts = Except.ok terms ∧
    List.Forall₂ (Evaluates { crossedPars with beta := [0] } 0) terms vs ∧
    vs.sum = Spec.logIntegrand crossed someCounts expit [1, 2] [0] 0 + 7 * Real.log 2 +
      (2 : ℕ) * literalError := by
  obtain ⟨terms, vs, h1, h2, h3, -⟩ := c90_iff .logit (M := crossed) (Y := someCounts)
    (pars := { crossedPars with beta := [0] }) rfl crossed_wf crossed_covered rfl
    (by intro j; fin_cases j <;> simp [someCounts] <;> norm_num) (fun j => one_pos) 0
    (fun j => by
      show 1e-8 ≤ expit (Split.Spec.eta crossed [1, 2] [0] 0 j) ∧
        expit (Split.Spec.eta crossed [1, 2] [0] 0 j) ≤ 1 - 1e-8
      rw [crossed_half]
      norm_num)
  refine ⟨terms, vs, h1, h2, h3.trans ?_⟩
  show Spec.logIntegrand crossed someCounts expit [1, 2] [0] 0 + (∑ j : Fin 2, weight crossed j *
    (someCounts j 0 + someCounts j 1 - 1) *
      -Real.log (1 - expit (Split.Spec.eta crossed [1, 2] [0] 0 j))) + _ = _
  have hl : Real.log (1 - 1 / 2) = -Real.log 2 := by
    rw [show (1 : ℝ) - 1 / 2 = 2⁻¹ by norm_num, Real.log_inv]
  rw [Fin.sum_univ_two, crossed_half, crossed_half, hl]
  simp only [someCounts, weight, crossed, Matrix.cons_val_zero, Matrix.cons_val_one,
    Matrix.of_apply, Matrix.cons_val', Matrix.cons_val_fin_one]
  ring

example (u : Fin 2 → ℝ) : Split.Spec.logIntegrand (first crossed someCounts) expit [1, 2] [0] u <
    Split.Spec.logIntegrand (first crossed someCounts) expit [1, 2] [1] u :=
  c90_increasing .logit crossed (by intro j; fin_cases j <;> simp [someCounts]) (fun _ => one_pos)
    two_pos _ _ _ u fun j => by
      rw [crossed_eta, crossed_eta]
      linarith

/-! ## Laplace approximation of second order -/

theorem operand_weights (M : ModFr q n p) (Y : Matrix (Fin n) (Fin 2) ℝ) :
    operand (weightsOf M Y) n = weight M := by
  funext j
  unfold operand weightsOf weight
  rcases M.weights with _ | w
  · simp only
    rw [List.getD_replicate _ (show (j : ℕ) < (asArray Y).length by simp [asArray]; omega)]
  · simp

theorem logit_t3 (w y y' x : ℝ) : t3 lo0 lo1 lo2 lo3 w y x = t3 lo0 lo1 lo2 lo3 w y' x := by
  have h := t2_deriv logit_ok w y x
  have h' := t2_deriv logit_ok w y' x
  have e : t2 lo0 lo1 lo2 w y = t2 lo0 lo1 lo2 w y' := by
    funext x
    rw [logit_t2, logit_t2]
  exact h.unique (e ▸ h')

theorem logit_t4 (w y y' x : ℝ) :
    t4 lo0 lo1 lo2 lo3 lo4 w y x = t4 lo0 lo1 lo2 lo3 lo4 w y' x := by
  have h := t3_deriv logit_ok w y x
  have h' := t3_deriv logit_ok w y' x
  have e : t3 lo0 lo1 lo2 lo3 w y = t3 lo0 lo1 lo2 lo3 w y' := by
    funext x
    exact logit_t3 w y y' x
  exact h.unique (e ▸ h')

/-- C90, Laplace approximation of second order: with unclamped means the correction is the same
for all counts. In particular the numbers of trials have no influence on it. -/
theorem c90_hol {M : ModFr q n p} {theta beta : List ℝ}
    (hM : WellFormed M theta.length) (ht : theta ≠ []) (hb : beta.length = p)
    (Y Y' : Matrix (Fin n) (Fin 2) ℝ) (approx : NormalApprox q)
    (hu : ∀ j, 1e-8 ≤ expit (Split.Spec.eta M theta beta approx.mean j) ∧
      expit (Split.Spec.eta M theta beta approx.mean j) ≤ 1 - 1e-8) :
    findEpsilon1 "binomial" "logit" (theta ++ beta) M Y theta.length approx =
      findEpsilon1 "binomial" "logit" (theta ++ beta) M Y' theta.length approx := by
  obtain ⟨f, hf, h⟩ := c31_logit
  have key : ∀ Y : Matrix (Fin n) (Fin 2) ℝ,
      f.evaluateThirdDerivative (Split.Spec.eta M theta beta approx.mean) (fun i => Y i 0) (weight M)
        = Except.ok (fun j => t3 lo0 lo1 lo2 lo3 (weight M j) 0
          (Split.Spec.eta M theta beta approx.mean j)) ∧
      f.evaluateFourthDerivative (Split.Spec.eta M theta beta approx.mean) (fun i => Y i 0) (weight M)
        = Except.ok (fun j => t4 lo0 lo1 lo2 lo3 lo4 (weight M j) 0
          (Split.Spec.eta M theta beta approx.mean j)) := by
    intro Y
    obtain ⟨-, D1, D2, D3, D4, -, -, h3, h4, hD⟩ := h n (Split.Spec.eta M theta beta approx.mean)
      (fun i => Y i 0) (weight M) hu
    refine ⟨h3.trans (congrArg Except.ok ?_), h4.trans (congrArg Except.ok ?_)⟩
    · funext j
      have := fourDerivs logit_ok (weight M j) (Y j 0) (Split.Spec.eta M theta beta approx.mean j)
      rw [lo0_eq] at this
      refine ((hD j).2.2.1.unique this.2.2.1).trans ?_
      rw [← lo0_eq]
      exact logit_t3 _ _ _ _
    · funext j
      have := fourDerivs logit_ok (weight M j) (Y j 0) (Split.Spec.eta M theta beta approx.mean j)
      rw [lo0_eq] at this
      refine ((hD j).2.2.2.unique this.2.2.2).trans ?_
      rw [← lo0_eq]
      exact logit_t4 _ _ _ _
  unfold findEpsilon1
  rw [hf, res_ok_bind, res_ok_bind, Hol.etaHat_eq hM ht hb, res_ok_bind, res_ok_bind]
  simp only [operand_asArray, operand_weights, (key Y).1, (key Y).2, (key Y').1, (key Y').2]

/-- A case meeting the hypotheses: the counts of `someCounts` and none at all give the same correction. -/
example (approx : NormalApprox 2) (h : approx.mean = 0) :
    findEpsilon1 "binomial" "logit" [1, 2, 0] crossed someCounts 2 approx =
      findEpsilon1 "binomial" "logit" [1, 2, 0] crossed 0 2 approx :=
  c90_hol (theta := [1, 2]) (beta := [0]) crossed_wf (by simp) rfl someCounts 0 approx (fun j => by
    rw [h, crossed_half]
    norm_num)

/-! ## Importance sampling -/

theorem length_repEach {α : Type} (x : List α) (r : ℕ) : (repEach x r).length = x.length * r := by
  unfold repEach
  rw [List.length_flatMap]
  simp

theorem length_findEta (u : Matrix (Fin q) (Fin r) ℝ) {XBeta : List ℝ} (hX : XBeta = [] ∨ XBeta.length = n)
    (L : Matrix (Fin q) (Fin n) ℝ) : (findEta u XBeta L).length = n * r := by
  have h : (asNumeric (uᵀ * L)).length = n * r := by
    unfold asNumeric
    rw [List.length_flatMap]
    simp
  unfold findEta
  dsimp only
  split_ifs with h0
  · rcases hX with rfl | hX
    · simp at h0
    · rw [List.length_zipWith, length_repEach, hX, h, min_self]
  · exact h

/-- C90, importance sampling: always stops if there are at least two observations or samples. -/
theorem c90_IS (fam : Fam) (M : ModFr q n p) (Y : Matrix (Fin n) (Fin 2) ℝ) {XBeta : List ℝ}
    (hX : XBeta = [] ∨ XBeta.length = n) (L : Matrix (Fin q) (Fin n) ℝ)
    (u : Matrix (Fin q) (Fin r) ℝ) (h : 2 ≤ n * r) :
    devResidsNum fam M Y XBeta L u =
      Res.raise "argument mu must be a numeric vector of length 1 or length n" := by
  unfold devResidsNum devResids
  dsimp only
  rw [if_pos]
  rw [List.length_map, length_findEta u hX, length_repEach]
  have : (asArray Y).length = n + n := by simp [asArray]
  rw [this, add_mul]
  omega

example (fam : Fam) (u : Matrix (Fin 2) (Fin 1) ℝ) (L : Matrix (Fin 2) (Fin 2) ℝ) :
    devResidsNum fam crossed someCounts [0, 0] L u =
      Res.raise "argument mu must be a numeric vector of length 1 or length n" :=
  c90_IS fam crossed someCounts (Or.inr rfl) L u (by norm_num)

end Verif.Counts
