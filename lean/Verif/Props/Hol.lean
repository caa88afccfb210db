import Verif.Proofs.Hol
import Verif.Props.IS
import Mathlib.Analysis.Calculus.ContDiff.Operations
import Mathlib.Analysis.Calculus.ContDiff.Deriv
import Mathlib.Analysis.Calculus.IteratedDeriv.Lemmas
import Mathlib.Analysis.SpecialFunctions.Log.Deriv

/-!
# C52: the second-order Laplace correction
-/
namespace Verif.Hol

open Verif.Split Verif.IS Verif.Family Matrix Spec
open scoped ContDiff

variable {q n p : ℕ}

/-! ## Derivatives of sums of functions of linear predictors -/

theorem iterated_ridge {f : ℝ → ℝ} (hf : ContDiff ℝ ∞ f) (c : ℝ) (L : (Fin q → ℝ) →L[ℝ] ℝ) (k : ℕ)
    (u : Fin q → ℝ) (m : Fin k → Fin q → ℝ) :
    iteratedFDeriv ℝ k (fun u => f (c + L u)) u m =
      iteratedDeriv k f (c + L u) * ∏ t, L (m t) := by
  have hf' : ContDiff ℝ ∞ fun t => f (c + t) := hf.comp (contDiff_const.add contDiff_id)
  have h := L.iteratedFDeriv_comp_right hf' u (i := k) (by exact_mod_cast le_top)
  have h2 : iteratedFDeriv ℝ k (fun u => f (c + L u)) u m =
      (iteratedFDeriv ℝ k (fun t => f (c + t)) (L u)) fun t => L (m t) := by
    rw [show (fun u => f (c + L u)) = (fun t => f (c + t)) ∘ L from rfl, h]
    rfl
  rw [h2, iteratedFDeriv_apply_eq_iteratedDeriv_mul_prod, iteratedDeriv_comp_const_add,
    smul_eq_mul, mul_comm]

theorem iterated_sum {ι : Type} [Fintype ι] {f : ι → ℝ → ℝ} (hf : ∀ a, ContDiff ℝ ∞ (f a))
    (c : ι → ℝ) (L : ι → (Fin q → ℝ) →L[ℝ] ℝ) (k : ℕ) (u : Fin q → ℝ) (m : Fin k → Fin q → ℝ) :
    iteratedFDeriv ℝ k (fun u => ∑ a, f a (c a + L a u)) u m =
      ∑ a, iteratedDeriv k (f a) (c a + L a u) * ∏ t, L a (m t) := by
  rw [iteratedFDeriv_fun_sum_apply, ContinuousMultilinearMap.sum_apply]
  · exact Finset.sum_congr rfl fun a _ => iterated_ridge (hf a) (c a) (L a) k u m
  · intro a _
    exact (((hf a).comp (contDiff_const.add (L a).contDiff)).of_le
      (by exact_mod_cast le_top)).contDiffAt

theorem logLik_contDiff {μ : ℝ → ℝ} (h : ContDiff ℝ ∞ μ) (hr : ∀ x, 0 < μ x ∧ μ x < 1) (y w : ℝ) :
    ContDiff ℝ ∞ (logLik μ y w) := by
  unfold logLik
  refine contDiff_const.mul ((contDiff_const.mul (h.log fun x => (hr x).1.ne')).add
    (contDiff_const.mul (ContDiff.log (contDiff_const.sub h) fun x => ?_)))
  exact (sub_pos.2 (hr x).2).ne'

theorem link_contDiff {link : String} {μ : ℝ → ℝ} (hl : GLMM.IsLink link μ) : ContDiff ℝ ∞ μ := by
  rcases hl with _ | _
  · unfold expit
    refine ContDiff.inv (contDiff_const.add (contDiff_id.neg.exp)) fun x => ?_
    have := Real.exp_pos (-x)
    exact (by positivity : (0 : ℝ) < 1 + Real.exp (-x)).ne'
  · rw [← normalCdf_eq, contDiff_infty_iff_deriv]
    refine ⟨fun x => (probit_ok.d1 x).differentiableAt, ?_⟩
    rw [show deriv normalCdf = normalPdf from funext fun x => (probit_ok.d1 x).deriv]
    unfold normalPdf
    exact ((contDiff_id.pow 2).neg.div_const 2).exp.div_const _

/-- Negative standard normal log-density. -/
theorem gauss_contDiff :
    ContDiff ℝ ∞ fun x => -Real.log (ProbabilityTheory.gaussianPDFReal 0 1 x) := by
  have : (fun x => -Real.log (ProbabilityTheory.gaussianPDFReal 0 1 x)) = fun x =>
      -(Real.log (ProbabilityTheory.gaussianPDFReal 0 1 0) - x ^ 2 / 2) :=
    funext fun x => by rw [GLMM.log_gaussian]
  rw [this]
  exact (contDiff_const.sub ((contDiff_id.pow 2).div_const 2)).neg

theorem gauss_iterated (k : ℕ) :
    iteratedDeriv (k + 3) (fun x => -Real.log (ProbabilityTheory.gaussianPDFReal 0 1 x)) = 0 := by
  have h0 : (fun x => -Real.log (ProbabilityTheory.gaussianPDFReal 0 1 x)) = fun x =>
      x ^ 2 / 2 - Real.log (ProbabilityTheory.gaussianPDFReal 0 1 0) :=
    funext fun x => by rw [GLMM.log_gaussian]; ring
  have h1 : deriv (fun x : ℝ => x ^ 2 / 2 - Real.log (ProbabilityTheory.gaussianPDFReal 0 1 0)) =
      fun x => x := by
    funext x
    have := (((hasDerivAt_id x).pow 2).div_const 2).sub_const
      (Real.log (ProbabilityTheory.gaussianPDFReal 0 1 0))
    refine (this.congr_deriv ?_).deriv
    simp
  have h2 : deriv (fun x : ℝ => x) = fun _ => 1 := deriv_id''
  have h3 : deriv (fun _ : ℝ => (1 : ℝ)) = 0 := by
    funext x
    simp
  rw [h0, iteratedDeriv_succ', iteratedDeriv_succ', iteratedDeriv_succ', h1, h2, h3]
  funext x
  exact iteratedDeriv_const_zero

/-! ## The log-integrand -/

/-- The matrix `Lambda' Z'`. -/
noncomputable def design (M : ModFr q n p) (theta : List ℝ) : Matrix (Fin q) (Fin n) ℝ :=
  (Matrix.of fun i c => Split.Spec.lambdat M theta i c) * M.Zt

/-- The linear form of an observation or a random effect. -/
noncomputable def form (M : ModFr q n p) (theta : List ℝ) : Fin n ⊕ Fin q → (Fin q → ℝ) →L[ℝ] ℝ
  | .inl j => ∑ r, design M theta r j • ContinuousLinearMap.proj r
  | .inr r => ContinuousLinearMap.proj r

theorem form_obs (M : ModFr q n p) (theta : List ℝ) (j : Fin n) (u : Fin q → ℝ) :
    form M theta (.inl j) u = ∑ r, design M theta r j * u r := by
  simp [form, ContinuousLinearMap.sum_apply]

theorem form_unit (M : ModFr q n p) (theta : List ℝ) (j : Fin n) (i : Fin q) :
    form M theta (.inl j) (Spec.unit i) = design M theta i j := by
  rw [form_obs, Finset.sum_eq_single i]
  · simp [Spec.unit]
  · intro r _ hr
    simp [Spec.unit, hr]
  · exact fun h => absurd (Finset.mem_univ i) h

/-- The functions of the linear forms. -/
noncomputable def part (M : ModFr q n p) (μ : ℝ → ℝ) : Fin n ⊕ Fin q → ℝ → ℝ
  | .inl j => fun x => -logLik μ (M.resp j) (Split.Spec.weight M j) x
  | .inr _ => fun x => -Real.log (ProbabilityTheory.gaussianPDFReal 0 1 x)

/-- The constants. -/
noncomputable def const (M : ModFr q n p) (beta : List ℝ) : Fin n ⊕ Fin q → ℝ
  | .inl j => ∑ k : Fin p, M.X j k * beta.getD k 0
  | .inr _ => 0

theorem eta_form (M : ModFr q n p) (theta beta : List ℝ) (u : Fin q → ℝ) (j : Fin n) :
    Split.Spec.eta M theta beta u j = const M beta (.inl j) + form M theta (.inl j) u := by
  rw [form_obs]
  rfl

theorem neg_logIntegrand (M : ModFr q n p) (μ : ℝ → ℝ) (theta beta : List ℝ) :
    (fun u => -Split.Spec.logIntegrand M μ theta beta u) = fun u =>
      ∑ a, part M μ a (const M beta a + form M theta a u) := by
  funext u
  unfold Split.Spec.logIntegrand
  rw [Fintype.sum_sum_type, neg_add, ← Finset.sum_neg_distrib, ← Finset.sum_neg_distrib]
  congr 1
  · refine Finset.sum_congr rfl fun j _ => ?_
    rw [eta_form]
    rfl
  · refine Finset.sum_congr rfl fun r _ => ?_
    simp [part, const, form]

theorem part_contDiff {link : String} {μ : ℝ → ℝ} (hl : GLMM.IsLink link μ) (M : ModFr q n p)
    (a : Fin n ⊕ Fin q) : ContDiff ℝ ∞ (part M μ a) := by
  rcases a with j | r
  · exact (logLik_contDiff (link_contDiff hl) (link_range hl).1 _ _).neg
  · exact gauss_contDiff

theorem derivs {link : String} {μ : ℝ → ℝ} (hl : GLMM.IsLink link μ) (M : ModFr q n p)
    (theta beta : List ℝ) (u : Fin q → ℝ) (k : ℕ) (m : Fin (k + 3) → Fin q) :
    iteratedFDeriv ℝ (k + 3) (fun u => -Split.Spec.logIntegrand M μ theta beta u) u
        (fun t => Spec.unit (m t)) =
      ∑ j, -iteratedDeriv (k + 3) (logLik μ (M.resp j) (Split.Spec.weight M j))
        (Split.Spec.eta M theta beta u j) * ∏ t, design M theta (m t) j := by
  rw [neg_logIntegrand, iterated_sum (part_contDiff hl M), Fintype.sum_sum_type]
  have : ∑ r : Fin q, iteratedDeriv (k + 3) (part M μ (.inr r))
      (const M beta (.inr r) + form M theta (.inr r) u) *
        ∏ t, form M theta (.inr r) (Spec.unit (m t)) = 0 := by
    refine Finset.sum_eq_zero fun r _ => ?_
    unfold part
    rw [gauss_iterated, Pi.zero_apply, zero_mul]
  rw [this, add_zero]
  refine Finset.sum_congr rfl fun j _ => ?_
  rw [← eta_form]
  simp only [form_unit]
  congr 1
  show iteratedDeriv (k + 3) (fun x => -logLik μ (M.resp j) (Split.Spec.weight M j) x) _ = _
  rw [iteratedDeriv_fun_neg]

theorem third_eq {link : String} {μ : ℝ → ℝ} (hl : GLMM.IsLink link μ) (M : ModFr q n p)
    (theta beta : List ℝ) (u : Fin q → ℝ) :
    third (fun u => -Split.Spec.logIntegrand M μ theta beta u) u = fun i j k =>
      ∑ a, -iteratedDeriv 3 (logLik μ (M.resp a) (Split.Spec.weight M a))
        (Split.Spec.eta M theta beta u a) *
        (design M theta i a * design M theta j a * design M theta k a) := by
  funext i j k
  have := derivs hl M theta beta u 0 ![i, j, k]
  have hm : (fun t => Spec.unit (![i, j, k] t)) = ![Spec.unit i, Spec.unit j, Spec.unit k] := by
    funext t
    fin_cases t <;> rfl
  unfold third
  rw [← hm]
  refine this.trans (Finset.sum_congr rfl fun a _ => ?_)
  rw [Fin.prod_univ_three]
  rfl

theorem fourth_eq {link : String} {μ : ℝ → ℝ} (hl : GLMM.IsLink link μ) (M : ModFr q n p)
    (theta beta : List ℝ) (u : Fin q → ℝ) :
    fourth (fun u => -Split.Spec.logIntegrand M μ theta beta u) u = fun i j k l =>
      ∑ a, -iteratedDeriv 4 (logLik μ (M.resp a) (Split.Spec.weight M a))
        (Split.Spec.eta M theta beta u a) *
        (design M theta i a * design M theta j a * design M theta k a * design M theta l a) := by
  funext i j k l
  have := derivs hl M theta beta u 1 ![i, j, k, l]
  have hm : (fun t => Spec.unit (![i, j, k, l] t)) =
      ![Spec.unit i, Spec.unit j, Spec.unit k, Spec.unit l] := by
    funext t
    fin_cases t <;> rfl
  unfold fourth
  rw [← hm]
  refine this.trans (Finset.sum_congr rfl fun a _ => ?_)
  rw [Fin.prod_univ_four]
  rfl

/-! ## C52 -/

theorem etaHat_eq {M : ModFr q n p} {theta beta : List ℝ}
    (h : Split.Spec.WellFormed M theta.length) (ht : theta ≠ []) (hb : beta.length = p)
    (approx : NormalApprox q) :
    etaHat (theta ++ beta) M theta.length approx =
      Except.ok (Split.Spec.eta M theta beta approx.mean) := by
  obtain ⟨XBeta, h1, h2⟩ := findXBeta_ok M theta beta hb
  unfold etaHat
  rw [h1, res_ok_bind, findLambdatThetaZt_ok beta h ht, res_ok_bind, findEta_eq h2]
  show Except.ok _ = _
  congr 1
  funext j
  rw [List.getD_eq_getElem _ _ (by simp), List.getElem_ofFn]
  rw [eta_form, form_obs]
  have hd : ∀ h : (j : ℕ) < n * 1, Fin.divNat ⟨(j : ℕ), h⟩ = j := fun h => by
    apply Fin.ext
    simp [Fin.divNat]
  simp only [hd, Matrix.of_apply, mul_comm (approx.mean _)]
  rfl

/-- C52: for binomial models with logit or probit link the correction is the contraction of the third
and fourth derivatives of the negative log-integrand, at the mean of the normal approximation, with the
inverse of its precision. (The means of the observations there are not clamped.) -/
theorem c52 {link : String} {μ : ℝ → ℝ} (hl : GLMM.IsLink link μ) {M : ModFr q n p}
    {theta beta : List ℝ} (h : Split.Spec.WellFormed M theta.length) (ht : theta ≠ [])
    (hb : beta.length = p) {approx : NormalApprox q} (hdet : approx.precision.det ≠ 0)
    (hμ : ∀ j, 1e-8 ≤ μ (Split.Spec.eta M theta beta approx.mean j) ∧
      μ (Split.Spec.eta M theta beta approx.mean j) ≤ 1 - 1e-8) :
    findEpsilon1 "binomial" link (theta ++ beta) M theta.length approx = Except.ok
      (correction (third (fun u => -Split.Spec.logIntegrand M μ theta beta u) approx.mean)
        (fourth (fun u => -Split.Spec.logIntegrand M μ theta beta u) approx.mean)
        approx.precision⁻¹) := by
  obtain ⟨f, hf, hfam⟩ := GLMM.family_facts hl
  obtain ⟨-, D1, D2, D3, D4, -, -, h3, h4, hD⟩ := hfam n _ M.resp (Split.Spec.weight M) hμ
  have hw : (fun j : Fin n => (weightsOf M).getD j 0) = Split.Spec.weight M := by
    funext j
    rw [weightsOf_eq, List.getD_eq_getElem _ _ (by simp), List.getElem_ofFn]
  unfold findEpsilon1
  rw [hf, res_ok_bind, etaHat_eq h ht hb, res_ok_bind]
  dsimp only
  rw [hw, h3, res_ok_bind, h4, res_ok_bind]
  unfold findM
  rw [findLambdatThetaZt_ok beta h ht, res_ok_bind, if_neg hdet]
  show Except.ok _ = _
  rw [third_eq hl, fourth_eq hl, correction_eq]
  congr 2
  · funext j
    rw [iteratedDeriv_succ, (hD j).2.2.1.deriv]
  · funext j
    rw [iteratedDeriv_succ, (hD j).2.2.2.deriv]

/-- The second-order approximation of models with the canonical link is the first-order one plus the
correction; for other links and higher orders it stops. -/
theorem c52_lfun {M : ModFr q n p}
    {theta beta : List ℝ} (h : Split.Spec.WellFormed M theta.length) (ht : theta ≠ [])
    (hb : beta.length = p) {approx : NormalApprox q} (hdet : approx.precision.det ≠ 0)
    (hμ : ∀ j, 1e-8 ≤ expit (Split.Spec.eta M theta beta approx.mean j) ∧
      expit (Split.Spec.eta M theta beta approx.mean j) ≤ 1 - 1e-8) (laplace_1 : ℝ) :
    lfunLaplace 2 true "binomial" "logit" (theta ++ beta) M theta.length approx laplace_1 =
      Except.ok (laplace_1 +
        correction (third (fun u => -Split.Spec.logIntegrand M expit theta beta u) approx.mean)
          (fourth (fun u => -Split.Spec.logIntegrand M expit theta beta u) approx.mean)
          approx.precision⁻¹) := by
  unfold lfunLaplace
  rw [if_neg (by norm_num), if_neg (by norm_num), if_neg (by simp), if_pos rfl,
    c52 .logit h ht hb hdet hμ]
  rfl

/-- Orders that are not implemented, and non-canonical links, are rejected before any
computation. -/
theorem c52_rejected {order : ℤ} {canonical : Bool} (family link : String) (pars : List ℝ)
    (M : ModFr q n p) (nTheta : ℕ) (approx : NormalApprox q) (laplace_1 : ℝ)
    (h : order ≠ 1 ∧ (order ≠ 2 ∨ canonical = false)) :
    ∃ msg, lfunLaplace order canonical family link pars M nTheta approx laplace_1 =
      Except.error (.throw msg) := by
  unfold lfunLaplace
  rw [if_neg h.1]
  split_ifs with h1 h2 h3
  · exact ⟨_, rfl⟩
  · exact ⟨_, rfl⟩
  · rcases h.2 with h4 | h4
    · exact absurd h3 h4
    · exact absurd ⟨by omega, by simp [h4]⟩ h2
  · exact ⟨_, rfl⟩

/-- A case meeting the hypotheses: crossed random effects, a mode away from 0 and a precision that is
not diagonal. -/
example : findEpsilon1 "binomial" "logit" [1, 2, 0] crossed 2 dependent = Except.ok
    (correction (third (fun u => -Split.Spec.logIntegrand crossed expit [1, 2] [0] u) ![1, 2])
      (fourth (fun u => -Split.Spec.logIntegrand crossed expit [1, 2] [0] u) ![1, 2])
      (!![1, 1; 1, 2])⁻¹) := by
  refine c52 (theta := [1, 2]) (beta := [0]) (approx := dependent) .logit crossed_wf (by simp) rfl
    ?_ ?_
  · simp [dependent, Matrix.det_fin_two]
    norm_num
  · have hexp : ∀ x : ℝ, 0 ≤ x → x ≤ 5 → 1e-8 ≤ expit x ∧ expit x ≤ 1 - 1e-8 := by
      intro x h0 h5
      have h1 : Real.exp (-x) ≤ 1 := Real.exp_le_one_iff.2 (by linarith)
      have h2 : (1 / 3) ^ 5 ≤ Real.exp (-x) := by
        have h3 : Real.exp 1 ≤ 3 := Real.exp_one_lt_three.le
        have h4 : Real.exp 5 ≤ 3 ^ 5 := by
          rw [show (5 : ℝ) = (5 : ℕ) * 1 by norm_num, Real.exp_nat_mul]
          exact pow_le_pow_left₀ (Real.exp_pos _).le h3 5
        have h6 : Real.exp x ≤ 3 ^ 5 := (Real.exp_le_exp.2 h5).trans h4
        rw [Real.exp_neg, one_div, inv_pow]
        exact inv_anti₀ (Real.exp_pos _) h6
      have hpos : 0 < 1 + Real.exp (-x) := by positivity
      unfold expit
      constructor
      · rw [le_inv_comm₀ (by norm_num) hpos]
        norm_num
        linarith
      · rw [inv_le_comm₀ hpos (by norm_num)]
        norm_num at h2 ⊢
        linarith
    intro j
    have he : Split.Spec.eta crossed [1, 2] [0] dependent.mean j = if j = 0 then 1 else 5 := by
      have hlam : ∀ r c : Fin 2, Split.Spec.lambdat crossed [1, 2] r c =
          if r = c then (if r = 0 then 1 else 2) else 0 := by
        intro r c
        unfold Split.Spec.lambdat
        show ∑ k : Fin 2, _ = _
        rw [Fin.sum_univ_two]
        fin_cases r <;> fin_cases c <;> simp [crossed]
      unfold Split.Spec.eta
      simp only [hlam]
      fin_cases j <;> simp [crossed, dependent, Fin.sum_univ_two]
      norm_num
    rw [he]
    split_ifs
    · exact hexp 1 (by norm_num) (by norm_num)
    · exact hexp 5 (by norm_num) (by norm_num)

end Verif.Hol
