import Verif.Props.NoVariance
import Verif.Props.SR

/-!
# C112 for sequential reduction of two-level models
-/
namespace Verif.NoVariance

open Verif.Gauss Verif.Belief Verif.ClusterGraph Verif.Store Verif.Pars Verif.Split Verif.SR
open Verif.Split.Spec Verif.GLMM Verif.Family ProbabilityTheory Verif.Rotate.Spec

variable {q n p : ℕ} {M : ModFr q n p} {theta beta : List ℝ}

/-- Log-likelihood of the observations of group `r`, without random effects. -/
noncomputable def Spec.groupFixed (L : ℝ → ℝ → ℝ → ℝ) (M : ModFr q n p) (beta : List ℝ)
    (g : Fin n → Fin q) (r : Fin q) : ℝ :=
  ∑ j with g j = r, L (M.resp j) (weight M j) (expected M beta j)

theorem groupLogLik_zero (h : ∀ t ∈ theta, t = 0) (L : ℝ → ℝ → ℝ → ℝ) (g : Fin n → Fin q) (r : Fin q)
    (t : ℝ) : groupLogLik L M theta beta g r t = Spec.groupFixed L M beta g r :=
  Finset.sum_congr rfl fun j _ => by rw [eta_zero h]

theorem rule_gaussian (c : ℝ) : ∀ rule : List (ℝ × ℝ),
    Verif.Spec.agq rule 0 1 (fun t => c * gaussianPDFReal 0 1 t) =
      c * ((rule.map Prod.snd).sum / Real.sqrt Real.pi) := by
  have s2 : Real.sqrt 2 ≠ 0 := (Real.sqrt_pos.mpr two_pos).ne'
  have sp : Real.sqrt Real.pi ≠ 0 := (Real.sqrt_pos.mpr Real.pi_pos).ne'
  have hpdf : ∀ x : ℝ, Real.exp (x ^ 2) * gaussianPDFReal 0 1 (0 + Real.sqrt 2 * 1 * x) =
      (Real.sqrt 2 * Real.sqrt Real.pi)⁻¹ := by
    intro x
    have e : -(0 + Real.sqrt 2 * 1 * x - 0) ^ 2 / (2 * ((1 : NNReal) : ℝ)) = -x ^ 2 := by
      rw [zero_add, mul_one, sub_zero, mul_pow, Real.sq_sqrt zero_le_two, NNReal.coe_one]
      ring
    rw [gaussianPDFReal, e, NNReal.coe_one, mul_one, Real.sqrt_mul zero_le_two, mul_left_comm,
      ← Real.exp_add]
    simp
  intro rule
  have hs : (rule.map fun r => r.2 * Real.exp (r.1 ^ 2) *
      (c * gaussianPDFReal 0 1 (0 + Real.sqrt 2 * 1 * r.1))).sum =
      c * (Real.sqrt 2 * Real.sqrt Real.pi)⁻¹ * (rule.map Prod.snd).sum := by
    induction rule with
    | nil => simp
    | cons a t ih =>
      rw [List.map_cons, List.sum_cons, ih, List.map_cons, List.sum_cons]
      have := hpdf a.1
      rw [show a.2 * Real.exp (a.1 ^ 2) * (c * gaussianPDFReal 0 1 (0 + Real.sqrt 2 * 1 * a.1)) =
        a.2 * c * (Real.exp (a.1 ^ 2) * gaussianPDFReal 0 1 (0 + Real.sqrt 2 * 1 * a.1)) by ring, this]
      ring
  unfold Verif.Spec.agq
  rw [hs]
  field_simp

/-- The weights of the rules the package makes add up to the literal for `√π`. -/
theorem sum_create {eig : Eigensolver} {k : ℕ}
    (h : Quad.IsEigen (Quad.hermiteJacobi (k + 1)) (eig (k + 1) (Quad.hermiteJacobi (k + 1))).1
      (eig (k + 1) (Quad.hermiteJacobi (k + 1))).2) {rule : QuadratureRule}
    (hc : QuadratureRule.create eig ((k + 1 : ℕ) : ℤ) = Except.ok rule) :
    rule.weights.sum = Quad.sqrtPi := by
  have hc' := Except.ok.inj hc
  subst hc'
  set V := (eig (k + 1) (Quad.hermiteJacobi (k + 1))).2
  have h1 : V * V.transpose = 1 := mul_eq_one_comm.mp h.orthogonal
  have h2 : ∑ i, V 0 i * V 0 i = 1 := by
    have := congrFun (congrFun h1 0) 0
    rw [Matrix.mul_apply, Matrix.one_apply_eq] at this
    exact this
  show (List.ofFn fun i => Quad.sqrtPi * V 0 i * V 0 i).sum = _
  rw [List.sum_ofFn]
  simp only [mul_assoc]
  rw [← Finset.mul_sum, h2, mul_one]

/-- C112: sequential reduction of a two-level model without variance gives the log-likelihood of the
model without random effects, up to the errors of two literals, for any number of quadrature points. -/
theorem c112_SR {lib : Lib} {pars : Parameters} {link : String} {μ : ℝ → ℝ} (hl : IsLink link μ)
    (hfam : Family.ofNames "binomial" link = Except.ok pars.family) (h : ∀ t ∈ pars.theta, t = 0)
    (hM : WellFormed M pars.theta.length) {g : Fin n → Fin q} (h2 : TwoLevel M g)
    (hb : pars.beta.length = p) (hq : 0 < q) (hrd : Reads lib.rd M)
    (har : lib.ar = exactZ ∨ lib.ar = i32 ∧ q ≤ 46341) (hr : RuleOk pars.quadratureRule)
    (hsum : pars.quadratureRule.weights.sum = Quad.sqrtPi)
    (hy : ∀ j, 0 ≤ M.resp j ∧ M.resp j ≤ 1) (hw : ∀ j, 0 ≤ weight M j)
    (hobs : ∀ r, ∃ j, g j = r ∧ 1 ≤ weight M j) :
    ∃ c v, clusterGraph lib pars M = Except.ok c ∧
      computeLogNormalizingConstant lib pars c (0 : Fin q → ℝ) 1 = Except.ok v ∧
      |v - ∑ j, logLikClamped μ (M.resp j) (weight M j) (expected M pars.beta j)| ≤ q * 1e-9 := by
  have hneg : Real.log (1 - 1e-8) ≤ 0 := Real.log_nonpos (by norm_num) (by norm_num)
  obtain ⟨k1, k2⟩ := abs_lt.1 Quad.c25_constant
  have hk : 0 < Quad.sqrtPi / Real.sqrt Real.pi := by
    have : (1e-10 : ℝ) < 1 := by norm_num
    linarith
  have hagq : ∀ r, groupAgq pars.quadratureRule 0 1
      (groupIntegrand (logLikClamped μ) M pars.theta pars.beta g) r =
      Real.exp (Spec.groupFixed (logLikClamped μ) M pars.beta g r) *
        (Quad.sqrtPi / Real.sqrt Real.pi) := by
    intro r
    have e : groupIntegrand (logLikClamped μ) M pars.theta pars.beta g r =
        fun t => Real.exp (Spec.groupFixed (logLikClamped μ) M pars.beta g r) * gaussianPDFReal 0 1 t := by
      funext t
      rw [groupIntegrand, groupLogLik_zero h]
    unfold groupAgq
    rw [e, Matrix.one_apply_eq, inv_one, Real.sqrt_one, Pi.zero_apply, rule_gaussian,
      List.map_snd_zip hr.len.le, hsum]
  obtain ⟨c, hc, hv⟩ := c80_runs hl hfam hM h2 hb hq hrd har hr (mean := 0) Matrix.PosDef.one
    (fun i j h => Matrix.one_apply_ne h)
    (fun i => by rw [Matrix.one_apply_eq, Real.log_one, logSqrtTwoPi]; norm_num) hy hw (by
      intro r
      rw [hagq r]
      have h1 : Real.exp (Spec.groupFixed (logLikClamped μ) M pars.beta g r) ≤ 1 - 1e-8 := by
        have h0 : (0 : ℝ) < 1 - 1e-8 := by norm_num
        rw [← Real.exp_log h0, Real.exp_le_exp]
        obtain ⟨j, hj, hwj⟩ := hobs r
        have hbd := fun j => logLikClamped_le μ (hy j).1 (hy j).2 (hw j) (expected M pars.beta j)
        rw [Spec.groupFixed, ← Finset.add_sum_erase _ _ (Finset.mem_filter.mpr ⟨Finset.mem_univ j, hj⟩)]
        have h3 := Finset.sum_nonpos (s := (Finset.univ.filter fun k => g k = r).erase j)
          fun k _ => (hbd k).trans (mul_nonpos_of_nonneg_of_nonpos (hw k) hneg)
        nlinarith [hbd j]
      calc _ ≤ (1 - 1e-8 : ℝ) * (1 + 1e-10) :=
            mul_le_mul h1 (by linarith) hk.le (by norm_num)
        _ ≤ _ := by norm_num)
  refine ⟨c, _, hc, hv, ?_⟩
  have hs : ∑ r, Real.log (groupAgq pars.quadratureRule 0 1
      (groupIntegrand (logLikClamped μ) M pars.theta pars.beta g) r) =
      ∑ j, logLikClamped μ (M.resp j) (weight M j) (expected M pars.beta j) +
        q * Real.log (Quad.sqrtPi / Real.sqrt Real.pi) := by
    simp only [hagq, Real.log_mul (Real.exp_ne_zero _) hk.ne', Real.log_exp]
    rw [Finset.sum_add_distrib, Finset.sum_const, Finset.card_univ, Fintype.card_fin, nsmul_eq_mul]
    congr 1
    exact Finset.sum_fiberwise_of_maps_to (fun j _ => Finset.mem_univ _) _
  rw [hs, add_assoc, add_sub_cancel_left, ← mul_add, abs_mul, Nat.abs_cast]
  refine mul_le_mul_of_nonneg_left ?_ (Nat.cast_nonneg q)
  have hl1 : |Real.log (Quad.sqrtPi / Real.sqrt Real.pi)| ≤ 2e-10 := by
    set x := Quad.sqrtPi / Real.sqrt Real.pi
    have u := Real.log_le_sub_one_of_pos hk
    have l := Real.one_sub_inv_le_log_of_pos hk
    have hx : x⁻¹ ≤ 1 + 2e-10 := by
      rw [inv_le_iff_one_le_mul₀ hk]
      nlinarith
    rw [abs_le]
    constructor <;> linarith
  have := literalError_small
  calc _ ≤ _ := abs_add_le _ _
    _ ≤ 2e-10 + 2 / 10 ^ 12 := add_le_add hl1 this
    _ ≤ _ := by norm_num

/-! ## A case meeting the hypotheses -/

/-- Logit link, `theta = 0`, `beta = 0.5` and the quadrature rule with one point. -/
noncomputable def zeroPars : Parameters :=
  { logitPars 0 0.5 with quadratureRule := ⟨[0], [Quad.sqrtPi]⟩ }

example (lib : Lib) (har : lib.ar = i32) (hrd : lib.rd = read) :
    ∃ c v, clusterGraph lib zeroPars twoGroups = Except.ok c ∧
      computeLogNormalizingConstant lib zeroPars c (0 : Fin 2 → ℝ) 1 = Except.ok v ∧
      |v - ∑ j, logLikClamped expit (twoGroups.resp j) (weight twoGroups j)
        (expected twoGroups [0.5] j)| ≤ (2 : ℕ) * 1e-9 :=
  c112_SR .logit (pars := zeroPars) rfl (by simp [zeroPars, logitPars]) twoGroups_wf twoGroups_level
    rfl two_pos (by rw [hrd]; exact ⟨fun _ _ _ _ => rfl, Or.inl (by simp [twoGroups])⟩)
    (Or.inr ⟨har, by norm_num⟩) twoPars_rule (by simp [zeroPars]) twoGroups_resp
    (fun j => by rw [twoGroups_weight]; exact zero_le_one)
    (fun r => by
      obtain ⟨j, hj⟩ := (by decide : ∀ r, ∃ j : Fin 3, (![0, 0, 1] : Fin 3 → Fin 2) j = r) r
      exact ⟨j, hj, (twoGroups_weight j).ge⟩)

end Verif.NoVariance
