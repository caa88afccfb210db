import Verif.Proofs.Param
import Verif.Model.Lfun
import Verif.Spec.Grouped

/-!
# Grouped observations: proofs for C88
-/
namespace Verif.Grouped

open Verif.Belief Verif.ClusterGraph Verif.Gauss Verif.Split Verif.Pars Verif.Param Verif.GLMM

/-- Every observation has a stored entry of the random effects. -/
def Active {q n p : ℕ} (M : ModFr q n p) : Prop := ∀ j, columnItems M j ≠ []

theorem active_of_covered {q n p : ℕ} {M : ModFr q n p} (h : Split.Spec.Covered M) : Active M := by
  intro j h0
  obtain ⟨r, c, h1, h2⟩ := h j
  have : r ∈ columnItems M j := List.mem_filter.2 ⟨List.mem_finRange r, by
    rw [List.any_eq_true]; exact ⟨(r, c), h1, by simp [h2]⟩⟩
  rw [h0] at this
  cases this

/-! ## Factors -/

/-- The same relation for the data of one factor. -/
structure GroupRel {d n N p : ℕ} (D : Data d n p) (D' : Data d N p) (σ : Fin N → Fin n) : Prop where
  X : ∀ k j, D'.X k j = D.X (σ k) j
  Zt : ∀ r k, D'.Zt r k = D.Zt r (σ k)
  entries : D'.entries = D.entries
  Lind : D'.Lind = D.Lind
  weight : ∀ i, ∑ k with σ k = i, D'.weights k = D.weights i
  total : ∀ i, ∑ k with σ k = i, D'.weights k * D'.response k = D.weights i * D.response i

/-- Sums over the observations that are linear in the weights and the weighted responses. -/
theorem sum_groups {d n N p : ℕ} {D : Data d n p} {D' : Data d N p} {σ : Fin N → Fin n}
    (h : GroupRel D D' σ) (a b : Fin n → ℝ) :
    ∑ k, (D'.weights k * D'.response k * a (σ k) + D'.weights k * b (σ k)) =
      ∑ i, (D.weights i * D.response i * a i + D.weights i * b i) := by
  rw [← Finset.sum_fiberwise (s := Finset.univ) (g := σ)]
  refine Finset.sum_congr rfl fun i _ => ?_
  rw [← h.total i, ← h.weight i, Finset.sum_mul, Finset.sum_mul, ← Finset.sum_add_distrib]
  refine Finset.sum_congr rfl fun k hk => ?_
  rw [(Finset.mem_filter.1 hk).2]

/-- Beliefs of the same groups with the same parameters. -/
structure BeliefRel {d n N p : ℕ} (b : Belief d n p) (b' : Belief d N p) (σ : Fin N → Fin n) :
    Prop where
  data : GroupRel b.toData b'.toData σ
  theta : b'.theta = b.theta
  beta : b'.beta = b.beta
  lam : ∀ r k, b'.LambdatThetaZt r k = b.LambdatThetaZt r (σ k)
  xb : ∀ k, b'.XBeta k = b.XBeta (σ k)

variable {d n N p : ℕ} {σ : Fin N → Fin n}

theorem setLambdat_rel {rd : List ℝ → ℤ → Res ℝ} {b : Belief d n p} {b' : Belief d N p}
    (hd : GroupRel b.toData b'.toData σ) (ht : b'.theta = b.theta) (hb : b'.beta = b.beta)
    (hx : ∀ k, b'.XBeta k = b.XBeta (σ k)) (theta : List ℝ) :
    RelRes (fun c c' => BeliefRel c c' σ) (setLambdatThetaZtWith rd b theta)
      (setLambdatThetaZtWith rd b' theta) := by
  unfold setLambdatThetaZtWith
  rw [hd.entries, hd.Lind]
  refine (RelRes.rfl' (P := Eq) (fun _ => rfl) _).bind ?_
  rintro L _ rfl
  refine .ok ⟨hd, ht, hb, fun r k => ?_, hx⟩
  simp only [Matrix.mul_apply]
  exact Finset.sum_congr rfl fun j _ => by rw [hd.Zt]

theorem timesX_rel {b : Belief d n p} {b' : Belief d N p} (hd : GroupRel b.toData b'.toData σ)
    (beta : List ℝ) : RelRes (fun v v' : _ → ℝ => ∀ k, v' k = v (σ k)) (timesX b.X beta)
      (timesX b'.X beta) := by
  unfold timesX
  split
  · refine .ok fun k => ?_
    simp only [Matrix.mulVec, dotProduct]
    exact Finset.sum_congr rfl fun j _ => by rw [hd.X]
  · exact .err _

theorem setTheta_rel {b : Belief d n p} {b' : Belief d N p} (h : BeliefRel b b' σ)
    (theta : List ℝ) :
    RelRes (fun c c' => BeliefRel c c' σ) (GLMM.setTheta b theta) (GLMM.setTheta b' theta) := by
  unfold GLMM.setTheta
  rw [h.theta]
  split
  · exact setLambdat_rel (b := { b with theta := theta }) (b' := { b' with theta := theta }) h.data rfl
      h.beta h.xb theta
  · exact .ok h

theorem setBeta_rel {b : Belief d n p} {b' : Belief d N p} (h : BeliefRel b b' σ)
    (beta : List ℝ) :
    RelRes (fun c c' => BeliefRel c c' σ) (GLMM.setBeta b beta) (GLMM.setBeta b' beta) := by
  unfold GLMM.setBeta
  rw [h.beta]
  split
  · exact (timesX_rel h.data beta).bind fun v v' hv => .ok ⟨h.data, h.theta, rfl, h.lam, hv⟩
  · exact .ok h

theorem createWith_rel {rd : List ℝ → ℤ → Res ℝ} {D : Data d n p} {D' : Data d N p}
    (hd : GroupRel D D' σ) :
    RelRes (fun c c' => BeliefRel c c' σ) (createWith rd D) (createWith rd D') := by
  unfold createWith initializeParameterDependents
  refine (setLambdat_rel (σ := σ) (b := ⟨D, _, _, 0, 0⟩) (b' := ⟨D', _, _, 0, 0⟩) hd rfl rfl
    (fun _ => rfl) _).bind fun c c' hc => ?_
  rw [hc.beta]
  exact (timesX_rel hc.data _).bind fun v v' hv => .ok ⟨hc.data, hc.theta, rfl, hc.lam, hv⟩

theorem linearPredictor_rel {b : Belief d n p} {b' : Belief d N p} (h : BeliefRel b b' σ)
    (x : Fin d → ℝ) (k : Fin N) :
    computeLinearPredictor b' x k = computeLinearPredictor b x (σ k) := by
  simp only [computeLinearPredictor, Pi.add_apply, h.xb, Matrix.mulVec, dotProduct,
    Matrix.transpose_apply, h.lam]

/-! ## Families

Values and derivatives of a family are linear in the weights and weighted responses. -/

/-- Either undefined for all arguments, or of this form. -/
def Lin (F : ∀ n : ℕ, (Fin n → ℝ) → (Fin n → ℝ) → (Fin n → ℝ) → Res (Fin n → ℝ)) : Prop :=
  (∀ n eta y w, F n eta y w = Res.ub) ∨
    ∃ a b : ℝ → ℝ, ∀ n eta y w, F n eta y w =
      Except.ok fun i => w i * y i * a (eta i) + w i * b (eta i)

theorem Lin.of {F : ∀ n : ℕ, (Fin n → ℝ) → (Fin n → ℝ) → (Fin n → ℝ) → Res (Fin n → ℝ)}
    (V : ℝ → ℝ → ℝ → ℝ)
    (hF : ∀ n eta y w, F n eta y w = Except.ok fun i => V (eta i) (y i) (w i))
    (hV : ∀ e y w, V e y w = w * y * (V e 1 1 - V e 0 1) + w * V e 0 1) : Lin F :=
  .inr ⟨fun e => V e 1 1 - V e 0 1, fun e => V e 0 1, fun n eta y w => by
    rw [hF]; exact congrArg Except.ok (funext fun i => hV _ _ _)⟩

open Family in
theorem eval_lin (f : Family.Family) :
    (∀ (n : ℕ) (eta y w : Fin n → ℝ), f.evaluate eta y w = Res.ub) ∨
      ∃ a b : ℝ → ℝ, ∀ (n : ℕ) (eta y w : Fin n → ℝ), f.evaluate eta y w =
        Except.ok (∑ i, (w i * y i * a (eta i) + w i * b (eta i))) := by
  obtain ⟨_ | l, g⟩ := f
  · exact .inl fun _ _ _ _ => rfl
  rcases g with _ | ⟨⟩
  · exact .inl fun _ _ _ _ => by cases l <;> rfl
  right
  have key (m : ℝ → ℝ) : ∃ a b : ℝ → ℝ, ∀ (n : ℕ) (eta y w : Fin n → ℝ),
      Binomial.evaluate (fun i => m (eta i)) y w =
        ∑ i, (w i * y i * a (eta i) + w i * b (eta i)) :=
    ⟨fun e => Real.log (m e) - Real.log (1 - m e), fun e => Real.log (1 - m e),
      fun n eta y w => Finset.sum_congr rfl fun i _ => by ring⟩
  cases l
  · obtain ⟨a, b, h⟩ := key fun e =>
      Binomial.checkMean (LogitLink.computeMean fun _ : Fin 1 => e) 0
    exact ⟨a, b, fun n eta y w => congrArg Except.ok (h n eta y w)⟩
  · obtain ⟨a, b, h⟩ := key fun e =>
      Binomial.checkMean (ProbitLink.computeMean fun _ : Fin 1 => e) 0
    exact ⟨a, b, fun n eta y w => congrArg Except.ok (h n eta y w)⟩

open Family in
theorem deriv_lin (f : Family.Family) : Lin fun n => f.evaluateDerivative (n := n) := by
  obtain ⟨_ | l, g⟩ := f
  · exact .inl fun _ _ _ _ => rfl
  rcases g with _ | ⟨⟩
  · exact .inl fun _ _ _ _ => by cases l <;> rfl
  cases l
  · refine Lin.of (fun e y w => (LogitLink.computeMeanDerivative (fun _ : Fin 1 => e) *
      Binomial.evaluateDerivative (Binomial.checkMean (LogitLink.computeMean fun _ : Fin 1 => e))
        (fun _ => y) (fun _ => w)) 0) (fun _ _ _ _ => rfl) fun e y w => ?_
    simp only [Pi.mul_apply, Binomial.evaluateDerivative]
    ring
  · refine Lin.of (fun e y w => (ProbitLink.computeMeanDerivative (fun _ : Fin 1 => e) *
      Binomial.evaluateDerivative (Binomial.checkMean (ProbitLink.computeMean fun _ : Fin 1 => e))
        (fun _ => y) (fun _ => w)) 0) (fun _ _ _ _ => rfl) fun e y w => ?_
    simp only [Pi.mul_apply, Binomial.evaluateDerivative]
    ring

open Family in
theorem hess_lin (f : Family.Family) : Lin fun n => f.evaluateSecondDerivative (n := n) := by
  obtain ⟨_ | l, g⟩ := f
  · exact .inl fun _ _ _ _ => rfl
  rcases g with _ | ⟨⟩
  · exact .inl fun _ _ _ _ => by cases l <;> rfl
  cases l
  · refine Lin.of (fun e y w => (LogitLink.computeMeanDerivative (fun _ : Fin 1 => e) ^ 2 *
      Binomial.evaluateSecondDerivative
        (Binomial.checkMean (LogitLink.computeMean fun _ : Fin 1 => e)) (fun _ => y) (fun _ => w) +
      LogitLink.computeMeanSecondDerivative (fun _ : Fin 1 => e) *
      Binomial.evaluateDerivative (Binomial.checkMean (LogitLink.computeMean fun _ : Fin 1 => e))
        (fun _ => y) (fun _ => w)) 0) (fun _ _ _ _ => rfl) fun e y w => ?_
    simp only [Pi.mul_apply, Pi.add_apply, Pi.pow_apply, Binomial.evaluateDerivative,
      Binomial.evaluateSecondDerivative]
    ring
  · refine Lin.of (fun e y w => (ProbitLink.computeMeanDerivative (fun _ : Fin 1 => e) ^ 2 *
      Binomial.evaluateSecondDerivative
        (Binomial.checkMean (ProbitLink.computeMean fun _ : Fin 1 => e)) (fun _ => y) (fun _ => w) +
      ProbitLink.computeMeanSecondDerivative (fun _ : Fin 1 => e) *
      Binomial.evaluateDerivative (Binomial.checkMean (ProbitLink.computeMean fun _ : Fin 1 => e))
        (fun _ => y) (fun _ => w)) 0) (fun _ _ _ _ => rfl) fun e y w => ?_
    simp only [Pi.mul_apply, Pi.add_apply, Pi.pow_apply, Binomial.evaluateDerivative,
      Binomial.evaluateSecondDerivative]
    ring

open Family in
theorem third_lin (f : Family.Family) : Lin fun n => f.evaluateThirdDerivative (n := n) := by
  obtain ⟨_ | l, g⟩ := f
  · exact .inl fun _ _ _ _ => rfl
  rcases g with _ | ⟨⟩
  · exact .inl fun _ _ _ _ => by cases l <;> rfl
  cases l
  · refine Lin.of (fun e y w =>
      (LogitLink.computeMeanDerivative (fun _ : Fin 1 => e) ^ 3 *
        Binomial.evaluateThirdDerivative (Binomial.checkMean (LogitLink.computeMean fun _ : Fin 1 => e)) (fun _ => y) (fun _ => w) +
      3 * LogitLink.computeMeanDerivative (fun _ : Fin 1 => e) *
        LogitLink.computeMeanSecondDerivative (fun _ : Fin 1 => e) *
        Binomial.evaluateSecondDerivative (Binomial.checkMean (LogitLink.computeMean fun _ : Fin 1 => e)) (fun _ => y) (fun _ => w) +
      LogitLink.computeMeanThirdDerivative (fun _ : Fin 1 => e) *
        Binomial.evaluateDerivative (Binomial.checkMean (LogitLink.computeMean fun _ : Fin 1 => e)) (fun _ => y) (fun _ => w) :
        Fin 1 → ℝ) 0) (fun _ _ _ _ => rfl) fun e y w => ?_
    simp only [Pi.mul_apply, Pi.add_apply, Pi.pow_apply, Pi.ofNat_apply,
      Binomial.evaluateDerivative, Binomial.evaluateSecondDerivative, Binomial.evaluateThirdDerivative,
      Binomial.evaluateFourthDerivative]
    ring
  · refine Lin.of (fun e y w =>
      (ProbitLink.computeMeanDerivative (fun _ : Fin 1 => e) ^ 3 *
        Binomial.evaluateThirdDerivative (Binomial.checkMean (ProbitLink.computeMean fun _ : Fin 1 => e)) (fun _ => y) (fun _ => w) +
      3 * ProbitLink.computeMeanDerivative (fun _ : Fin 1 => e) *
        ProbitLink.computeMeanSecondDerivative (fun _ : Fin 1 => e) *
        Binomial.evaluateSecondDerivative (Binomial.checkMean (ProbitLink.computeMean fun _ : Fin 1 => e)) (fun _ => y) (fun _ => w) +
      ProbitLink.computeMeanThirdDerivative (fun _ : Fin 1 => e) *
        Binomial.evaluateDerivative (Binomial.checkMean (ProbitLink.computeMean fun _ : Fin 1 => e)) (fun _ => y) (fun _ => w) :
        Fin 1 → ℝ) 0) (fun _ _ _ _ => rfl) fun e y w => ?_
    simp only [Pi.mul_apply, Pi.add_apply, Pi.pow_apply, Pi.ofNat_apply,
      Binomial.evaluateDerivative, Binomial.evaluateSecondDerivative, Binomial.evaluateThirdDerivative,
      Binomial.evaluateFourthDerivative]
    ring

open Family in
theorem fourth_lin (f : Family.Family) : Lin fun n => f.evaluateFourthDerivative (n := n) := by
  obtain ⟨_ | l, g⟩ := f
  · exact .inl fun _ _ _ _ => rfl
  rcases g with _ | ⟨⟩
  · exact .inl fun _ _ _ _ => by cases l <;> rfl
  cases l
  · refine Lin.of (fun e y w =>
      (LogitLink.computeMeanDerivative (fun _ : Fin 1 => e) ^ 4 *
        Binomial.evaluateFourthDerivative (Binomial.checkMean (LogitLink.computeMean fun _ : Fin 1 => e)) (fun _ => y) (fun _ => w) +
      6 * LogitLink.computeMeanDerivative (fun _ : Fin 1 => e) ^ 2 *
        LogitLink.computeMeanSecondDerivative (fun _ : Fin 1 => e) *
        Binomial.evaluateThirdDerivative (Binomial.checkMean (LogitLink.computeMean fun _ : Fin 1 => e)) (fun _ => y) (fun _ => w) +
      (4 * LogitLink.computeMeanDerivative (fun _ : Fin 1 => e) *
        LogitLink.computeMeanThirdDerivative (fun _ : Fin 1 => e) +
        3 * LogitLink.computeMeanSecondDerivative (fun _ : Fin 1 => e) ^ 2) *
        Binomial.evaluateSecondDerivative (Binomial.checkMean (LogitLink.computeMean fun _ : Fin 1 => e)) (fun _ => y) (fun _ => w) +
      LogitLink.computeMeanFourthDerivative (fun _ : Fin 1 => e) *
        Binomial.evaluateDerivative (Binomial.checkMean (LogitLink.computeMean fun _ : Fin 1 => e)) (fun _ => y) (fun _ => w) :
        Fin 1 → ℝ) 0) (fun _ _ _ _ => rfl) fun e y w => ?_
    simp only [Pi.mul_apply, Pi.add_apply, Pi.pow_apply, Pi.ofNat_apply,
      Binomial.evaluateDerivative, Binomial.evaluateSecondDerivative, Binomial.evaluateThirdDerivative,
      Binomial.evaluateFourthDerivative]
    ring
  · refine Lin.of (fun e y w =>
      (ProbitLink.computeMeanDerivative (fun _ : Fin 1 => e) ^ 4 *
        Binomial.evaluateFourthDerivative (Binomial.checkMean (ProbitLink.computeMean fun _ : Fin 1 => e)) (fun _ => y) (fun _ => w) +
      6 * ProbitLink.computeMeanDerivative (fun _ : Fin 1 => e) ^ 2 *
        ProbitLink.computeMeanSecondDerivative (fun _ : Fin 1 => e) *
        Binomial.evaluateThirdDerivative (Binomial.checkMean (ProbitLink.computeMean fun _ : Fin 1 => e)) (fun _ => y) (fun _ => w) +
      (4 * ProbitLink.computeMeanDerivative (fun _ : Fin 1 => e) *
        ProbitLink.computeMeanThirdDerivative (fun _ : Fin 1 => e) +
        3 * ProbitLink.computeMeanSecondDerivative (fun _ : Fin 1 => e) ^ 2) *
        Binomial.evaluateSecondDerivative (Binomial.checkMean (ProbitLink.computeMean fun _ : Fin 1 => e)) (fun _ => y) (fun _ => w) +
      ProbitLink.computeMeanFourthDerivative (fun _ : Fin 1 => e) *
        Binomial.evaluateDerivative (Binomial.checkMean (ProbitLink.computeMean fun _ : Fin 1 => e)) (fun _ => y) (fun _ => w) :
        Fin 1 → ℝ) 0) (fun _ _ _ _ => rfl) fun e y w => ?_
    simp only [Pi.mul_apply, Pi.add_apply, Pi.pow_apply, Pi.ofNat_apply,
      Binomial.evaluateDerivative, Binomial.evaluateSecondDerivative, Binomial.evaluateThirdDerivative,
      Binomial.evaluateFourthDerivative]
    ring

/-! ## The functions of a factor -/

theorem evaluate_rel {b : Belief d n p} {b' : Belief d N p} (h : BeliefRel b b' σ)
    (x : Fin d → ℝ) (pars : Parameters) :
    RelRes (fun r r' => r.1 = r'.1) (GLMM.evaluate b x pars) (GLMM.evaluate b' x pars) := by
  unfold GLMM.evaluate
  refine (setTheta_rel h _).bind fun c c' hc => (setBeta_rel hc _).bind fun e e' he => ?_
  rcases eval_lin pars.family with hu | ⟨a, b, hf⟩
  · simp only [hu]; exact .err _
  · simp only [hf]
    refine .ok ?_
    have := sum_groups he.data (fun i => a (computeLinearPredictor e x i))
      (fun i => b (computeLinearPredictor e x i))
    simp only [← linearPredictor_rel he] at this
    exact this.symm

theorem evaluateDerivative_rel {b : Belief d n p} {b' : Belief d N p} (h : BeliefRel b b' σ)
    (x : Fin d → ℝ) (pars : Parameters) :
    RelRes (fun r r' => r.1 = r'.1) (GLMM.evaluateDerivative b x pars)
      (GLMM.evaluateDerivative b' x pars) := by
  unfold GLMM.evaluateDerivative
  refine (setTheta_rel h _).bind fun c c' hc => (setBeta_rel hc _).bind fun e e' he => ?_
  rcases deriv_lin pars.family with hu | ⟨a, b, hf⟩
  · simp only at hu; simp only [hu]; exact .err _
  · simp only at hf
    simp only [hf]
    refine .ok (funext fun r => ?_)
    have := sum_groups he.data
      (fun i => e.LambdatThetaZt r i * a (computeLinearPredictor e x i))
      (fun i => e.LambdatThetaZt r i * b (computeLinearPredictor e x i))
    simp only [← linearPredictor_rel he, ← he.lam] at this
    simp only [Matrix.mulVec, dotProduct]
    refine Eq.trans (Finset.sum_congr rfl fun i _ => ?_) (this.symm.trans
      (Finset.sum_congr rfl fun i _ => ?_)) <;> ring

theorem evaluateSecondDerivative_rel {b : Belief d n p} {b' : Belief d N p} (h : BeliefRel b b' σ)
    (x : Fin d → ℝ) (pars : Parameters) :
    RelRes (fun r r' => r.1 = r'.1) (GLMM.evaluateSecondDerivative b x pars)
      (GLMM.evaluateSecondDerivative b' x pars) := by
  unfold GLMM.evaluateSecondDerivative
  refine (setTheta_rel h _).bind fun c c' hc => (setBeta_rel hc _).bind fun e e' he => ?_
  rcases hess_lin pars.family with hu | ⟨a, b, hf⟩
  · simp only at hu; simp only [hu]; exact .err _
  · simp only at hf
    simp only [hf]
    refine .ok (Matrix.ext fun r s => ?_)
    have := sum_groups he.data
      (fun i => e.LambdatThetaZt r i * e.LambdatThetaZt s i * a (computeLinearPredictor e x i))
      (fun i => e.LambdatThetaZt r i * e.LambdatThetaZt s i * b (computeLinearPredictor e x i))
    simp only [← linearPredictor_rel he, ← he.lam] at this
    show (_ * _ : Matrix _ _ ℝ) r s = (_ * _ : Matrix _ _ ℝ) r s
    rw [Matrix.mul_apply, Matrix.mul_apply]
    simp only [Matrix.mul_diagonal, Matrix.transpose_apply]
    refine Eq.trans (Finset.sum_congr rfl fun i _ => ?_) (this.symm.trans
      (Finset.sum_congr rfl fun i _ => ?_)) <;> ring

theorem same_glmm {b : Belief d n p} {b' : Belief d N p} (h : BeliefRel b b' σ) (lib : SR.Lib)
    (items : List ℤ) : Same lib (.glmm items d n p b) (.glmm items d N p b') := by
  refine ⟨rfl, fun pars => ⟨funext fun x => ?_, funext fun x => ?_, funext fun x => ?_⟩⟩
  · refine RelRes.eq ((RelRes.rfl' (P := Eq) (fun _ => rfl) _).bind ?_)
    rintro v _ rfl
    exact (evaluate_rel h v pars).bind fun r r' hr => hr ▸ .ok rfl
  · refine RelRes.eq ((RelRes.rfl' (P := Eq) (fun _ => rfl) _).bind ?_)
    rintro v _ rfl
    exact (evaluateDerivative_rel h v pars).bind fun r r' hr => hr ▸ .ok rfl
  · refine RelRes.eq ((RelRes.rfl' (P := Eq) (fun _ => rfl) _).bind ?_)
    rintro v _ rfl
    exact (evaluateSecondDerivative_rel h v pars).bind fun r r' hr => hr ▸ .ok rfl

/-- Terms with grouped data. -/
inductive TermRel {q p : ℕ} : Term q p → Term q p → Prop
  | glmm (C : List (Fin q)) (m m' : ℕ) (D : Data C.length m p) (D' : Data C.length m' p)
      (σ : Fin m' → Fin m) (h : GroupRel D D' σ) : TermRel (.glmm C m D) (.glmm C m' D')
  | normal (i : Fin q) (mean precision : ℝ) :
      TermRel (.normal i mean precision) (.normal i mean precision)

theorem factorOf_rel {q p : ℕ} (lib : SR.Lib) {t t' : Term q p} (h : TermRel t t') :
    RelRes (Same lib) (SR.factorOf lib t) (SR.factorOf lib t') := by
  cases h with
  | glmm C m m' D D' σ h =>
    exact (createWith_rel h).bind fun b b' hb => .ok (same_glmm hb lib _)
  | normal i mean precision => exact RelRes.rfl' (same_good lib Parameters.empty).refl _

/-! ## The division into factors -/

theorem filter_eraseDups {α : Type} [BEq α] [LawfulBEq α] (P : α → Bool) (l : List α) :
    (l.eraseDups).filter P = (l.filter P).eraseDups := by
  induction hn : l.length using Nat.strong_induction_on generalizing l with
  | _ k ih =>
    cases l with
    | nil => simp
    | cons a l =>
      rw [List.eraseDups_cons, List.filter_cons, List.filter_cons]
      have hl : (l.filter fun b => !b == a).length < k := by
        have := List.length_filter_le (fun b => !b == a) l
        rw [List.length_cons] at hn; omega
      by_cases ha : P a
      · rw [if_pos ha, if_pos ha, List.eraseDups_cons, ih _ hl _ rfl, List.filter_filter,
          List.filter_filter]
        congr 2
        exact List.filter_congr fun x _ => Bool.and_comm _ _
      · rw [if_neg ha, if_neg ha, ih _ hl _ rfl, List.filter_filter]
        congr 1
        refine List.filter_congr fun x _ => ?_
        by_cases hx : x = a
        · subst hx; simp [ha]
        · simp [hx]

theorem eraseDups_map_eraseDups {α β : Type} [BEq α] [LawfulBEq α] [BEq β] [LawfulBEq β] (f : α → β)
    (l : List α) : ((l.eraseDups).map f).eraseDups = (l.map f).eraseDups := by
  induction hn : l.length using Nat.strong_induction_on generalizing l with
  | _ k ih =>
    cases l with
    | nil => simp
    | cons a l =>
      rw [List.eraseDups_cons, List.map_cons, List.map_cons, List.eraseDups_cons,
        List.eraseDups_cons, List.filter_map, List.filter_map, filter_eraseDups, List.filter_filter]
      have hl : (l.filter ((fun b => !b == f a) ∘ f)).length < k := by
        have := List.length_filter_le ((fun b => !b == f a) ∘ f) l
        rw [List.length_cons] at hn; omega
      rw [← ih _ hl _ rfl]
      congr 4
      refine List.filter_congr fun x _ => ?_
      by_cases hx : x = a
      · subst hx; simp
      · simp [hx]

section
variable {q n N p : ℕ} {M : ModFr q n p} {M' : ModFr q N p} {ρ : Fin N → Fin n}

theorem columnItems_rel (h : Rows M M' ρ) (k : Fin N) :
    columnItems M' k = columnItems M (ρ k) := by
  unfold columnItems
  simp only [h.lambdat, h.ztStored]

theorem findActive_eq (ha : Active M) : findActive M = (List.finRange n).map (columnItems M) :=
  List.filter_eq_self.2 fun items hi => by
    obtain ⟨j, -, rfl⟩ := List.mem_map.1 hi
    simpa using ha j

theorem active_rel (h : Rows M M' ρ) (ha : Active M) : Active M' := fun k => by
  rw [columnItems_rel h]; exact ha _

theorem getD_findActive (ha : Active M) (j : Fin n) :
    (findActive M).getD j [] = columnItems M j := by
  rw [findActive_eq ha]
  simp [List.getD_eq_getElem?_getD]

theorem cliques_rel (h : Groups M M' ρ) (ha : Active M) :
    (findActive M').eraseDups = (findActive M).eraseDups := by
  rw [findActive_eq ha, findActive_eq (active_rel h.toRows ha), ← h.order, eraseDups_map_eraseDups,
    List.map_map]
  congr 1
  exact List.map_congr_left fun k _ => columnItems_rel h.toRows k

/-- The observations of the groups `obs`, in order. -/
def members (ρ : Fin N → Fin n) (obs : List (Fin n)) : List (Fin N) :=
  (List.finRange N).filter fun k => decide (ρ k ∈ obs)

theorem surj (h : Groups M M' ρ) (i : Fin n) : ∃ k, ρ k = i := by
  have : i ∈ ((List.finRange N).map ρ).eraseDups := by rw [h.order]; exact List.mem_finRange i
  rw [List.mem_eraseDups] at this
  obtain ⟨k, -, hk⟩ := List.mem_map.1 this
  exact ⟨k, hk⟩

theorem addObsC_rel (h : Rows M M' ρ) (ha : Active M) (C : List (Fin q)) (obs : List (Fin n)) :
    addObsC C (findActive M') (members ρ obs) = members ρ (addObsC C (findActive M) obs) := by
  unfold addObsC members
  rw [List.filter_filter]
  refine List.filter_congr fun k _ => ?_
  rw [getD_findActive (active_rel h ha), columnItems_rel h]
  simp only [List.mem_filter, getD_findActive ha]
  by_cases h1 : ρ k ∈ obs
  · rw [Bool.eq_iff_iff]; simp [h1]
  · simp [h1]

theorem addObsLoop_rel (h : Groups M M' ρ) (ha : Active M) :
    ∀ (cliques : List (List (Fin q))) (obs : List (Fin n)),
      (addObsLoop (findActive M') cliques (members ρ obs)).1 =
        (addObsLoop (findActive M) cliques obs).1.map (fun e => (e.1, members ρ e.2)) ∧
      (addObsLoop (findActive M') cliques (members ρ obs)).2 =
        members ρ (addObsLoop (findActive M) cliques obs).2
  | [], obs => ⟨rfl, rfl⟩
  | C :: rest, obs => by
    have hr : (members ρ obs).filter (fun k => ¬ (members ρ (addObsC C (findActive M) obs)).contains k)
        = members ρ (obs.filter fun k => ¬ (addObsC C (findActive M) obs).contains k) := by
      unfold members
      rw [List.filter_filter]
      refine List.filter_congr fun k _ => ?_
      simp only [List.contains_iff_mem, List.mem_filter, List.mem_finRange, true_and]
      by_cases h1 : ρ k ∈ obs <;> by_cases h2 : ρ k ∈ addObsC C (findActive M) obs <;> simp [h1, h2]
    have ih := addObsLoop_rel h ha rest
      (obs.filter fun k => ¬ (addObsC C (findActive M) obs).contains k)
    unfold addObsLoop
    simp only [addObsC_rel h.toRows ha]
    rw [hr]
    exact ⟨by rw [ih.1]; rfl, ih.2⟩

theorem addObsLoop_nodup (act : List (List (Fin q))) :
    ∀ (cliques : List (List (Fin q))) (obs : List (Fin n)), obs.Nodup →
      ∀ e ∈ (addObsLoop act cliques obs).1, e.2.Nodup
  | [], _, _, _, he => by cases he
  | C :: rest, obs, ho, e, he => by
    rcases List.mem_cons.1 he with rfl | he
    · exact ho.filter _
    · exact addObsLoop_nodup act rest _ (ho.filter _) e he

/-- The position of the group of an observation. -/
theorem exists_sigma (obs : List (Fin n)) : ∃ σ : Fin (members ρ obs).length → Fin obs.length,
    ∀ k, obs.get (σ k) = ρ ((members ρ obs).get k) := by
  have : ∀ k : Fin (members ρ obs).length, ∃ i : Fin obs.length,
      obs.get i = ρ ((members ρ obs).get k) := fun k => by
    have hk := List.get_mem (members ρ obs) k
    exact List.mem_iff_get.1 (by simpa using (List.mem_filter.1 hk).2)
  choose σ hσ using this
  exact ⟨σ, hσ⟩

/-- Sums over the observations of a group, by their positions. -/
theorem sum_positions {obs : List (Fin n)} (ho : obs.Nodup)
    {σ : Fin (members ρ obs).length → Fin obs.length}
    (hσ : ∀ k, obs.get (σ k) = ρ ((members ρ obs).get k)) (g : Fin N → ℝ) (i : Fin obs.length) :
    ∑ k with σ k = i, g ((members ρ obs).get k) = ∑ k with ρ k = obs.get i, g k := by
  refine Finset.sum_bij (fun k _ => (members ρ obs).get k) ?_ ?_ ?_ fun _ _ => rfl
  · intro k hk
    rw [Finset.mem_filter] at hk ⊢
    exact ⟨Finset.mem_univ _, by rw [← hσ, hk.2]⟩
  · intro k _ l _ hkl
    exact List.nodup_iff_injective_get.1 ((List.nodup_finRange N).filter _) hkl
  · intro k hk
    have hk := (Finset.mem_filter.1 hk).2
    have hm : k ∈ members ρ obs := List.mem_filter.2 ⟨List.mem_finRange k, by
      rw [hk]; simpa using List.get_mem obs i⟩
    obtain ⟨j, hj⟩ := List.mem_iff_get.1 hm
    refine ⟨j, Finset.mem_filter.2 ⟨Finset.mem_univ _, ?_⟩, hj⟩
    refine List.nodup_iff_injective_get.1 ho ?_
    rw [hσ, hj, hk]

theorem weights_local {q n p : ℕ} (M : ModFr q n p) (C : List (Fin q)) (obs : List (Fin n))
    (i : Fin obs.length) : (findLocalTerm C obs M).weights i = Split.Spec.weight M (obs.get i) := by
  show (match M.weights with
    | none => fun _ => 1
    | some w => fun i => w (obs.get i)) i = _
  unfold Split.Spec.weight
  cases M.weights <;> rfl

theorem subLambdat_rel (h : Rows M M' ρ) (C : List (Fin q)) : subLambdat M' C = subLambdat M C := by
  unfold subLambdat lindAt
  rw [h.lambdat, h.Lind]

theorem local_rel (h : Rows M M' ρ) (C : List (Fin q)) {obs : List (Fin n)} (ho : obs.Nodup) :
    TermRel (Term.glmm C obs.length (findLocalTerm C obs M))
      (Term.glmm C (members ρ obs).length (findLocalTerm C (members ρ obs) M')) := by
  obtain ⟨σ, hσ⟩ := exists_sigma (ρ := ρ) obs
  refine .glmm C _ _ _ _ σ ⟨fun k j => ?_, fun r k => ?_, ?_, ?_, fun i => ?_, fun i => ?_⟩
  · show M'.X _ j = M.X _ j
    rw [h.X, hσ]
  · show M'.Zt _ _ = M.Zt _ _
    rw [h.Zt, hσ]
  · show (subLambdat M' C).map _ = (subLambdat M C).map _
    rw [subLambdat_rel h]
  · show (subLambdat M' C).map _ = (subLambdat M C).map _
    rw [subLambdat_rel h]
  · simp only [weights_local]
    rw [sum_positions ho hσ (Split.Spec.weight M') i, h.weight]
  · simp only [weights_local]
    exact (sum_positions ho hσ (fun k => Split.Spec.weight M' k * M'.resp k) i).trans (h.total _)

/-- **The factors.** Both have the same error, or corresponding terms in the same order. -/
theorem terms_rel (h : Groups M M' ρ) (ha : Active M) :
    RelRes (List.Forall₂ TermRel) (findFactorizationTerms M) (findFactorizationTerms M') := by
  unfold findFactorizationTerms addObs
  have hm : members ρ (List.finRange n) = List.finRange N := by simp [members]
  obtain ⟨h1, h2⟩ := addObsLoop_rel h ha (findActive M).eraseDups (List.finRange n)
  rw [hm] at h1 h2
  simp only [cliques_rel h ha]
  rw [h1, h2]
  have he : (members ρ (addObsLoop (findActive M) (findActive M).eraseDups
      (List.finRange n)).2).length = 0 ↔ (addObsLoop (findActive M) (findActive M).eraseDups
      (List.finRange n)).2.length = 0 := by
    generalize (addObsLoop (findActive M) (findActive M).eraseDups (List.finRange n)).2 = l
    rw [List.length_eq_zero_iff, List.length_eq_zero_iff]
    constructor
    · intro h0
      refine List.eq_nil_iff_forall_not_mem.2 fun i hi => ?_
      obtain ⟨k, hk⟩ := surj h i
      have : k ∈ members ρ l := List.mem_filter.2 ⟨List.mem_finRange k, by rw [hk]; simpa using hi⟩
      rw [h0] at this; cases this
    · rintro rfl; simp [members]
  have hn := addObsLoop_nodup (n := n) (findActive M) (findActive M).eraseDups _
    (List.nodup_finRange n)
  by_cases h0 : (addObsLoop (findActive M) (findActive M).eraseDups (List.finRange n)).2.length = 0
  · rw [if_neg (by simpa using h0), if_neg (by rw [not_not, he]; exact h0)]
    refine .ok (forall₂_append ?_ ?_)
    · rw [List.map_map, List.forall₂_map_left_iff, List.forall₂_map_right_iff]
      exact List.forall₂_same.2 fun e he => local_rel h.toRows e.1 (hn e he)
    · rw [List.forall₂_map_left_iff, List.forall₂_map_right_iff]
      exact List.forall₂_same.2 fun i _ => .normal i 0 1
  · rw [if_pos h0, if_pos (by rw [ne_eq, he]; exact h0)]
    exact .err _

theorem factorizationTerms_rel (h : Groups M M' ρ) (ha : Active M) (lib : SR.Lib) :
    RelRes (List.Forall₂ (MixedRel (Same lib))) (Lfun.factorizationTerms lib M)
      (Lfun.factorizationTerms lib M') := by
  unfold Lfun.factorizationTerms
  refine (terms_rel h ha).bind fun l l' hl => RelRes.mapM (A := TermRel) ?_ hl
  intro t t' ht
  exact (factorOf_rel lib ht).bind fun g g' hg => .ok (ofFactor_rel (same_good lib _) hg)

theorem findLfunSR_rel (h : Groups M M' ρ) (ha : Active M) (lib : SR.Lib) (env : Env)
    (family link : String) (nSL nAGQ : ℝ) :
    RelRes (fun r r' => r.1 = r'.1 ∧ CGRel (MixedRel (Same lib)) r.2 r'.2)
      (Lfun.findLfunSR lib env M family link nSL nAGQ)
      (Lfun.findLfunSR lib env M' family link nSL nAGQ) := by
  unfold Lfun.findLfunSR
  refine (RelRes.rfl' (P := fun _ _ => True) (fun _ => trivial) _).bind fun _ _ _ => ?_
  refine (factorizationTerms_rel h ha lib).bind fun l l' hl => ?_
  refine (RelRes.rfl' (P := Eq) (fun _ => rfl) _).bind ?_
  rintro pars _ rfl
  refine (ofBeliefs_rel (ops_rel (same_good lib pars)) hl).bind fun c c' hc => ?_
  rw [show width (SR.ops lib pars) c' = width (SR.ops lib pars) c from
    (width_rel (ops_rel (same_good lib pars)) hc).symm]
  split
  · exact .err _
  · exact .ok ⟨rfl, hc⟩

end

end Verif.Grouped
