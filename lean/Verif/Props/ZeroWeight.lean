import Verif.Props.Reparam

/-!
# C103: observations of weight zero do not matter

Sequential reduction is `Reparam.c103` in Props/Reparam; here are the other approximations and cases.
-/
namespace Verif.Reparam

open Verif.Split Verif.Reparam.Spec Verif.Pars Verif.GLMM Verif.Family Matrix

variable {q n p p' : ℕ} {M : ModFr q n p} {M' : ModFr q n p'}

/-- C103, the model: the log-integrand is the same function. -/
theorem c103_integrand (h : SameCounted M M') (μ : ℝ → ℝ) {theta beta theta' beta' : List ℝ}
    (hs : SamePredictorCounted M M' theta beta theta' beta') :
    Split.Spec.logIntegrand M μ theta beta = Split.Spec.logIntegrand M' μ theta' beta' := by
  funext u
  unfold Split.Spec.logIntegrand
  congr 1
  refine Finset.sum_congr rfl fun j _ => ?_
  rw [← h.weight]
  by_cases hj : Split.Spec.weight M j = 0
  · simp only [hj, logLik, zero_mul]
  · rw [hs u j hj, h.resp j hj]

/-- C103, importance sampling with the same samples and normal approximation, for families whose
deviance residuals are 0 for the weight 0. -/
theorem c103_IS (h : SameCounted M M') (fam : IS.Fam) (hf : ∀ y m, fam.devResid y m 0 = 0)
    {theta beta theta' beta' : List ℝ} (hs : SamePredictorCounted M M' theta beta theta' beta')
    (hM : Split.Spec.WellFormed M theta.length)
    (hM' : Split.Spec.WellFormed M' theta'.length) (ht : theta ≠ []) (ht' : theta' ≠ [])
    (hb : beta.length = p) (hb' : beta'.length = p') {r : ℕ}
    (chol : Matrix (Fin q) (Fin q) ℝ → Matrix (Fin q) (Fin q) ℝ) (approx : IS.NormalApprox q)
    (z : Matrix (Fin q) (Fin r) ℝ) :
    IS.lfun chol fam M theta.length approx z (theta ++ beta) =
      IS.lfun chol fam M' theta'.length approx z (theta' ++ beta') := by
  obtain ⟨f, hf1, hv⟩ := IS.findLogIntegrand_ok fam hM ht hb
  obtain ⟨f', hf', hv'⟩ := IS.findLogIntegrand_ok fam hM' ht' hb'
  have : f r = f' r := by
    funext u s
    rw [hv, hv']
    unfold IS.Spec.logIntegrand
    congr 2
    refine Finset.sum_congr rfl fun j _ => ?_
    rw [← h.weight]
    by_cases hj : Split.Spec.weight M j = 0
    · rw [hj, hf, hf]
    · rw [hs _ j hj, h.resp j hj]
  unfold IS.lfun
  rw [hf1, hf', res_ok_bind, res_ok_bind, this]

theorem design_counted {theta beta theta' beta' : List ℝ}
    (hs : SamePredictorCounted M M' theta beta theta' beta') {j : Fin n}
    (hj : Split.Spec.weight M j ≠ 0) (r : Fin q) :
    ((Matrix.of fun i c => Split.Spec.lambdat M theta i c) * M.Zt) r j =
      ((Matrix.of fun i c => Split.Spec.lambdat M' theta' i c) * M'.Zt) r j := by
  have h0 := hs 0 j hj
  have h1 := hs (Pi.single r 1) j hj
  simp only [Split.Spec.eta, Pi.zero_apply, mul_zero, Finset.sum_const_zero, add_zero] at h0
  simp only [Split.Spec.eta, h0, Pi.single_apply, mul_ite, mul_one, mul_zero, Finset.sum_ite_eq',
    Finset.mem_univ, if_true] at h1
  simp only [Matrix.mul_apply, Matrix.of_apply]
  exact add_left_cancel h1

/-- The correction only uses the entries of `M` between observations with nonzero derivatives. -/
theorem epsilonOf_counted {w g3 g4 : Fin n → ℝ} {A A' : Matrix (Fin n) (Fin n) ℝ}
    (h3 : ∀ j, w j = 0 → g3 j = 0) (h4 : ∀ j, w j = 0 → g4 j = 0)
    (hA : ∀ i j, w i ≠ 0 → w j ≠ 0 → A i j = A' i j) :
    Hol.epsilonOf g3 g4 A = Hol.epsilonOf g3 g4 A' := by
  have a1 : ∑ j, g4 j * A j j ^ 2 = ∑ j, g4 j * A' j j ^ 2 := by
    refine Finset.sum_congr rfl fun j _ => ?_
    by_cases hj : w j = 0
    · rw [h4 j hj, zero_mul, zero_mul]
    · rw [hA j j hj hj]
  have a2 : (fun j => g3 j * A j j) = fun j => g3 j * A' j j := by
    funext j
    by_cases hj : w j = 0
    · rw [h3 j hj, zero_mul, zero_mul]
    · rw [hA j j hj hj]
  have a3 : ∀ (v : Fin n → ℝ) (B B' : Matrix (Fin n) (Fin n) ℝ), (∀ j, w j = 0 → v j = 0) →
      (∀ i j, w i ≠ 0 → w j ≠ 0 → B i j = B' i j) → v ⬝ᵥ (Bᵀ *ᵥ v) = v ⬝ᵥ (B'ᵀ *ᵥ v) := by
    intro v B B' hv hB
    simp only [dotProduct, mulVec, transpose_apply]
    refine Finset.sum_congr rfl fun i _ => ?_
    by_cases hi : w i = 0
    · rw [hv i hi, zero_mul, zero_mul]
    · congr 1
      refine Finset.sum_congr rfl fun j _ => ?_
      by_cases hj : w j = 0
      · rw [hv j hj, mul_zero, mul_zero]
      · rw [hB j i hj hi]
  unfold Hol.epsilonOf
  dsimp only
  rw [a1, a2, a3 (fun j => g3 j * A' j j) A A' (fun j hj => by rw [h3 j hj, zero_mul]) hA,
    a3 g3 (Matrix.of fun i j => A i j ^ 3) (Matrix.of fun i j => A' i j ^ 3) h3
      fun i j hi hj => by simp only [Matrix.of_apply, hA i j hi hj]]

/-- C103, Laplace approximation of second order: the correction is the same. -/
theorem c103_hol (h : SameCounted M M') {theta beta theta' beta' : List ℝ}
    (hs : SamePredictorCounted M M' theta beta theta' beta')
    (hM : Split.Spec.WellFormed M theta.length)
    (hM' : Split.Spec.WellFormed M' theta'.length) (ht : theta ≠ []) (ht' : theta' ≠ [])
    (hb : beta.length = p) (hb' : beta'.length = p') (family link : String)
    (approx : IS.NormalApprox q) :
    Hol.findEpsilon1 family link (theta ++ beta) M theta.length approx =
      Hol.findEpsilon1 family link (theta' ++ beta') M' theta'.length approx := by
  have hw : (fun j : Fin n => (IS.weightsOf M).getD j 0) = Split.Spec.weight M := by
    funext j
    rw [IS.weightsOf_eq, List.getD_eq_getElem _ _ (by simp), List.getElem_ofFn]
  have hw' : (fun j : Fin n => (IS.weightsOf M').getD j 0) = Split.Spec.weight M := by
    funext j
    rw [IS.weightsOf_eq, List.getD_eq_getElem _ _ (by simp), List.getElem_ofFn, h.weight]
  have hc : Counted (Split.Spec.eta M theta beta approx.mean)
      (Split.Spec.eta M' theta' beta' approx.mean) M.resp M'.resp (Split.Spec.weight M) :=
    fun j hj => ⟨hs _ j hj, h.resp j hj⟩
  unfold Hol.findEpsilon1 Hol.findM
  simp only [hw, hw', Hol.etaHat_eq hM ht hb, Hol.etaHat_eq hM' ht' hb',
    IS.findLambdatThetaZt_ok beta hM ht, IS.findLambdatThetaZt_ok beta' hM' ht', res_ok_bind,
    third_counted _ hc, fourth_counted _ hc]
  rcases Family.ofNames family link with e | f
  · rfl
  simp only [res_ok_bind, third_counted _ hc, fourth_counted _ hc]
  rcases h3 : f.evaluateThirdDerivative _ _ _ with e | d3
  · rfl
  rcases h4 : f.evaluateFourthDerivative _ _ _ with e | d4
  · rfl
  simp only [res_ok_bind]
  by_cases hdet : approx.precision.det = 0
  · simp only [if_pos hdet]
  · simp only [if_neg hdet]
    refine congrArg Except.ok (epsilonOf_counted (w := Split.Spec.weight M)
      (fun j hj => by rw [third_zero _ h3 hj, neg_zero])
      (fun j hj => by rw [fourth_zero _ h4 hj, neg_zero]) fun i j hi hj => ?_)
    simp only [Matrix.mul_apply (M := (_ : Matrix (Fin n) (Fin q) ℝ)), transpose_apply]
    refine Finset.sum_congr rfl fun r _ => ?_
    rw [design_counted hs hi]
    congr 1
    rw [Matrix.mul_apply, Matrix.mul_apply]
    exact Finset.sum_congr rfl fun s _ => by rw [design_counted hs hj]

/-! ## Observations whose weight is zero with other responses and covariates -/

/-- The observations in `other` have another response and other covariates. -/
noncomputable def replaceObs (M : ModFr q n p) (other : Fin n → Bool) (y : Fin n → ℝ)
    (X : Matrix (Fin n) (Fin p) ℝ) : ModFr q n p :=
  { M with
    resp := fun j => if other j then y j else M.resp j
    X := Matrix.of fun j k => if other j then X j k else M.X j k }

theorem replaceObs_data {other : Fin n → Bool} (ho : ∀ j, other j = true → Split.Spec.weight M j = 0)
    (y : Fin n → ℝ) (X : Matrix (Fin n) (Fin p) ℝ) : SameCounted M (replaceObs M other y X) where
  resp j hj := by
    have : ¬ other j = true := fun h => hj (ho j h)
    simp [replaceObs, this]
  weight := rfl
  active _ := rfl

theorem replaceObs_wf (other : Fin n → Bool) (y : Fin n → ℝ) (X : Matrix (Fin n) (Fin p) ℝ) {size : ℕ}
    (h : Split.Spec.WellFormed M size) : Split.Spec.WellFormed (replaceObs M other y X) size :=
  ⟨h.nodup, h.diag, h.length, h.lind, h.zt⟩

theorem replaceObs_predictor {other : Fin n → Bool}
    (ho : ∀ j, other j = true → Split.Spec.weight M j = 0)
    (y : Fin n → ℝ) (X : Matrix (Fin n) (Fin p) ℝ) (theta beta : List ℝ) :
    SamePredictorCounted M (replaceObs M other y X) theta beta theta beta := by
  intro u j hj
  have : ¬ other j = true := fun h => hj (ho j h)
  unfold Split.Spec.eta
  congr 1
  refine Finset.sum_congr rfl fun k _ => ?_
  simp [replaceObs, this]

/-- C103, other responses and covariates of observations whose weight is 0: the two models are refused
with the same error, or every sequence of calls gives the same results. -/
theorem c103_replace {other : Fin n → Bool} (ho : ∀ j, other j = true → Split.Spec.weight M j = 0)
    (y : Fin n → ℝ) (X : Matrix (Fin n) (Fin p) ℝ) (hc : Split.Spec.Covered M) {nTheta : ℕ}
    (hM : Split.Spec.WellFormed M nTheta) (h1 : 1 ≤ nTheta) {lib : SR.Lib} (hrd : SR.Reads lib.rd M)
    (env : Env) (family link : String) (nSL nAGQ : ℝ) :
    (∃ e, Lfun.findLfunSR lib env M family link nSL nAGQ = Except.error e ∧
      Lfun.findLfunSR lib env (replaceObs M other y X) family link nSL nAGQ = Except.error e) ∨
    ∃ pars c c', Lfun.findLfunSR lib env M family link nSL nAGQ = Except.ok (pars, c) ∧
      Lfun.findLfunSR lib env (replaceObs M other y X) family link nSL nAGQ = Except.ok (pars, c') ∧
      ∀ (devfun devfun' : List ℝ → Res (ℝ × Lfun.PP q)) (xs : List (List ℝ)),
        (∀ x ∈ xs, x.length = nTheta + p ∧ devfun x = devfun' x) →
        Lfun.calls lib p nTheta c devfun xs pars = Lfun.calls lib p nTheta c' devfun' xs pars := by
  rcases c103 (replaceObs_data ho y X) hc hM (replaceObs_wf other y X hM) h1 h1 hrd
    ⟨hrd.inside, hrd.beyond⟩ env family link nSL nAGQ with h | ⟨pars, c, c', e1, e2, -, h⟩
  · exact .inl h
  · refine .inr ⟨pars, c, c', e1, e2, fun devfun devfun' xs hxs => h _ _ _ _ ?_⟩
    refine List.forall₂_same.2 fun x hx => ?_
    obtain ⟨hl, hd⟩ := hxs x hx
    exact ⟨x.take nTheta, x.drop nTheta, x.take nTheta, x.drop nTheta, by simp, by simp,
      by rw [List.length_take]; omega, by rw [List.length_drop]; omega,
      by rw [List.length_take]; omega, by rw [List.length_drop]; omega,
      replaceObs_predictor ho y X _ _, hd⟩

/-! ## A case -/

/-- The model `trend` with the weights 1, 0, 2. -/
noncomputable def unweighted : ModFr 3 3 2 := { trend with weights := some ![1, 0, 2] }

/-- The second observation is replaced by the response 1 and the covariates 1 and 50; it stays part of
the factorization. -/
example (lib : SR.Lib) (hrd : lib.rd = GLMM.read) (env : Env) (nSL nAGQ : ℝ) :
    (∃ e, Lfun.findLfunSR lib env unweighted "binomial" "logit" nSL nAGQ = Except.error e ∧
      Lfun.findLfunSR lib env (replaceObs unweighted ![false, true, false] 1 !![0, 0; 1, 50; 0, 0])
        "binomial" "logit" nSL nAGQ = Except.error e) ∨
    ∃ pars c c', Lfun.findLfunSR lib env unweighted "binomial" "logit" nSL nAGQ =
        Except.ok (pars, c) ∧
      Lfun.findLfunSR lib env (replaceObs unweighted ![false, true, false] 1 !![0, 0; 1, 50; 0, 0])
        "binomial" "logit" nSL nAGQ = Except.ok (pars, c') ∧
      ∀ devfun : List ℝ → Res (ℝ × Lfun.PP 3), Lfun.calls lib 2 1 c devfun [[6, 1, 4], [3, 1, 2]] pars =
        Lfun.calls lib 2 1 c' devfun [[6, 1, 4], [3, 1, 2]] pars := by
  have hwf : Split.Spec.WellFormed unweighted 1 :=
    let h := trend_wf
    ⟨h.nodup, h.diag, h.length, h.lind, h.zt⟩
  have ho : ∀ j, (![false, true, false] : Fin 3 → Bool) j = true →
      Split.Spec.weight unweighted j = 0 := by
    intro j
    fin_cases j
    · intro h; cases h
    · intro _; rfl
    · intro h; cases h
  have hr : SR.Reads lib.rd unweighted := by
    rw [hrd]; exact ⟨fun _ _ _ _ => rfl, Or.inl (by decide)⟩
  rcases c103_replace ho 1 !![0, 0; 1, 50; 0, 0] trend_covered hwf le_rfl hr env "binomial" "logit"
    nSL nAGQ with h | ⟨pars, c, c', e1, e2, h⟩
  · exact .inl h
  · exact .inr ⟨pars, c, c', e1, e2, fun devfun => h _ _ _ (by simp)⟩

/-- Importance sampling for the same model; the deviance residuals are those of `binomial()`. -/
example (chol : Matrix (Fin 3) (Fin 3) ℝ → Matrix (Fin 3) (Fin 3) ℝ) (approx : IS.NormalApprox 3)
    (z : Matrix (Fin 3) (Fin 10) ℝ) (linkinv : ℝ → ℝ) :
    let fam : IS.Fam := { linkinv := linkinv, devResid := fun y m w =>
      2 * w * (y * Real.log (y / m) + (1 - y) * Real.log ((1 - y) / (1 - m))) }
    IS.lfun chol fam unweighted 1 approx z [6, 1, 4] =
      IS.lfun chol fam (replaceObs unweighted ![false, true, false] 1 !![0, 0; 1, 50; 0, 0]) 1 approx z
        [6, 1, 4] := by
  have hwf : Split.Spec.WellFormed unweighted 1 :=
    let h := trend_wf
    ⟨h.nodup, h.diag, h.length, h.lind, h.zt⟩
  have ho : ∀ j, (![false, true, false] : Fin 3 → Bool) j = true →
      Split.Spec.weight unweighted j = 0 := by
    intro j
    fin_cases j
    · intro h; cases h
    · intro _; rfl
    · intro h; cases h
  exact c103_IS (replaceObs_data ho _ _) _ (fun y m => by ring)
    (theta := [6]) (beta := [1, 4]) (replaceObs_predictor ho _ _ _ _) hwf (replaceObs_wf _ _ _ hwf)
    (by simp) (by simp) rfl rfl chol approx z

end Verif.Reparam
