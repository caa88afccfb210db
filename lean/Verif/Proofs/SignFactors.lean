import Verif.Proofs.SignGraph
import Verif.Proofs.Reparam
import Verif.Proofs.SignFamily

/-!
# The factors of sequential reduction under changes of sign
-/
namespace Verif.Sign

open Verif.Gauss Verif.Items Verif.Belief Verif.ClusterGraph Verif.Store Verif.Pars Verif.Integrated
open Verif.Param2 Verif.GLMM Verif.Family Verif.Quad

/-- What the library functions have to satisfy for beliefs of at most `K` items: a symmetric
quadrature rule and a symmetric basis, a linear solver that commutes with changes of sign, and an
eigen-solver that returns eigenvectors and eigenvalues. -/
structure SignLib (lib : SR.Lib) (pars : Parameters) (K : ℕ) : Prop where
  rule : SymRule (SR.ruleOf pars.quadratureRule)
  env : ∀ d, d < K → SymEnv (SR.gridEnv lib pars) d
  solve : ∀ d, SignSolver (lib.solve d)
  eig : ∀ d p, IsEigen p (lib.eig d p).1 (lib.eig d p).2

theorem cast_flip {a b : ℕ} {σ : ℕ → ℝ} (e : a = b) (x : MN a) :
    (e ▸ flipMN σ x : MN b) = flipMN σ (e ▸ x) := by
  subst e
  rfl

variable {s : ℤ → ℝ} {lib : SR.Lib} {pars pars' : Parameters}

/-- The relation of two stored factors. -/
theorem sparse_rel (hs : IsSignZ s) (hp : SameRules pars pars') (l : List ℤ)
    (he : SymEnv (SR.gridEnv lib pars) l.length) {t t' : SparseStore l.length}
    (ht : SRel (SR.gridEnv lib pars) (sgnOf s l) t t') :
    FRel s (SR.Factor.ops lib pars) (SR.Factor.ops lib pars') (.sparse l l.length t)
      (.sparse l l.length t') := by
  have hF := stored_flip (hs.of l) he ht
  have hg : SR.gridEnv lib pars' = SR.gridEnv lib pars := by
    unfold SR.gridEnv
    rw [hp.basis]
  refine ⟨rfl, fun x x' hx => ?_, fun x x' hx => ?_, fun x x' hx => ?_⟩
  · show RelOk Eq (SR.Factor.eval lib pars (.sparse l l.length t) x)
      (SR.Factor.eval lib pars' (.sparse l l.length t') x')
    rw [SR.Factor.eval, SR.Factor.eval, hg]
    refine (vec_flip hx l.length).bind ?_
    rintro v _ rfl
    exact hF.eval v
  · show RelOk (VR (sgnOf s l)) (SR.Factor.deriv lib pars (.sparse l l.length t) x)
      (SR.Factor.deriv lib pars' (.sparse l l.length t') x')
    rw [SR.Factor.deriv, SR.Factor.deriv, hg]
    refine (vec_flip hx l.length).bind ?_
    rintro v _ rfl
    refine (hF.deriv v).bind ?_
    rintro v _ rfl
    exact RelOk.ok (VR.ofFn _ _)
  · show RelOk (MR (sgnOf s l)) (SR.Factor.hess lib pars (.sparse l l.length t) x)
      (SR.Factor.hess lib pars' (.sparse l l.length t') x')
    rw [SR.Factor.hess, SR.Factor.hess, hg]
    refine (vec_flip hx l.length).bind ?_
    rintro v _ rfl
    refine (hF.second v).bind ?_
    rintro v _ rfl
    exact RelOk.ok (MR.rows _ _)

theorem storeWith_rel (hs : IsSignZ s) {K : ℕ} (hL : SignLib lib pars K) (hp : SameRules pars pars')
    {l : List ℤ} (hK : l.length < K) {σ : ℕ → ℝ} (hσ : IsSign σ) (i : Fin (l.length + 1))
    (hi : ∀ j : Fin l.length, sgnOf s l j = σ (i.succAbove j))
    {f f' : List ℝ → Res ℝ} {d d' : List ℝ → Res (List ℝ)} {h h' : List ℝ → Res (List (List ℝ))}
    (hf : ∀ x x', VR σ x x' → RelOk Eq (f x) (f' x') ∧ RelOk (VR σ) (d x) (d' x') ∧
      RelOk (MR σ) (h x) (h' x')) (a : MN (l.length + 1)) :
    RelOk (FRel s (SR.Factor.ops lib pars) (SR.Factor.ops lib pars'))
      (SR.storeWith lib pars i f d h l a) (SR.storeWith lib pars' i f' d' h' l (flipMN σ a)) := by
  have hτ := hs.of l
  have hg : SR.gridEnv lib pars' = SR.gridEnv lib pars := by
    unfold SR.gridEnv
    rw [hp.basis]
  have hq : pars'.quadratureRule = pars.quadratureRule := hp.rule.symm
  unfold SR.storeWith
  dsimp only
  rw [hg, hq]
  refine (create_flip hσ hτ hi (lib.junk l.length) ⟨fun x => (hf _ _ (VR.ofFn σ x)).1,
    fun x => ?_, fun x => ?_⟩ a).bind fun F F' hF => ?_
  · refine (hf _ _ (VR.ofFn σ x)).2.1.bind fun v v' hv => ?_
    exact vec_flip hv _
  · refine (hf _ _ (VR.ofFn σ x)).2.2.bind fun v v' hv => ?_
    exact mat_flip hv _
  have hn : ∃ b, a.integrate i (lib.junk l.length).vec (lib.junk l.length).mat = Except.ok b ∧
      (flipMN σ a).integrate i (lib.junk l.length).vec (lib.junk l.length).mat =
        Except.ok (flipMN (sgnOf s l) b) := by
    rw [MN.integrate, MN.integrate, Eigen.getMatrixWithout_ok, Eigen.getVectorWithout_ok,
      Eigen.getMatrixWithout_ok, Eigen.getVectorWithout_ok]
    refine ⟨_, rfl, ?_⟩
    simp only [res_ok_bind, res_pure]
    rw [← ofMeanVariance_flip hτ]
    refine congrArg Except.ok ?_
    congr 1
    · exact fv_comp hi _
    · exact fm_submatrix hi _
  obtain ⟨b, e1, e2⟩ := hn
  rw [e1, e2]
  simp only [res_ok_bind]
  refine (store_flip hτ (hL.env _ hK) (hL.solve _) (hL.eig _)
    (integrated_flip hF hτ hi hσ (lib.junk l.length) hL.rule) b).bind fun t t' ht => ?_
  exact RelOk.ok (sparse_rel hs hp l (hL.env _ hK) ht)

/-- The stored integral of sequential reduction commutes with changes of sign. -/
theorem store_rel (hs : IsSignZ s) {K : ℕ} (hL : SignLib lib pars K) (hp : SameRules pars pars') :
    StoreRel s K (SR.Factor.ops lib pars) (SR.Factor.ops lib pars') (SR.store lib pars)
      (SR.store lib pars') := by
  intro k f f' d d' h h' n hk hK hf
  have hl : n.items.length = (n.items.eraseIdx k).length + 1 := by
    rw [List.length_eraseIdx, if_pos hk]
    omega
  unfold SR.store
  rw [dif_pos hl, dif_pos (show (flipNB s n).items.length = _ from hl)]
  have hc : ((show (flipNB s n).items.length = _ from hl) ▸ (flipNB s n).normal :
      MN ((n.items.eraseIdx k).length + 1)) = flipMN (sgnOf s n.items) (hl ▸ n.normal) :=
    cast_flip hl n.normal
  rw [hc]
  refine storeWith_rel (σ := sgnOf s n.items) hs hL hp (by omega) (hs.of _) ⟨k, by omega⟩ (fun j => ?_) hf _
  have hj := j.2
  rw [sgnOf, sgnOf, List.getD_eq_getElem _ _ hj, List.getElem_eraseIdx]
  by_cases hjk : (j : ℕ) < k
  · rw [dif_pos hjk, Fin.succAbove_of_castSucc_lt _ _ (by simpa [Fin.lt_def] using hjk)]
    rw [List.getD_eq_getElem]
    rfl
  · rw [dif_neg hjk, Fin.succAbove_of_le_castSucc _ _ (by simpa [Fin.le_def] using hjk)]
    rw [List.getD_eq_getElem]
    rfl

/-! ## Factors of the model -/

/-- The standard normal density is symmetric. -/
theorem normal_rel (hs : IsSignZ s) (lib : SR.Lib) (pars pars' : Parameters) {nb : NB}
    (h : flipNB s nb = nb) :
    FRel s (SR.Factor.ops lib pars) (SR.Factor.ops lib pars') (.normal nb) (.normal nb) := by
  have hn : flipMN (sgnOf s nb.items) nb.normal = nb.normal := by
    have h1 : (flipNB s nb).normal = flipMN (sgnOf s nb.items) nb.normal := rfl
    rcases nb with ⟨items, normal, c⟩
    unfold flipNB at h
    simp only [NB.mk.injEq, heq_eq_eq, true_and, and_true] at h
    exact h
  refine ⟨rfl, fun x x' hx => ?_, fun x x' hx => ?_, fun x x' hx => ?_⟩
  · show RelOk Eq (SR.Factor.eval lib pars (.normal nb) x) (SR.Factor.eval lib pars' (.normal nb) x')
    rw [SR.Factor.eval, SR.Factor.eval]
    have : NB.evaluate nb x' = NB.evaluate nb x := by
      conv_lhs => rw [← h]
      refine evaluateNB_flip hs nb hx.length fun k => ?_
      rw [List.getD_eq_getElem?_getD, List.getD_eq_getElem?_getD]
      have := hx k
      revert this
      rcases x[k]? with _ | v <;> rcases x'[k]? with _ | v' <;> intro this
      · simp
      · cases this
      · cases this
      · cases this with
        | some h => exact h
    rw [this]
    exact RelOk.rfl' (fun _ => rfl) _
  · show RelOk (VR (sgnOf s nb.items)) (SR.Factor.deriv lib pars (.normal nb) x)
      (SR.Factor.deriv lib pars' (.normal nb) x')
    rw [SR.Factor.deriv, SR.Factor.deriv]
    refine (vec_flip hx nb.items.length).bind ?_
    rintro v _ rfl
    refine RelOk.ok ?_
    have := evaluateDerivative_flip (hs.of nb.items) nb.normal v
    rw [hn] at this
    have h2 := VR.ofFn (sgnOf s nb.items) (nb.normal.evaluateDerivative v)
    rw [← this] at h2
    exact h2
  · show RelOk (MR (sgnOf s nb.items)) (SR.Factor.hess lib pars (.normal nb) x) (SR.Factor.hess lib pars' (.normal nb) x')
    rw [SR.Factor.hess, SR.Factor.hess]
    refine (vec_flip hx nb.items.length).bind ?_
    rintro v _ rfl
    refine RelOk.ok ?_
    have := evaluateSecondDerivative_flip (σ := sgnOf s nb.items) nb.normal
    rw [hn] at this
    have h2 := MR.rows (sgnOf s nb.items) nb.normal.evaluateSecondDerivative
    rw [← this] at h2
    exact h2

theorem standard_flip (hs : IsSignZ s) (k : ℤ) (c precision : ℝ) :
    flipNB s ⟨[k], MN.ofMeanPrecision (fun _ => 0) (Matrix.of fun _ _ => precision), c⟩ =
      ⟨[k], MN.ofMeanPrecision (fun _ => 0) (Matrix.of fun _ _ => precision), c⟩ := by
  unfold flipNB
  dsimp only
  rw [← ofMeanPrecision_flip (hs.of [k])]
  congr 2
  · funext i
    exact mul_zero _
  · ext i j
    have hi : (i : ℕ) = 0 := by have := i.2; simp only [List.length_singleton] at this; omega
    have hj : (j : ℕ) = 0 := by have := j.2; simp only [List.length_singleton] at this; omega
    show sgnOf s [k] i * precision * sgnOf s [k] j = precision
    rw [hi, hj]
    linear_combination precision * (hs.of [k]).sq 0

/-- A change of sign of the linear predictor's arguments changes the signs of its coefficients. -/
theorem design_flip {τ : ℝ} (hτ : τ * τ = 1) {σ : ℕ → ℝ} {d m k k' : ℕ} (hσ : IsSign σ)
    {D : Data d m k} {D' : Data d m k'} {theta beta theta' beta' : List ℝ}
    (h : ∀ v, GLMM.Spec.eta D theta beta v =
      fun i => τ * GLMM.Spec.eta D' theta' beta' (fv σ v) i) (r : Fin d) (i : Fin m) :
    GLMM.Spec.design D' theta' r i = τ * (σ r * GLMM.Spec.design D theta r i) := by
  have h0 := congrFun (h 0) i
  have h1 := congrFun (h (Pi.single r 1)) i
  simp only [GLMM.Spec.eta, fv, Pi.zero_apply, mul_zero, Finset.sum_const_zero, add_zero] at h0
  simp only [GLMM.Spec.eta, fv, h0, Pi.single_apply, mul_ite, mul_one, mul_zero, Finset.sum_ite_eq',
    Finset.mem_univ, if_true, mul_add] at h1
  have h2 := add_left_cancel h1
  rw [h2]
  linear_combination (-GLMM.Spec.design D' theta' r i * (τ * τ)) * hσ.sq r -
    GLMM.Spec.design D' theta' r i * hτ

theorem glmm_rel {τ : ℝ} (hτ : τ * τ = 1) (lib : SR.Lib) {pars pars' : Parameters}
    (hf : pars.family = pars'.family) (ht : Turns τ pars'.family)
    {d m k k' : ℕ} {D : Data d m k} {D' : Data d m k'} (hn : D.entries.Nodup)
    (hn' : D'.entries.Nodup) (hfit : GLMM.Spec.Fit D pars.theta pars.beta)
    (hfit' : GLMM.Spec.Fit D' pars'.theta pars'.beta)
    (hr : D.response = fun i => turn τ (D'.response i)) (hw : D.weights = D'.weights) (items : List ℤ) (hs : IsSignZ s)
    (he : ∀ v, GLMM.Spec.eta D pars.theta pars.beta v =
      fun i => τ * GLMM.Spec.eta D' pars'.theta pars'.beta (fv (sgnOf s items) v) i)
    {b : GLMM.Belief d m k} {b' : GLMM.Belief d m k'} (hb : GLMM.Inv D b) (hb' : GLMM.Inv D' b') :
    FRel s (SR.Factor.ops lib pars) (SR.Factor.ops lib pars') (.glmm items d m k b)
      (.glmm items d m k' b') := by
  have hd := design_flip hτ (hs.of items) he
  refine ⟨rfl, fun x x' hx => ?_, fun x x' hx => ?_, fun x x' hx => ?_⟩
  · show RelOk Eq (SR.Factor.eval lib pars (.glmm items d m k b) x)
      (SR.Factor.eval lib pars' (.glmm items d m k' b') x')
    rw [SR.Factor.eval, SR.Factor.eval]
    refine (vec_flip hx d).bind ?_
    rintro v _ rfl
    obtain ⟨c, -, e⟩ := evaluate_inv hn hb hfit v
    obtain ⟨c', -, e'⟩ := evaluate_inv hn' hb' hfit' (fv (sgnOf s items) v)
    show RelOk Eq (GLMM.evaluate b v pars >>= _)
      (GLMM.evaluate b' (fv (sgnOf s items) v) pars' >>= _)
    simp only [e, e', GLMM.Spec.value, hf, he, hr, hw, ht.value]
    rcases pars'.family.evaluate _ _ _ with e | w
    · exact RelOk.errL _ _
    · exact RelOk.ok rfl
  · show RelOk (VR (sgnOf s items)) (SR.Factor.deriv lib pars (.glmm items d m k b) x)
      (SR.Factor.deriv lib pars' (.glmm items d m k' b') x')
    rw [SR.Factor.deriv, SR.Factor.deriv]
    refine (vec_flip hx d).bind ?_
    rintro v _ rfl
    obtain ⟨c, -, e⟩ := derivative_inv hn hb hfit v
    obtain ⟨c', -, e'⟩ := derivative_inv hn' hb' hfit' (fv (sgnOf s items) v)
    show RelOk _ (GLMM.evaluateDerivative b v pars >>= _)
      (GLMM.evaluateDerivative b' (fv (sgnOf s items) v) pars' >>= _)
    simp only [e, e', GLMM.Spec.gradient, hf, he, hr, hw, ht.deriv]
    rcases pars'.family.evaluateDerivative _ _ _ with e | w
    · exact RelOk.errL _ _
    refine RelOk.ok (α := List ℝ) (β := List ℝ) ?_
    have : (fun r => ∑ i, GLMM.Spec.design D' pars'.theta r i * w i) =
        fv (sgnOf s items) fun r => ∑ i, GLMM.Spec.design D pars.theta r i * (τ * w i) := by
      funext r
      simp only [fv, Finset.mul_sum, hd]
      exact Finset.sum_congr rfl fun i _ => by ring
    dsimp only
    rw [this]
    exact VR.ofFn _ _
  · show RelOk (MR (sgnOf s items)) (SR.Factor.hess lib pars (.glmm items d m k b) x)
      (SR.Factor.hess lib pars' (.glmm items d m k' b') x')
    rw [SR.Factor.hess, SR.Factor.hess]
    refine (vec_flip hx d).bind ?_
    rintro v _ rfl
    obtain ⟨c, -, e⟩ := second_inv hn hb hfit v
    obtain ⟨c', -, e'⟩ := second_inv hn' hb' hfit' (fv (sgnOf s items) v)
    show RelOk _ (GLMM.evaluateSecondDerivative b v pars >>= _)
      (GLMM.evaluateSecondDerivative b' (fv (sgnOf s items) v) pars' >>= _)
    simp only [e, e', GLMM.Spec.hessian, hf, he, hr, hw, ht.second]
    rcases pars'.family.evaluateSecondDerivative _ _ _ with e | w
    · exact RelOk.errL _ _
    refine RelOk.ok (α := List (List ℝ)) (β := List (List ℝ)) ?_
    have : (Matrix.of fun r t => ∑ i, GLMM.Spec.design D' pars'.theta r i * w i *
          GLMM.Spec.design D' pars'.theta t i) = fm (sgnOf s items) (Matrix.of fun r t =>
        ∑ i, GLMM.Spec.design D pars.theta r i * w i * GLMM.Spec.design D pars.theta t i) := by
      ext r t
      simp only [fm, Matrix.of_apply, Finset.mul_sum, Finset.sum_mul, hd]
      exact Finset.sum_congr rfl fun i _ => by
        linear_combination (sgnOf s items r * GLMM.Spec.design D pars.theta r i * w i *
          (sgnOf s items t * GLMM.Spec.design D pars.theta t i)) * hτ
    dsimp only
    rw [this]
    exact MR.rows _ _

end Verif.Sign
