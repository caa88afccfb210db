import Verif.Proofs.Reparam

/-!
# C98: the approximations depend on the parameters through the linear predictor only
-/
namespace Verif.Reparam

open Verif.Gauss Verif.Items Verif.Belief Verif.Param Verif.Param2 Verif.ClusterGraph Verif.DepGraph
open Verif.Split Verif.Reparam.Spec Verif.Pars Verif.GLMM Verif.Family

variable {q n p p' : ℕ} {M : ModFr q n p} {M' : ModFr q n p'}

/-! ## Sequential reduction -/

theorem same_zero (M : ModFr q n p) (M' : ModFr q n p') (a b a' b' : ℕ) :
    SamePredictor M M' (List.replicate a 0) (List.replicate b 0) (List.replicate a' 0)
      (List.replicate b' 0) := by
  have h : ∀ (k l : ℕ), (List.replicate k (0 : ℝ)).getD l 0 = 0 := by
    intro k l
    rw [List.getD_eq_getElem?_getD, List.getElem?_replicate]
    split <;> rfl
  intro u j
  simp only [Split.Spec.eta, Split.Spec.lambdat, h, ite_self, Finset.sum_const_zero, mul_zero, zero_mul]

theorem counted_of (h : SameData M M') : SameCounted M M' :=
  ⟨fun j _ => congrFun h.resp j, h.weight, h.active⟩

theorem match_of {nTheta nTheta' : ℕ} (pars : Parameters) {theta beta theta' beta' : List ℝ}
    (h1 : theta.length = nTheta) (h2 : theta'.length = nTheta') (h3 : beta.length = p)
    (h4 : beta'.length = p') (h : SamePredictorCounted M M' theta beta theta' beta') :
    Match M M' nTheta nTheta' { pars with theta := theta, beta := beta }
      { pars with theta := theta', beta := beta' } :=
  ⟨⟨rfl, rfl, rfl⟩, h1, h2, h3, h4, h⟩

theorem items_of {lib : SR.Lib} {pars pars' : Parameters} {c c' : CG (Mixed SR.Factor NB)}
    (h : CGRel (MixedRel (Same2 lib pars pars')) c c') :
    c.clusters.map Mixed.items = c'.clusters.map Mixed.items := by
  have : List.Forall₂ (fun a b : Mixed SR.Factor NB => a.items = b.items) c.clusters c'.clusters :=
    h.1.imp fun a b h => h.items
  generalize c.clusters = l at this ⊢
  generalize c'.clusters = l' at this ⊢
  induction this with
  | nil => rfl
  | cons h _ ih => simp [h, ih]

theorem findLfunSR_both (h : SameCounted M M') (hc : Split.Spec.Covered M) {nTheta nTheta' : ℕ}
    (hM : Split.Spec.WellFormed M nTheta) (hM' : Split.Spec.WellFormed M' nTheta') {lib : SR.Lib}
    (hrd : SR.Reads lib.rd M) (hrd' : SR.Reads lib.rd M') (env : Env) (family link : String)
    (nSL nAGQ : ℝ) :
    RelRes (fun r r' => r.1 = r'.1 ∧
        r.2.clusters.map Mixed.items = r'.2.clusters.map Mixed.items ∧
        ∀ pars pars', Match M M' nTheta nTheta' pars pars' →
          CGRel (MixedRel (Same2 lib pars pars')) r.2 r'.2)
      (Lfun.findLfunSR lib env M family link nSL nAGQ)
      (Lfun.findLfunSR lib env M' family link nSL nAGQ) := by
  obtain ⟨bs, bs', e1, e2, hbs⟩ := beliefs_both h hc hM hM' hrd hrd'
  unfold Lfun.findLfunSR
  rcases Lfun.checkModfrSR family link with e | u
  · exact .err e
  rw [e1, e2]
  simp only [res_ok_bind]
  rcases Lfun.calibrationPars env family link nSL nAGQ with e | pars
  · exact .err e
  simp only [res_ok_bind]
  have hrel : ∀ p1 p2, Match M M' nTheta nTheta' p1 p2 →
      RelRes (CGRel (MixedRel (Same2 lib p1 p2))) (ofBeliefs lib.ar (SR.ops lib pars) bs)
        (ofBeliefs lib.ar (SR.ops lib pars) bs') := by
    intro p1 p2 hm
    have := ofBeliefs_rel2 (ar := lib.ar) (ops_rel2 (no := NB.ops) (same2_good lib hm.rules)) (hbs p1 p2 hm)
    rw [Reorder.ofBeliefs_pars lib pars p1, Reorder.ofBeliefs_pars lib pars p2]
    exact this
  have h0 : Match M M' nTheta nTheta' { pars with
      theta := List.replicate nTheta 0, beta := List.replicate p 0 } { pars with
      theta := List.replicate nTheta' 0, beta := List.replicate p' 0 } :=
    match_of pars (by simp) (by simp) (by simp) (by simp) fun u j _ => same_zero M M' _ _ _ _ u j
  have key := hrel _ _ h0
  generalize hr : ofBeliefs lib.ar (SR.ops lib pars) bs = r at key hrel ⊢
  generalize hr' : ofBeliefs lib.ar (SR.ops lib pars) bs' = r' at key hrel ⊢
  cases key with
  | err e => exact .err e
  | @ok c c' hcc =>
    simp only [res_ok_bind]
    rw [show width (SR.ops lib pars) c = width (SR.ops lib pars) c' from
      Reorder.width_items (items_of hcc)]
    split_ifs
    · exact .err _
    · refine .ok ⟨rfl, items_of hcc, fun p1 p2 hm => ?_⟩
      cases hrel p1 p2 hm with
      | ok h => exact h

/-- C103, sequential reduction: what the responses, covariates and random effects design are for
observations of weight 0 does not matter. The two model frames are refused with the same error, or their cluster
graphs have the same clusters and sequences of calls of the approximate log-likelihoods have the same
results, wherever the parameters give the same linear predictors of the other observations and `lme4`
the same modes. -/
theorem c103 (h : SameCounted M M') (hc : Split.Spec.Covered M) {nTheta nTheta' : ℕ}
    (hM : Split.Spec.WellFormed M nTheta) (hM' : Split.Spec.WellFormed M' nTheta')
    (h1 : 1 ≤ nTheta) (h1' : 1 ≤ nTheta') {lib : SR.Lib} (hrd : SR.Reads lib.rd M)
    (hrd' : SR.Reads lib.rd M') (env : Env) (family link : String) (nSL nAGQ : ℝ) :
    (∃ e, Lfun.findLfunSR lib env M family link nSL nAGQ = Except.error e ∧
      Lfun.findLfunSR lib env M' family link nSL nAGQ = Except.error e) ∨
    ∃ pars c c', Lfun.findLfunSR lib env M family link nSL nAGQ = Except.ok (pars, c) ∧
      Lfun.findLfunSR lib env M' family link nSL nAGQ = Except.ok (pars, c') ∧
      c.clusters.map Mixed.items = c'.clusters.map Mixed.items ∧
      ∀ (devfun devfun' : List ℝ → Res (ℝ × Lfun.PP q)) (xs xs' : List (List ℝ)),
        List.Forall₂ (fun x x' => ∃ theta beta theta' beta', x = theta ++ beta ∧
          x' = theta' ++ beta' ∧ theta.length = nTheta ∧ beta.length = p ∧
          theta'.length = nTheta' ∧ beta'.length = p' ∧
          SamePredictorCounted M M' theta beta theta' beta' ∧ devfun x = devfun' x') xs xs' →
        Lfun.calls lib p nTheta c devfun xs pars = Lfun.calls lib p' nTheta' c' devfun' xs' pars := by
  have key := findLfunSR_both h hc hM hM' hrd hrd' env family link nSL nAGQ
  generalize Lfun.findLfunSR lib env M family link nSL nAGQ = r at key ⊢
  generalize Lfun.findLfunSR lib env M' family link nSL nAGQ = r' at key ⊢
  cases key with
  | err e => exact .inl ⟨e, rfl, rfl⟩
  | @ok r r' hr =>
    obtain ⟨pars, c⟩ := r
    obtain ⟨pars', c'⟩ := r'
    obtain ⟨rfl, hi, hr⟩ := hr
    refine .inr ⟨pars, c, c', rfl, rfl, hi, fun devfun devfun' xs xs' hxs => ?_⟩
    rw [Lfun.c81_history, Lfun.c81_history]
    induction hxs with
    | nil => rfl
    | cons hx _ ih =>
      rw [List.map_cons, List.map_cons, ih]
      congr 1
      obtain ⟨theta, beta, theta', beta', rfl, rfl, l1, l2, l3, l4, hs, hd⟩ := hx
      rw [Lfun.exec_lfun, Lfun.exec_lfun]
      have t1 : (theta ++ beta).length = p + nTheta := by rw [List.length_append]; omega
      have t2 : (theta' ++ beta').length = p' + nTheta' := by rw [List.length_append]; omega
      have a1 : Lfun.assign nTheta (theta ++ beta) pars =
          { pars with theta := theta, beta := beta } := by
        unfold Lfun.assign Lfun.takeTheta Lfun.dropTheta
        rw [max_eq_right h1, ← l1, List.take_left, List.drop_left]
      have a2 : Lfun.assign nTheta' (theta' ++ beta') pars =
          { pars with theta := theta', beta := beta' } := by
        unfold Lfun.assign Lfun.takeTheta Lfun.dropTheta
        rw [max_eq_right h1', ← l3, List.take_left, List.drop_left]
      have hm := match_of pars l1 l3 l2 l4 hs
      unfold Lfun.value Lfun.checkedValue
      simp only [ne_eq, t1, t2, not_true_eq_false, if_false, a1, a2, hd,
        computeLogNormalizingConstant_rel2 hm.rules (hr _ _ hm)]

/-- C98, sequential reduction: the two model frames are refused with the same error, or their cluster
graphs have the same clusters and sequences of calls of the approximate log-likelihoods have the same
results, wherever the parameters give the same linear predictors and `lme4` the same modes. -/
theorem c98 (h : SameData M M') (hc : Split.Spec.Covered M) {nTheta nTheta' : ℕ}
    (hM : Split.Spec.WellFormed M nTheta) (hM' : Split.Spec.WellFormed M' nTheta')
    (h1 : 1 ≤ nTheta) (h1' : 1 ≤ nTheta') {lib : SR.Lib} (hrd : SR.Reads lib.rd M)
    (hrd' : SR.Reads lib.rd M') (env : Env) (family link : String) (nSL nAGQ : ℝ) :
    (∃ e, Lfun.findLfunSR lib env M family link nSL nAGQ = Except.error e ∧
      Lfun.findLfunSR lib env M' family link nSL nAGQ = Except.error e) ∨
    ∃ pars c c', Lfun.findLfunSR lib env M family link nSL nAGQ = Except.ok (pars, c) ∧
      Lfun.findLfunSR lib env M' family link nSL nAGQ = Except.ok (pars, c') ∧
      c.clusters.map Mixed.items = c'.clusters.map Mixed.items ∧
      ∀ (devfun devfun' : List ℝ → Res (ℝ × Lfun.PP q)) (xs xs' : List (List ℝ)),
        List.Forall₂ (fun x x' => ∃ theta beta theta' beta', x = theta ++ beta ∧
          x' = theta' ++ beta' ∧ theta.length = nTheta ∧ beta.length = p ∧
          theta'.length = nTheta' ∧ beta'.length = p' ∧
          SamePredictor M M' theta beta theta' beta' ∧ devfun x = devfun' x') xs xs' →
        Lfun.calls lib p nTheta c devfun xs pars = Lfun.calls lib p' nTheta' c' devfun' xs' pars := by
  rcases c103 (counted_of h) hc hM hM' h1 h1' hrd hrd' env family link nSL nAGQ with
    h | ⟨pars, c, c', e1, e2, hi, h⟩
  · exact .inl h
  · refine .inr ⟨pars, c, c', e1, e2, hi, fun devfun devfun' xs xs' hxs => h devfun devfun' xs xs'
      (hxs.imp ?_)⟩
    rintro x x' ⟨theta, beta, theta', beta', a1, a2, a3, a4, a5, a6, hs, hd⟩
    exact ⟨theta, beta, theta', beta', a1, a2, a3, a4, a5, a6, fun u j _ => hs u j, hd⟩

/-! ## The other approximations -/

/-- C98, the model: the log-integrand is the same function. -/
theorem c98_integrand (h : SameData M M') (μ : ℝ → ℝ) {theta beta theta' beta' : List ℝ}
    (hs : SamePredictor M M' theta beta theta' beta') :
    Split.Spec.logIntegrand M μ theta beta = Split.Spec.logIntegrand M' μ theta' beta' := by
  funext u
  unfold Split.Spec.logIntegrand
  simp only [hs u, h.resp, h.weight]

/-- C98, importance sampling with the same samples and normal approximation. -/
theorem c98_IS (h : SameData M M') (fam : IS.Fam) {theta beta theta' beta' : List ℝ}
    (hs : SamePredictor M M' theta beta theta' beta') (hM : Split.Spec.WellFormed M theta.length)
    (hM' : Split.Spec.WellFormed M' theta'.length) (ht : theta ≠ []) (ht' : theta' ≠ [])
    (hb : beta.length = p) (hb' : beta'.length = p') {r : ℕ}
    (chol : Matrix (Fin q) (Fin q) ℝ → Matrix (Fin q) (Fin q) ℝ) (approx : IS.NormalApprox q)
    (z : Matrix (Fin q) (Fin r) ℝ) :
    IS.lfun chol fam M theta.length approx z (theta ++ beta) =
      IS.lfun chol fam M' theta'.length approx z (theta' ++ beta') := by
  obtain ⟨f, hf, hv⟩ := IS.findLogIntegrand_ok fam hM ht hb
  obtain ⟨f', hf', hv'⟩ := IS.findLogIntegrand_ok fam hM' ht' hb'
  have : f r = f' r := by
    funext u s
    rw [hv, hv']
    unfold IS.Spec.logIntegrand
    simp only [hs _, h.resp, h.weight]
  unfold IS.lfun
  rw [hf, hf', res_ok_bind, res_ok_bind, this]

theorem design_same {theta beta theta' beta' : List ℝ}
    (hs : SamePredictor M M' theta beta theta' beta') :
    (Matrix.of fun i c => Split.Spec.lambdat M theta i c) * M.Zt =
      (Matrix.of fun i c => Split.Spec.lambdat M' theta' i c) * M'.Zt := by
  ext r j
  have h0 := hs 0 j
  have h1 := hs (Pi.single r 1) j
  simp only [Split.Spec.eta, Pi.zero_apply, mul_zero, Finset.sum_const_zero, add_zero] at h0
  simp only [Split.Spec.eta, h0, Pi.single_apply, mul_ite, mul_one, mul_zero, Finset.sum_ite_eq',
    Finset.mem_univ, if_true] at h1
  simp only [Matrix.mul_apply, Matrix.of_apply]
  exact add_left_cancel h1

/-- C98, Laplace approximation of second order: the correction is the same. -/
theorem c98_hol (h : SameData M M') {theta beta theta' beta' : List ℝ}
    (hs : SamePredictor M M' theta beta theta' beta') (hM : Split.Spec.WellFormed M theta.length)
    (hM' : Split.Spec.WellFormed M' theta'.length) (ht : theta ≠ []) (ht' : theta' ≠ [])
    (hb : beta.length = p) (hb' : beta'.length = p') (family link : String)
    (approx : IS.NormalApprox q) :
    Hol.findEpsilon1 family link (theta ++ beta) M theta.length approx =
      Hol.findEpsilon1 family link (theta' ++ beta') M' theta'.length approx := by
  have hm : Hol.findM (theta ++ beta) M theta.length approx =
      Hol.findM (theta' ++ beta') M' theta'.length approx := by
    unfold Hol.findM
    rw [IS.findLambdatThetaZt_ok beta hM ht, IS.findLambdatThetaZt_ok beta' hM' ht',
      design_same hs]
  have he : Split.Spec.eta M theta beta approx.mean = Split.Spec.eta M' theta' beta' approx.mean :=
    funext (hs _)
  unfold Hol.findEpsilon1
  simp only [Hol.etaHat_eq hM ht hb, Hol.etaHat_eq hM' ht' hb', IS.weightsOf_eq, h.weight, h.resp, he,
    hm]

/-! ## Reparametrisations that occur -/

/-- The fixed effects of other covariates: each new covariate is a linear combination of the given
ones. -/
noncomputable def recode (M : ModFr q n p) (A : Matrix (Fin p) (Fin p') ℝ) : ModFr q n p' where
  X := M.X * A
  Zt := M.Zt
  ztStored := M.ztStored
  lambdat := M.lambdat
  Lind := M.Lind
  resp := M.resp
  weights := M.weights
  offset := M.offset

theorem recode_data (M : ModFr q n p) (A : Matrix (Fin p) (Fin p') ℝ) : SameData M (recode M A) where
  resp := rfl
  weight := rfl
  active _ := rfl

theorem recode_wf (A : Matrix (Fin p) (Fin p') ℝ) {size : ℕ} (h : Split.Spec.WellFormed M size) :
    Split.Spec.WellFormed (recode M A) size :=
  ⟨h.nodup, h.diag, h.length, h.lind, h.zt⟩

/-- Centring or scaling a covariate, or another coding of a factor: the coefficients `A b'` of the
given covariates have the same linear predictor as `b'`. -/
theorem recode_predictor (M : ModFr q n p) (A : Matrix (Fin p) (Fin p') ℝ) (theta beta' : List ℝ) :
    SamePredictor M (recode M A) theta
      (List.ofFn fun k => ∑ l, A k l * beta'.getD l 0) theta beta' := by
  intro u j
  unfold Split.Spec.eta
  congr 1
  have : ∀ k : Fin p, (List.ofFn fun k => ∑ l, A k l * beta'.getD l 0).getD k 0 =
      ∑ l, A k l * beta'.getD l 0 := fun k => by
    rw [List.getD_eq_getElem _ _ (by simp), List.getElem_ofFn]
  simp only [this, recode, Matrix.mul_apply, Finset.sum_mul, Finset.mul_sum]
  rw [Finset.sum_comm]
  exact Finset.sum_congr rfl fun l _ => Finset.sum_congr rfl fun k _ => by ring

/-- All covariates of the random effects in another unit. -/
noncomputable def rescale (M : ModFr q n p) (s : ℝ) : ModFr q n p :=
  { M with Zt := s • M.Zt }

theorem rescale_data (M : ModFr q n p) (s : ℝ) : SameData M (rescale M s) where
  resp := rfl
  weight := rfl
  active _ := rfl

theorem rescale_wf (s : ℝ) {size : ℕ} (h : Split.Spec.WellFormed M size) :
    Split.Spec.WellFormed (rescale M s) size :=
  ⟨h.nodup, h.diag, h.length, h.lind, fun c j hz => h.zt c j (right_ne_zero_of_mul hz)⟩

/-- Variance parameters in the unit of the random effects. -/
theorem rescale_predictor (M : ModFr q n p) {s : ℝ} (hs : s ≠ 0) (theta beta : List ℝ) :
    SamePredictor M (rescale M s) theta beta (theta.map (· / s)) beta := by
  have hg : ∀ k, (theta.map (· / s)).getD k 0 = theta.getD k 0 / s := by
    intro k
    rw [List.getD_eq_getElem?_getD, List.getD_eq_getElem?_getD, List.getElem?_map]
    rcases theta[k]? with _ | v
    · simp
    · rfl
  have hl : ∀ r c, Split.Spec.lambdat (rescale M s) (theta.map (· / s)) r c =
      Split.Spec.lambdat M theta r c / s := by
    intro r c
    unfold Split.Spec.lambdat
    rw [Finset.sum_div]
    refine Finset.sum_congr rfl fun k _ => ?_
    simp only [hg, ite_div, zero_div]
    rfl
  intro u j
  unfold Split.Spec.eta
  congr 1
  refine Finset.sum_congr rfl fun r _ => ?_
  congr 1
  refine Finset.sum_congr rfl fun c _ => ?_
  rw [hl]
  simp only [rescale, Matrix.smul_apply, smul_eq_mul]
  field_simp

/-- C98 for other covariates: for every coding of the fixed effects the approximate log-likelihood at
`(theta, b')` is that of the given coding at `(theta, A b')`. -/
theorem c98_recode (M : ModFr q n p) (A : Matrix (Fin p) (Fin p') ℝ) (hc : Split.Spec.Covered M)
    {nTheta : ℕ} (hM : Split.Spec.WellFormed M nTheta) (h1 : 1 ≤ nTheta) {lib : SR.Lib}
    (hrd : SR.Reads lib.rd M) (env : Env) (family link : String) (nSL nAGQ : ℝ) :
    (∃ e, Lfun.findLfunSR lib env M family link nSL nAGQ = Except.error e ∧
      Lfun.findLfunSR lib env (recode M A) family link nSL nAGQ = Except.error e) ∨
    ∃ pars c c', Lfun.findLfunSR lib env M family link nSL nAGQ = Except.ok (pars, c) ∧
      Lfun.findLfunSR lib env (recode M A) family link nSL nAGQ = Except.ok (pars, c') ∧
      ∀ (devfun devfun' : List ℝ → Res (ℝ × Lfun.PP q)) (theta beta' : List ℝ),
        theta.length = nTheta → beta'.length = p' →
        devfun (theta ++ List.ofFn fun k => ∑ l, A k l * beta'.getD l 0) =
          devfun' (theta ++ beta') →
        ((Lfun.lfun lib p nTheta c devfun
            (theta ++ List.ofFn fun k => ∑ l, A k l * beta'.getD l 0)).exec pars).1 =
          ((Lfun.lfun lib p' nTheta c' devfun' (theta ++ beta')).exec pars).1 := by
  rcases c98 (recode_data M A) hc hM (recode_wf A hM) h1 h1 hrd ⟨hrd.inside, hrd.beyond⟩ env family
    link nSL nAGQ with h | ⟨pars, c, c', e1, e2, -, h⟩
  · exact .inl h
  · refine .inr ⟨pars, c, c', e1, e2, fun devfun devfun' theta beta' l1 l2 hd => ?_⟩
    have := h devfun devfun' [_] [_] (.cons ⟨theta, _, theta, beta', rfl, rfl, l1, by simp, l1, l2,
      recode_predictor M A theta beta', hd⟩ .nil)
    rw [Lfun.c81_history, Lfun.c81_history] at this
    exact (List.cons.inj this).1

/-! ## Cases -/

/-- The chain of Props/Reorder with an intercept beside its covariate 1, 2, 3. -/
noncomputable def trend : ModFr 3 3 2 :=
  { Reorder.chain with X := !![1, 1; 1, 2; 1, 3] }

theorem trend_covered : Split.Spec.Covered trend := Reorder.chain_covered

theorem trend_wf : Split.Spec.WellFormed trend 1 :=
  let h := Reorder.chain_wf
  ⟨h.nodup, h.diag, h.length, h.lind, h.zt⟩

/-- Centring the covariate at 2 and halving its unit: `b0 = a0 - 2 * a1 / 2`, `b1 = a1 / 2`. -/
noncomputable def centre : Matrix (Fin 2) (Fin 2) ℝ := !![1, -1; 0, 1 / 2]

example : (recode trend centre).X = !![1, -1 / 2; 1, 0; 1, 1 / 2] := by
  ext i k
  fin_cases i <;> fin_cases k <;> norm_num [recode, trend, centre, Matrix.mul_apply, Fin.sum_univ_two]

example : SamePredictor trend (recode trend centre) [2] [1 - 3, 3 / 2] [2] [1, 3] := by
  have := recode_predictor trend centre [2] [1, 3]
  simp only [centre, Fin.sum_univ_two, List.ofFn_succ, List.ofFn_zero] at this
  norm_num at this ⊢
  exact this

/-- The frames give the same value, or the same error. -/
example (lib : SR.Lib) (hrd : lib.rd = GLMM.read) (env : Env) (nSL nAGQ : ℝ) :
    (∃ e, Lfun.findLfunSR lib env trend "binomial" "logit" nSL nAGQ = Except.error e ∧
      Lfun.findLfunSR lib env (rescale trend 2) "binomial" "logit" nSL nAGQ = Except.error e) ∨
    ∃ pars c c', Lfun.findLfunSR lib env trend "binomial" "logit" nSL nAGQ = Except.ok (pars, c) ∧
      Lfun.findLfunSR lib env (rescale trend 2) "binomial" "logit" nSL nAGQ = Except.ok (pars, c') ∧
      ∀ devfun devfun' : List ℝ → Res (ℝ × Lfun.PP 3), devfun [6, 1, 4] = devfun' [3, 1, 4] →
        Lfun.calls lib 2 1 c devfun [[6, 1, 4]] pars =
          Lfun.calls lib 2 1 c' devfun' [[3, 1, 4]] pars := by
  have hr : ∀ {k : ℕ} (F : ModFr 3 3 k), F.Lind = [1, 1, 1] → SR.Reads lib.rd F := fun F hF => by
    rw [hrd]; exact ⟨fun _ _ _ _ => rfl, Or.inl (by simp [hF])⟩
  rcases c98 (rescale_data trend 2) trend_covered trend_wf (rescale_wf 2 trend_wf) le_rfl le_rfl
    (hr _ rfl) (hr _ rfl) env "binomial" "logit" nSL nAGQ with h | ⟨pars, c, c', e1, e2, -, h⟩
  · exact .inl h
  · refine .inr ⟨pars, c, c', e1, e2, fun devfun devfun' hd => h _ _ _ _ (.cons
      ⟨[6], [1, 4], [3], [1, 4], rfl, rfl, rfl, rfl, rfl, rfl, ?_, hd⟩ .nil)⟩
    have := rescale_predictor trend (two_ne_zero) [6] [1, 4]
    norm_num at this
    exact this

end Verif.Reparam
