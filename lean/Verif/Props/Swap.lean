import Verif.Props.SignChange

/-!
# C101: successes and failures may be exchanged
-/
namespace Verif.Sign

open Verif.Gauss Verif.Items Verif.Belief Verif.ClusterGraph Verif.Reorder Verif.Param Verif.Param2
open Verif.DepGraph Verif.Split Verif.Pars Verif.GLMM Verif.Family Verif.Reparam.Spec Verif.Sign.Spec
open Verif.Spec Verif.BasisLevel Verif.Point Verif.NormalQuantile Verif.SR Verif.Counting Verif.SparseGrid
open Matrix

variable {q n p p' : ℕ} {M : ModFr q n p} {M' : ModFr q n p'} {s : Fin q → ℝ}

/-- Parameters of the two model frames in matching calls: the linear predictors differ by the sign, and
by the signs of the random effects. -/
def SwapCall (s : Fin q → ℝ) (M : ModFr q n p) (M' : ModFr q n p') (nTheta nTheta' : ℕ)
    (devfun devfun' : List ℝ → Res (ℝ × Lfun.PP q)) (x x' : List ℝ) : Prop :=
  ∃ theta beta theta' beta', x = theta ++ beta ∧ x' = theta' ++ beta' ∧ theta.length = nTheta ∧
    beta.length = p ∧ theta'.length = nTheta' ∧ beta'.length = p' ∧
    SwapPredictor s M M' theta beta theta' beta' ∧ MirrorDevfun s (devfun x) (devfun' x')

/-- C101. Two model frames with successes and failures exchanged whose linear predictors differ by the
sign: both are refused with the same error, or for both the log-likelihood function can be made, and
matching calls return the same value or raise the same error. -/
theorem c101 {link : String} {μ : ℝ → ℝ} (hl : IsLink link μ) (hsg : Signs s) (h : SwapData M M')
    (hc : Split.Spec.Covered M) {nTheta nTheta' : ℕ} (hM : Split.Spec.WellFormed M nTheta)
    (hM' : Split.Spec.WellFormed M' nTheta') (hq' : q ≤ 46341) (hn : 1 ≤ nTheta) (hn' : 1 ≤ nTheta')
    {lib : Lib} (har : lib.ar = i32) (haru : lib.aru = u32) (hrd : Reads lib.rd M)
    (hrd' : Reads lib.rd M') (hlib : ∀ d p, Quad.IsEigen p (lib.eig d p).1 (lib.eig d p).2)
    (hsol : ∀ d, SignSolver (lib.solve d)) {Qf : ℝ → ℝ} (hQ : IsNormalQuantile Qf)
    {eig : Eigensolver} {k m : ℕ} (hk : 1 ≤ k) (hk' : k ≤ 25) (hm : m + 1 < 2 ^ 31)
    (heig : Quad.IsEigen (Quad.hermiteJacobi (m + 1)) (eig _ (Quad.hermiteJacobi (m + 1))).1
      (eig _ (Quad.hermiteJacobi (m + 1))).2) :
    (∃ e, Lfun.findLfunSR lib ⟨i32, Qf, eig⟩ M "binomial" link k ((m + 1 : ℕ) : ℝ) = Res.raise e ∧
      Lfun.findLfunSR lib ⟨i32, Qf, eig⟩ M' "binomial" link k ((m + 1 : ℕ) : ℝ) = Res.raise e) ∨
    ∃ pars c c',
      Lfun.findLfunSR lib ⟨i32, Qf, eig⟩ M "binomial" link k ((m + 1 : ℕ) : ℝ) =
        Except.ok (pars, c) ∧
      Lfun.findLfunSR lib ⟨i32, Qf, eig⟩ M' "binomial" link k ((m + 1 : ℕ) : ℝ) =
        Except.ok (pars, c') ∧
      ∀ (devfun devfun' : List ℝ → Res (ℝ × Lfun.PP q)) (xs xs' : List (List ℝ)),
        List.Forall₂ (fun x x' => SwapCall s M M' nTheta nTheta' devfun devfun' x x' ∧
          Regular M nTheta devfun x) xs xs' →
        Lfun.calls lib p nTheta c devfun xs pars =
          Lfun.calls lib p' nTheta' c' devfun' xs' pars := by
  rcases turn_all (by norm_num) hl hsg (turn_swap h) (fun f hf => turns_binomial hf) hc hM hM' hq' hn
    hn' har haru hrd hrd' hlib hsol hQ hk hk' hm heig with he | ⟨pars, c, c', h1, h2, h3⟩
  · exact Or.inl he
  · refine Or.inr ⟨pars, c, c', h1, h2, fun devfun devfun' xs xs' hxs => h3 devfun devfun' xs xs'
      (hxs.imp fun x x' hx => ⟨?_, hx.2⟩)⟩
    obtain ⟨theta, beta, theta', beta', a1, a2, a3, a4, a5, a6, a7, a8⟩ := hx.1
    exact ⟨theta, beta, theta', beta', a1, a2, a3, a4, a5, a6, fun u j => by
      rw [a7 u j, neg_one_mul, neg_neg], a8⟩

/-! ## The family -/

/-- C101, the binomial family: exchanging successes and failures and the sign of the linear predictor
keeps the value and the second derivatives and changes the sign of the first derivatives. -/
theorem c101_family {link : String} {f : Family}
    (h : Family.ofNames "binomial" link = Except.ok f) {m : ℕ} (eta resp w : Fin m → ℝ) :
    f.evaluate (-eta) (1 - resp) w = f.evaluate eta resp w ∧
    f.evaluateDerivative (-eta) (1 - resp) w =
      (f.evaluateDerivative eta resp w >>= fun v => pure (-v)) ∧
    f.evaluateSecondDerivative (-eta) (1 - resp) w = f.evaluateSecondDerivative eta resp w := by
  have e1 : (-eta) = fun i => -1 * eta i := by
    funext i
    exact (neg_one_mul _).symm
  have e2 : (1 - resp) = fun i => turn (-1) (resp i) := by
    funext i
    exact (turn_neg _).symm
  have ht := turns_binomial h
  rw [e1, e2]
  refine ⟨ht.value _ _ _, ?_, ht.second _ _ _⟩
  rw [ht.deriv]
  congr 1
  funext v
  refine congrArg Except.ok (funext fun i => ?_)
  exact neg_one_mul _

/-! ## The model -/

/-- C101, the model: the log-integrands of the two model frames are the same function up to the signs
of the random effects. -/
theorem c101_integrand (hsg : Signs s) (h : SwapData M M') {link : String} {μ : ℝ → ℝ}
    (hl : IsLink link μ) {theta beta theta' beta' : List ℝ}
    (hs : SwapPredictor s M M' theta beta theta' beta') (u : Fin q → ℝ) :
    Split.Spec.logIntegrand M' μ theta' beta' (fun r => s r * u r) =
      Split.Spec.logIntegrand M μ theta beta u := by
  have hμ : ∀ x, μ (-x) = 1 - μ x := by
    cases hl with
    | logit =>
      intro x
      have h0 := Real.exp_pos x
      have h1 : Real.exp x + 1 ≠ 0 := by positivity
      have h2 : 1 + Real.exp x ≠ 0 := by positivity
      unfold expit
      rw [neg_neg, Real.exp_neg]
      field_simp
      ring
    | probit =>
      rw [← normalCdf_eq]
      exact normalCdf_neg
  unfold Split.Spec.logIntegrand
  congr 1
  · refine Finset.sum_congr rfl fun j _ => ?_
    rw [hs u j, h.resp, ← h.weight]
    unfold logLik
    rw [hμ, sub_sub_cancel, sub_sub_cancel]
    ring
  · refine Finset.sum_congr rfl fun r _ => ?_
    dsimp only
    rcases hsg r with e | e
    · rw [e, one_mul]
    · rw [e, neg_one_mul, ProbabilityTheory.gaussianPDFReal, ProbabilityTheory.gaussianPDFReal, sub_zero, sub_zero,
        neg_sq]

/-! ## When the hypotheses hold -/

/-- The model frame with successes and failures exchanged. -/
noncomputable def swapped (M : ModFr q n p) : ModFr q n p := { M with resp := fun j => 1 - M.resp j }

theorem swapped_data (M : ModFr q n p) : SwapData M (swapped M) :=
  ⟨fun _ => rfl, rfl, fun _ => rfl⟩

theorem swapped_wf {nTheta : ℕ} (h : Split.Spec.WellFormed M nTheta) :
    Split.Spec.WellFormed (swapped M) nTheta :=
  ⟨h.nodup, h.diag, h.length, h.lind, h.zt⟩

/-- The fixed effects with the other sign. -/
theorem swapped_predictor (M : ModFr q n p) (theta beta : List ℝ) :
    SwapPredictor (fun _ => -1) M (swapped M) theta beta theta (beta.map fun b => -b) := by
  intro u j
  have h1 : Split.Spec.eta (swapped M) theta (beta.map fun b => -b) (fun r => -1 * u r) j =
      Split.Spec.eta M theta (beta.map fun b => -b) (fun r => -1 * u r) j := rfl
  have hb : ∀ k : ℕ, (beta.map fun b => -b).getD k 0 = -beta.getD k 0 := by
    intro k
    rw [List.getD_eq_getElem?_getD, List.getD_eq_getElem?_getD, List.getElem?_map]
    rcases beta[k]? with _ | b
    · exact neg_zero.symm
    · rfl
  rw [h1]
  simp only [Split.Spec.eta, hb, neg_one_mul, mul_neg, Finset.sum_neg_distrib]
  ring

/-- Laplace approximations with the same weights and modes that differ by the signs. -/
theorem swap_laplace (hs : Signs s) {theta beta theta' beta' : List ℝ}
    (h : SwapPredictor s M M' theta beta theta' beta') {W : Fin n → ℝ} {d d' : ℝ}
    {r r' : Lfun.PP q} (hL : Lfun.Laplace M theta W r) (hL' : Lfun.Laplace M' theta' W r')
    (hmode : ∀ i, r'.delu i = s i * r.delu i) :
    MirrorNormal s (Lfun.computeNormalApprox (d, r)).2 (Lfun.computeNormalApprox (d', r')).2 :=
  turn_laplace (τ := -1) (by norm_num) hs (fun u j => by rw [h u j, neg_one_mul, neg_neg]) hL hL'
    hmode

/-- C101 for one model frame: exchanging successes and failures and the signs of the fixed effects does
not change the approximate log-likelihood. -/
theorem c101_beta {link : String} {μ : ℝ → ℝ} (hl : IsLink link μ)
    (hc : Split.Spec.Covered M) {nTheta : ℕ} (hM : Split.Spec.WellFormed M nTheta) (hq' : q ≤ 46341)
    (hn : 1 ≤ nTheta) {lib : Lib} (har : lib.ar = i32) (haru : lib.aru = u32)
    (hrd : Reads lib.rd M) (hlib : ∀ d p, Quad.IsEigen p (lib.eig d p).1 (lib.eig d p).2)
    (hsol : ∀ d, SignSolver (lib.solve d)) {Qf : ℝ → ℝ} (hQ : IsNormalQuantile Qf)
    {eig : Eigensolver} {k m : ℕ} (hk : 1 ≤ k) (hk' : k ≤ 25) (hm : m + 1 < 2 ^ 31)
    (heig : Quad.IsEigen (Quad.hermiteJacobi (m + 1)) (eig _ (Quad.hermiteJacobi (m + 1))).1
      (eig _ (Quad.hermiteJacobi (m + 1))).2) {pars : Parameters} {c : CG (Mixed Factor NB)}
    (hf : Lfun.findLfunSR lib ⟨i32, Qf, eig⟩ M "binomial" link k ((m + 1 : ℕ) : ℝ) =
      Except.ok (pars, c)) :
    ∃ c', Lfun.findLfunSR lib ⟨i32, Qf, eig⟩ (swapped M) "binomial" link k ((m + 1 : ℕ) : ℝ) =
        Except.ok (pars, c') ∧
      ∀ (devfun devfun' : List ℝ → Res (ℝ × Lfun.PP q)) (theta beta : List ℝ),
        theta.length = nTheta → beta.length = p →
        MirrorDevfun (fun _ => -1) (devfun (theta ++ beta))
          (devfun' (theta ++ beta.map fun b => -b)) →
        Regular M nTheta devfun (theta ++ beta) →
        let r := ((Lfun.lfun lib p nTheta c devfun (theta ++ beta)).exec pars).1
        let r' := ((Lfun.lfun lib p nTheta c' devfun' (theta ++ beta.map fun b => -b)).exec pars).1
        r = r' := by
  rcases c101 (s := fun _ => -1) hl (fun _ => Or.inr rfl) (swapped_data M) hc hM (swapped_wf hM) hq'
    hn hn har haru hrd ⟨hrd.inside, hrd.beyond⟩ hlib hsol hQ hk hk' hm heig with ⟨e, he, -⟩ | ⟨pars', c1, c2, e1, e2, h⟩
  · rw [hf] at he
    cases he
  · rw [hf] at e1
    cases e1
    refine ⟨c2, e2, fun devfun devfun' theta beta h1 h2 hd hr => ?_⟩
    have := h devfun devfun' [theta ++ beta] [theta ++ beta.map fun b => -b] (.cons ⟨⟨theta, beta,
      theta, beta.map fun b => -b, rfl, rfl, h1, h2, h1, by rw [List.length_map, h2],
      swapped_predictor M theta beta, hd⟩, hr⟩ .nil)
    exact (List.cons.inj this).1

/-! ## A case meeting the hypotheses -/

/-- What lme4 leaves behind for the model `crossed` with successes and failures exchanged. -/
noncomputable def crossedSwapPP : Lfun.PP 2 := { Lfun.crossedPP with delu := -Lfun.crossedPP.delu }

theorem crossed_swap (d : ℝ) : MirrorNormal (fun _ => -1)
    (Lfun.computeNormalApprox (d, Lfun.crossedPP)).2
    (Lfun.computeNormalApprox (d, crossedSwapPP)).2 where
  mean r := (neg_one_mul (Lfun.crossedPP.delu r)).symm
  precision r c := by
    have h : (Lfun.computeNormalApprox (d, crossedSwapPP)).2.precision =
        (Lfun.computeNormalApprox (d, Lfun.crossedPP)).2.precision := rfl
    rw [h]
    ring

/-- The model `crossed` at the parameters 1, 2, 0.5 and, with successes and failures exchanged, at 1,
2, -0.5. (Reads beyond the end of `theta` give 0.) -/
example (lib : Lib) (har : lib.ar = i32) (haru : lib.aru = u32) (hrd : lib.rd = fun theta k =>
      if 0 ≤ k ∧ k < theta.length then read theta k else Except.ok 0)
    (hlib : ∀ d p, Quad.IsEigen p (lib.eig d p).1 (lib.eig d p).2)
    (hsol : ∀ d, lib.solve d = fun A b => A⁻¹ *ᵥ b)
    {Qf : ℝ → ℝ} (hQ : IsNormalQuantile Qf) {eig : Eigensolver}
    (heig : Quad.IsEigen (Quad.hermiteJacobi 7) (eig _ (Quad.hermiteJacobi 7)).1
      (eig _ (Quad.hermiteJacobi 7)).2) (d : ℝ) :
    ∃ pars0 c c', Lfun.findLfunSR lib ⟨i32, Qf, eig⟩ crossed "binomial" "logit" (2 : ℕ) (7 : ℕ) =
        Except.ok (pars0, c) ∧
      Lfun.findLfunSR lib ⟨i32, Qf, eig⟩ (swapped crossed) "binomial" "logit" (2 : ℕ) (7 : ℕ) =
        Except.ok (pars0, c') ∧
      let r := ((Lfun.lfun lib 1 2 c (fun _ => Except.ok (d, Lfun.crossedPP)) [1, 2, 0.5]).exec
        pars0).1
      let r' := ((Lfun.lfun lib 1 2 c' (fun _ => Except.ok (d, crossedSwapPP)) [1, 2, -0.5]).exec
        pars0).1
      r = r' := by
  have hr : Reads lib.rd crossed := by
    rw [hrd]
    refine ⟨fun theta k h0 h1 => if_pos ⟨h0, h1⟩, Or.inr fun theta k => ?_⟩
    by_cases h : 0 ≤ k ∧ k < theta.length
    · obtain ⟨h0, h1⟩ := h
      refine ⟨theta[k.toNat]'(by omega), ?_⟩
      simp only [if_pos (And.intro h0 h1)]
      rw [GLMM.read, if_neg (by omega)]
      exact nth_ok (by omega)
    · exact ⟨0, if_neg h⟩
  rcases Lfun.c99 .logit crossed_wf crossed_covered (by norm_num) (by norm_num) har haru hr
    (fun n p _ => hlib n p) hQ (k := 2) (m := 6) (by norm_num) (by norm_num) (by norm_num) heig with
    ⟨-, h⟩ | ⟨pars0, c, h1, -⟩
  · norm_num at h
  obtain ⟨c', h2, h3⟩ := c101_beta .logit crossed_covered crossed_wf (by norm_num) (by norm_num) har
    haru hr hlib (fun d => by rw [hsol d]; exact signSolver_inv d) hQ (k := 2) (m := 6) (by norm_num)
    (by norm_num) (by norm_num) heig h1
  refine ⟨pars0, c, c', h1, h2, h3 _ _ [1, 2] [0.5] rfl rfl
    (Or.inr ⟨_, _, rfl, rfl, rfl, crossed_swap d⟩) fun d1 pp hpp => ?_⟩
  cases hpp
  refine ⟨⟨_, Lfun.crossedPP_laplace⟩, ?_, ?_⟩
  · rw [Lfun.crossedPP_precision]
    exact crossedQ_regular
  · rw [Lfun.crossedPP_precision]
    intro i
    rw [crossedQ_inv]
    fin_cases i <;> norm_num [crossedQ]

end Verif.Sign
