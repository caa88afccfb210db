import Verif.Model.Lfun
import Verif.Props.SR
import Verif.Props.Parameters
import Verif.Props.Control
import Verif.Props.Overflow

/-!
# C81: the log-likelihood function of the sequential reduction approximation
-/
namespace Verif.Lfun

open Verif.Pars Verif.ClusterGraph Verif.Belief Verif.Gauss Verif.SR Verif.Family Matrix
open Verif.Split Verif.Split.Spec Verif.GLMM Verif.BasisLevel
open Verif.Spec (IsNormalQuantile)

variable {q n p : ℕ}

/-! ## Specification -/

/-- What lme4 guarantees after an evaluation of its deviance function with variance parameters
`theta`: a Cholesky factorization, with permuted rows and columns, of `Λ'Z'WZΛ + I` for weights `W`
that are not negative. -/
structure Laplace (M : ModFr q n p) (theta : List ℝ) (W : Fin n → ℝ) (r : PP q) : Prop where
  weights : ∀ j, 0 ≤ W j
  permutation : r.Pᵀ * r.P = 1
  factor : r.L * r.Lᵀ = r.P * (Matrix.of (Spec.lambdat M theta) * M.Zt * diagonal W *
    (Matrix.of (Spec.lambdat M theta) * M.Zt)ᵀ + 1) * r.Pᵀ

/-! ## Weights -/

/-- Weights are accepted exactly when each is close to an integer. -/
theorem c81_weights (weights : List ℝ) : checkWeights weights = Except.ok () ↔
    ∀ w ∈ weights, ∃ k : ℤ, |w - k| < (2 : ℝ)⁻¹ ^ 26 := by
  have h : (∀ w ∈ weights, |w - round w| < (2 : ℝ)⁻¹ ^ 26) ↔
      ∀ w ∈ weights, ∃ k : ℤ, |w - k| < (2 : ℝ)⁻¹ ^ 26 :=
    ⟨fun h w hw => ⟨_, h w hw⟩, fun h w hw => by
      obtain ⟨k, hk⟩ := h w hw
      exact (round_le w k).trans_lt hk⟩
  rw [← h, checkWeights]
  split_ifs with h1 h2
  · exact ⟨fun _ => h2, fun _ => rfl⟩
  · constructor
    · intro h
      cases h
    · intro h
      exact absurd h h2
  · rw [not_lt, Nat.le_zero, List.length_eq_zero_iff] at h1
    subst h1
    simp

/-! ## Calls -/

/-- The object with the parameters of a call. -/
def assign (nTheta : ℕ) (x : List ℝ) (s : Parameters) : Parameters :=
  { s with theta := takeTheta nTheta x, beta := dropTheta nTheta x }

/-- The value of a call, for a given object. -/
noncomputable def value (lib : Lib) (nFixed nTheta : ℕ) (c : CG (Mixed Factor NB))
    (devfun : List ℝ → Res (ℝ × PP q)) (x : List ℝ) (s : Parameters) : Res ℝ :=
  if x.length ≠ nFixed + nTheta then
    Res.raise "cannot compute loglikelihood for parameter of this length"
  else do
    let r ← devfun x
    checkedValue lib (assign nTheta x s) c (computeNormalApprox r)

theorem exec_lfun (lib : Lib) (nFixed nTheta : ℕ) (c : CG (Mixed Factor NB))
    (devfun : List ℝ → Res (ℝ × PP q)) (x : List ℝ) (s : Parameters) :
    (lfun lib nFixed nTheta c devfun x).exec s = (value lib nFixed nTheta c devfun x s,
      if x.length ≠ nFixed + nTheta then s else assign nTheta x s) := by
  unfold lfun value
  split_ifs with h
  · rfl
  · unfold call
    rcases hd : devfun x with e | r <;> rfl

/-- C81, history: the results of any sequence of calls, some of which may fail, are those of the
same calls on the original object. -/
theorem c81_history (lib : Lib) (nFixed nTheta : ℕ) (c : CG (Mixed Factor NB))
    (devfun : List ℝ → Res (ℝ × PP q)) (xs : List (List ℝ)) (s : Parameters) :
    calls lib nFixed nTheta c devfun xs s =
      xs.map fun x => ((lfun lib nFixed nTheta c devfun x).exec s).1 := by
  have hv : ∀ x y s, value lib nFixed nTheta c devfun y (assign nTheta x s) =
      value lib nFixed nTheta c devfun y s := fun x y s => rfl
  have key : ∀ xs s, calls lib nFixed nTheta c devfun xs s =
      xs.map fun x => value lib nFixed nTheta c devfun x s := by
    intro xs
    induction xs with
    | nil => intro s; rfl
    | cons x xs ih =>
      intro s
      rw [calls, exec_lfun, List.map_cons]
      dsimp only
      rw [ih]
      split_ifs <;> rfl
  rw [key]
  refine List.map_congr_left fun x _ => ?_
  rw [exec_lfun]

/-! ## What is refused -/

/-- C81: other families and links are refused, whatever the rest. -/
theorem c81_refused (lib : Lib) (env : Env) (M : ModFr q n p) {family link : String}
    (h : family ≠ "binomial" ∨ (link ≠ "logit" ∧ link ≠ "probit")) (nSL nAGQ : ℝ) :
    ∃ m, findLfunSR lib env M family link nSL nAGQ = Res.raise m := by
  rw [findLfunSR, checkModfrSR]
  by_cases hf : family ≠ "binomial"
  · rw [if_pos hf]
    exact ⟨_, rfl⟩
  · rw [if_neg hf]
    obtain h | ⟨h1, h2⟩ := h
    · exact absurd h hf
    · rw [if_pos (by simp [h1, h2])]
      exact ⟨_, rfl⟩

/-! ## The object and the graph -/

theorem asInt_nat {k : ℕ} (h : k < 2 ^ 31) : asInt (k : ℝ) = k := by
  unfold asInt
  rw [if_pos (Nat.cast_nonneg k), Int.floor_natCast]
  dsimp only
  rw [if_pos]
  constructor <;> omega

theorem calibrationPars_ok {env : Env} {family link : String} {nSL nAGQ : ℝ} {f : Family}
    (hf : Family.ofNames family link = Except.ok f) {b1 b : Basis}
    {r1 r : QuadratureRule} (hb1 : Basis.create env.ar env.Q 1 = Except.ok b1)
    (hr1 : QuadratureRule.create env.eig 1 = Except.ok r1)
    (hb : Basis.create env.ar env.Q (asInt nSL) = Except.ok b)
    (hr : QuadratureRule.create env.eig (asInt nAGQ) = Except.ok r) :
    calibrationPars env family link nSL nAGQ = Except.ok ⟨[], [], f, b, r⟩ := by
  have e : makeParametersR env = Except.ok ⟨[], [], ⟨some .logit, some .binomial⟩, b1, r1⟩ := by
    unfold makeParametersR setParametersNSparseLevels setParametersNQuadraturePoints call
    rw [hb1, hr1]
    rfl
  unfold Family.ofNames at hf
  rcases hl : Link.ofName link with e' | l
  · rw [hl] at hf
    cases hf
  rw [hl] at hf
  simp only [res_ok_bind] at hf
  rcases hg : FamilyGivenMean.ofName family with e' | g
  · rw [hg] at hf
    cases hf
  rw [hg] at hf
  cases hf
  rw [calibrationPars, e]
  simp only [res_ok_bind]
  have : (configure env family link nSL nAGQ).exec
      ⟨[], [], ⟨some .logit, some .binomial⟩, b1, r1⟩ = (Except.ok (), ⟨[], [], ⟨l, g⟩, b, r⟩) := by
    unfold configure setParametersNSparseLevels setParametersNQuadraturePoints setParametersFamily
      setParametersLink call
    rw [hb, hr, hl, hg]
    rfl
  rw [this]
  rfl

theorem recompute_congr {γ ν : Type} {fo fo' : FactorOps γ} (h : fo.items = fo'.items)
    (m : Mixed γ ν) : Mixed.recomputeRelativeItems fo m = Mixed.recomputeRelativeItems fo' m := by
  unfold Mixed.recomputeRelativeItems
  rw [h]

theorem mul_congr {γ ν : Type} {fo fo' : FactorOps γ} (h : fo.items = fo'.items)
    (no : NormalOps ν) : Mixed.mul fo no = Mixed.mul fo' no := by
  funext m other
  unfold Mixed.mul
  simp only [recompute_congr h]

theorem ofFactor_congr {γ ν : Type} {fo fo' : FactorOps γ} (h : fo.items = fo'.items)
    (no : NormalOps ν) (g : γ) : Mixed.ofFactor fo no g = Mixed.ofFactor fo' no g := by
  unfold Mixed.ofFactor
  rw [recompute_congr h, h]

theorem factor_items (lib : Lib) (pars pars' : Parameters) :
    (Factor.ops lib pars).items = (Factor.ops lib pars').items := rfl

/-- The cluster graph does not depend on the parameters. -/
theorem graph_eq (lib : Lib) (pars pars' : Parameters) (M : ModFr q n p) :
    (do let bs ← factorizationTerms lib M
        ofBeliefs lib.ar (SR.ops lib pars) bs) = clusterGraph lib pars' M := by
  rw [factorizationTerms, clusterGraph]
  rcases Split.findFactorizationTerms M with e | ts
  · simp only [res_error_bind]
  · simp only [res_ok_bind]
    have : (beliefOf lib Parameters.empty : Split.Term q p → _) = beliefOf lib pars' := by
      funext t
      unfold beliefOf
      simp only [ofFactor_congr (factor_items lib Parameters.empty pars')]
    rw [this]
    rcases ts.mapM (beliefOf lib pars') with e | bs
    · simp only [res_error_bind]
    · simp only [res_ok_bind]
      exact ofBeliefs_congr (ops := SR.ops lib pars) (ops' := SR.ops lib pars') rfl rfl
        (mul_congr (factor_items lib pars pars') _) _ _

theorem width_le (lib : Lib) (pars : Parameters) {c : CG (Mixed Factor NB)}
    (h : ∀ b ∈ c.clusters, b.items.length = 1) : width (SR.ops lib pars) c ≤ 1 := by
  unfold width
  have key : ∀ (l : List (Mixed Factor NB)) (w : ℕ), (∀ b ∈ l, b.items.length = 1) → w ≤ 1 →
      l.foldl (fun w cl => max w ((SR.ops lib pars).items cl).length) w ≤ 1 := by
    intro l
    induction l with
    | nil => intro w _ hw; exact hw
    | cons b l ih =>
      intro w hl hw
      refine ih _ (fun b' hb' => hl b' (List.mem_cons_of_mem _ hb')) (max_le hw ?_)
      exact (hl b (List.mem_cons_self ..)).le
  exact key _ 0 h zero_le_one

/-! ## The normal approximation -/

theorem precision_eq {M : ModFr q n p} {theta : List ℝ} {W : Fin n → ℝ} {d : ℝ} {r : PP q}
    (h : Laplace M theta W r) : (computeNormalApprox (d, r)).2.precision =
      Matrix.of (Spec.lambdat M theta) * M.Zt * diagonal W *
        (Matrix.of (Spec.lambdat M theta) * M.Zt)ᵀ + 1 := by
  show r.Pᵀ * (r.L * r.Lᵀ) * r.P = _
  rw [h.factor]
  have e : ∀ A : Matrix (Fin q) (Fin q) ℝ, r.Pᵀ * (r.P * A * r.Pᵀ) * r.P = A := by
    intro A
    rw [← Matrix.mul_assoc, ← Matrix.mul_assoc, h.permutation, Matrix.one_mul, Matrix.mul_assoc,
      h.permutation, Matrix.mul_one]
  exact e _

theorem precision_posDef {M : ModFr q n p} {theta : List ℝ} {W : Fin n → ℝ} {d : ℝ} {r : PP q}
    (h : Laplace M theta W r) : (computeNormalApprox (d, r)).2.precision.PosDef := by
  rw [precision_eq h]
  refine Matrix.PosDef.posSemidef_add ?_ Matrix.PosDef.one
  have := (Matrix.PosSemidef.diagonal h.weights).mul_mul_conjTranspose_same
    (Matrix.of (Spec.lambdat M theta) * M.Zt)
  rwa [Matrix.conjTranspose_eq_transpose_of_trivial] at this

theorem precision_diag {M : ModFr q n p} {size : ℕ} (hM : WellFormed M size) {g : Fin n → Fin q}
    (h2 : TwoLevel M g) {theta : List ℝ} {W : Fin n → ℝ} {d : ℝ} {r : PP q}
    (h : Laplace M theta W r) (i k : Fin q) (hik : i ≠ k) :
    (computeNormalApprox (d, r)).2.precision i k = 0 := by
  rw [precision_eq h, Matrix.add_apply, Matrix.one_apply_ne hik, add_zero, Matrix.mul_apply]
  have hz : ∀ i j, i ≠ g j → (Matrix.of (Spec.lambdat M theta) * M.Zt) i j = 0 := by
    intro i j hij
    rw [Matrix.mul_apply]
    refine Finset.sum_eq_zero fun c _ => ?_
    by_contra h0
    have : i ∈ Active M j := ⟨c, lambdat_stored hM (left_ne_zero_of_mul h0),
      hM.zt c _ (right_ne_zero_of_mul h0)⟩
    rw [h2 j] at this
    exact hij this
  refine Finset.sum_eq_zero fun j _ => ?_
  rw [Matrix.mul_diagonal, Matrix.transpose_apply]
  by_cases hi : i = g j
  · rw [hz k j (fun hk => hik (hi.trans hk.symm)), mul_zero]
  · rw [hz i j hi, zero_mul, zero_mul]

/-! ## C81 -/

/-- C81. For a binomial two-level model with logit or probit link and between 1 and 25 sparse grid
levels `k`, and the `2^(k+1) - 1` quadrature points of the control options, the log-likelihood
function can be made, and for parameters of the right length for which lme4 finds a Laplace
approximation, it returns the sum over the groups of the logarithms of the adaptive
quadrature approximations with `2^(k+1) - 1` points, centred and scaled by the Laplace
approximation (up to the error of a literal), unless one of the two checks stops it: a value greater
than half the log-likelihood of the Laplace approximation, or an improper belief. -/
theorem c81 {link : String} {μ : ℝ → ℝ} (hl : IsLink link μ) {M : ModFr q n p} {nTheta : ℕ}
    (hM : WellFormed M nTheta) {g : Fin n → Fin q} (h2 : TwoLevel M g) (hq : 0 < q)
    (hq' : q ≤ 46341) (hn : 1 ≤ nTheta) {lib : Lib} (har : lib.ar = i32) (hrd : Reads lib.rd M)
    {Qf : ℝ → ℝ} (hQ : IsNormalQuantile Qf) {eig : Eigensolver} {k : ℕ} (hk : 1 ≤ k) (hk' : k ≤ 25)
    (heig : Quad.IsEigen (Quad.hermiteJacobi (2 ^ (k + 1) - 2 + 1))
      (eig _ (Quad.hermiteJacobi (2 ^ (k + 1) - 2 + 1))).1
      (eig _ (Quad.hermiteJacobi (2 ^ (k + 1) - 2 + 1))).2) :
    ∃ pars0 c rule, QuadratureRule.create eig ((2 ^ (k + 1) - 1 : ℕ) : ℤ) = Except.ok rule ∧
      findLfunSR lib ⟨i32, Qf, eig⟩ M "binomial" link k ((2 ^ (k + 1) - 1 : ℕ) : ℝ) =
        Except.ok (pars0, c) ∧
      ∀ (devfun : List ℝ → Res (ℝ × PP q)) (x : List ℝ),
        (x.length ≠ p + nTheta → ∃ m, ((lfun lib p nTheta c devfun x).exec pars0).1 = Res.raise m) ∧
        ∀ d W pp, x.length = p + nTheta → devfun x = Except.ok (d, pp) →
          Laplace M (x.take nTheta) W pp →
          (∀ i, Real.log ((computeNormalApprox (d, pp)).2.precision i i) ≠ 2 * logSqrtTwoPi) →
          ∃ v, v = ∑ r, Real.log (groupAgq rule pp.delu (computeNormalApprox (d, pp)).2.precision
              (groupIntegrand (logLikClamped μ) M (x.take nTheta) (x.drop nTheta) g) r) +
                q * literalError ∧
            ((((lfun lib p nTheta c devfun x).exec pars0).1 = Except.ok v ∧ v ≤ -d / 2 / 2) ∨
            (((lfun lib p nTheta c devfun x).exec pars0).1 =
              Res.raise "Suspect sequential reduction approximation is unstable" ∧
              -d / 2 / 2 < v) ∨
            (((lfun lib p nTheta c devfun x).exec pars0).1 =
              Res.raise "improper cluster belief after passing message" ∧
              ¬ ((∀ r t, Real.log (groupIntegrand (logLikClamped μ) M (x.take nTheta)
                  (x.drop nTheta) g r t) + literalError < 0) ∧
                ∀ r, Real.log (groupAgq rule pp.delu (computeNormalApprox (d, pp)).2.precision
                  (groupIntegrand (logLikClamped μ) M (x.take nTheta) (x.drop nTheta) g) r) +
                    literalError ≤ 0))) := by
  have hpow : 2 ^ (k + 1) - 2 + 1 = 2 ^ (k + 1) - 1 := by
    have : 2 ^ 1 ≤ 2 ^ (k + 1) := Nat.pow_le_pow_right (by norm_num) (by omega)
    omega
  have hlt : 2 ^ (k + 1) - 1 < 2 ^ 31 := by
    have : 2 ^ (k + 1) ≤ 2 ^ 26 := Nat.pow_le_pow_right (by norm_num) (by omega)
    omega
  obtain ⟨rule, er⟩ : ∃ rule, QuadratureRule.create eig ((2 ^ (k + 1) - 2 + 1 : ℕ) : ℤ) =
      Except.ok rule := ⟨_, rfl⟩
  have hrule := ruleOk_create heig er
  rw [hpow] at er
  obtain ⟨b1, eb1⟩ := basis_safe hQ (k := 1) (by omega)
  obtain ⟨b, eb⟩ := basis_safe hQ (k := k) (by omega)
  obtain ⟨f, ef⟩ : ∃ f, Family.ofNames "binomial" link = Except.ok f := by
    cases hl <;> exact ⟨_, rfl⟩
  have ep := calibrationPars_ok (env := ⟨i32, Qf, eig⟩) (nSL := k)
    (nAGQ := ((2 ^ (k + 1) - 1 : ℕ) : ℝ)) ef eb1 rfl
    (by rw [asInt_nat (by omega)]; exact eb) (by rw [asInt_nat hlt]; exact er)
  have hchk : checkModfrSR "binomial" link = Except.ok () := by
    cases hl <;> rfl
  -- the cluster graph
  let P : List ℝ → Parameters := fun x => ⟨x.take nTheta, x.drop nTheta, f, b, rule⟩
  obtain ⟨c, ec, hone, -⟩ := c80 (lib := lib) (pars := ⟨List.replicate nTheta 0,
    List.replicate p 0, f, b, rule⟩) (mean := 0) (Q := 1) hl ef (by simpa using hM) h2 (by simp) hq
    hrd (Or.inr ⟨har, hq'⟩) hrule Matrix.PosDef.one (fun i j h => Matrix.one_apply_ne h)
    (fun i => by rw [Matrix.one_apply_eq, Real.log_one, logSqrtTwoPi]; norm_num)
  refine ⟨⟨[], [], f, b, rule⟩, c, rule, er, ?_, ?_⟩
  · have e := graph_eq lib ⟨[], [], f, b, rule⟩ ⟨List.replicate nTheta 0,
      List.replicate p 0, f, b, rule⟩ M
    rw [ec] at e
    rw [findLfunSR, hchk, ep]
    simp only [res_ok_bind]
    rcases ht : factorizationTerms lib M with e' | ts
    · rw [ht] at e
      cases e
    rw [ht] at e
    simp only [res_ok_bind] at e ⊢
    rw [e]
    simp only [res_ok_bind]
    rw [if_neg]
    · rfl
    · rw [not_lt]
      have hw : (width (SR.ops lib ⟨[], [], f, b, rule⟩) c : ℝ) ≤ 1 := by
        exact_mod_cast width_le lib _ hone
      refine (Real.rpow_le_one (Nat.cast_nonneg _) hw ?_).trans (by norm_num)
      positivity
  · intro devfun x
    constructor
    · intro hx
      rw [exec_lfun]
      unfold value
      rw [if_pos hx]
      exact ⟨_, rfl⟩
    · intro d W pp hx hd hL hlog
      have hmax : max 1 nTheta = nTheta := max_eq_right hn
      have hPx : assign nTheta x ⟨[], [], f, b, rule⟩ = P x := by
        simp [assign, takeTheta, dropTheta, hmax, P]
      obtain ⟨c', ec', -, hres⟩ := c80 (lib := lib) (pars := P x) (mean := pp.delu)
        (Q := (computeNormalApprox (d, pp)).2.precision) hl ef
        (by
          have : (P x).theta.length = nTheta := by simp [P, hx]
          rw [this]
          exact hM) h2 (by simp [P, hx]) hq
        hrd (Or.inr ⟨har, hq'⟩) hrule (precision_posDef hL) (precision_diag hM h2 hL) hlog
      have : c' = c := by
        have := (graph_eq lib Parameters.empty (P x) M).symm.trans
          (graph_eq lib Parameters.empty ⟨List.replicate nTheta 0, List.replicate p 0, f, b, rule⟩ M)
        rw [ec, ec'] at this
        exact Except.ok.inj this
      subst this
      refine ⟨_, rfl, ?_⟩
      rw [exec_lfun]
      unfold value
      rw [if_neg (not_not.mpr hx), hd]
      simp only [res_ok_bind]
      rw [hPx, checkedValue]
      have hmean : (computeNormalApprox (d, pp)).2.mean = pp.delu := rfl
      rw [hmean]
      rcases hres with ⟨h, hno⟩ | h
      · right
        right
        rw [h]
        exact ⟨rfl, hno⟩
      · rw [h]
        simp only [res_ok_bind]
        split_ifs with hv
        · exact Or.inr (Or.inl ⟨rfl, hv⟩)
        · exact Or.inl ⟨rfl, not_lt.mp hv⟩

/-- The check of the complexity: a log-likelihood function that was made has
`width^(2 nSL) ≤ 5e5`, which by C55 rules out overflows in the sparse grids; otherwise there is an
error. -/
theorem c81_complexity (lib : Lib) (env : Env) (M : ModFr q n p) (family link : String) (k : ℕ)
    (nAGQ : ℝ) {pars0 : Parameters} {c : CG (Mixed Factor NB)}
    (h : findLfunSR lib env M family link k nAGQ = Except.ok (pars0, c)) :
    Point.complexityAccepted (width (SR.ops lib pars0) c) k := by
  rw [findLfunSR] at h
  rcases h1 : checkModfrSR family link with e | u
  · rw [h1] at h; cases h
  rw [h1] at h; simp only [res_ok_bind] at h
  rcases h2 : factorizationTerms lib M with e | ts
  · rw [h2] at h; cases h
  rw [h2] at h; simp only [res_ok_bind] at h
  rcases h3 : calibrationPars env family link k nAGQ with e | cp
  · rw [h3] at h; cases h
  rw [h3] at h; simp only [res_ok_bind] at h
  rcases h4 : ofBeliefs lib.ar (SR.ops lib cp) ts with e | c'
  · rw [h4] at h; cases h
  rw [h4] at h; simp only [res_ok_bind] at h
  split_ifs at h with h5
  · cases h
  · cases Except.ok.inj h
    rw [not_lt] at h5
    unfold Point.complexityAccepted
    have e : (width (SR.ops lib pars0) c : ℝ) ^ (2 * (k : ℝ)) =
        ((width (SR.ops lib pars0) c ^ (2 * k) : ℕ) : ℝ) := by
      rw [Nat.cast_pow, ← Real.rpow_natCast]
      congr 1
      push_cast
      ring
    rw [e] at h5
    have : ((width (SR.ops lib pars0) c ^ (2 * k) : ℕ) : ℝ) ≤ ((500000 : ℕ) : ℝ) := by
      refine h5.trans (by norm_num)
    exact_mod_cast this

/-- C81: with 0 levels, said by the vignette to give the Laplace approximation, the behaviour is
undefined. -/
theorem c81_zero (lib : Lib) (env : Env) {M : ModFr q n p} {link : String}
    (hl : link = "logit" ∨ link = "probit") {bs : List (Mixed Factor NB)}
    (hbs : factorizationTerms lib M = Except.ok bs) {pars : Parameters}
    (hp : makeParametersR env = Except.ok pars) :
    findLfunSR lib env M "binomial" link 0 1 = Res.ub := by
  have hchk : checkModfrSR "binomial" link = Except.ok () := by
    rcases hl with rfl | rfl <;> rfl
  have h0 : asInt (0 : ℝ) = 0 := by
    have := asInt_nat (k := 0) (by norm_num)
    simpa using this
  have h1 : asInt (1 : ℝ) = 1 := by
    have := asInt_nat (k := 1) (by norm_num)
    simpa using this
  have hb : Basis.create env.ar env.Q 0 = Res.ub := by
    unfold Basis.create
    rw [if_neg (by norm_num)]
    show (do let levels ← BasisLevel.basisLevels env.ar env.Q 0; _) = _
    rw [BasisLevel.c10_level0_ub]
    rfl
  rw [findLfunSR, hchk, hbs]
  simp only [res_ok_bind]
  rw [calibrationPars, hp]
  simp only [res_ok_bind]
  obtain ⟨r, er⟩ : ∃ r, QuadratureRule.create env.eig 1 = Except.ok r := ⟨_, rfl⟩
  have : (configure env "binomial" link 0 1).exec pars =
      (Res.ub, { pars with quadratureRule := r }) := by
    unfold configure setParametersNSparseLevels setParametersNQuadraturePoints call
    rw [h0, h1, hb, er]
    rfl
  rw [this]
  rfl

/-- C81: with 26 levels or more the behaviour is undefined, too, whatever the number of quadrature
points. -/
theorem c81_many (lib : Lib) {env : Env} (har : env.ar = i32) (hQ : IsNormalQuantile env.Q)
    {M : ModFr q n p} {link : String} (hl : link = "logit" ∨ link = "probit")
    {bs : List (Mixed Factor NB)} (hbs : factorizationTerms lib M = Except.ok bs)
    {pars : Parameters} (hp : makeParametersR env = Except.ok pars) {k m : ℕ} (hk : 26 ≤ k)
    (hk' : k < 2 ^ 31) (hm : m + 1 < 2 ^ 31) :
    findLfunSR lib env M "binomial" link k ((m + 1 : ℕ) : ℝ) = Res.ub := by
  have hchk : checkModfrSR "binomial" link = Except.ok () := by
    rcases hl with rfl | rfl <;> rfl
  have hb : Basis.create env.ar env.Q k = Res.ub := by
    unfold Basis.create
    rw [if_neg (by omega)]
    show (do let levels ← BasisLevel.basisLevels env.ar env.Q k; _) = _
    rw [har, BasisLevel.c10_many_levels_ub _ hQ _ hk]
    rfl
  rw [findLfunSR, hchk, hbs]
  simp only [res_ok_bind]
  rw [calibrationPars, hp]
  simp only [res_ok_bind]
  obtain ⟨r, er⟩ : ∃ r, QuadratureRule.create env.eig ((m + 1 : ℕ) : ℤ) = Except.ok r := ⟨_, rfl⟩
  have : (configure env "binomial" link k ((m + 1 : ℕ) : ℝ)).exec pars =
      (Res.ub, { pars with quadratureRule := r }) := by
    unfold configure setParametersNSparseLevels setParametersNQuadraturePoints call
    rw [asInt_nat hk', asInt_nat hm, hb, er]
    rfl
  rw [this]
  rfl

/-- C81, with the options: for `method = "SR"`, whatever else is in the control list, the
log-likelihood function is that of `c81`, for the number of levels given there or 3. -/
theorem c81_control (lib : Lib) (env : Env) (M : ModFr q n p) (family link : String)
    (ops : Control.Ops) (control : Control.Arg) {k : ℕ}
    (hk : Control.value control "nSL" = .num k) :
    ∃ con ws, Control.findControlWithDefaults ops control ["SR"] = Except.ok (con, ws) ∧
      findLfunInternalSR lib env M family link con =
        findLfunSR lib env M family link k ((2 ^ (k + 1) - 1 : ℕ) : ℝ) := by
  obtain ⟨⟨con, ws⟩, h⟩ := Control.c39_runs ops control (m := "SR") (by simp [Control.methods])
    (fun _ => ⟨_, hk⟩) (fun h => absurd h (by decide))
  refine ⟨con, ws, h, ?_⟩
  have h1 := (Control.c39_values (by simp [Control.methods]) h).1 "nSL" (by simp [Control.needed])
    (by decide)
  rw [findLfunInternalSR, h1, hk, Control.c39_sr h hk]

/-! ## A case meeting the hypotheses -/

/-- Weights of the observations of `twoGroups`. -/
noncomputable def twoW : Fin 3 → ℝ := ![3 / 2, 3 / 2, 3]

/-- A result of lme4 for `twoGroups`. -/
noncomputable def twoPP : PP 2 := ⟨(2 : ℝ) • 1, 1, ![0.3, 0.2]⟩

theorem twoGroups_laplace : Laplace twoGroups [1] twoW twoPP where
  weights j := by fin_cases j <;> simp [twoW] <;> norm_num
  permutation := by simp [twoPP]
  factor := by
    have hU : Matrix.of (Spec.lambdat twoGroups [1]) * twoGroups.Zt = twoGroups.Zt := by
      have : Matrix.of (Spec.lambdat twoGroups [1]) = 1 := by
        ext r c
        show Spec.lambdat twoGroups [1] r c = _
        unfold Verif.Split.Spec.lambdat
        show (∑ k : Fin 2, if [((0 : Fin 2), (0 : Fin 2)), (1, 1)].get k = (r, c) then
          ([1] : List ℝ).getD (([1, 1] : List ℤ).getD k 0 - 1).toNat 0 else 0) = _
        rw [Fin.sum_univ_two]
        fin_cases r <;> fin_cases c <;> simp
      rw [this, Matrix.one_mul]
    rw [hU]
    ext r c
    fin_cases r <;> fin_cases c <;>
      simp [twoPP, twoGroups, twoW, Matrix.mul_apply, Fin.sum_univ_three, Matrix.diagonal_apply,
        Matrix.smul_apply] <;> norm_num

/-- With logit link and three quadrature points; parameters `theta = 1` and `beta = 0.5`. -/
example (lib : Lib) (har : lib.ar = i32) (hrd : lib.rd = read) :
    ∃ (env : Env) (pars0 : Parameters) (c : CG (Mixed Factor NB)) (rule : QuadratureRule) (v : ℝ),
      rule.nodes.length = 3 ∧
      findLfunSR lib env twoGroups "binomial" "logit" 1 3 = Except.ok (pars0, c) ∧
      v = ∑ r, Real.log (groupAgq rule ![0.3, 0.2] ((4 : ℝ) • 1)
        (groupIntegrand (logLikClamped expit) twoGroups [1] [0.5] ![0, 0, 1]) r) +
          (2 : ℕ) * literalError ∧
      ((((lfun lib 1 1 c (fun _ => Except.ok (3, twoPP)) [1, 0.5]).exec pars0).1 = Except.ok v ∧
          v ≤ -0.75) ∨
        ∃ m, ((lfun lib 1 1 c (fun _ => Except.ok (3, twoPP)) [1, 0.5]).exec pars0).1 =
          Res.raise m) := by
  obtain ⟨Qf, hQ⟩ := NormalQuantile.exists_quantile
  obtain ⟨values, vectors, he⟩ := Quad.c25_exists 2
  let eig : Eigensolver := fun m => if h : m = 3 then fun _ => h ▸ (values, vectors) else fun _ => (0, 0)
  obtain ⟨pars0, c, rule, h1, h2, h3⟩ := c81 .logit twoGroups_wf twoGroups_level two_pos
    (by norm_num) le_rfl har (by rw [hrd]; exact ⟨fun _ _ _ _ => rfl, Or.inl (by simp [twoGroups])⟩)
    hQ (eig := eig) (k := 1) le_rfl (by norm_num) he
  have hprec : (computeNormalApprox ((3 : ℝ), twoPP)).2.precision = (4 : ℝ) • 1 := by
    simp [computeNormalApprox, twoPP, smul_smul]
    norm_num
  obtain ⟨-, h4⟩ := h3 (fun _ => Except.ok (3, twoPP)) [1, 0.5]
  obtain ⟨v, hv, h5⟩ := h4 3 twoW twoPP rfl rfl twoGroups_laplace (by
    intro i
    rw [hprec, Matrix.smul_apply, Matrix.one_apply_eq, smul_eq_mul, mul_one]
    have : Real.log 4 ≤ 3 / 2 := by
      rw [show (4 : ℝ) = 2 ^ 2 by norm_num, Real.log_pow]
      have := Real.log_two_lt_d9
      push_cast
      linarith
    rw [logSqrtTwoPi]
    intro h
    rw [h] at this
    norm_num at this)
  rw [hprec] at hv
  refine ⟨⟨i32, Qf, eig⟩, pars0, c, rule, v, ?_, ?_, hv, ?_⟩
  · have := create_ok (levels := -1) (ar := exactZ) (Q := Qf) (b := ⟨[], -1⟩) rfl h1
    have := this.2
    norm_num at this
    exact_mod_cast this
  · rw [← h2]
    norm_num
  · rcases h5 with ⟨h, h'⟩ | ⟨h, -⟩ | ⟨h, -⟩
    · exact Or.inl ⟨h, by norm_num at h' ⊢; linarith⟩
    · exact Or.inr ⟨_, h⟩
    · exact Or.inr ⟨_, h⟩

end Verif.Lfun
