import Verif.Proofs.GLMM
import Verif.Props.Family
import Mathlib.Analysis.Convex.Deriv
import Mathlib.Analysis.Convex.Extrema

/-! # GLMM factors (C34–C37) -/
namespace Verif.GLMM

open Verif.Family Verif.Pars Verif.Integrated Matrix

variable {d n p : ℕ}

/-! ## C35 -/

/-- The three evaluations of a factor. -/
inductive Kind
  | value | gradient | hessian

/-- What an evaluation returns. -/
inductive Out (d : ℕ)
  | value (v : ℝ)
  | gradient (v : Fin d → ℝ)
  | hessian (v : Matrix (Fin d) (Fin d) ℝ)

/-- Run an evaluation. -/
noncomputable def runCall (b : Belief d n p) (k : Kind) (u : Fin d → ℝ) (pars : Parameters) :
    Res (Out d × Belief d n p) :=
  match k with
  | .value => (evaluate b u pars).map fun r => (Out.value r.1, r.2)
  | .gradient => (evaluateDerivative b u pars).map fun r => (Out.gradient r.1, r.2)
  | .hessian => (evaluateSecondDerivative b u pars).map fun r => (Out.hessian r.1, r.2)

/-- What it should return: a function of the data, the parameters and the point. -/
noncomputable def Spec.out (D : Data d n p) (k : Kind) (u : Fin d → ℝ) (pars : Parameters) :
    Res (Out d) :=
  match k with
  | .value => (Spec.value D pars u).map Out.value
  | .gradient => (Spec.gradient D pars u).map Out.gradient
  | .hessian => (Spec.hessian D pars u).map Out.hessian

/-- States of a factor object: after construction and any finite history of evaluations. The
constructor may have read out of range (C36); `rd` is then what these reads gave. -/
inductive Reachable (D : Data d n p) : Belief d n p → Prop
  | create {rd : List ℝ → ℤ → Res ℝ} {b : Belief d n p}
      (hrd : ∀ theta k, 0 ≤ k → k < theta.length → rd theta k = read theta k)
      (h : createWith rd D = Except.ok b) : Reachable D b
  | call {b b' : Belief d n p} {k : Kind} {u : Fin d → ℝ} {pars : Parameters} {o : Out d}
      (hb : Reachable D b) (hf : Spec.Fit D pars.theta pars.beta)
      (h : runCall b k u pars = Except.ok (o, b')) : Reachable D b'

theorem runCall_inv {D : Data d n p} (hn : D.entries.Nodup) {b : Belief d n p} (h : Inv D b)
    {pars : Parameters} (hf : Spec.Fit D pars.theta pars.beta) (k : Kind) (u : Fin d → ℝ) :
    ∃ b', Inv D b' ∧ runCall b k u pars = (Spec.out D k u pars).map fun o => (o, b') := by
  rcases k with _ | _ | _
  · obtain ⟨b', i, e⟩ := evaluate_inv hn h hf u
    refine ⟨b', i, ?_⟩
    show (evaluate b u pars).map _ = ((Spec.value D pars u).map _).map _
    rw [e]
    rcases Spec.value D pars u with e | v <;> rfl
  · obtain ⟨b', i, e⟩ := derivative_inv hn h hf u
    refine ⟨b', i, ?_⟩
    show (evaluateDerivative b u pars).map _ = ((Spec.gradient D pars u).map _).map _
    rw [e]
    rcases Spec.gradient D pars u with e | v <;> rfl
  · obtain ⟨b', i, e⟩ := second_inv hn h hf u
    refine ⟨b', i, ?_⟩
    show (evaluateSecondDerivative b u pars).map _ = ((Spec.hessian D pars u).map _).map _
    rw [e]
    rcases Spec.hessian D pars u with e | v <;> rfl

theorem Reachable.inv {D : Data d n p} (hn : D.entries.Nodup) {b : Belief d n p}
    (h : Reachable D b) : Inv D b := by
  induction h with
  | create hrd h => exact createWith_inv hrd hn h
  | @call b b' k u pars o hb hf h ih =>
    obtain ⟨b1, i, e⟩ := runCall_inv hn ih hf k u
    rw [e] at h
    rcases hs : Spec.out D k u pars with e1 | o1
    · rw [hs] at h; cases h
    · rw [hs] at h
      cases h
      exact i

/-- C35. Whatever the history of the object, an evaluation with parameters that fit the factor
returns what the data, the parameters and the point give. -/
theorem c35_history {D : Data d n p} (hn : D.entries.Nodup) {b : Belief d n p}
    (h : Reachable D b) {pars : Parameters} (hf : Spec.Fit D pars.theta pars.beta) (k : Kind)
    (u : Fin d → ℝ) : (runCall b k u pars).map Prod.fst = Spec.out D k u pars := by
  obtain ⟨b', -, e⟩ := runCall_inv hn (h.inv hn) hf k u
  rw [e]
  rcases Spec.out D k u pars with e1 | o1 <;> rfl

/-! ### Several graphs sharing their factors -/

section
variable {N : ℕ} {d n p : Fin N → ℕ}

/-- An evaluation of the factor number `i` in memory. -/
structure Call (d : Fin N → ℕ) where
  i : Fin N
  kind : Kind
  u : Fin (d i) → ℝ
  pars : Parameters

/-- Run a sequence of evaluations on the factors in memory, collecting the results. -/
noncomputable def runAll : List (Call d) → ((i : Fin N) → Belief (d i) (n i) (p i)) →
    Res (List (Σ i, Out (d i)))
  | [], _ => Except.ok []
  | c :: rest, mem => do
    let r ← runCall (mem c.i) c.kind c.u c.pars
    let os ← runAll rest (Function.update mem c.i r.2)
    return ⟨c.i, r.1⟩ :: os

/-- C35 for any number of factors in memory and any interleaving of evaluations of them, through
whichever copy of a cluster graph holding pointers to them: the results are those of separate
computations from the data. -/
theorem c35_shared {D : (i : Fin N) → Data (d i) (n i) (p i)} (hn : ∀ i, (D i).entries.Nodup)
    (calls : List (Call d)) (mem : (i : Fin N) → Belief (d i) (n i) (p i))
    (h : ∀ i, Reachable (D i) (mem i))
    (hf : ∀ c ∈ calls, Spec.Fit (D c.i) c.pars.theta c.pars.beta) :
    runAll calls mem = calls.mapM fun c =>
      (Spec.out (D c.i) c.kind c.u c.pars).map fun o => (⟨c.i, o⟩ : Σ i, Out (d i)) := by
  induction calls generalizing mem with
  | nil => rfl
  | cons c rest ih =>
    have hfc := hf c (List.mem_cons_self ..)
    obtain ⟨b', i, e⟩ := runCall_inv (hn c.i) ((h c.i).inv (hn c.i)) hfc c.kind c.u
    rw [runAll, e, List.mapM_cons]
    rcases hs : Spec.out (D c.i) c.kind c.u c.pars with e1 | o1
    · rfl
    · rw [hs] at e
      show (do
        let os ← runAll rest (Function.update mem c.i b')
        return (⟨c.i, o1⟩ : Σ i, Out (d i)) :: os) = _
      rw [ih (Function.update mem c.i b') ?_ fun c' hc' => hf c' (List.mem_cons_of_mem _ hc')]
      · rfl
      · intro j
        by_cases hj : j = c.i
        · subst hj
          rw [Function.update_self]
          exact Reachable.call (h _) hfc e
        · rw [Function.update_of_ne hj]
          exact h j

end

/-! ## C36 -/

/-- C36 decided: for all data, the constructor reads only existing entries exactly when every stored
entry of `Lambdat` has a variance parameter whose number is less than the number of items. -/
theorem c36_iff {D : Data d n p} (hn : D.entries.Nodup) :
    (∃ b, create D = Except.ok b) ↔ Spec.Indexed D d := by
  constructor
  · rintro ⟨b, h⟩
    unfold create createWith initializeParameterDependents setLambdatThetaZtWith at h
    dsimp only at h
    rcases h1 : fill read D.Lind (List.replicate d 0) D.entries 0 0 with e | M
    · rw [h1] at h; cases h
    intro k hk
    have := fill_inv h1 k hk
    rw [List.length_replicate, Nat.zero_add] at this
    exact this
  · intro hi
    unfold create createWith initializeParameterDependents setLambdatThetaZtWith
    dsimp only
    rw [fill_spec hn (by rw [List.length_replicate]; exact hi)]
    simp only [res_ok_bind, res_pure]
    rw [timesX, if_pos (List.length_replicate ..)]
    exact ⟨_, rfl⟩

/-- Correlated random intercept and slope for one group: two items, three variance parameters. -/
def intSlope (X : Matrix (Fin n) (Fin p) ℝ) (Zt : Matrix (Fin 2) (Fin n) ℝ) (y w : Fin n → ℝ) :
    Data 2 n p :=
  ⟨X, Zt, [(0, 0), (0, 1), (1, 1)], [0, 1, 2], y, w⟩

/-- C36 is violated by every term with a correlated random intercept and slope for one group. -/
theorem c36_violated (X : Matrix (Fin n) (Fin p) ℝ) (Zt : Matrix (Fin 2) (Fin n) ℝ)
    (y w : Fin n → ℝ) : create (intSlope X Zt y w) = Res.ub := rfl

/-- C36 for terms whose parameter numbers are less than the number of items, for example scalar
random effects; the missing case is exactly the violated one (`c36_iff`). -/
theorem c36_partial {D : Data d n p} (hn : D.entries.Nodup) (h : Spec.Indexed D d) :
    ∃ b, create D = Except.ok b ∧ Reachable D b :=
  let ⟨b, hb⟩ := (c36_iff hn).mpr h
  ⟨b, hb, Reachable.create (fun _ _ _ _ => rfl) hb⟩

/-! ## C37 -/

/-- Links and the inverse link functions they stand for. -/
inductive IsLink : String → (ℝ → ℝ) → Prop
  | logit : IsLink "logit" expit
  | probit : IsLink "probit" invProbit

/-- Log-likelihood of the observations of a factor given the random effects. -/
noncomputable def Spec.logLikelihood (D : Data d n p) (μ : ℝ → ℝ) (theta beta : List ℝ)
    (u : Fin d → ℝ) : ℝ :=
  ∑ i, logLik μ (D.response i) (D.weights i) (Spec.eta D theta beta u i)

/-- The fitted means are not clamped. -/
def Unclamped (D : Data d n p) (μ : ℝ → ℝ) (theta beta : List ℝ) (u : Fin d → ℝ) : Prop :=
  ∀ i, 1e-8 ≤ μ (Spec.eta D theta beta u i) ∧ μ (Spec.eta D theta beta u i) ≤ 1 - 1e-8

theorem linkOk {link : String} {μ : ℝ → ℝ} (h : IsLink link μ) :
    ∃ μ1 μ2 μ3 μ4, LinkOk μ μ1 μ2 μ3 μ4 := by
  rcases h with _ | _
  · exact ⟨_, _, _, _, lo0_eq ▸ logit_ok⟩
  · exact ⟨_, _, _, _, normalCdf_eq ▸ probit_ok⟩

theorem family_facts {link : String} {μ : ℝ → ℝ} (h : IsLink link μ) :
    ∃ f, Family.ofNames "binomial" link = Except.ok f ∧
    ∀ (n : ℕ) (eta y w : Fin n → ℝ),
      (∀ i, 1e-8 ≤ μ (eta i) ∧ μ (eta i) ≤ 1 - 1e-8) →
      f.evaluate eta y w = Except.ok (∑ i, logLik μ (y i) (w i) (eta i)) ∧
      ∃ D1 D2 D3 D4 : Fin n → ℝ, f.evaluateDerivative eta y w = Except.ok D1 ∧
        f.evaluateSecondDerivative eta y w = Except.ok D2 ∧
        f.evaluateThirdDerivative eta y w = Except.ok D3 ∧
        f.evaluateFourthDerivative eta y w = Except.ok D4 ∧
        ∀ i, IsFourDerivs (logLik μ (y i) (w i)) (eta i) (D1 i) (D2 i) (D3 i) (D4 i) := by
  rcases h with _ | _
  · exact c31_logit
  · exact c32_probit

/-- Chain rule for sums over the observations. -/
theorem sum_hasFDerivAt (D : Data d n p) (theta beta : List ℝ) (u : Fin d → ℝ) (a : Fin n → ℝ)
    {f : Fin n → ℝ → ℝ} {f' : Fin n → ℝ}
    (h : ∀ i, HasDerivAt (f i) (f' i) (Spec.eta D theta beta u i)) :
    HasFDerivAt (fun u => ∑ i, a i * f i (Spec.eta D theta beta u i))
      (lin fun s => ∑ i, a i * f' i * Spec.design D theta s i) u := by
  have h1 : ∀ i, HasFDerivAt (fun u => Spec.eta D theta beta u i)
      (lin fun s => Spec.design D theta s i) u := by
    intro i
    have h2 : (fun u : Fin d → ℝ => Spec.eta D theta beta u i) = fun u =>
        (∑ j : Fin p, D.X i j * beta.getD j 0) + lin (fun s => Spec.design D theta s i) u := by
      funext u
      rw [lin_apply]
      rfl
    rw [h2]
    exact (lin fun s => Spec.design D theta s i).hasFDerivAt.const_add _
  have h3 : HasFDerivAt (fun u => ∑ i, a i * f i (Spec.eta D theta beta u i))
      (∑ i, a i • (f' i • lin fun s => Spec.design D theta s i)) u := by
    refine HasFDerivAt.fun_sum fun i _ => ?_
    exact (HasDerivAt.comp_hasFDerivAt (h₂ := f i) (f := fun u => Spec.eta D theta beta u i) u
      (h i) (h1 i)).const_mul (a i)
  convert h3 using 1
  ext v
  simp only [lin_apply, ContinuousLinearMap.sum_apply, ContinuousLinearMap.smul_apply, smul_eq_mul,
    Finset.sum_mul, Finset.mul_sum]
  rw [Finset.sum_comm]
  refine Finset.sum_congr rfl fun i _ => Finset.sum_congr rfl fun s _ => ?_
  ring

/-- C37. For both links, all data, all parameters that fit and all points whose fitted means are not
clamped, a factor with any history returns the log-likelihood of its observations, its gradient
and its Hessian. -/
theorem c37_derivatives {link : String} {μ : ℝ → ℝ} (hl : IsLink link μ) {D : Data d n p}
    (hn : D.entries.Nodup) {pars : Parameters}
    (hfam : Family.ofNames "binomial" link = Except.ok pars.family)
    (hf : Spec.Fit D pars.theta pars.beta) (u : Fin d → ℝ)
    (hu : Unclamped D μ pars.theta pars.beta u)
    {b1 b2 b3 : Belief d n p} (h1 : Reachable D b1) (h2 : Reachable D b2) (h3 : Reachable D b3) :
    ∃ v g H b1' b2' b3', evaluate b1 u pars = Except.ok (v, b1') ∧
      evaluateDerivative b2 u pars = Except.ok (g, b2') ∧
      evaluateSecondDerivative b3 u pars = Except.ok (H, b3') ∧
      v = Spec.logLikelihood D μ pars.theta pars.beta u ∧
      HasFDerivAt (Spec.logLikelihood D μ pars.theta pars.beta) (lin g) u ∧
      ∀ r, HasFDerivAt (fun x => fderiv ℝ (Spec.logLikelihood D μ pars.theta pars.beta) x
        (Pi.single r 1)) (lin (H r)) u := by
  obtain ⟨f, hf1, hf2⟩ := family_facts hl
  rw [hfam] at hf1
  cases hf1
  obtain ⟨e0, D1, D2, D3, D4, e1, e2, -, -, hD⟩ := hf2 n _ D.response D.weights hu
  obtain ⟨μ1, μ2, μ3, μ4, hok⟩ := linkOk hl
  obtain ⟨b1', -, r1⟩ := evaluate_inv hn (h1.inv hn) hf u
  obtain ⟨b2', -, r2⟩ := derivative_inv hn (h2.inv hn) hf u
  obtain ⟨b3', -, r3⟩ := second_inv hn (h3.inv hn) hf u
  rw [Spec.value, e0] at r1
  rw [Spec.gradient, e1] at r2
  rw [Spec.hessian, e2] at r3
  refine ⟨_, _, _, b1', b2', b3', r1, r2, r3, rfl, ?_, fun r => ?_⟩
  · have := sum_hasFDerivAt D pars.theta pars.beta u (fun _ => 1) fun i => (hD i).1
    simp only [one_mul] at this
    refine HasFDerivAt.congr_fderiv this ?_
    congr 1
    funext s
    exact Finset.sum_congr rfl fun i _ => mul_comm _ _
  · have hg : ∀ x, fderiv ℝ (Spec.logLikelihood D μ pars.theta pars.beta) x (Pi.single r 1) =
        ∑ i, Spec.design D pars.theta r i * iteratedDeriv 1
          (logLik μ (D.response i) (D.weights i)) (Spec.eta D pars.theta pars.beta x i) := by
      intro x
      have h4 := sum_hasFDerivAt D pars.theta pars.beta x (fun _ => 1) fun i =>
        (fourDerivs hok (D.weights i) (D.response i) (Spec.eta D pars.theta pars.beta x i)).1
      simp only [one_mul] at h4
      rw [show Spec.logLikelihood D μ pars.theta pars.beta = fun u => ∑ i,
        logLik μ (D.response i) (D.weights i) (Spec.eta D pars.theta pars.beta u i) from rfl,
        h4.fderiv, lin_apply]
      simp only [Pi.single_apply, mul_ite, mul_one, mul_zero, Finset.sum_ite_eq', Finset.mem_univ,
        if_true]
      refine Finset.sum_congr rfl fun i _ => ?_
      rw [mul_comm, show logLik μ (D.response i) (D.weights i) =
        fun x => b0 (D.weights i) (D.response i) (μ x) from rfl, iter1 hok]
    rw [funext hg]
    exact sum_hasFDerivAt D pars.theta pars.beta u (fun i => Spec.design D pars.theta r i)
      fun i => (hD i).2.1

/-- C37 for the value as computed: strictly inside the clamping bounds, the returned gradient is the
derivative of the returned value, and the returned Hessian that of the returned gradient. -/
theorem c37_coded {link : String} {μ : ℝ → ℝ} (hl : IsLink link μ) {D : Data d n p}
    (hn : D.entries.Nodup) {pars : Parameters}
    (hfam : Family.ofNames "binomial" link = Except.ok pars.family)
    (hf : Spec.Fit D pars.theta pars.beta) (u : Fin d → ℝ)
    (hu : ∀ i, 1e-8 < μ (Spec.eta D pars.theta pars.beta u i) ∧
      μ (Spec.eta D pars.theta pars.beta u i) < 1 - 1e-8)
    {b1 b2 b3 : Belief d n p} (h1 : Reachable D b1) (h2 : Reachable D b2) (h3 : Reachable D b3) :
    ∃ g H b2' b3', evaluateDerivative b2 u pars = Except.ok (g, b2') ∧
      evaluateSecondDerivative b3 u pars = Except.ok (H, b3') ∧
      HasFDerivAt (fun x => SparseGrid.val ((evaluate b1 x pars).map Prod.fst)) (lin g) u ∧
      ∀ r, HasFDerivAt (fun x => SparseGrid.comp ((evaluateDerivative b2 x pars).map Prod.fst) r)
        (lin (H r)) u := by
  have hu' : Unclamped D μ pars.theta pars.beta u := fun i => ⟨(hu i).1.le, (hu i).2.le⟩
  obtain ⟨v, g, H, b1', b2', b3', e1, e2, e3, -, d1, d2⟩ :=
    c37_derivatives hl hn hfam hf u hu' h1 h2 h3
  obtain ⟨μ1, μ2, μ3, μ4, hok⟩ := linkOk hl
  have hev : ∀ᶠ x in nhds u, Unclamped D μ pars.theta pars.beta x := by
    have hc : ∀ i, Continuous fun x => μ (Spec.eta D pars.theta pars.beta x i) := fun i => by
      refine (mu_cont hok).comp ?_
      unfold Spec.eta
      fun_prop
    have h4 : ∀ i, ∀ᶠ x in nhds u, 1e-8 ≤ μ (Spec.eta D pars.theta pars.beta x i) ∧
        μ (Spec.eta D pars.theta pars.beta x i) ≤ 1 - 1e-8 := fun i => by
      filter_upwards [(hc i).continuousAt.eventually (lt_mem_nhds (hu i).1),
        (hc i).continuousAt.eventually (gt_mem_nhds (hu i).2)] with x ha hb
      exact ⟨ha.le, hb.le⟩
    exact Filter.eventually_all.mpr h4
  refine ⟨g, H, b2', b3', e2, e3, d1.congr_of_eventuallyEq ?_, fun r =>
    (d2 r).congr_of_eventuallyEq ?_⟩
  · filter_upwards [hev] with x hx
    obtain ⟨v, g, H, b1', b2', b3', e1, e2, e3, ev, -, -⟩ :=
      c37_derivatives hl hn hfam hf x hx h1 h2 h3
    rw [e1]
    exact ev
  · filter_upwards [hev] with x hx
    obtain ⟨v, g, H, b1', b2', b3', e1, e2, e3, -, d1, -⟩ :=
      c37_derivatives hl hn hfam hf x hx h1 h2 h3
    rw [e2, d1.fderiv, lin_apply]
    show g r = _
    simp [Pi.single_apply]

/-! ## C34 -/

open ProbabilityTheory Set

/-- Log-integrand of the model: log-likelihood of the observations given the random effects plus the
log-densities of the random effects, independent standard normal variables. -/
noncomputable def Spec.logIntegrand (D : Data d n p) (μ : ℝ → ℝ) (theta beta : List ℝ)
    (u : Fin d → ℝ) : ℝ :=
  Spec.logLikelihood D μ theta beta u + ∑ r, Real.log (gaussianPDFReal 0 1 (u r))

theorem logLik_concave {w : ℝ} (hw : 0 ≤ w) (y : ℝ) : ConcaveOn ℝ univ (logLik expit y w) := by
  have e : logLik expit y w = fun x => b0 w y (lo0 x) := by rw [← lo0_eq]; rfl
  have h0 := fun x => t0_deriv logit_ok w y x
  have h1 := fun x => t1_deriv logit_ok w y x
  have e1 : deriv (fun x => b0 w y (lo0 x)) = t1 lo0 lo1 w y := funext fun x => (h0 x).deriv
  rw [e]
  refine concaveOn_univ_of_deriv2_nonpos (fun x => (h0 x).differentiableAt) ?_ fun x => ?_
  · rw [e1]
    exact fun x => (h1 x).differentiableAt
  · show deriv (deriv fun x => b0 w y (lo0 x)) x ≤ 0
    rw [e1, (h1 x).deriv, logit_t2]
    have h2 := logit_ok.pos x
    have h3 := logit_ok.lt_one x
    have : 0 ≤ w * (lo0 x * (1 - lo0 x)) := mul_nonneg hw (mul_nonneg h2.le (by linarith))
    linarith

theorem eta_affine (D : Data d n p) (theta beta : List ℝ) {a b : ℝ} (hab : a + b = 1)
    (u v : Fin d → ℝ) (i : Fin n) : Spec.eta D theta beta (a • u + b • v) i =
      a • Spec.eta D theta beta u i + b • Spec.eta D theta beta v i := by
  unfold Spec.eta
  simp only [Pi.add_apply, Pi.smul_apply, smul_eq_mul, mul_add, Finset.sum_add_distrib,
    Finset.mul_sum]
  have h1 : ∀ (c : ℝ) (z : Fin d → ℝ), ∑ r, Spec.design D theta r i * (c * z r) =
      ∑ r, c * (Spec.design D theta r i * z r) := fun c z =>
    Finset.sum_congr rfl fun r _ => by ring
  rw [h1, h1]
  have h2 : ∑ j : Fin p, D.X i j * beta.getD j 0 = ∑ j : Fin p, a * (D.X i j * beta.getD j 0) +
      ∑ j : Fin p, b * (D.X i j * beta.getD j 0) := by
    rw [← Finset.mul_sum, ← Finset.mul_sum, ← add_mul, hab, one_mul]
  rw [h2]
  ring

theorem log_gaussian (x : ℝ) :
    Real.log (gaussianPDFReal 0 1 x) = Real.log (gaussianPDFReal 0 1 0) - x ^ 2 / 2 := by
  unfold gaussianPDFReal
  have h : (0 : ℝ) < (√(2 * Real.pi * (1 : NNReal)))⁻¹ := by
    simp only [NNReal.coe_one, mul_one]
    positivity
  rw [Real.log_mul h.ne' (Real.exp_pos _).ne', Real.log_mul h.ne' (Real.exp_pos _).ne',
    Real.log_exp, Real.log_exp]
  simp only [NNReal.coe_one]
  ring

theorem gaussian_concave : StrictConcaveOn ℝ univ
    fun u : Fin d → ℝ => ∑ r, Real.log (gaussianPDFReal 0 1 (u r)) := by
  rw [show (fun u : Fin d → ℝ => ∑ r, Real.log (gaussianPDFReal 0 1 (u r))) = fun u =>
      ∑ r, (Real.log (gaussianPDFReal 0 1 0) - u r ^ 2 / 2) from
    funext fun u => Finset.sum_congr rfl fun r _ => log_gaussian (u r)]
  refine ⟨convex_univ, fun u _ v _ huv a b ha hb hab => ?_⟩
  simp only [smul_eq_mul, Finset.mul_sum, Pi.add_apply, Pi.smul_apply]
  rw [← Finset.sum_add_distrib]
  have hb' : b = 1 - a := by linarith
  have key : ∀ r, a * (Real.log (gaussianPDFReal 0 1 0) - u r ^ 2 / 2) +
      b * (Real.log (gaussianPDFReal 0 1 0) - v r ^ 2 / 2) =
      Real.log (gaussianPDFReal 0 1 0) - (a * u r + b * v r) ^ 2 / 2 -
        a * b * (u r - v r) ^ 2 / 2 := by
    intro r
    rw [hb']
    ring
  refine Finset.sum_lt_sum (fun r _ => ?_) ?_
  · rw [key r]
    have : 0 ≤ a * b * (u r - v r) ^ 2 := by positivity
    linarith
  · obtain ⟨r, hr⟩ := Function.ne_iff.mp huv
    refine ⟨r, Finset.mem_univ r, ?_⟩
    rw [key r]
    have h1 : 0 < (u r - v r) ^ 2 := by
      have : u r - v r ≠ 0 := sub_ne_zero.mpr hr
      positivity
    have : 0 < a * b * (u r - v r) ^ 2 := by positivity
    linarith

/-- C34. For non-negative weights and any responses, data and parameters, the log-integrand of a
logit model is strictly concave in the random effects. -/
theorem c34_concave (D : Data d n p) (hw : ∀ i, 0 ≤ D.weights i) (theta beta : List ℝ) :
    StrictConcaveOn ℝ univ (Spec.logIntegrand D expit theta beta) := by
  have h1 : ConcaveOn ℝ univ (Spec.logLikelihood D expit theta beta) := by
    refine ⟨convex_univ, fun u _ v _ a b ha hb hab => ?_⟩
    unfold Spec.logLikelihood
    rw [Finset.smul_sum, Finset.smul_sum, ← Finset.sum_add_distrib]
    refine Finset.sum_le_sum fun i _ => ?_
    rw [eta_affine D theta beta hab]
    exact (logLik_concave (hw i) (D.response i)).2 (mem_univ _) (mem_univ _) ha hb hab
  have h2 := gaussian_concave (d := d)
  exact h1.add_strictConcaveOn h2

/-- C34, at most one mode: two local maxima of the log-integrand of a logit model are equal. -/
theorem c34_mode (D : Data d n p) (hw : ∀ i, 0 ≤ D.weights i) (theta beta : List ℝ)
    {u v : Fin d → ℝ} (hu : IsLocalMax (Spec.logIntegrand D expit theta beta) u)
    (hv : IsLocalMax (Spec.logIntegrand D expit theta beta) v) : u = v := by
  have hc := c34_concave D hw theta beta
  have h1 : IsMaxOn (Spec.logIntegrand D expit theta beta) univ u :=
    IsMaxOn.of_isLocalMaxOn_of_concaveOn (mem_univ u) (hu.on univ) hc.concaveOn
  have h2 : IsMaxOn (Spec.logIntegrand D expit theta beta) univ v :=
    IsMaxOn.of_isLocalMaxOn_of_concaveOn (mem_univ v) (hv.on univ) hc.concaveOn
  exact hc.eq_of_isMaxOn h1 h2 (mem_univ u) (mem_univ v)

/-- Points with unclamped means form a convex set. -/
theorem unclamped_convex (D : Data d n p) (theta beta : List ℝ) :
    Convex ℝ {u | Unclamped D expit theta beta u} := by
  have hm : StrictMono expit := lo0_eq ▸ mu_mono logit_ok
  intro u hu v hv a b ha hb hab i
  rw [eta_affine D theta beta hab]
  have h1 : min (Spec.eta D theta beta u i) (Spec.eta D theta beta v i) ≤
      a • Spec.eta D theta beta u i + b • Spec.eta D theta beta v i :=
    Convex.min_le_combo _ _ ha hb hab
  have h2 : a • Spec.eta D theta beta u i + b • Spec.eta D theta beta v i ≤
      max (Spec.eta D theta beta u i) (Spec.eta D theta beta v i) :=
    Convex.combo_le_max _ _ ha hb hab
  constructor
  · refine le_trans ?_ (hm.monotone h1)
    rcases min_choice (Spec.eta D theta beta u i) (Spec.eta D theta beta v i) with h | h <;> rw [h]
    exacts [(hu i).1, (hv i).1]
  · refine le_trans (hm.monotone h2) ?_
    rcases max_choice (Spec.eta D theta beta u i) (Spec.eta D theta beta v i) with h | h <;> rw [h]
    exacts [(hu i).2, (hv i).2]

/-- The log-integrand as the code computes it. -/
noncomputable def codedIntegrand (b : Belief d n p) (pars : Parameters) (u : Fin d → ℝ) : ℝ :=
  SparseGrid.val ((evaluate b u pars).map Prod.fst) +
    ∑ r, Real.log (gaussianPDFReal 0 1 (u r))

/-- C34 as computed: the log-integrand of a logit model is strictly concave on the convex set of
points with unclamped means, so it has at most one maximum there. -/
theorem c34_coded {D : Data d n p} (hn : D.entries.Nodup) (hw : ∀ i, 0 ≤ D.weights i)
    {pars : Parameters} (hfam : Family.ofNames "binomial" "logit" = Except.ok pars.family)
    (hf : Spec.Fit D pars.theta pars.beta) {b : Belief d n p} (hb : Reachable D b) :
    StrictConcaveOn ℝ {u | Unclamped D expit pars.theta pars.beta u} (codedIntegrand b pars) ∧
    ∀ u v, Unclamped D expit pars.theta pars.beta u → Unclamped D expit pars.theta pars.beta v →
      IsMaxOn (codedIntegrand b pars) {u | Unclamped D expit pars.theta pars.beta u} u →
      IsMaxOn (codedIntegrand b pars) {u | Unclamped D expit pars.theta pars.beta u} v → u = v := by
  have h1 : StrictConcaveOn ℝ {u | Unclamped D expit pars.theta pars.beta u}
      (codedIntegrand b pars) := by
    refine ((c34_concave D hw pars.theta pars.beta).subset (subset_univ _)
      (unclamped_convex D pars.theta pars.beta)).congr fun u hu => ?_
    obtain ⟨v, g, H, b1', b2', b3', e1, -, -, ev, -⟩ :=
      c37_derivatives IsLink.logit hn hfam hf u hu hb hb hb
    show _ = SparseGrid.val _ + _
    rw [e1]
    show _ = v + _
    rw [ev]
    rfl
  exact ⟨h1, fun u v hu hv mu mv => h1.eq_of_isMaxOn mu mv hu hv⟩

/-! ## A concrete model

One group, intercept only: one fixed and one random effect, one observation with response 1. -/

/-- One observation, response 1. -/
noncomputable def oneObs : Data 1 1 1 := ⟨1, 1, [(0, 0)], [0], fun _ => 1, fun _ => 1⟩

/-- Parameters of a logit model. -/
noncomputable def logitPars (theta beta : ℝ) : Parameters :=
  ⟨[theta], [beta], ⟨some .logit, some .binomial⟩, Basis.empty, QuadratureRule.empty⟩

theorem oneObs_eta (theta beta : ℝ) (u : Fin 1 → ℝ) (i : Fin 1) :
    Spec.eta oneObs [theta] [beta] u i = beta + theta * u 0 := by
  unfold Spec.eta Spec.design Spec.lambdat
  rw [Subsingleton.elim i 0]
  simp [oneObs]
  left
  show ((Finset.univ : Finset (Fin 1)).card : ℝ) * theta = theta
  simp

theorem oneObs_fit (theta beta : ℝ) : Spec.Fit oneObs [theta] [beta] := by
  refine ⟨fun k hk => ?_, rfl⟩
  have : k = 0 := by simpa [oneObs] using hk
  subst this
  simp [oneObs]

theorem oneObs_reachable : ∃ b, Reachable oneObs b := by
  obtain ⟨b, -, hb⟩ := c36_partial (D := oneObs) (by simp [oneObs]) (oneObs_fit 0 0).1
  exact ⟨b, hb⟩

/-- The hypotheses of C35, C37 and C34 are met. -/
example : ∃ b, Reachable oneObs b ∧ oneObs.entries.Nodup ∧ (∀ i, 0 ≤ oneObs.weights i) ∧
    Spec.Fit oneObs (logitPars 1 0).theta (logitPars 1 0).beta ∧
    Family.ofNames "binomial" "logit" = Except.ok (logitPars 1 0).family ∧
    (∀ i, 1e-8 < expit (Spec.eta oneObs (logitPars 1 0).theta (logitPars 1 0).beta 0 i) ∧
      expit (Spec.eta oneObs (logitPars 1 0).theta (logitPars 1 0).beta 0 i) < 1 - 1e-8) := by
  obtain ⟨b, hb⟩ := oneObs_reachable
  refine ⟨b, hb, by simp [oneObs], fun i => by simp [oneObs], oneObs_fit 1 0, rfl, fun i => ?_⟩
  show 1e-8 < expit (Spec.eta oneObs [1] [0] 0 i) ∧ expit (Spec.eta oneObs [1] [0] 0 i) < 1 - 1e-8
  rw [oneObs_eta]
  norm_num [expit]

/-- The hypotheses of C35 for several factors are met: two factors, evaluated alternately with
different parameters. -/
example : ∃ mem : (i : Fin 2) → Belief 1 1 1, (∀ i, Reachable oneObs (mem i)) ∧
    ∀ c ∈ ([⟨0, .value, 0, logitPars 1 0⟩, ⟨1, .gradient, 1, logitPars 2 3⟩,
      ⟨0, .hessian, 2, logitPars 4 5⟩, ⟨0, .value, 0, logitPars 1 0⟩] :
        List (Call fun _ : Fin 2 => 1)), Spec.Fit oneObs c.pars.theta c.pars.beta := by
  obtain ⟨b, hb⟩ := oneObs_reachable
  refine ⟨fun _ => b, fun _ => hb, fun c hc => ?_⟩
  simp only [List.mem_cons, List.not_mem_nil, or_false] at hc
  rcases hc with rfl | rfl | rfl | rfl <;> exact oneObs_fit _ _

/-- Clamping breaks the concavity of the log-integrand outside the set of points with unclamped
means: with large variance the code's log-integrand has a local maximum that is no maximum. -/
theorem c34_clamped {b : Belief 1 1 1} (hb : Reachable oneObs b) :
    IsLocalMax (codedIntegrand b (logitPars 1000 (-1000))) 0 ∧
      codedIntegrand b (logitPars 1000 (-1000)) 0 < codedIntegrand b (logitPars 1000 (-1000)) 1 := by
  have hm : StrictMono expit := lo0_eq ▸ mu_mono logit_ok
  have hval : ∀ u, codedIntegrand b (logitPars 1000 (-1000)) u =
      Real.log (clamp (expit (-1000 + 1000 * u 0))) +
        (Real.log (gaussianPDFReal 0 1 0) - u 0 ^ 2 / 2) := by
    intro u
    obtain ⟨b', -, e⟩ := evaluate_inv (D := oneObs) (by simp [oneObs])
      (hb.inv (by simp [oneObs])) (pars := logitPars 1000 (-1000)) (oneObs_fit 1000 (-1000)) u
    unfold codedIntegrand
    rw [e]
    simp only [Finset.univ_unique, Fin.default_eq_zero, Finset.sum_singleton]
    rw [log_gaussian (u 0)]
    congr 1
    show Binomial.evaluate (Binomial.checkMean (LogitLink.computeMean
      (Spec.eta oneObs [1000] [-1000] u))) (fun _ => 1) (fun _ => 1) = _
    rw [checkMean_eq]
    unfold Binomial.evaluate
    simp only [Finset.univ_unique, Fin.default_eq_zero, Finset.sum_singleton, sub_self, zero_mul,
      add_zero, one_mul]
    rw [← lo0_eq, ← oneObs_eta 1000 (-1000) u 0]
    rfl
  have hlow : ∀ u : Fin 1 → ℝ, u 0 < 1 / 2 → clamp (expit (-1000 + 1000 * u 0)) = 1e-8 := by
    intro u hu
    exact clamp_low (le_trans (hm.monotone (by linarith : _ ≤ (-20 : ℝ))) expit_far.le)
  constructor
  · have hev : ∀ᶠ u : Fin 1 → ℝ in nhds 0, u 0 < 1 / 2 :=
      (continuous_apply 0).continuousAt.eventually
        (gt_mem_nhds (show ((0 : Fin 1 → ℝ) 0) < 1 / 2 by norm_num))
    filter_upwards [hev] with u hu
    rw [hval, hval, hlow u hu, hlow 0 (by norm_num)]
    have : 0 ≤ u 0 ^ 2 / 2 := by positivity
    have h0 : ((0 : Fin 1 → ℝ) 0) ^ 2 / 2 = 0 := by simp
    linarith
  · rw [hval, hval, hlow 0 (by norm_num)]
    have h1 : clamp (expit (-1000 + 1000 * (1 : Fin 1 → ℝ) 0)) = 1 / 2 := by
      have : expit (-1000 + 1000 * (1 : Fin 1 → ℝ) 0) = 1 / 2 := by norm_num [expit]
      rw [this, clamp_mid (by norm_num) (by norm_num)]
    rw [h1]
    have h2 : Real.log (1e-8) < Real.log (1 / 2) - 1 := by
      have h3 : Real.log (1 / 2) - 1 = Real.log (1 / 2 * Real.exp (-1)) := by
        rw [Real.log_mul (by norm_num) (Real.exp_pos _).ne', Real.log_exp]
        ring
      rw [h3]
      refine Real.log_lt_log (by norm_num) ?_
      have h4 := Real.exp_neg_one_gt_d9
      linarith
    have h5 : ((0 : Fin 1 → ℝ) 0) ^ 2 / 2 = 0 := by simp
    have h6 : ((1 : Fin 1 → ℝ) 0) ^ 2 / 2 = 1 / 2 := by simp
    rw [h5, h6]
    linarith

end Verif.GLMM
