import Verif.Props.Reparam
import Verif.Props.Refit
import Verif.Props.Frames
import Mathlib.Analysis.Calculus.FDeriv.Mul
import Mathlib.Analysis.Calculus.LineDeriv.Basic

/-!
# C126: collinear covariates

The frames of the formula and of the subformulas are put together (R/model_frames.R:190-214) without a check
of the rank of the covariates. If they are collinear, the likelihood is the same along a line, and `solve`
(R/optimization.R:86) stops, if the Hessian matrix is the exact one.
-/
namespace Verif.Collinear

open Verif.Fit Verif.Whole Verif.Pars Verif.SR Verif.Lfun

variable {q n p : ℕ}

/-! ## Specification -/

/-- A combination of the covariates that is zero for all observations. -/
structure Null (M : Split.ModFr q n p) (v : Fin p → ℝ) : Prop where
  ne : v ≠ 0
  zero : ∀ j, ∑ l, M.X j l * v l = 0

/-- A log-likelihood function that does not change along `w`. -/
def Flat {k : ℕ} (f : List ℝ → Res ℝ) (w : Fin k → ℝ) : Prop :=
  ∀ (x : Fin k → ℝ) (t : ℝ), f (List.ofFn (x + t • w)) = f (List.ofFn x)

/-- The function given to the optimiser, as a real function (zero where it is infinite or stops). -/
noncomputable def objective {k : ℕ} (fn : List ℝ → Run (WithTop ℝ)) (x : Fin k → ℝ) : ℝ :=
  match (fn (List.ofFn x)).res with
  | Except.ok v => v.untopD 0
  | Except.error _ => 0

/-- The Hessian matrix of a function, by rows. -/
noncomputable def hessian {k : ℕ} (f : (Fin k → ℝ) → ℝ) (y : Fin k → ℝ) : List (List ℝ) :=
  List.ofFn fun i => List.ofFn fun j => fderiv ℝ (fderiv ℝ f) y (Pi.single i 1) (Pi.single j 1)

/-- The optimiser returns the exact Hessian matrix at its result, for a given function. -/
def ReturnsHessian (k : ℕ) (t : Trace) (fn : List ℝ → Run (WithTop ℝ)) : Prop :=
  ∀ par H conv, (t.run fn).res = Except.ok (par, H, conv) →
    ∃ y : Fin k → ℝ, par = List.ofFn y ∧ H = hessian (objective fn) y

/-- `solve` stops for singular matrices: those that take some vector other than zero to zero. -/
def StopsSingular (solve : List (List ℝ) → Res (List (List ℝ))) : Prop :=
  ∀ (k : ℕ) (A : Matrix (Fin k) (Fin k) ℝ) (w : Fin k → ℝ), w ≠ 0 → A.mulVec w = 0 →
    ∃ e, solve (List.ofFn fun i => List.ofFn fun j => A i j) = Except.error e

/-! ## The likelihood along the line -/

theorem eta_null {M : Split.ModFr q n p} {v : Fin p → ℝ} (hv : ∀ j, ∑ l, M.X j l * v l = 0)
    (theta : List ℝ) (beta : Fin p → ℝ) (t : ℝ) (u : Fin q → ℝ) (j : Fin n) :
    Split.Spec.eta M theta (List.ofFn (beta + t • v)) u j =
      Split.Spec.eta M theta (List.ofFn beta) u j := by
  have e : ∀ (b : Fin p → ℝ) (l : Fin p), (List.ofFn b).getD l 0 = b l := by
    intro b l
    simp [List.getD_eq_getElem?_getD]
  unfold Split.Spec.eta
  simp only [e, Pi.add_apply, Pi.smul_apply, smul_eq_mul, mul_add, Finset.sum_add_distrib]
  have : ∑ l, M.X j l * (t * v l) = 0 := by
    rw [show ∑ l, M.X j l * (t * v l) = t * ∑ l, M.X j l * v l by
      rw [Finset.mul_sum]; exact Finset.sum_congr rfl fun l _ => by ring, hv j, mul_zero]
  rw [this, add_zero]

/-- **C126, the likelihood** is the same along the line. -/
theorem c126_likelihood {M : Split.ModFr q n p} {v : Fin p → ℝ} (hv : Null M v)
    (L : ℝ → ℝ → ℝ → ℝ) (theta : List ℝ) (beta : Fin p → ℝ) (t : ℝ) :
    Split.Spec.marginal L M theta (List.ofFn (beta + t • v)) =
      Split.Spec.marginal L M theta (List.ofFn beta) := by
  unfold Split.Spec.marginal Split.Spec.logLikGiven
  simp only [eta_null hv.zero]

/-! ## The Hessian matrix along the line -/

theorem fderiv_flat {k : ℕ} {f : (Fin k → ℝ) → ℝ} {w : Fin k → ℝ}
    (hf : ∀ x (t : ℝ), f (x + t • w) = f x) (y : Fin k → ℝ) : fderiv ℝ f y w = 0 := by
  by_cases hd : DifferentiableAt ℝ f y
  · have hl := hd.hasFDerivAt.hasLineDerivAt w
    have hc : (fun t : ℝ => f (y + t • w)) = fun _ => f y := funext fun t => hf y t
    unfold HasLineDerivAt at hl
    rw [hc] at hl
    exact hl.unique (hasDerivAt_const _ _)
  · rw [fderiv_zero_of_not_differentiableAt hd]
    rfl

theorem hessian_flat {k : ℕ} {f : (Fin k → ℝ) → ℝ} {w : Fin k → ℝ}
    (hf : ∀ x (t : ℝ), f (x + t • w) = f x) (y v : Fin k → ℝ) :
    fderiv ℝ (fderiv ℝ f) y v w = 0 := by
  by_cases hd : DifferentiableAt ℝ (fderiv ℝ f) y
  · have h1 : HasFDerivAt (fun z => fderiv ℝ f z w)
        ((ContinuousLinearMap.apply ℝ ℝ w).comp (fderiv ℝ (fderiv ℝ f) y)) y :=
      (ContinuousLinearMap.apply ℝ ℝ w).hasFDerivAt.comp y hd.hasFDerivAt
    have hc : (fun z => fderiv ℝ f z w) = fun _ => 0 := funext fun z => fderiv_flat hf z
    rw [hc] at h1
    have h2 := h1.unique (hasFDerivAt_const (0 : ℝ) y)
    have h3 := congrArg (fun L : (Fin k → ℝ) →L[ℝ] ℝ => L v) h2
    simpa using h3
  · rw [fderiv_zero_of_not_differentiableAt hd]
    rfl

theorem hessian_null {k : ℕ} {f : (Fin k → ℝ) → ℝ} {w : Fin k → ℝ}
    (hf : ∀ x (t : ℝ), f (x + t • w) = f x) (y : Fin k → ℝ) :
    (Matrix.of fun i j => fderiv ℝ (fderiv ℝ f) y (Pi.single i 1) (Pi.single j 1)).mulVec w = 0 := by
  funext i
  have hw : w = ∑ j, w j • (Pi.single j (1 : ℝ) : Fin k → ℝ) := by
    funext l
    simp [Finset.sum_apply, Pi.single_apply]
  have h := hessian_flat hf y (Pi.single i 1)
  rw [hw, map_sum] at h
  simp only [map_smul, smul_eq_mul] at h
  simp only [Matrix.mulVec, dotProduct, Matrix.of_apply, Pi.zero_apply]
  rw [← h]
  exact Finset.sum_congr rfl fun j _ => mul_comm _ _

/-! ## The function given to the optimiser -/

theorem index_flat {k p_theta : ℕ} (hp : 0 < p_theta) {w : Fin k → ℝ}
    (hw : ∀ i : Fin k, (i : ℕ) < p_theta → w i = 0) (x : Fin k → ℝ) (t : ℝ) :
    IS.index (List.ofFn (x + t • w)) (IS.colon 1 p_theta) =
      IS.index (List.ofFn x) (IS.colon 1 p_theta) := by
  rw [index_first hp, index_first hp]
  refine List.map_congr_left fun i hi => ?_
  have hi := List.mem_range.1 hi
  rw [List.getElem?_ofFn, List.getElem?_ofFn]
  by_cases h : i < k
  · rw [dif_pos h, dif_pos h]
    simp [hw ⟨i, h⟩ hi]
  · rw [dif_neg h, dif_neg h]

theorem devfun_flat {B : Box} {k p_theta : ℕ} (hp : 0 < p_theta) {w : Fin k → ℝ}
    (hw : ∀ i : Fin k, (i : ℕ) < p_theta → w i = 0) (hf : Flat B.lfun w) {mu : List ℝ}
    (hmu : mu.length = k) (s : Bool) (big : WithTop ℝ) (x : Fin k → ℝ) (t : ℝ) :
    (devfunStd B p_theta mu (List.ofFn (x + t • w)) s big).res =
      (devfunStd B p_theta mu (List.ofFn x) s big).res := by
  obtain ⟨m, rfl⟩ : ∃ m : Fin k → ℝ, mu = List.ofFn m :=
    ⟨fun i => mu[(i : ℕ)]'(by omega), by
      apply List.ext_getElem
      · simp [hmu]
      · intro i _ _; simp⟩
  have hr : ∀ z : Fin k → ℝ, radd (List.ofFn z) (List.ofFn m) = List.ofFn (z + m) := by
    intro z
    rw [radd_eq (by simp)]
    apply List.ext_getElem
    · simp
    · intro i _ _; simp
  unfold devfunStd
  rw [hr, hr, add_right_comm]
  unfold devfunExt
  rw [index_flat hp hw]
  generalize anyGt ((IS.index (List.ofFn (x + m)) (IS.colon 1 p_theta)).map fun x => x.map fun v => |v|)
    5 = r
  rcases r with e | b
  · rfl
  · rcases b with _ | _
    · change (callLfun B _ s).res = (callLfun B _ s).res
      unfold callLfun
      dsimp only
      rw [hf]
    · rfl

/-- **C126, `optimize_glmm`.** -/
theorem c126_optimize {B : Box} {p_beta p_theta : ℕ} (hp : 0 < p_theta)
    {w : Fin (p_theta + p_beta) → ℝ} (h0 : w ≠ 0)
    (hw : ∀ i : Fin (p_theta + p_beta), (i : ℕ) < p_theta → w i = 0) (hf : Flat B.lfun w)
    {prev_fit : Option (List ℝ)} (hprev : ∀ e, prev_fit = some e → e.length = p_theta + p_beta)
    (hH : ∀ d0, (startValue B p_theta (startPars p_beta p_theta prev_fit)
        (List.replicate (p_theta + p_beta) 0)).res = Except.ok d0 →
      ReturnsHessian (p_theta + p_beta) (B.optim (List.replicate (p_theta + p_beta) 0))
        fun x => devfunStd B p_theta (startPars p_beta p_theta prev_fit) x false (d0 + 100))
    (hs : StopsSingular B.solve) (opt : Opt) :
    (optimizeGlmm B p_beta p_theta prev_fit).res ≠ Except.ok opt := by
  intro h
  have hlen := start_length p_beta p_theta hprev
  unfold optimizeGlmm at h
  dsimp only at h
  obtain ⟨d0, h0', h, -⟩ := bind_ok h
  obtain ⟨_, -, h, -⟩ := bind_ok h
  obtain ⟨⟨par, H, convergence⟩, hr, h, -⟩ := bind_ok h
  obtain ⟨_, -, h, -⟩ := bind_ok h
  obtain ⟨inv, hinv, -, -⟩ := bind_ok h
  obtain ⟨y, -, rfl⟩ := hH _ h0' _ _ _ hr
  have hflat : ∀ x (t : ℝ),
      objective (fun x => devfunStd B p_theta (startPars p_beta p_theta prev_fit) x false (d0 + 100))
        (x + t • w) =
      objective (fun x => devfunStd B p_theta (startPars p_beta p_theta prev_fit) x false (d0 + 100))
        x := by
    intro x t
    unfold objective
    rw [devfun_flat hp hw hf hlen]
  obtain ⟨e, he⟩ := hs _ _ w h0 (hessian_null hflat y)
  have hinv : B.solve _ = Except.ok inv := hinv
  have he : B.solve (hessian _ y) = Except.error e := he
  rw [he] at hinv
  cases hinv

/-- **C126, the part of `glmm` after the likelihood function is made.** -/
theorem c126_fit {B : Box} {p_beta p_theta : ℕ} (hp : 0 < p_theta)
    {w : Fin (p_theta + p_beta) → ℝ} (h0 : w ≠ 0)
    (hw : ∀ i : Fin (p_theta + p_beta), (i : ℕ) < p_theta → w i = 0) (hf : Flat B.lfun w)
    {prev_fit : Option (List ℝ)} (hprev : ∀ e, prev_fit = some e → e.length = p_theta + p_beta)
    (hH : ∀ d0, (startValue B p_theta (startPars p_beta p_theta prev_fit)
        (List.replicate (p_theta + p_beta) 0)).res = Except.ok d0 →
      ReturnsHessian (p_theta + p_beta) (B.optim (List.replicate (p_theta + p_beta) 0))
        fun x => devfunStd B p_theta (startPars p_beta p_theta prev_fit) x false (d0 + 100))
    (hs : StopsSingular B.solve) (lower : List ℝ) (threshold : Option ℝ)
    (divergence : Opt → Res ℝ) (r : Result) :
    (Fit.glmm B lower p_beta p_theta prev_fit threshold divergence).res ≠ Except.ok r := by
  intro h
  unfold Fit.glmm at h
  obtain ⟨opt, ho, -⟩ := bind_ok h
  exact c126_optimize hp h0 hw hf hprev hH hs opt ho

/-! ## The likelihood functions of all methods -/

/-- The direction of a combination of the fixed effects among all parameters. -/
def line (nTheta : ℕ) (v : Fin p → ℝ) : Fin (nTheta + p) → ℝ := Fin.append 0 v

theorem line_split {nTheta : ℕ} (v : Fin p → ℝ) (x : Fin (nTheta + p) → ℝ) (t : ℝ) :
    ∃ (theta : Fin nTheta → ℝ) (beta : Fin p → ℝ), List.ofFn x = List.ofFn theta ++ List.ofFn beta ∧
      List.ofFn (x + t • line nTheta v) = List.ofFn theta ++ List.ofFn (beta + t • v) := by
  refine ⟨fun i => x (Fin.castAdd p i), fun i => x (Fin.natAdd nTheta i), ?_, ?_⟩
  · rw [← List.ofFn_fin_append, Fin.append_castAdd_natAdd]
  · rw [← List.ofFn_fin_append]
    congr 1
    funext i
    refine Fin.addCases (fun i => ?_) (fun i => ?_) i
    · simp [line]
    · simp [line]

/-- lme4's deviance functions depend on the fixed effects only through the linear predictor. -/
def FlatDevfun (X : Ext q) {k : ℕ} (w : Fin k → ℝ) : Prop :=
  ∀ a d, X.devfun a = Except.ok d → ∀ (x : Fin k → ℝ) (t : ℝ),
    d (List.ofFn (x + t • w)) = d (List.ofFn x)

theorem half_flat {k : ℕ} {w : Fin k → ℝ} {d : List ℝ → Res (ℝ × Lfun.PP q)}
    (hd : ∀ (x : Fin k → ℝ) (t : ℝ), d (List.ofFn (x + t • w)) = d (List.ofFn x)) (x : Fin k → ℝ)
    (t : ℝ) : halfDeviance d (List.ofFn (x + t • w)) = halfDeviance d (List.ofFn x) := by
  unfold halfDeviance
  rw [hd]

theorem same_line {M : Split.ModFr q n p} {v : Fin p → ℝ} (hv : Null M v) {nTheta : ℕ}
    (theta : Fin nTheta → ℝ) (beta : Fin p → ℝ) (t : ℝ) :
    Reparam.Spec.SamePredictor M M (List.ofFn theta) (List.ofFn (beta + t • v)) (List.ofFn theta)
      (List.ofFn beta) := fun u j => eta_null hv.zero _ _ _ _ _

theorem epsilon_flat {F : Frame q n p} {v : Fin p → ℝ} (hv : Null F.M v)
    (hM : Split.Spec.WellFormed F.M F.nTheta) (h1 : 1 ≤ F.nTheta) {d : List ℝ → Res (ℝ × Lfun.PP q)}
    (hd : ∀ (x : Fin (F.nTheta + p) → ℝ) (t : ℝ),
      d (List.ofFn (x + t • line F.nTheta v)) = d (List.ofFn x)) (x : Fin (F.nTheta + p) → ℝ) (t : ℝ) :
    epsilonAt F d (List.ofFn (x + t • line F.nTheta v)) = epsilonAt F d (List.ofFn x) := by
  have hx := hd x t
  obtain ⟨theta, beta, e1, e2⟩ := line_split v x t
  rw [e1, e2] at hx ⊢
  unfold epsilonAt
  rw [hx]
  rcases d (List.ofFn theta ++ List.ofFn beta) with e | r
  · rfl
  · have hne : List.ofFn theta ≠ [] := by
      rw [← List.length_pos_iff, List.length_ofFn]; omega
    have hl : (List.ofFn theta).length = F.nTheta := List.length_ofFn
    have h := Reparam.c98_hol (M := F.M) (M' := F.M) ⟨rfl, rfl, fun _ => rfl⟩
      (same_line hv theta beta t) (by rw [hl]; exact hM) (by rw [hl]; exact hM) hne hne (by simp)
      (by simp) F.family F.link (Lfun.computeNormalApprox r).2
    rw [hl] at h
    exact h

/-- **C126, all methods:** the log-likelihood that is maximised is the same along the line. -/
theorem c126_flat {X : Ext q} {F : Frame q n p} {v : Fin p → ℝ} (hv : Null F.M v)
    (hM : Split.Spec.WellFormed F.M F.nTheta) (h1 : 1 ≤ F.nTheta) (hc : Split.Spec.Covered F.M)
    (hrd : SR.Reads X.lib.rd F.M) (hdev : FlatDevfun X (line F.nTheta v)) {method : List String}
    {control : Control.Arg} {s : Parameters} {f : LFun}
    (h : findLfunGlmm X F method control = Except.ok (s, f)) :
    Flat (fun x => ((f x).exec s).1) (line F.nTheta v) := by
  rw [findLfunGlmm] at h
  rcases hd : X.devfun 1 with e | d1
  · rw [hd] at h; cases h
  rw [hd] at h
  simp only [res_ok_bind] at h
  rcases hcon : Control.findControlWithDefaults X.ops control method with e | con
  · rw [hcon] at h; cases h
  rw [hcon] at h
  simp only [res_ok_bind] at h
  have hd1 := hdev 1 d1 hd
  have hpure : ∀ {g : List ℝ → Res ℝ}, (∀ (x : Fin (F.nTheta + p) → ℝ) (t : ℝ),
      g (List.ofFn (x + t • line F.nTheta v)) = g (List.ofFn x)) →
      Flat (fun x => (((call (g x) : Prog Parameters ℝ)).exec s).1) (line F.nTheta v) := by
    intro g hg x t
    dsimp only
    rw [hg]
  rcases method with _ | ⟨m, _ | ⟨m', ms⟩⟩
  · cases h
  swap
  · cases h
  simp only [res_ok_bind] at h
  unfold findLfunGlmmInternal at h
  split_ifs at h
  · rcases ho : number con.1 "order" with e | o
    · rw [ho] at h; cases h
    rw [ho] at h
    simp only [res_ok_bind, findLfunLaplace] at h
    split_ifs at h with ho1 ho2
    · cases Except.ok.inj h
      exact hpure (half_flat hd1)
    · rcases hk : checkIfOrderImplemented F.family F.link o with e | u
      · rw [hk] at h; cases h
      rw [hk] at h
      cases Except.ok.inj h
      refine hpure fun x t => ?_
      rw [epsilon_flat hv hM h1 hd1, half_flat hd1]
    · rcases hk : checkIfOrderImplemented F.family F.link o with e | u
      · rw [hk] at h; cases h
      rw [hk] at h
      cases h
  · rcases ho : number con.1 "nAGQ" with e | o
    · rw [ho] at h; cases h
    rw [ho] at h
    simp only [res_ok_bind, findLfunAGQ] at h
    rcases hf : X.devfun o with e | g
    · rw [hf] at h; cases h
    rw [hf] at h
    cases Except.ok.inj h
    exact hpure (half_flat (hdev _ _ hf))
  · rcases ho : number con.1 "nSL" with e | o
    · rw [ho] at h; cases h
    rw [ho] at h
    simp only [res_ok_bind] at h
    rcases ha : number con.1 "nAGQ" with e | a
    · rw [ha] at h; cases h
    rw [ha] at h
    simp only [res_ok_bind, Whole.findLfunSR] at h
    rcases hf : Lfun.findLfunSR X.lib X.env F.M F.family F.link o a with e | ⟨pars, c⟩
    · rw [hf] at h; cases h
    rw [hf] at h
    cases Except.ok.inj h
    intro x t
    have hx := hd1 x t
    obtain ⟨theta, beta, e1, e2⟩ := line_split v x t
    rcases Reparam.c98 (M := F.M) (M' := F.M) ⟨rfl, rfl, fun _ => rfl⟩ hc hM hM h1 h1 hrd hrd X.env
      F.family F.link o a with ⟨e, he, -⟩ | ⟨pars', c', c'', h', h'', -, hcalls⟩
    · rw [hf] at he; cases he
    · rw [hf] at h' h''
      cases Except.ok.inj h'
      cases Except.ok.inj h''
      have := hcalls d1 d1 [List.ofFn (x + t • line F.nTheta v)] [List.ofFn x] (.cons
        ⟨List.ofFn theta, List.ofFn (beta + t • v), List.ofFn theta, List.ofFn beta, e2, e1, by simp,
          by simp, by simp, by simp, same_line hv theta beta t, hx⟩ .nil)
      exact (List.cons.inj this).1
  · rcases ho : number con.1 "nIS" with e | o
    · rw [ho] at h; cases h
    rw [ho] at h
    simp only [res_ok_bind, Whole.findLfunIS] at h
    rcases hf : samples X o with e | g
    · rw [hf] at h; cases h
    rw [hf] at h
    cases Except.ok.inj h
    refine hpure fun x t => ?_
    have hx := hd1 x t
    obtain ⟨theta, beta, e1, e2⟩ := line_split v x t
    rw [e1, e2] at hx ⊢
    rw [hx]
    rcases d1 (List.ofFn theta ++ List.ofFn beta) with e | r
    · rfl
    · have hne : List.ofFn theta ≠ [] := by
        rw [← List.length_pos_iff, List.length_ofFn]; omega
      have hl : (List.ofFn theta).length = F.nTheta := List.length_ofFn
      have h := Reparam.c98_IS (M := F.M) (M' := F.M) ⟨rfl, rfl, fun _ => rfl⟩ F.fam
        (same_line hv theta beta t) (by rw [hl]; exact hM) (by rw [hl]; exact hM) hne hne (by simp)
        (by simp) X.chol (Lfun.computeNormalApprox r).2 g.2
      rw [hl] at h
      simp only [res_ok_bind]
      rw [h]
  · cases h

/-- **C126.** For a model with collinear covariates `glmm` returns no fit, whatever the method and the
options. -/
theorem c126 {X : Ext q} {R : Routines} {F : Frame q n p} {v : Fin p → ℝ} (hv : Null F.M v)
    (hM : Split.Spec.WellFormed F.M F.nTheta) (h1 : 1 ≤ F.nTheta) (hc : Split.Spec.Covered F.M)
    (hrd : SR.Reads X.lib.rd F.M) (hdev : FlatDevfun X (line F.nTheta v)) {method : List String}
    {control : Control.Arg} {weights : List ℝ} {prev_fit : Option (List ℝ)}
    (hprev : ∀ e, prev_fit = some e → e.length = F.nTheta + p) (hs : StopsSingular R.solve)
    (hH : ∀ lf, findLfunGlmm X F method control = Except.ok lf → ∀ d0,
      (startValue (boxOf R lf) F.nTheta (startPars p F.nTheta prev_fit)
        (List.replicate (F.nTheta + p) 0)).res = Except.ok d0 →
      ReturnsHessian (F.nTheta + p) (R.optim (List.replicate (F.nTheta + p) 0))
        fun x => devfunStd (boxOf R lf) F.nTheta (startPars p F.nTheta prev_fit) x false (d0 + 100))
    (r : Result) :
    (Whole.glmm X R (Except.ok (.random F)) method control weights prev_fit).res ≠ Except.ok r := by
  intro h
  obtain ⟨m, F', con, ws, d1, ⟨s, f⟩, t, -, -, -, hmf, -, -, hlf, -, hfit, -⟩ := glmm_ok h
  cases hmf
  refine c126_fit (B := boxOf R (s, f)) h1 (w := line F.nTheta v) ?_ ?_
    (c126_flat hv hM h1 hc hrd hdev hlf) hprev (hH _ hlf) hs _ _ _ _ hfit
  · intro h0
    apply hv.ne
    funext i
    have := congrFun h0 (Fin.natAdd F.nTheta i)
    simpa [line] using this
  · intro i hi
    have : i = Fin.castAdd p ⟨i, hi⟩ := rfl
    rw [this]
    exact Fin.append_left _ _ _

/-- **C126, independence.** If `glmm` returns a fit, the covariates are linearly independent. -/
theorem c126_independent {X : Ext q} {R : Routines} {F : Frame q n p}
    (hM : Split.Spec.WellFormed F.M F.nTheta) (h1 : 1 ≤ F.nTheta) (hc : Split.Spec.Covered F.M)
    (hrd : SR.Reads X.lib.rd F.M) (hdev : ∀ v, Null F.M v → FlatDevfun X (line F.nTheta v))
    {method : List String} {control : Control.Arg} {weights : List ℝ} {prev_fit : Option (List ℝ)}
    (hprev : ∀ e, prev_fit = some e → e.length = F.nTheta + p) (hs : StopsSingular R.solve)
    (hH : ∀ lf, findLfunGlmm X F method control = Except.ok lf → ∀ d0,
      (startValue (boxOf R lf) F.nTheta (startPars p F.nTheta prev_fit)
        (List.replicate (F.nTheta + p) 0)).res = Except.ok d0 →
      ReturnsHessian (F.nTheta + p) (R.optim (List.replicate (F.nTheta + p) 0))
        fun x => devfunStd (boxOf R lf) F.nTheta (startPars p F.nTheta prev_fit) x false (d0 + 100))
    {r : Result}
    (h : (Whole.glmm X R (Except.ok (.random F)) method control weights prev_fit).res = Except.ok r) :
    LinearIndependent ℝ fun (l : Fin p) (j : Fin n) => F.M.X j l := by
  by_contra hno
  obtain ⟨v, hv, i, hi⟩ := Fintype.not_linearIndependent_iff.1 hno
  have hnull : Null F.M v := by
    refine ⟨fun h0 => hi (congrFun h0 i), fun j => ?_⟩
    have := congrFun hv j
    rw [Finset.sum_apply] at this
    rw [← show _ = (0 : ℝ) from this]
    exact Finset.sum_congr rfl fun l _ => mul_comm _ _
  exact c126 hnull hM h1 hc hrd (hdev v hnull) hprev hs hH r h

/-! ## How collinear covariates arise -/

/-- **C126, a formula and its subformula:** if some combination of the covariates of one frame is a
combination of those of the other, the covariates of the frames put together are collinear. -/
theorem c126_concat {A B H : Frames.Frame} (h : Frames.concatenateFrames A B = Except.ok H)
    {a b : ℕ → ℝ} (hne : (∃ j < A.X.ncol, a j ≠ 0) ∨ ∃ j < B.X.ncol, b j ≠ 0) {n : ℕ}
    (hab : ∀ i < n, ∑ j ∈ Finset.range A.X.ncol, A.X.e i j * a j =
      ∑ j ∈ Finset.range B.X.ncol, B.X.e i j * b j)
    {M : Split.ModFr q n H.X.ncol} (hM : ∀ i l, M.X i l = H.X.e i l) :
    Null M fun l => if (l : ℕ) < A.X.ncol then a l else -b (l - A.X.ncol) := by
  have hX : A.X.cbind B.X = Except.ok H.X := by
    unfold Frames.concatenateFrames at h
    rcases hX : A.X.cbind B.X with e | X
    · rw [hX] at h; cases h
    rw [hX] at h
    simp only [res_ok_bind] at h
    generalize A.reTrms = ra at h
    generalize B.reTrms = rb at h
    rcases ra with _ | r
    · cases Except.ok.inj h
      rfl
    · rcases rb with _ | s
      · cases Except.ok.inj h
        rfl
      · dsimp only at h
        rcases hrs : Frames.concatenateRe r s with e | rs
        · rw [hrs] at h; cases h
        · rw [hrs] at h
          cases Except.ok.inj h
          rfl
  obtain ⟨-, -, hd⟩ := Frames.cbind_dims hX
  constructor
  · intro h0
    rcases hne with ⟨j, hj, hja⟩ | ⟨j, hj, hjb⟩
    · have := congrFun h0 ⟨j, by omega⟩
      simp only [hj, if_true, Pi.zero_apply] at this
      exact hja this
    · have := congrFun h0 ⟨A.X.ncol + j, by omega⟩
      simp only [Pi.zero_apply] at this
      rw [if_neg (by omega), Nat.add_sub_cancel_left] at this
      exact hjb (neg_eq_zero.1 this)
  · intro i
    have hs := Frames.cbind_sum hX (fun l => if l < A.X.ncol then a l else -b (l - A.X.ncol)) i
    rw [Finset.sum_range] at hs
    simp only [hM]
    rw [hs, Finset.sum_congr rfl fun j hj => by rw [if_pos (Finset.mem_range.1 hj)], hab i i.2,
      ← Finset.sum_add_distrib]
    refine Finset.sum_eq_zero fun j _ => ?_
    unfold Frames.from_
    dsimp only
    rw [if_neg (by omega), Nat.add_sub_cancel_left]
    ring

/-- An intercept and a covariate in a formula, an intercept in its subformula. -/
def outer : Frames.Frame := ⟨⟨3, 2, fun i j => if j = 0 then 1 else i⟩, none⟩

def inner : Frames.Frame := ⟨⟨3, 1, fun _ _ => 1⟩, none⟩

example : ∃ H, Frames.concatenateFrames outer inner = Except.ok H ∧
    ∀ M : Split.ModFr 3 3 H.X.ncol, (∀ i l, M.X i l = H.X.e i l) → ∃ v, Null M v := by
  obtain ⟨H, hH⟩ : ∃ H, Frames.concatenateFrames outer inner = Except.ok H := ⟨_, rfl⟩
  refine ⟨H, hH, fun M hM => ⟨_, c126_concat hH (a := fun j => if j = 0 then 1 else 0)
    (b := fun _ => 1) (.inl ⟨0, by norm_num [outer], by norm_num⟩) (fun i _ => ?_) hM⟩⟩
  norm_num [outer, inner, Finset.sum_range_succ]

/-! ## A concrete case -/

/-- Three observations with an intercept that is there twice, as in a formula and in a subformula. -/
noncomputable def twice : Split.ModFr 3 3 2 := Reparam.recode Reparam.trend !![1, 1; 0, 0]

theorem twice_null : Null twice ![1, -1] where
  ne h := by
    have := congrFun h 0
    norm_num at this
  zero j := by
    fin_cases j <;>
      norm_num [twice, Reparam.recode, Reparam.trend, Matrix.mul_apply, Fin.sum_univ_two]

noncomputable def twiceFrame : Frame 3 3 2 :=
  ⟨twice, 1, [0], "binomial", "logit", ⟨fun x => 1 / (1 + Real.exp (-x)), fun y mu w => w * (y - mu) ^ 2⟩⟩

/-- The deviance depends on the sum of the two intercepts. -/
noncomputable def twiceDev (x : List ℝ) : ℝ := x.getD 0 0 ^ 2 + (x.getD 1 0 + x.getD 2 0 - 1) ^ 2

noncomputable def twiceExt (lib : Lib) (env : Env) (ops : Control.Ops) : Ext 3 where
  lib := lib
  env := env
  ops := ops
  devfun _ := Except.ok fun x => Except.ok (twiceDev x, ⟨1, 1, 0⟩)
  rnorm m := List.replicate m 0
  chol A := A
  grad _ _ _ := Except.ok 0
  hessian _ _ _ := Except.ok 0

open Classical in
/-- `solve` that stops for singular matrices. -/
noncomputable def solve (H : List (List ℝ)) : Res (List (List ℝ)) :=
  if ∃ (k : ℕ) (A : Matrix (Fin k) (Fin k) ℝ) (w : Fin k → ℝ), w ≠ 0 ∧ A.mulVec w = 0 ∧
    H = List.ofFn fun i => List.ofFn fun j => A i j then Res.raise "exactly singular"
  else Except.ok H

theorem solve_stops : StopsSingular solve := fun k A w h0 hA =>
  ⟨.throw "exactly singular", if_pos ⟨k, A, w, h0, hA, rfl⟩⟩

/-- The likelihood function of the case, with an optimiser and `solve` that are not used. -/
noncomputable def twiceBox : Box :=
  ⟨fun x => Except.ok (-twiceDev x / 2), fun _ => .stop "", fun _ => Res.raise "", fun _ => false⟩

/-- An optimiser that goes to the maximum at `[0, 0.5, 0.5]` and returns the Hessian matrix there. -/
noncomputable def twiceRoutines : Routines where
  optim par0 := .ask par0 fun v0 => .done (List.ofFn ![-0.5, 0.5, 0.5])
    (hessian (objective fun x => devfunStd twiceBox 1 [0.5, 0, 0] x false (v0 + 100))
      (![-0.5, 0.5, 0.5] : Fin 3 → ℝ)) 0
  solve := solve
  smallEigenvalue _ := false

theorem twice_flat (lib : Lib) (env : Env) (ops : Control.Ops) :
    FlatDevfun (twiceExt lib env ops) (line twiceFrame.nTheta ![1, -1]) := by
  intro a d h x t
  cases Except.ok.inj h
  have : twiceDev (List.ofFn (x + t • line twiceFrame.nTheta ![1, -1])) = twiceDev (List.ofFn x) := by
    obtain ⟨theta, beta, e1, e2⟩ := line_split ![1, -1] x t
    rw [e1, e2]
    have ht : List.ofFn theta = [theta ⟨0, Nat.one_pos⟩] := rfl
    rw [ht]
    simp [twiceDev, List.ofFn_succ]
    ring
  dsimp only
  rw [this]

/-- With the optimiser at the maximum and the exact Hessian matrix, no fit is returned. -/
theorem twice_none (lib : Lib) (hrd : lib.rd = GLMM.read) (env : Env) (ops : Control.Ops)
    (control : Control.Arg) (ho : Control.value control "order" = .num 1) (weights : List ℝ)
    (r : Result) :
    (Whole.glmm (twiceExt lib env ops) twiceRoutines (Except.ok (.random twiceFrame)) ["Laplace"]
      control weights none).res ≠ Except.ok r := by
  refine c126 (F := twiceFrame) twice_null (Reparam.recode_wf _ Reparam.trend_wf) le_rfl
    Reparam.trend_covered ?_ (twice_flat lib env ops) (fun e he => by cases he) solve_stops ?_ r
  · change SR.Reads lib.rd twice
    rw [hrd]
    exact ⟨fun _ _ _ _ => rfl, Or.inl (by simp [twice, Reparam.recode, Reparam.trend, Reorder.chain])⟩
  · intro lf hlf d0 h0 par H conv hr
    obtain ⟨s, f, hlf', hval⟩ := c85_laplace (twiceExt lib env ops) twiceFrame ho rfl
    rw [hlf] at hlf'
    cases Except.ok.inj hlf'
    have hbox : ∀ x b big, devfunStd (boxOf twiceRoutines (s, f)) 1 [0.5, 0, 0] x b big =
        devfunStd twiceBox 1 [0.5, 0, 0] x b big := by
      intro x b big
      have : (boxOf twiceRoutines (s, f)).lfun = twiceBox.lfun := by
        funext x
        exact hval x s
      unfold devfunStd devfunExt callLfun
      rw [this]
    have hstart : startPars 2 twiceFrame.nTheta none = [0.5, 0, 0] := rfl
    rw [hstart] at h0 hr ⊢
    obtain ⟨l0, -, -, hv0⟩ := Refit.start_value (k := 3) Nat.one_pos rfl (by norm_num)
      (Refit.start_within 2 1) h0
    obtain ⟨w0, hw0, hr, -⟩ := bind_ok
      (show ((devfunStd (boxOf twiceRoutines (s, f)) 1 [0.5, 0, 0] _ false (d0 + 100)) >>=
        fun v => _).res = Except.ok (par, H, conv) from hr)
    have hw0 := hw0.symm.trans (hv0 false (d0 + 100))
    cases Except.ok.inj hw0
    cases Except.ok.inj hr
    refine ⟨![-0.5, 0.5, 0.5], rfl, ?_⟩
    have he : (fun x => devfunStd (boxOf twiceRoutines (s, f)) twiceFrame.nTheta [0.5, 0, 0] x false
      (d0 + 100)) = fun x => devfunStd twiceBox 1 [0.5, 0, 0] x false (d0 + 100) :=
      funext fun x => hbox x false _
    rw [he]
    rfl

/-! ## A case with a fit: the model of Props/Refit -/

/-- What the optimiser is given near the start, as a polynomial. -/
noncomputable def poly (z : Fin 2 → ℝ) : ℝ := 2 * (z 0 - 0.5) ^ 2 + 2 * (z 1 - 2) ^ 2

/-- The derivative of `poly`. -/
noncomputable def polyD (z : Fin 2 → ℝ) : (Fin 2 → ℝ) →L[ℝ] ℝ :=
  (4 * (z 0 - 0.5)) • ContinuousLinearMap.proj 0 + (4 * (z 1 - 2)) • ContinuousLinearMap.proj 1

theorem poly_fderiv : fderiv ℝ poly = polyD := by
  funext z
  apply HasFDerivAt.fderiv
  have h0 := (((hasFDerivAt_apply (𝕜 := ℝ) (0 : Fin 2) z).sub_const 0.5).pow 2).const_mul 2
  have h1 := (((hasFDerivAt_apply (𝕜 := ℝ) (1 : Fin 2) z).sub_const 2).pow 2).const_mul 2
  refine (h0.add h1).congr_fderiv ?_
  ext v
  simp [polyD]
  ring

theorem poly_hessian (y : Fin 2 → ℝ) : hessian poly y = [[4, 0], [0, 4]] := by
  have h : HasFDerivAt polyD
      (((4 : ℝ) • (ContinuousLinearMap.proj 0 : (Fin 2 → ℝ) →L[ℝ] ℝ)).smulRight
          (ContinuousLinearMap.proj 0 : (Fin 2 → ℝ) →L[ℝ] ℝ) +
        ((4 : ℝ) • (ContinuousLinearMap.proj 1 : (Fin 2 → ℝ) →L[ℝ] ℝ)).smulRight
          (ContinuousLinearMap.proj 1 : (Fin 2 → ℝ) →L[ℝ] ℝ)) y :=
    ((((hasFDerivAt_apply (𝕜 := ℝ) (0 : Fin 2) y).sub_const 0.5).const_mul 4).smul_const
      (ContinuousLinearMap.proj 0 : (Fin 2 → ℝ) →L[ℝ] ℝ)).add
      ((((hasFDerivAt_apply (𝕜 := ℝ) (1 : Fin 2) y).sub_const 2).const_mul 4).smul_const
        (ContinuousLinearMap.proj 1 : (Fin 2 → ℝ) →L[ℝ] ℝ))
  unfold hessian
  rw [poly_fderiv, h.fderiv]
  simp [List.ofFn_succ]

theorem model_hessian {y : Fin 2 → ℝ} (hy : y 0 = 0) (big : WithTop ℝ) :
    hessian (objective fun x => devfunStd Refit.model 1 [0.5, 1] x false big) y =
      [[4, 0], [0, 4]] := by
  have he : (objective fun x => devfunStd Refit.model 1 [0.5, 1] x false big) =ᶠ[nhds y] poly := by
    have hc : Filter.Tendsto (fun z : Fin 2 → ℝ => z 0) (nhds y) (nhds 0) := by
      rw [← hy]
      exact (continuous_apply 0).continuousAt
    filter_upwards [hc (Ioo_mem_nhds (show (-0.5 : ℝ) < 0 by norm_num) (show (0 : ℝ) < 0.5 by norm_num))]
      with z hz
    have h1 : (-0.5 : ℝ) < z 0 := hz.1
    have h2 : z 0 < 0.5 := hz.2
    have hpos : 0 < z 0 + 0.5 := by linarith
    unfold objective
    rw [show List.ofFn z = [z 0, z 1] from by simp [List.ofFn_succ]]
    dsimp only
    rw [Refit.model_dev 0.5 1 (z 0) (z 1) false big (by rw [abs_of_pos hpos]; linarith)]
    dsimp only
    rw [WithTop.untopD_coe, abs_of_pos hpos]
    unfold poly
    ring
  rw [← poly_hessian y]
  unfold hessian
  rw [he.fderiv.fderiv_eq]

theorem model_stops : StopsSingular Refit.model.solve := by
  intro k A w h0 hA
  refine ⟨.throw "singular", if_neg fun h => h0 ?_⟩
  have hk : k = 2 := by simpa using congrArg List.length h
  subst hk
  simp only [List.ofFn_succ, List.ofFn_zero, List.cons.injEq, and_true] at h
  obtain ⟨⟨a, b⟩, c, d⟩ := h
  have e0 := congrFun hA 0
  have e1 := congrFun hA 1
  simp only [Matrix.mulVec, dotProduct, Fin.sum_univ_two, Pi.zero_apply] at e0 e1
  simp only [Fin.succ_zero_eq_one] at b c d
  rw [a, b] at e0
  rw [c, d] at e1
  funext i
  fin_cases i
  · show w 0 = 0
    linarith
  · show w 1 = 0
    linarith

theorem twoGroups_covered : Split.Spec.Covered SR.twoGroups := fun j =>
  ⟨![0, 0, 1] j, by fin_cases j <;> simp [Split.Spec.Active, SR.twoGroups]⟩

/-- The run of `glmm` in Props/Refit meets the conditions, and its covariates are independent. -/
example (lib : Lib) (hrd : lib.rd = GLMM.read) (env : Env) (ops : Control.Ops) :
    LinearIndependent ℝ fun (l : Fin 1) (j : Fin 3) => twoFrame.M.X j l := by
  refine c126_independent (F := twoFrame) (X := Refit.ext lib env ops) (R := Refit.routines)
    SR.twoGroups_wf le_rfl twoGroups_covered ?_ ?_ (prev_fit := some [0.5, 1]) ?_ model_stops ?_
    (Refit.whole_run lib env ops)
  · change SR.Reads lib.rd SR.twoGroups
    rw [hrd]
    exact ⟨fun _ _ _ _ => rfl, Or.inl (by simp [SR.twoGroups])⟩
  · intro v hv
    exfalso
    apply hv.ne
    funext i
    have := hv.zero 0
    fin_cases i
    simpa [twoFrame, SR.twoGroups] using this
  · intro e he
    cases he
    rfl
  · intro lf hlf d0 _ par H conv hr
    obtain ⟨s, f, hlf', hval⟩ := c85_laplace (Refit.ext lib env ops) twoFrame
      (control := .named [("nIS", .num 5)])
      (by simp [Control.value, Control.given, Control.dflt]) rfl
    rw [hlf] at hlf'
    cases Except.ok.inj hlf'
    have hbox : boxOf Refit.routines (s, f) = Refit.model := by
      unfold boxOf Refit.routines
      have : (fun x => ((f x).exec s).1) = Refit.model.lfun := by
        funext x
        rw [hval x s]
        show Except.ok _ = Except.ok _
        congr 1
        ring
      rw [this]
    rw [hbox] at hr ⊢
    have hr : (Trace.run (fun x => devfunStd Refit.model 1 [0.5, 1] x false (d0 + 100))
      (Refit.oneStep (fun _ => [0, 1]) [[4, 0], [0, 4]] [0, 0])).res = Except.ok (par, H, conv) := hr
    unfold Refit.oneStep at hr
    obtain ⟨v0, -, hr, -⟩ := bind_ok (show ((devfunStd Refit.model 1 [0.5, 1] _ false (d0 + 100)) >>=
      fun v => _).res = Except.ok (par, H, conv) from hr)
    obtain ⟨v1, -, hr, -⟩ := bind_ok (show ((devfunStd Refit.model 1 [0.5, 1] _ false (d0 + 100)) >>=
      fun v => _).res = Except.ok (par, H, conv) from hr)
    dsimp only at hr
    split_ifs at hr
    · cases Except.ok.inj hr
      exact ⟨![0, 1], rfl, (model_hessian (y := ![0, 1]) rfl _).symm⟩
    · cases Except.ok.inj hr
      exact ⟨![0, 0], rfl, (model_hessian (y := ![0, 0]) rfl _).symm⟩

end Verif.Collinear
