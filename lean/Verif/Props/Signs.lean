import Verif.Props.Fit
import Verif.Props.Frames
import Verif.Props.Split
import Mathlib.Analysis.Calculus.Deriv.Mul
import Mathlib.Analysis.Calculus.Deriv.Pow
import Mathlib.LinearAlgebra.Matrix.NonsingularInverse
import Mathlib.MeasureTheory.Constructions.Pi
import Mathlib.MeasureTheory.Integral.Bochner.Basic

/-!
# C64, C66, C67: replacing variance parameters by their absolute values
-/
namespace Verif.Fit

open Verif.IS MeasureTheory Matrix

/-! ## C64: correlated random effects -/

/-- Specification: some variance parameter is not a standard deviation (its lower bound is not 0;
`lme4` sets -Inf, for which any number that is not 0 stands). -/
def Spec.Correlated (lower : List ℝ) : Prop := ∃ x ∈ lower, x ≠ 0

theorem finish_correlated {lower : List ℝ} (h : Spec.Correlated lower) (p_theta : ℕ) (opt : Opt) :
    (finish lower p_theta opt).res = Except.ok (.opt opt) := by
  unfold finish
  rw [if_neg]
  · rfl
  · obtain ⟨x, hx, h0⟩ := h
    intro hall
    have := List.all_eq_true.1 hall x hx
    exact h0 (by simpa using this)

/-- `finish` always returns. -/
theorem finish_runs {lower : List ℝ} (hl : ∀ y ∈ lower, y = 0) {p_theta : ℕ} (hp : 0 < p_theta)
    {opt : Opt} (hlen : p_theta ≤ opt.estim.length) :
    ∃ res, (finish lower p_theta opt).res = Except.ok res := by
  have hall : (lower.all fun x => decide (x = 0)) = true := by
    rw [List.all_eq_true]
    intro x hx
    simpa using hl x hx
  obtain ⟨out, ho⟩ : ∃ out, absTheta opt.estim p_theta = Except.ok out := by
    unfold absTheta
    rw [if_neg (not_lt.2 hlen)]
    exact ⟨_, rfl⟩
  obtain ⟨h1, -, -⟩ := absTheta_get hp ho
  obtain ⟨b, hb⟩ : ∃ b, anyGt (index out (colon 1 p_theta)) 4.9 = Except.ok b := by
    rw [index_first hp]
    unfold anyGt
    split_ifs with h h'
    · exact ⟨_, rfl⟩
    · exfalso
      obtain ⟨i, hi, e⟩ := List.mem_map.1 h'
      rw [List.getElem?_eq_none_iff] at e
      have := List.mem_range.1 hi
      omega
    · exact ⟨_, rfl⟩
  unfold finish
  rw [if_pos hall, ho]
  simp only [Run.warnIf, Run.lift, bind, Run.bind, pure, hb]
  exact ⟨_, rfl⟩

/-- C64, the part that holds: when at most one of two combined model frames has random effects, and
these are correlated, `glmm` returns what the optimiser found. Missing: two frames with random
effects (`c64_violated`). -/
theorem c64_partial {F G H : Frames.Frame} (hFG : F.reTrms = none ∨ G.reTrms = none)
    (h : Frames.concatenateFrames F G = Except.ok H)
    (hc : Spec.Correlated (Frames.Spec.lower F ++ Frames.Spec.lower G)) (p_theta : ℕ) (opt : Opt) :
    (finish (Frames.Spec.lower H) p_theta opt).res = Except.ok (.opt opt) := by
  rw [Frames.c53_partial hFG h]
  exact finish_correlated hc p_theta opt

/-- C64 is violated: the first frame has uncorrelated random effects and the second has any
random effects, correlated or not. Whenever the optimiser finds a negative parameter, it is
altered. -/
theorem c64_violated {F G H : Frames.Frame} {r s : Frames.ReTrms} (hr : F.reTrms = some r)
    (hs : G.reTrms = some s) (hu : s.upper = []) (hl : s.lower ≠ [])
    (hF : ∀ x ∈ r.lower, x = 0) (h : Frames.concatenateFrames F G = Except.ok H)
    {p_theta : ℕ} (hp : 0 < p_theta) {opt : Opt} {i : ℕ} {v : ℝ} (hi : i < p_theta)
    (hv : opt.estim[i]? = some v) (hneg : v < 0) {res : Result}
    (hres : (finish (Frames.Spec.lower H) p_theta opt).res = Except.ok res) :
    ∃ f, res = .glmmFit f ∧ f.estim[i]? = some (-v) ∧ f.estim ≠ opt.estim := by
  have hlow : Frames.Spec.lower H = r.lower := by
    rw [(Frames.c53_violated hr hs hu hl h).2, Frames.Spec.lower, hr]
    rfl
  rw [hlow] at hres
  obtain ⟨f, hf, -, -, h3, -, -⟩ := finish_spec hp hF hres
  have hfi : f.estim[i]? = some (-v) := by
    rw [h3, hv, Option.map_some, if_pos hi, abs_of_neg hneg]
  refine ⟨f, hf, hfi, fun e => ?_⟩
  rw [e, hv] at hfi
  have := Option.some.inj hfi
  linarith

/-- One group with random intercept and slope, one observation with covariate 1. The second variance
parameter is not bounded. -/
def slope : Frames.ReTrms where
  Zt := ⟨2, 1, fun _ _ => 1⟩
  Lambdat := ⟨2, 2, [(0, 0), (0, 1), (1, 1)]⟩
  Lind := [1, 2, 3]
  theta := [1, 0, 1]
  lower := [0, -1, 0]
  upper := []

/-- A random intercept for one group. -/
def intercept : Frames.ReTrms where
  Zt := ⟨1, 1, fun _ _ => 1⟩
  Lambdat := ⟨1, 1, [(0, 0)]⟩
  Lind := [1]
  theta := [1]
  lower := [0]
  upper := []

/-- Specification: variance of the linear predictor of observation `i`, for given variance
parameters. -/
noncomputable def Spec.variance (R : Frames.ReTrms) (θ : List ℝ) (i : ℕ) : ℝ :=
  ∑ r ∈ Finset.range R.Lambdat.nrow,
    (∑ c ∈ Finset.range R.Zt.nrow, Frames.Spec.lambda R (fun k => θ.getD k 0) r c * R.Zt.e c i) ^ 2

/-- A case of `c64_violated`: for the combined frames the optimiser finds `(1, 1, -1, 1)`, the fit
has `(1, 1, 1, 1)`, and the variance of the linear predictor is another one. -/
theorem c64_case : ∃ H R f, Frames.concatenateFrames ⟨⟨1, 0, fun _ _ => 0⟩, some intercept⟩
      ⟨⟨1, 0, fun _ _ => 0⟩, some slope⟩ = Except.ok H ∧ H.reTrms = some R ∧
    Spec.Correlated (intercept.lower ++ slope.lower) ∧
    (finish (Frames.Spec.lower H) 4 ⟨[1, 1, -1, 1], []⟩).res = Except.ok (.glmmFit f) ∧
    f.estim = [1, 1, 1, 1] ∧ Spec.variance R [1, 1, -1, 1] 0 = 2 ∧
    Spec.variance R f.estim 0 = 6 := by
  have hfin : (finish [0] 4 ⟨[1, 1, -1, 1], []⟩).res =
      Except.ok (.glmmFit ⟨[1, 1, 1, 1], []⟩) := by
    have habs : absTheta [1, 1, -1, 1] 4 = Except.ok [1, 1, 1, 1] := by
      unfold absTheta
      rw [if_neg (by simp)]
      simp [colon, List.range_succ]
    have hany : anyGt (index [1, 1, 1, 1] (colon 1 4)) 4.9 = Except.ok false := by
      rw [index_first (by norm_num)]
      unfold anyGt
      rw [if_neg, if_neg]
      · simp [List.range_succ]
      · rintro ⟨v, hv, h⟩
        simp [List.range_succ] at hv
        subst hv
        norm_num at h
    unfold finish
    rw [if_pos (by simp)]
    dsimp only
    rw [habs]
    simp only [Run.warnIf, Run.lift, bind, Run.bind, pure, hany]
    simp
  refine ⟨_, _, ⟨[1, 1, 1, 1], []⟩, rfl, rfl, ⟨-1, by simp [slope], by norm_num⟩, hfin, rfl, ?_, ?_⟩
  · simp [Spec.variance, Frames.Spec.lambda, intercept, slope, Frames.concatenateMatrix,
      Finset.sum_range_succ]
    norm_num
  · simp [Spec.variance, Frames.Spec.lambda, intercept, slope, Frames.concatenateMatrix,
      Finset.sum_range_succ]
    norm_num

/-! ## C66: the likelihood does not depend on the signs -/

section Likelihood

variable {q n p : ℕ}

/-- Specification: uncorrelated random effects, `Lambdat` is diagonal. -/
def Spec.Diagonal (M : Split.ModFr q n p) : Prop := ∀ e ∈ M.lambdat, e.1 = e.2

/-- Specification: the likelihood, the integral over the random effects. -/
noncomputable def Spec.likelihood (M : Split.ModFr q n p) (μ : ℝ → ℝ) (theta beta : List ℝ) : ℝ :=
  ∫ u : Fin q → ℝ, Real.exp (Split.Spec.logIntegrand M μ theta beta u)

theorem lambdat_diagonal {M : Split.ModFr q n p} {size : ℕ} (hM : Split.Spec.WellFormed M size)
    (hd : Spec.Diagonal M) (r : Fin q) : ∃ m, ∀ theta : List ℝ, ∀ c,
      Split.Spec.lambdat M theta r c = if c = r then theta.getD m 0 else 0 := by
  obtain ⟨k, hk⟩ := List.mem_iff_get.1 (hM.diag r)
  refine ⟨(M.Lind.getD k 0 - 1).toNat, fun theta c => ?_⟩
  unfold Split.Spec.lambdat
  by_cases hc : c = r
  · subst hc
    rw [if_pos rfl, Finset.sum_eq_single k]
    · rw [if_pos hk]
    · intro l _ hl
      rw [if_neg]
      intro e
      exact hl (hM.nodup.injective_get (e.trans hk.symm))
    · intro h
      exact absurd (Finset.mem_univ _) h
  · rw [if_neg hc]
    refine Finset.sum_eq_zero fun l _ => ?_
    rw [if_neg]
    intro e
    have := hd _ (List.get_mem M.lambdat l)
    rw [e] at this
    exact hc this.symm

/-- C66: for every model frame with uncorrelated random effects, every family, all fixed effects and
all variance parameters that agree up to signs, the likelihoods are equal. -/
theorem c66 {M : Split.ModFr q n p} {size : ℕ} (hM : Split.Spec.WellFormed M size)
    (hd : Spec.Diagonal M) (μ : ℝ → ℝ) {theta theta' : List ℝ}
    (h : ∀ m, |theta.getD m 0| = |theta'.getD m 0|) (beta : List ℝ) :
    Spec.likelihood M μ theta beta = Spec.likelihood M μ theta' beta := by
  choose m hm using lambdat_diagonal hM hd
  let s : Fin q → ℝ := fun r => if theta.getD (m r) 0 = theta'.getD (m r) 0 then 1 else -1
  have hs : ∀ r, s r = 1 ∨ s r = -1 := by
    intro r
    by_cases e : theta.getD (m r) 0 = theta'.getD (m r) 0
    · left
      exact if_pos e
    · right
      exact if_neg e
  have hth : ∀ r, theta.getD (m r) 0 = s r * theta'.getD (m r) 0 := by
    intro r
    by_cases e : theta.getD (m r) 0 = theta'.getD (m r) 0
    · rw [show s r = 1 from if_pos e, one_mul, e]
    · rw [show s r = -1 from if_neg e, neg_one_mul]
      exact (abs_eq_abs.1 (h (m r))).resolve_left e
  have heta : ∀ (u : Fin q → ℝ) j, Split.Spec.eta M theta beta u j =
      Split.Spec.eta M theta' beta (fun r => s r * u r) j := by
    intro u j
    unfold Split.Spec.eta
    congr 1
    refine Finset.sum_congr rfl fun r _ => ?_
    simp only [hm, ite_mul, zero_mul, Finset.sum_ite_eq', Finset.mem_univ, if_true, hth r]
    ring
  have hpdf : ∀ (u : Fin q → ℝ) r, ProbabilityTheory.gaussianPDFReal 0 1 (s r * u r) =
      ProbabilityTheory.gaussianPDFReal 0 1 (u r) := by
    intro u r
    unfold ProbabilityTheory.gaussianPDFReal
    rcases hs r with e | e <;> rw [e] <;> simp
  have hint : ∀ u : Fin q → ℝ, Split.Spec.logIntegrand M μ theta beta u =
      Split.Spec.logIntegrand M μ theta' beta (fun r => s r * u r) := by
    intro u
    unfold Split.Spec.logIntegrand
    simp only [heta, hpdf]
  have hmp : MeasurePreserving (fun (u : Fin q → ℝ) r => s r * u r) volume volume := by
    refine volume_preserving_pi (f := fun r x => s r * x) fun r => ?_
    rcases hs r with e | e
    · rw [e]
      simp only [one_mul]
      exact MeasurePreserving.id (volume : Measure ℝ)
    · rw [e]
      simpa using Measure.measurePreserving_neg (volume : Measure ℝ)
  have hinj : Function.Injective (fun (u : Fin q → ℝ) r => s r * u r) := by
    intro u v huv
    funext r
    have := congrFun huv r
    rcases hs r with e | e <;> simpa [e] using this
  have hemb : MeasurableEmbedding (fun (u : Fin q → ℝ) r => s r * u r) :=
    (hmp.measurable).measurableEmbedding hinj
  unfold Spec.likelihood
  simp only [hint]
  exact hmp.integral_comp hemb fun u => Real.exp (Split.Spec.logIntegrand M μ theta' beta u)

/-- C66 for the code: the estimates of the fit have the same likelihood as those of the optimiser. -/
theorem c66_finish {M : Split.ModFr q n p} {p_theta : ℕ} (hM : Split.Spec.WellFormed M p_theta)
    (hd : Spec.Diagonal M) (hp : 0 < p_theta) (μ : ℝ → ℝ) {lower : List ℝ}
    (hl : ∀ x ∈ lower, x = 0) {opt : Opt} {res : Result}
    (h : (finish lower p_theta opt).res = Except.ok res) :
    ∃ f, res = .glmmFit f ∧
      Spec.likelihood M μ (f.estim.take p_theta) (f.estim.drop p_theta) =
        Spec.likelihood M μ (opt.estim.take p_theta) (opt.estim.drop p_theta) := by
  obtain ⟨f, hf, -, -, h3, -, -⟩ := finish_spec hp hl h
  refine ⟨f, hf, ?_⟩
  have hdrop : f.estim.drop p_theta = opt.estim.drop p_theta := by
    refine List.ext_getElem? fun i => ?_
    rw [List.getElem?_drop, List.getElem?_drop, h3]
    rcases opt.estim[p_theta + i]? with _ | v
    · rfl
    · rw [Option.map_some, if_neg (by omega)]
  rw [hdrop]
  refine c66 hM hd μ (fun m => ?_) _
  rw [List.getD_eq_getElem?_getD, List.getD_eq_getElem?_getD, List.getElem?_take, List.getElem?_take]
  by_cases hm : m < p_theta
  · rw [if_pos hm, if_pos hm, h3]
    rcases opt.estim[m]? with _ | v
    · rfl
    · rw [Option.map_some, if_pos hm]
      exact abs_abs v
  · rw [if_neg hm, if_neg hm]

/-- Two observations, one in each of two groups with a random intercept. -/
noncomputable def groups : Split.ModFr 2 2 1 where
  X := fun _ _ => 1
  Zt := fun r j => if r = j then 1 else 0
  ztStored := fun r j => r = j
  lambdat := [(0, 0), (1, 1)]
  Lind := [1, 1]
  resp := ![0, 1]
  weights := none
  offset := fun _ => 0

theorem groups_wf : Split.Spec.WellFormed groups 1 ∧ Spec.Diagonal groups := by
  refine ⟨⟨by decide, by decide, rfl, by decide, ?_⟩, by unfold Spec.Diagonal; decide⟩
  intro c j h
  by_contra hne
  apply h
  show (if c = j then (1 : ℝ) else 0) = 0
  rw [if_neg]
  intro e
  exact hne (decide_eq_true e)

/-- A case of `c66`. -/
example : Spec.likelihood groups Family.expit [-2] [1] = Spec.likelihood groups Family.expit [2] [1] :=
  c66 groups_wf.1 groups_wf.2 _ (fun m => by rcases m with _ | m <;> simp) _

end Likelihood

/-! ## C67: the covariance matrix after the change of signs -/

section Covariance

variable {k : ℕ}

/-- Specification: the Hessian matrix of a function. -/
noncomputable def Spec.hessian (d : (Fin k → ℝ) → ℝ) (x : Fin k → ℝ) : Matrix (Fin k) (Fin k) ℝ :=
  Matrix.of fun i j => deriv (fun a => deriv (fun b => d (x + Pi.single i a + Pi.single j b)) 0) 0

/-- Specification: the covariance matrix of the estimates `x` for the deviance `d`, twice the inverse
of the Hessian matrix. -/
noncomputable def Spec.cov (d : (Fin k → ℝ) → ℝ) (x : Fin k → ℝ) : Matrix (Fin k) (Fin k) ℝ :=
  (2 : ℝ) • (Spec.hessian d x)⁻¹

/-- Specification: the deviance does not depend on the signs of the first parameters (C66). -/
def Spec.Even (p_theta : ℕ) (d : (Fin k → ℝ) → ℝ) : Prop :=
  ∀ x y : Fin k → ℝ, (∀ i : Fin k, i < p_theta → |x i| = |y i|) →
    (∀ i : Fin k, p_theta ≤ i → x i = y i) → d x = d y

/-- Specification: the first parameters made non-negative. -/
def Spec.positive (p_theta : ℕ) (x : Fin k → ℝ) : Fin k → ℝ :=
  fun i => if i < p_theta then |x i| else x i

/-- The matrix as the list of rows. -/
def rows (S : Matrix (Fin k) (Fin k) ℝ) : List (List (Option ℝ)) :=
  List.ofFn fun i => List.ofFn fun j => some (S i j)

theorem rows_injective {S T : Matrix (Fin k) (Fin k) ℝ} (h : rows S = rows T) : S = T := by
  unfold rows at h
  have h := List.ofFn_injective h
  funext i j
  have := List.ofFn_injective (congrFun h i)
  exact Option.some.inj (congrFun this j)

/-- The sign by which a parameter is multiplied. -/
noncomputable def flip (p_theta : ℕ) (x : Fin k → ℝ) (i : Fin k) : ℝ :=
  if i < p_theta ∧ x i < 0 then -1 else 1

theorem flip_sq (p_theta : ℕ) (x : Fin k → ℝ) (i : Fin k) :
    flip p_theta x i * flip p_theta x i = 1 := by
  unfold flip
  split_ifs <;> norm_num

theorem positive_eq (p_theta : ℕ) (x : Fin k → ℝ) :
    Spec.positive p_theta x = fun i => flip p_theta x i * x i := by
  funext i
  unfold Spec.positive flip
  by_cases hi : (i : ℕ) < p_theta
  · rw [if_pos hi]
    by_cases hx : x i < 0
    · rw [if_pos ⟨hi, hx⟩, abs_of_neg hx, neg_one_mul]
    · rw [if_neg (fun h => hx h.2), abs_of_nonneg (not_lt.1 hx), one_mul]
  · rw [if_neg hi, if_neg (fun h => hi h.1), one_mul]

theorem hessian_positive {p_theta : ℕ} {d : (Fin k → ℝ) → ℝ} (hd : Spec.Even p_theta d)
    (x : Fin k → ℝ) (i j : Fin k) :
    Spec.hessian d (Spec.positive p_theta x) i j =
      flip p_theta x i * flip p_theta x j * Spec.hessian d x i j := by
  have hflip : ∀ l, flip p_theta x l = 1 ∨ flip p_theta x l = -1 ∧ (l : ℕ) < p_theta := by
    intro l
    unfold flip
    split_ifs with h
    · exact Or.inr ⟨rfl, h.1⟩
    · exact Or.inl rfl
  have hev : ∀ a b, d (Spec.positive p_theta x + Pi.single i a + Pi.single j b) =
      d (x + Pi.single i (flip p_theta x i * a) + Pi.single j (flip p_theta x j * b)) := by
    intro a b
    have key : ∀ l, (Spec.positive p_theta x + Pi.single i a + Pi.single j b : Fin k → ℝ) l =
        flip p_theta x l * (x + Pi.single i (flip p_theta x i * a) +
          Pi.single j (flip p_theta x j * b) : Fin k → ℝ) l := by
      intro l
      have hs : ∀ (m : Fin k) (c : ℝ), (Pi.single m c : Fin k → ℝ) l =
          flip p_theta x l * (Pi.single m (flip p_theta x m * c) : Fin k → ℝ) l := by
        intro m c
        by_cases hlm : l = m
        · subst hlm
          rw [Pi.single_eq_same, Pi.single_eq_same, ← mul_assoc, flip_sq, one_mul]
        · rw [Pi.single_eq_of_ne hlm, Pi.single_eq_of_ne hlm, mul_zero]
      rw [Pi.add_apply, Pi.add_apply, Pi.add_apply, Pi.add_apply, mul_add, mul_add, ← hs, ← hs,
        positive_eq]
    refine hd _ _ (fun l _ => ?_) (fun l hl => ?_)
    · rw [key, abs_mul]
      rcases hflip l with e | ⟨e, -⟩ <;> rw [e] <;> simp
    · rw [key]
      rcases hflip l with e | ⟨-, e⟩
      · rw [e, one_mul]
      · omega
  unfold Spec.hessian
  simp only [Matrix.of_apply, hev]
  have h1 : ∀ a, deriv (fun b => d (x + Pi.single i a + Pi.single j (flip p_theta x j * b))) 0 =
      flip p_theta x j * deriv (fun b => d (x + Pi.single i a + Pi.single j b)) 0 := by
    intro a
    have := deriv_comp_mul_left (flip p_theta x j)
      (fun b => d (x + Pi.single i a + Pi.single j b)) 0
    rw [mul_zero] at this
    exact this
  simp only [h1]
  have h2 := deriv_comp_mul_left (flip p_theta x i) (fun a => flip p_theta x j *
    deriv (fun b => d (x + Pi.single i a + Pi.single j b)) 0) 0
  rw [mul_zero] at h2
  rw [h2, smul_eq_mul, deriv_const_mul_field', mul_assoc]

/-- The covariance matrix that belongs to the new signs. -/
theorem cov_positive {p_theta : ℕ} {d : (Fin k → ℝ) → ℝ} (hd : Spec.Even p_theta d)
    (x : Fin k → ℝ) (i j : Fin k) :
    Spec.cov d (Spec.positive p_theta x) i j =
      flip p_theta x i * flip p_theta x j * Spec.cov d x i j := by
  set D : Matrix (Fin k) (Fin k) ℝ := Matrix.diagonal (flip p_theta x) with hD
  have hDD : D * D = 1 := by
    rw [hD, Matrix.diagonal_mul_diagonal]
    simp only [flip_sq]
    exact Matrix.diagonal_one
  have hinv : D⁻¹ = D := Matrix.inv_eq_right_inv hDD
  have hH : Spec.hessian d (Spec.positive p_theta x) = D * Spec.hessian d x * D := by
    ext a b
    rw [hD, Matrix.mul_diagonal, Matrix.diagonal_mul, hessian_positive hd]
    ring
  unfold Spec.cov
  rw [hH, Matrix.mul_inv_rev, Matrix.mul_inv_rev, hinv, Matrix.smul_apply, Matrix.smul_apply,
    ← Matrix.mul_assoc, hD, Matrix.mul_diagonal, Matrix.diagonal_mul, smul_eq_mul, smul_eq_mul]
  ring

theorem finish_ofFn {lower : List ℝ} (hl : ∀ y ∈ lower, y = 0) {p_theta : ℕ} (hp : 0 < p_theta)
    {x : Fin k → ℝ} {S : List (List (Option ℝ))} {res : Result}
    (hsmall : ∀ i : Fin k, i < p_theta → |x i| ≤ 4.9)
    (h : (finish lower p_theta ⟨List.ofFn x, S⟩).res = Except.ok res) :
    res = .glmmFit ⟨List.ofFn (Spec.positive p_theta x), S⟩ := by
  obtain ⟨f, rfl, hlen, hle, h3, -, h5⟩ := finish_spec hp hl h
  have hest : f.estim = List.ofFn (Spec.positive p_theta x) := by
    refine List.ext_getElem? fun i => ?_
    rw [h3, List.getElem?_ofFn, List.getElem?_ofFn]
    by_cases hi : i < k
    · rw [dif_pos hi, dif_pos hi, Option.map_some]
      rfl
    · rw [dif_neg hi, dif_neg hi]
      rfl
  have hno : ¬ Spec.Large p_theta f.estim := by
    rintro ⟨i, hi, v, hv, hgt⟩
    rw [hest, List.getElem?_ofFn] at hv
    split_ifs at hv with hik
    have hv := Option.some.inj hv
    have := hsmall ⟨i, hik⟩ hi
    rw [Spec.positive, if_pos hi] at hv
    linarith
  have := (h5 hno).1
  rcases f with ⟨e, T⟩
  simp only at this hest
  rw [this, hest]

/-- C67, exact domain: for every deviance that does not depend on the signs of the variance
parameters, and every optimiser that finds estimates with their covariance matrix, the fit has the
covariance matrix of its estimates if and only if parameters whose sign is changed are uncorrelated
with those whose sign is not. -/
theorem c67_iff {lower : List ℝ} (hl : ∀ y ∈ lower, y = 0) {p_theta : ℕ} (hp : 0 < p_theta)
    {d : (Fin k → ℝ) → ℝ} (hd : Spec.Even p_theta d) {x : Fin k → ℝ}
    (hsmall : ∀ i : Fin k, i < p_theta → |x i| ≤ 4.9) {res : Result}
    (h : (finish lower p_theta ⟨List.ofFn x, rows (Spec.cov d x)⟩).res = Except.ok res) :
    ∃ f, res = .glmmFit f ∧ f.estim = List.ofFn (Spec.positive p_theta x) ∧
      (f.Sigma = rows (Spec.cov d (Spec.positive p_theta x)) ↔
        ∀ i j : Fin k, (i < p_theta ∧ x i < 0) → ¬ (j < p_theta ∧ x j < 0) →
          Spec.cov d x i j = 0 ∧ Spec.cov d x j i = 0) := by
  refine ⟨_, finish_ofFn hl hp hsmall h, rfl, ?_⟩
  dsimp only
  constructor
  · intro e i j hi hj
    have e := rows_injective e
    have h1 := congrFun (congrFun e i) j
    have h2 := congrFun (congrFun e j) i
    rw [cov_positive hd, flip, flip, if_pos hi, if_neg hj] at h1
    rw [cov_positive hd, flip, flip, if_pos hi, if_neg hj] at h2
    constructor <;> linarith
  · intro hz
    congr 1
    ext i j
    rw [cov_positive hd]
    unfold flip
    by_cases hi : (i : ℕ) < p_theta ∧ x i < 0
    · by_cases hj : (j : ℕ) < p_theta ∧ x j < 0
      · rw [if_pos hi, if_pos hj]
        ring
      · rw [if_pos hi, if_neg hj, (hz i j hi hj).1, mul_zero]
    · by_cases hj : (j : ℕ) < p_theta ∧ x j < 0
      · rw [if_neg hi, if_pos hj, (hz j i hj hi).2, mul_zero]
      · rw [if_neg hi, if_neg hj]
        ring

/-- C67, the part that holds: the variances (hence the standard errors of `summary`) are always those
of the estimates of the fit, and the whole matrix is if the optimiser finds no negative variance
parameter. Missing: the covariances (`c67_iff`, `c67_violated`). -/
theorem c67_partial {lower : List ℝ} (hl : ∀ y ∈ lower, y = 0) {p_theta : ℕ} (hp : 0 < p_theta)
    {d : (Fin k → ℝ) → ℝ} (hd : Spec.Even p_theta d) {x : Fin k → ℝ}
    (hsmall : ∀ i : Fin k, i < p_theta → |x i| ≤ 4.9) {res : Result}
    (h : (finish lower p_theta ⟨List.ofFn x, rows (Spec.cov d x)⟩).res = Except.ok res) :
    ∃ f S, res = .glmmFit f ∧ f.estim = List.ofFn (Spec.positive p_theta x) ∧
      f.Sigma = rows S ∧ (∀ i, S i i = Spec.cov d (Spec.positive p_theta x) i i) ∧
      ((∀ i : Fin k, i < p_theta → 0 ≤ x i) → S = Spec.cov d (Spec.positive p_theta x)) := by
  refine ⟨_, _, finish_ofFn hl hp hsmall h, rfl, rfl, fun i => ?_, fun hx => ?_⟩
  · rw [cov_positive hd, flip_sq, one_mul]
  · congr 1
    funext i
    unfold Spec.positive
    split_ifs with hi
    · exact (abs_of_nonneg (hx i hi)).symm
    · rfl

/-- A deviance with one variance parameter and one fixed effect; it is least at `(1, 0)` and at
`(-1, 0)`. -/
def wells (x : Fin 2 → ℝ) : ℝ := (x 0 ^ 2 - 1 + x 1) ^ 2 + x 1 ^ 2

theorem wells_even : Spec.Even 1 wells := by
  intro x y h h'
  have h0 : |x 0| = |y 0| := h 0 (by decide)
  have h1 : x 1 = y 1 := h' 1 (by decide)
  unfold wells
  rw [← sq_abs (x 0), h0, sq_abs, h1]

theorem wells_deriv (s t u v : ℝ) :
    deriv (fun a => deriv (fun b => ((-1 + s * a + u * b) ^ 2 - 1 + (t * a + v * b)) ^ 2 +
      (t * a + v * b) ^ 2) 0) 0 = 2 * (t - 2 * s) * (v - 2 * u) + 2 * t * v := by
  have inner : ∀ a, deriv (fun b => ((-1 + s * a + u * b) ^ 2 - 1 + (t * a + v * b)) ^ 2 +
      (t * a + v * b) ^ 2) 0 =
      2 * ((-1 + s * a) ^ 2 - 1 + t * a) * (2 * (-1 + s * a) * u + v) + 2 * (t * a) * v := by
    intro a
    have h1 : HasDerivAt (fun b : ℝ => -1 + s * a + u * b) (u * 1) 0 :=
      ((hasDerivAt_id (0 : ℝ)).const_mul u).const_add _
    have h2 : HasDerivAt (fun b : ℝ => t * a + v * b) (v * 1) 0 :=
      ((hasDerivAt_id (0 : ℝ)).const_mul v).const_add _
    have h3 := ((((h1.pow 2).sub_const 1).add h2).pow 2).add (h2.pow 2)
    refine HasDerivAt.deriv (h3.congr_deriv ?_)
    norm_num
  simp only [inner]
  have h1 : HasDerivAt (fun a : ℝ => -1 + s * a) (s * 1) 0 :=
    ((hasDerivAt_id (0 : ℝ)).const_mul s).const_add _
  have h2 : HasDerivAt (fun a : ℝ => t * a) (t * 1) 0 := (hasDerivAt_id (0 : ℝ)).const_mul t
  have h3 := (((((h1.pow 2).sub_const 1).add h2).const_mul 2).mul
    (((h1.const_mul 2).mul_const u).add_const v)).add ((h2.const_mul 2).mul_const v)
  refine HasDerivAt.deriv (h3.congr_deriv ?_)
  norm_num
  ring

theorem wells_cov : Spec.cov wells ![-1, 0] = !![1/2, 1/2; 1/2, 1] := by
  have hH : Spec.hessian wells ![-1, 0] = !![8, -4; -4, 4] := by
    ext i j
    have h := wells_deriv (if i = 0 then 1 else 0) (if i = 1 then 1 else 0)
      (if j = 0 then 1 else 0) (if j = 1 then 1 else 0)
    refine Eq.trans ?_ (h.trans ?_)
    · unfold Spec.hessian wells
      rw [Matrix.of_apply]
      congr 1
      funext a
      congr 1
      funext b
      simp only [Pi.add_apply]
      fin_cases i <;> fin_cases j <;> simp
    · fin_cases i <;> fin_cases j <;> norm_num
  unfold Spec.cov
  rw [hH, Matrix.inv_eq_right_inv (B := !![1/4, 1/4; 1/4, 1/2])]
  · ext i j
    fin_cases i <;> fin_cases j <;> norm_num
  · ext i j
    fin_cases i <;> fin_cases j <;> norm_num [Matrix.mul_apply, Fin.sum_univ_two]

/-- The violation of C67: the optimiser finds `(-1, 0)` with a positive covariance, the fit has the
estimates `(1, 0)`, for which the covariance is negative, and keeps the positive one. -/
theorem c67_violated : ∃ f, (finish [0] 1 ⟨List.ofFn ![-1, 0], rows (Spec.cov wells ![-1, 0])⟩).res =
      Except.ok (.glmmFit f) ∧ f.estim = List.ofFn ![1, 0] ∧
    f.Sigma = rows !![1/2, 1/2; 1/2, 1] ∧
    Spec.cov wells ![1, 0] = !![1/2, -1/2; -1/2, 1] := by
  have hpos : Spec.positive 1 (![-1, 0] : Fin 2 → ℝ) = ![1, 0] := by
    funext i
    fin_cases i <;> simp [Spec.positive]
  obtain ⟨res, hres⟩ : ∃ res, (finish [0] 1 ⟨List.ofFn ![-1, 0],
      rows (Spec.cov wells ![-1, 0])⟩).res = Except.ok res :=
    finish_runs (by simp) one_pos (by simp)
  have := finish_ofFn (k := 2) (by simp) one_pos (by
    intro i hi
    have : i = 0 := by omega
    subst this
    norm_num) hres
  rw [hpos] at this
  subst this
  refine ⟨_, hres, rfl, by rw [wells_cov], ?_⟩
  ext i j
  have h := cov_positive wells_even ![-1, 0] i j
  rw [hpos] at h
  rw [h, wells_cov]
  fin_cases i <;> fin_cases j <;> norm_num [flip]

end Covariance

end Verif.Fit
