import Verif.Model.Integrated
import Verif.Props.Quadrature
import Verif.Proofs.Eigen
import Verif.Proofs.Gauss
import Mathlib.Analysis.Calculus.FDeriv.Symmetric
import Mathlib.Analysis.Calculus.FDeriv.Pi
import Mathlib.Analysis.SpecialFunctions.Log.Deriv
import Mathlib.Analysis.SpecialFunctions.ExpDeriv

/-! Closed forms and calculus for integrated factors. -/
namespace Verif.Integrated

open Verif.Eigen Verif.Gauss Verif.Quad Matrix

variable {n m k : ℕ}

/-- The linear functional with the given coefficients. -/
noncomputable def lin (v : Fin n → ℝ) : (Fin n → ℝ) →L[ℝ] ℝ :=
  ∑ j, v j • (ContinuousLinearMap.proj j : (Fin n → ℝ) →L[ℝ] ℝ)

theorem lin_apply (v z : Fin n → ℝ) : lin v z = ∑ j, v j * z j := by
  simp [lin, ContinuousLinearMap.sum_apply]

/-- `F` is twice differentiable with gradient `G` and Hessian `H`. -/
structure TwiceDiff (F : (Fin n → ℝ) → ℝ) (G : (Fin n → ℝ) → Fin n → ℝ)
    (H : (Fin n → ℝ) → Matrix (Fin n) (Fin n) ℝ) : Prop where
  grad : ∀ y, HasFDerivAt F (lin (G y)) y
  hess : ∀ y j, HasFDerivAt (fun z => G z j) (lin (H y j)) y

theorem TwiceDiff.symm {F : (Fin n → ℝ) → ℝ} {G : (Fin n → ℝ) → Fin n → ℝ}
    {H : (Fin n → ℝ) → Matrix (Fin n) (Fin n) ℝ} (h : TwiceDiff F G H) (y : Fin n → ℝ)
    (i j : Fin n) : H y i j = H y j i := by
  have h1 : HasFDerivAt (fun z => lin (G z)) (∑ a, (lin (H y a)).smulRight
      (ContinuousLinearMap.proj a : (Fin n → ℝ) →L[ℝ] ℝ)) y := by
    have e : (fun z => lin (G z)) = fun z => ∑ a, G z a •
        (ContinuousLinearMap.proj a : (Fin n → ℝ) →L[ℝ] ℝ) := rfl
    rw [e]
    exact HasFDerivAt.fun_sum fun a _ => (h.hess y a).smul_const
      (ContinuousLinearMap.proj a : (Fin n → ℝ) →L[ℝ] ℝ)
  have h2 := second_derivative_symmetric h.grad h1 (Pi.single j 1) (Pi.single i 1)
  simpa [ContinuousLinearMap.sum_apply, lin_apply, Pi.single_apply] using h2

theorem readAt_ok {α : Type} (v : Fin n → α) (i : Fin n) : readAt v i = Except.ok (v i) := by
  rw [readAt, dif_pos i.2]

theorem rowAt_ok (a : Matrix (Fin n) (Fin n) ℝ) (i : Fin n) : rowAt a i = Except.ok (a i) := by
  rw [rowAt, dif_pos i.2]

theorem findConditionalMean_eq (a : IF m) (x : Fin m → ℝ) :
    a.findConditionalMean x = a.mean1 - a.cross ⬝ᵥ (x - a.mean2) := by
  rw [IF.findConditionalMean]
  split
  · rfl
  · obtain rfl : m = 0 := by omega
    simp

/-! ## Closed forms -/

section closed

variable {a : IF m} {F : (Fin (m + 1) → ℝ) → ℝ} {G : (Fin (m + 1) → ℝ) → Fin (m + 1) → ℝ}
  {H : (Fin (m + 1) → ℝ) → Matrix (Fin (m + 1)) (Fin (m + 1)) ℝ}

/-- The object holds functions that always return, and the position is in range. -/
structure Holds (a : IF m) (i : Fin (m + 1)) (F : (Fin (m + 1) → ℝ) → ℝ)
    (G : (Fin (m + 1) → ℝ) → Fin (m + 1) → ℝ)
    (H : (Fin (m + 1) → ℝ) → Matrix (Fin (m + 1)) (Fin (m + 1)) ℝ) : Prop where
  idx : a.integrateOver = i
  fn : ∀ y, a.function y = Except.ok (F y)
  dfn : ∀ y, a.derivativeFunction y = Except.ok (G y)
  hfn : ∀ y, a.secondDerivativeFunction y = Except.ok (H y)

/-- Point number `j` of the rule for the argument `x`. -/
noncomputable def pt (a : IF m) (i : Fin (m + 1)) (rule : Rule k) (x : Fin m → ℝ) (j : Fin k) :
    Fin (m + 1) → ℝ :=
  i.insertNth (Real.sqrt 2 * a.sigmaConditional * rule.nodes j + a.findConditionalMean x) x

/-- Total weight of point number `j`. -/
noncomputable def wt (a : IF m) (rule : Rule k) (j : Fin k) : ℝ :=
  Real.sqrt 2 * a.sigmaConditional * (rule.weights j * Real.exp (rule.nodes j ^ 2))

/-- The integrand at a point. -/
noncomputable def V (a : IF m) (F : (Fin (m + 1) → ℝ) → ℝ) (y : Fin (m + 1) → ℝ) : ℝ :=
  Real.exp (F y - a.logValueAtMean)

/-- Derivative of the logarithm of the integrand in direction `r`. -/
def dirG (a : IF m) (i : Fin (m + 1)) (g : Fin (m + 1) → ℝ) (r : Fin m) : ℝ :=
  g (i.succAbove r) - a.cross r * g i

/-- Second derivative in directions `r`, `s`. -/
def dirH (a : IF m) (i : Fin (m + 1)) (h : Matrix (Fin (m + 1)) (Fin (m + 1)) ℝ) (r s : Fin m) :
    ℝ :=
  h (i.succAbove r) (i.succAbove s) - a.cross r * h i (i.succAbove s)
    - h i (i.succAbove r) * a.cross s + a.cross r * a.cross s * h i i

/-- The sum computed by the code. -/
noncomputable def I0 (a : IF m) (i : Fin (m + 1)) (F : (Fin (m + 1) → ℝ) → ℝ) (rule : Rule k)
    (x : Fin m → ℝ) : ℝ := ∑ j, wt a rule j * V a F (pt a i rule x j)

noncomputable def I1 (a : IF m) (i : Fin (m + 1)) (F : (Fin (m + 1) → ℝ) → ℝ)
    (G : (Fin (m + 1) → ℝ) → Fin (m + 1) → ℝ) (rule : Rule k)
    (x : Fin m → ℝ) (r : Fin m) : ℝ :=
  ∑ j, wt a rule j * (V a F (pt a i rule x j) * dirG a i (G (pt a i rule x j)) r)

noncomputable def I2 (a : IF m) (i : Fin (m + 1)) (F : (Fin (m + 1) → ℝ) → ℝ)
    (G : (Fin (m + 1) → ℝ) → Fin (m + 1) → ℝ)
    (H : (Fin (m + 1) → ℝ) → Matrix (Fin (m + 1)) (Fin (m + 1)) ℝ) (rule : Rule k)
    (x : Fin m → ℝ) (r s : Fin m) : ℝ :=
  ∑ j, wt a rule j * (V a F (pt a i rule x j) *
    (dirH a i (H (pt a i rule x j)) r s +
      dirG a i (G (pt a i rule x j)) r * dirG a i (G (pt a i rule x j)) s))

theorem integrateNoLog_ok {i : Fin (m + 1)} (h : Holds a i F G H) (junk : Junk m) (rule : Rule k)
    (x : Fin m → ℝ) :
    a.integrateNoLog junk x (a.findConditionalMean x) rule = Except.ok (I0 a i F rule x) := by
  rw [IF.integrateNoLog, IF.extendArgument, h.idx, extend_ok]
  simp only [res_ok_bind]
  rw [integrate1D_ok (fun j => V a F (pt a i rule x j))]
  · congr 1
    rw [I0, Finset.smul_sum]
    exact Finset.sum_congr rfl fun j _ => by rw [wt]; simp only [smul_eq_mul]; ring
  · intro j
    rw [writeAt_ok, Fin.update_insertNth]
    simp only [res_ok_bind]
    rw [h.fn]
    rfl

theorem integrateDerivativeNoLog_ok {i : Fin (m + 1)} (h : Holds a i F G H) (junk : Junk m)
    (rule : Rule k) (x : Fin m → ℝ) :
    a.integrateDerivativeNoLog junk x (a.findConditionalMean x) rule =
      Except.ok (I1 a i F G rule x) := by
  rw [IF.integrateDerivativeNoLog, IF.extendArgument, h.idx, extend_ok]
  simp only [res_ok_bind]
  rw [integrate1D_ok (fun j r => V a F (pt a i rule x j) * dirG a i (G (pt a i rule x j)) r)]
  · congr 1
    funext r
    rw [I1]
    simp only [Pi.smul_apply, Finset.sum_apply, Finset.smul_sum]
    exact Finset.sum_congr rfl fun j _ => by rw [wt]; simp only [smul_eq_mul]; ring
  · intro j
    rw [writeAt_ok, Fin.update_insertNth]
    simp only [res_ok_bind]
    rw [h.fn, h.dfn]
    simp only [res_ok_bind]
    rw [getVectorWithout_ok, readAt_ok]
    simp only [res_ok_bind, res_pure]
    congr 1
    funext r
    simp only [Pi.add_apply, Pi.smul_apply, Pi.neg_apply, smul_eq_mul, dirG, V, pt]
    ring

theorem integrateSecondDerivativeNoLog_ok {i : Fin (m + 1)} (h : Holds a i F G H) (junk : Junk m)
    (rule : Rule k) (x : Fin m → ℝ) :
    a.integrateSecondDerivativeNoLog junk x (a.findConditionalMean x) rule =
      Except.ok (Matrix.of (I2 a i F G H rule x)) := by
  rw [IF.integrateSecondDerivativeNoLog, IF.extendArgument, h.idx, extend_ok]
  simp only [res_ok_bind]
  rw [integrate1D_ok (fun j => Matrix.of fun r s => V a F (pt a i rule x j) *
    (dirH a i (H (pt a i rule x j)) r s +
      dirG a i (G (pt a i rule x j)) r * dirG a i (G (pt a i rule x j)) s))]
  · congr 1
    ext r s
    rw [Matrix.of_apply, I2]
    simp only [Matrix.smul_apply, Matrix.sum_apply, Finset.smul_sum, Matrix.of_apply]
    exact Finset.sum_congr rfl fun j _ => by rw [wt]; simp only [smul_eq_mul]; ring
  · intro j
    rw [writeAt_ok, Fin.update_insertNth]
    simp only [res_ok_bind]
    rw [h.fn, h.dfn, h.hfn]
    simp only [res_ok_bind]
    rw [getMatrixWithout_ok, rowAt_ok]
    simp only [res_ok_bind]
    rw [getVectorWithout_ok, readAt_ok]
    simp only [res_ok_bind, res_pure]
    congr 1
    ext r s
    simp only [Matrix.add_apply, Matrix.sub_apply, Matrix.smul_apply, Matrix.submatrix_apply,
      vecMulVec_apply, smul_eq_mul, Matrix.of_apply, dirG, dirH, V, pt]
    ring

/-! ## Derivatives of the sums -/

/-- Direction of movement of the points of the rule. -/
noncomputable def move (a : IF m) (i : Fin (m + 1)) : (Fin m → ℝ) →L[ℝ] (Fin (m + 1) → ℝ) :=
  ContinuousLinearMap.pi
    (i.insertNth (α := fun _ => (Fin m → ℝ) →L[ℝ] ℝ) (-lin a.cross)
      fun j => ContinuousLinearMap.proj j)

theorem hasFDerivAt_pt (a : IF m) (i : Fin (m + 1)) (rule : Rule k) (j : Fin k) (x : Fin m → ℝ) :
    HasFDerivAt (fun x => pt a i rule x j) (move a i) x := by
  rw [hasFDerivAt_pi']
  intro b
  rcases Fin.eq_self_or_eq_succAbove i b with rfl | ⟨r, rfl⟩
  · simp only [pt, Fin.insertNth_apply_same, findConditionalMean_eq]
    have h1 : HasFDerivAt (fun x : Fin m → ℝ => a.cross ⬝ᵥ (x - a.mean2)) (lin a.cross) x := by
      have : (fun x : Fin m → ℝ => a.cross ⬝ᵥ (x - a.mean2)) =
          fun x => lin a.cross x - a.cross ⬝ᵥ a.mean2 := by
        funext y
        rw [dotProduct_sub, lin_apply]
        rfl
      rw [this]
      exact (lin a.cross).hasFDerivAt.sub_const _
    refine ((h1.const_sub a.mean1).const_add _).congr_fderiv ?_
    ext z
    simp [move]
  · simp only [pt, Fin.insertNth_apply_succAbove]
    refine (ContinuousLinearMap.proj r : (Fin m → ℝ) →L[ℝ] ℝ).hasFDerivAt.congr_fderiv ?_
    ext z
    simp [move]

theorem lin_move (a : IF m) (i : Fin (m + 1)) (g : Fin (m + 1) → ℝ) :
    (lin g).comp (move a i) = lin (dirG a i g) := by
  ext z
  rw [ContinuousLinearMap.comp_apply, lin_apply, lin_apply, Fin.sum_univ_succAbove _ i]
  simp only [move, ContinuousLinearMap.coe_pi', Fin.insertNth_apply_same,
    Fin.insertNth_apply_succAbove, ContinuousLinearMap.neg_apply, lin_apply,
    ContinuousLinearMap.proj_apply, dirG]
  rw [mul_neg, Finset.mul_sum, ← Finset.sum_neg_distrib, ← Finset.sum_add_distrib]
  exact Finset.sum_congr rfl fun r _ => by ring

theorem hasFDerivAt_V (hF : TwiceDiff F G H) (a : IF m) (i : Fin (m + 1)) (rule : Rule k)
    (j : Fin k) (x : Fin m → ℝ) :
    HasFDerivAt (fun x => V a F (pt a i rule x j))
      (V a F (pt a i rule x j) • lin (dirG a i (G (pt a i rule x j)))) x := by
  have h1 := (hF.grad (pt a i rule x j)).comp (f := fun x => pt a i rule x j) x (hasFDerivAt_pt a i rule j x)
  rw [lin_move] at h1
  exact (h1.sub_const a.logValueAtMean).exp

theorem hasFDerivAt_dirG (hF : TwiceDiff F G H) (a : IF m) (i : Fin (m + 1)) (rule : Rule k)
    (j : Fin k) (x : Fin m → ℝ) (r : Fin m) :
    HasFDerivAt (fun x => dirG a i (G (pt a i rule x j)) r)
      (lin (dirH a i (H (pt a i rule x j)) r)) x := by
  have h1 := (hF.hess (pt a i rule x j) (i.succAbove r)).comp (f := fun x => pt a i rule x j) x (hasFDerivAt_pt a i rule j x)
  have h2 := (hF.hess (pt a i rule x j) i).comp (f := fun x => pt a i rule x j) x (hasFDerivAt_pt a i rule j x)
  rw [lin_move] at h1 h2
  refine (h1.sub (h2.const_mul (a.cross r))).congr_fderiv ?_
  ext z
  simp only [ContinuousLinearMap.sub_apply, ContinuousLinearMap.smul_apply, lin_apply, smul_eq_mul,
    Finset.mul_sum, ← Finset.sum_sub_distrib]
  refine Finset.sum_congr rfl fun s _ => ?_
  rw [dirG, dirG, dirH, hF.symm _ i (i.succAbove r)]
  ring

theorem hasFDerivAt_I0 (hF : TwiceDiff F G H) (a : IF m) (i : Fin (m + 1)) (rule : Rule k)
    (x : Fin m → ℝ) : HasFDerivAt (I0 a i F rule) (lin (I1 a i F G rule x)) x := by
  have h1 := HasFDerivAt.fun_sum (u := Finset.univ) fun j _ =>
    (hasFDerivAt_V hF a i rule j x).const_mul (wt a rule j)
  refine HasFDerivAt.congr_fderiv (f := I0 a i F rule) h1 ?_
  ext z
  simp only [ContinuousLinearMap.sum_apply, ContinuousLinearMap.smul_apply, lin_apply, smul_eq_mul,
    I1, Finset.mul_sum, Finset.sum_mul]
  rw [Finset.sum_comm]
  exact Finset.sum_congr rfl fun s _ => Finset.sum_congr rfl fun r _ => by ring

theorem hasFDerivAt_I1 (hF : TwiceDiff F G H) (a : IF m) (i : Fin (m + 1)) (rule : Rule k)
    (x : Fin m → ℝ) (r : Fin m) :
    HasFDerivAt (fun x => I1 a i F G rule x r) (lin (I2 a i F G H rule x r)) x := by
  have h1 := HasFDerivAt.fun_sum (u := Finset.univ) fun j _ =>
    ((hasFDerivAt_V hF a i rule j x).mul (hasFDerivAt_dirG hF a i rule j x r)).const_mul
      (wt a rule j)
  refine HasFDerivAt.congr_fderiv (f := fun x => I1 a i F G rule x r) h1 ?_
  ext z
  simp only [ContinuousLinearMap.sum_apply, ContinuousLinearMap.smul_apply,
    ContinuousLinearMap.add_apply, lin_apply, smul_eq_mul, I2, Finset.mul_sum, Finset.sum_mul,
    ← Finset.sum_add_distrib]
  rw [Finset.sum_comm]
  exact Finset.sum_congr rfl fun s _ => Finset.sum_congr rfl fun r _ => by ring

end closed

end Verif.Integrated
