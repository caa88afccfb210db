import Verif.Proofs.Jacobi
import Mathlib.Analysis.Real.Pi.Bounds
import Mathlib.MeasureTheory.Measure.Haar.NormedSpace
import Mathlib.LinearAlgebra.Matrix.Notation

/-! # Properties of the quadrature rule (C25, C26) -/
namespace Verif.Quad

open Polynomial Matrix MeasureTheory

variable {n : ℕ} {values : Fin (n + 1) → ℝ} {vectors : Matrix (Fin (n + 1)) (Fin (n + 1)) ℝ}

/-! ## C25 -/

/-- C25: with `n + 1` points, every polynomial of degree at most `2 (n + 1) - 1` is integrated
exactly against `exp (-x²)`, up to the ratio of the literal to the square root of `π`. -/
theorem c25_exact (h : IsEigen (hermiteJacobi (n + 1)) values vectors) (p : ℝ[X])
    (hp : p.natDegree ≤ 2 * (n + 1) - 1) :
    ∑ k, (ofEigen values vectors).weights k * p.eval ((ofEigen values vectors).nodes k) =
      sqrtPi / Real.sqrt Real.pi * ∫ x : ℝ, p.eval x * Real.exp (-x ^ 2) := by
  have h1 := rule_poly h p (by omega)
  have h2 : Real.sqrt Real.pi ≠ 0 := (Real.sqrt_pos.mpr Real.pi_pos).ne'
  rw [show (∫ x : ℝ, p.eval x * Real.exp (-x ^ 2)) = gint p from rfl, ← h1, ← mul_assoc,
    div_mul_cancel₀ _ h2, Finset.mul_sum]
  refine Finset.sum_congr rfl fun k _ => ?_
  show sqrtPi * vectors 0 k * vectors 0 k * p.eval (values k) = _
  ring

/-- C25: the weights are non-negative. -/
theorem c25_weights (k : Fin (n + 1)) : 0 ≤ (ofEigen values vectors).weights k := by
  show 0 ≤ sqrtPi * vectors 0 k * vectors 0 k
  rw [mul_assoc]
  have : (0 : ℝ) ≤ sqrtPi := by rw [sqrtPi]; norm_num
  exact mul_nonneg this (mul_self_nonneg _)

/-- The literal is the square root of `π` up to a relative error below `1e-10`. -/
theorem c25_constant : |sqrtPi / Real.sqrt Real.pi - 1| < 1e-10 := by
  have hpi1 := Real.pi_gt_d20
  have hpi2 := Real.pi_lt_d20
  have h0 : 0 < Real.sqrt Real.pi := Real.sqrt_pos.mpr Real.pi_pos
  have h1 : Real.sqrt Real.pi < sqrtPi := by
    rw [Real.sqrt_lt' (by rw [sqrtPi]; norm_num)]
    refine hpi2.trans ?_
    rw [sqrtPi]
    norm_num
  have h2 : sqrtPi / (1 + 1e-10) < Real.sqrt Real.pi := by
    refine Real.lt_sqrt_of_sq_lt (lt_trans ?_ hpi1)
    rw [sqrtPi]
    norm_num
  rw [div_lt_iff₀ (by norm_num)] at h2
  rw [abs_of_nonneg (by rw [sub_nonneg, one_le_div h0]; exact h1.le), sub_lt_iff_lt_add',
    div_lt_iff₀ h0]
  linarith

/-- The hypothesis of C25 can be met for every number of points. -/
theorem c25_exists (n : ℕ) : ∃ values vectors, IsEigen (hermiteJacobi (n + 1)) values vectors :=
  exists_eigen _

/-- Two points: nodes `-√½` and `√½`. -/
example : IsEigen (hermiteJacobi 2) ![-Real.sqrt (1 / 2), Real.sqrt (1 / 2)]
    !![Real.sqrt (1 / 2), Real.sqrt (1 / 2); -Real.sqrt (1 / 2), Real.sqrt (1 / 2)] := by
  have h : Real.sqrt (1 / 2) * Real.sqrt (1 / 2) = 1 / 2 := Real.mul_self_sqrt (by norm_num)
  have e : (fromLower (hermiteJacobi 2)) = !![0, Real.sqrt (1 / 2); Real.sqrt (1 / 2), 0] := by
    ext i j
    fin_cases i <;> fin_cases j <;> simp [fromLower, hermiteJacobi]
  refine ⟨?_, ?_⟩
  · ext i j
    fin_cases i <;> fin_cases j <;> simp [Matrix.mul_apply, Fin.sum_univ_two] <;> ring_nf <;>
      norm_num
  · rw [e]
    ext i j
    fin_cases i <;> fin_cases j <;> simp [Matrix.mul_apply, Fin.sum_univ_two, diagonal] 

/-! ## C26 -/

section
variable {E : Type} [AddCommGroup E] [Module ℝ E]

/-- The value of `integrate1D` when the integrand returns at the transformed nodes. -/
theorem integrate1D_ok {m : ℕ} {f : ℝ → Res E} {location sigma : ℝ} {rule : Rule m} (g : Fin m → E)
    (h : ∀ i, f (Real.sqrt 2 * sigma * rule.nodes i + location) = Except.ok (g i)) :
    integrate1D f location sigma rule = Except.ok ((Real.sqrt 2 * sigma) •
      ∑ i, (rule.weights i * Real.exp (rule.nodes i ^ 2)) • g i) := by
  have key : ∀ (l : List (Fin m)) (r : E), l.foldlM (fun (ret : E) i => do
      let v ← f (Real.sqrt 2 * sigma * rule.nodes i + location)
      return ret + (rule.weights i * Real.exp (rule.nodes i ^ 2)) • v) r =
      (Except.ok (r + (l.map fun i => (rule.weights i * Real.exp (rule.nodes i ^ 2)) • g i).sum) :
        Res E) := by
    intro l
    induction l with
    | nil => intro r; simp
    | cons i l ih =>
      intro r
      rw [List.foldlM_cons, h i]
      refine (ih _).trans ?_
      rw [List.map_cons, List.sum_cons, add_assoc]
  rw [integrate1D]
  simp only
  rw [key]
  simp only [res_ok_bind, res_pure]
  rw [zero_add, ← List.ofFn_eq_map, List.sum_ofFn]

theorem integrate1D_pure {m : ℕ} (f : ℝ → E) (location sigma : ℝ) (rule : Rule m) :
    integrate1D (fun t => Except.ok (f t)) location sigma rule = Except.ok ((Real.sqrt 2 * sigma) •
      ∑ i, (rule.weights i * Real.exp (rule.nodes i ^ 2)) •
        f (Real.sqrt 2 * sigma * rule.nodes i + location)) := integrate1D_ok _ fun _ => rfl

/-- C26: linear in the integrand. -/
theorem c26_linear {m : ℕ} (f g : ℝ → E) (a b location sigma : ℝ) (rule : Rule m) :
    ∃ I J, integrate1D (fun t => Except.ok (f t)) location sigma rule = Except.ok I ∧
      integrate1D (fun t => Except.ok (g t)) location sigma rule = Except.ok J ∧
      integrate1D (fun t => Except.ok (a • f t + b • g t)) location sigma rule =
        Except.ok (a • I + b • J) := by
  refine ⟨_, _, integrate1D_ok _ fun _ => rfl, integrate1D_ok _ fun _ => rfl, ?_⟩
  rw [integrate1D_pure]
  congr 1
  simp only [smul_add, Finset.sum_add_distrib, Finset.smul_sum, smul_smul]
  congr 1 <;> exact Finset.sum_congr rfl fun i _ => by congr 1; ring

end

/-- C26: monotone in the integrand. -/
theorem c26_monotone (f g : ℝ → ℝ) (hfg : ∀ t, f t ≤ g t) (location : ℝ) {sigma : ℝ}
    (hs : 0 ≤ sigma) :
    ∃ I J, integrate1D (fun t => Except.ok (f t)) location sigma (ofEigen values vectors) = Except.ok I ∧
      integrate1D (fun t => Except.ok (g t)) location sigma (ofEigen values vectors) = Except.ok J ∧
      I ≤ J := by
  refine ⟨_, _, integrate1D_ok _ fun _ => rfl, integrate1D_ok _ fun _ => rfl, ?_⟩
  refine mul_le_mul_of_nonneg_left (Finset.sum_le_sum fun i _ => ?_)
    (mul_nonneg (Real.sqrt_nonneg _) hs)
  exact mul_le_mul_of_nonneg_left (hfg _) (mul_nonneg (c25_weights i) (Real.exp_pos _).le)

/-- C26: exact on a normal kernel times a polynomial, up to the ratio of the constants. -/
theorem c26_exact (h : IsEigen (hermiteJacobi (n + 1)) values vectors) (p : ℝ[X])
    (hp : p.natDegree ≤ 2 * (n + 1) - 1) (m : ℝ) {s : ℝ} (hs : 0 < s) :
    integrate1D (fun t => Except.ok (Real.exp (-(t - m) ^ 2 / (2 * s ^ 2)) * p.eval t)) m s
        (ofEigen values vectors) =
      Except.ok (sqrtPi / Real.sqrt Real.pi *
        ∫ t : ℝ, Real.exp (-(t - m) ^ 2 / (2 * s ^ 2)) * p.eval t) := by
  rw [integrate1D_pure]
  congr 1
  set c : ℝ := Real.sqrt 2 * s with hc
  have h2 : Real.sqrt 2 * Real.sqrt 2 = 2 := Real.mul_self_sqrt (by norm_num)
  have hc0 : 0 < c := mul_pos (Real.sqrt_pos.mpr (by norm_num)) hs
  have hcc : c ^ 2 = 2 * s ^ 2 := by rw [hc, mul_pow, sq (Real.sqrt 2), h2]
  set q : ℝ[X] := p.comp (C c * X + C m) with hq
  have hqe : ∀ t, q.eval t = p.eval (c * t + m) := by intro t; simp [hq]
  have hqd : q.natDegree ≤ 2 * (n + 1) - 1 := by
    rw [hq, natDegree_comp]
    have : (C c * X + C m : ℝ[X]).natDegree ≤ 1 := natDegree_linear_le
    exact (Nat.mul_le_mul_left _ this).trans (by omega)
  have hk : ∀ t : ℝ, -(c * t + m - m) ^ 2 / (2 * s ^ 2) = -t ^ 2 := by
    intro t
    rw [add_sub_cancel_right, mul_pow, hcc]
    field_simp
  have hsum : ∑ i, ((ofEigen values vectors).weights i * Real.exp ((ofEigen values vectors).nodes i ^ 2)) •
      (Real.exp (-(c * (ofEigen values vectors).nodes i + m - m) ^ 2 / (2 * s ^ 2)) *
        p.eval (c * (ofEigen values vectors).nodes i + m)) =
      ∑ i, (ofEigen values vectors).weights i * q.eval ((ofEigen values vectors).nodes i) := by
    refine Finset.sum_congr rfl fun i _ => ?_
    rw [hk, hqe, smul_eq_mul, Real.exp_neg]
    have := (Real.exp_pos ((ofEigen values vectors).nodes i ^ 2)).ne'
    field_simp
  rw [hsum, c25_exact h q hqd, smul_eq_mul]
  have hint : (∫ x : ℝ, q.eval x * Real.exp (-x ^ 2)) =
      c⁻¹ * ∫ t : ℝ, Real.exp (-(t - m) ^ 2 / (2 * s ^ 2)) * p.eval t := by
    have e1 : (fun x : ℝ => q.eval x * Real.exp (-x ^ 2)) =
        fun x => (fun y => Real.exp (-(y + m - m) ^ 2 / (2 * s ^ 2)) * p.eval (y + m)) (c * x) := by
      funext x
      simp only
      rw [hk, hqe, mul_comm]
    rw [e1, Measure.integral_comp_mul_left
      (fun y => Real.exp (-(y + m - m) ^ 2 / (2 * s ^ 2)) * p.eval (y + m)) c, abs_of_pos (inv_pos.mpr hc0), smul_eq_mul]
    congr 1
    exact integral_add_right_eq_self (fun t => Real.exp (-(t - m) ^ 2 / (2 * s ^ 2)) * p.eval t) m
  rw [hint]
  field_simp

/-- C26: with one point the result is the Laplace value `f(m) s √(2π)`, up to the ratio of the
constants. -/
theorem c26_laplace {values : Fin 1 → ℝ} {vectors : Matrix (Fin 1) (Fin 1) ℝ}
    (h : IsEigen (hermiteJacobi 1) values vectors) (f : ℝ → ℝ) (m s : ℝ) :
    integrate1D (fun t => Except.ok (f t)) m s (ofEigen values vectors) =
      Except.ok (sqrtPi / Real.sqrt Real.pi * (f m * s * Real.sqrt (2 * Real.pi))) := by
  have h1 : vectors 0 0 * vectors 0 0 = 1 := by
    have := congrFun (congrFun h.orthogonal 0) 0
    simpa [Matrix.mul_apply] using this
  have h2 : values 0 = 0 := by
    have := congrFun (congrFun h.decomposition 0) 0
    simp [Matrix.mul_apply, fromLower, hermiteJacobi] at this
    rcases this with h | h
    · rw [h] at h1; norm_num at h1
    · exact h
  rw [integrate1D_pure]
  congr 1
  have h3 : Real.sqrt Real.pi ≠ 0 := (Real.sqrt_pos.mpr Real.pi_pos).ne'
  rw [Fin.sum_univ_one]
  show Real.sqrt 2 * s * (sqrtPi * vectors 0 0 * vectors 0 0 * Real.exp (values 0 ^ 2) *
    f (Real.sqrt 2 * s * values 0 + m)) = _
  rw [h2, mul_assoc sqrtPi, h1, Real.sqrt_mul (by norm_num)]
  simp
  field_simp

end Verif.Quad
