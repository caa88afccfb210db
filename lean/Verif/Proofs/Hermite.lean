import Verif.Model.Quadrature
import Mathlib.Algebra.Polynomial.Derivative
import Mathlib.Analysis.Calculus.Deriv.Polynomial
import Mathlib.Analysis.SpecialFunctions.Gaussian.GaussianIntegral
import Mathlib.MeasureTheory.Integral.IntegralEqImproper

/-! Hermite polynomials, moments of `exp (-x²)` and powers of the Jacobi matrix. -/
namespace Verif.Quad

open Polynomial MeasureTheory

/-! ## The functional -/

theorem integrable_pow (k : ℕ) : Integrable fun x : ℝ => x ^ k * Real.exp (-x ^ 2) := by
  have h := integrable_rpow_mul_exp_neg_mul_sq (b := 1) one_pos (s := k) (by
    have : (0 : ℝ) ≤ k := Nat.cast_nonneg k
    linarith)
  simpa [Real.rpow_natCast] using h

theorem integrable_poly (p : ℝ[X]) : Integrable fun x : ℝ => p.eval x * Real.exp (-x ^ 2) := by
  have h : (fun x : ℝ => p.eval x * Real.exp (-x ^ 2)) =
      fun x => ∑ k ∈ Finset.range (p.natDegree + 1), p.coeff k * (x ^ k * Real.exp (-x ^ 2)) := by
    funext x
    rw [eval_eq_sum_range, Finset.sum_mul]
    exact Finset.sum_congr rfl fun k _ => by ring
  rw [h]
  exact integrable_finsetSum _ fun k _ => (integrable_pow k).const_mul _

/-- Integral of a polynomial against `exp (-x²)`. -/
noncomputable def gint (p : ℝ[X]) : ℝ := ∫ x : ℝ, p.eval x * Real.exp (-x ^ 2)

theorem gint_add (p q : ℝ[X]) : gint (p + q) = gint p + gint q := by
  rw [gint, gint, gint, ← integral_add (integrable_poly p) (integrable_poly q)]
  congr 1
  funext x
  rw [eval_add]
  ring

theorem gint_C_mul (c : ℝ) (p : ℝ[X]) : gint (C c * p) = c * gint p := by
  rw [gint, gint, ← integral_const_mul]
  congr 1
  funext x
  rw [eval_mul, eval_C]
  ring

theorem gint_zero : gint 0 = 0 := by simp [gint]

theorem gint_sum {ι : Type} (s : Finset ι) (f : ι → ℝ[X]) :
    gint (∑ i ∈ s, f i) = ∑ i ∈ s, gint (f i) := by
  classical
  induction s using Finset.induction_on with
  | empty => simp [gint_zero]
  | insert i s hi ih => rw [Finset.sum_insert hi, Finset.sum_insert hi, gint_add, ih]

theorem gint_sub (p q : ℝ[X]) : gint (p - q) = gint p - gint q := by
  have : p - q = p + C (-1) * q := by simp [sub_eq_add_neg]
  rw [this, gint_add, gint_C_mul]
  ring

theorem gint_one : gint 1 = Real.sqrt Real.pi := by
  have := integral_gaussian 1
  simp only [gint, eval_one, one_mul]
  simpa using this

/-- Integration by parts. -/
theorem gint_X_mul (p : ℝ[X]) : gint (X * p) = gint (derivative p) / 2 := by
  have h := integral_eq_zero_of_hasDerivAt_of_integrable
    (f := fun x : ℝ => p.eval x * Real.exp (-x ^ 2))
    (f' := fun x => (derivative p - C 2 * (X * p)).eval x * Real.exp (-x ^ 2)) (fun x => ?_)
    (integrable_poly _) (integrable_poly p)
  · have h2 : gint (derivative p - C 2 * (X * p)) = 0 := h
    rw [gint_sub, gint_C_mul] at h2
    linarith
  · have h1 := (p.hasDerivAt x).mul ((hasDerivAt_pow 2 x).neg.exp)
    refine h1.congr_deriv ?_
    simp
    ring

/-! ## Hermite polynomials -/

/-- Monic Hermite polynomials for the weight `exp (-x²)`. -/
noncomputable def herm : ℕ → ℝ[X]
  | 0 => 1
  | n + 1 => X * herm n - C (1 / 2) * derivative (herm n)

theorem derivative_herm : ∀ n : ℕ, derivative (herm (n + 1)) = C ((n : ℝ) + 1) * herm n
  | 0 => by simp [herm]
  | n + 1 => by
    have ih := derivative_herm n
    have e : herm (n + 2) = X * herm (n + 1) - C (1 / 2) * derivative (herm (n + 1)) := rfl
    rw [e, derivative_sub, derivative_mul, derivative_X, derivative_C_mul, ih, derivative_C_mul]
    have e2 : herm (n + 1) = X * herm n - C (1 / 2) * derivative (herm n) := rfl
    calc 1 * herm (n + 1) + X * (C ((n : ℝ) + 1) * herm n) -
          C (1 / 2) * (C ((n : ℝ) + 1) * derivative (herm n))
        = herm (n + 1) + C ((n : ℝ) + 1) * (X * herm n - C (1 / 2) * derivative (herm n)) := by ring
      _ = C (((n + 1 : ℕ) : ℝ) + 1) * herm (n + 1) := by
        rw [← e2, show C (((n + 1 : ℕ) : ℝ) + 1) = C ((n : ℝ) + 1) + 1 by
          rw [← C_1, ← C_add]; push_cast; rfl]
        ring

/-- Three-term recurrence. -/
theorem X_mul_herm (n : ℕ) : X * herm (n + 1) = herm (n + 2) + C (((n : ℝ) + 1) / 2) * herm n := by
  have e : herm (n + 2) = X * herm (n + 1) - C (1 / 2) * derivative (herm (n + 1)) := rfl
  rw [e, derivative_herm, ← mul_assoc, ← C_mul]
  rw [show (1 : ℝ) / 2 * ((n : ℝ) + 1) = ((n : ℝ) + 1) / 2 by ring]
  ring

theorem X_mul_herm_zero : X * herm 0 = herm 1 := by simp [herm]

/-- The functional against a Hermite polynomial. -/
theorem gint_herm_mul : ∀ (n : ℕ) (q : ℝ[X]), gint (herm n * q) = gint (derivative^[n] q) / 2 ^ n
  | 0, q => by simp [herm]
  | n + 1, q => by
    have e : herm (n + 1) * q = X * (herm n * q) - C (1 / 2) * (derivative (herm n) * q) := by
      rw [herm]; ring
    rw [e, gint_sub, gint_X_mul, gint_C_mul, derivative_mul, gint_add,
      gint_herm_mul n (derivative q), Function.iterate_succ_apply, pow_succ]
    ring

theorem iterate_herm : ∀ (n : ℕ), derivative^[n] (herm n) = C (n.factorial : ℝ)
  | 0 => by simp [herm]
  | n + 1 => by
    rw [Function.iterate_succ_apply, derivative_herm, iterate_derivative_C_mul, iterate_herm n,
      ← C_mul, Nat.factorial_succ]
    push_cast
    ring_nf

theorem iterate_herm_lt {n m : ℕ} (h : n < m) : derivative^[m] (herm n) = 0 := by
  obtain ⟨k, rfl⟩ : ∃ k, m = (k + 1) + n := ⟨m - n - 1, by omega⟩
  rw [Function.iterate_add_apply, iterate_herm, iterate_derivative_C (by omega)]

/-- Square norms. -/
noncomputable def hn (n : ℕ) : ℝ := n.factorial / 2 ^ n

theorem hn_pos (n : ℕ) : 0 < hn n := by
  rw [hn]
  have : (0 : ℝ) < n.factorial := by exact_mod_cast n.factorial_pos
  positivity

theorem hn_succ (n : ℕ) : hn (n + 1) = hn n * (((n : ℝ) + 1) / 2) := by
  rw [hn, hn, Nat.factorial_succ, pow_succ]
  push_cast
  field_simp

theorem gint_herm_herm (n m : ℕ) :
    gint (herm n * herm m) = if n = m then Real.sqrt Real.pi * hn n else 0 := by
  rcases lt_trichotomy n m with h | h | h
  · rw [if_neg h.ne, mul_comm, gint_herm_mul, iterate_herm_lt h, gint_zero, zero_div]
  · subst h
    rw [if_pos rfl, gint_herm_mul, iterate_herm, ← mul_one (C _), gint_C_mul, gint_one, hn]
    ring
  · rw [if_neg h.ne', gint_herm_mul, iterate_herm_lt h, gint_zero, zero_div]

end Verif.Quad
