import Verif.Proofs.Hermite
import Mathlib.Analysis.Matrix.Spectrum

/-! Powers of the Jacobi matrix and moments. -/
namespace Verif.Quad

open Polynomial Matrix

variable {n : ℕ}

/-- The symmetric Jacobi matrix. -/
noncomputable def jac (n : ℕ) : Matrix (Fin (n + 1)) (Fin (n + 1)) ℝ := fromLower (hermiteJacobi (n + 1))

/-- Its entries as a function of numbers. -/
noncomputable def jent (i j : ℕ) : ℝ :=
  (if i = j + 1 then Real.sqrt (((j : ℝ) + 1) / 2) else 0) +
    if i = j - 1 then (if j = 0 then 0 else Real.sqrt ((j : ℝ) / 2)) else 0

theorem jac_apply (i j : Fin (n + 1)) : jac n i j = jent i j := by
  rw [jac, fromLower, of_apply, hermiteJacobi, of_apply, of_apply, jent]
  by_cases h1 : (i : ℕ) = j + 1
  · have h2 : j ≤ i := by rw [Fin.le_def]; omega
    rw [if_pos h2, if_pos h1, if_pos h1, if_neg (by omega), h1]
    push_cast
    ring
  · rw [if_neg h1, if_neg h1, zero_add]
    by_cases h2 : j ≤ i
    · rw [if_pos h2]
      rw [Fin.le_def] at h2
      by_cases h3 : (j : ℕ) = 0
      · simp [h3]
      · rw [if_neg (by omega)]
    · rw [if_neg h2]
      rw [Fin.le_def] at h2
      by_cases h3 : (j : ℕ) = i + 1
      · rw [if_pos h3, if_pos (by omega), if_neg (by omega)]
      · rw [if_neg h3, if_neg (by omega)]

theorem fromLower_symm {m : ℕ} (a : Matrix (Fin m) (Fin m) ℝ) : (fromLower a)ᵀ = fromLower a := by
  ext i j
  rw [transpose_apply, fromLower, of_apply, of_apply]
  rcases lt_trichotomy i j with h | h | h
  · rw [if_pos h.le, if_neg (not_le.mpr h)]
  · subst h; rfl
  · rw [if_neg (not_le.mpr h), if_pos h.le]

/-- The polynomial with given coordinates in the orthonormal basis. -/
noncomputable def phi (v : Fin (n + 1) → ℝ) : ℝ[X] :=
  ∑ i : Fin (n + 1), C (v i / Real.sqrt (hn i)) * herm i

theorem X_mul_herm' (j : ℕ) : X * herm j = herm (j + 1) + C ((j : ℝ) / 2) * herm (j - 1) := by
  cases j with
  | zero => rw [X_mul_herm_zero]; simp
  | succ j => rw [X_mul_herm]; push_cast; rfl

theorem sqrt_hn_succ (j : ℕ) :
    Real.sqrt (((j : ℝ) + 1) / 2) / Real.sqrt (hn (j + 1)) = 1 / Real.sqrt (hn j) := by
  have h1 : 0 < Real.sqrt (hn j) := Real.sqrt_pos.mpr (hn_pos j)
  have h2 : 0 < Real.sqrt (((j : ℝ) + 1) / 2) := Real.sqrt_pos.mpr (by positivity)
  rw [hn_succ, Real.sqrt_mul (hn_pos j).le]
  field_simp

theorem sqrt_hn_pred (j : ℕ) : (Real.sqrt (((j : ℝ) + 1) / 2)) / Real.sqrt (hn j) =
    (((j : ℝ) + 1) / 2) / Real.sqrt (hn (j + 1)) := by
  have h1 : 0 < Real.sqrt (hn j) := Real.sqrt_pos.mpr (hn_pos j)
  have h2 : 0 < Real.sqrt (((j : ℝ) + 1) / 2) := Real.sqrt_pos.mpr (by positivity)
  rw [hn_succ, Real.sqrt_mul (hn_pos j).le, div_eq_div_iff h1.ne' (by positivity)]
  have h3 := Real.mul_self_sqrt (show (0 : ℝ) ≤ ((j : ℝ) + 1) / 2 by positivity)
  calc _ = (Real.sqrt (((j : ℝ) + 1) / 2) * Real.sqrt (((j : ℝ) + 1) / 2)) * Real.sqrt (hn j) := by ring
    _ = _ := by rw [h3]

/-- Column `j` of the Jacobi matrix: multiplication by `X`, without the last polynomial. -/
theorem column (j : ℕ) (hj : j < n + 1) :
    ∑ i ∈ Finset.range (n + 1), C (jent i j / Real.sqrt (hn i)) * herm i =
      C (1 / Real.sqrt (hn j)) * (X * herm j) -
        if j = n then C (1 / Real.sqrt (hn n)) * herm (n + 1) else 0 := by
  have hsplit : ∀ i ∈ Finset.range (n + 1), C (jent i j / Real.sqrt (hn i)) * herm i =
      (if i = j + 1 then C (Real.sqrt (((j : ℝ) + 1) / 2) / Real.sqrt (hn (j + 1))) * herm (j + 1) else 0) +
      (if i = j - 1 then (if j = 0 then 0 else
        C (Real.sqrt ((j : ℝ) / 2) / Real.sqrt (hn (j - 1))) * herm (j - 1)) else 0) := by
    intro i _
    rw [jent, add_div, C_add, add_mul]
    congr 1
    · by_cases h : i = j + 1
      · subst h; simp
      · simp [h]
    · by_cases h : i = j - 1
      · subst h
        by_cases h0 : j = 0 <;> simp [h0]
      · simp [h]
  rw [Finset.sum_congr rfl hsplit, Finset.sum_add_distrib, Finset.sum_ite_eq', Finset.sum_ite_eq',
    sqrt_hn_succ]
  have hm : j - 1 ∈ Finset.range (n + 1) := by rw [Finset.mem_range]; omega
  rw [if_pos hm, X_mul_herm', mul_add]
  have hsecond : (if j = 0 then (0 : ℝ[X]) else
      C (Real.sqrt ((j : ℝ) / 2) / Real.sqrt (hn (j - 1))) * herm (j - 1)) =
      C (1 / Real.sqrt (hn j)) * (C ((j : ℝ) / 2) * herm (j - 1)) := by
    cases j with
    | zero => simp
    | succ j =>
      rw [if_neg (by omega), ← mul_assoc, ← C_mul]
      congr 2
      have := sqrt_hn_pred j
      push_cast
      rw [this]
      ring
  rw [hsecond]
  by_cases h : j = n
  · subst h
    rw [if_neg (by simp), if_pos rfl]
    ring
  · rw [if_pos (by rw [Finset.mem_range]; omega), if_neg h]
    ring

theorem phi_jac (v : Fin (n + 1) → ℝ) : phi (jac n *ᵥ v) =
    X * phi v - C (v (Fin.last n) / Real.sqrt (hn n)) * herm (n + 1) := by
  have h1 : phi (jac n *ᵥ v) = ∑ j : Fin (n + 1), C (v j) *
      ∑ i ∈ Finset.range (n + 1), C (jent i j / Real.sqrt (hn i)) * herm i := by
    have h2 : ∀ j : Fin (n + 1), ∑ i ∈ Finset.range (n + 1), C (jent i j / Real.sqrt (hn i)) * herm i =
        ∑ i : Fin (n + 1), C (jent i j / Real.sqrt (hn i)) * herm i := fun j =>
      (Fin.sum_univ_eq_sum_range (fun i => C (jent i j / Real.sqrt (hn i)) * herm i) (n + 1)).symm
    simp only [h2, Finset.mul_sum]
    rw [phi, Finset.sum_comm]
    refine Finset.sum_congr rfl fun i _ => ?_
    rw [mulVec, dotProduct, Finset.sum_div, map_sum, Finset.sum_mul]
    refine Finset.sum_congr rfl fun j _ => ?_
    rw [jac_apply, ← mul_assoc, ← C_mul]
    congr 2
    ring
  rw [h1]
  have h3 : ∀ j : Fin (n + 1), C (v j) * ∑ i ∈ Finset.range (n + 1),
      C (jent i j / Real.sqrt (hn i)) * herm i =
      X * (C (v j / Real.sqrt (hn j)) * herm j) -
        if j = Fin.last n then C (v (Fin.last n) / Real.sqrt (hn n)) * herm (n + 1) else 0 := by
    intro j
    rw [column j j.isLt, mul_sub]
    congr 1
    · rw [← mul_assoc, ← C_mul, mul_one_div]
      ring
    · by_cases h : j = Fin.last n
      · subst h
        rw [if_pos (by simp), if_pos rfl, ← mul_assoc, ← C_mul, mul_one_div]
      · rw [if_neg h, if_neg fun hh => h (Fin.ext (by simpa using hh)), mul_zero]
  rw [Finset.sum_congr rfl fun j _ => h3 j, Finset.sum_sub_distrib, ← Finset.mul_sum,
    Finset.sum_ite_eq']
  simp [phi]

/-- `J^a` on the first unit vector. -/
noncomputable def pw (n a : ℕ) : Fin (n + 1) → ℝ := (jac n ^ a) *ᵥ Pi.single 0 1

theorem pw_succ (a : ℕ) : pw n (a + 1) = jac n *ᵥ pw n a := by
  rw [pw, pw, pow_succ', mulVec_mulVec]

theorem pw_support : ∀ (a : ℕ) (i : Fin (n + 1)), a < i → pw n a i = 0
  | 0, i, h => by
    rw [pw, pow_zero, one_mulVec, Pi.single_eq_of_ne]
    rintro rfl
    simp at h
  | a + 1, i, h => by
    rw [pw_succ, mulVec, dotProduct]
    refine Finset.sum_eq_zero fun j _ => ?_
    by_cases hj : a < (j : ℕ)
    · rw [pw_support a j hj, mul_zero]
    · rw [jac_apply, jent, if_neg (by omega), if_neg (by omega), add_zero, zero_mul]

theorem phi_pw : ∀ a ≤ n, phi (pw n a) = X ^ a
  | 0, _ => by
    rw [pw, pow_zero, one_mulVec, phi, Finset.sum_eq_single 0]
    · simp [hn, herm]
    · intro i _ hi
      rw [Pi.single_eq_of_ne hi]
      simp
    · simp
  | a + 1, h => by
    rw [pw_succ, phi_jac, phi_pw a (by omega), pw_support a _ (by simp; omega)]
    simp [pow_succ']

/-- The basis is orthonormal up to `√π`. -/
theorem gint_phi (u v : Fin (n + 1) → ℝ) : gint (phi u * phi v) = Real.sqrt Real.pi * (u ⬝ᵥ v) := by
  rw [phi, phi, Finset.sum_mul_sum, gint_sum, dotProduct, Finset.mul_sum]
  refine Finset.sum_congr rfl fun i _ => ?_
  rw [gint_sum, Finset.sum_eq_single i]
  · rw [show C (u i / Real.sqrt (hn i)) * herm i * (C (v i / Real.sqrt (hn i)) * herm i) =
      C (u i / Real.sqrt (hn i) * (v i / Real.sqrt (hn i))) * (herm i * herm i) by
        rw [C_mul]; ring, gint_C_mul, gint_herm_herm, if_pos rfl]
    have h := Real.mul_self_sqrt (hn_pos i).le
    have h1 : 0 < Real.sqrt (hn i) := Real.sqrt_pos.mpr (hn_pos i)
    rw [← h]
    rw [Real.sqrt_mul_self h1.le]
    field_simp
  · intro j _ hj
    rw [show C (u i / Real.sqrt (hn i)) * herm i * (C (v j / Real.sqrt (hn j)) * herm j) =
      C (u i / Real.sqrt (hn i) * (v j / Real.sqrt (hn j))) * (herm i * herm j) by
        rw [C_mul]; ring, gint_C_mul, gint_herm_herm, if_neg fun h => hj (Fin.ext h.symm), mul_zero]
  · simp

theorem pow_dot (a b : ℕ) : (jac n ^ (a + b)) 0 0 = pw n a ⬝ᵥ pw n b := by
  have hs : (jac n)ᵀ = jac n := fromLower_symm _
  have h1 : (jac n ^ (a + b)) 0 0 = (Pi.single 0 1 : Fin (n + 1) → ℝ) ⬝ᵥ
      ((jac n ^ (a + b)) *ᵥ Pi.single 0 1) := by simp
  rw [h1, pow_add, ← mulVec_mulVec, dotProduct_mulVec]
  congr 1
  rw [← mulVec_transpose, transpose_pow, hs]
  rfl

/-- Moments up to degree `2n + 1`. -/
theorem moment (m : ℕ) (hm : m ≤ 2 * n + 1) :
    Real.sqrt Real.pi * (jac n ^ m) 0 0 = gint (X ^ m) := by
  by_cases h : m ≤ 2 * n
  · obtain ⟨a, b, rfl, ha, hb⟩ : ∃ a b, m = a + b ∧ a ≤ n ∧ b ≤ n :=
      ⟨min m n, m - min m n, by omega, by omega, by omega⟩
    rw [pow_dot, ← gint_phi, phi_pw a ha, phi_pw b hb, pow_add]
  · have hm' : m = n + (n + 1) := by omega
    subst hm'
    rw [pow_dot, ← gint_phi, pw_succ, phi_jac, phi_pw n le_rfl, mul_sub, gint_sub,
      show X ^ n * (C (pw n n (Fin.last n) / Real.sqrt (hn n)) * herm (n + 1)) =
        C (pw n n (Fin.last n) / Real.sqrt (hn n)) * (herm (n + 1) * X ^ n) by ring, gint_C_mul,
      gint_herm_mul, iterate_derivative_eq_zero (by rw [natDegree_X_pow]; omega), gint_zero,
      zero_div, mul_zero, sub_zero, ← pow_succ', ← pow_add]

variable {values : Fin (n + 1) → ℝ} {vectors : Matrix (Fin (n + 1)) (Fin (n + 1)) ℝ}

theorem eigen_pow {m : ℕ} {a : Matrix (Fin m) (Fin m) ℝ} {values : Fin m → ℝ}
    {vectors : Matrix (Fin m) (Fin m) ℝ} (h : IsEigen a values vectors) (k : ℕ) :
    fromLower a ^ k = vectors * diagonal (fun i => values i ^ k) * vectorsᵀ := by
  have h1 : fromLower a ^ k * vectors = vectors * diagonal (fun i => values i ^ k) := by
    induction k with
    | zero => simp
    | succ k ih =>
      rw [pow_succ', Matrix.mul_assoc, ih, ← Matrix.mul_assoc, h.decomposition, Matrix.mul_assoc,
        diagonal_mul_diagonal]
      congr 2
      funext i
      rw [pow_succ']
  have h2 : vectors * vectorsᵀ = 1 := mul_eq_one_comm.mp h.orthogonal
  rw [← h1, Matrix.mul_assoc, h2, Matrix.mul_one]

theorem eigen_entry (h : IsEigen (hermiteJacobi (n + 1)) values vectors) (k : ℕ) :
    (jac n ^ k) 0 0 = ∑ i, vectors 0 i * vectors 0 i * values i ^ k := by
  rw [jac, eigen_pow h, Matrix.mul_apply]
  refine Finset.sum_congr rfl fun i _ => ?_
  rw [mul_diagonal, transpose_apply]
  ring

/-- The rule on a polynomial. -/
theorem rule_poly (h : IsEigen (hermiteJacobi (n + 1)) values vectors) (p : ℝ[X])
    (hp : p.natDegree ≤ 2 * n + 1) :
    Real.sqrt Real.pi * ∑ i, vectors 0 i * vectors 0 i * p.eval (values i) = gint p := by
  have h1 : ∀ i, vectors 0 i * vectors 0 i * p.eval (values i) =
      ∑ k ∈ Finset.range (p.natDegree + 1), p.coeff k * (vectors 0 i * vectors 0 i * values i ^ k) := by
    intro i
    rw [eval_eq_sum_range, Finset.mul_sum]
    exact Finset.sum_congr rfl fun k _ => by ring
  rw [Finset.sum_congr rfl fun i _ => h1 i, Finset.sum_comm, Finset.mul_sum]
  conv_rhs => rw [p.as_sum_range_C_mul_X_pow, gint_sum]
  refine Finset.sum_congr rfl fun k hk => ?_
  rw [Finset.mem_range] at hk
  rw [← Finset.mul_sum, ← eigen_entry h, gint_C_mul, ← moment (n := n) k (by omega)]
  ring

/-- The spectral theorem: a decomposition always exists. -/
theorem exists_eigen {m : ℕ} (a : Matrix (Fin m) (Fin m) ℝ) :
    ∃ values vectors, IsEigen a values vectors := by
  have hh : (fromLower a).IsHermitian := by
    rw [Matrix.IsHermitian, conjTranspose_eq_transpose_of_trivial, fromLower_symm]
  refine ⟨hh.eigenvalues, (hh.eigenvectorUnitary : Matrix (Fin m) (Fin m) ℝ), ?_, ?_⟩
  · have := (Matrix.mem_unitaryGroup_iff').mp hh.eigenvectorUnitary.2
    rwa [star_eq_conjTranspose, conjTranspose_eq_transpose_of_trivial] at this
  · ext i j
    have h2 := congrFun (hh.mulVec_eigenvectorBasis j) i
    rw [mul_diagonal]
    refine (Eq.trans ?_ h2).trans ?_
    · rfl
    · simp [mul_comm]

end Verif.Quad
