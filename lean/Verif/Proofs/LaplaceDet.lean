import Verif.Proofs.Gauss
import Mathlib.LinearAlgebra.Matrix.SchurComplement
import Mathlib.LinearAlgebra.Matrix.Block

/-! The determinant of a matrix written as a sum of rank one terms, one for each eliminated
variable, and a remainder on the variables left. -/
namespace Verif.LaplaceDet

open Matrix Verif.Gauss

variable {N : ℕ}

theorem vecMulVec_row (v : Fin N) (w : Fin N → ℝ) (i j : Fin N) :
    vecMulVec (Pi.single v (1 : ℝ)) w i j = if i = v then w j else 0 := by
  rw [vecMulVec_apply, Pi.single_apply]
  split <;> simp

/-- A row multiplied by `d`. -/
theorem det_scale (M : Matrix (Fin N) (Fin N) ℝ) (v : Fin N) (d : ℝ)
    (h0 : ∀ j, M v j = 0) :
    (M + d • Matrix.single v v (1 : ℝ)).det = d * (M + Matrix.single v v (1 : ℝ)).det := by
  have h1 : M + d • Matrix.single v v (1 : ℝ)
      = updateRow (M + Matrix.single v v (1 : ℝ)) v (d • (M + Matrix.single v v (1 : ℝ)) v) := by
    ext i j
    by_cases hi : i = v
    · subst hi
      rw [updateRow_self]
      simp only [Matrix.add_apply, Matrix.smul_apply, Pi.smul_apply, h0, smul_eq_mul]
      ring
    · rw [updateRow_ne hi]
      simp [Matrix.single_apply, Ne.symm hi]
  rw [h1, det_updateRow_smul, updateRow_eq_self]

/-- Elimination of one variable. -/
theorem det_step (M : Matrix (Fin N) (Fin N) ℝ) (v : Fin N) (r : Fin N → ℝ) (hd : r v ≠ 0)
    (h0 : ∀ j, M v j = 0) (h0' : ∀ i, M i v = 0) :
    (M + (r v)⁻¹ • vecMulVec r r).det = r v * (M + Matrix.single v v (1 : ℝ)).det := by
  rw [← det_scale M v _ h0]
  set w : Fin N → ℝ := (r v)⁻¹ • r - Pi.single v 1 with hw
  set L : Matrix (Fin N) (Fin N) ℝ := 1 + vecMulVec (Pi.single v (1 : ℝ)) w with hL
  have hdet : L.det = 1 := by
    have := det_one_add_replicateCol_mul_replicateRow (ι := Unit)
      (Pi.single v (1 : ℝ)) w
    rw [← vecMulVec_eq] at this
    rw [hL, this, hw]
    simp [hd]
  have hML : M * L = M := by
    rw [hL, mul_add, mul_one, mul_vecMulVec]
    have : M *ᵥ (Pi.single v (1 : ℝ)) = 0 := by
      funext i
      simp [h0']
    rw [this, zero_vecMulVec, add_zero]
  have hLM : Lᵀ * M = M := by
    rw [hL, transpose_add, transpose_one, transpose_vecMulVec, add_mul, one_mul,
      vecMulVec_mul]
    have : (Pi.single v (1 : ℝ)) ᵥ* M = 0 := by
      funext i
      simp [h0]
    rw [this, vecMulVec_zero, add_zero]
  have hLe : (Pi.single v (1 : ℝ)) ᵥ* L = (r v)⁻¹ • r := by
    rw [hL, vecMul_add, vecMul_one, vecMul_vecMulVec, hw]
    simp
  have hE : Matrix.single v v (1 : ℝ) = vecMulVec (Pi.single v 1) (Pi.single v 1) := by
    ext i j
    rw [vecMulVec_row, Matrix.single_apply, Pi.single_apply]
    by_cases hi : i = v <;> by_cases hj : j = v <;> simp [hi, hj, Ne.symm, @eq_comm _ v]
  have hprod : Lᵀ * (M + r v • Matrix.single v v (1 : ℝ)) * L
      = M + (r v)⁻¹ • vecMulVec r r := by
    clear_value L
    rw [mul_add, add_mul, hLM, hML, hE, Matrix.mul_smul, Matrix.smul_mul, mul_vecMulVec,
      vecMulVec_mul, hLe, mulVec_transpose, hLe]
    congr 1
    ext i j
    simp only [Matrix.smul_apply, vecMulVec_apply, Pi.smul_apply, smul_eq_mul]
    field_simp
  rw [← hprod, det_mul, det_mul, det_transpose, hdet, one_mul, mul_one]

/-- Elimination of `n` variables one after the other. -/
theorem det_sweep : ∀ (n : ℕ) (v : ℕ → Fin N) (r : ℕ → Fin N → ℝ)
    (R : Matrix (Fin N) (Fin N) ℝ), (∀ k < n, r k (v k) ≠ 0) →
    (∀ k j, k < j → j < n → r j (v k) = 0) → (∀ k < n, ∀ j, R (v k) j = 0 ∧ R j (v k) = 0) →
    (∀ k j, k < j → j < n → v k ≠ v j) →
    ((∑ k ∈ Finset.range n, (r k (v k))⁻¹ • vecMulVec (r k) (r k)) + R).det
      = (∏ k ∈ Finset.range n, r k (v k))
        * (R + ∑ k ∈ Finset.range n, Matrix.single (v k) (v k) (1 : ℝ)).det := by
  intro n
  induction n with
  | zero => intro v r R _ _ _ _; simp
  | succ n ih =>
    intro v r R hd hr hR hv
    have h := det_step ((∑ k ∈ Finset.range n,
      (r (k + 1) (v (k + 1)))⁻¹ • vecMulVec (r (k + 1)) (r (k + 1))) + R) (v 0) (r 0)
      (hd 0 (by omega))
      (fun j => by
        rw [Matrix.add_apply, Matrix.sum_apply, (hR 0 (by omega) j).1, add_zero]
        refine Finset.sum_eq_zero fun k hk => ?_
        rw [Matrix.smul_apply, vecMulVec_apply, hr 0 (k + 1) (by omega)
          (by have := Finset.mem_range.mp hk; omega), zero_mul, smul_zero])
      (fun j => by
        rw [Matrix.add_apply, Matrix.sum_apply, (hR 0 (by omega) j).2, add_zero]
        refine Finset.sum_eq_zero fun k hk => ?_
        rw [Matrix.smul_apply, vecMulVec_apply, hr 0 (k + 1) (by omega)
          (by have := Finset.mem_range.mp hk; omega), mul_zero, smul_zero])
    have h2 := ih (fun k => v (k + 1)) (fun k => r (k + 1)) (R + Matrix.single (v 0) (v 0) 1)
      (fun k hk => hd (k + 1) (by omega)) (fun k j hkj hj => hr (k + 1) (j + 1) (by omega) (by omega))
      (fun k hk j => by
        have hne := hv 0 (k + 1) (by omega) (by omega)
        have := hR (k + 1) (by omega) j
        refine ⟨?_, ?_⟩
        · simp [this.1, Matrix.single_apply, hne]
        · simp [this.2, Matrix.single_apply, hne])
      (fun k j hkj hj => hv (k + 1) (j + 1) (by omega) (by omega))
    rw [Finset.sum_range_succ' (fun k => (r k (v k))⁻¹ • vecMulVec (r k) (r k)),
      Finset.prod_range_succ' (fun k => r k (v k)),
      Finset.sum_range_succ' (fun k => Matrix.single (v k) (v k) (1 : ℝ))]
    rw [show ∀ A B C : Matrix (Fin N) (Fin N) ℝ, A + B + C = A + C + B from
      fun A B C => add_right_comm A B C]
    rw [h, add_assoc, h2, mul_comm _ (r 0 (v 0)), mul_assoc]
    congr 3
    abel

/-- The remainder: with the eliminated variables being exactly those outside `e`. -/
theorem det_pad {m n : ℕ} (e : Fin m → Fin N) (he : Function.Injective e)
    (P : Matrix (Fin m) (Fin m) ℝ) (v : ℕ → Fin N)
    (hv : ∀ k j, k < j → j < n → v k ≠ v j) (hdis : ∀ k < n, ∀ a, e a ≠ v k)
    (hcov : ∀ i, (∃ a, e a = i) ∨ ∃ k < n, v k = i) :
    (pad e P + ∑ k ∈ Finset.range n, Matrix.single (v k) (v k) (1 : ℝ)).det = P.det := by
  classical
  set A := pad e P + ∑ k ∈ Finset.range n, Matrix.single (v k) (v k) (1 : ℝ) with hA
  have hsing : ∀ i j, (∑ k ∈ Finset.range n, Matrix.single (v k) (v k) (1 : ℝ)) i j
      = if i = j ∧ ∃ k < n, v k = i then 1 else 0 := by
    intro i j
    rw [Matrix.sum_apply]
    split
    · rename_i h
      obtain ⟨rfl, k, hk, rfl⟩ := h
      rw [Finset.sum_eq_single k]
      · simp
      · intro l hl hne
        have hl := Finset.mem_range.mp hl
        have : v l ≠ v k := by
          rcases Nat.lt_or_gt_of_ne hne with h | h
          · exact hv l k h hk
          · exact (hv k l h hl).symm
        simp [Matrix.single_apply, this]
      · intro h
        exact absurd (Finset.mem_range.mpr hk) h
    · rename_i h
      refine Finset.sum_eq_zero fun k hk => ?_
      rw [Matrix.single_apply, if_neg]
      rintro ⟨rfl, rfl⟩
      exact h ⟨rfl, k, Finset.mem_range.mp hk, rfl⟩
  have hno : ∀ i, (¬ ∃ a, e a = i) ↔ ∃ k < n, v k = i := by
    intro i
    refine ⟨fun h => (hcov i).resolve_left h, ?_⟩
    rintro ⟨k, hk, rfl⟩ ⟨a, ha⟩
    exact hdis k hk a ha
  rw [twoBlockTriangular_det A (fun i => ∃ a, e a = i)]
  · have h1 : (toSquareBlockProp A fun i => ¬ ∃ a, e a = i) = 1 := by
      ext ⟨i, hi⟩ ⟨j, hj⟩
      rw [toSquareBlockProp_def, Matrix.of_apply, hA, Matrix.add_apply, hsing,
        pad_row P (fun k hk => hi ⟨k, hk⟩), zero_add, Matrix.one_apply]
      by_cases h : i = j
      · subst h
        rw [if_pos ⟨rfl, (hno i).mp hi⟩, if_pos rfl]
      · rw [if_neg fun hh => h hh.1, if_neg fun hh => h (Subtype.mk.inj hh)]
    rw [h1, det_one, mul_one]
    let f : Fin m ≃ {i // ∃ a, e a = i} := Equiv.ofBijective (fun a => ⟨e a, a, rfl⟩)
      ⟨fun a b h => he (Subtype.mk.inj h), fun ⟨i, a, ha⟩ => ⟨a, Subtype.ext ha⟩⟩
    rw [← det_submatrix_equiv_self f]
    congr 1
    ext a b
    show A (e a) (e b) = P a b
    rw [hA, Matrix.add_apply, pad_mem he, hsing, if_neg, add_zero]
    rintro ⟨_, h⟩
    exact (hno _).mpr h ⟨a, rfl⟩
  · rintro i hi j ⟨a, rfl⟩
    rw [hA, Matrix.add_apply, pad_row P (fun k hk => hi ⟨k, hk⟩), hsing, if_neg, add_zero]
    rintro ⟨rfl, _⟩
    exact hi ⟨a, rfl⟩

/-- The number of variables. -/
theorem card_pad {m n : ℕ} (e : Fin m → Fin N) (he : Function.Injective e) (v : ℕ → Fin N)
    (hv : ∀ k j, k < j → j < n → v k ≠ v j) (hdis : ∀ k < n, ∀ a, e a ≠ v k)
    (hcov : ∀ i, (∃ a, e a = i) ∨ ∃ k < n, v k = i) : N = n + m := by
  classical
  let f : Fin n ⊕ Fin m → Fin N := Sum.elim (fun k => v k) e
  have hf : Function.Bijective f := by
    refine ⟨?_, ?_⟩
    · rintro (k | a) (l | b) h
      · have h : v k = v l := h
        congr 1
        apply Fin.ext
        by_contra hne
        rcases Nat.lt_or_gt_of_ne hne with h1 | h1
        · exact hv k l h1 l.2 h
        · exact hv l k h1 k.2 h.symm
      · exact absurd h.symm (hdis k k.2 b)
      · exact absurd h (hdis l l.2 a)
      · exact congrArg _ (he h)
    · intro i
      rcases hcov i with ⟨a, ha⟩ | ⟨k, hk, hk2⟩
      · exact ⟨Sum.inr a, ha⟩
      · exact ⟨Sum.inl ⟨k, hk⟩, hk2⟩
  have := Fintype.card_of_bijective hf
  simpa using this.symm

/-- The conditional variance of variable `i` given the others is the reciprocal of its
precision. -/
theorem condVar_mul {m : ℕ} {V : Matrix (Fin (m + 1)) (Fin (m + 1)) ℝ} (hV : V.det ≠ 0)
    (i : Fin (m + 1)) (h22 : (V.submatrix i.succAbove i.succAbove).det ≠ 0) (hsym : Vᵀ = V) :
    (V i i - (fun r => V i (i.succAbove r)) ⬝ᵥ
      ((V.submatrix i.succAbove i.succAbove)⁻¹ *ᵥ fun r => V i (i.succAbove r))) * V⁻¹ i i
      = 1 := by
  have hmul : V * V⁻¹ = 1 := mul_nonsing_inv V (isUnit_iff_ne_zero.mpr hV)
  have hinv := nonsing_inv_mul _ (isUnit_iff_ne_zero.mpr h22)
  have hs : ∀ a b, V a b = V b a := fun a b => congrFun (congrFun hsym b) a
  set A := V.submatrix i.succAbove i.succAbove with hA
  set x : Fin m → ℝ := fun r => V⁻¹ (i.succAbove r) i with hx
  set u : Fin m → ℝ := fun r => V i (i.succAbove r) with hu
  have e1 : V i i * V⁻¹ i i + u ⬝ᵥ x = 1 := by
    have := congrFun (congrFun hmul i) i
    rwa [Matrix.mul_apply, Fin.sum_univ_succAbove _ i, Matrix.one_apply_eq] at this
  have e2 : A *ᵥ x = -(V⁻¹ i i) • u := by
    funext r
    have := congrFun (congrFun hmul (i.succAbove r)) i
    rw [Matrix.mul_apply, Fin.sum_univ_succAbove _ i, Matrix.one_apply_ne
      (Fin.succAbove_ne i r)] at this
    have h2 : (A *ᵥ x) r = ∑ c, V (i.succAbove r) (i.succAbove c) * V⁻¹ (i.succAbove c) i := rfl
    have h3 : u r = V (i.succAbove r) i := hs _ _
    rw [h2, Pi.smul_apply, smul_eq_mul, h3]
    linarith
  have e3 : x = -(V⁻¹ i i) • (A⁻¹ *ᵥ u) := by
    rw [← mulVec_smul, ← e2, mulVec_mulVec, hinv, one_mulVec]
  rw [e3, dotProduct_smul, smul_eq_mul] at e1
  linarith

/-- Schur complement. -/
theorem det_eq_mul {m : ℕ} {V : Matrix (Fin (m + 1)) (Fin (m + 1)) ℝ} (hV : V.det ≠ 0)
    (i : Fin (m + 1)) (h22 : (V.submatrix i.succAbove i.succAbove).det ≠ 0) (hsym : Vᵀ = V) :
    V.det = (V.submatrix i.succAbove i.succAbove).det *
      (V i i - (fun r => V i (i.succAbove r)) ⬝ᵥ
        ((V.submatrix i.succAbove i.succAbove)⁻¹ *ᵥ fun r => V i (i.succAbove r))) := by
  have h := condVar_mul hV i h22 hsym
  have h2 : V⁻¹ i i = (V.submatrix i.succAbove i.succAbove).det / V.det := by
    rw [Matrix.inv_def, Matrix.smul_apply, adjugate_fin_succ_eq_det_submatrix,
      Ring.inverse_eq_inv', smul_eq_mul, Even.neg_one_pow ⟨_, rfl⟩, one_mul, div_eq_inv_mul]
  rw [h2] at h
  field_simp at h
  linarith

end Verif.LaplaceDet
