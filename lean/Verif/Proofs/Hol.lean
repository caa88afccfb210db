import Verif.Spec.Hol
import Mathlib.Tactic.LinearCombination

/-!
# Contractions of sums of products
-/
namespace Verif.Hol

open Matrix Spec

variable {q n : ℕ}

section swap
variable {α : Type} [Fintype α] {ι : Type} [Fintype ι]

theorem swap1 (F : α → ι → ℝ) : ∑ x, ∑ a, F x a = ∑ a, ∑ x, F x a := Finset.sum_comm

theorem swap2 (F : α → α → ι → ℝ) : ∑ x, ∑ y, ∑ a, F x y a = ∑ a, ∑ x, ∑ y, F x y a :=
  (Finset.sum_congr rfl fun x _ => swap1 (F x)).trans (swap1 fun x a => ∑ y, F x y a)

theorem swap3 (F : α → α → α → ι → ℝ) :
    ∑ x, ∑ y, ∑ z, ∑ a, F x y z a = ∑ a, ∑ x, ∑ y, ∑ z, F x y z a :=
  (Finset.sum_congr rfl fun x _ => swap2 (F x)).trans (swap1 fun x a => ∑ y, ∑ z, F x y z a)

theorem swap4 (F : α → α → α → α → ι → ℝ) :
    ∑ x, ∑ y, ∑ z, ∑ v, ∑ a, F x y z v a = ∑ a, ∑ x, ∑ y, ∑ z, ∑ v, F x y z v a :=
  (Finset.sum_congr rfl fun x _ => swap3 (F x)).trans
    (swap1 fun x a => ∑ y, ∑ z, ∑ v, F x y z v a)

theorem swap5 (F : α → α → α → α → α → ι → ℝ) :
    ∑ x, ∑ y, ∑ z, ∑ v, ∑ w, ∑ a, F x y z v w a = ∑ a, ∑ x, ∑ y, ∑ z, ∑ v, ∑ w, F x y z v w a :=
  (Finset.sum_congr rfl fun x _ => swap4 (F x)).trans
    (swap1 fun x a => ∑ y, ∑ z, ∑ v, ∑ w, F x y z v w a)

theorem swap6 (F : α → α → α → α → α → α → ι → ℝ) :
    ∑ x, ∑ y, ∑ z, ∑ v, ∑ w, ∑ t, ∑ a, F x y z v w t a =
      ∑ a, ∑ x, ∑ y, ∑ z, ∑ v, ∑ w, ∑ t, F x y z v w t a :=
  (Finset.sum_congr rfl fun x _ => swap5 (F x)).trans
    (swap1 fun x a => ∑ y, ∑ z, ∑ v, ∑ w, ∑ t, F x y z v w t a)

end swap

theorem entry (A : Matrix (Fin q) (Fin n) ℝ) (h : Matrix (Fin q) (Fin q) ℝ) (a b : Fin n) :
    (Aᵀ * (h * A)) a b = ∑ i, ∑ j, A i a * h i j * A j b := by
  rw [Matrix.mul_apply]
  refine Finset.sum_congr rfl fun i _ => ?_
  rw [Matrix.transpose_apply, Matrix.mul_apply, Finset.mul_sum]
  exact Finset.sum_congr rfl fun j _ => by ring

/-- The contraction of tensors that are sums over the observations of products. -/
theorem correction_eq (A : Matrix (Fin q) (Fin n) ℝ) (h : Matrix (Fin q) (Fin q) ℝ)
    (γ3 γ4 : Fin n → ℝ) :
    correction (fun i j k => ∑ a, γ3 a * (A i a * A j a * A k a))
      (fun i j k l => ∑ a, γ4 a * (A i a * A j a * A k a * A l a)) h =
      epsilonOf γ3 γ4 (Aᵀ * (h * A)) := by
  have e4 : (∑ i, ∑ j, ∑ k, ∑ l, (∑ a, γ4 a * (A i a * A j a * A k a * A l a)) * h i j * h k l) =
      ∑ a, γ4 a * (Aᵀ * (h * A)) a a ^ 2 := by
    simp only [Finset.sum_mul]
    rw [swap4]
    refine Finset.sum_congr rfl fun a _ => ?_
    have : ∀ i j k l, γ4 a * (A i a * A j a * A k a * A l a) * h i j * h k l =
        γ4 a * ((A i a * h i j * A j a) * (A k a * h k l * A l a)) := fun i j k l => by ring
    simp only [this, ← Finset.mul_sum, ← Finset.sum_mul]
    rw [entry, sq]
  have e13 : (∑ i, ∑ j, ∑ k, ∑ l, ∑ m, ∑ o, (∑ a, γ3 a * (A i a * A j a * A k a)) *
      (∑ b, γ3 b * (A l b * A m b * A o b)) * h i j * h k l * h m o) =
      ∑ a, ∑ b, γ3 a * γ3 b * ((Aᵀ * (h * A)) a a * (Aᵀ * (h * A)) a b * (Aᵀ * (h * A)) b b) := by
    simp only [Finset.sum_mul]
    rw [swap6]
    refine Finset.sum_congr rfl fun a _ => ?_
    simp only [Finset.sum_mul, Finset.mul_sum]
    rw [swap6]
    refine Finset.sum_congr rfl fun b _ => ?_
    have : ∀ i j k l m o, γ3 a * (A i a * A j a * A k a) * (γ3 b * (A l b * A m b * A o b)) *
        h i j * h k l * h m o = γ3 a * γ3 b * ((A i a * h i j * A j a) *
          ((A k a * h k l * A l b) * (A m b * h m o * A o b))) := fun i j k l m o => by ring
    simp only [this, ← Finset.mul_sum, ← Finset.sum_mul]
    rw [entry, entry, entry]
    ring
  have e23 : (∑ i, ∑ j, ∑ k, ∑ l, ∑ m, ∑ o, (∑ a, γ3 a * (A i a * A j a * A k a)) *
      (∑ b, γ3 b * (A l b * A m b * A o b)) * h i l * h j m * h k o) =
      ∑ a, ∑ b, γ3 a * γ3 b * (Aᵀ * (h * A)) a b ^ 3 := by
    simp only [Finset.sum_mul]
    rw [swap6]
    refine Finset.sum_congr rfl fun a _ => ?_
    simp only [Finset.sum_mul, Finset.mul_sum]
    rw [swap6]
    refine Finset.sum_congr rfl fun b _ => ?_
    have : ∀ i j k l m o, γ3 a * (A i a * A j a * A k a) * (γ3 b * (A l b * A m b * A o b)) *
        h i l * h j m * h k o = γ3 a * γ3 b * ((A i a * h i l * A l b) *
          ((A j a * h j m * A m b) * (A k a * h k o * A o b))) := fun i j k l m o => by ring
    simp only [this, ← Finset.mul_sum, ← Finset.sum_mul]
    rw [entry]
    ring
  unfold correction epsilonOf
  rw [e4, e13, e23]
  dsimp only
  generalize Aᵀ * (h * A) = M
  have f13 : ((fun j => γ3 j * M j j) ⬝ᵥ Mᵀ *ᵥ fun j => γ3 j * M j j) =
      ∑ a, ∑ b, γ3 a * γ3 b * (M a a * M a b * M b b) := by
    rw [Finset.sum_comm]
    simp only [dotProduct, Matrix.mulVec, Matrix.transpose_apply, Finset.mul_sum]
    exact Finset.sum_congr rfl fun a _ => Finset.sum_congr rfl fun b _ => by ring
  have f23 : (γ3 ⬝ᵥ (Matrix.of fun i j => M i j ^ 3)ᵀ *ᵥ γ3) =
      ∑ a, ∑ b, γ3 a * γ3 b * M a b ^ 3 := by
    rw [Finset.sum_comm]
    simp only [dotProduct, Matrix.mulVec, Matrix.transpose_apply, Matrix.of_apply, Finset.mul_sum]
    exact Finset.sum_congr rfl fun a _ => Finset.sum_congr rfl fun b _ => by ring
  rw [f13, f23]
  ring

end Verif.Hol
