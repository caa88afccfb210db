import Verif.Model.Counting
import Mathlib.Data.Nat.Choose.Basic
import Mathlib.Algebra.BigOperators.Group.Finset.Basic
import Mathlib.Algebra.Order.BigOperators.Group.Finset
import Mathlib.Tactic.Ring
import Mathlib.Tactic.Linarith
import Mathlib.Tactic.NormNum

/-! Helper lemmas on `choose` and `findNumGridPoints`. -/
namespace Verif.Counting

open Finset

theorem fits_nat {ar : Arith} {B : ℕ} (h : Fits ar B) {z : ℕ} (hz : z ≤ B) :
    ar (z : ℤ) = Except.ok (z : ℤ) := h _ (by omega) (by exact_mod_cast hz)

theorem choose_succ_mul (k j : ℕ) :
    Nat.choose (k + j) k * (k + j + 1) = Nat.choose (k + j + 1) k * (j + 1) := by
  have := Nat.choose_mul_succ_eq (k + j) k
  have e : k + j + 1 - k = j + 1 := by omega
  rw [e] at this
  exact this

theorem choose_succ_le (k j : ℕ) :
    Nat.choose (k + j + 1) k ≤ Nat.choose (k + j) k * (k + j + 1) := by
  rw [choose_succ_mul]
  exact Nat.le_mul_of_pos_right _ (by omega)

/-- One step of the loop: the product `C(i-1,k) * i` is divisible by `i - k`. -/
theorem choose_step (k j : ℕ) :
    Int.tdiv ((Nat.choose (k + j) k * (k + j + 1) : ℕ) : ℤ) ((j + 1 : ℕ) : ℤ)
      = (Nat.choose (k + j + 1) k : ℤ) := by
  rw [choose_succ_mul, Nat.cast_mul]
  exact Int.mul_tdiv_cancel _ (by positivity)

/-- One checked iteration that does not overflow. -/
theorem chooseLoop_step {ar : Arith} {B : ℕ} (hf : Fits ar B) (k m j : ℕ)
    (h1 : Nat.choose (k + j) k * (k + j + 1) ≤ B)
    (h2 : k + (j + 1) + 1 ≤ B) :
    chooseLoop ar k (m + 1) ((k + j + 1 : ℕ) : ℤ) (Nat.choose (k + j) k : ℤ)
      = chooseLoop ar k m ((k + (j + 1) + 1 : ℕ) : ℤ) (Nat.choose (k + (j + 1)) k : ℤ) := by
  rw [chooseLoop]
  rw [show ((Nat.choose (k + j) k : ℤ) * ((k + j + 1 : ℕ) : ℤ))
    = ((Nat.choose (k + j) k * (k + j + 1) : ℕ) : ℤ) by push_cast; ring]
  rw [fits_nat hf h1]
  simp only [res_ok_bind]
  rw [show (((k + j + 1 : ℕ) : ℤ) - k) = ((j + 1 : ℕ) : ℤ) by push_cast; ring]
  rw [fits_nat hf (by omega)]
  simp only [res_ok_bind]
  have hne : ((j + 1 : ℕ) : ℤ) ≠ 0 := by positivity
  rw [divA, if_neg hne, choose_step, fits_nat hf (le_trans (choose_succ_le k j) h1)]
  simp only [res_ok_bind]
  rw [show (((k + j + 1 : ℕ) : ℤ) + 1) = ((k + (j + 1) + 1 : ℕ) : ℤ) by push_cast; ring]
  rw [fits_nat hf h2]
  simp only [res_ok_bind, ← Nat.add_assoc]

theorem prod_mono (k j m : ℕ) :
    Nat.choose (k + j) k * (k + j + 1) ≤ (j + 1 + m) * Nat.choose (k + (j + 1 + m)) k := by
  rw [choose_succ_mul, Nat.mul_comm]
  exact Nat.mul_le_mul (by omega) (Nat.choose_le_choose k (by omega))

theorem chooseLoop_ok {ar : Arith} {B : ℕ} (hf : Fits ar B) (k : ℕ) (m : ℕ) : ∀ j : ℕ,
    k + j + m + 1 ≤ B → (j + m) * Nat.choose (k + (j + m)) k ≤ B →
    chooseLoop ar k m ((k + j + 1 : ℕ) : ℤ) (Nat.choose (k + j) k : ℤ)
      = Except.ok (Nat.choose (k + (j + m)) k : ℤ) := by
  induction m with
  | zero => intro j _ _; simp [chooseLoop]
  | succ m ih =>
    intro j hb h
    have e : j + (m + 1) = j + 1 + m := by ring
    rw [e] at h ⊢
    rw [chooseLoop_step hf k m j (le_trans (prod_mono k j m) h) (by omega)]
    exact ih (j + 1) (by omega) h

/-- `choose` computes the binomial coefficient when the largest intermediate fits. -/
theorem choose_ok {ar : Arith} {B : ℕ} (hf : Fits ar B) {n k : ℕ} (hk : k ≤ n)
    (h1 : n + 1 ≤ B) (h2 : (n - k) * Nat.choose n k ≤ B) :
    choose ar n k = Except.ok (Nat.choose n k : ℤ) := by
  obtain ⟨m, rfl⟩ := Nat.exists_eq_add_of_le hk
  have := chooseLoop_ok hf k m 0 (by omega) (by simpa using h2)
  unfold choose
  rw [show ((k : ℤ) + 1) = ((k + 1 : ℕ) : ℤ) by push_cast; ring, fits_nat hf (by omega)]
  simp only [res_ok_bind]
  rw [show (((k + m : ℕ) : ℤ) - k).toNat = m by omega]
  simpa using this

/-- With a 32-bit `int`, an intermediate value that does not fit gives `ub`. -/
theorem chooseLoop_ub (k : ℕ) (m : ℕ) : ∀ j : ℕ,
    ((2147483647 : ℤ) < ((k + j + m + 1 : ℕ) : ℤ) ∧ 0 < m ∨
      (2147483647 : ℤ) < (((j + m) * Nat.choose (k + (j + m)) k : ℕ) : ℤ) ∧ 0 < m) →
    chooseLoop i32 k m ((k + j + 1 : ℕ) : ℤ) (Nat.choose (k + j) k : ℤ) = Res.ub := by
  obtain ⟨B, hB⟩ : ∃ B : ℕ, (B : ℤ) = 2147483647 := ⟨2147483647, rfl⟩
  have hf : Fits i32 B := by rw [hB]; exact fits_i32
  have hub : ∀ z : ℕ, B < z → i32 (z : ℤ) = Res.ub := by
    intro z hz
    unfold i32
    rw [if_neg]
    rintro ⟨-, h⟩
    rw [← hB] at h
    have : z ≤ B := by exact_mod_cast h
    omega
  rw [← hB]
  simp only [Nat.cast_lt]
  induction m with
  | zero => rintro j (h | h) <;> exact absurd h.2 (by simp)
  | succ m ih =>
    intro j h
    by_cases hc : Nat.choose (k + j) k * (k + j + 1) ≤ B
    · by_cases hn : k + (j + 1) + 1 ≤ B
      · rw [chooseLoop_step hf k m j hc hn]
        apply ih
        have e : j + (m + 1) = j + 1 + m := by ring
        rw [e] at h
        rcases Nat.eq_zero_or_pos m with rfl | hm
        · exfalso
          rcases h with h | h
          · omega
          · rw [choose_succ_mul] at hc
            have h3 := h.1
            rw [Nat.add_zero, ← Nat.add_assoc, Nat.mul_comm] at h3
            omega
        · rcases h with h | h
          · left; omega
          · right; exact ⟨h.1, hm⟩
      · rw [chooseLoop]
        rw [show ((Nat.choose (k + j) k : ℤ) * ((k + j + 1 : ℕ) : ℤ))
          = ((Nat.choose (k + j) k * (k + j + 1) : ℕ) : ℤ) by push_cast; ring]
        rw [fits_nat hf hc]
        simp only [res_ok_bind]
        rw [show (((k + j + 1 : ℕ) : ℤ) - k) = ((j + 1 : ℕ) : ℤ) by push_cast; ring]
        have hj : j + 1 ≤ B := by
          have : (j + 1) ≤ Nat.choose (k + j) k * (k + j + 1) := by
            have : 0 < Nat.choose (k + j) k := Nat.choose_pos (by omega)
            nlinarith
          omega
        rw [fits_nat hf hj]
        simp only [res_ok_bind]
        have hne : ((j + 1 : ℕ) : ℤ) ≠ 0 := by positivity
        rw [divA, if_neg hne, choose_step, fits_nat hf (le_trans (choose_succ_le k j) hc)]
        simp only [res_ok_bind]
        rw [show (((k + j + 1 : ℕ) : ℤ) + 1) = ((k + (j + 1) + 1 : ℕ) : ℤ) by push_cast; ring]
        rw [hub _ (not_le.mp hn)]
        simp only [res_ub_bind]
    · rw [chooseLoop]
      rw [show ((Nat.choose (k + j) k : ℤ) * ((k + j + 1 : ℕ) : ℤ))
        = ((Nat.choose (k + j) k * (k + j + 1) : ℕ) : ℤ) by push_cast; ring]
      rw [hub _ (not_le.mp hc)]
      simp only [res_ub_bind]

/-- Number of points with level sum at most `k`, as a sum. -/
def gridCount (d k : ℕ) : ℕ := ∑ j ∈ range (k + 1), Nat.choose (d - 1 + j) j * 2 ^ j

theorem gridLoop_ok {ar : Arith} {B : ℕ} (hf : Fits ar B) (d : ℕ) (hd : 0 < d) (m : ℕ) :
    ∀ i out : ℕ, d + i + m ≤ B →
    (∀ j, j < m → (d - 1) * Nat.choose (d - 1 + (i + j)) (i + j) ≤ B) →
    out + ∑ j ∈ range m, Nat.choose (d - 1 + (i + j)) (i + j) * 2 ^ (i + j) ≤ B →
    gridLoop ar d m i out
      = Except.ok ((out + ∑ j ∈ range m, Nat.choose (d - 1 + (i + j)) (i + j) * 2 ^ (i + j) : ℕ)
          : ℤ) := by
  induction m with
  | zero => intro i out _ _ _; simp [gridLoop]
  | succ m ih =>
    intro i out h1 h2 h3
    rw [Finset.sum_range_succ'] at h3 ⊢
    have e : ∀ j, i + (j + 1) = i + 1 + j := by intro j; ring
    have hsum : ∑ j ∈ range m, Nat.choose (d - 1 + (i + (j + 1))) (i + (j + 1)) * 2 ^ (i + (j + 1))
        = ∑ j ∈ range m, Nat.choose (d - 1 + (i + 1 + j)) (i + 1 + j) * 2 ^ (i + 1 + j) :=
      Finset.sum_congr rfl (fun j _ => by rw [e j])
    rw [hsum, Nat.add_zero i] at h3 ⊢
    have hih := ih (i + 1) (out + Nat.choose (d - 1 + i) i * 2 ^ i) (by omega)
      (fun j hj => by rw [← e]; exact h2 (j + 1) (by omega)) (by rw [Nat.add_assoc]; linarith)
    rw [gridLoop]
    rw [show ((d : ℤ) - 1) = ((d - 1 : ℕ) : ℤ) by omega, fits_nat hf (by omega)]
    simp only [res_ok_bind]
    rw [show (((d - 1 : ℕ) : ℤ) + i) = ((d - 1 + i : ℕ) : ℤ) by push_cast; ring,
      fits_nat hf (by omega)]
    simp only [res_ok_bind]
    have h20 := h2 0 (by omega)
    rw [Nat.add_zero] at h20
    rw [choose_ok hf (by omega) (by omega) (by rwa [show d - 1 + i - i = d - 1 by omega])]
    simp only [res_ok_bind]
    have hpos : 0 < Nat.choose (d - 1 + i) i := Nat.choose_pos (by omega)
    have hle : 2 ^ i ≤ Nat.choose (d - 1 + i) i * 2 ^ i := Nat.le_mul_of_pos_left _ hpos
    have hle2 : Nat.choose (d - 1 + i) i * 2 ^ i ≤ B := by
      refine le_trans ?_ h3
      rw [← Nat.add_assoc]
      exact Nat.le_add_left _ _
    have hle3 : out + Nat.choose (d - 1 + i) i * 2 ^ i ≤ B := by linarith [Nat.zero_le (∑ j ∈ range m,
      Nat.choose (d - 1 + (i + 1 + j)) (i + 1 + j) * 2 ^ (i + 1 + j))]
    rw [shl1, if_neg (by omega), show (i : ℤ).toNat = i by omega,
      show ((2 : ℤ) ^ i) = ((2 ^ i : ℕ) : ℤ) by push_cast; ring, fits_nat hf (le_trans hle hle2)]
    simp only [res_ok_bind]
    rw [← Nat.cast_mul, fits_nat hf hle2]
    simp only [res_ok_bind]
    rw [← Nat.cast_add, fits_nat hf hle3]
    simp only [res_ok_bind]
    rw [show ((i : ℤ) + 1) = ((i + 1 : ℕ) : ℤ) by push_cast; ring, fits_nat hf (by omega)]
    simp only [res_ok_bind]
    rw [hih]
    congr 2
    ring

theorem findNumGridPoints_ok {ar : Arith} {B : ℕ} (hf : Fits ar B) {d : ℕ} (hd : 0 < d) (k : ℕ)
    (h1 : d + k + 1 ≤ B) (h2 : (d - 1) * Nat.choose (d - 1 + k) k ≤ B) (h3 : gridCount d k ≤ B) :
    findNumGridPoints ar d k = Except.ok (gridCount d k : ℤ) := by
  unfold findNumGridPoints
  rw [if_pos (by exact_mod_cast hd)]
  rw [show ((k : ℤ) + 1) = ((k + 1 : ℕ) : ℤ) by push_cast; ring, fits_nat hf (by omega)]
  simp only [res_ok_bind, Int.toNat_natCast]
  have := gridLoop_ok hf d hd (k + 1) 0 0 (by omega) (by
      intro j hj
      refine le_trans (Nat.mul_le_mul_left _ ?_) h2
      rw [Nat.zero_add]
      rw [← Nat.choose_symm_add, ← Nat.choose_symm_add]
      exact Nat.choose_le_choose _ (by omega)) (by simpa [gridCount] using h3)
  simpa [gridCount] using this

theorem choose_exact {n k : ℕ} (hk : k ≤ n) :
    choose exactZ n k = Except.ok (Nat.choose n k : ℤ) :=
  choose_ok (B := max (n + 1) ((n - k) * Nat.choose n k)) (fits_exactZ _) hk
    (le_max_left _ _) (le_max_right _ _)

theorem findNumGridPoints_exact {d : ℕ} (hd : 0 < d) (k : ℕ) :
    findNumGridPoints exactZ d k = Except.ok (gridCount d k : ℤ) :=
  findNumGridPoints_ok
    (B := (d + k + 1) + ((d - 1) * Nat.choose (d - 1 + k) k) + gridCount d k)
    (fits_exactZ _) hd k (by omega) (by omega) (by omega)

end Verif.Counting
