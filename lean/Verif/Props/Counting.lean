import Verif.Proofs.GridCard

/-!
# C01, C02: `choose` and `findNumGridPoints`
-/
namespace Verif.Counting

open Verif.Spec

/-- C01: for `0 ≤ k ≤ n` the routine returns exactly the binomial coefficient when the
largest intermediate value `(n - k) * C(n, k)` and the final loop counter fit in `int`;
otherwise the outcome is undefined behaviour. -/
theorem c01_choose_binomial_or_ub (n k : ℕ) (hk : k ≤ n) :
    choose i32 n k =
      if ((n : ℤ) + 1 ≤ 2147483647 ∧ ((n - k : ℕ) : ℤ) * Nat.choose n k ≤ 2147483647)
      then Except.ok (Nat.choose n k : ℤ) else Res.ub := by
  obtain ⟨B, hB⟩ : ∃ B : ℕ, (B : ℤ) = 2147483647 := ⟨2147483647, rfl⟩
  have hf : Fits i32 B := by rw [hB]; exact fits_i32
  split
  · rename_i h
    rw [← hB] at h
    exact choose_ok hf hk (by exact_mod_cast h.1) (by exact_mod_cast h.2)
  · rename_i h
    obtain ⟨m, rfl⟩ := Nat.exists_eq_add_of_le hk
    unfold choose
    rw [show k + m - k = m by omega] at h
    rcases Nat.eq_zero_or_pos m with rfl | hm
    · have hn : ¬ ((k : ℤ) + 1 ≤ 2147483647) := by
        intro h'
        apply h
        refine ⟨by simpa using h', by simp⟩
      unfold i32
      rw [if_neg (fun h' => hn h'.2)]
      simp only [res_ub_bind]
    · by_cases hn : ((k : ℤ) + 1 ≤ 2147483647)
      · rw [i32_ok (by omega) hn]
        simp only [res_ok_bind]
        rw [show (((k + m : ℕ) : ℤ) - k).toNat = m by omega]
        have := chooseLoop_ub k m 0 (by
          rw [not_and_or] at h
          rcases h with h | h
          · left
            refine ⟨?_, hm⟩
            push_cast at h ⊢
            omega
          · right
            refine ⟨?_, hm⟩
            rw [Nat.zero_add]
            push_cast at h ⊢
            omega)
        simpa using this
      · unfold i32
        rw [if_neg (fun h' => hn h'.2)]
        simp only [res_ub_bind]

/-- C01, over unbounded integers: every truncating division in the loop is exact, so the
result is the binomial coefficient without any size condition. -/
theorem c01_choose_exact (n k : ℕ) (hk : k ≤ n) :
    choose exactZ n k = Except.ok (Nat.choose n k : ℤ) := choose_exact hk

/-- A case that fits: `choose(20, 7) = 77520`. -/
example : choose i32 20 7 = Except.ok 77520 := by
  have := c01_choose_binomial_or_ub 20 7 (by norm_num)
  simpa [Nat.choose] using this

/-- A case that does not fit although the result would: `C(31, 15) = 300540195`. -/
example : choose i32 31 15 = Res.ub := by
  have := c01_choose_binomial_or_ub 31 15 (by norm_num)
  simpa [Nat.choose] using this

/-- C02: the number of coefficients allocated for a `d`-dimensional level-`k` sparse grid is
the number of its points. -/
theorem c02_findNumGridPoints_card (d k : ℕ) :
    findNumGridPoints exactZ d k = Except.ok ((gridPoints d k).ncard : ℤ) ∧
      (gridPoints d k).Finite := by
  refine ⟨?_, gridPoints_finite d k⟩
  rcases Nat.eq_zero_or_pos d with rfl | hd
  · have : gridPoints 0 k = {([], [])} := by
      ext ⟨ls, ps⟩
      simp only [gridPoints, Set.mem_setOf_eq, Set.mem_singleton_iff, Prod.mk.injEq]
      constructor
      · intro h
        exact ⟨List.eq_nil_of_length_eq_zero h.levels_length,
          List.eq_nil_of_length_eq_zero h.positions_length⟩
      · rintro ⟨rfl, rfl⟩
        exact ⟨rfl, rfl, by simp, by simp⟩
    rw [this]
    simp [findNumGridPoints]
  · rw [findNumGridPoints_exact hd, ncard_gridPoints d k hd]

/-- C02 with 32-bit arithmetic: when the size, the largest product inside `choose` and the
counters fit, the allocated size is the number of grid points. -/
theorem c02_findNumGridPoints32_card (d k : ℕ) (hd : 0 < d)
    (h1 : (d + k + 1 : ℤ) ≤ 2147483647)
    (h2 : (((d - 1) * Nat.choose (d - 1 + k) k : ℕ) : ℤ) ≤ 2147483647)
    (h3 : ((gridPoints d k).ncard : ℤ) ≤ 2147483647) :
    findNumGridPoints i32 d k = Except.ok ((gridPoints d k).ncard : ℤ) := by
  obtain ⟨B, hB⟩ : ∃ B : ℕ, (B : ℤ) = 2147483647 := ⟨2147483647, rfl⟩
  have hf : Fits i32 B := by rw [hB]; exact fits_i32
  rw [ncard_gridPoints d k hd] at h3 ⊢
  rw [← hB] at h1 h2 h3
  exact findNumGridPoints_ok hf hd k (by exact_mod_cast h1) (by exact_mod_cast h2)
    (by exact_mod_cast h3)

/-- Three dimensions, level 4: 351 points, computed by the model with 32-bit ints. -/
example : findNumGridPoints i32 3 4 = Except.ok 351 := by
  have h : (gridPoints 3 4).ncard = 351 := by
    rw [ncard_gridPoints 3 4 (by norm_num)]
    simp [gridCount, Finset.sum_range_succ, Nat.choose]
  have := c02_findNumGridPoints32_card 3 4 (by norm_num) (by norm_num)
    (by simp [Nat.choose]) (by rw [h]; norm_num)
  rw [h] at this
  exact_mod_cast this

end Verif.Counting
