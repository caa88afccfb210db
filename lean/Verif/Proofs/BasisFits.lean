import Verif.Proofs.BasisEval
import Verif.Proofs.NormalQuantile
import Verif.Proofs.QuantileTail

/-! The conversions of the basis fit in 32 bits. -/
namespace Verif.BasisLevel

open Verif.Spec Verif.SparseGrid Verif.NormalQuantile

variable {Q : ℝ → ℝ}

theorem abs_trunc_le (y : ℝ) : |(trunc y : ℝ)| ≤ |y| := by
  unfold trunc
  split
  · rename_i h
    rw [abs_of_nonneg h, abs_of_nonneg (by exact_mod_cast Int.floor_nonneg.mpr h)]
    exact Int.floor_le y
  · rename_i h
    rw [not_le] at h
    have h1 : ((⌈y⌉ : ℤ) : ℝ) ≤ 0 := by
      have : ⌈y⌉ ≤ 0 := by rw [Int.ceil_le]; exact_mod_cast h.le
      exact_mod_cast this
    rw [abs_of_neg h, abs_of_nonpos h1]
    have := Int.le_ceil y
    linarith

theorem prob_ge {l L i : ℕ} (hl : l ≤ L) : dlt L ≤ prob l i := by
  refine le_trans (dlt_anti hl) ?_
  unfold dlt prob
  rw [div_le_div_iff_of_pos_right (by positivity)]
  have : (0 : ℝ) ≤ i := Nat.cast_nonneg i
  linarith

theorem prob_le {l L i : ℕ} (hl : l ≤ L) (hi : i < nTot l) : prob l i ≤ 1 - dlt L := by
  have h1 := dlt_anti hl
  have h2 : prob l i ≤ 1 - dlt l := by
    unfold dlt prob
    rw [le_sub_iff_add_le, ← add_div, div_le_one (by positivity)]
    have := nTot_add_one l
    have h : i + 1 + 1 ≤ 2 ^ (l + 1) := by omega
    exact_mod_cast h
  linarith

theorem quantile_abs (hQ : IsNormalQuantile Q) {l L i : ℕ} (hl : l ≤ L) (hL : 1 ≤ L)
    (hi : i < nTot l) : |Q (prob l i)| ≤ Q (1 - dlt L) := by
  have hok := quantileOk hQ
  have hd := dlt_pos L
  have hd4 := dlt_le L hL
  have hmono : ∀ p q, 0 < p → p ≤ q → q < 1 → Q p ≤ Q q := by
    intro p q h1 h2 h3
    rcases eq_or_lt_of_le h2 with e | e
    · rw [e]
    · exact (hok.strictMono _ _ h1 e h3).le
  rw [abs_le]
  constructor
  · rw [hok.symm _ hd (by linarith), neg_neg]
    exact hmono _ _ hd (prob_ge hl) (by have := prob_le hl hi; linarith)
  · exact hmono _ _ (prob_pos l i) (prob_le hl hi) (by linarith)

theorem kid_bound (hQ : IsNormalQuantile Q) {l L i : ℕ} (hl : l ≤ L) (hL : 1 ≤ L) (hL' : L ≤ 25)
    (hi : i < nTot l) : |kid Q L (prob l i)| ≤ 2046820352 := by
  have hok := quantileOk hQ
  have hd := dlt_pos L
  have hd4 := dlt_le L hL
  have hlow := quantile_lower2 hQ hd (by linarith)
  have hqd := Qd_pos hok hL
  have hdp : (1 : ℝ) / 2 ^ 26 ≤ dlt L := by
    unfold dlt
    exact one_div_le_one_div_of_le (by positivity) (pow_le_pow_right₀ (by norm_num) (by omega))
  have hmax := quantile_abs hQ hl hL hi
  have hQ2 : Q (1 - dlt L) ≤ 61 / 10 := quantile_top hQ hdp (by linarith)
  have habs := abs_trunc_le (10 * (Q (prob l i) / Q (1 / 2 + dlt L)))
  have hle : |10 * (Q (prob l i) / Q (1 / 2 + dlt L))| ≤ 2046820352 := by
    rw [abs_mul, abs_div, abs_of_pos hqd, abs_of_pos (by norm_num : (0 : ℝ) < 10)]
    have h1 : |Q (prob l i)| / Q (1 / 2 + dlt L) ≤ 61 / 10 * 2 ^ 25 := by
      rw [div_le_iff₀ hqd]
      have h3 : 2 * ((1 : ℝ) / 2 ^ 26) ≤ Q (1 / 2 + dlt L) := le_trans (by linarith) hlow
      have h4 : (61 / 10 : ℝ) * 2 ^ 25 * (2 * (1 / 2 ^ 26)) ≤
          61 / 10 * 2 ^ 25 * Q (1 / 2 + dlt L) := mul_le_mul_of_nonneg_left h3 (by positivity)
      have h5 : (61 / 10 : ℝ) * 2 ^ 25 * (2 * (1 / 2 ^ 26)) = 61 / 10 := by norm_num
      linarith
    norm_num at h1 ⊢
    linarith
  have hfin : |((kid Q L (prob l i) : ℤ) : ℝ)| ≤ 2046820352 := by
    unfold kid
    rw [kid_arg Q hL]
    exact le_trans habs hle
  exact_mod_cast hfin

/-- From 26 levels on, the last knot of the highest level has a number that is no `int`. -/
theorem kid_far (hQ : IsNormalQuantile Q) {L : ℕ} (hL : 26 ≤ L) :
    2147483648 ≤ kid Q L (1 - dlt L) := by
  have hd := dlt_pos L
  have hd1 : dlt L ≤ 1 / 2 ^ 27 := by
    unfold dlt
    exact one_div_le_one_div_of_le (by positivity) (pow_le_pow_right₀ (by norm_num) (by omega))
  obtain ⟨h1, h2⟩ := quantile_far hQ hd hd1
  have hqd := Qd_pos (quantileOk hQ) (show 1 ≤ L by omega)
  have h3 : (2147483648 : ℝ) ≤ 10 * (Q (1 - dlt L) / Q (1 / 2 + dlt L)) := by
    rw [← mul_div_assoc, le_div_iff₀ hqd]
    norm_num at hd1
    linarith
  unfold kid trunc
  rw [kid_arg Q (by omega), if_pos (by linarith), Int.le_floor]
  exact_mod_cast h3

theorem knotFits_exactZ (Q : ℝ → ℝ) (L l : ℕ) : KnotFits exactZ Q L l := fun _ _ => rfl

theorem knotFits_i32 (hQ : IsNormalQuantile Q) {L : ℕ} (hL : 1 ≤ L) (hL' : L ≤ 25) :
    ∀ l ≤ L, KnotFits i32 Q L l := by
  intro l hl i hi
  have h := abs_le.mp (kid_bound hQ hl hL hL' hi)
  exact fits_i32 _ (by omega) (by omega)

theorem dom_exactZ (Q : ℝ → ℝ) (L : ℕ) : Dom exactZ Q L = Set.univ := by
  ext x
  simp only [Set.mem_univ, iff_true]
  intro l _ _
  rfl

/-- Smallest knot of all levels. -/
theorem tk_min (hQ : QuantileOk Q) {l L : ℕ} (hl : l ≤ L) (hL : 1 ≤ L) :
    tk Q L L 0 ≤ tk Q L l 0 := by
  have h := kap_eq (Q := Q) (L := L) (p := 0) hl
  rw [kap] at h
  rw [show 2 * 0 = 0 from rfl] at h
  rw [h]
  have hlt := embed_lt (p := 0) hl (by positivity)
  rcases Nat.eq_zero_or_pos ((2 * 0 + 1) * 2 ^ (L - l) - 1) with e | e
  · rw [e]
  · exact (tk_strictMono hQ le_rfl hL e hlt).2.le

theorem dom_u32 (hQ : QuantileOk Q) {L : ℕ} (hL : 1 ≤ L) {x : ℝ}
    (hx : x < tk Q L L 0 + 4294967296 * bandwidth Q L) : x ∈ Dom u32 Q L := by
  intro l hl hlt
  have hbw := bandwidth_pos hQ hL
  have hmin := tk_min hQ hl hL
  have h0 : 0 ≤ ⌊(x - tk Q L l 0) / bandwidth Q L⌋ :=
    Int.floor_nonneg.mpr (div_nonneg (by linarith) hbw.le)
  have h1 : ⌊(x - tk Q L l 0) / bandwidth Q L⌋ < 4294967296 := by
    rw [Int.floor_lt, div_lt_iff₀ hbw]
    push_cast
    linarith
  unfold u32
  rw [if_pos ⟨h0, by omega⟩]
  rfl

theorem knot_lt_u32 (hQ : IsNormalQuantile Q) {L : ℕ} (hL : 1 ≤ L) (hL' : L ≤ 25) {l i : ℕ}
    (hl : l ≤ L) (hi : i < nTot l) : tk Q L l i < tk Q L L 0 + 4294967296 * bandwidth Q L := by
  have hbw := bandwidth_pos (quantileOk hQ) hL
  have h1 := abs_le.mp (kid_bound hQ hl hL hL' hi)
  have h2 := abs_le.mp (kid_bound hQ (le_refl L) hL hL' (i := 0) (by
    have := nTot_ge hL; omega))
  unfold tk
  have h3 : ((kid Q L (prob l i) : ℤ) : ℝ) < (kid Q L (prob L 0) : ℤ) + 4294967296 := by
    have : kid Q L (prob l i) < kid Q L (prob L 0) + 4294967296 := by omega
    exact_mod_cast this
  have := mul_lt_mul_of_pos_right h3 hbw
  linarith

end Verif.BasisLevel
