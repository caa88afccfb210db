import Verif.Model.Range
import Mathlib.Analysis.Complex.ExponentialBounds

/-!
# C95, C96: results out of the range of double precision numbers
-/
set_option exponentiation.threshold 1100

namespace Verif.Range

open Dbl

variable {n r : ℕ}

/-! ## The range -/

theorem dblMax_eq : dblMax = 2 ^ 1024 - 2 ^ 971 := by
  unfold dblMax
  norm_num

theorem dblMax_lt : dblMax + 1 < overflow := by
  rw [dblMax_eq]
  unfold overflow
  norm_num

theorem lt_dblMax : (2 : ℝ) ^ 1023 < dblMax := by
  rw [dblMax_eq]
  norm_num

theorem overflow_lt : overflow < 2 ^ 1024 := by
  unfold overflow
  norm_num

theorem dblMax_pos : 0 < dblMax := lt_trans (by positivity) lt_dblMax

theorem overflow_pos : 0 < overflow := by
  have := dblMax_lt
  have := dblMax_pos
  linarith

theorem ofReal_exact {x : ℝ} (h : |x| ≤ dblMax) : ofReal x = .num x := by
  have h1 := dblMax_lt
  obtain ⟨h2, h3⟩ := abs_le.1 h
  unfold ofReal
  rw [if_neg (by linarith), if_neg (by linarith), min_eq_left h3, max_eq_right h2]

theorem ofReal_lt {x : ℝ} (h0 : 0 ≤ x) (h : x < overflow) : ofReal x = .num (min x dblMax) := by
  have h1 := overflow_pos
  have h2 := dblMax_pos
  unfold ofReal
  rw [if_neg (not_le.2 h), if_neg (by linarith), max_eq_right]
  exact le_min (by linarith) (by linarith)

theorem ofReal_inf {x : ℝ} (h : overflow ≤ x) : ofReal x = .inf := if_pos h

theorem ofReal_ninf {x : ℝ} (h : overflow ≤ -x) : ofReal x = .ninf := by
  have h1 := overflow_pos
  unfold ofReal
  rw [if_neg (by linarith), if_pos (by linarith)]

theorem exp_le_two_pow {x : ℝ} {k : ℕ} (h : x ≤ k * 0.6931471803) : Real.exp x ≤ 2 ^ k := by
  rw [← Real.exp_log (show (0 : ℝ) < 2 ^ k by positivity), Real.log_pow, Real.exp_le_exp]
  have := Real.log_two_gt_d9
  have hk : (0 : ℝ) ≤ k := Nat.cast_nonneg k
  nlinarith

theorem two_pow_le_exp {x : ℝ} {k : ℕ} (h : k * 0.6931471808 ≤ x) : 2 ^ k ≤ Real.exp x := by
  rw [← Real.exp_log (show (0 : ℝ) < 2 ^ k by positivity), Real.log_pow, Real.exp_le_exp]
  have := Real.log_two_lt_d9
  have hk : (0 : ℝ) ≤ k := Nat.cast_nonneg k
  nlinarith

/-! ## The links -/

theorem ofReal_num {x : ℝ} (h : |x| < overflow) : ∃ y, ofReal x = .num y ∧ |y| ≤ dblMax := by
  obtain ⟨h1, h2⟩ := abs_lt.1 h
  refine ⟨max (-dblMax) (min x dblMax), ?_, ?_⟩
  · unfold ofReal
    rw [if_neg (not_le.2 h2), if_neg (not_le.2 h1)]
  · have := dblMax_pos
    rw [abs_le]
    exact ⟨le_max_left _ _, max_le (by linarith) (min_le_right _ _)⟩

theorem one_le_dblMax : 1 ≤ dblMax := le_trans (by norm_num) lt_dblMax.le

theorem exp_small {x : ℝ} (h : Real.exp x < overflow) : exp (.num x) = .num (min (Real.exp x) dblMax) :=
  ofReal_lt (Real.exp_pos x).le h

theorem exp_large {x : ℝ} (h : overflow ≤ Real.exp x) : exp (.num x) = .inf := ofReal_inf h

theorem one_add {y : ℝ} (h0 : 0 ≤ y) (h : y ≤ dblMax) :
    add (.num 1) (.num y) = .num (min (1 + y) dblMax) := by
  have := dblMax_lt
  exact ofReal_lt (by linarith) (by linarith)

/-- The denominator of all links. -/
theorem one_add_exp {x : ℝ} (h : Real.exp x < overflow) : ∃ d, add (.num 1) (exp (.num x)) = .num d ∧
    1 ≤ d ∧ min (Real.exp x) dblMax ≤ d := by
  rw [exp_small h, one_add (le_min (Real.exp_pos x).le dblMax_pos.le) (min_le_right _ _)]
  refine ⟨_, rfl, le_min ?_ one_le_dblMax, le_min ?_ (min_le_right _ _)⟩
  · have := le_min (Real.exp_pos x).le dblMax_pos.le
    linarith
  · linarith

theorem div_num {a d : ℝ} (ha : |a| ≤ dblMax) (hd : 1 ≤ d) : div (.num a) (.num d) = .num (a / d) := by
  have h0 : d ≠ 0 := by linarith
  show (if d = 0 then timesInf a else ofReal (a / d)) = _
  rw [if_neg h0, ofReal_exact]
  rw [abs_div, abs_of_pos (a := d) (by linarith)]
  exact (div_le_self (abs_nonneg a) hd).trans ha

theorem div_pow {a d : ℝ} (k : ℕ) (ha : |a| ≤ dblMax) (hd : 1 ≤ d) :
    ∃ v, div (.num a) (pow k (.num d)) = .num v := by
  have h1 : 1 ≤ d ^ k := one_le_pow₀ hd
  by_cases h : overflow ≤ d ^ k
  · rw [show pow k (.num d) = .inf from ofReal_inf h]
    exact ⟨0, rfl⟩
  · rw [show pow k (.num d) = .num (min (d ^ k) dblMax) from
      ofReal_lt (by linarith) (not_le.1 h)]
    exact ⟨_, div_num ha (le_min h1 one_le_dblMax)⟩

theorem pow_inf {d : ℝ} {k : ℕ} (h : overflow ≤ d ^ k) : pow k (.num d) = .inf := ofReal_inf h

/-- **C95.** The mean is a number exactly if the exponential of the linear predictor is one. -/
theorem c95_mean_iff (x : ℝ) :
    ((∃ v, computeMean (.num x) = .num v) ↔ Real.exp x < overflow) ∧
    (overflow ≤ Real.exp x → computeMean (.num x) = .nan) := by
  have hn : overflow ≤ Real.exp x → computeMean (.num x) = .nan := by
    intro h
    unfold computeMean
    rw [exp_large h]
    rfl
  refine ⟨⟨?_, ?_⟩, hn⟩
  · rintro ⟨v, hv⟩
    by_contra h
    rw [hn (not_lt.1 h)] at hv
    cases hv
  · intro h
    obtain ⟨d, hd, h1, h2⟩ := one_add_exp h
    unfold computeMean
    rw [hd, exp_small h]
    exact ⟨_, div_num (by
      rw [abs_of_nonneg (le_min (Real.exp_pos x).le dblMax_pos.le)]
      exact min_le_right _ _) h1⟩

/-- **C95**, first derivative. -/
theorem c95_derivative_iff (x : ℝ) :
    ((∃ v, computeMeanDerivative (.num x) = .num v) ↔ Real.exp x < overflow) ∧
    (overflow ≤ Real.exp x → computeMeanDerivative (.num x) = .nan) := by
  have hn : overflow ≤ Real.exp x → computeMeanDerivative (.num x) = .nan := by
    intro h
    unfold computeMeanDerivative
    rw [exp_large h]
    rfl
  refine ⟨⟨?_, ?_⟩, hn⟩
  · rintro ⟨v, hv⟩
    by_contra h
    rw [hn (not_lt.1 h)] at hv
    cases hv
  · intro h
    obtain ⟨d, hd, h1, h2⟩ := one_add_exp h
    unfold computeMeanDerivative
    rw [hd, exp_small h]
    exact div_pow 2 (by
      rw [abs_of_nonneg (le_min (Real.exp_pos x).le dblMax_pos.le)]
      exact min_le_right _ _) h1

/-- **C95**, second derivative. -/
theorem c95_second_iff (x : ℝ) :
    ((∃ v, computeMeanSecondDerivative (.num x) = .num v) ↔
      Real.exp x * (Real.exp x - 1) < overflow) ∧
    (overflow ≤ Real.exp x * (Real.exp x - 1) → computeMeanSecondDerivative (.num x) = .nan) := by
  have hM := one_le_dblMax
  have hM' := lt_dblMax
  have hMo := dblMax_lt
  have ho := overflow_lt
  have hp := Real.exp_pos x
  have key : Real.exp x < overflow → ∃ d, 1 ≤ d ∧ min (Real.exp x) dblMax ≤ d ∧
      computeMeanSecondDerivative (.num x) =
        div (ofReal (min (Real.exp x) dblMax * (1 - min (Real.exp x) dblMax))) (pow 3 (.num d)) := by
    intro h
    obtain ⟨d, hd, h1, h2⟩ := one_add_exp h
    refine ⟨d, h1, h2, ?_⟩
    unfold computeMeanSecondDerivative
    rw [hd, exp_small h]
    have h3 : 0 ≤ min (Real.exp x) dblMax := le_min hp.le dblMax_pos.le
    have h4 : min (Real.exp x) dblMax ≤ dblMax := min_le_right _ _
    have h5 : sub (.num 1) (.num (min (Real.exp x) dblMax)) =
        .num (1 - min (Real.exp x) dblMax) := by
      show ofReal (1 + -min (Real.exp x) dblMax) = _
      rw [← sub_eq_add_neg, ofReal_exact]
      rw [abs_le]
      constructor <;> linarith
    rw [h5]
    rfl
  have hn : overflow ≤ Real.exp x * (Real.exp x - 1) →
      computeMeanSecondDerivative (.num x) = .nan := by
    intro h
    by_cases hl : overflow ≤ Real.exp x
    · unfold computeMeanSecondDerivative
      rw [exp_large hl]
      rfl
    obtain ⟨d, h1, h2, e⟩ := key (not_le.1 hl)
    have hb : overflow ≤ min (Real.exp x) dblMax * (min (Real.exp x) dblMax - 1) := by
      rcases le_total (Real.exp x) dblMax with h3 | h3
      · rwa [min_eq_left h3]
      · rw [min_eq_right h3]
        have : (2 : ℝ) ^ 1024 ≤ 2 ^ 1023 * (2 ^ 1023 - 1) := by norm_num
        nlinarith
    rw [e, ofReal_ninf (by linarith), pow_inf]
    · rfl
    · have h3 : 1 ≤ min (Real.exp x) dblMax := by
        by_contra h3
        have h4 : 0 ≤ min (Real.exp x) dblMax := le_min hp.le dblMax_pos.le
        have := overflow_pos
        nlinarith
      calc overflow ≤ _ := hb
        _ ≤ min (Real.exp x) dblMax ^ 3 := by nlinarith [sq_nonneg (min (Real.exp x) dblMax)]
        _ ≤ d ^ 3 := pow_le_pow_left₀ (by linarith) h2 3
  refine ⟨⟨?_, ?_⟩, hn⟩
  · rintro ⟨v, hv⟩
    by_contra h
    rw [hn (not_lt.1 h)] at hv
    cases hv
  · intro h
    have hs : Real.exp x ≤ dblMax := by
      by_contra h3
      have : (2 : ℝ) ^ 1024 ≤ 2 ^ 1023 * (2 ^ 1023 - 1) := by norm_num
      nlinarith
    obtain ⟨d, h1, h2, e⟩ := key (by linarith)
    rw [min_eq_left hs] at e
    have hb : |Real.exp x * (1 - Real.exp x)| < overflow := by
      rw [abs_lt]
      constructor
      · linarith
      · have : Real.exp x * (1 - Real.exp x) ≤ 1 := by nlinarith [sq_nonneg (Real.exp x - 1)]
        linarith
    obtain ⟨y, e1, e2⟩ := ofReal_num hb
    rw [e, e1]
    exact div_pow 3 e2 h1

/-- What a sum with positive infinity can be. -/
theorem add_inf (a : Dbl) : add a .inf = .inf ∨ add a .inf = .nan := by
  cases a
  · exact Or.inl rfl
  · exact Or.inl rfl
  · exact Or.inr rfl
  · exact Or.inr rfl

theorem mul_exact {a b : ℝ} (h : |a * b| ≤ dblMax) : mul (.num a) (.num b) = .num (a * b) :=
  ofReal_exact h

theorem add_exact {a b : ℝ} (h : |a + b| ≤ dblMax) : add (.num a) (.num b) = .num (a + b) :=
  ofReal_exact h

theorem sub_exact {a b : ℝ} (h : |a - b| ≤ dblMax) : sub (.num a) (.num b) = .num (a - b) := by
  show ofReal (a + -b) = _
  rw [← sub_eq_add_neg, ofReal_exact h]

/-- The numerator is not a number and the denominator is infinite. -/
theorem div_nan {a : Dbl} (h : a = .inf ∨ a = .ninf ∨ a = .nan) : div a .inf = .nan := by
  rcases h with rfl | rfl | rfl <;> rfl

theorem den_inf {x : ℝ} {k : ℕ} (h2 : overflow ≤ Real.exp x ^ k) (hk : 2 ≤ k) :
    pow k (add (.num 1) (exp (.num x))) = .inf := by
  by_cases h : overflow ≤ Real.exp x
  · rw [exp_large h]
    rfl
  obtain ⟨d, e, h1, h3⟩ := one_add_exp (not_le.1 h)
  rw [e]
  by_cases hM : Real.exp x ≤ dblMax
  · rw [min_eq_left hM] at h3
    exact pow_inf (h2.trans (pow_le_pow_left₀ (Real.exp_pos x).le h3 k))
  · rw [min_eq_right (not_le.1 hM).le] at h3
    have hM' := lt_dblMax
    have ho := overflow_lt
    have : (2 : ℝ) ^ 1024 ≤ 2 ^ 1023 * 2 ^ 1023 := by norm_num
    refine pow_inf (le_trans ?_ (pow_le_pow_right₀ h1 hk))
    nlinarith

/-- The numerators when a power of the exponential overflows. -/
theorem neg_exp_mul_inf (x : ℝ) : mul (neg (exp (.num x))) .inf = .ninf := by
  by_cases h : overflow ≤ Real.exp x
  · rw [exp_large h]
    rfl
  · rw [exp_small (not_le.1 h)]
    have : 0 < min (Real.exp x) dblMax := lt_min (Real.exp_pos x) dblMax_pos
    show timesInf (-_) = _
    unfold timesInf
    rw [if_neg (by linarith), if_pos (by linarith)]

theorem exp_mul_inf (x : ℝ) : mul (exp (.num x)) .inf = .inf := by
  by_cases h : overflow ≤ Real.exp x
  · rw [exp_large h]
    rfl
  · rw [exp_small (not_le.1 h)]
    have : 0 < min (Real.exp x) dblMax := lt_min (Real.exp_pos x) dblMax_pos
    show timesInf _ = _
    unfold timesInf
    rw [if_pos this]

theorem mul_nan (a : Dbl) : mul a .nan = .nan := by cases a <;> rfl

/-- **C95**, third derivative. -/
theorem c95_third_iff {x : ℝ} (hx : |x| ≤ 2 ^ 1000) :
    ((∃ v, computeMeanThirdDerivative (.num x) = .num v) ↔
      Real.exp x * (Real.exp x ^ 2 - 4 * Real.exp x + 1) < overflow) ∧
    (overflow ≤ Real.exp x * (Real.exp x ^ 2 - 4 * Real.exp x + 1) →
      computeMeanThirdDerivative (.num x) = .nan) := by
  have hM := one_le_dblMax
  have hM' := lt_dblMax
  have hMo := dblMax_lt
  have ho := overflow_lt
  have h2x : mul (.num 2) (.num x) = .num (2 * x) := by
    refine mul_exact ?_
    rw [abs_mul, abs_two]
    have : (2 : ℝ) * 2 ^ 1000 ≤ 2 ^ 1023 := by norm_num
    linarith
  have hexp2 : Real.exp (2 * x) = Real.exp x ^ 2 := by
    rw [← Real.exp_nat_mul]
    norm_num
  have hp := Real.exp_pos x
  unfold computeMeanThirdDerivative
  rw [h2x]
  by_cases hA : overflow ≤ Real.exp x ^ 2
  · have hl : (2 : ℝ) ^ 511 ≤ Real.exp x := by
      by_contra hl
      have h1 : Real.exp x ^ 2 < (2 ^ 511) ^ 2 := pow_lt_pow_left₀ (not_le.1 hl) hp.le two_ne_zero
      have h2 : ((2 : ℝ) ^ 511) ^ 2 ≤ 2 ^ 1023 := by norm_num
      linarith
    have hbig : overflow ≤ Real.exp x * (Real.exp x ^ 2 - 4 * Real.exp x + 1) := by
      have h4 : (8 : ℝ) ≤ 2 ^ 511 := by norm_num
      nlinarith [mul_nonneg hp.le (sub_nonneg.2 (h4.trans hl))]
    have hden : overflow ≤ Real.exp x ^ 4 :=
      hA.trans (pow_le_pow_right₀ (le_trans (by norm_num) hl) (by norm_num))
    have hnan : div (mul (exp (.num x))
        (add (add (mul (.num (-4)) (exp (.num x))) (exp (.num (2 * x)))) (.num 1)))
        (pow 4 (add (.num 1) (exp (.num x)))) = .nan := by
      rw [den_inf hden (by norm_num), exp_large (x := 2 * x) (by rw [hexp2]; exact hA)]
      refine div_nan ?_
      rcases add_inf (mul (.num (-4)) (exp (.num x))) with h | h
      · rw [h]
        exact Or.inl (exp_mul_inf x)
      · rw [h]
        exact Or.inr (Or.inr (mul_nan _))
    refine ⟨⟨?_, fun h => absurd hbig (not_le.2 h)⟩, fun _ => hnan⟩
    rintro ⟨v, hv⟩
    rw [hnan] at hv
    cases hv
  · rw [not_le] at hA
    have hs : Real.exp x < 2 ^ 512 := by
      by_contra hl
      have h1 : ((2 : ℝ) ^ 512) ^ 2 ≤ Real.exp x ^ 2 := pow_le_pow_left₀ (by positivity) (not_lt.1 hl) 2
      have h2 : (2 : ℝ) ^ 1024 ≤ (2 ^ 512) ^ 2 := by norm_num
      linarith
    have hc : (8 : ℝ) * 2 ^ 512 ≤ 2 ^ 1023 := by norm_num
    have hM1 : Real.exp x ≤ dblMax := by linarith
    obtain ⟨d, ed, h1, h2⟩ := one_add_exp (x := x) (by linarith)
    have e1 : mul (.num (-4)) (.num (Real.exp x)) = .num (-4 * Real.exp x) := mul_exact (by
      rw [abs_mul, abs_of_pos hp]
      norm_num
      linarith)
    have e2 := exp_small (x := 2 * x) (by rw [hexp2]; exact hA)
    rw [hexp2] at e2
    obtain ⟨s, hsdef⟩ : ∃ s, s = min (Real.exp x ^ 2) dblMax := ⟨_, rfl⟩
    rw [← hsdef] at e2
    have hs0 : 0 ≤ s := hsdef ▸ le_min (by positivity) dblMax_pos.le
    have hsM : s ≤ dblMax := hsdef ▸ min_le_right _ _
    have e3 : add (.num (-4 * Real.exp x)) (.num s) = .num (-4 * Real.exp x + s) := add_exact (by
      rw [abs_le]
      constructor <;> linarith)
    have hsl : -4 * Real.exp x + s + 1 ≤ dblMax := by
      rcases le_total (1 / 4) (Real.exp x) with h | h
      · linarith
      · have : s ≤ Real.exp x ^ 2 := hsdef ▸ min_le_left _ _
        have : Real.exp x ^ 2 ≤ 1 := by nlinarith
        have : (2 : ℝ) ≤ 2 ^ 1023 := by norm_num
        linarith
    have e4 : add (.num (-4 * Real.exp x + s)) (.num 1) = .num (-4 * Real.exp x + s + 1) :=
      add_exact (by
        rw [abs_le]
        constructor <;> linarith)
    have ee : exp (.num x) = .num (Real.exp x) := by
      rw [exp_small (by linarith), min_eq_left hM1]
    have key : div (mul (exp (.num x))
        (add (add (mul (.num (-4)) (exp (.num x))) (exp (.num (2 * x)))) (.num 1)))
        (pow 4 (add (.num 1) (exp (.num x)))) =
        div (ofReal (Real.exp x * (-4 * Real.exp x + s + 1))) (pow 4 (.num d)) := by
      rw [ed, ee, e1, e2, e3, e4]
      rfl
    rw [key]
    rcases le_total (Real.exp x ^ 2) dblMax with hle | hge
    · rw [min_eq_left hle] at hsdef
      subst hsdef
      rw [show -4 * Real.exp x + Real.exp x ^ 2 + 1 = Real.exp x ^ 2 - 4 * Real.exp x + 1 by ring]
      have hnan : overflow ≤ Real.exp x * (Real.exp x ^ 2 - 4 * Real.exp x + 1) →
          div (ofReal (Real.exp x * (Real.exp x ^ 2 - 4 * Real.exp x + 1))) (pow 4 (.num d)) =
            .nan := by
        intro h
        rw [ofReal_inf h, pow_inf]
        · rfl
        · rw [min_eq_left hM1] at h2
          have h3 : Real.exp x ^ 3 ≤ d ^ 3 := pow_le_pow_left₀ hp.le h2 3
          have h4 : d ^ 3 ≤ d ^ 4 := pow_le_pow_right₀ h1 (by norm_num)
          have h6 : 1 ≤ Real.exp x := by
            by_contra h6
            have : Real.exp x * (Real.exp x ^ 2 - 4 * Real.exp x + 1) ≤ 2 := by nlinarith
            have : (2 : ℝ) ≤ 2 ^ 1023 := by norm_num
            linarith
          have h5 : Real.exp x * (Real.exp x ^ 2 - 4 * Real.exp x + 1) ≤ Real.exp x ^ 3 := by
            nlinarith
          linarith
      refine ⟨⟨?_, ?_⟩, hnan⟩
      · rintro ⟨v, hv⟩
        by_contra h
        rw [hnan (not_lt.1 h)] at hv
        cases hv
      · intro h
        obtain ⟨y, ey, hy⟩ := ofReal_num (x := Real.exp x * (Real.exp x ^ 2 - 4 * Real.exp x + 1)) (by
          rw [abs_lt]
          refine ⟨?_, h⟩
          have h7 : (2 : ℝ) ^ 5 ≤ 2 ^ 1023 := by norm_num
          have : -(2 : ℝ) ^ 5 < Real.exp x * (Real.exp x ^ 2 - 4 * Real.exp x + 1) := by
            nlinarith [mul_nonneg hp.le (sq_nonneg (Real.exp x - 2)), sq_nonneg (Real.exp x - 3)]
          linarith)
        rw [ey]
        exact div_pow 4 hy h1
    · rw [min_eq_right hge] at hsdef
      subst hsdef
      have hl : (2 : ℝ) ^ 511 ≤ Real.exp x := by
        by_contra hl
        have h1 : Real.exp x ^ 2 < (2 ^ 511) ^ 2 := pow_lt_pow_left₀ (not_le.1 hl) hp.le two_ne_zero
        have h2 : ((2 : ℝ) ^ 511) ^ 2 ≤ 2 ^ 1023 := by norm_num
        linarith
      have hc' : (4 : ℝ) ≤ 2 ^ 511 := by norm_num
      have hb1 : overflow ≤ Real.exp x * (-4 * Real.exp x + dblMax + 1) := by
        have : (2 : ℝ) ^ 1022 ≤ -4 * Real.exp x + dblMax + 1 := by
          have : (4 : ℝ) * 2 ^ 512 + 2 ^ 1022 ≤ 2 ^ 1023 := by norm_num
          linarith
        have h9 : (2 : ℝ) ^ 1024 ≤ 4 * 2 ^ 1022 := by norm_num
        nlinarith
      have hb2 : overflow ≤ Real.exp x * (Real.exp x ^ 2 - 4 * Real.exp x + 1) := by
        refine hb1.trans (mul_le_mul_of_nonneg_left ?_ hp.le)
        linarith
      have hnan : div (ofReal (Real.exp x * (-4 * Real.exp x + dblMax + 1))) (pow 4 (.num d)) =
          .nan := by
        rw [ofReal_inf hb1, pow_inf]
        · rfl
        · rw [min_eq_left hM1] at h2
          have h3 : Real.exp x ^ 3 ≤ d ^ 3 := pow_le_pow_left₀ hp.le h2 3
          have h4 : d ^ 3 ≤ d ^ 4 := pow_le_pow_right₀ h1 (by norm_num)
          have h5 : dblMax * 4 ≤ Real.exp x ^ 3 := by
            have : Real.exp x ^ 3 = Real.exp x ^ 2 * Real.exp x := by ring
            rw [this]
            nlinarith
          linarith
      refine ⟨⟨?_, fun h => absurd hb2 (not_le.2 h)⟩, fun _ => hnan⟩
      rintro ⟨v, hv⟩
      rw [hnan] at hv
      cases hv

/-- **C95**, fourth derivative. -/
theorem c95_fourth_iff {x : ℝ} (hx : |x| ≤ 2 ^ 1000) :
    ((∃ v, computeMeanFourthDerivative (.num x) = .num v) ↔
      Real.exp x * (Real.exp x ^ 3 - 11 * Real.exp x ^ 2 + 11 * Real.exp x - 1) < overflow) ∧
    (overflow ≤ Real.exp x * (Real.exp x ^ 3 - 11 * Real.exp x ^ 2 + 11 * Real.exp x - 1) →
      computeMeanFourthDerivative (.num x) = .nan) := by
  have hM := one_le_dblMax
  have hM' := lt_dblMax
  have hMo := dblMax_lt
  have ho := overflow_lt
  have h2x : mul (.num 2) (.num x) = .num (2 * x) := by
    refine mul_exact ?_
    rw [abs_mul, abs_two]
    have : (2 : ℝ) * 2 ^ 1000 ≤ 2 ^ 1023 := by norm_num
    linarith
  have h3x : mul (.num 3) (.num x) = .num (3 * x) := by
    refine mul_exact ?_
    rw [abs_mul, abs_of_pos (show (0 : ℝ) < 3 by norm_num)]
    have : (3 : ℝ) * 2 ^ 1000 ≤ 2 ^ 1023 := by norm_num
    linarith
  have hexp2 : Real.exp (2 * x) = Real.exp x ^ 2 := by
    rw [← Real.exp_nat_mul]
    norm_num
  have hexp3 : Real.exp (3 * x) = Real.exp x ^ 3 := by
    rw [← Real.exp_nat_mul]
    norm_num
  have hp := Real.exp_pos x
  unfold computeMeanFourthDerivative
  rw [h2x, h3x]
  by_cases hA : overflow ≤ Real.exp x ^ 3
  · have hl : (2 : ℝ) ^ 340 ≤ Real.exp x := by
      by_contra hl
      have h1 : Real.exp x ^ 3 < (2 ^ 340) ^ 3 := pow_lt_pow_left₀ (not_le.1 hl) hp.le three_ne_zero
      have h2 : ((2 : ℝ) ^ 340) ^ 3 ≤ 2 ^ 1023 := by norm_num
      linarith
    have h4 : (22 : ℝ) ≤ 2 ^ 340 := by norm_num
    have hbig : overflow ≤
        Real.exp x * (Real.exp x ^ 3 - 11 * Real.exp x ^ 2 + 11 * Real.exp x - 1) := by
      have h5 : Real.exp x ^ 3 / 2 ≤
          Real.exp x ^ 3 - 11 * Real.exp x ^ 2 + 11 * Real.exp x - 1 := by
        nlinarith [mul_nonneg (sq_nonneg (Real.exp x)) (sub_nonneg.2 (h4.trans hl))]
      have h6 : Real.exp x * (Real.exp x ^ 3 / 2) ≤
          Real.exp x * (Real.exp x ^ 3 - 11 * Real.exp x ^ 2 + 11 * Real.exp x - 1) :=
        mul_le_mul_of_nonneg_left h5 hp.le
      have h7 : (2 : ℝ) * (Real.exp x ^ 3 / 2) ≤ Real.exp x * (Real.exp x ^ 3 / 2) :=
        mul_le_mul_of_nonneg_right (by linarith) (by positivity)
      linarith
    have hden : overflow ≤ Real.exp x ^ 5 :=
      hA.trans (pow_le_pow_right₀ (le_trans (by norm_num) hl) (by norm_num))
    have hnan : div (mul (neg (exp (.num x)))
        (sub (add (sub (mul (.num 11) (exp (.num x))) (mul (.num 11) (exp (.num (2 * x)))))
          (exp (.num (3 * x)))) (.num 1))) (pow 5 (add (.num 1) (exp (.num x)))) = .nan := by
      rw [den_inf hden (by norm_num), exp_large (x := 3 * x) (by rw [hexp3]; exact hA)]
      refine div_nan ?_
      rcases add_inf (sub (mul (.num 11) (exp (.num x))) (mul (.num 11) (exp (.num (2 * x))))) with
        h | h
      · rw [h]
        exact Or.inr (Or.inl (neg_exp_mul_inf x))
      · rw [h]
        exact Or.inr (Or.inr (mul_nan _))
    refine ⟨⟨?_, fun h => absurd hbig (not_le.2 h)⟩, fun _ => hnan⟩
    rintro ⟨v, hv⟩
    rw [hnan] at hv
    cases hv
  · rw [not_le] at hA
    have hs : Real.exp x < 2 ^ 342 := by
      by_contra hl
      have h1 : ((2 : ℝ) ^ 342) ^ 3 ≤ Real.exp x ^ 3 := pow_le_pow_left₀ (by positivity) (not_lt.1 hl) 3
      have h2 : (2 : ℝ) ^ 1024 ≤ (2 ^ 342) ^ 3 := by norm_num
      linarith
    have hs2 : Real.exp x ^ 2 < 2 ^ 684 := by
      have h1 : Real.exp x ^ 2 < (2 ^ 342) ^ 2 := pow_lt_pow_left₀ hs hp.le two_ne_zero
      have h2 : ((2 : ℝ) ^ 342) ^ 2 = 2 ^ 684 := by norm_num
      linarith
    have hs20 : 0 ≤ Real.exp x ^ 2 := sq_nonneg _
    have hc : (64 : ℝ) * 2 ^ 342 + 64 * 2 ^ 684 + 2 ^ 10 ≤ 2 ^ 1022 := by norm_num
    have hc' : (2 : ℝ) * 2 ^ 1022 = 2 ^ 1023 := by norm_num
    have hM1 : Real.exp x ≤ dblMax := by linarith
    obtain ⟨d, ed, h1, h2⟩ := one_add_exp (x := x) (by linarith)
    rw [min_eq_left hM1] at h2
    have ee : exp (.num x) = .num (Real.exp x) := by
      rw [exp_small (by linarith), min_eq_left hM1]
    have ee2 : exp (.num (2 * x)) = .num (Real.exp x ^ 2) := by
      rw [exp_small (by rw [hexp2]; linarith), hexp2, min_eq_left (by linarith)]
    have e1 : mul (.num 11) (.num (Real.exp x)) = .num (11 * Real.exp x) := mul_exact (by
      rw [abs_of_pos (by positivity)]
      linarith)
    have e2 : mul (.num 11) (.num (Real.exp x ^ 2)) = .num (11 * Real.exp x ^ 2) := mul_exact (by
      rw [abs_of_nonneg (by positivity)]
      linarith)
    have e3 : sub (.num (11 * Real.exp x)) (.num (11 * Real.exp x ^ 2)) =
        .num (11 * Real.exp x - 11 * Real.exp x ^ 2) := sub_exact (by
      rw [abs_le]
      constructor <;> linarith)
    have e4 := exp_small (x := 3 * x) (by rw [hexp3]; exact hA)
    rw [hexp3] at e4
    obtain ⟨s, hsdef⟩ : ∃ s, s = min (Real.exp x ^ 3) dblMax := ⟨_, rfl⟩
    rw [← hsdef] at e4
    have hs0 : 0 ≤ s := hsdef ▸ le_min (by positivity) dblMax_pos.le
    have hsM : s ≤ dblMax := hsdef ▸ min_le_right _ _
    have hsl : 11 * Real.exp x - 11 * Real.exp x ^ 2 + s ≤ dblMax := by
      rcases le_total 1 (Real.exp x) with h | h
      · nlinarith
      · have : s ≤ Real.exp x ^ 3 := hsdef ▸ min_le_left _ _
        have : Real.exp x ^ 3 ≤ 1 := pow_le_one₀ hp.le h
        linarith
    have e5 : add (.num (11 * Real.exp x - 11 * Real.exp x ^ 2)) (.num s) =
        .num (11 * Real.exp x - 11 * Real.exp x ^ 2 + s) := add_exact (by
      rw [abs_le]
      constructor <;> linarith)
    have e6 : sub (.num (11 * Real.exp x - 11 * Real.exp x ^ 2 + s)) (.num 1) =
        .num (11 * Real.exp x - 11 * Real.exp x ^ 2 + s - 1) := sub_exact (by
      rw [abs_le]
      constructor <;> linarith)
    have key : div (mul (neg (exp (.num x)))
        (sub (add (sub (mul (.num 11) (exp (.num x))) (mul (.num 11) (exp (.num (2 * x)))))
          (exp (.num (3 * x)))) (.num 1))) (pow 5 (add (.num 1) (exp (.num x)))) =
        div (ofReal (-Real.exp x * (11 * Real.exp x - 11 * Real.exp x ^ 2 + s - 1)))
          (pow 5 (.num d)) := by
      rw [ed, ee, ee2, e1, e2, e3, e4, e5, e6]
      rfl
    rw [key]
    have hd5 : Real.exp x ^ 4 ≤ d ^ 5 :=
      (pow_le_pow_left₀ hp.le h2 4).trans (pow_le_pow_right₀ h1 (by norm_num))
    rcases le_total (Real.exp x ^ 3) dblMax with hle | hge
    · rw [min_eq_left hle] at hsdef
      subst hsdef
      rw [show -Real.exp x * (11 * Real.exp x - 11 * Real.exp x ^ 2 + Real.exp x ^ 3 - 1) =
        -(Real.exp x * (Real.exp x ^ 3 - 11 * Real.exp x ^ 2 + 11 * Real.exp x - 1)) by ring]
      have hnan : overflow ≤
          Real.exp x * (Real.exp x ^ 3 - 11 * Real.exp x ^ 2 + 11 * Real.exp x - 1) →
          div (ofReal (-(Real.exp x *
            (Real.exp x ^ 3 - 11 * Real.exp x ^ 2 + 11 * Real.exp x - 1)))) (pow 5 (.num d)) =
            .nan := by
        intro h
        rw [ofReal_ninf (by rwa [neg_neg]), pow_inf]
        · rfl
        · have h6 : 1 ≤ Real.exp x := by
            by_contra h6
            have h7 : Real.exp x ^ 3 ≤ 1 := pow_le_one₀ hp.le (not_le.1 h6).le
            have : Real.exp x * (Real.exp x ^ 3 - 11 * Real.exp x ^ 2 + 11 * Real.exp x - 1) ≤
                1 * 12 := by
              refine le_trans (mul_le_mul_of_nonneg_left (b := _) (c := 12) (by linarith) hp.le) ?_
              exact mul_le_mul_of_nonneg_right (not_le.1 h6).le (by norm_num)
            linarith
          have h5 : Real.exp x * (Real.exp x ^ 3 - 11 * Real.exp x ^ 2 + 11 * Real.exp x - 1) ≤
              Real.exp x * Real.exp x ^ 3 := mul_le_mul_of_nonneg_left (by nlinarith) hp.le
          have h8 : Real.exp x * Real.exp x ^ 3 = Real.exp x ^ 4 := by ring
          linarith
      refine ⟨⟨?_, ?_⟩, hnan⟩
      · rintro ⟨v, hv⟩
        by_contra h
        rw [hnan (not_lt.1 h)] at hv
        cases hv
      · intro h
        obtain ⟨y, ey, hy⟩ := ofReal_num (x := -(Real.exp x *
            (Real.exp x ^ 3 - 11 * Real.exp x ^ 2 + 11 * Real.exp x - 1))) (by
          rw [abs_neg, abs_lt]
          refine ⟨?_, h⟩
          have : -((64 : ℝ) * 2 ^ 684 + 2 ^ 10) ≤
              Real.exp x * (Real.exp x ^ 3 - 11 * Real.exp x ^ 2 + 11 * Real.exp x - 1) := by
            rcases le_total 11 (Real.exp x) with h | h
            · have h3 : 0 ≤ Real.exp x ^ 3 - 11 * Real.exp x ^ 2 := by
                nlinarith [mul_nonneg hs20 (sub_nonneg.2 h)]
              have := mul_nonneg hp.le (show 0 ≤ Real.exp x ^ 3 - 11 * Real.exp x ^ 2 +
                11 * Real.exp x - 1 by linarith)
              have : (0 : ℝ) ≤ 64 * 2 ^ 684 + 2 ^ 10 := by positivity
              linarith
            · have h3 : 0 ≤ Real.exp x ^ 3 := by positivity
              have h4 : Real.exp x ^ 2 ≤ 121 := by nlinarith
              have h5 : -1332 ≤ Real.exp x ^ 3 - 11 * Real.exp x ^ 2 + 11 * Real.exp x - 1 := by
                linarith
              have h6 : (11 : ℝ) * 1332 ≤ 64 * 2 ^ 684 := by norm_num
              nlinarith
          linarith)
        rw [ey]
        exact div_pow 5 hy h1
    · rw [min_eq_right hge] at hsdef
      subst hsdef
      have hl : (2 : ℝ) ^ 340 ≤ Real.exp x := by
        by_contra hl
        have h1 : Real.exp x ^ 3 < (2 ^ 340) ^ 3 :=
          pow_lt_pow_left₀ (not_le.1 hl) hp.le three_ne_zero
        have h2 : ((2 : ℝ) ^ 340) ^ 3 ≤ 2 ^ 1023 := by norm_num
        linarith
      have hc4 : (4 : ℝ) ≤ 2 ^ 340 := by norm_num
      have hb1 : overflow ≤
          Real.exp x * (11 * Real.exp x - 11 * Real.exp x ^ 2 + dblMax - 1) := by
        have h8 : (2 : ℝ) ^ 1022 ≤ 11 * Real.exp x - 11 * Real.exp x ^ 2 + dblMax - 1 := by linarith
        have h9 : (2 : ℝ) ^ 1024 ≤ 4 * 2 ^ 1022 := by norm_num
        have h10 := mul_le_mul (hc4.trans hl) h8 (by positivity) hp.le
        linarith
      have hb2 : overflow ≤
          Real.exp x * (Real.exp x ^ 3 - 11 * Real.exp x ^ 2 + 11 * Real.exp x - 1) :=
        hb1.trans (mul_le_mul_of_nonneg_left (by linarith) hp.le)
      have hnan : div (ofReal (-Real.exp x * (11 * Real.exp x - 11 * Real.exp x ^ 2 + dblMax - 1)))
          (pow 5 (.num d)) = .nan := by
        rw [ofReal_ninf (by rw [neg_mul, neg_neg]; exact hb1), pow_inf]
        · rfl
        · have h8 : Real.exp x * Real.exp x ^ 3 = Real.exp x ^ 4 := by ring
          have h9 := mul_le_mul (hc4.trans hl) hge dblMax_pos.le hp.le
          linarith
      refine ⟨⟨?_, fun h => absurd hb2 (not_le.2 h)⟩, fun _ => hnan⟩
      rintro ⟨v, hv⟩
      rw [hnan] at hv
      cases hv


/-! ## Where the values are exact -/

theorem exp_exact {x : ℝ} (h : Real.exp x ≤ dblMax) : exp (.num x) = .num (Real.exp x) :=
  ofReal_exact (by rwa [abs_of_pos (Real.exp_pos x)])

theorem one_add_exact {y : ℝ} (h0 : 0 ≤ y) (h : 1 + y ≤ dblMax) :
    add (.num 1) (.num y) = .num (1 + y) :=
  add_exact (by rwa [abs_of_nonneg (by linarith)])

theorem pow_exact {y : ℝ} {k : ℕ} (h0 : 0 ≤ y) (h : y ^ k ≤ dblMax) : pow k (.num y) = .num (y ^ k) :=
  ofReal_exact (by rwa [abs_of_nonneg (by positivity)])

theorem mean_exact {x : ℝ} (h : 1 + Real.exp x ≤ dblMax) :
    computeMean (.num x) = .num (Real.exp x / (1 + Real.exp x)) := by
  have hp := Real.exp_pos x
  unfold computeMean
  rw [exp_exact (by linarith), one_add_exact hp.le h, div_num]
  · rw [abs_of_pos hp]
    linarith
  · linarith

/-- **C95.** Up to these bounds the functions of the link have their values. -/
theorem c95_exact {x : ℝ} (hx : -2 ^ 1000 ≤ x) :
    (x ≤ 709 → computeMean (.num x) = .num (Family.LogitLink.computeMean ![x] 0)) ∧
    (x ≤ 354 → computeMeanDerivative (.num x) =
      .num (Family.LogitLink.computeMeanDerivative ![x] 0)) ∧
    (x ≤ 236 → computeMeanSecondDerivative (.num x) =
      .num (Family.LogitLink.computeMeanSecondDerivative ![x] 0)) ∧
    (x ≤ 176 → computeMeanThirdDerivative (.num x) =
      .num (Family.LogitLink.computeMeanThirdDerivative ![x] 0)) ∧
    (x ≤ 141 → computeMeanFourthDerivative (.num x) =
      .num (Family.LogitLink.computeMeanFourthDerivative ![x] 0)) := by
  have hM := lt_dblMax
  have hp := Real.exp_pos x
  refine ⟨fun h => ?_, fun h => ?_, fun h => ?_, fun h => ?_, fun h => ?_⟩
  · have he : Real.exp x ≤ 2 ^ 1023 := exp_le_two_pow (by push_cast; linarith)
    refine mean_exact ?_
    rw [dblMax_eq]
    have : (1 : ℝ) + 2 ^ 1023 ≤ 2 ^ 1024 - 2 ^ 971 := by norm_num
    linarith
  · have he : Real.exp x ≤ 2 ^ 511 := exp_le_two_pow (by push_cast; linarith)
    have h1 : (1 + Real.exp x) ^ 2 ≤ (1 + 2 ^ 511) ^ 2 := pow_le_pow_left₀ (by linarith) (by linarith) 2
    have h2 : ((1 : ℝ) + 2 ^ 511) ^ 2 ≤ 2 ^ 1023 := by norm_num
    have h3 : (1 : ℝ) + 2 ^ 511 ≤ 2 ^ 1023 := by norm_num
    unfold computeMeanDerivative
    rw [exp_exact (by linarith), one_add_exact hp.le (by linarith),
      pow_exact (by linarith) (by linarith), div_num]
    · rfl
    · rw [abs_of_pos hp]
      linarith
    · exact one_le_pow₀ (by linarith)
  · have he : Real.exp x ≤ 2 ^ 341 := exp_le_two_pow (by push_cast; linarith)
    have h1 : (1 + Real.exp x) ^ 3 ≤ (1 + 2 ^ 341) ^ 3 := pow_le_pow_left₀ (by linarith) (by linarith) 3
    have h2 : ((1 : ℝ) + 2 ^ 341) ^ 3 ≤ 2 ^ 1024 - 2 ^ 971 := by norm_num
    rw [← dblMax_eq] at h2
    have h3 : (1 : ℝ) + 2 ^ 341 ≤ 2 ^ 1023 := by norm_num
    have h4 : (2 : ℝ) ^ 341 * (1 + 2 ^ 341) ≤ 2 ^ 1023 := by norm_num
    have h5 : |Real.exp x * (1 - Real.exp x)| ≤ dblMax := by
      rw [abs_le]
      constructor <;> nlinarith
    unfold computeMeanSecondDerivative
    rw [exp_exact (by linarith), one_add_exact hp.le (by linarith),
      pow_exact (by linarith) (by linarith), sub_exact, mul_exact h5, div_num h5]
    · rfl
    · exact one_le_pow₀ (by linarith)
    · rw [abs_le]
      constructor <;> linarith
  · have he : Real.exp x ≤ 2 ^ 254 := exp_le_two_pow (by push_cast; linarith)
    have h1 : (1 + Real.exp x) ^ 4 ≤ (1 + 2 ^ 254) ^ 4 := pow_le_pow_left₀ (by linarith) (by linarith) 4
    have h2 : ((1 : ℝ) + 2 ^ 254) ^ 4 ≤ 2 ^ 1023 := by norm_num
    have h3 : (1 : ℝ) + 2 ^ 254 ≤ 2 ^ 1023 := by norm_num
    have hx' : |2 * x| ≤ dblMax := by
      have : (2 : ℝ) * 2 ^ 1000 + 1000 ≤ 2 ^ 1023 := by norm_num
      rw [abs_le]
      constructor <;> linarith
    have hexp2 : Real.exp (2 * x) = Real.exp x ^ 2 := by
      rw [← Real.exp_nat_mul]
      norm_num
    have hs : Real.exp x ^ 2 ≤ 2 ^ 508 := by
      have h6 : ((2 : ℝ) ^ 254) ^ 2 = 2 ^ 508 := by norm_num
      rw [← h6]
      exact pow_le_pow_left₀ hp.le he 2
    have hs0 := sq_nonneg (Real.exp x)
    have h7 : (100 : ℝ) * 2 ^ 254 + 100 * 2 ^ 508 + 100 ≤ 2 ^ 520 := by norm_num
    have h8 : (2 : ℝ) ^ 510 ≤ 2 ^ 1023 := by norm_num
    have h5 : |Real.exp x * (-4 * Real.exp x + Real.exp x ^ 2 + 1)| ≤ dblMax := by
      rw [abs_mul, abs_of_pos hp]
      have h9 : |-4 * Real.exp x + Real.exp x ^ 2 + 1| ≤ 2 ^ 520 := by
        rw [abs_le]
        constructor <;> linarith
      have h10 := mul_le_mul he h9 (abs_nonneg _) (by positivity)
      have h11 : (2 : ℝ) ^ 254 * 2 ^ 520 ≤ 2 ^ 1023 := by norm_num
      linarith
    unfold computeMeanThirdDerivative
    rw [mul_exact hx', exp_exact (x := 2 * x) (by rw [hexp2]; linarith),
      exp_exact (x := x) (by linarith), one_add_exact hp.le (by linarith),
      pow_exact (by linarith) (by linarith), mul_exact (a := -4), add_exact, add_exact, hexp2,
      mul_exact h5, div_num h5]
    · unfold Family.LogitLink.computeMeanThirdDerivative
      rw [← hexp2]
      rfl
    · exact one_le_pow₀ (by linarith)
    · rw [hexp2, abs_le]
      constructor <;> linarith
    · rw [hexp2, abs_le]
      constructor <;> linarith
    · rw [abs_le]
      constructor <;> linarith
  · have he : Real.exp x ≤ 2 ^ 204 := exp_le_two_pow (by push_cast; linarith)
    have h1 : (1 + Real.exp x) ^ 5 ≤ (1 + 2 ^ 204) ^ 5 := pow_le_pow_left₀ (by linarith) (by linarith) 5
    have h2 : ((1 : ℝ) + 2 ^ 204) ^ 5 ≤ 2 ^ 1023 := by norm_num
    have h3 : (1 : ℝ) + 2 ^ 204 ≤ 2 ^ 1023 := by norm_num
    have hx2 : |2 * x| ≤ dblMax := by
      have : (2 : ℝ) * 2 ^ 1000 + 1000 ≤ 2 ^ 1023 := by norm_num
      rw [abs_le]
      constructor <;> linarith
    have hx3 : |3 * x| ≤ dblMax := by
      have : (3 : ℝ) * 2 ^ 1000 + 1000 ≤ 2 ^ 1023 := by norm_num
      rw [abs_le]
      constructor <;> linarith
    have hexp2 : Real.exp (2 * x) = Real.exp x ^ 2 := by
      rw [← Real.exp_nat_mul]
      norm_num
    have hexp3 : Real.exp (3 * x) = Real.exp x ^ 3 := by
      rw [← Real.exp_nat_mul]
      norm_num
    have hs : Real.exp x ^ 2 ≤ 2 ^ 408 := by
      have h6 : ((2 : ℝ) ^ 204) ^ 2 = 2 ^ 408 := by norm_num
      rw [← h6]
      exact pow_le_pow_left₀ hp.le he 2
    have hs3 : Real.exp x ^ 3 ≤ 2 ^ 612 := by
      have h6 : ((2 : ℝ) ^ 204) ^ 3 = 2 ^ 612 := by norm_num
      rw [← h6]
      exact pow_le_pow_left₀ hp.le he 3
    have hs0 := sq_nonneg (Real.exp x)
    have hs30 : 0 ≤ Real.exp x ^ 3 := by positivity
    have h7 : (100 : ℝ) * 2 ^ 204 + 100 * 2 ^ 408 + 2 ^ 612 + 100 ≤ 2 ^ 613 := by norm_num
    have h8 : (2 : ℝ) ^ 613 ≤ 2 ^ 1023 := by norm_num
    have h5 : |-Real.exp x * (11 * Real.exp x - 11 * Real.exp x ^ 2 + Real.exp x ^ 3 - 1)| ≤
        dblMax := by
      rw [abs_mul, abs_neg, abs_of_pos hp]
      have h9 : |11 * Real.exp x - 11 * Real.exp x ^ 2 + Real.exp x ^ 3 - 1| ≤ 2 ^ 613 := by
        rw [abs_le]
        constructor <;> linarith
      have h10 := mul_le_mul he h9 (abs_nonneg _) (by positivity)
      have h11 : (2 : ℝ) ^ 204 * 2 ^ 613 ≤ 2 ^ 1023 := by norm_num
      linarith
    have hn : neg (.num (Real.exp x)) = .num (-Real.exp x) := rfl
    unfold computeMeanFourthDerivative
    rw [mul_exact hx2, mul_exact hx3, exp_exact (x := 2 * x) (by rw [hexp2]; linarith),
      exp_exact (x := 3 * x) (by rw [hexp3]; linarith),
      exp_exact (x := x) (by linarith), one_add_exact hp.le (by linarith),
      pow_exact (by linarith) (by linarith), hexp2, hexp3,
      mul_exact (a := 11) (b := Real.exp x), mul_exact (a := 11) (b := Real.exp x ^ 2), sub_exact,
      add_exact, sub_exact, hn, mul_exact h5, div_num h5]
    · unfold Family.LogitLink.computeMeanFourthDerivative
      rw [← hexp2, ← hexp3]
      rfl
    · exact one_le_pow₀ (by linarith)
    · rw [abs_le]
      constructor <;> linarith
    · rw [abs_le]
      constructor <;> linarith
    · rw [abs_le]
      constructor <;> linarith
    · rw [abs_le]
      constructor <;> linarith
    · rw [abs_le]
      constructor <;> linarith

/-- **C95 fails**: for large linear predictors the mean and its derivatives are not numbers. -/
theorem c95_violated {x : ℝ} (hx : |x| ≤ 2 ^ 1000) :
    (710 ≤ x → computeMean (.num x) = .nan ∧ computeMeanDerivative (.num x) = .nan) ∧
    (356 ≤ x → computeMeanSecondDerivative (.num x) = .nan) ∧
    (238 ≤ x → computeMeanThirdDerivative (.num x) = .nan) ∧
    (178 ≤ x → computeMeanFourthDerivative (.num x) = .nan) := by
  have ho := overflow_lt
  refine ⟨fun h => ?_, fun h => ?_, fun h => ?_, fun h => ?_⟩
  · have he : 2 ^ 1024 ≤ Real.exp x := two_pow_le_exp (by push_cast; linarith)
    exact ⟨(c95_mean_iff x).2 (by linarith), (c95_derivative_iff x).2 (by linarith)⟩
  · have he : 2 ^ 513 ≤ Real.exp x := two_pow_le_exp (by push_cast; linarith)
    refine (c95_second_iff x).2 ?_
    have : (2 : ℝ) ^ 1024 ≤ 2 ^ 513 * (2 ^ 513 - 1) := by norm_num
    have := mul_le_mul he (sub_le_sub_right he 1) (by norm_num) (Real.exp_pos x).le
    linarith
  · have he : 2 ^ 343 ≤ Real.exp x := two_pow_le_exp (by push_cast; linarith)
    refine (c95_third_iff hx).2 ?_
    have h1 : (2 : ℝ) ^ 1024 ≤ 2 ^ 343 * (2 ^ 343 * (2 ^ 343 - 4)) := by norm_num
    have h2 : (2 : ℝ) ^ 343 * (2 ^ 343 - 4) ≤ Real.exp x * (Real.exp x - 4) :=
      mul_le_mul he (by linarith) (by norm_num) (Real.exp_pos x).le
    have h3 := mul_le_mul he h2 (by norm_num) (Real.exp_pos x).le
    nlinarith [Real.exp_pos x]
  · have he : 2 ^ 256 ≤ Real.exp x := two_pow_le_exp (by push_cast; linarith)
    refine (c95_fourth_iff hx).2 ?_
    have h1 : overflow ≤ (2 ^ 256) ^ 3 * (2 ^ 256 - 11) := by
      unfold overflow
      norm_num
    have h2 : ((2 : ℝ) ^ 256) ^ 3 ≤ Real.exp x ^ 3 := pow_le_pow_left₀ (by positivity) he 3
    have h3 := mul_le_mul h2 (sub_le_sub_right he 11) (by norm_num) (by positivity)
    have h4 : (1 : ℝ) ≤ 2 ^ 256 := by norm_num
    have h5 := mul_nonneg (Real.exp_pos x).le (show 0 ≤ 11 * Real.exp x - 1 by linarith)
    linarith [show Real.exp x * (Real.exp x ^ 3 - 11 * Real.exp x ^ 2 + 11 * Real.exp x - 1) =
      Real.exp x ^ 3 * (Real.exp x - 11) + Real.exp x * (11 * Real.exp x - 1) by ring]

/-! ## The log-likelihood -/

theorem checkMean_num {m : ℝ} : checkMean (.num m) = .num (Family.Binomial.checkMean ![m] 0) := by
  have h : ∀ a b : ℝ, Less (.num a) (.num b) ↔ a < b := fun a b => Iff.rfl
  unfold checkMean Family.Binomial.checkMean
  rw [show (![m] : Fin 1 → ℝ) 0 = m from rfl]
  dsimp only
  by_cases h1 : m < Family.Binomial.epsilon
  · rw [if_pos ((h _ _).2 h1), if_pos h1]
    by_cases h2 : 1 - Family.Binomial.epsilon < Family.Binomial.epsilon
    · rw [if_pos ((h _ _).2 h2), if_pos h2]
    · rw [if_neg (fun h3 => h2 ((h _ _).1 h3)), if_neg h2]
  · rw [if_neg (fun h3 => h1 ((h _ _).1 h3)), if_neg h1]
    by_cases h2 : 1 - Family.Binomial.epsilon < m
    · rw [if_pos ((h _ _).2 h2), if_pos h2]
    · rw [if_neg (fun h3 => h2 ((h _ _).1 h3)), if_neg h2]

theorem checkMean_nan : checkMean .nan = .nan := by
  classical
  unfold checkMean
  rw [if_neg (show ¬Less .nan _ from id)]
  exact if_neg (show ¬Less (.num _) .nan from id)

theorem checkMean_range (m : ℝ) : 1e-8 ≤ Family.Binomial.checkMean ![m] 0 ∧
    Family.Binomial.checkMean ![m] 0 ≤ 1 - 1e-8 := by
  unfold Family.Binomial.checkMean Family.Binomial.epsilon
  rw [show (![m] : Fin 1 → ℝ) 0 = m from rfl]
  dsimp only
  by_cases h1 : m < 1e-8
  · rw [if_pos h1, if_neg (by norm_num)]
    norm_num
  · rw [if_neg h1]
    by_cases h2 : m > 1 - 1e-8
    · rw [if_pos h2]
      norm_num
    · rw [if_neg h2]
      exact ⟨not_lt.1 h1, not_lt.1 h2⟩

/-- The logarithm of a mean in the allowed range. -/
theorem log_range {m : ℝ} (h0 : 1e-8 ≤ m) (h1 : m ≤ 1) : -1e8 ≤ Real.log m ∧ Real.log m ≤ 0 := by
  have hm : 0 < m := lt_of_lt_of_le (by norm_num) h0
  refine ⟨?_, Real.log_nonpos hm.le h1⟩
  have h2 := Real.one_sub_inv_le_log_of_pos hm
  have h3 : m⁻¹ ≤ (1e-8 : ℝ)⁻¹ := inv_anti₀ (by norm_num) h0
  have h4 : (1e-8 : ℝ)⁻¹ = 1e8 := by norm_num
  linarith

/-- The contribution of one observation, exactly. -/
noncomputable def exactTerm (m y w : ℝ) : ℝ := w * (y * Real.log m + (1 - y) * Real.log (1 - m))

theorem inner_range {m y : ℝ} (h0 : 1e-8 ≤ m) (h1 : m ≤ 1 - 1e-8) (hy0 : 0 ≤ y) (hy1 : y ≤ 1) :
    -1e8 ≤ y * Real.log m + (1 - y) * Real.log (1 - m) ∧
      y * Real.log m + (1 - y) * Real.log (1 - m) ≤ 0 := by
  obtain ⟨a, b⟩ := log_range h0 (by linarith)
  obtain ⟨c, d⟩ := log_range (m := 1 - m) (by linarith) (by linarith)
  constructor <;> nlinarith

theorem term_num {m y w : ℝ} (h0 : 1e-8 ≤ m) (h1 : m ≤ 1 - 1e-8) (hy0 : 0 ≤ y) (hy1 : y ≤ 1) :
    term (.num m) y w = ofReal (exactTerm m y w) := by
  have hM := lt_dblMax
  have hc : (1e9 : ℝ) ≤ 2 ^ 1023 := by norm_num
  obtain ⟨a, b⟩ := log_range h0 (by linarith)
  obtain ⟨c, d⟩ := log_range (m := 1 - m) (by linarith) (by linarith)
  have e1 : log (.num m) = .num (Real.log m) := by
    show (if 0 < m then ofReal (Real.log m) else _) = _
    rw [if_pos (by linarith), ofReal_exact]
    rw [abs_le]
    constructor <;> linarith
  have e2 : log (.num (1 - m)) = .num (Real.log (1 - m)) := by
    show (if 0 < 1 - m then ofReal (Real.log (1 - m)) else _) = _
    rw [if_pos (by linarith), ofReal_exact]
    rw [abs_le]
    constructor <;> linarith
  unfold term
  rw [sub_exact (a := 1) (b := m), sub_exact (a := 1) (b := y), e1, e2, mul_exact, mul_exact,
    add_exact]
  · rfl
  · obtain ⟨a, b⟩ := inner_range h0 h1 hy0 hy1
    rw [abs_le]
    constructor <;> linarith
  · rw [abs_le]
    constructor <;> nlinarith
  · rw [abs_le]
    constructor <;> nlinarith
  · rw [abs_le]
    constructor <;> linarith
  · rw [abs_le]
    constructor <;> linarith

theorem add_nan (a : Dbl) : add a .nan = .nan := by cases a <;> rfl

theorem term_nan (y w : ℝ) : term .nan y w = .nan := by
  unfold term
  rw [show log .nan = .nan from rfl, mul_nan]
  exact mul_nan _

theorem fold_nan (l : List Dbl) : l.foldl add .nan = .nan := by
  induction l with
  | nil => rfl
  | cons a l ih => exact ih

theorem sum_nan {l : List Dbl} (h : Dbl.nan ∈ l) (a : Dbl) : l.foldl add a = .nan := by
  induction l generalizing a with
  | nil => cases h
  | cons b l ih =>
    rw [List.foldl_cons]
    rcases List.mem_cons.1 h with rfl | h
    · rw [add_nan]
      exact fold_nan l
    · exact ih h _

/-- Not positive: a number or minus infinity. -/
def NonPos (a : Dbl) : Prop := (∃ x, a = .num x ∧ x ≤ 0) ∨ a = .ninf

theorem ofReal_nonpos {x : ℝ} (h : x ≤ 0) : NonPos (ofReal x) := by
  have h1 := overflow_pos
  have h2 := dblMax_pos
  unfold ofReal
  rw [if_neg (by linarith)]
  split_ifs
  · exact Or.inr rfl
  · exact Or.inl ⟨_, rfl, max_le (by linarith) (min_le_left _ _ |>.trans h)⟩

theorem add_nonpos {a b : Dbl} (ha : NonPos a) (hb : NonPos b) : NonPos (add a b) := by
  rcases ha with ⟨x, rfl, hx⟩ | rfl <;> rcases hb with ⟨y, rfl, hy⟩ | rfl
  · exact ofReal_nonpos (by linarith)
  · exact Or.inr rfl
  · exact Or.inr rfl
  · exact Or.inr rfl

theorem sum_nonpos {l : List Dbl} (h : ∀ a ∈ l, NonPos a) {a : Dbl} (ha : NonPos a) :
    NonPos (l.foldl add a) := by
  induction l generalizing a with
  | nil => exact ha
  | cons b l ih =>
    exact ih (fun c hc => h c (List.mem_cons_of_mem b hc)) (add_nonpos ha (h b List.mem_cons_self))

/-- **C95.** The log-likelihood of binomial observations is not a number exactly if the exponential of
the linear predictor of some observation overflows (also of one with weight 0). -/
theorem c95_iff (eta y w : Fin n → ℝ) (hy : ∀ i, 0 ≤ y i ∧ y i ≤ 1) (hw : ∀ i, 0 ≤ w i) :
    evaluate (fun i => .num (eta i)) y w = .nan ↔ ∃ i, overflow ≤ Real.exp (eta i) := by
  constructor
  · intro h
    by_contra hn
    push Not at hn
    have : NonPos (evaluate (fun i => .num (eta i)) y w) := by
      refine sum_nonpos ?_ (Or.inl ⟨0, rfl, le_refl 0⟩)
      intro a ha
      obtain ⟨i, rfl⟩ := List.mem_ofFn.1 ha
      obtain ⟨m, hm⟩ := (c95_mean_iff (eta i)).1.2 (hn i)
      obtain ⟨h0, h1⟩ := checkMean_range m
      rw [hm, checkMean_num, term_num h0 h1 (hy i).1 (hy i).2]
      refine ofReal_nonpos ?_
      exact mul_nonpos_of_nonneg_of_nonpos (hw i) (inner_range h0 h1 (hy i).1 (hy i).2).2
    rw [h] at this
    rcases this with ⟨x, hx, -⟩ | hx <;> cases hx
  · rintro ⟨i, hi⟩
    refine sum_nan (List.mem_ofFn.2 ⟨i, ?_⟩) _
    rw [(c95_mean_iff (eta i)).2 hi, checkMean_nan, term_nan]

theorem sum_exact {l : List ℝ} {a : ℝ} (hl : ∀ x ∈ l, x ≤ 0) (ha : a ≤ 0) (h : -dblMax ≤ a + l.sum) :
    (l.map Dbl.num).foldl add (.num a) = .num (a + l.sum) := by
  induction l generalizing a with
  | nil => simp
  | cons b l ih =>
    have hb := hl b List.mem_cons_self
    have hl' : ∀ x ∈ l, x ≤ 0 := fun x hx => hl x (List.mem_cons_of_mem b hx)
    have hs : l.sum ≤ 0 := by
      have := List.sum_le_card_nsmul l 0 hl'
      simpa using this
    rw [List.sum_cons] at h
    have hd := dblMax_pos
    rw [List.map_cons, List.foldl_cons, add_exact, ih hl' (by linarith) (by linarith),
      List.sum_cons, add_assoc]
    rw [abs_le]
    constructor <;> linarith

/-- **C95, partial.** For linear predictors of at most 709 and weights of at most `2 ^ 900` in total the
log-likelihood is that of the real numbers. (For larger linear predictors it is not a number, see
`c95_violated` and `c95_iff`.) -/
theorem c95_partial (eta y w : Fin n → ℝ) (he : ∀ i, eta i ≤ 709) (hy : ∀ i, 0 ≤ y i ∧ y i ≤ 1)
    (hw : ∀ i, 0 ≤ w i) (hs : ∑ i, w i ≤ 2 ^ 900) : ∃ v,
    evaluate (fun i => .num (eta i)) y w = .num v ∧
    Family.Family.evaluate ⟨some .logit, some .binomial⟩ eta y w = Except.ok v := by
  have hM := lt_dblMax
  refine ⟨_, ?_, rfl⟩
  obtain ⟨m, hm⟩ : ∃ m : Fin n → ℝ, m = Family.Binomial.checkMean (Family.LogitLink.computeMean eta) :=
    ⟨_, rfl⟩
  have hr : ∀ i, 1e-8 ≤ m i ∧ m i ≤ 1 - 1e-8 := fun i => by
    rw [hm]
    exact checkMean_range (Family.LogitLink.computeMean eta i)
  have hin : ∀ i, -1e8 * w i ≤ exactTerm (m i) (y i) (w i) ∧ exactTerm (m i) (y i) (w i) ≤ 0 := by
    intro i
    obtain ⟨a, b⟩ := inner_range (hr i).1 (hr i).2 (hy i).1 (hy i).2
    unfold exactTerm
    constructor <;> nlinarith [hw i]
  have hwi : ∀ i, w i ≤ 2 ^ 900 := fun i =>
    (Finset.single_le_sum (fun j _ => hw j) (Finset.mem_univ i)).trans hs
  have hc : (1e8 : ℝ) * 2 ^ 900 ≤ 2 ^ 1023 := by norm_num
  have ht : ∀ i, term (checkMean (computeMean (.num (eta i)))) (y i) (w i) =
      .num (exactTerm (m i) (y i) (w i)) := by
    intro i
    have he' : Real.exp (eta i) ≤ 2 ^ 1023 := exp_le_two_pow (by push_cast; linarith [he i])
    rw [mean_exact, checkMean_num]
    · have hmi : Family.Binomial.checkMean ![Real.exp (eta i) / (1 + Real.exp (eta i))] 0 = m i := by
        rw [hm]
        rfl
      rw [hmi, term_num (hr i).1 (hr i).2 (hy i).1 (hy i).2, ofReal_exact]
      obtain ⟨a, b⟩ := hin i
      rw [abs_le]
      constructor <;> linarith [hwi i]
    · rw [dblMax_eq]
      have : (1 : ℝ) + 2 ^ 1023 ≤ 2 ^ 1024 - 2 ^ 971 := by norm_num
      linarith
  have hsum : (List.ofFn fun i => exactTerm (m i) (y i) (w i)).sum =
      ∑ i, exactTerm (m i) (y i) (w i) := List.sum_ofFn
  unfold evaluate sum
  rw [funext ht, ← show List.map Dbl.num (List.ofFn fun i => exactTerm (m i) (y i) (w i)) =
    List.ofFn fun i => Dbl.num (exactTerm (m i) (y i) (w i)) from List.map_ofFn,
    sum_exact _ (le_refl 0), hsum, zero_add, hm]
  · rfl
  · rw [hsum, zero_add]
    have h1 : ∑ i, -1e8 * w i ≤ ∑ i, exactTerm (m i) (y i) (w i) :=
      Finset.sum_le_sum fun i _ => (hin i).1
    rw [← Finset.mul_sum] at h1
    linarith
  · intro x hx
    obtain ⟨i, rfl⟩ := List.mem_ofFn.1 hx
    exact (hin i).2

/-- Two observations, one with a linear predictor out of range: the value is not a number. With 700 it
is. -/
example : evaluate (fun i => .num (![0, 710] i)) ![1, 1] ![1, 1] = .nan ∧
    ∃ v, evaluate (fun i => .num (![0, 700] i)) ![1, 1] ![1, 1] = .num v := by
  constructor
  · refine (c95_iff _ _ _ (fun i => by fin_cases i <;> norm_num) (fun i => by
      fin_cases i <;> norm_num)).2 ⟨1, ?_⟩
    exact overflow_lt.le.trans (two_pow_le_exp (by norm_num))
  · obtain ⟨v, h, -⟩ := c95_partial ![0, 700] ![1, 1] ![1, 1] (fun i => by
      fin_cases i <;> norm_num) (fun i => by fin_cases i <;> norm_num)
      (fun i => by fin_cases i <;> norm_num) (by norm_num)
    exact ⟨v, h⟩

end Verif.Range
