import Verif.Model.Summary
import Verif.Proofs.NormalQuantile
import Verif.Props.Fit

/-!
# C73: standard errors, z values and p-values of `summary`. C74: the table of the fixed effects
-/
namespace Verif.Fit

open Verif.IS Verif.NormalQuantile ProbabilityTheory MeasureTheory Set

/-! ## Specification -/

/-- The p-value of the two-sided test that a parameter is 0: the probability that an estimator with
normal distribution, mean 0 and variance `v` is at least as far from 0 as the estimate `e`. -/
noncomputable def Spec.pValue (e v : ℝ) : ℝ := (gaussianReal 0 v.toNNReal).real {x | |e| ≤ |x|}

/-! ## Proofs -/

theorem two_tails {z : ℝ} (hz : 0 ≤ z) : 2 * γ.real (Ioi z) = γ.real {x | z ≤ |x|} := by
  have h1 : γ.real (Iic (-z)) = γ.real (Ioi z) := by
    rw [← F_eq, F_neg, F_eq, ← compl_Iic, probReal_compl_eq_one_sub measurableSet_Iic]
  have h2 : {x : ℝ | z ≤ |x|} = Iic (-z) ∪ Ici z := by
    ext x
    simp only [mem_setOf_eq, mem_union, mem_Iic, mem_Ici, le_abs]
    constructor
    · rintro (h | h)
      · exact Or.inr h
      · exact Or.inl (by linarith)
    · rintro (h | h)
      · exact Or.inr (by linarith)
      · exact Or.inl h
  have h3 : γ.real (Iic (-z) ∪ Ici z) = γ.real (Iic (-z) ∪ Ioi z) :=
    measureReal_congr ((Filter.EventuallyEq.refl _ _).union Ioi_ae_eq_Ici.symm)
  rw [h2, h3, measureReal_union _ measurableSet_Ioi, h1]
  · ring
  · rw [Set.disjoint_left]
    intro x hx hx'
    have a : x ≤ -z := hx
    have b : z < x := hx'
    linarith

theorem pValue_eq {e v : ℝ} (hv : 0 < v) : Spec.pValue e v = 2 * γ.real (Ioi |e / √v|) := by
  have hs : 0 < √v := Real.sqrt_pos.2 hv
  have hmap : γ.map (fun x => √v * x) = gaussianReal 0 v.toNNReal := by
    rw [gaussianReal_map_const_mul, mul_zero]
    congr 1
    ext
    rw [Real.coe_toNNReal v hv.le]
    simp [Real.sq_sqrt hv.le]
  rw [two_tails (abs_nonneg _), Spec.pValue, ← hmap,
    map_measureReal_apply (by fun_prop) (measurableSet_le measurable_const (by fun_prop))]
  congr 1
  ext x
  simp only [mem_preimage, mem_setOf_eq, abs_mul, abs_div, abs_of_pos hs]
  rw [div_le_iff₀ hs, mul_comm]

theorem tail_eq (z : ℝ) : γ.real (Ioi z) = 1 - cdf γ z := by
  rw [F_eq, ← compl_Iic, probReal_compl_eq_one_sub measurableSet_Iic]

theorem diagOf_get {A : List (List (Option ℝ))} {i : ℕ} {v : Option ℝ}
    (h : (A.getD i []).getD i none = v) (hi : i < A.length) : (diagOf A)[i]? = some v := by
  unfold diagOf
  rw [List.getElem?_mapIdx, List.getElem?_eq_getElem hi, ← h]
  simp [hi]

/-- The values of `summary` for the parameter number `i`. -/
theorem summary_get {object : Opt} (hl : object.Sigma.length = object.estim.length) {i : ℕ} {e : ℝ}
    (he : object.estim[i]? = some e) {v : Option ℝ} (hv : (object.Sigma.getD i []).getD i none = v) :
    (summary object).se[i]? = some (sqrtNa v) ∧
    (summary object).z[i]? = some (absRatio e (sqrtNa v)) ∧
    (summary object).p_value[i]? =
      some ((absRatio e (sqrtNa v)).map fun x => 2 * pnormUpper x) := by
  have hi : i < object.estim.length := by
    by_contra h
    rw [List.getElem?_eq_none_iff.2 (by omega)] at he
    cases he
  have h1 : (summary object).se[i]? = some (sqrtNa v) := by
    unfold summary
    simp only
    rw [List.getElem?_map, diagOf_get hv (by omega)]
    rfl
  have h2 : (summary object).z[i]? = some (absRatio e (sqrtNa v)) := by
    have : (summary object).z = object.estim.zipWith absRatio (summary object).se := rfl
    rw [this, List.getElem?_zipWith, he, h1]
  refine ⟨h1, h2, ?_⟩
  have : (summary object).p_value =
    (summary object).z.map fun x => x.map fun v => 2 * pnormUpper v := rfl
  rw [this, List.getElem?_map, h2]
  rfl

/-- **C73.** For every parameter with a positive variance: the standard error is its square root, the
z value is the distance of the estimate from 0 in standard errors, and the p-value is that of the
two-sided test. -/
theorem c73 {object : Opt} (hl : object.Sigma.length = object.estim.length) {i : ℕ} {e : ℝ}
    (he : object.estim[i]? = some e) {v : ℝ} (hv : (object.Sigma.getD i []).getD i none = some v)
    (h0 : 0 < v) :
    (summary object).se[i]? = some (some √v) ∧
    (∃ z : ℝ, (summary object).z[i]? = some (some (z : WithTop ℝ)) ∧ 0 ≤ z ∧ z * √v = |e|) ∧
    (summary object).p_value[i]? = some (some (Spec.pValue e v)) := by
  have hs : 0 < √v := Real.sqrt_pos.2 h0
  obtain ⟨h1, h2, h3⟩ := summary_get hl he hv
  have hsq : sqrtNa (some v) = some √v := if_neg (not_lt.2 h0.le)
  have hr : absRatio e (some √v) = some ((|e / √v| : ℝ) : WithTop ℝ) := if_neg hs.ne'
  rw [hsq] at h1 h2 h3
  rw [hr] at h2 h3
  refine ⟨h1, ⟨_, h2, abs_nonneg _, ?_⟩, ?_⟩
  · rw [abs_div, abs_of_pos hs, div_mul_cancel₀ _ hs.ne']
  · rw [h3, pValue_eq h0]
    rfl

/-- **C73, variance 0.** The p-value is 0, that of a constant estimator, unless the estimate is 0; then
it is missing. -/
theorem c73_zero {object : Opt} (hl : object.Sigma.length = object.estim.length) {i : ℕ} {e : ℝ}
    (he : object.estim[i]? = some e) (hv : (object.Sigma.getD i []).getD i none = some 0) :
    (summary object).p_value[i]? = some (if e = 0 then none else some (Spec.pValue e 0)) := by
  obtain ⟨-, -, h3⟩ := summary_get hl he hv
  have hsq : sqrtNa (some 0) = some 0 := by
    show (if (0 : ℝ) < 0 then none else some √0) = some 0
    rw [if_neg (lt_irrefl _), Real.sqrt_zero]
  rw [h3, hsq]
  unfold absRatio
  dsimp only
  rw [if_pos rfl]
  by_cases h : e = 0
  · rw [if_pos h, if_pos h]
    rfl
  · rw [if_neg h, if_neg h]
    have : Spec.pValue e 0 = 0 := by
      unfold Spec.pValue
      rw [Real.toNNReal_zero, gaussianReal_zero_var, measureReal_def, Measure.dirac_apply', Set.indicator_of_notMem]
      · rfl
      · simpa using h
      · exact measurableSet_le measurable_const (by fun_prop)
    rw [this]
    simp [pnormUpper]

/-- **C73, no variance.** If the variance is missing or negative, so is everything else. -/
theorem c73_missing {object : Opt} (hl : object.Sigma.length = object.estim.length) {i : ℕ} {e : ℝ}
    (he : object.estim[i]? = some e) {v : Option ℝ}
    (hv : (object.Sigma.getD i []).getD i none = v) (h0 : ∀ x, v = some x → x < 0) :
    (summary object).se[i]? = some none ∧ (summary object).z[i]? = some none ∧
      (summary object).p_value[i]? = some none := by
  obtain ⟨h1, h2, h3⟩ := summary_get hl he hv
  have hsq : sqrtNa v = none := by
    cases v with
    | none => rfl
    | some x => exact if_pos (h0 x rfl)
  rw [hsq] at h1 h2 h3
  exact ⟨h1, h2, h3⟩

/-- **C73, what the p-value means.** If the estimator of a parameter that is 0 is normal with the
reported variance, the test that rejects for a p-value of at most `alpha` rejects with probability
`alpha`. -/
theorem c73_level {v : ℝ} (hv : 0 < v) {alpha : ℝ} (h0 : 0 < alpha) (h1 : alpha < 1) :
    (gaussianReal 0 v.toNNReal).real {e | Spec.pValue e v ≤ alpha} = alpha := by
  have hs : 0 < √v := Real.sqrt_pos.2 hv
  obtain ⟨Q, hQ⟩ := exists_quantile
  set t := Q (1 - alpha / 2) with ht
  have hF : cdf γ t = 1 - alpha / 2 := hQ _ (by linarith) (by linarith)
  have ht0 : 0 ≤ t := by
    rw [← F_strictMono.le_iff_le, F_zero, hF]
    linarith
  have hset : {e | Spec.pValue e v ≤ alpha} = {x | |t * √v| ≤ |x|} := by
    ext e
    simp only [mem_setOf_eq]
    rw [pValue_eq hv, tail_eq, abs_of_nonneg (mul_nonneg ht0 hs.le), ← le_div_iff₀ hs]
    rw [show 2 * (1 - cdf γ |e / √v|) ≤ alpha ↔ cdf γ t ≤ cdf γ |e / √v| by
      rw [hF]; constructor <;> intro h <;> linarith, F_strictMono.le_iff_le, abs_div, abs_of_pos hs]
  rw [hset]
  show Spec.pValue (t * √v) v = alpha
  rw [pValue_eq hv, mul_div_cancel_right₀ _ hs.ne', abs_of_nonneg ht0, tail_eq, hF]
  ring

/-- p-values are probabilities, 1 only for the estimate 0, and do not depend on its sign. -/
theorem c73_range {v : ℝ} (hv : 0 < v) (e : ℝ) :
    0 < Spec.pValue e v ∧ Spec.pValue e v ≤ 1 ∧ (Spec.pValue e v = 1 ↔ e = 0) ∧
      Spec.pValue (-e) v = Spec.pValue e v := by
  have hs : 0 < √v := Real.sqrt_pos.2 hv
  have hlt : ∀ x, cdf γ x < 1 := fun x =>
    (F_strictMono (lt_add_one x)).trans_le (cdf_le_one _ _)
  have hge : 1 / 2 ≤ cdf γ |e / √v| := by
    rw [← F_zero]
    exact F_strictMono.monotone (abs_nonneg _)
  refine ⟨?_, ?_, ?_, ?_⟩
  · rw [pValue_eq hv, tail_eq]
    have := hlt |e / √v|
    linarith
  · rw [pValue_eq hv, tail_eq]
    linarith
  · rw [pValue_eq hv, tail_eq]
    constructor
    · intro h
      have h2 : cdf γ |e / √v| = cdf γ 0 := by
        rw [F_zero]
        linarith
      have h3 := abs_eq_zero.1 (F_strictMono.injective h2)
      rcases div_eq_zero_iff.1 h3 with h | h
      · exact h
      · exact absurd h hs.ne'
    · rintro rfl
      rw [zero_div, abs_zero, F_zero]
      norm_num
  · unfold Spec.pValue
    rw [abs_neg]

/-! ## The table of the fixed effects -/

/-- The row of the summary for parameter number `i`. -/
noncomputable def Spec.row (x : Summary) (i : ℕ) : Row :=
  ⟨x.fit.estim[i]?, x.se.getD i none, x.z.getD i none, x.p_value.getD i none⟩

theorem colon_fixed (p_theta : ℕ) {p_beta : ℕ} (h : 0 < p_beta) :
    (colon (p_theta + 1) (p_beta + p_theta)).filter (fun i => i ≠ 0) =
      (List.range p_beta).map fun j => p_theta + 1 + j := by
  obtain ⟨m, rfl⟩ : ∃ m, p_beta = m + 1 := ⟨p_beta - 1, by omega⟩
  rw [show m + 1 + p_theta = p_theta + (m + 1) by omega, colon_up, List.filter_eq_self]
  intro a ha
  obtain ⟨j, -, rfl⟩ := List.mem_map.1 ha
  simp

/-- **C74, the part that holds.** With fixed effects, the table has one row for each of them, with its
own values. Missing: models without fixed effects, see `c74_none`. -/
theorem c74_partial (x : Summary) (p_theta : ℕ) {p_beta : ℕ} (h : 0 < p_beta) :
    fixedMat x p_theta p_beta = (List.range p_beta).map fun j => Spec.row x (p_theta + j) := by
  unfold fixedMat index indexNa
  simp only [colon_fixed p_theta h, List.length_map, List.length_range]
  refine List.map_congr_left fun j hj => ?_
  have hj := List.mem_range.1 hj
  unfold Spec.row
  simp [hj, show p_theta + 1 + j - 1 = p_theta + j by omega]

/-- **C74, violated without fixed effects.** Two rows are printed: one that belongs to no
parameter, and that of the last variance parameter. -/
theorem c74_none (x : Summary) {p_theta : ℕ} (h : 0 < p_theta) :
    fixedMat x p_theta 0 = [Spec.row x p_theta, Spec.row x (p_theta - 1)] := by
  have hc : (colon (p_theta + 1) (0 + p_theta)).filter (fun i => i ≠ 0) = [p_theta + 1, p_theta] := by
    unfold colon
    rw [Nat.zero_add, if_neg (by omega), show p_theta + 1 - p_theta + 1 = 2 by omega]
    simp [List.range_succ]
    omega
  unfold fixedMat index indexNa
  simp only [hc]
  simp [Spec.row, List.range_succ]

/-! ## Examples -/

/-- A fit with one variance parameter and one fixed effect. -/
noncomputable def twoOpt : Opt := ⟨[0.5, -3], [[some 0.25, some 0.1], [some 0.1, some 4]]⟩

/-- The hypotheses of `c73` for both parameters, and the standard error of the second. -/
example : (summary twoOpt).se[1]? = some (some 2) ∧
    (summary twoOpt).p_value[1]? = some (some (Spec.pValue (-3) 4)) := by
  obtain ⟨h1, -, h3⟩ := c73 (object := twoOpt) rfl (i := 1) (e := -3) rfl (v := 4) rfl (by norm_num)
  refine ⟨?_, h3⟩
  rw [h1, show (4 : ℝ) = 2 ^ 2 by norm_num, Real.sqrt_sq (by norm_num)]

/-- After a fit whose estimates may be infinite, the variances are missing. -/
example : (summary ⟨[5, 1], [[none, none], [none, none]]⟩).p_value[1]? = some none :=
  (c73_missing (object := ⟨[5, 1], [[none, none], [none, none]]⟩) rfl (i := 1) (e := 1) rfl
    (v := none) rfl (by intro x hx; cases hx)).2.2

/-- The table of a model with one variance parameter and one fixed effect has one row. -/
example : fixedMat (summary twoOpt) 1 1 = [Spec.row (summary twoOpt) 1] :=
  c74_partial (summary twoOpt) 1 (p_beta := 1) one_pos

/-- A test at level 5 %. -/
example : (gaussianReal 0 (4 : ℝ).toNNReal).real {e | Spec.pValue e 4 ≤ 0.05} = 0.05 :=
  c73_level (by norm_num) (by norm_num) (by norm_num)

end Verif.Fit
