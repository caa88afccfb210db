import Verif.Props.Integrated

/-! Quadrature with all nodes at zero: an integrated factor, evaluated at the mean of the normal,
evaluates the factor at the mean only. -/
namespace Verif.Integrated

open Verif.Eigen Verif.Gauss Verif.Quad Matrix

variable {m k : ℕ}

theorem integrate1D_congr {E : Type} [AddCommGroup E] [Module ℝ E] {f f' : ℝ → Res E}
    {location sigma : ℝ} {rule : Rule k} (h0 : ∀ j, rule.nodes j = 0)
    (h : f location = f' location) :
    integrate1D f location sigma rule = integrate1D f' location sigma rule := by
  rw [integrate1D, integrate1D]
  simp only [h0, mul_zero, zero_add, h]

/-- The object with its functions replaced by constants. -/
def frozen (a : IF m) (v : ℝ) (g : Fin (m + 1) → ℝ) (h : Matrix (Fin (m + 1)) (Fin (m + 1)) ℝ) :
    IF m :=
  { a with
    function := fun _ => Except.ok v
    derivativeFunction := fun _ => Except.ok g
    secondDerivativeFunction := fun _ => Except.ok h }

/-- The conditional variance of coordinate `i`. -/
noncomputable def condVar (V : Matrix (Fin (m + 1)) (Fin (m + 1)) ℝ) (i : Fin (m + 1)) : ℝ :=
  V i i - v21 V i ⬝ᵥ ((v22 V i)⁻¹ *ᵥ v21 V i)

theorem centre_ok (junk : Junk m) (i : Fin (m + 1)) {f : (Fin (m + 1) → ℝ) → Res ℝ}
    {df : (Fin (m + 1) → ℝ) → Res (Fin (m + 1) → ℝ)}
    {ddf : (Fin (m + 1) → ℝ) → Res (Matrix (Fin (m + 1)) (Fin (m + 1)) ℝ)} {normal : MN (m + 1)}
    {v : ℝ} {g : Fin (m + 1) → ℝ} {h : Matrix (Fin (m + 1)) (Fin (m + 1)) ℝ}
    (hf : f normal.mean = Except.ok v) (hd : df normal.mean = Except.ok g)
    (hh : ddf normal.mean = Except.ok h) (hp : normal.isProper = true) {rule : Rule k}
    (h0 : ∀ j, rule.nodes j = 0) (hw : 0 < ∑ j, rule.weights j)
    (hv : 0 < condVar normal.variance i) :
    ∃ a, create junk i f df ddf normal = Except.ok a ∧
      a.evaluate junk (fun r => normal.mean (i.succAbove r)) rule = Except.ok
        (v + Real.log (Real.sqrt 2 * ∑ j, rule.weights j)
          + 1 / 2 * Real.log (condVar normal.variance i)) ∧
      (∃ d', a.evaluateDerivative junk (fun r => normal.mean (i.succAbove r)) rule
        = Except.ok d') ∧
      ∃ h', a.evaluateSecondDerivative junk (fun r => normal.mean (i.succAbove r)) rule
        = Except.ok h' := by
  have hpn : properNormal normal = normal := by rw [properNormal, if_pos hp]
  rw [create, hpn]
  simp only [hf, res_ok_bind]
  rw [conditionalTerms_ok]
  simp only [res_ok_bind]
  rw [readAt_ok, getVectorWithout_ok]
  simp only [res_ok_bind, res_pure]
  refine ⟨_, rfl, ?_⟩
  set a : IF m := ⟨i, f, df, ddf, normal, v, normal.mean i,
    fun r => normal.mean (i.succAbove r), (v22 normal.variance i)⁻¹ *ᵥ v21 normal.variance i,
    Real.sqrt (normal.variance i i - v21 normal.variance i ⬝ᵥ
      ((v22 normal.variance i)⁻¹ *ᵥ v21 normal.variance i))⟩ with ha
  set x : Fin m → ℝ := fun r => normal.mean (i.succAbove r) with hx
  have hH : Holds (frozen a v g h) i (fun _ => v) (fun _ => g) (fun _ => h) :=
    ⟨rfl, fun _ => rfl, fun _ => rfl, fun _ => rfl⟩
  have hc : a.findConditionalMean x = normal.mean i := by
    rw [findConditionalMean_eq]
    show normal.mean i - _ ⬝ᵥ (x - x) = _
    rw [sub_self, dotProduct_zero, sub_zero]
  have hpt : ∀ t : ℝ, Function.update (i.insertNth t x) i (normal.mean i) = normal.mean := by
    intro t
    rw [Fin.update_insertNth]
    funext j
    rcases Fin.eq_self_or_eq_succAbove i j with rfl | ⟨r, rfl⟩
    · rw [Fin.insertNth_apply_same]
    · rw [Fin.insertNth_apply_succAbove]
  have hy : ∀ t : ℝ, writeAt (i.insertNth t x) (i : ℕ) (normal.mean i) =
      Except.ok normal.mean := by
    intro t
    rw [writeAt_ok, hpt]
  have e0 : a.integrateNoLog junk x (a.findConditionalMean x) rule =
      (frozen a v g h).integrateNoLog junk x ((frozen a v g h).findConditionalMean x) rule := by
    rw [IF.integrateNoLog, IF.integrateNoLog]
    have hx1 : (frozen a v g h).extendArgument junk x = a.extendArgument junk x := rfl
    have hx2 : (frozen a v g h).findConditionalMean x = a.findConditionalMean x := rfl
    rw [hx1, hx2, hc]
    rw [show a.extendArgument junk x = _ from extend_ok i junk.ext x]
    simp only [res_ok_bind]
    apply integrate1D_congr h0
    show (writeAt _ (i : ℕ) _ >>= _) = (writeAt _ (i : ℕ) _ >>= _)
    rw [hy]
    simp only [res_ok_bind]
    show (f _ >>= _) = _
    rw [hf]
    rfl
  have e1 : a.integrateDerivativeNoLog junk x (a.findConditionalMean x) rule =
      (frozen a v g h).integrateDerivativeNoLog junk x
        ((frozen a v g h).findConditionalMean x) rule := by
    rw [IF.integrateDerivativeNoLog, IF.integrateDerivativeNoLog]
    have hx1 : (frozen a v g h).extendArgument junk x = a.extendArgument junk x := rfl
    have hx2 : (frozen a v g h).findConditionalMean x = a.findConditionalMean x := rfl
    rw [hx1, hx2, hc]
    rw [show a.extendArgument junk x = _ from extend_ok i junk.ext x]
    simp only [res_ok_bind]
    apply integrate1D_congr h0
    show (writeAt _ (i : ℕ) _ >>= _) = (writeAt _ (i : ℕ) _ >>= _)
    rw [hy]
    simp only [res_ok_bind]
    show (f _ >>= _) = _
    rw [hf]
    simp only [res_ok_bind]
    show (df _ >>= _) = _
    rw [hd]
    rfl
  have e2 : a.integrateSecondDerivativeNoLog junk x (a.findConditionalMean x) rule =
      (frozen a v g h).integrateSecondDerivativeNoLog junk x
        ((frozen a v g h).findConditionalMean x) rule := by
    rw [IF.integrateSecondDerivativeNoLog, IF.integrateSecondDerivativeNoLog]
    have hx1 : (frozen a v g h).extendArgument junk x = a.extendArgument junk x := rfl
    have hx2 : (frozen a v g h).findConditionalMean x = a.findConditionalMean x := rfl
    rw [hx1, hx2, hc]
    rw [show a.extendArgument junk x = _ from extend_ok i junk.ext x]
    simp only [res_ok_bind]
    apply integrate1D_congr h0
    show (writeAt _ (i : ℕ) _ >>= _) = (writeAt _ (i : ℕ) _ >>= _)
    rw [hy]
    simp only [res_ok_bind]
    show (f _ >>= _) = _
    rw [hf]
    simp only [res_ok_bind]
    show (df _ >>= _) = _
    rw [hd]
    simp only [res_ok_bind]
    show (ddf _ >>= _) = _
    rw [hh]
    rfl
  obtain ⟨r0, r1, r2⟩ := evaluate_ok hH junk rule x
  refine ⟨?_, ?_, ?_⟩
  · rw [IF.evaluate] at r0 ⊢
    rw [e0]
    refine r0.trans ?_
    congr 1
    have hI : I0 (frozen a v g h) i (fun _ => v) rule x =
        Real.sqrt (condVar normal.variance i) * (Real.sqrt 2 * ∑ j, rule.weights j) := by
      rw [I0, Finset.mul_sum, Finset.mul_sum]
      refine Finset.sum_congr rfl fun j _ => ?_
      rw [Integrated.wt, V, h0]
      show Real.sqrt 2 * Real.sqrt (condVar normal.variance i) * _ * Real.exp (v - v) = _
      rw [sub_self]
      simp
      ring
    rw [hI, Real.log_mul (Real.sqrt_pos.mpr hv).ne' (by positivity), Real.log_sqrt hv.le]
    show _ + v = _
    ring
  · rw [IF.evaluateDerivative] at r1 ⊢
    rw [e0, e1]
    exact ⟨_, r1⟩
  · rw [IF.evaluateSecondDerivative] at r2 ⊢
    rw [e0, e1, e2]
    exact ⟨_, r2⟩

end Verif.Integrated
