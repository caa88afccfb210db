import Verif.Proofs.IntegratedCentre

/-! An integrated factor needs its functions at the points of the quadrature only. -/
namespace Verif.Integrated

open Verif.Eigen Verif.Gauss Verif.Quad Matrix

variable {m k : ℕ}

theorem integrate1D_congr_nodes {E : Type} [AddCommGroup E] [Module ℝ E] {f f' : ℝ → Res E}
    {location sigma : ℝ} {rule : Rule k}
    (h : ∀ j, f (Real.sqrt 2 * sigma * rule.nodes j + location) =
      f' (Real.sqrt 2 * sigma * rule.nodes j + location)) :
    integrate1D f location sigma rule = integrate1D f' location sigma rule := by
  rw [integrate1D, integrate1D]
  simp only [h]

open Classical in
/-- The value on `S`, and `d` elsewhere. -/
noncomputable def onSet {α β : Type} (S : Set α) (f : α → Res β) (d : β) (y : α) : β :=
  if y ∈ S then (match f y with
    | .ok v => v
    | .error _ => d) else d

theorem onSet_ok {α β : Type} {S : Set α} {f : α → Res β} (d : β)
    (h : ∀ y ∈ S, ∃ v, f y = Except.ok v) {y : α} (hy : y ∈ S) :
    f y = Except.ok (onSet S f d y) := by
  obtain ⟨v, e⟩ := h y hy
  rw [onSet, if_pos hy, e]

/-- The functions of a factor return on `S`: so do those of the integrated factor wherever all
points of the rule are in `S`. -/
theorem at_ok (junk : Junk m) (i : Fin (m + 1)) (S : Set (Fin (m + 1) → ℝ))
    {f : (Fin (m + 1) → ℝ) → Res ℝ} {df : (Fin (m + 1) → ℝ) → Res (Fin (m + 1) → ℝ)}
    {ddf : (Fin (m + 1) → ℝ) → Res (Matrix (Fin (m + 1)) (Fin (m + 1)) ℝ)} {normal : MN (m + 1)}
    (hf : ∀ y ∈ S, ∃ v, f y = Except.ok v) (hd : ∀ y ∈ S, ∃ v, df y = Except.ok v)
    (hh : ∀ y ∈ S, ∃ v, ddf y = Except.ok v) (hp : normal.isProper = true)
    (hm : normal.mean ∈ S) :
    ∃ a, create junk i f df ddf normal = Except.ok a ∧
      ∀ (rule : Rule k) (x : Fin m → ℝ),
        (∀ j, (i.insertNth (Real.sqrt 2 * Real.sqrt (condVar normal.variance i) * rule.nodes j +
          (normal.mean i - ((v22 normal.variance i)⁻¹ *ᵥ v21 normal.variance i) ⬝ᵥ
            (x - fun r => normal.mean (i.succAbove r)))) x : Fin (m + 1) → ℝ) ∈ S) →
        (∃ v, a.evaluate junk x rule = Except.ok v) ∧
        (∃ v, a.evaluateDerivative junk x rule = Except.ok v) ∧
        ∃ v, a.evaluateSecondDerivative junk x rule = Except.ok v := by
  have hpn : properNormal normal = normal := by rw [properNormal, if_pos hp]
  obtain ⟨v, ev⟩ := hf _ hm
  rw [create, hpn]
  simp only [ev, res_ok_bind]
  rw [conditionalTerms_ok]
  simp only [res_ok_bind]
  rw [readAt_ok, getVectorWithout_ok]
  simp only [res_ok_bind, res_pure]
  refine ⟨_, rfl, ?_⟩
  intro rule x hx
  set a : IF m := ⟨i, f, df, ddf, normal, v, normal.mean i,
    fun r => normal.mean (i.succAbove r), (v22 normal.variance i)⁻¹ *ᵥ v21 normal.variance i,
    Real.sqrt (normal.variance i i - v21 normal.variance i ⬝ᵥ
      ((v22 normal.variance i)⁻¹ *ᵥ v21 normal.variance i))⟩ with ha
  set F := onSet S f 0
  set G := onSet S df 0
  set H := onSet S ddf 0
  set a' : IF m := { a with
    function := fun y => Except.ok (F y)
    derivativeFunction := fun y => Except.ok (G y)
    secondDerivativeFunction := fun y => Except.ok (H y) } with ha'
  have hH : Holds a' i F G H := ⟨rfl, fun _ => rfl, fun _ => rfl, fun _ => rfl⟩
  have hx1 : a'.extendArgument junk x = a.extendArgument junk x := rfl
  have hx2 : a'.findConditionalMean x = a.findConditionalMean x := rfl
  have hpt : ∀ (t : ℝ) (j : Fin k), Function.update (i.insertNth t x : Fin (m + 1) → ℝ) i
      (Real.sqrt 2 * a.sigmaConditional * rule.nodes j + a.findConditionalMean x) ∈ S := by
    intro t j
    rw [Fin.update_insertNth, findConditionalMean_eq]
    exact hx j
  have e0 : a.integrateNoLog junk x (a.findConditionalMean x) rule =
      a'.integrateNoLog junk x (a'.findConditionalMean x) rule := by
    rw [IF.integrateNoLog, IF.integrateNoLog, hx1, hx2,
      show a.extendArgument junk x = _ from extend_ok i junk.ext x]
    simp only [res_ok_bind]
    refine integrate1D_congr_nodes fun j => ?_
    show (writeAt _ (i : ℕ) _ >>= _) = (writeAt _ (i : ℕ) _ >>= _)
    rw [writeAt_ok]
    simp only [res_ok_bind]
    show (f _ >>= _) = _
    rw [onSet_ok 0 hf (hpt _ j)]
  have e1 : a.integrateDerivativeNoLog junk x (a.findConditionalMean x) rule =
      a'.integrateDerivativeNoLog junk x (a'.findConditionalMean x) rule := by
    rw [IF.integrateDerivativeNoLog, IF.integrateDerivativeNoLog, hx1, hx2,
      show a.extendArgument junk x = _ from extend_ok i junk.ext x]
    simp only [res_ok_bind]
    refine integrate1D_congr_nodes fun j => ?_
    show (writeAt _ (i : ℕ) _ >>= _) = (writeAt _ (i : ℕ) _ >>= _)
    rw [writeAt_ok]
    simp only [res_ok_bind]
    show (f _ >>= _) = _
    rw [onSet_ok 0 hf (hpt _ j)]
    simp only [res_ok_bind]
    show (df _ >>= _) = _
    rw [onSet_ok 0 hd (hpt _ j)]
    rfl
  have e2 : a.integrateSecondDerivativeNoLog junk x (a.findConditionalMean x) rule =
      a'.integrateSecondDerivativeNoLog junk x (a'.findConditionalMean x) rule := by
    rw [IF.integrateSecondDerivativeNoLog, IF.integrateSecondDerivativeNoLog, hx1, hx2,
      show a.extendArgument junk x = _ from extend_ok i junk.ext x]
    simp only [res_ok_bind]
    refine integrate1D_congr_nodes fun j => ?_
    show (writeAt _ (i : ℕ) _ >>= _) = (writeAt _ (i : ℕ) _ >>= _)
    rw [writeAt_ok]
    simp only [res_ok_bind]
    show (f _ >>= _) = _
    rw [onSet_ok 0 hf (hpt _ j)]
    simp only [res_ok_bind]
    show (df _ >>= _) = _
    rw [onSet_ok 0 hd (hpt _ j)]
    simp only [res_ok_bind]
    show (ddf _ >>= _) = _
    rw [onSet_ok 0 hh (hpt _ j)]
    rfl
  obtain ⟨r0, r1, r2⟩ := evaluate_ok hH junk rule x
  refine ⟨?_, ?_, ?_⟩
  · rw [IF.evaluate] at r0 ⊢
    rw [e0]
    exact ⟨_, r0⟩
  · rw [IF.evaluateDerivative] at r1 ⊢
    rw [e0, e1]
    exact ⟨_, r1⟩
  · rw [IF.evaluateSecondDerivative] at r2 ⊢
    rw [e0, e1, e2]
    exact ⟨_, r2⟩

/-! ## Distances from the mean -/

theorem posDef_form_nonneg {n : ℕ} {A : Matrix (Fin n) (Fin n) ℝ} (hA : A.PosDef)
    (x : Fin n → ℝ) : 0 ≤ x ⬝ᵥ (A *ᵥ x) := by
  by_cases h : x = 0
  · simp [h]
  · exact (posDef_pos hA h).le

/-- The quadratic form of the inverse as a maximum. -/
theorem form_ge {n : ℕ} {W : Matrix (Fin n) (Fin n) ℝ} (hW : W.PosDef) (c d : Fin n → ℝ) :
    2 * (c ⬝ᵥ d) - c ⬝ᵥ (W *ᵥ c) ≤ d ⬝ᵥ (W⁻¹ *ᵥ d) := by
  have hu : IsUnit W.det := hW.det_pos.ne'.isUnit
  have h := posDef_form_nonneg hW (W⁻¹ *ᵥ d - c)
  have hs := posDef_symm hW
  rw [mulVec_sub, mulVec_mulVec, Matrix.mul_nonsing_inv _ hu, one_mulVec, sub_dotProduct,
    dotProduct_sub, dotProduct_sub] at h
  have h1 : (W⁻¹ *ᵥ d) ⬝ᵥ (W *ᵥ c) = c ⬝ᵥ d := by
    rw [symm_dot hs, mulVec_mulVec, Matrix.mul_nonsing_inv _ hu, one_mulVec]
  rw [h1, dotProduct_comm (W⁻¹ *ᵥ d) d] at h
  linarith

/-- Cauchy-Schwarz for the quadratic form of the inverse. -/
theorem form_cauchy {n : ℕ} {W : Matrix (Fin n) (Fin n) ℝ} (hW : W.PosDef) (c d : Fin n → ℝ) :
    (c ⬝ᵥ d) ^ 2 ≤ (c ⬝ᵥ (W *ᵥ c)) * (d ⬝ᵥ (W⁻¹ *ᵥ d)) := by
  have h : ∀ s : ℝ, 0 ≤ (c ⬝ᵥ (W *ᵥ c)) * (s * s) + (-2 * (c ⬝ᵥ d)) * s +
      d ⬝ᵥ (W⁻¹ *ᵥ d) := by
    intro s
    have := form_ge hW (s • c) d
    rw [mulVec_smul, smul_dotProduct, smul_dotProduct, dotProduct_smul] at this
    simp only [smul_eq_mul] at this
    linarith
  have := discrim_le_zero h
  rw [discrim] at this
  linarith

end Verif.Integrated
