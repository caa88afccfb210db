import Verif.Proofs.SignNormal
import Verif.Props.Integrated

/-!
# Integrated factors under changes of sign

`RelOk P r r'`: if both computations return a value, the values are in the relation `P`. (Rounding of
the sign-changed computation towards an integer may differ, so that one may fail where the other
does not; see `Model/Basis`.)
-/
namespace Verif.Sign

open Matrix Verif.Gauss Verif.Eigen Verif.Quad Verif.Integrated

/-- If both computations return a value, the values are in the relation `P`. -/
def RelOk {α β : Type} (P : α → β → Prop) (r : Res α) (r' : Res β) : Prop :=
  ∀ a b, r = Except.ok a → r' = Except.ok b → P a b

theorem RelOk.ok {α β : Type} {P : α → β → Prop} {a : α} {b : β} (h : P a b) :
    RelOk P (Except.ok a) (Except.ok b) := by
  intro a' b' ha hb
  cases ha
  cases hb
  exact h

theorem RelOk.errL {α β : Type} {P : α → β → Prop} (e : Err) (r' : Res β) :
    RelOk P (Except.error e) r' := by
  intro a' b' ha hb
  cases ha

theorem RelOk.errR {α β : Type} {P : α → β → Prop} (e : Err) (r : Res α) :
    RelOk P r (Except.error e) := by
  intro a' b' ha hb
  cases hb

theorem RelOk.bind {α β α' β' : Type} {P : α → β → Prop} {Q : α' → β' → Prop} {r : Res α}
    {r' : Res β} {f : α → Res α'} {f' : β → Res β'} (h : RelOk P r r')
    (hf : ∀ a b, P a b → RelOk Q (f a) (f' b)) : RelOk Q (r >>= f) (r' >>= f') := by
  rcases r with e | a
  · exact RelOk.errL _ _
  rcases r' with e | b
  · exact RelOk.errR _ _
  exact hf a b (h a b rfl rfl)

theorem RelOk.imp {α β : Type} {P P' : α → β → Prop} {r : Res α} {r' : Res β} (h : RelOk P r r')
    (hi : ∀ a b, r = Except.ok a → r' = Except.ok b → P a b → P' a b) : RelOk P' r r' :=
  fun a b ha hb => hi a b ha hb (h a b ha hb)

theorem RelOk.rfl' {α : Type} {P : α → α → Prop} (hP : ∀ a, P a a) (r : Res α) : RelOk P r r := by
  intro a b ha hb
  rw [ha] at hb
  cases hb
  exact hP a

theorem RelOk.foldlM {α β σ τ : Type} {P : σ → τ → Prop} {A : α → β → Prop} {f : σ → α → Res σ}
    {f' : τ → β → Res τ} (hf : ∀ s t a b, P s t → A a b → RelOk P (f s a) (f' t b)) :
    ∀ {l : List α} {l' : List β}, List.Forall₂ A l l' → ∀ {s : σ} {t : τ}, P s t →
      RelOk P (l.foldlM f s) (l'.foldlM f' t)
  | _, _, .nil, _, _, h => RelOk.ok h
  | _, _, .cons ha hl, _, _, h => by
    rw [List.foldlM_cons, List.foldlM_cons]
    exact (hf _ _ _ _ h ha).bind fun _ _ h' => RelOk.foldlM hf hl h'

theorem RelOk.mapM {α β σ τ : Type} {P : σ → τ → Prop} {A : α → β → Prop} {f : α → Res σ}
    {f' : β → Res τ} (hf : ∀ a b, A a b → RelOk P (f a) (f' b)) :
    ∀ {l : List α} {l' : List β}, List.Forall₂ A l l' →
      RelOk (List.Forall₂ P) (l.mapM f) (l'.mapM f')
  | _, _, .nil => RelOk.ok .nil
  | _, _, .cons ha hl => by
    rw [List.mapM_cons, List.mapM_cons]
    exact (hf _ _ ha).bind fun _ _ h => (RelOk.mapM hf hl).bind fun _ _ h' => RelOk.ok (.cons h h')

theorem inv_bind {α δ : Type} {x : Res α} {f : α → Res δ} {r : δ} (h : (x >>= f) = Except.ok r) :
    ∃ y, x = Except.ok y ∧ f y = Except.ok r := by
  rcases x with err | y
  · cases h
  · exact ⟨y, rfl, h⟩

/-! ## Quadrature -/

/-- The quadrature rule is symmetric about 0. -/
def SymRule {k : ℕ} (rule : Rule k) : Prop :=
  ∃ π : Equiv.Perm (Fin k), ∀ i, rule.nodes (π i) = -rule.nodes i ∧
    rule.weights (π i) = rule.weights i

section Quad

variable {E : Type} [AddCommGroup E] [Module ℝ E] {k : ℕ}

/-- The value of a computation, `0` when it fails. -/
def valueOf (r : Res E) : E := match r with
  | .ok v => v
  | .error _ => 0

theorem valueOf_ok {r : Res E} {v : E} (h : r = Except.ok v) : valueOf r = v := by rw [h]; rfl

theorem fold_inv {c : Fin k → ℝ} {f : Fin k → Res E} : ∀ (l : List (Fin k)) (s r : E),
    l.foldlM (fun (ret : E) i => do
      let v ← f i
      return ret + c i • v) s = Except.ok r →
    (∀ i ∈ l, f i = Except.ok (valueOf (f i))) ∧ r = s + (l.map fun i => c i • valueOf (f i)).sum
  | [], s, r, h => by
    cases Except.ok.inj h
    simp
  | i :: l, s, r, h => by
    rw [List.foldlM_cons] at h
    rcases hf : f i with e | v
    · rw [hf] at h; cases h
    rw [hf] at h
    obtain ⟨h1, h2⟩ := fold_inv l (s + c i • v) r h
    refine ⟨fun j hj => ?_, ?_⟩
    · rcases List.mem_cons.mp hj with rfl | hj
      · rw [hf]; rfl
      · exact h1 j hj
    · rw [h2, List.map_cons, List.sum_cons, valueOf_ok hf, add_assoc]

theorem integrate1D_inv {f : ℝ → Res E} {location sigma : ℝ} {rule : Rule k} {r : E}
    (h : integrate1D f location sigma rule = Except.ok r) :
    (∀ i, f (Real.sqrt 2 * sigma * rule.nodes i + location) = Except.ok
      (valueOf (f (Real.sqrt 2 * sigma * rule.nodes i + location)))) ∧
    r = (Real.sqrt 2 * sigma) • ∑ i, (rule.weights i * Real.exp (rule.nodes i ^ 2)) •
      valueOf (f (Real.sqrt 2 * sigma * rule.nodes i + location)) := by
  unfold integrate1D at h
  dsimp only at h
  obtain ⟨y, h1, h2⟩ := inv_bind h
  obtain ⟨h3, h4⟩ := fold_inv (c := fun i => rule.weights i * Real.exp (rule.nodes i ^ 2))
    (f := fun i => f (Real.sqrt 2 * sigma * rule.nodes i + location)) _ _ _ h1
  cases Except.ok.inj h2
  refine ⟨fun i => h3 i (List.mem_finRange i), ?_⟩
  rw [h4, zero_add]
  congr 1

/-- Integrals of a function with changed signs. -/
theorem integrate1D_flip (L : E →ₗ[ℝ] E) {f f' : ℝ → Res E} {ε : ℝ} (hε : ε = 1 ∨ ε = -1)
    {rule : Rule k} (hr : SymRule rule) (hf : ∀ t, RelOk (fun v v' => v' = L v) (f t) (f' (ε * t)))
    (location sigma : ℝ) :
    RelOk (fun v v' => v' = L v) (integrate1D f location sigma rule)
      (integrate1D f' (ε * location) sigma rule) := by
  intro v v' h h'
  obtain ⟨h1, rfl⟩ := integrate1D_inv h
  obtain ⟨h2, rfl⟩ := integrate1D_inv h'
  rw [map_smul, map_sum]
  congr 1
  rcases hε with rfl | rfl
  · refine Finset.sum_congr rfl fun i _ => ?_
    rw [map_smul]
    congr 1
    have := hf _ _ _ (h1 i) (by
      have := h2 i
      simp only [one_mul] at this ⊢
      exact this)
    rw [← this]
    simp only [one_mul]
  · obtain ⟨π, hπ⟩ := hr
    rw [← Equiv.sum_comp π fun i => L _]
    refine Finset.sum_congr rfl fun i _ => ?_
    rw [map_smul, (hπ i).1, (hπ i).2, neg_sq]
    congr 1
    have e : -1 * (Real.sqrt 2 * sigma * -rule.nodes i + location) =
        Real.sqrt 2 * sigma * rule.nodes i + -1 * location := by ring
    have h3 := h1 (π i)
    rw [(hπ i).1] at h3
    have := hf _ _ _ h3 (by rw [e]; exact h2 i)
    exact this

end Quad

/-! ## Integrated functions -/

/-- `fv` as a linear map. -/
def fvL (n : ℕ) (σ : ℕ → ℝ) : (Fin n → ℝ) →ₗ[ℝ] (Fin n → ℝ) where
  toFun := fv σ
  map_add' := fv_add
  map_smul' c u := fv_smul c u

/-- `fm` as a linear map. -/
def fmL (n : ℕ) (σ : ℕ → ℝ) : Matrix (Fin n) (Fin n) ℝ →ₗ[ℝ] Matrix (Fin n) (Fin n) ℝ where
  toFun := fm σ
  map_add' := fm_add
  map_smul' c u := fm_smul c u

/-- Functions of arguments with changed signs. -/
structure FnRel {n : ℕ} (σ : ℕ → ℝ) (f f' : (Fin n → ℝ) → Res ℝ)
    (d d' : (Fin n → ℝ) → Res (Fin n → ℝ)) (h h' : (Fin n → ℝ) → Res (Matrix (Fin n) (Fin n) ℝ)) :
    Prop where
  eval : ∀ x, RelOk Eq (f x) (f' (fv σ x))
  deriv : ∀ x, RelOk (fun v v' => v' = fv σ v) (d x) (d' (fv σ x))
  second : ∀ x, RelOk (fun A A' => A' = fm σ A) (h x) (h' (fv σ x))

variable {m : ℕ} {σ τ : ℕ → ℝ} {i : Fin (m + 1)}

theorem properNormal_flip (hσ : IsSign σ) (a : MN (m + 1)) :
    properNormal (flipMN σ a) = flipMN σ (properNormal a) := by
  rw [properNormal, properNormal]
  have : (flipMN σ a).isProper = a.isProper := rfl
  rw [this]
  split
  · rfl
  · rw [← setPrecision_flip hσ, fm_one hσ]

/-- The relation between integrated functions. -/
structure IRel (σ τ : ℕ → ℝ) (i : Fin (m + 1)) (a a' : IF m) : Prop where
  over : a.integrateOver = i
  over' : a'.integrateOver = i
  fn : FnRel σ a.function a'.function a.derivativeFunction a'.derivativeFunction
    a.secondDerivativeFunction a'.secondDerivativeFunction
  logValue : a'.logValueAtMean = a.logValueAtMean
  mean1 : a'.mean1 = σ i * a.mean1
  mean2 : a'.mean2 = fv τ a.mean2
  cross : a'.cross = σ i • fv τ a.cross
  sigma : a'.sigmaConditional = a.sigmaConditional

theorem create_flip (hσ : IsSign σ) (hτ : IsSign τ) (hi : ∀ j : Fin m, τ j = σ (i.succAbove j))
    (junk : Junk m) {f f' : (Fin (m + 1) → ℝ) → Res ℝ}
    {d d' : (Fin (m + 1) → ℝ) → Res (Fin (m + 1) → ℝ)}
    {h h' : (Fin (m + 1) → ℝ) → Res (Matrix (Fin (m + 1)) (Fin (m + 1)) ℝ)}
    (hf : FnRel σ f f' d d' h h') (a : MN (m + 1)) :
    RelOk (IRel σ τ i) (create junk i f d h a) (create junk i f' d' h' (flipMN σ a)) := by
  unfold create
  rw [properNormal_flip hσ]
  generalize properNormal a = b
  dsimp only
  refine (hf.eval b.mean).bind ?_
  rintro l _ rfl
  rw [conditionalTerms_ok, conditionalTerms_ok]
  simp only [res_ok_bind]
  rw [readAt_ok, getVectorWithout_ok, readAt_ok, getVectorWithout_ok]
  simp only [res_ok_bind, res_pure]
  have h22 : v22 (fm σ b.variance) i = fm τ (v22 b.variance i) := fm_submatrix hi _
  have h21 : v21 (fm σ b.variance) i = σ i • fv τ (v21 b.variance i) := by
    funext j
    show σ i * b.variance i (i.succAbove j) * σ (i.succAbove j) =
      σ i * (τ j * b.variance i (i.succAbove j))
    rw [hi]
    ring
  have hc : (v22 (fm σ b.variance) i)⁻¹ *ᵥ v21 (fm σ b.variance) i =
      σ i • fv τ ((v22 b.variance i)⁻¹ *ᵥ v21 b.variance i) := by
    rw [h22, h21, fm_inv hτ, mulVec_smul, fm_mulVec hτ]
  refine RelOk.ok ⟨rfl, rfl, hf, rfl, rfl, fv_comp hi _, hc, ?_⟩
  show Real.sqrt (fm σ b.variance i i - v21 (fm σ b.variance) i ⬝ᵥ
    ((v22 (fm σ b.variance) i)⁻¹ *ᵥ v21 (fm σ b.variance) i)) = _
  rw [hc, h21, smul_dotProduct, dotProduct_smul, fv_dot hτ]
  congr 2
  · show σ i * b.variance i i * σ i = _
    linear_combination b.variance i i * hσ.sq i
  · rw [smul_smul, hσ.sq, one_smul]

section Functions

variable {a a' : IF m} (ha : IRel σ τ i a a') (hσ : IsSign σ) (hτ : IsSign τ)
  (hi : ∀ j : Fin m, τ j = σ (i.succAbove j))

include ha hτ in
theorem conditionalMean_flip (x : Fin m → ℝ) :
    a'.findConditionalMean (fv τ x) = σ i * a.findConditionalMean x := by
  rw [findConditionalMean_eq, findConditionalMean_eq, ha.mean1, ha.mean2, ha.cross, ← fv_sub,
    smul_dotProduct, fv_dot hτ, smul_eq_mul]
  ring

theorem update_insert (t u : ℝ) (x : Fin m → ℝ) :
    Function.update (i.insertNth u x : Fin (m + 1) → ℝ) i t = i.insertNth t x := by
  simp

include hi in
theorem insert_flip (t : ℝ) (x : Fin m → ℝ) :
    (i.insertNth (σ i * t) (fv τ x) : Fin (m + 1) → ℝ) = fv σ (i.insertNth t x) := by
  funext j
  rcases Fin.eq_self_or_eq_succAbove i j with rfl | ⟨r, rfl⟩
  · simp [fv]
  · simp [fv, hi]

include ha hτ hi in
/-- The three integrals have an integrand whose signs change with those of the argument. -/
theorem integrals_flip (hσ : IsSign σ) (junk : Junk m) {k : ℕ} {rule : Rule k} (hr : SymRule rule)
    (x : Fin m → ℝ) :
    RelOk Eq (a.integrateNoLog junk x (a.findConditionalMean x) rule)
      (a'.integrateNoLog junk (fv τ x) (a'.findConditionalMean (fv τ x)) rule) ∧
    RelOk (fun v v' => v' = fv τ v)
      (a.integrateDerivativeNoLog junk x (a.findConditionalMean x) rule)
      (a'.integrateDerivativeNoLog junk (fv τ x) (a'.findConditionalMean (fv τ x)) rule) ∧
    RelOk (fun A A' => A' = fm τ A)
      (a.integrateSecondDerivativeNoLog junk x (a.findConditionalMean x) rule)
      (a'.integrateSecondDerivativeNoLog junk (fv τ x) (a'.findConditionalMean (fv τ x)) rule) := by
  rw [conditionalMean_flip ha hτ]
  unfold IF.integrateNoLog IF.integrateDerivativeNoLog IF.integrateSecondDerivativeNoLog
    IF.extendArgument
  rw [ha.over, ha.over', extend_ok, extend_ok]
  simp only [res_ok_bind, writeAt_ok, update_insert]
  rw [ha.sigma, ha.logValue]
  have hy : ∀ t : ℝ, (i.insertNth (σ i * t) (fv τ x) : Fin (m + 1) → ℝ) =
      fv σ (i.insertNth t x) := fun t => insert_flip hi t x
  refine ⟨?_, ?_, ?_⟩
  · refine RelOk.imp (integrate1D_flip (LinearMap.id) (hσ i) hr (fun t => ?_) _ _)
      fun _ _ _ _ h => h.symm
    rw [hy]
    refine (ha.fn.eval _).bind ?_
    rintro v _ rfl
    exact RelOk.ok rfl
  · refine integrate1D_flip (fvL m τ) (hσ i) hr (fun t => ?_) _ _
    rw [hy]
    refine (ha.fn.eval _).bind ?_
    rintro v _ rfl
    refine (ha.fn.deriv _).bind ?_
    rintro d _ rfl
    rw [getVectorWithout_ok, readAt_ok, getVectorWithout_ok, readAt_ok]
    simp only [res_ok_bind, res_pure]
    refine RelOk.ok ?_
    rw [ha.cross]
    funext j
    show Real.exp (v - a.logValueAtMean) * (σ (i.succAbove j) * d (i.succAbove j)) +
      Real.exp (v - a.logValueAtMean) * (σ i * d i) * -(σ i * (τ j * a.cross j)) =
      τ j * (Real.exp (v - a.logValueAtMean) * d (i.succAbove j) +
        Real.exp (v - a.logValueAtMean) * d i * -a.cross j)
    rw [← hi]
    linear_combination (-(Real.exp (v - a.logValueAtMean) * d i * τ j * a.cross j)) * hσ.sq i
  · refine integrate1D_flip (fmL m τ) (hσ i) hr (fun t => ?_) _ _
    rw [hy]
    refine (ha.fn.eval _).bind ?_
    rintro v _ rfl
    refine (ha.fn.deriv _).bind ?_
    rintro d _ rfl
    refine (ha.fn.second _).bind ?_
    rintro A _ rfl
    rw [getMatrixWithout_ok, rowAt_ok, getMatrixWithout_ok, rowAt_ok]
    simp only [res_ok_bind]
    rw [getVectorWithout_ok, readAt_ok, getVectorWithout_ok, readAt_ok]
    simp only [res_ok_bind, res_pure]
    refine RelOk.ok ?_
    rw [ha.cross]
    generalize Real.exp (v - a.logValueAtMean) = w
    ext r s
    show w * (σ (i.succAbove r) * A (i.succAbove r) (i.succAbove s) * σ (i.succAbove s) +
          (σ (i.succAbove r) * d (i.succAbove r)) * (σ (i.succAbove s) * d (i.succAbove s))) -
        (σ i * (τ r * a.cross r)) * (w * (σ i * A i (i.succAbove s) * σ (i.succAbove s) +
          (σ i * d i) * (σ (i.succAbove s) * d (i.succAbove s)))) -
        (w * (σ i * A i (i.succAbove r) * σ (i.succAbove r) +
          (σ i * d i) * (σ (i.succAbove r) * d (i.succAbove r)))) * (σ i * (τ s * a.cross s)) +
        (w * (σ i * A i i * σ i + (σ i * d i) * (σ i * d i))) *
          ((σ i * (τ r * a.cross r)) * (σ i * (τ s * a.cross s))) =
      τ r * (w * (A (i.succAbove r) (i.succAbove s) + d (i.succAbove r) * d (i.succAbove s)) -
        a.cross r * (w * (A i (i.succAbove s) + d i * d (i.succAbove s))) -
        (w * (A i (i.succAbove r) + d i * d (i.succAbove r))) * a.cross s +
        (w * (A i i + d i * d i)) * (a.cross r * a.cross s)) * τ s
    rw [← hi, ← hi]
    rcases hσ i with e | e <;> rw [e] <;> ring

include ha hτ hi in
/-- The functions of an integrated factor. -/
theorem integrated_flip (hσ : IsSign σ) (junk : Junk m) {k : ℕ} {rule : Rule k} (hr : SymRule rule) :
    FnRel τ (fun x => a.evaluate junk x rule) (fun x => a'.evaluate junk x rule)
      (fun x => a.evaluateDerivative junk x rule) (fun x => a'.evaluateDerivative junk x rule)
      (fun x => a.evaluateSecondDerivative junk x rule)
      (fun x => a'.evaluateSecondDerivative junk x rule) := by
  refine ⟨fun x => ?_, fun x => ?_, fun x => ?_⟩
  all_goals obtain ⟨h0, h1, h2⟩ := integrals_flip ha hτ hi hσ junk hr x
  · unfold IF.evaluate
    refine h0.bind ?_
    rintro v _ rfl
    rw [ha.logValue]
    exact RelOk.ok rfl
  · unfold IF.evaluateDerivative
    refine h0.bind ?_
    rintro v _ rfl
    refine h1.bind ?_
    rintro d _ rfl
    refine RelOk.ok ?_
    funext j
    exact mul_div_assoc _ _ _
  · unfold IF.evaluateSecondDerivative
    refine h0.bind ?_
    rintro v _ rfl
    refine h1.bind ?_
    rintro d _ rfl
    refine h2.bind ?_
    rintro A _ rfl
    refine RelOk.ok ?_
    ext r s
    show (v * (τ r * A r s * τ s) - τ r * d r * (τ s * d s)) / v ^ 2 =
      τ r * ((v * A r s - d r * d s) / v ^ 2) * τ s
    ring

end Functions

end Verif.Sign
