import Verif.Proofs.SignIntegrated
import Verif.Proofs.SparseStore

/-!
# Stored functions under changes of sign
-/
namespace Verif.Sign

open Matrix Verif.Spec Verif.Gauss Verif.Eigen Verif.Quad Verif.SparseGrid Verif.Store

variable {n : ℕ} {σ : ℕ → ℝ}

/-! ## Functions of a symmetric matrix -/

/-- A function of a symmetric matrix does not depend on the choice of its eigenvectors. -/
theorem spectral_unique {V W : Matrix (Fin n) (Fin n) ℝ} {a b : Fin n → ℝ} (hV : Vᵀ * V = 1)
    (hW : Wᵀ * W = 1) (h : V * diagonal a * Vᵀ = W * diagonal b * Wᵀ) (f : ℝ → ℝ) :
    V * diagonal (fun i => f (a i)) * Vᵀ = W * diagonal (fun i => f (b i)) * Wᵀ := by
  have hW' : W * Wᵀ = 1 := mul_eq_one_comm.mp hW
  have hV' : V * Vᵀ = 1 := mul_eq_one_comm.mp hV
  have h1 : (Wᵀ * V) * diagonal a = diagonal b * (Wᵀ * V) := by
    calc (Wᵀ * V) * diagonal a = Wᵀ * (V * diagonal a * Vᵀ) * V := by
          simp only [Matrix.mul_assoc, hV, Matrix.mul_one]
      _ = Wᵀ * (W * diagonal b * Wᵀ) * V := by rw [h]
      _ = (Wᵀ * W) * (diagonal b * (Wᵀ * V)) := by simp only [Matrix.mul_assoc]
      _ = _ := by rw [hW, Matrix.one_mul]
  have h2 : (Wᵀ * V) * diagonal (fun i => f (a i)) = diagonal (fun i => f (b i)) * (Wᵀ * V) := by
    ext i j
    have h3 := congrFun (congrFun h1 i) j
    rw [mul_diagonal, diagonal_mul] at h3 ⊢
    by_cases h0 : (Wᵀ * V) i j = 0
    · rw [h0]; ring
    · have : a j = b i := by
        have : (Wᵀ * V) i j * (a j - b i) = 0 := by linear_combination h3
        rcases mul_eq_zero.mp this with h4 | h4
        · exact absurd h4 h0
        · linarith
      rw [this]
      ring
  calc V * diagonal (fun i => f (a i)) * Vᵀ
      = (W * Wᵀ) * V * diagonal (fun i => f (a i)) * Vᵀ := by rw [hW', Matrix.one_mul]
    _ = W * ((Wᵀ * V) * diagonal (fun i => f (a i))) * Vᵀ := by simp only [Matrix.mul_assoc]
    _ = W * (diagonal (fun i => f (b i)) * (Wᵀ * V)) * Vᵀ := by rw [h2]
    _ = W * diagonal (fun i => f (b i)) * Wᵀ * (V * Vᵀ) := by simp only [Matrix.mul_assoc]
    _ = _ := by rw [hV', Matrix.mul_one]

theorem fromLower_flip (p : Matrix (Fin n) (Fin n) ℝ) : fromLower (fm σ p) = fm σ (fromLower p) := by
  ext i j
  show (if j ≤ i then σ i * p i j * σ j else σ j * p j i * σ i) =
    σ i * (if j ≤ i then p i j else p j i) * σ j
  split <;> ring

theorem spectral_flip (hσ : IsSign σ) {p : Matrix (Fin n) (Fin n) ℝ} {a b : Fin n → ℝ}
    {V W : Matrix (Fin n) (Fin n) ℝ} (h : IsEigen p a V) (h' : IsEigen (fm σ p) b W) (f : ℝ → ℝ) :
    W * diagonal (fun i => f (b i)) * Wᵀ = fm σ (V * diagonal (fun i => f (a i)) * Vᵀ) := by
  have hV' : V * Vᵀ = 1 := mul_eq_one_comm.mp h.orthogonal
  have hW' : W * Wᵀ = 1 := mul_eq_one_comm.mp h'.orthogonal
  have e1 : fromLower p = V * diagonal a * Vᵀ := by
    rw [← h.decomposition, Matrix.mul_assoc, hV', Matrix.mul_one]
  have e2 : fm σ (fromLower p) = W * diagonal b * Wᵀ := by
    rw [← fromLower_flip, ← h'.decomposition, Matrix.mul_assoc, hW', Matrix.mul_one]
  have hD : ∀ c : Fin n → ℝ, fm σ (V * diagonal c * Vᵀ) =
      (dg n σ * V) * diagonal c * (dg n σ * V)ᵀ := by
    intro c
    rw [fm_eq, Matrix.transpose_mul, dg_transpose]
    simp only [Matrix.mul_assoc]
  rw [hD]
  refine spectral_unique h'.orthogonal ?_ ?_ f
  · rw [Matrix.transpose_mul, dg_transpose, Matrix.mul_assoc, ← Matrix.mul_assoc (dg n σ),
      dg_sq hσ, Matrix.one_mul, h.orthogonal]
  · rw [← hD, ← e1, e2]

/-! ## Quadratic functions -/

/-- The linear solver commutes with changes of sign. -/
def SignSolver (solve : Solver n) : Prop :=
  ∀ σ : ℕ → ℝ, IsSign σ → ∀ A d, solve (fm σ A) (fv σ d) = fv σ (solve A d)

/-- A quadratic function with changed signs. -/
def flipQ (σ : ℕ → ℝ) (q : Quadratic n) : Quadratic n := ⟨fv σ q.b, fm σ q.A⟩

theorem ofDerivatives_flip (hσ : IsSign σ) {solve : Solver n} (hs : SignSolver solve)
    (l d : Fin n → ℝ) (h : Matrix (Fin n) (Fin n) ℝ) :
    Quadratic.ofDerivatives solve (fv σ l) (fv σ d) (fm σ h) =
      flipQ σ (Quadratic.ofDerivatives solve l d h) := by
  rw [Quadratic.ofDerivatives, Quadratic.ofDerivatives]
  split
  · rw [← fm_neg, ← fm_smul]
    dsimp only
    rw [fm_sq_sum hσ, hs σ hσ]
    split
    · rw [← fv_smul, ← fv_add]
      rfl
    · rfl
  · show _ = Quadratic.mk (fv σ 0) (fm σ 0)
    rw [fv_zero, fm_zero]

section
variable (hσ : IsSign σ) (q : Quadratic n)
include hσ

theorem quad_evaluate (x : Fin n → ℝ) : (flipQ σ q).evaluate (fv σ x) = q.evaluate x := by
  show ((fv σ x - fv σ q.b) ᵥ* fm σ q.A) ⬝ᵥ (fv σ x - fv σ q.b) = _
  rw [← fv_sub, fv_vecMul hσ, fv_dot hσ]
  rfl

theorem quad_derivative (x : Fin n → ℝ) :
    (flipQ σ q).derivative (fv σ x) = fv σ (q.derivative x) := by
  show (fv σ x - fv σ q.b) ᵥ* (fm σ q.A + (fm σ q.A)ᵀ) = fv σ ((x - q.b) ᵥ* (q.A + q.Aᵀ))
  rw [← fv_sub, fm_transpose, ← fm_add, fv_vecMul hσ]

omit hσ in
theorem quad_second : (flipQ σ q).secondDerivative = fm σ q.secondDerivative := by
  show fm σ q.A + (fm σ q.A)ᵀ = fm σ (q.A + q.Aᵀ)
  rw [fm_transpose, ← fm_add]

end

/-! ## The sparse grid -/

/-- A basis that is symmetric about 0, as used by the grid code in dimension `n`: where the basis of the
environment answers, a symmetric basis that always answers gives the same answer. -/
structure SymEnv (env : GridEnv) (n : ℕ) : Prop where
  basis : ∃ (b : BasisI) (κ : ℕ → ℕ → ℝ) (φ φ' φ'' : ℝ → ℕ → ℕ → ℝ), BLe env.basis b ∧
    BasisOk b env.levelMax Set.univ κ φ ∧ BasisDerivOk b env.levelMax Set.univ φ' φ'' ∧
    Hierarchical env.levelMax κ φ ∧ SymBasis env.levelMax κ φ φ' φ''
  ar : GridArOk env.ar n env.levelMax

/-- Stored functions with changed signs. -/
structure TRel (env : GridEnv) (σ : ℕ → ℝ) (t t' : Transform n) : Prop where
  grid : GridMirror σ n env.levelMax t.grid t'.grid
  shift : t'.shift = fv σ t.shift
  inverse : t'.inverseScale = fm σ t.inverseScale

theorem flip_ofFn (z : Fin n → ℝ) : Flip σ n (List.ofFn z) (List.ofFn (fv σ z)) := by
  refine ⟨by simp, by simp, fun t ht => ?_⟩
  simp [List.getD_eq_getElem?_getD, ht, fv]

theorem flip_inv {x x' : List ℝ} (h : Flip σ n x x') :
    ∃ z : Fin n → ℝ, x = List.ofFn z ∧ x' = List.ofFn (fv σ z) := by
  obtain ⟨z, rfl⟩ := ofFn_of_length h.len
  obtain ⟨z', rfl⟩ := ofFn_of_length h.len'
  refine ⟨z, rfl, ?_⟩
  congr 1
  funext i
  have := h.eq i i.2
  simpa [List.getD_eq_getElem?_getD, fv] using this

theorem ofNormal_flip (hσ : IsSign σ) {env : GridEnv} (he : SymEnv env n) {eig : EigenSolver n}
    (heig : ∀ p, IsEigen p (eig p).1 (eig p).2) {f f' : (Fin n → ℝ) → Res ℝ}
    (hf : ∀ x, RelOk Eq (f x) (f' (fv σ x))) (a : MN n) :
    RelOk (TRel env σ) (Transform.ofNormal env eig f a)
      (Transform.ofNormal env eig f' (flipMN σ a)) := by
  intro t t' h h'
  unfold Transform.ofNormal at h h'
  dsimp only at h h'
  have h1 : operatorInverseSqrt (eig (fm σ a.precision)) =
      fm σ (operatorInverseSqrt (eig a.precision)) :=
    spectral_flip hσ (heig a.precision) (heig (fm σ a.precision)) fun y => Real.sqrt y⁻¹
  have h2 : operatorSqrt (eig (fm σ a.precision)) = fm σ (operatorSqrt (eig a.precision)) :=
    spectral_flip hσ (heig a.precision) (heig (fm σ a.precision)) fun y => Real.sqrt y
  have e1 : (if n > 0 then operatorInverseSqrt (eig (flipMN σ a).precision) else 0) =
      fm σ (if n > 0 then operatorInverseSqrt (eig a.precision) else 0) := by
    split
    · exact h1
    · rw [fm_zero]
  have e2 : (if n > 0 then operatorSqrt (eig (flipMN σ a).precision) else 0) =
      fm σ (if n > 0 then operatorSqrt (eig a.precision) else 0) := by
    split
    · exact h2
    · rw [fm_zero]
  have e3 : (if n > 0 then (flipMN σ a).mean else 0) = fv σ (if n > 0 then a.mean else 0) := by
    split
    · rfl
    · rw [fv_zero]
  rw [e1, e2, e3] at h'
  obtain ⟨g, hg, h⟩ := inv_bind h
  obtain ⟨g', hg', h'⟩ := inv_bind h'
  cases Except.ok.inj h
  cases Except.ok.inj h'
  refine ⟨?_, rfl, rfl⟩
  obtain ⟨b, κ, φ, φ', φ'', hle, b1, b2, b3, b4⟩ := he.basis
  refine construct_mirror b1 b3 b4 hσ he.ar (f := fTransform f _ _) (f' := fTransform f' _ _) ?_
    (construct_le hle env.ar (fun _ => Le.refl _) n env.levelMax g hg)
    (construct_le hle env.ar (fun _ => Le.refl _) n env.levelMax g' hg')
  intro x x' v v' hx
  obtain ⟨z, rfl, rfl⟩ := flip_inv hx
  rw [fTransform, fTransform, ofList_ofFn, ofList_ofFn]
  simp only [res_ok_bind]
  rw [fm_mulVec hσ, ← fv_add, fv_dot hσ]
  refine ((hf _).bind ?_) v v'
  rintro w _ rfl
  exact RelOk.ok rfl

section Transform

variable {env : GridEnv} {t t' : Transform n} (hσ : IsSign σ) (he : SymEnv env n)
  (ht : TRel env σ t t')

include hσ ht in
theorem coordinates_flip (x : Fin n → ℝ) : t'.inverseScale *ᵥ (fv σ x - t'.shift) =
    fv σ (t.inverseScale *ᵥ (x - t.shift)) := by
  rw [ht.shift, ht.inverse, ← fv_sub, fm_mulVec hσ]

include hσ he ht in
theorem interpolate_flip (x : Fin n → ℝ) :
    RelOk Eq (t.interpolate env x) (t'.interpolate env (fv σ x)) := by
  obtain ⟨b, κ, φ, φ', φ'', hle, b1, b2, b3, b4⟩ := he.basis
  unfold Transform.interpolate
  dsimp only
  rw [coordinates_flip hσ ht, fv_dot hσ]
  generalize t.inverseScale *ᵥ (x - t.shift) = z
  have hi := interpolate_mirror b1 b4 hσ he.ar.1 ht.grid (flip_ofFn z)
  refine RelOk.bind (P := Eq) ?_ ?_
  · intro v v' h h'
    have h1 := interpolate_le hle env.ar _ _ v h
    have h2 := interpolate_le hle env.ar _ _ v' h'
    rw [hi, h2] at h1
    exact (Except.ok.inj h1).symm
  · rintro v _ rfl
    exact RelOk.ok rfl

include hσ he ht in
theorem interpolateDerivative_flip (x : Fin n → ℝ) :
    RelOk (fun v v' => v' = fv σ v) (t.interpolateDerivative env x)
      (t'.interpolateDerivative env (fv σ x)) := by
  obtain ⟨b, κ, φ, φ', φ'', hle, b1, b2, b3, b4⟩ := he.basis
  unfold Transform.interpolateDerivative
  dsimp only
  rw [coordinates_flip hσ ht, ht.inverse, fm_transpose]
  generalize t.inverseScale *ᵥ (x - t.shift) = z
  refine RelOk.bind (P := fun v v' => ∀ s < n, v' s = σ s * v s) ?_ ?_
  · intro v v' h h'
    exact interpolateDerivative_mirror b1 b2 b4 hσ he.ar.1 ht.grid (flip_ofFn z)
      (interpolateDerivative_le hle env.ar _ _ v h) (interpolateDerivative_le hle env.ar _ _ v' h')
  · intro v v' hv
    refine RelOk.ok ?_
    have : (fun i : Fin n => v' i) = fv σ fun i : Fin n => v i := funext fun i => hv i i.2
    rw [this, ← fv_sub, fm_mulVec hσ]

include hσ he ht in
theorem interpolateSecondDerivative_flip (x : Fin n → ℝ) :
    RelOk (fun A A' => A' = fm σ A) (t.interpolateSecondDerivative env x)
      (t'.interpolateSecondDerivative env (fv σ x)) := by
  obtain ⟨b, κ, φ, φ', φ'', hle, b1, b2, b3, b4⟩ := he.basis
  unfold Transform.interpolateSecondDerivative
  dsimp only
  rw [coordinates_flip hσ ht, ht.inverse, fm_transpose]
  generalize t.inverseScale *ᵥ (x - t.shift) = z
  refine RelOk.bind (P := fun v v' => ∀ r s, r < n → s < n → v' (r, s) = σ r * σ s * v (r, s)) ?_ ?_
  · intro v v' h h'
    exact interpolateSecondDerivative_mirror b1 b2 b4 hσ he.ar.1 ht.grid (flip_ofFn z)
      (interpolateSecondDerivative_le hle env.ar _ _ v h)
      (interpolateSecondDerivative_le hle env.ar _ _ v' h')
  · intro v v' hv
    refine RelOk.ok ?_
    have : (Matrix.of fun i j : Fin n => v' (i, j)) = fm σ (Matrix.of fun i j : Fin n => v (i, j)) := by
      ext i j
      show v' (i, j) = σ i * v (i, j) * σ j
      rw [hv i j i.2 j.2]
      ring
    rw [this]
    conv_lhs => rw [← fm_one hσ]
    rw [← fm_sub, fm_mul hσ, fm_mul hσ]

end Transform

/-! ## Stored functions -/

/-- Stored functions with changed signs. -/
structure SRel (env : GridEnv) (σ : ℕ → ℝ) (s s' : SparseStore n) : Prop where
  modifier : s'.modifier = flipQ σ s.modifier
  stored : TRel env σ s.fPlusModifierStored s'.fPlusModifierStored

theorem store_flip (hσ : IsSign σ) {env : GridEnv} (he : SymEnv env n) {solve : Solver n}
    (hs : SignSolver solve) {eig : EigenSolver n} (heig : ∀ p, IsEigen p (eig p).1 (eig p).2)
    {f f' : (Fin n → ℝ) → Res ℝ} {d d' : (Fin n → ℝ) → Res (Fin n → ℝ)}
    {h h' : (Fin n → ℝ) → Res (Matrix (Fin n) (Fin n) ℝ)} (hf : FnRel σ f f' d d' h h') (a : MN n) :
    RelOk (SRel env σ) (SparseStore.create env solve eig f d h a)
      (SparseStore.create env solve eig f' d' h' (flipMN σ a)) := by
  unfold SparseStore.create
  dsimp only
  refine (hf.deriv a.mean).bind ?_
  rintro v _ rfl
  refine (hf.second a.mean).bind ?_
  rintro A _ rfl
  have hm : Quadratic.ofDerivatives solve (flipMN σ a).mean
      (fv σ v - (flipMN σ a).evaluateDerivative (flipMN σ a).mean)
      (fm σ A - (flipMN σ a).evaluateSecondDerivative) = flipQ σ (Quadratic.ofDerivatives solve a.mean
        (v - a.evaluateDerivative a.mean) (A - a.evaluateSecondDerivative)) := by
    have h1 : (flipMN σ a).mean = fv σ a.mean := rfl
    rw [h1, evaluateDerivative_flip hσ, evaluateSecondDerivative_flip, ← fv_sub, ← fm_sub,
      ofDerivatives_flip hσ hs]
  rw [hm]
  generalize Quadratic.ofDerivatives solve a.mean (v - a.evaluateDerivative a.mean)
    (A - a.evaluateSecondDerivative) = q
  refine (ofNormal_flip hσ he heig (fun x => ?_) a).bind fun t t' ht => RelOk.ok ⟨rfl, ht⟩
  rw [quad_evaluate hσ]
  refine (hf.eval x).bind ?_
  rintro w _ rfl
  exact RelOk.ok rfl

theorem stored_flip (hσ : IsSign σ) {env : GridEnv} (he : SymEnv env n) {s s' : SparseStore n}
    (hs : SRel env σ s s') :
    FnRel σ (s.evaluate env) (s'.evaluate env) (s.evaluateDerivative env)
      (s'.evaluateDerivative env) (s.evaluateSecondDerivative env)
      (s'.evaluateSecondDerivative env) := by
  refine ⟨fun x => ?_, fun x => ?_, fun x => ?_⟩
  · unfold SparseStore.evaluate
    refine (interpolate_flip hσ he hs.stored x).bind ?_
    rintro v _ rfl
    rw [hs.modifier, quad_evaluate hσ]
    exact RelOk.ok rfl
  · unfold SparseStore.evaluateDerivative
    refine (interpolateDerivative_flip hσ he hs.stored x).bind ?_
    rintro v _ rfl
    rw [hs.modifier, quad_derivative hσ]
    exact RelOk.ok (fv_sub _ _).symm
  · unfold SparseStore.evaluateSecondDerivative
    refine (interpolateSecondDerivative_flip hσ he hs.stored x).bind ?_
    rintro v _ rfl
    rw [hs.modifier, quad_second]
    exact RelOk.ok (fm_sub _ _).symm

end Verif.Sign
