import Verif.Model.SparseStore
import Verif.Proofs.Gauss
import Verif.Proofs.Integrated
import Verif.Props.GridDeriv
import Verif.Props.Gauss

/-! Closed forms for the sparse store. -/
namespace Verif.Store

open Verif.Gauss Verif.Quad Verif.SparseGrid Verif.Spec Verif.Integrated Matrix

variable {n : ℕ}

theorem fromLower_symm {p : Matrix (Fin n) (Fin n) ℝ} (hp : pᵀ = p) : fromLower p = p := by
  ext i j
  rw [fromLower, Matrix.of_apply]
  split
  · rfl
  · exact congrFun (congrFun hp i) j

section sqrt

variable {p : Matrix (Fin n) (Fin n) ℝ} {e : (Fin n → ℝ) × Matrix (Fin n) (Fin n) ℝ}

theorem eig_decomp (hp : p.PosDef) (h : IsEigen p e.1 e.2) :
    p = e.2 * diagonal e.1 * e.2ᵀ := by
  have h1 := h.decomposition
  rw [fromLower_symm (posDef_symm hp)] at h1
  rw [← h1, Matrix.mul_assoc, mul_eq_one_comm.mp h.orthogonal, Matrix.mul_one]

theorem eig_pos (hp : p.PosDef) (h : IsEigen p e.1 e.2) (i : Fin n) : 0 < e.1 i := by
  have h1 := h.decomposition
  rw [fromLower_symm (posDef_symm hp)] at h1
  have h2 : e.2ᵀ * (p * e.2) = diagonal e.1 := by
    rw [h1, ← Matrix.mul_assoc, h.orthogonal, Matrix.one_mul]
  have hne : e.2.col i ≠ 0 := by
    intro h0
    have h3 := congrFun (congrFun h.orthogonal i) i
    rw [Matrix.mul_apply, Matrix.one_apply_eq] at h3
    have : ∀ k, e.2 k i = 0 := fun k => congrFun h0 k
    simp [this] at h3
  have h4 := posDef_pos hp hne
  have h5 := congrFun (congrFun h2 i) i
  rw [diagonal_apply_eq] at h5
  rw [← h5]
  exact h4

theorem conj_mul (h : IsEigen p e.1 e.2) (a b : Fin n → ℝ) :
    (e.2 * diagonal a * e.2ᵀ) * (e.2 * diagonal b * e.2ᵀ) =
      e.2 * diagonal (fun i => a i * b i) * e.2ᵀ := by
  rw [show (e.2 * diagonal a * e.2ᵀ) * (e.2 * diagonal b * e.2ᵀ) =
    e.2 * diagonal a * (e.2ᵀ * e.2) * diagonal b * e.2ᵀ by simp only [Matrix.mul_assoc],
    h.orthogonal, Matrix.mul_one, Matrix.mul_assoc e.2, diagonal_mul_diagonal]

theorem sqrt_mul_inv (hp : p.PosDef) (h : IsEigen p e.1 e.2) :
    operatorSqrt e * operatorInverseSqrt e = 1 := by
  rw [operatorSqrt, operatorInverseSqrt, conj_mul h]
  have : (fun i => Real.sqrt (e.1 i) * Real.sqrt (e.1 i)⁻¹) = fun _ => 1 := by
    funext i
    have := eig_pos hp h i
    rw [Real.sqrt_inv]
    exact mul_inv_cancel₀ (Real.sqrt_pos.mpr this).ne'
  rw [this, diagonal_one, Matrix.mul_one, mul_eq_one_comm.mp h.orthogonal]

theorem sqrt_mul_sqrt (hp : p.PosDef) (h : IsEigen p e.1 e.2) :
    operatorSqrt e * operatorSqrt e = p := by
  rw [operatorSqrt, conj_mul h]
  have : (fun i => Real.sqrt (e.1 i) * Real.sqrt (e.1 i)) = e.1 := by
    funext i
    exact Real.mul_self_sqrt (eig_pos hp h i).le
  rw [this, ← eig_decomp hp h]

theorem inv_mul_inv (hp : p.PosDef) (h : IsEigen p e.1 e.2) :
    operatorInverseSqrt e * operatorInverseSqrt e * p = 1 := by
  have hd := eig_decomp hp h
  rw [operatorInverseSqrt, conj_mul h]
  conv_lhs => rhs; rw [hd]
  rw [conj_mul h]
  have : (fun i => Real.sqrt (e.1 i)⁻¹ * Real.sqrt (e.1 i)⁻¹ * e.1 i) = fun _ => 1 := by
    funext i
    have := eig_pos hp h i
    rw [Real.mul_self_sqrt (inv_nonneg.mpr this.le), inv_mul_cancel₀ this.ne']
  rw [this, diagonal_one, Matrix.mul_one, mul_eq_one_comm.mp h.orthogonal]

theorem sqrt_symm : (operatorSqrt e)ᵀ = operatorSqrt e := by
  rw [operatorSqrt]
  simp only [transpose_mul, transpose_transpose, diagonal_transpose, Matrix.mul_assoc]

theorem inv_symm : (operatorInverseSqrt e)ᵀ = operatorInverseSqrt e := by
  rw [operatorInverseSqrt]
  simp only [transpose_mul, transpose_transpose, diagonal_transpose, Matrix.mul_assoc]

end sqrt

theorem ofList_ofFn (z : Fin n → ℝ) : ofList (List.ofFn z) = Except.ok z := by
  rw [ofList, dif_pos (by simp)]
  congr 1
  funext i
  simp

theorem ofFn_of_length {l : List ℝ} (h : l.length = n) :
    ∃ z : Fin n → ℝ, l = List.ofFn z := by
  subst h
  exact ⟨fun i => l[i], by simp⟩

/-- The closed form of the transformed function. -/
noncomputable def tf (F : (Fin n → ℝ) → ℝ) (shift : Fin n → ℝ) (scale : Matrix (Fin n) (Fin n) ℝ)
    (z : Fin n → ℝ) : ℝ := F (shift + scale *ᵥ z) + 0.5 * (z ⬝ᵥ z)

/-- The same on lists. -/
noncomputable def tfl (F : (Fin n → ℝ) → ℝ) (shift : Fin n → ℝ)
    (scale : Matrix (Fin n) (Fin n) ℝ) (z : List ℝ) : ℝ :=
  tf F shift scale fun i => z.getD i 0

theorem tfl_ofFn (F : (Fin n → ℝ) → ℝ) (shift : Fin n → ℝ)
    (scale : Matrix (Fin n) (Fin n) ℝ) (z : Fin n → ℝ) :
    tfl F shift scale (List.ofFn z) = tf F shift scale z := by
  rw [tfl]
  congr 1
  funext i
  simp [List.getD_eq_getElem?_getD]

theorem fTransform_ok {f : (Fin n → ℝ) → Res ℝ} {F : (Fin n → ℝ) → ℝ}
    (hf : ∀ x, f x = Except.ok (F x)) (shift : Fin n → ℝ) (scale : Matrix (Fin n) (Fin n) ℝ)
    (z : List ℝ) (hz : z.length = n) :
    fTransform f shift scale z = Except.ok (tfl F shift scale z) := by
  obtain ⟨z, rfl⟩ := ofFn_of_length hz
  rw [fTransform, ofList_ofFn, tfl_ofFn]
  simp only [res_ok_bind]
  rw [hf]
  rfl

/-- The modifier the code builds. -/
noncomputable def modif (solve : Solver n) (normal : MN n) (d : Fin n → ℝ)
    (h : Matrix (Fin n) (Fin n) ℝ) : Quadratic n :=
  Quadratic.ofDerivatives solve normal.mean (d - normal.evaluateDerivative normal.mean)
    (h - normal.evaluateSecondDerivative)

theorem create_ok {env : GridEnv} {D : Set ℝ} {κ : ℕ → ℕ → ℝ} {φ : ℝ → ℕ → ℕ → ℝ}
    (hb : BasisOk env.basis env.levelMax D κ φ) (hh : Hierarchical env.levelMax κ φ)
    (ha : GridArOk env.ar n env.levelMax) (solve : Solver n) (eig : EigenSolver n)
    {f : (Fin n → ℝ) → Res ℝ} {F : (Fin n → ℝ) → ℝ} (hf : ∀ x, f x = Except.ok (F x))
    {df : (Fin n → ℝ) → Res (Fin n → ℝ)} {ddf : (Fin n → ℝ) → Res (Matrix (Fin n) (Fin n) ℝ)}
    (normal : MN n) {d : Fin n → ℝ} {h : Matrix (Fin n) (Fin n) ℝ}
    (hd : df normal.mean = Except.ok d) (hh' : ddf normal.mean = Except.ok h) :
    ∃ s, SparseStore.create env solve eig f df ddf normal = Except.ok s ∧
      s.modifier = modif solve normal d h ∧
      s.fPlusModifierStored.scale =
        (if n > 0 then operatorInverseSqrt (eig normal.precision) else 0) ∧
      s.fPlusModifierStored.inverseScale =
        (if n > 0 then operatorSqrt (eig normal.precision) else 0) ∧
      s.fPlusModifierStored.shift = normal.mean ∧
      s.fPlusModifierStored.grid.d = n ∧
      s.fPlusModifierStored.grid.coefficients.length = numPts n env.levelMax ∧
      (∀ ls ps, IsGridPoint n env.levelMax ls ps →
        SparseGrid.interpolate env.ar env.basis s.fPlusModifierStored.grid
          (List.zipWith κ ls ps) =
        Except.ok (tfl (fun x => F x + s.modifier.evaluate x) normal.mean
          s.fPlusModifierStored.scale (List.zipWith κ ls ps))) := by
  have hs : (if n > 0 then normal.mean else 0) = normal.mean := by
    split
    · rfl
    · obtain rfl : n = 0 := by omega
      exact Subsingleton.elim _ _
  set q := modif solve normal d h with hq
  set sc := (if n > 0 then operatorInverseSqrt (eig normal.precision) else 0) with hsc
  have hm : ∀ x, (do let v ← f x; return v + q.evaluate x : Res ℝ) =
      Except.ok (F x + q.evaluate x) := by
    intro x
    rw [hf]
    rfl
  obtain ⟨g, h1, h2, h3, h4, h5, -⟩ := construct_ok hb hh ha
    (tfl (fun x => F x + q.evaluate x) normal.mean sc) (fTransform_ok hm normal.mean sc)
  refine ⟨⟨q, ⟨g, normal.mean, sc,
    (if n > 0 then operatorSqrt (eig normal.precision) else 0)⟩⟩, ?_, rfl, rfl, rfl, rfl, h2, h3,
    ?_⟩
  · rw [SparseStore.create]
    simp only
    rw [hd, hh']
    simp only [res_ok_bind]
    rw [Transform.ofNormal, hs]
    erw [h1]
    rfl
  · intro ls ps hg
    obtain ⟨m, hm', hpt⟩ := exists_pt hg
    have h4' := h4 m hm'
    have h5' := h5 m hm'
    rw [hpt] at h4' h5'
    show SparseGrid.interpolate env.ar env.basis g _ = _
    rw [interpolate_ok hb ha.1 h2 h3 (xOk_grid hb hg)]
    congr 1
    rw [h4']
    exact min_eq_left h5'

/-- Coordinates change back and forth. -/
theorem scale_inv (hn : n > 0) {p : Matrix (Fin n) (Fin n) ℝ} (hp : p.PosDef)
    {eig : EigenSolver n} (he : IsEigen p (eig p).1 (eig p).2) (z : Fin n → ℝ) :
    operatorSqrt (eig p) *ᵥ (operatorInverseSqrt (eig p) *ᵥ z) = z := by
  rw [mulVec_mulVec, sqrt_mul_inv hp he, one_mulVec]

end Verif.Store
