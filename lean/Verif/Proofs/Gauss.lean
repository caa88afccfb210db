import Verif.Model.MultiNormal
import Verif.Proofs.Eigen
import Verif.Proofs.Belief
import Mathlib.LinearAlgebra.Matrix.PosDef
import Mathlib.Analysis.Matrix.PosDef
import Mathlib.Tactic.Linarith
import Mathlib.Tactic.Module

/-! Linear algebra of Gaussians: quadratic forms, padding, products and marginals. -/
namespace Verif.Gauss

open Verif.Eigen Matrix

variable {n m : ℕ}

/-- Selection matrix of a list of positions. -/
def sel (e : Fin m → Fin n) : Matrix (Fin m) (Fin n) ℝ := Matrix.of fun k i => if e k = i then 1 else 0

theorem sel_mulVec (e : Fin m → Fin n) (x : Fin n → ℝ) : sel e *ᵥ x = fun k => x (e k) := by
  funext k
  simp [sel, mulVec, dotProduct]

/-- Padding with zeros: entry `(i, j)` is `b k l` when `i = e k`, `j = e l`. -/
def pad (e : Fin m → Fin n) (b : Matrix (Fin m) (Fin m) ℝ) : Matrix (Fin n) (Fin n) ℝ :=
  (sel e)ᵀ * b * sel e

theorem dot_pad (e : Fin m → Fin n) (b : Matrix (Fin m) (Fin m) ℝ) (x y : Fin n → ℝ) :
    x ⬝ᵥ (pad e b *ᵥ y) = (fun k => x (e k)) ⬝ᵥ (b *ᵥ fun k => y (e k)) := by
  rw [pad, ← mulVec_mulVec, ← mulVec_mulVec, sel_mulVec, dotProduct_mulVec, vecMul_transpose,
    sel_mulVec]

theorem sel_single {e : Fin m → Fin n} (he : Function.Injective e) (k : Fin m) :
    (fun l => (Pi.single (e k) (1 : ℝ) : Fin n → ℝ) (e l)) = Pi.single k 1 := by
  funext l
  by_cases h : l = k
  · subst h; simp
  · rw [Pi.single_eq_of_ne h, Pi.single_eq_of_ne fun hh => h (he hh)]

theorem entry_eq (a : Matrix (Fin n) (Fin n) ℝ) (i j : Fin n) :
    a i j = Pi.single i 1 ⬝ᵥ (a *ᵥ Pi.single j 1) := by
  simp

theorem pad_mem {e : Fin m → Fin n} (he : Function.Injective e) (b : Matrix (Fin m) (Fin m) ℝ)
    (k l : Fin m) : pad e b (e k) (e l) = b k l := by
  rw [entry_eq (pad e b), dot_pad, sel_single he, sel_single he, entry_eq b]

theorem sel_single_notMem {e : Fin m → Fin n} {i : Fin n} (hi : ∀ k, e k ≠ i) :
    (fun l => (Pi.single i (1 : ℝ) : Fin n → ℝ) (e l)) = 0 := by
  funext l
  rw [Pi.single_eq_of_ne (hi l)]
  rfl

theorem pad_row {e : Fin m → Fin n} (b : Matrix (Fin m) (Fin m) ℝ) {i : Fin n}
    (hi : ∀ k, e k ≠ i) (j : Fin n) : pad e b i j = 0 := by
  rw [entry_eq (pad e b), dot_pad, sel_single_notMem hi, zero_dotProduct]

theorem pad_col {e : Fin m → Fin n} (b : Matrix (Fin m) (Fin m) ℝ) {j : Fin n}
    (hj : ∀ k, e k ≠ j) (i : Fin n) : pad e b i j = 0 := by
  rw [entry_eq (pad e b), dot_pad, sel_single_notMem hj, mulVec_zero, dotProduct_zero]

theorem scatter_pad {e : Fin m → Fin n} (he : Function.Injective e) (p : Matrix (Fin n) (Fin n) ℝ)
    (b : Matrix (Fin m) (Fin m) ℝ) :
    scatterMatrix e (p.submatrix e e + b) p = p + pad e b := by
  ext i j
  rw [Matrix.add_apply]
  by_cases hi : ∃ k, e k = i
  · by_cases hj : ∃ l, e l = j
    · obtain ⟨k, rfl⟩ := hi
      obtain ⟨l, rfl⟩ := hj
      rw [scatterMatrix_mem he, pad_mem he, Matrix.add_apply, Matrix.submatrix_apply]
    · rw [scatterMatrix_col he _ _ fun k h => hj ⟨k, h⟩, pad_col _ fun k h => hj ⟨k, h⟩, add_zero]
  · rw [scatterMatrix_row _ _ fun k h => hi ⟨k, h⟩, pad_row _ fun k h => hi ⟨k, h⟩, add_zero]

/-- The sign of a product or a quotient. -/
def sg (divide : Bool) : ℝ := if divide then -1 else 1

/-- Mean on the subset computed by the code. -/
noncomputable def newMean (e : Fin m → Fin n) (a : MN n) (b : MN m) (divide : Bool) : Fin m → ℝ :=
  (a.precision.submatrix e e + sg divide • b.precision)⁻¹ *ᵥ
    (a.precision.submatrix e e *ᵥ (fun k => a.mean (e k)) + (sg divide • b.precision) *ᵥ b.mean)

theorem multiplySubset_ok {s : Fin m → ℕ} (h : InRange n s) (hs : Function.Injective s)
    (a : MN n) (b : MN m) (divide : Bool) :
    a.multiplySubset b s divide = Except.ok
      ⟨scatter (toFin h) (newMean (toFin h) a b divide) a.mean,
        a.precision + pad (toFin h) (sg divide • b.precision),
        (a.precision + pad (toFin h) (sg divide • b.precision))⁻¹,
        normalizerOf (a.precision + pad (toFin h) (sg divide • b.precision))⟩ := by
  have he : Function.Injective (toFin h) := fun k l hkl => hs (congrArg Fin.val hkl)
  have hsg : (if divide then (-1 : ℝ) • b.precision else b.precision) = sg divide • b.precision := by
    cases divide <;> simp [sg]
  rw [MN.multiplySubset, getMatrixSubset_ok h]
  simp only [res_ok_bind]
  rw [getVectorSubset_ok h]
  simp only [res_ok_bind]
  rw [hsg, setMatrixSubset_ok h hs]
  simp only [res_ok_bind]
  rw [setVectorSubset_ok h hs]
  simp only [res_ok_bind, res_pure]
  rw [scatter_pad he]
  rfl

theorem computeMarginal_ok {s : Fin m → ℕ} (h : InRange n s) (a : MN n) :
    a.computeMarginal s = Except.ok (MN.ofMeanVariance (fun k => a.mean (toFin h k))
      (a.variance.submatrix (toFin h) (toFin h))) := by
  rw [MN.computeMarginal, getMatrixSubset_ok h]
  simp only [res_ok_bind]
  rw [getVectorSubset_ok h]
  rfl

/-! ## Quadratic forms -/

/-- `(x - μ)ᵀ P (x - μ)`. -/
def quad (μ : Fin n → ℝ) (p : Matrix (Fin n) (Fin n) ℝ) (x : Fin n → ℝ) : ℝ :=
  (x - μ) ⬝ᵥ (p *ᵥ (x - μ))

theorem symm_dot {p : Matrix (Fin n) (Fin n) ℝ} (hp : pᵀ = p) (x y : Fin n → ℝ) :
    x ⬝ᵥ (p *ᵥ y) = y ⬝ᵥ (p *ᵥ x) := by
  rw [dotProduct_mulVec, ← mulVec_transpose, hp, dotProduct_comm]

theorem quad_expand {p : Matrix (Fin n) (Fin n) ℝ} (hp : pᵀ = p) (μ x : Fin n → ℝ) :
    quad μ p x = x ⬝ᵥ (p *ᵥ x) - 2 * (x ⬝ᵥ (p *ᵥ μ)) + μ ⬝ᵥ (p *ᵥ μ) := by
  rw [quad, mulVec_sub, sub_dotProduct, dotProduct_sub, dotProduct_sub, symm_dot hp μ x]
  ring

theorem evaluate_eq (a : MN n) (x : Fin n → ℝ) :
    a.evaluate x = a.normalizer.map fun v => v + -0.5 * quad a.mean a.precision x := by
  rw [MN.evaluate, quad, dotProduct_mulVec]

theorem pad_symm (e : Fin m → Fin n) {b : Matrix (Fin m) (Fin m) ℝ} (hb : bᵀ = b) :
    (pad e b)ᵀ = pad e b := by
  rw [pad, transpose_mul, transpose_mul, hb, transpose_transpose, Matrix.mul_assoc]

theorem pad_mulVec_notMem {e : Fin m → Fin n} (b : Matrix (Fin m) (Fin m) ℝ) {i : Fin n}
    (hi : ∀ k, e k ≠ i) (x : Fin n → ℝ) : (pad e b *ᵥ x) i = 0 := by
  have : (pad e b *ᵥ x) i = Pi.single i 1 ⬝ᵥ (pad e b *ᵥ x) := by simp
  rw [this, dot_pad, sel_single_notMem hi, zero_dotProduct]

theorem pad_mulVec_mem {e : Fin m → Fin n} (he : Function.Injective e)
    (b : Matrix (Fin m) (Fin m) ℝ) (k : Fin m) (x : Fin n → ℝ) :
    (pad e b *ᵥ x) (e k) = (b *ᵥ fun l => x (e l)) k := by
  have : (pad e b *ᵥ x) (e k) = Pi.single (e k) 1 ⬝ᵥ (pad e b *ᵥ x) := by simp
  rw [this, dot_pad, sel_single he]
  simp

theorem padVec_mem {e : Fin m → Fin n} (he : Function.Injective e) (y : Fin m → ℝ) (k : Fin m) :
    ((sel e)ᵀ *ᵥ y) (e k) = y k := by
  have : ((sel e)ᵀ *ᵥ y) (e k) = Pi.single (e k) 1 ⬝ᵥ ((sel e)ᵀ *ᵥ y) := by simp
  rw [this, dotProduct_mulVec, vecMul_transpose, sel_mulVec, sel_single he]
  simp

theorem padVec_notMem {e : Fin m → Fin n} (y : Fin m → ℝ) {i : Fin n} (hi : ∀ k, e k ≠ i) :
    ((sel e)ᵀ *ᵥ y) i = 0 := by
  have : ((sel e)ᵀ *ᵥ y) i = Pi.single i 1 ⬝ᵥ ((sel e)ᵀ *ᵥ y) := by simp
  rw [this, dotProduct_mulVec, vecMul_transpose, sel_mulVec, sel_single_notMem hi,
    zero_dotProduct]

theorem dot_padVec (e : Fin m → Fin n) (y : Fin m → ℝ) (x : Fin n → ℝ) :
    x ⬝ᵥ ((sel e)ᵀ *ᵥ y) = (fun k => x (e k)) ⬝ᵥ y := by
  rw [dotProduct_mulVec, vecMul_transpose, sel_mulVec]

/-! ## Marginals -/

/-- Precision of the marginal of `p` on the positions `e`. -/
noncomputable def margP (e : Fin m → Fin n) (p : Matrix (Fin n) (Fin n) ℝ) : Matrix (Fin m) (Fin m) ℝ :=
  (p⁻¹.submatrix e e)⁻¹

theorem margP_posDef {e : Fin m → Fin n} (he : Function.Injective e) {p : Matrix (Fin n) (Fin n) ℝ}
    (hp : p.PosDef) : (margP e p).PosDef := (hp.inv.submatrix he).inv

/-- The extension of `y` with least quadratic form. -/
noncomputable def ext (e : Fin m → Fin n) (p : Matrix (Fin n) (Fin n) ℝ) (y : Fin m → ℝ) : Fin n → ℝ :=
  p⁻¹ *ᵥ ((sel e)ᵀ *ᵥ (margP e p *ᵥ y))

theorem sel_mul (e : Fin m → Fin n) (v : Matrix (Fin n) (Fin n) ℝ) :
    sel e * v * (sel e)ᵀ = v.submatrix e e := by
  ext k l
  simp [sel, Matrix.mul_apply, transpose_apply]

theorem ext_apply {e : Fin m → Fin n} (he : Function.Injective e) {p : Matrix (Fin n) (Fin n) ℝ}
    (hp : p.PosDef) (y : Fin m → ℝ) : (fun k => ext e p y (e k)) = y := by
  have hu : IsUnit (p⁻¹.submatrix e e).det :=
    (Matrix.isUnit_iff_isUnit_det _).mp (hp.inv.submatrix he).isUnit
  rw [← sel_mulVec, ext, mulVec_mulVec, mulVec_mulVec, sel_mul, mulVec_mulVec,
    margP, Matrix.mul_nonsing_inv _ hu, one_mulVec]

theorem mulVec_ext {e : Fin m → Fin n} {p : Matrix (Fin n) (Fin n) ℝ} (hp : p.PosDef)
    (y : Fin m → ℝ) : p *ᵥ ext e p y = (sel e)ᵀ *ᵥ (margP e p *ᵥ y) := by
  have hu : IsUnit p.det := (Matrix.isUnit_iff_isUnit_det _).mp hp.isUnit
  rw [ext, mulVec_mulVec, Matrix.mul_nonsing_inv _ hu, one_mulVec]

theorem ext_quad {e : Fin m → Fin n} (he : Function.Injective e) {p : Matrix (Fin n) (Fin n) ℝ}
    (hp : p.PosDef) (y : Fin m → ℝ) :
    ext e p y ⬝ᵥ (p *ᵥ ext e p y) = y ⬝ᵥ (margP e p *ᵥ y) := by
  rw [mulVec_ext hp, dot_padVec, ext_apply he hp]

theorem posDef_symm {p : Matrix (Fin n) (Fin n) ℝ} (hp : p.PosDef) : pᵀ = p := by
  have := hp.isHermitian
  rwa [Matrix.IsHermitian, conjTranspose_eq_transpose_of_trivial] at this

theorem posDef_pos {p : Matrix (Fin n) (Fin n) ℝ} (hp : p.PosDef) {x : Fin n → ℝ} (hx : x ≠ 0) :
    0 < x ⬝ᵥ (p *ᵥ x) := by
  have := hp.dotProduct_mulVec_pos hx
  simpa using this

theorem posDef_nonneg {p : Matrix (Fin n) (Fin n) ℝ} (hp : p.PosDef) (x : Fin n → ℝ) :
    0 ≤ x ⬝ᵥ (p *ᵥ x) := by
  have := hp.posSemidef.dotProduct_mulVec_nonneg x
  simpa using this

theorem posDef_of {p : Matrix (Fin n) (Fin n) ℝ} (h : pᵀ = p)
    (hx : ∀ x : Fin n → ℝ, x ≠ 0 → 0 < x ⬝ᵥ (p *ᵥ x)) : p.PosDef := by
  refine Matrix.PosDef.of_dotProduct_mulVec_pos ?_ fun x hx' => by simpa using hx x hx'
  rw [Matrix.IsHermitian, conjTranspose_eq_transpose_of_trivial, h]

/-- Completing the square for a marginal: for every point the quadratic form is the one of the
marginal plus the one of the distance to the best extension. -/
theorem quad_split {e : Fin m → Fin n} (he : Function.Injective e) {p : Matrix (Fin n) (Fin n) ℝ}
    (hp : p.PosDef) (x : Fin n → ℝ) :
    x ⬝ᵥ (p *ᵥ x) = (fun k => x (e k)) ⬝ᵥ (margP e p *ᵥ fun k => x (e k)) +
      (x - ext e p fun k => x (e k)) ⬝ᵥ (p *ᵥ (x - ext e p fun k => x (e k))) := by
  set y := fun k => x (e k) with hy
  set z := ext e p y with hz
  have h1 : z ⬝ᵥ (p *ᵥ z) = y ⬝ᵥ (margP e p *ᵥ y) := ext_quad he hp y
  have h2 : x ⬝ᵥ (p *ᵥ z) = y ⬝ᵥ (margP e p *ᵥ y) := by rw [hz, mulVec_ext hp, dot_padVec]
  have h3 : z ⬝ᵥ (p *ᵥ x) = y ⬝ᵥ (margP e p *ᵥ y) := by rw [symm_dot (posDef_symm hp), h2]
  rw [mulVec_sub, sub_dotProduct, dotProduct_sub, dotProduct_sub, h1, h2, h3]
  ring

theorem marg_le {e : Fin m → Fin n} (he : Function.Injective e) {p : Matrix (Fin n) (Fin n) ℝ}
    (hp : p.PosDef) (x : Fin n → ℝ) :
    (fun k => x (e k)) ⬝ᵥ (margP e p *ᵥ fun k => x (e k)) ≤ x ⬝ᵥ (p *ᵥ x) := by
  rw [quad_split he hp x]
  linarith [posDef_nonneg hp (x - ext e p fun k => x (e k))]

end Verif.Gauss
