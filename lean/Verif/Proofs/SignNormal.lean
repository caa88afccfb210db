import Verif.Proofs.NormalInit
import Verif.Proofs.SignGrid
import Mathlib.Data.List.GetD

/-!
# Normal distributions under changes of sign

`fv σ v` and `fm σ A` are a vector and a matrix in coordinates in which the sign of coordinate `i`
is changed when `σ i = -1`.
-/
namespace Verif.Sign

open Matrix Verif.Gauss Verif.Eigen Verif.Items

variable {n m : ℕ}

/-- A vector with changed signs. -/
def fv (σ : ℕ → ℝ) (v : Fin n → ℝ) : Fin n → ℝ := fun i => σ i * v i

/-- A matrix with changed signs. -/
def fm (σ : ℕ → ℝ) (A : Matrix (Fin n) (Fin n) ℝ) : Matrix (Fin n) (Fin n) ℝ :=
  Matrix.of fun i j => σ i * A i j * σ j

/-- The diagonal matrix of the signs. -/
def dg (n : ℕ) (σ : ℕ → ℝ) : Matrix (Fin n) (Fin n) ℝ := diagonal fun i : Fin n => σ i

theorem fm_eq (σ : ℕ → ℝ) (A : Matrix (Fin n) (Fin n) ℝ) : fm σ A = dg n σ * A * dg n σ := by
  ext i j
  simp [fm, dg, diagonal_mul, mul_diagonal]

theorem fv_eq (σ : ℕ → ℝ) (v : Fin n → ℝ) : fv σ v = dg n σ *ᵥ v := by
  funext i
  simp [fv, dg, mulVec_diagonal]

theorem dg_transpose (σ : ℕ → ℝ) : (dg n σ)ᵀ = dg n σ := by simp [dg]

variable {σ : ℕ → ℝ}

theorem dg_sq (h : IsSign σ) : dg n σ * dg n σ = 1 := by
  rw [dg, diagonal_mul_diagonal, ← diagonal_one]
  congr 1
  funext i
  exact h.sq i

theorem dg_inv (h : IsSign σ) : (dg n σ)⁻¹ = dg n σ := inv_eq_right_inv (dg_sq h)

theorem fv_fv (h : IsSign σ) (v : Fin n → ℝ) : fv σ (fv σ v) = v := by
  funext i
  rw [fv, fv, ← mul_assoc, h.sq, one_mul]

theorem fm_mul (h : IsSign σ) (A B : Matrix (Fin n) (Fin n) ℝ) :
    fm σ A * fm σ B = fm σ (A * B) := by
  rw [fm_eq, fm_eq, fm_eq]
  calc dg n σ * A * dg n σ * (dg n σ * B * dg n σ)
      = dg n σ * A * (dg n σ * dg n σ) * B * dg n σ := by simp only [Matrix.mul_assoc]
    _ = _ := by rw [dg_sq h, Matrix.mul_one]; simp only [Matrix.mul_assoc]

theorem fm_mulVec (h : IsSign σ) (A : Matrix (Fin n) (Fin n) ℝ) (v : Fin n → ℝ) :
    fm σ A *ᵥ fv σ v = fv σ (A *ᵥ v) := by
  rw [fm_eq, fv_eq, fv_eq, mulVec_mulVec, mulVec_mulVec, Matrix.mul_assoc, Matrix.mul_assoc,
    dg_sq h, Matrix.mul_one]

theorem fm_transpose (A : Matrix (Fin n) (Fin n) ℝ) : (fm σ A)ᵀ = fm σ Aᵀ := by
  ext i j
  simp [fm, Matrix.transpose_apply]
  ring

theorem fv_vecMul (h : IsSign σ) (v : Fin n → ℝ) (A : Matrix (Fin n) (Fin n) ℝ) :
    fv σ v ᵥ* fm σ A = fv σ (v ᵥ* A) := by
  rw [← mulVec_transpose, fm_transpose, fm_mulVec h, mulVec_transpose]

theorem fv_dot (h : IsSign σ) (u v : Fin n → ℝ) : fv σ u ⬝ᵥ fv σ v = u ⬝ᵥ v := by
  simp only [dotProduct, fv]
  refine Finset.sum_congr rfl fun i _ => ?_
  linear_combination (u i * v i) * h.sq i

theorem fm_inv (h : IsSign σ) (A : Matrix (Fin n) (Fin n) ℝ) : (fm σ A)⁻¹ = fm σ A⁻¹ := by
  rw [fm_eq, fm_eq, Matrix.mul_inv_rev, Matrix.mul_inv_rev, dg_inv h, Matrix.mul_assoc]

theorem fm_det (h : IsSign σ) (A : Matrix (Fin n) (Fin n) ℝ) : (fm σ A).det = A.det := by
  have h1 : (dg n σ).det * (dg n σ).det = 1 := by
    rw [← Matrix.det_mul, dg_sq h, Matrix.det_one]
  rw [fm_eq, Matrix.det_mul, Matrix.det_mul]
  linear_combination A.det * h1

theorem fm_one (h : IsSign σ) : fm σ (1 : Matrix (Fin n) (Fin n) ℝ) = 1 := by
  rw [fm_eq, Matrix.mul_one, dg_sq h]

theorem fm_zero : fm σ (0 : Matrix (Fin n) (Fin n) ℝ) = 0 := by ext i j; simp [fm]

theorem fv_zero : fv σ (0 : Fin n → ℝ) = 0 := by funext i; simp [fv]

theorem fm_add (A B : Matrix (Fin n) (Fin n) ℝ) : fm σ (A + B) = fm σ A + fm σ B := by
  ext i j; simp [fm]; ring

theorem fm_sub (A B : Matrix (Fin n) (Fin n) ℝ) : fm σ (A - B) = fm σ A - fm σ B := by
  ext i j; simp [fm]; ring

theorem fm_neg (A : Matrix (Fin n) (Fin n) ℝ) : fm σ (-A) = -fm σ A := by
  ext i j; simp [fm]

theorem fm_smul (c : ℝ) (A : Matrix (Fin n) (Fin n) ℝ) : fm σ (c • A) = c • fm σ A := by
  ext i j; simp [fm]; ring

theorem fv_add (u v : Fin n → ℝ) : fv σ (u + v) = fv σ u + fv σ v := by
  funext i; simp [fv]; ring

theorem fv_sub (u v : Fin n → ℝ) : fv σ (u - v) = fv σ u - fv σ v := by
  funext i; simp [fv]; ring

theorem fv_neg (u : Fin n → ℝ) : fv σ (-u) = -fv σ u := by
  funext i; simp [fv]

theorem fv_smul (c : ℝ) (u : Fin n → ℝ) : fv σ (c • u) = c • fv σ u := by
  funext i; simp [fv]; ring

theorem fm_vecMulVec (u v : Fin n → ℝ) : vecMulVec (fv σ u) (fv σ v) = fm σ (vecMulVec u v) := by
  ext i j; simp [fm, fv, vecMulVec]; ring

theorem fm_sq_sum (h : IsSign σ) (A : Matrix (Fin n) (Fin n) ℝ) :
    ∑ i, ∑ j, fm σ A i j ^ 2 = ∑ i, ∑ j, A i j ^ 2 := by
  refine Finset.sum_congr rfl fun i _ => Finset.sum_congr rfl fun j _ => ?_
  show (σ i * A i j * σ j) ^ 2 = _
  have h1 := h.sq i
  have h2 := h.sq j
  calc (σ i * A i j * σ j) ^ 2 = A i j ^ 2 * (σ i * σ i) * (σ j * σ j) := by ring
    _ = _ := by rw [h1, h2]; ring

theorem fm_submatrix {τ : ℕ → ℝ} {e : Fin m → Fin n} (he : ∀ k : Fin m, τ k = σ (e k))
    (A : Matrix (Fin n) (Fin n) ℝ) : (fm σ A).submatrix e e = fm τ (A.submatrix e e) := by
  ext i j
  simp [fm, he]

theorem fv_comp {τ : ℕ → ℝ} {e : Fin m → Fin n} (he : ∀ k : Fin m, τ k = σ (e k))
    (v : Fin n → ℝ) : (fun k => fv σ v (e k)) = fv τ fun k => v (e k) := by
  funext k
  simp [fv, he]

theorem sel_dg {τ : ℕ → ℝ} {e : Fin m → Fin n} (he : ∀ k : Fin m, τ k = σ (e k)) :
    sel e * dg n σ = dg m τ * sel e := by
  ext k i
  rw [dg, dg, mul_diagonal, diagonal_mul]
  simp only [sel, Matrix.of_apply]
  split
  · rename_i h
    rw [he, h]
    ring
  · ring

theorem fm_pad {τ : ℕ → ℝ} {e : Fin m → Fin n} (he : ∀ k : Fin m, τ k = σ (e k))
    (b : Matrix (Fin m) (Fin m) ℝ) : pad e (fm τ b) = fm σ (pad e b) := by
  have h1 := sel_dg (σ := σ) he
  have h2 : dg n σ * (sel e)ᵀ = (sel e)ᵀ * dg m τ := by
    have := congrArg Matrix.transpose h1
    rwa [Matrix.transpose_mul, Matrix.transpose_mul, dg_transpose, dg_transpose] at this
  rw [pad, pad, fm_eq, fm_eq]
  calc (sel e)ᵀ * (dg m τ * b * dg m τ) * sel e
      = ((sel e)ᵀ * dg m τ) * b * (dg m τ * sel e) := by simp only [Matrix.mul_assoc]
    _ = (dg n σ * (sel e)ᵀ) * b * (sel e * dg n σ) := by rw [h1, h2]
    _ = _ := by simp only [Matrix.mul_assoc]

theorem fv_scatter {τ : ℕ → ℝ} {e : Fin m → Fin n} (he : ∀ k : Fin m, τ k = σ (e k))
    (v : Fin m → ℝ) (w : Fin n → ℝ) :
    scatter e (fv τ v) (fv σ w) = fv σ (scatter e v w) := by
  funext i
  rw [fv, scatter, scatter]
  cases hf : (List.finRange m).find? fun k => e k = i with
  | none => rfl
  | some k =>
    have h := List.find?_some hf
    simp only [decide_eq_true_eq] at h
    show τ k * v k = σ i * v k
    rw [he, h]

/-! ## Normal distributions -/

/-- A normal distribution with changed signs. -/
def flipMN (σ : ℕ → ℝ) (a : MN n) : MN n :=
  ⟨fv σ a.mean, fm σ a.precision, fm σ a.variance, a.normalizer⟩

theorem normalizerOf_flip (h : IsSign σ) (p : Matrix (Fin n) (Fin n) ℝ) :
    normalizerOf (fm σ p) = normalizerOf p := by
  rw [normalizerOf, normalizerOf, fm_det h]

theorem setPrecision_flip (h : IsSign σ) (a : MN n) (p : Matrix (Fin n) (Fin n) ℝ) :
    (flipMN σ a).setPrecision (fm σ p) = flipMN σ (a.setPrecision p) := by
  rw [MN.setPrecision, MN.setPrecision, fm_inv h, normalizerOf_flip h]
  rfl

theorem ofMeanPrecision_flip (h : IsSign σ) (v : Fin n → ℝ) (p : Matrix (Fin n) (Fin n) ℝ) :
    MN.ofMeanPrecision (fv σ v) (fm σ p) = flipMN σ (MN.ofMeanPrecision v p) := by
  rw [MN.ofMeanPrecision, MN.ofMeanPrecision, MN.setPrecision, MN.setPrecision, fm_inv h,
    normalizerOf_flip h]
  rfl

theorem ofMeanVariance_flip (h : IsSign σ) (v : Fin n → ℝ) (p : Matrix (Fin n) (Fin n) ℝ) :
    MN.ofMeanVariance (fv σ v) (fm σ p) = flipMN σ (MN.ofMeanVariance v p) := by
  rw [MN.ofMeanVariance, MN.ofMeanVariance, fm_inv h, normalizerOf_flip h]
  rfl

theorem evaluate_flip (h : IsSign σ) (a : MN n) (x : Fin n → ℝ) :
    (flipMN σ a).evaluate (fv σ x) = a.evaluate x := by
  show Option.map _ a.normalizer = Option.map _ a.normalizer
  congr 1
  funext v
  show v + -0.5 * ((fv σ x - fv σ a.mean) ᵥ* fm σ a.precision ⬝ᵥ (fv σ x - fv σ a.mean)) =
    v + -0.5 * ((x - a.mean) ᵥ* a.precision ⬝ᵥ (x - a.mean))
  rw [← fv_sub, fv_vecMul h, fv_dot h]

theorem evaluateDerivative_flip (h : IsSign σ) (a : MN n) (x : Fin n → ℝ) :
    (flipMN σ a).evaluateDerivative (fv σ x) = fv σ (a.evaluateDerivative x) := by
  show -(fv σ x - fv σ a.mean) ᵥ* fm σ a.precision = fv σ (-(x - a.mean) ᵥ* a.precision)
  rw [← fv_sub, ← fv_neg, fv_vecMul h]

theorem evaluateSecondDerivative_flip (a : MN n) :
    (flipMN σ a).evaluateSecondDerivative = fm σ a.evaluateSecondDerivative := by
  show -fm σ a.precision = fm σ (-a.precision)
  rw [fm_neg]

theorem newMean_flip (h : IsSign σ) {τ : ℕ → ℝ} (hτ : IsSign τ) {e : Fin m → Fin n}
    (he : ∀ k : Fin m, τ k = σ (e k)) (a : MN n) (b : MN m) (d : Bool) :
    newMean e (flipMN σ a) (flipMN τ b) d = fv τ (newMean e a b d) := by
  have h1 : (flipMN σ a).precision.submatrix e e = fm τ (a.precision.submatrix e e) :=
    fm_submatrix he _
  have h2 : (fun k => (flipMN σ a).mean (e k)) = fv τ fun k => a.mean (e k) := fv_comp he _
  have h3 : (flipMN τ b).precision = fm τ b.precision := rfl
  have h4 : (flipMN τ b).mean = fv τ b.mean := rfl
  rw [newMean, newMean, h1, h2, h3, h4, ← fm_smul, ← fm_add, fm_inv hτ, fm_mulVec hτ, fm_mulVec hτ,
    ← fv_add, fm_mulVec hτ]

/-! ## Normal beliefs -/

/-- Signs by position, from signs of items. -/
def sgnOf (s : ℤ → ℝ) (items : List ℤ) (k : ℕ) : ℝ := s (items.getD k 0)

/-- Signs of items. -/
def IsSignZ (s : ℤ → ℝ) : Prop := ∀ i, s i = 1 ∨ s i = -1

theorem IsSignZ.of {s : ℤ → ℝ} (h : IsSignZ s) (items : List ℤ) : IsSign (sgnOf s items) :=
  fun k => h _

theorem sgnOf_pos (s : ℤ → ℝ) {l items : List ℤ} (h : ∀ x ∈ l, x ∈ items) (k : Fin l.length) :
    sgnOf s l k = sgnOf s items (pos h k) := by
  have h1 := pos_get h k
  rw [sgnOf, sgnOf, List.getD_eq_getElem _ _ k.2, List.getD_eq_getElem _ _ (pos h k).2]
  exact congrArg s h1.symm

/-- A normal belief with changed signs. -/
def flipNB (s : ℤ → ℝ) (a : NB) : NB := ⟨a.items, flipMN (sgnOf s a.items) a.normal, a.logNC⟩

variable {s : ℤ → ℝ}

theorem combined_flip (hs : IsSignZ s) (d : Bool) {a b : NB} (h : ∀ x ∈ b.items, x ∈ a.items) :
    combined d (a := flipNB s a) (b := flipNB s b) h = flipNB s (combined d h) := by
  have h1 := newMean_flip (hs.of a.items) (hs.of b.items) (sgnOf_pos s h) a.normal b.normal d
  have h2 : fm (sgnOf s a.items) a.normal.precision + pad (pos h) (sg d • fm (sgnOf s b.items)
      b.normal.precision) = fm (sgnOf s a.items) (a.normal.precision + pad (pos h)
        (sg d • b.normal.precision)) := by
    rw [fm_add, ← fm_pad (sgnOf_pos s h), fm_smul]
  show NB.mk a.items ⟨scatter (pos h) (newMean (pos h) (flipMN (sgnOf s a.items) a.normal)
    (flipMN (sgnOf s b.items) b.normal) d) (fv (sgnOf s a.items) a.normal.mean),
    fm (sgnOf s a.items) a.normal.precision + pad (pos h) (sg d • fm (sgnOf s b.items)
      b.normal.precision),
    (fm (sgnOf s a.items) a.normal.precision + pad (pos h) (sg d • fm (sgnOf s b.items)
      b.normal.precision))⁻¹,
    normalizerOf (fm (sgnOf s a.items) a.normal.precision + pad (pos h) (sg d •
      fm (sgnOf s b.items) b.normal.precision))⟩ (a.logNC + sg d * b.logNC) = _
  rw [h1, h2, fv_scatter (sgnOf_pos s h), fm_inv (hs.of _), normalizerOf_flip (hs.of _)]
  rfl

theorem mul_flip (hs : IsSignZ s) {a b : NB} (hb : b.items.Nodup)
    (h : ∀ x ∈ b.items, x ∈ a.items) :
    ∃ r, NB.mul a b = Except.ok r ∧ NB.mul (flipNB s a) (flipNB s b) = Except.ok (flipNB s r) :=
  ⟨_, mul_eq hb h, by
    rw [← combined_flip hs false h]
    exact mul_eq (a := flipNB s a) (b := flipNB s b) hb h⟩

theorem div_flip (hs : IsSignZ s) {a b : NB} (hb : b.items.Nodup)
    (h : ∀ x ∈ b.items, x ∈ a.items) :
    ∃ r, NB.div a b = Except.ok r ∧ NB.div (flipNB s a) (flipNB s b) = Except.ok (flipNB s r) :=
  ⟨_, div_eq hb h, by
    rw [← combined_flip hs true h]
    exact div_eq (a := flipNB s a) (b := flipNB s b) hb h⟩

theorem margin_flip (hs : IsSignZ s) {a : NB} {l : List ℤ} (h : ∀ x ∈ l, x ∈ a.items) :
    ∃ r, NB.margin a l = Except.ok r ∧ NB.margin (flipNB s a) l = Except.ok (flipNB s r) ∧
      r.items = l := by
  refine ⟨_, margin_eq h, ?_, rfl⟩
  refine (margin_eq (a := flipNB s a) h).trans ?_
  have h1 : (fun k => (flipNB s a).normal.mean (pos h k)) =
      fv (sgnOf s l) fun k => a.normal.mean (pos h k) := fv_comp (sgnOf_pos s h) _
  have h2 : (flipNB s a).normal.variance.submatrix (pos h) (pos h) =
      fm (sgnOf s l) (a.normal.variance.submatrix (pos h) (pos h)) :=
    fm_submatrix (sgnOf_pos s h) _
  refine congrArg Except.ok ?_
  show NB.mk l (MN.ofMeanVariance (fun k => (flipNB s a).normal.mean (pos h k))
    ((flipNB s a).normal.variance.submatrix (pos h) (pos h))) a.logNC = _
  rw [h1, h2, ofMeanVariance_flip (hs.of l)]
  rfl

theorem ofItems_flip (hs : IsSignZ s) (l : List ℤ) : flipNB s (NB.ofItems l) = NB.ofItems l := by
  have h := ofMeanPrecision_flip (hs.of l) (0 : Fin l.length → ℝ) 0
  rw [fv_zero, fm_zero] at h
  show NB.mk l (flipMN (sgnOf s l) (MN.ofMeanPrecision 0 0)) 0 = NB.mk l (MN.ofMeanPrecision 0 0) 0
  rw [← h]

/-- The normal approximation on some items, from a mean and a precision with changed signs. -/
theorem restr_flip (hs : IsSignZ s) {N : ℕ} (mean : Fin N → ℝ) (Q : Matrix (Fin N) (Fin N) ℝ)
    (l : List ℤ) :
    restr (fun i : Fin N => s i * mean i) (Matrix.of fun i j : Fin N => s i * Q i j * s j) l =
      flipNB s (restr mean Q l) := by
  have h1 : at_ l (vz fun i : Fin N => s i * mean i) = fv (sgnOf s l) (at_ l (vz mean)) := by
    funext k
    show vz _ l[k] = s (l.getD k 0) * vz mean l[k]
    rw [List.getD_eq_getElem _ _ k.2, vz, vz]
    split
    · rename_i h
      show s ((l[k].toNat : ℕ) : ℤ) * _ = _
      rw [Int.toNat_of_nonneg h.1]
      rfl
    · simp
  have h2 : (Matrix.of fun i j : Fin l.length =>
      mz (Matrix.of fun i j : Fin N => s i * Q i j * s j) l[i] l[j]) =
      fm (sgnOf s l) (Matrix.of fun i j : Fin l.length => mz Q l[i] l[j]) := by
    ext i j
    show mz _ l[i] l[j] = s (l.getD i 0) * mz Q l[i] l[j] * s (l.getD j 0)
    rw [List.getD_eq_getElem _ _ i.2, List.getD_eq_getElem _ _ j.2, mz, mz]
    split
    · rename_i h
      show s ((l[i].toNat : ℕ) : ℤ) * _ * s ((l[j].toNat : ℕ) : ℤ) = _
      rw [Int.toNat_of_nonneg h.1.1, Int.toNat_of_nonneg h.2.1]
      rfl
    · simp
  rw [restr, restr, h1, h2, ofMeanPrecision_flip (hs.of l)]
  rfl

theorem evaluateNB_flip (hs : IsSignZ s) (a : NB) {x x' : List ℝ} (hl : x'.length = x.length)
    (hx : ∀ k, x'.getD k 0 = sgnOf s a.items k * x.getD k 0) :
    NB.evaluate (flipNB s a) x' = NB.evaluate a x := by
  unfold NB.evaluate NB.vec
  by_cases h : x.length = a.items.length
  · rw [dif_pos h, dif_pos (show x'.length = (flipNB s a).items.length from hl.trans h)]
    simp only [res_ok_bind]
    have : (fun i : Fin a.items.length => x'.get (i.cast (hl.trans h).symm)) =
        fv (sgnOf s a.items) fun i => x.get (i.cast h.symm) := by
      funext i
      have := hx i
      rw [List.getD_eq_getElem _ _ (by rw [hl, h]; exact i.2), List.getD_eq_getElem _ _ (by
        rw [h]; exact i.2)] at this
      exact this
    have h2 := evaluate_flip (hs.of a.items) a.normal fun i => x.get (i.cast h.symm)
    rw [← this] at h2
    exact congrArg (fun r => (pure (Option.map (a.logNC + ·) r) : Res (Option ℝ))) h2
  · rw [dif_neg h, dif_neg (show ¬ x'.length = (flipNB s a).items.length from by rw [hl]; exact h)]
    rfl

end Verif.Sign
