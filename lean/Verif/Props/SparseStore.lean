import Verif.Proofs.SparseStore
import Verif.Props.Basis
import Verif.Props.Quadrature
import Verif.Props.Integrated
import Mathlib.Algebra.Order.Star.Real

/-! # Stored factors (C11, C12, C62) -/
namespace Verif.Store

open Verif.Gauss Verif.Quad Verif.SparseGrid Verif.Spec Verif.Integrated Verif.Counting
  Verif.BasisLevel Verif.Point Verif.NormalQuantile Matrix

variable {n : ℕ}

/-! ## C11 -/

section c11
variable {env : GridEnv} {D : Set ℝ} {κ : ℕ → ℕ → ℝ} {φ : ℝ → ℕ → ℕ → ℝ}

/-- C11. For every factor, every normal with positive-definite precision `p`, every basis that
answers and is hierarchical: the store is built, its scale `T` is a symmetric inverse square root
of `p`, and reading the store at `mean + T z` for the vector `z` of knots of any grid point gives
the exact value of the factor. -/
theorem c11_exact (hb : BasisOk env.basis env.levelMax D κ φ) (hh : Hierarchical env.levelMax κ φ)
    (ha : GridArOk env.ar n env.levelMax) (solve : Solver n) (eig : EigenSolver n)
    {f : (Fin n → ℝ) → Res ℝ} {F : (Fin n → ℝ) → ℝ} (hf : ∀ x, f x = Except.ok (F x))
    {df : (Fin n → ℝ) → Res (Fin n → ℝ)} {ddf : (Fin n → ℝ) → Res (Matrix (Fin n) (Fin n) ℝ)}
    (μ : Fin n → ℝ) {p : Matrix (Fin n) (Fin n) ℝ} (hp : p.PosDef)
    (he : IsEigen p (eig p).1 (eig p).2) {d : Fin n → ℝ} {h : Matrix (Fin n) (Fin n) ℝ}
    (hd : df μ = Except.ok d) (hh' : ddf μ = Except.ok h) :
    ∃ s, SparseStore.create env solve eig f df ddf (MN.ofMeanPrecision μ p) = Except.ok s ∧
      ∃ T : Matrix (Fin n) (Fin n) ℝ, Tᵀ = T ∧ T * T * p = 1 ∧
        ∀ ls ps, IsGridPoint n env.levelMax ls ps →
          ∃ z : Fin n → ℝ, List.zipWith κ ls ps = List.ofFn z ∧
            s.evaluate env (μ + T *ᵥ z) = Except.ok (F (μ + T *ᵥ z)) := by
  obtain ⟨s, h1, h2, h3, h4, h5, h6, h7, h8⟩ := create_ok hb hh ha solve eig hf
    (MN.ofMeanPrecision μ p) hd hh'
  refine ⟨s, h1, s.fPlusModifierStored.scale, ?_, ?_, fun ls ps hg => ?_⟩
  · rw [h3]
    split
    · exact inv_symm
    · simp
  · rw [h3]
    split
    · exact inv_mul_inv hp he
    · obtain rfl : n = 0 := by omega
      exact Subsingleton.elim _ _
  · obtain ⟨z, hz⟩ := ofFn_of_length (n := n) (l := List.zipWith κ ls ps)
      (by simp [hg.levels_length, hg.positions_length])
    refine ⟨z, hz, ?_⟩
    have h9 := h8 ls ps hg
    rw [hz, tfl_ofFn] at h9
    set T := s.fPlusModifierStored.scale with hT
    have hμ : (MN.ofMeanPrecision μ p).mean = μ := rfl
    rw [hμ] at h5 h9
    have hz' : s.fPlusModifierStored.inverseScale *ᵥ (μ + T *ᵥ z - s.fPlusModifierStored.shift)
        = z := by
      rw [h5, add_sub_cancel_left, h4, h3]
      split
      · rename_i hn
        exact scale_inv hn hp he z
      · obtain rfl : n = 0 := by omega
        exact Subsingleton.elim _ _
    rw [SparseStore.evaluate, Transform.interpolate, hz', h9]
    simp only [res_ok_bind, res_pure]
    congr 1
    rw [tf]
    ring

end c11

/-- C11 for the basis as coded, with machine integers, under the complexity check of the SR
method. -/
theorem c11_coded (Q : ℝ → ℝ) (hQ : IsNormalQuantile Q) (w k : ℕ) (hw : 2 ≤ w)
    (hw2 : w ≤ 2147483645) (hc : complexityAccepted w k) (hk : 1 ≤ k) (hn : 0 < n) (hnw : n ≤ w)
    (solve : Solver n) (eig : EigenSolver n)
    {f : (Fin n → ℝ) → Res ℝ} {F : (Fin n → ℝ) → ℝ} (hf : ∀ x, f x = Except.ok (F x))
    {df : (Fin n → ℝ) → Res (Fin n → ℝ)} {ddf : (Fin n → ℝ) → Res (Matrix (Fin n) (Fin n) ℝ)}
    (μ : Fin n → ℝ) {p : Matrix (Fin n) (Fin n) ℝ} (hp : p.PosDef)
    (he : IsEigen p (eig p).1 (eig p).2) {d : Fin n → ℝ} {h : Matrix (Fin n) (Fin n) ℝ}
    (hd : df μ = Except.ok d) (hh' : ddf μ = Except.ok h) :
    ∃ ls, basisLevels i32 Q k = Except.ok ls ∧
      ∃ s, SparseStore.create ⟨i32, basis u32 ls, k⟩ solve eig f df ddf (MN.ofMeanPrecision μ p) =
          Except.ok s ∧
        ∃ T : Matrix (Fin n) (Fin n) ℝ, Tᵀ = T ∧ T * T * p = 1 ∧
          ∀ lv ps, IsGridPoint n k lv ps →
            ∃ z : Fin n → ℝ, getGridPoint (basis u32 ls) ⟨0, lv, ps, lv.sum⟩ =
                Except.ok (List.ofFn z) ∧
              s.evaluate ⟨i32, basis u32 ls, k⟩ (μ + T *ᵥ z) = Except.ok (F (μ + T *ᵥ z)) := by
  obtain ⟨ls, h1, -, -, h2, -⟩ := basis_32 hQ hk (le_trans (guard_bounds hw hc).2 (by norm_num))
  refine ⟨ls, h1, ?_⟩
  obtain ⟨s, h3, T, h4, h5, h6⟩ := c11_exact (env := ⟨i32, basis u32 ls, k⟩) h2
    (hierarchical (quantileOk hQ) hk) (gridArOk_i32 hw hw2 hc hn hnw) solve eig hf μ hp he hd hh'
  refine ⟨s, h3, T, h4, h5, fun lv ps hg => ?_⟩
  obtain ⟨z, h7, h8⟩ := h6 lv ps hg
  exact ⟨z, by rw [← h7]; exact getGridPoint_ok h2 hg, h8⟩

/-! ## C12: the quadratic modifier -/

theorem quadratic_eq (q : Quadratic n) :
    q.evaluate = quad q.b ((1 / 2 : ℝ) • (q.A + q.Aᵀ)) := by
  funext x
  rw [Quadratic.evaluate, quad, smul_mulVec, add_mulVec, dotProduct_smul, dotProduct_add]
  have h1 : ((x - q.b) ᵥ* q.A) ⬝ᵥ (x - q.b) = (x - q.b) ⬝ᵥ (q.A *ᵥ (x - q.b)) :=
    (dotProduct_mulVec _ _ _).symm
  have h2 : (x - q.b) ⬝ᵥ (q.Aᵀ *ᵥ (x - q.b)) = (x - q.b) ⬝ᵥ (q.A *ᵥ (x - q.b)) := by
    rw [mulVec_transpose, dotProduct_comm, ← dotProduct_mulVec]
  rw [h1, h2, smul_eq_mul]
  ring

theorem half_symm (A : Matrix (Fin n) (Fin n) ℝ) :
    ((1 / 2 : ℝ) • (A + Aᵀ))ᵀ = (1 / 2 : ℝ) • (A + Aᵀ) := by
  rw [transpose_smul, transpose_add, transpose_transpose, add_comm]

/-- The derivatives the modifier reports are exact. -/
theorem quadratic_derivatives (q : Quadratic n) (x : Fin n → ℝ) :
    HasFDerivAt q.evaluate (lin (q.derivative x)) x ∧
    ∀ j, HasFDerivAt (fun y => q.derivative y j) (lin (q.secondDerivative j)) x := by
  constructor
  · rw [quadratic_eq]
    refine (hasFDerivAt_quad (half_symm q.A) q.b x).congr_fderiv ?_
    ext z
    rw [lin_apply]
    simp only [ContinuousLinearMap.sum_apply, ContinuousLinearMap.smul_apply,
      ContinuousLinearMap.proj_apply, smul_eq_mul]
    refine Finset.sum_congr rfl fun i _ => ?_
    congr 1
    rw [Quadratic.derivative, ← mulVec_transpose, transpose_add, transpose_transpose,
      smul_mulVec, Pi.smul_apply, smul_eq_mul, add_comm q.Aᵀ]
    ring
  · intro j
    have e : (fun y => q.derivative y j) =
        fun y => lin (q.secondDerivative j) y - (q.b ᵥ* (q.A + q.Aᵀ)) j := by
      funext y
      rw [Quadratic.derivative, Quadratic.secondDerivative, sub_vecMul, Pi.sub_apply, lin_apply]
      congr 1
      rw [vecMul, dotProduct]
      refine Finset.sum_congr rfl fun i _ => ?_
      rw [mul_comm, Matrix.add_apply, Matrix.add_apply, transpose_apply, transpose_apply, add_comm]
    rw [e]
    exact (lin (q.secondDerivative j)).hasFDerivAt.sub_const _

theorem evaluateDerivative_mean (μ : Fin n → ℝ) (p : Matrix (Fin n) (Fin n) ℝ) :
    (MN.ofMeanPrecision μ p).evaluateDerivative μ = 0 := by
  rw [MN.evaluateDerivative]
  show -(μ - μ) ᵥ* _ = 0
  simp

theorem modif_second (solve : Solver n) (μ : Fin n → ℝ) {p h : Matrix (Fin n) (Fin n) ℝ}
    (hp : pᵀ = p) (hh : hᵀ = h) (d : Fin n → ℝ) :
    (modif solve (MN.ofMeanPrecision μ p) d h).secondDerivative = -(h + p) := by
  rw [modif, Quadratic.ofDerivatives]
  split
  · simp only [Quadratic.secondDerivative]
    rw [show (MN.ofMeanPrecision μ p).evaluateSecondDerivative = -p from rfl]
    simp only [transpose_smul, transpose_neg, transpose_sub, hp, hh, sub_neg_eq_add,
      transpose_add]
    rw [← smul_add, ← two_smul ℝ (-(h + p)), smul_smul]
    norm_num
  · obtain rfl : n = 0 := by omega
    exact Subsingleton.elim _ _

/-- The gradient of the modifier at the mean, in the two cases of the code. -/
theorem modif_derivative (solve : Solver n) (μ : Fin n → ℝ) {p h : Matrix (Fin n) (Fin n) ℝ}
    (hp : pᵀ = p) (hh : hᵀ = h) (d : Fin n → ℝ) :
    (modif solve (MN.ofMeanPrecision μ p) d h).derivative μ =
      -(((1 / 2 : ℝ) • (-(h + p))) *ᵥ solve ((1 / 2 : ℝ) • (-(h + p))) d) := by
  by_cases hn : n > 0
  · have hsec := modif_second solve μ hp hh d
    rw [Quadratic.derivative]
    rw [Quadratic.secondDerivative] at hsec
    rw [hsec, modif, Quadratic.ofDerivatives, if_pos hn]
    have e0 : (MN.ofMeanPrecision μ p).evaluateDerivative (MN.ofMeanPrecision μ p).mean = 0 :=
      evaluateDerivative_mean μ p
    rw [e0, sub_zero, show (MN.ofMeanPrecision μ p).evaluateSecondDerivative = -p from rfl,
      sub_neg_eq_add, show (MN.ofMeanPrecision μ p).mean = μ from rfl]
    show (μ - if Real.sqrt (∑ i, ∑ j, ((1 / 2 : ℝ) • (-(h + p))) i j ^ 2) > 0 then
        μ + (1 / 2 : ℝ) • solve ((1 / 2 : ℝ) • (-(h + p))) d else μ) ᵥ* -(h + p) = _
    have hs : (-(h + p))ᵀ = -(h + p) := by rw [transpose_neg, transpose_add, hp, hh]
    set A := (1 / 2 : ℝ) • (-(h + p)) with hA
    have h2 : -(h + p) = (2 : ℝ) • A := by rw [hA, smul_smul]; norm_num
    have hAs : Aᵀ = A := by rw [hA, transpose_smul, hs]
    split
    · rw [sub_add_cancel_left, neg_vecMul, h2, ← mulVec_transpose, transpose_smul, hAs,
        mulVec_smul, smul_mulVec, smul_smul]
      norm_num
    · rename_i hz
      have h0 : A = 0 := by
        have hs0 : ∑ i, ∑ j, A i j ^ 2 ≤ 0 := by
          by_contra hcon
          exact hz (Real.sqrt_pos.mpr (not_le.mp hcon))
        ext i j
        have h1 : ∑ i, ∑ j, A i j ^ 2 = 0 := le_antisymm hs0
          (Finset.sum_nonneg fun i _ => Finset.sum_nonneg fun j _ => sq_nonneg _)
        have h3 := (Finset.sum_eq_zero_iff_of_nonneg
          (fun i _ => Finset.sum_nonneg fun j _ => sq_nonneg _)).mp h1 i (Finset.mem_univ _)
        have h4 := (Finset.sum_eq_zero_iff_of_nonneg (fun j _ => sq_nonneg _)).mp h3 j
          (Finset.mem_univ _)
        exact pow_eq_zero_iff (by norm_num) |>.mp h4
      rw [sub_self, zero_vecMul, h0, zero_mulVec, neg_zero]
  · obtain rfl : n = 0 := by omega
    exact Subsingleton.elim _ _

/-- The half that decides C12: the gradients agree exactly when the linear system for the modifier
has a solution. -/
theorem modif_iff {solve : Solver n} (hs : IsSolver solve) (μ : Fin n → ℝ)
    {p h : Matrix (Fin n) (Fin n) ℝ} (hp : pᵀ = p) (hh : hᵀ = h) (d : Fin n → ℝ) :
    d + (modif solve (MN.ofMeanPrecision μ p) d h).derivative μ = 0 ↔
      ∃ y, (h + p) *ᵥ y = d := by
  rw [modif_derivative solve μ hp hh, ← sub_eq_add_neg, sub_eq_zero]
  constructor
  · intro h1
    refine ⟨(-(1 / 2) : ℝ) • solve ((1 / 2 : ℝ) • (-(h + p))) d, ?_⟩
    rw [mulVec_smul]
    conv_rhs => rw [h1]
    rw [smul_mulVec _ (-(h + p)), neg_mulVec, neg_smul, smul_neg, smul_neg]
  · rintro ⟨y, hy⟩
    refine (hs _ _ ⟨(-2 : ℝ) • y, ?_⟩).symm
    rw [smul_mulVec, neg_mulVec, mulVec_smul, hy, smul_neg, smul_smul]
    norm_num

section c12
variable {env : GridEnv} {D : Set ℝ} {κ : ℕ → ℕ → ℝ} {φ : ℝ → ℕ → ℕ → ℝ}
  {F : (Fin n → ℝ) → ℝ} {G : (Fin n → ℝ) → Fin n → ℝ} {H : (Fin n → ℝ) → Matrix (Fin n) (Fin n) ℝ}

theorem TwiceDiff_symm (hF : TwiceDiff F G H) (y : Fin n → ℝ) : (H y)ᵀ = H y := by
  ext i j
  exact hF.symm y j i

/-- C12, second half. For every twice differentiable factor and every positive-definite precision
such that `(Hessian + precision) y = gradient` at the mean has a solution, the factor plus the
modifier has the gradient and the Hessian of the normal at its mean.
What is missing: without the solution the claim is false (`c12_iff`, `c12_violated`). -/
theorem c12_modifier_partial (hb : BasisOk env.basis env.levelMax D κ φ)
    (hh : Hierarchical env.levelMax κ φ) (ha : GridArOk env.ar n env.levelMax)
    {solve : Solver n} (hs : IsSolver solve) (eig : EigenSolver n) (hF : TwiceDiff F G H)
    (μ : Fin n → ℝ) {p : Matrix (Fin n) (Fin n) ℝ} (hp : p.PosDef)
    (hc : ∃ y, (H μ + p) *ᵥ y = G μ) :
    ∃ s, SparseStore.create env solve eig (fun y => Except.ok (F y)) (fun y => Except.ok (G y))
        (fun y => Except.ok (H y)) (MN.ofMeanPrecision μ p) = Except.ok s ∧
      HasFDerivAt (fun x => F x + s.modifier.evaluate x)
        (lin ((MN.ofMeanPrecision μ p).evaluateDerivative μ)) μ ∧
      ∀ j, HasFDerivAt (fun x => G x j + s.modifier.derivative x j)
        (lin ((MN.ofMeanPrecision μ p).evaluateSecondDerivative j)) μ := by
  obtain ⟨s, h1, h2, -⟩ := create_ok hb hh ha solve eig (f := fun y => Except.ok (F y))
    (fun _ => rfl) (df := fun y => Except.ok (G y)) (ddf := fun y => Except.ok (H y))
    (MN.ofMeanPrecision μ p) rfl rfl
  refine ⟨s, h1, ?_, fun j => ?_⟩
  · have h3 := (hF.grad μ).add (quadratic_derivatives s.modifier μ).1
    refine HasFDerivAt.congr_fderiv h3 ?_
    have h4 := (modif_iff hs μ (posDef_symm hp) (TwiceDiff_symm hF μ) (G μ)).mpr hc
    rw [evaluateDerivative_mean, h2]
    ext z
    have h5 : ∀ k, G μ k + (modif solve (MN.ofMeanPrecision μ p) (G μ) (H μ)).derivative μ k = 0 :=
      fun k => congrFun h4 k
    rw [ContinuousLinearMap.add_apply, lin_apply, lin_apply, lin_apply, ← Finset.sum_add_distrib]
    refine Finset.sum_congr rfl fun k _ => ?_
    rw [← add_mul]
    show (G μ k + (modif solve (MN.ofMeanPrecision μ p) (G μ) (H μ)).derivative μ k) * z k = _
    rw [h5, Pi.zero_apply]
  · have h3 := (hF.hess μ j).add ((quadratic_derivatives s.modifier μ).2 j)
    refine HasFDerivAt.congr_fderiv h3 ?_
    rw [h2]
    have h4 := modif_second solve μ (posDef_symm hp) (TwiceDiff_symm hF μ) (G μ)
    ext z
    rw [ContinuousLinearMap.add_apply, lin_apply, lin_apply, lin_apply, ← Finset.sum_add_distrib]
    refine Finset.sum_congr rfl fun k _ => ?_
    rw [← add_mul]
    congr 1
    have h5 : (modif solve (MN.ofMeanPrecision μ p) (G μ) (H μ)).secondDerivative j k =
        -(H μ + p) j k := congrFun (congrFun h4 j) k
    show H μ j k + (modif solve (MN.ofMeanPrecision μ p) (G μ) (H μ)).secondDerivative j k = -p j k
    rw [h5, Matrix.add_apply]
    ring

/-- C12: the gradients agree at the mean exactly when the system has a solution. -/
theorem c12_iff (hb : BasisOk env.basis env.levelMax D κ φ)
    (hh : Hierarchical env.levelMax κ φ) (ha : GridArOk env.ar n env.levelMax)
    {solve : Solver n} (hs : IsSolver solve) (eig : EigenSolver n) (hF : TwiceDiff F G H)
    (μ : Fin n → ℝ) {p : Matrix (Fin n) (Fin n) ℝ} (hp : p.PosDef) :
    ∃ s, SparseStore.create env solve eig (fun y => Except.ok (F y)) (fun y => Except.ok (G y))
        (fun y => Except.ok (H y)) (MN.ofMeanPrecision μ p) = Except.ok s ∧
      (HasFDerivAt (fun x => F x + s.modifier.evaluate x)
        (lin ((MN.ofMeanPrecision μ p).evaluateDerivative μ)) μ ↔
        ∃ y, (H μ + p) *ᵥ y = G μ) := by
  obtain ⟨s, h1, h2, -⟩ := create_ok hb hh ha solve eig (f := fun y => Except.ok (F y))
    (fun _ => rfl) (df := fun y => Except.ok (G y)) (ddf := fun y => Except.ok (H y))
    (MN.ofMeanPrecision μ p) rfl rfl
  refine ⟨s, h1, ?_, fun hc => ?_⟩
  · intro h3
    refine (modif_iff hs μ (posDef_symm hp) (TwiceDiff_symm hF μ) (G μ)).mp ?_
    have h4 := (hF.grad μ).add (quadratic_derivatives s.modifier μ).1
    have h5 := h3.unique h4
    rw [evaluateDerivative_mean, h2] at h5
    funext k
    have h6 := congrArg (fun L : (Fin n → ℝ) →L[ℝ] ℝ => L (Pi.single k 1)) h5
    simp only [ContinuousLinearMap.add_apply, lin_apply, Pi.single_apply, mul_ite, mul_one,
      mul_zero, Finset.sum_ite_eq', Finset.mem_univ, if_true, Pi.zero_apply] at h6
    rw [Pi.add_apply, Pi.zero_apply]
    exact h6.symm
  · obtain ⟨s', h1', h3, -⟩ := c12_modifier_partial hb hh ha hs eig hF μ hp hc
    rw [h1] at h1'
    cases h1'
    exact h3

/-- C12, first half. With a basis of level 0 whose only function is the constant one with its knot
at zero, the stored factor is the second-order expansion of the factor at the mean of the normal,
whenever the system for the modifier has a solution.
What is missing: the system may have no solution (`c12_violated`), and creating the coded basis of
level 0 is undefined behaviour (`BasisLevel.c10_level0_ub`). -/
theorem c12_level0_partial (hk : env.levelMax = 0)
    (hb : BasisOk env.basis 0 Set.univ κ φ) (hκ : κ 0 0 = 0) (hφ : ∀ x, φ x 0 0 = 1)
    (ha : GridArOk env.ar n 0) {solve : Solver n} (hs : IsSolver solve) (eig : EigenSolver n)
    (hF : TwiceDiff F G H) (μ : Fin n → ℝ) {p : Matrix (Fin n) (Fin n) ℝ} (hp : p.PosDef)
    (he : IsEigen p (eig p).1 (eig p).2) (hc : ∃ y, (H μ + p) *ᵥ y = G μ) :
    ∃ s, SparseStore.create env solve eig (fun y => Except.ok (F y)) (fun y => Except.ok (G y))
        (fun y => Except.ok (H y)) (MN.ofMeanPrecision μ p) = Except.ok s ∧
      ∀ x, s.evaluate env x = Except.ok (F μ + G μ ⬝ᵥ (x - μ) +
        1 / 2 * ((x - μ) ⬝ᵥ (H μ *ᵥ (x - μ)))) := by
  have hb' : BasisOk env.basis env.levelMax Set.univ κ φ := by rw [hk]; exact hb
  have ha' : GridArOk env.ar n env.levelMax := by rw [hk]; exact ha
  have hh : Hierarchical env.levelMax κ φ := by
    rw [hk]
    refine ⟨fun l p hl hp => ?_, ?_⟩
    · obtain rfl : l = 0 := by omega
      obtain rfl : p = 0 := by simpa using hp
      exact hφ _
    · intro l p l' p' hl' hp' hle hp hne
      obtain rfl : l' = 0 := by omega
      obtain rfl : l = 0 := by omega
      obtain rfl : p = 0 := by simpa using hp
      obtain rfl : p' = 0 := by simpa using hp'
      exact absurd rfl hne
  obtain ⟨s, h1, h2, h3, h4, h5, h6, h7, h8⟩ := create_ok hb' hh ha' solve eig
    (f := fun y => Except.ok (F y)) (fun _ => rfl) (df := fun y => Except.ok (G y))
    (ddf := fun y => Except.ok (H y)) (MN.ofMeanPrecision μ p) rfl rfl
  have hμ : (MN.ofMeanPrecision μ p).mean = μ := rfl
  refine ⟨s, h1, fun x => ?_⟩
  rw [hk] at h7
  have hN : numPts n 0 = 1 := by
    rw [numPts]
    split
    · rfl
    · simp [gridCount]
  -- the interpolant is constant
  have hconst : ∀ z : Fin n → ℝ, SparseGrid.interpolate env.ar env.basis
      s.fPlusModifierStored.grid (List.ofFn z) =
      Except.ok (min (s.fPlusModifierStored.grid.coefficients.getD 0 0)
        s.fPlusModifierStored.grid.bound) := by
    intro z
    rw [interpolate_raw hb ha.1 h6 h7 z (fun _ => trivial)]
    congr 2
    rw [raw, hN, Finset.sum_range_one]
    have : tprod φ n (List.ofFn z) (SparseGrid.pt n 0).1 (SparseGrid.pt n 0).2 = 1 := by
      unfold SparseGrid.tprod
      refine Finset.prod_eq_one fun t ht => ?_
      rw [SparseGrid.pt]
      have h0 : (List.replicate n 0).getD t 0 = 0 := by
        rw [List.getD_eq_getElem?_getD]
        rw [List.getElem?_replicate]
        split <;> rfl
      simp only [h0]
      exact hφ _
    rw [this, mul_one]
  have hval := h8 (List.replicate n 0) (List.replicate n 0) (by
    rw [hk]
    exact pt_isGridPoint (d := n) (k := 0) (n := 0) (by rw [hN]; norm_num))
  have hz0 : List.zipWith κ (List.replicate n 0) (List.replicate n 0) =
      List.ofFn (0 : Fin n → ℝ) := by
    refine List.ext_getElem (by simp) fun i h1 h2 => ?_
    simp [hκ]
  rw [hz0, hconst, tfl_ofFn] at hval
  injection hval with hval
  rw [SparseStore.evaluate, Transform.interpolate, hconst, hval]
  simp only [res_ok_bind, res_pure]
  congr 1
  rw [tf, mulVec_zero, add_zero, hμ, h5, hμ]
  set δ := x - μ with hδ
  -- squared length of the transformed argument
  have hzz : (s.fPlusModifierStored.inverseScale *ᵥ δ) ⬝ᵥ (s.fPlusModifierStored.inverseScale *ᵥ δ)
      = δ ⬝ᵥ (p *ᵥ δ) := by
    by_cases hn : n > 0
    · rw [h4, if_pos hn]
      have : (MN.ofMeanPrecision μ p).precision = p := rfl
      rw [this, dotProduct_mulVec, ← mulVec_transpose, sqrt_symm, mulVec_mulVec,
        sqrt_mul_sqrt hp he, dotProduct_comm]
    · obtain rfl : n = 0 := by omega
      simp
  -- expansion of the modifier at the mean
  have hmod : s.modifier.evaluate x = s.modifier.evaluate μ - G μ ⬝ᵥ δ -
      1 / 2 * (δ ⬝ᵥ ((H μ + p) *ᵥ δ)) := by
    have h9 := (modif_iff hs μ (posDef_symm hp) (TwiceDiff_symm hF μ) (G μ)).mpr hc
    have h10 := modif_second solve μ (posDef_symm hp) (TwiceDiff_symm hF μ) (G μ)
    have h2' : s.modifier = modif solve (MN.ofMeanPrecision μ p) (G μ) (H μ) := h2
    rw [← h2'] at h9 h10
    have h11 : s.modifier.derivative μ = -G μ := by
      rw [eq_neg_iff_add_eq_zero, add_comm]
      exact h9
    rw [Quadratic.derivative] at h11
    rw [Quadratic.secondDerivative] at h10
    rw [quadratic_eq, quad, quad]
    rw [h10] at h11 ⊢
    have hx : x - s.modifier.b = (μ - s.modifier.b) + δ := by rw [hδ]; abel
    have hS : (-(H μ + p))ᵀ = -(H μ + p) := by
      rw [transpose_neg, transpose_add, posDef_symm hp, TwiceDiff_symm hF μ]
    rw [hx]
    set a := μ - s.modifier.b with ha0
    rw [← mulVec_transpose, hS] at h11
    simp only [smul_mulVec, mulVec_add, dotProduct_add, add_dotProduct, dotProduct_smul,
      smul_eq_mul]
    have h12 : a ⬝ᵥ (-(H μ + p) *ᵥ δ) = -(G μ ⬝ᵥ δ) := by
      rw [symm_dot hS, h11, dotProduct_neg, dotProduct_comm]
    have h13 : δ ⬝ᵥ (-(H μ + p) *ᵥ a) = -(G μ ⬝ᵥ δ) := by
      rw [h11, dotProduct_neg, dotProduct_comm]
    have h14 : δ ⬝ᵥ (-(H μ + p) *ᵥ δ) = -(δ ⬝ᵥ ((H μ + p) *ᵥ δ)) := by
      rw [neg_mulVec, dotProduct_neg]
    rw [h12, h13, h14]
    ring
  rw [hzz, hmod, add_mulVec, dotProduct_add, zero_dotProduct]
  ring

end c12

/-- The factor `x - x²/2` of one variable, for the examples. -/
theorem bump_twice : TwiceDiff (n := 1) (fun x => x 0 - x 0 ^ 2 / 2) (fun x _ => 1 - x 0)
    (fun _ => !![-1]) := by
  have hp : ∀ y : Fin 1 → ℝ, HasFDerivAt (fun x : Fin 1 → ℝ => x 0)
      (ContinuousLinearMap.proj 0 : (Fin 1 → ℝ) →L[ℝ] ℝ) y := fun y =>
    (ContinuousLinearMap.proj 0 : (Fin 1 → ℝ) →L[ℝ] ℝ).hasFDerivAt
  refine ⟨fun y => ?_, fun y j => ?_⟩
  · refine ((hp y).sub (((hp y).pow 2).mul_const (1 / 2 : ℝ))).congr_fderiv ?_ |>.congr_of_eventuallyEq
      (Filter.Eventually.of_forall fun x => ?_)
    · ext z
      rw [lin_apply]
      simp
      ring
    · simp
      ring
  · refine ((hp y).const_sub 1).congr_fderiv ?_
    ext z
    rw [lin_apply]
    fin_cases j
    simp

/-- A solver and an eigen-solver exist. -/
theorem exists_solver (n : ℕ) : ∃ solve : Solver n, IsSolver solve := by
  classical
  exact ⟨fun A d => if h : ∃ y, A *ᵥ y = d then h.choose else 0, fun A d h => by
    simp only [dif_pos h]
    exact h.choose_spec⟩

/-- C12 is violated: for the factor `x - x²/2` stored relative to the standard normal (hat basis,
level 4), the gradient of factor plus modifier at the mean is not that of the normal: the matrix of
the modifier is zero, so the modifier vanishes. -/
theorem c12_violated : ∃ (solve : Solver 1) (eig : EigenSolver 1) (s : SparseStore 1),
    IsSolver solve ∧ IsEigen 1 (eig 1).1 (eig 1).2 ∧
    SparseStore.create ⟨exactZ, hatBasis, 4⟩ solve eig
      (fun x => Except.ok (x 0 - x 0 ^ 2 / 2)) (fun x => Except.ok (fun _ => 1 - x 0))
      (fun _ => Except.ok !![-1]) (MN.ofMeanPrecision 0 1) = Except.ok s ∧
    ¬ HasFDerivAt (fun x => (x 0 - x 0 ^ 2 / 2) + s.modifier.evaluate x)
        (lin ((MN.ofMeanPrecision (0 : Fin 1 → ℝ) 1).evaluateDerivative 0)) 0 := by
  obtain ⟨solve, hs⟩ := exists_solver 1
  obtain ⟨v, V, he⟩ := exists_eigen (1 : Matrix (Fin 1) (Fin 1) ℝ)
  obtain ⟨s, h1, h2⟩ := c12_iff (env := ⟨exactZ, hatBasis, 4⟩) (hat_ok 4) (hat_hierarchical 4)
    (gridArOk_exactZ 1 4) hs (fun _ => (v, V)) bump_twice 0 PosDef.one
  refine ⟨solve, _, s, hs, he, h1, fun h3 => ?_⟩
  obtain ⟨y, hy⟩ := h2.mp h3
  have : (!![-1] + 1 : Matrix (Fin 1) (Fin 1) ℝ) = 0 := by
    ext i j
    fin_cases i; fin_cases j
    simp
  rw [this, zero_mulVec] at hy
  simpa using congrFun hy 0

/-- The hypotheses of `c12_modifier_partial` are met by the same factor and the normal with
mean 0 and precision 2. -/
example : ∃ (solve : Solver 1) (s : SparseStore 1),
    SparseStore.create ⟨exactZ, hatBasis, 4⟩ solve (fun _ => (0, 0))
      (fun x => Except.ok (x 0 - x 0 ^ 2 / 2)) (fun x => Except.ok (fun _ => 1 - x 0))
      (fun _ => Except.ok !![-1]) (MN.ofMeanPrecision 0 ((2 : ℝ) • 1)) = Except.ok s ∧
    HasFDerivAt (fun x => (x 0 - x 0 ^ 2 / 2) + s.modifier.evaluate x)
        (lin ((MN.ofMeanPrecision (0 : Fin 1 → ℝ) ((2 : ℝ) • 1)).evaluateDerivative 0)) 0 := by
  obtain ⟨solve, hs⟩ := exists_solver 1
  obtain ⟨s, h1, h2, -⟩ := c12_modifier_partial (env := ⟨exactZ, hatBasis, 4⟩) (hat_ok 4)
    (hat_hierarchical 4) (gridArOk_exactZ 1 4) hs (fun _ => (0, 0)) bump_twice 0
    (p := (2 : ℝ) • 1) (PosDef.one.smul (by norm_num)) ⟨fun _ => 1, by
      ext i
      fin_cases i
      simp [mulVec, dotProduct]
      norm_num⟩
  exact ⟨solve, s, h1, h2⟩

/-- A basis of level 0 as it was meant: one constant function with knot 0. -/
noncomputable def constBasis : BasisI where
  getKnot _ _ := pure 0
  evaluate _ _ _ := pure 1
  evaluateDerivative _ _ _ := pure 0
  evaluateSecondDerivative _ _ _ := pure 0

/-- The hypotheses of `c12_level0_partial` are met: the stored factor is `x - x²/2` itself. -/
example : ∃ (solve : Solver 1) (eig : EigenSolver 1) (s : SparseStore 1),
    SparseStore.create ⟨i32, constBasis, 0⟩ solve eig
      (fun x => Except.ok (x 0 - x 0 ^ 2 / 2)) (fun x => Except.ok (fun _ => 1 - x 0))
      (fun _ => Except.ok !![-1]) (MN.ofMeanPrecision 0 ((2 : ℝ) • 1)) = Except.ok s ∧
    s.evaluate ⟨i32, constBasis, 0⟩ (fun _ => 3) = Except.ok (3 - 3 ^ 2 / 2) := by
  obtain ⟨solve, hs⟩ := exists_solver 1
  obtain ⟨v, V, he⟩ := exists_eigen ((2 : ℝ) • 1 : Matrix (Fin 1) (Fin 1) ℝ)
  obtain ⟨s, h1, h2⟩ := c12_level0_partial (env := ⟨i32, constBasis, 0⟩) (κ := fun _ _ => 0)
    (φ := fun _ _ _ => 1) rfl ⟨fun _ _ _ _ => rfl, fun _ _ _ _ => trivial, fun _ _ _ _ _ _ => rfl⟩
    rfl (fun _ => rfl) (gridArOk_i32 (w := 2) (by norm_num) (by norm_num)
      (by unfold complexityAccepted; norm_num) (by norm_num) (by norm_num)) hs (fun _ => (v, V))
    bump_twice 0 (p := (2 : ℝ) • 1) (PosDef.one.smul (by norm_num)) he ⟨fun _ => 1, by
      ext i
      fin_cases i
      simp [mulVec, dotProduct]
      norm_num⟩
  refine ⟨solve, _, s, h1, ?_⟩
  rw [h2]
  congr 1
  simp [mulVec, dotProduct]
  norm_num

/-- The hypotheses of C11 are met: a correlated precision, the coded basis, level 3. -/
example (F : (Fin 2 → ℝ) → ℝ) (G : (Fin 2 → ℝ) → Fin 2 → ℝ)
    (H : (Fin 2 → ℝ) → Matrix (Fin 2) (Fin 2) ℝ) (solve : Solver 2) (μ : Fin 2 → ℝ) :
    ∃ Q ls eig s, basisLevels i32 Q 3 = Except.ok ls ∧
      SparseStore.create ⟨i32, basis u32 ls, 3⟩ solve eig (fun y => Except.ok (F y))
        (fun y => Except.ok (G y)) (fun y => Except.ok (H y)) (MN.ofMeanPrecision μ corr) =
          Except.ok s := by
  obtain ⟨Q, hQ⟩ := exists_quantile
  obtain ⟨v, V, he⟩ := exists_eigen corr
  obtain ⟨ls, h1, s, h2, -⟩ := c11_coded Q hQ 4 3 (by norm_num) (by norm_num)
    (by unfold complexityAccepted; norm_num) (by norm_num) (by norm_num) (by norm_num) solve
    (fun _ => (v, V)) (f := fun y => Except.ok (F y)) (fun _ => rfl)
    (df := fun y => Except.ok (G y)) (ddf := fun y => Except.ok (H y)) μ corr_posDef he rfl rfl
  exact ⟨Q, ls, _, s, h1, h2⟩

/-! ## C62: derivatives of the stored factor -/

section c62
open Filter Topology
variable {env : GridEnv} {D : Set ℝ} {κ : ℕ → ℕ → ℝ} {φ φ' φ'' : ℝ → ℕ → ℕ → ℝ}

theorem zmap_hasFDerivAt (S : Matrix (Fin n) (Fin n) ℝ) (m x : Fin n → ℝ) :
    HasFDerivAt (fun y => S *ᵥ (y - m)) (LinearMap.toContinuousLinearMap S.mulVecLin) x := by
  have h := (LinearMap.toContinuousLinearMap S.mulVecLin).hasFDerivAt (x := x)
  have e : (fun y => S *ᵥ (y - m)) =
      fun y => LinearMap.toContinuousLinearMap S.mulVecLin y - S *ᵥ m := by
    funext y
    simp [mulVec_sub]
  rw [e]
  exact h.sub_const _

theorem lin_comp (S : Matrix (Fin n) (Fin n) ℝ) (v : Fin n → ℝ) :
    (lin v).comp (LinearMap.toContinuousLinearMap S.mulVecLin) = lin (Sᵀ *ᵥ v) := by
  ext z
  rw [ContinuousLinearMap.comp_apply, lin_apply, lin_apply]
  show v ⬝ᵥ (S *ᵥ z) = (Sᵀ *ᵥ v) ⬝ᵥ z
  rw [mulVec_transpose, dotProduct_mulVec]

/-- C62. Whatever the stored coefficients: wherever the interpolant is strictly below its bound and
the basis answers around, the gradient and the Hessian reported by the store are the derivatives of
the value it reports and of the gradient it reports, and the Hessian is symmetric. -/
theorem c62_derivatives (hb : BasisOk env.basis env.levelMax D κ φ)
    (hb' : BasisDerivOk env.basis env.levelMax D φ' φ'') (ha : ArOk env.ar n env.levelMax)
    (s : SparseStore n) (hgd : s.fPlusModifierStored.grid.d = n)
    (hg : s.fPlusModifierStored.grid.coefficients.length = (gridPoints n env.levelMax).ncard)
    (x z : Fin n → ℝ)
    (hz : z = s.fPlusModifierStored.inverseScale *ᵥ (x - s.fPlusModifierStored.shift))
    (hD : ∀ t, D ∈ 𝓝 (z t))
    (hd : ∀ t l p, l ≤ env.levelMax → p < 2 ^ l →
      HasDerivAt (fun y => φ y l p) (φ' (z t) l p) (z t))
    (hd' : ∀ t l p, l ≤ env.levelMax → p < 2 ^ l →
      HasDerivAt (fun y => φ' y l p) (φ'' (z t) l p) (z t))
    (v : ℝ) (hv : SparseGrid.interpolate env.ar env.basis s.fPlusModifierStored.grid (List.ofFn z) =
      Except.ok v) (hlt : v < s.fPlusModifierStored.grid.bound) :
    ∃ (G : Fin n → ℝ) (H : Matrix (Fin n) (Fin n) ℝ),
      s.evaluateDerivative env x = Except.ok G ∧
      s.evaluateSecondDerivative env x = Except.ok H ∧ Hᵀ = H ∧
      HasFDerivAt (fun y => SparseGrid.val (s.evaluate env y)) (lin G) x ∧
      ∀ j, HasFDerivAt (fun y => SparseGrid.comp (s.evaluateDerivative env y) j) (lin (H j)) x := by
  obtain ⟨g, hg1, hg2⟩ := c08_gradient hb hb' ha _ hgd hg z hD hd v hv hlt
  obtain ⟨h, hh1, hh2, hh3⟩ := c08_hessian hb hb' ha _ hgd hg z hD hd hd' v hv hlt
  set S := s.fPlusModifierStored.inverseScale with hS
  set m := s.fPlusModifierStored.shift with hm
  have hzd := zmap_hasFDerivAt S m x
  rw [hz] at hg2 hh3
  -- nearby the basis answers
  have hev : ∀ᶠ y in 𝓝 x, ∀ t, (S *ᵥ (y - m)) t ∈ D := by
    have := hzd.continuousAt.eventually (f := fun y => S *ᵥ (y - m))
      (p := fun w => ∀ t, w t ∈ D) (by rw [hz] at hD; exact eventually_mem hD)
    exact this
  have hg' := hg
  rw [ncard_numPts] at hg'
  set gr := fun i : Fin n => g i with hgr
  set hr := Matrix.of (fun i j : Fin n => h (i, j)) with hhr
  have hrs : hrᵀ = hr := by
    ext i j
    exact hh2 j i j.2 i.2
  refine ⟨Sᵀ *ᵥ (gr - z) - s.modifier.derivative x, Sᵀ * (hr - 1) * S - s.modifier.secondDerivative,
    ?_, ?_, ?_, ?_, ?_⟩
  · rw [SparseStore.evaluateDerivative, Transform.interpolateDerivative, ← hm, ← hS, ← hz, hg1]
    rfl
  · rw [SparseStore.evaluateSecondDerivative, Transform.interpolateSecondDerivative, ← hm, ← hS,
      ← hz, hh1]
    rfl
  · rw [transpose_sub, transpose_mul, transpose_mul, transpose_transpose, transpose_sub, hrs,
      transpose_one, Quadratic.secondDerivative, transpose_add, transpose_transpose,
      add_comm, ← Matrix.mul_assoc]
  · have e1 : HasFDerivAt (fun y => SparseGrid.val (SparseGrid.interpolate env.ar env.basis
        s.fPlusModifierStored.grid (List.ofFn (S *ᵥ (y - m))))) (lin (Sᵀ *ᵥ gr)) x := by
      rw [← lin_comp]
      exact HasFDerivAt.comp (f := fun y => S *ᵥ (y - m)) x hg2 hzd
    have e2 := (hasFDerivAt_quad (p := Sᵀ * S) (by rw [transpose_mul, transpose_transpose]) m
      x).const_mul (0.5 : ℝ)
    have e3 := (e1.sub e2).sub (quadratic_derivatives s.modifier x).1
    refine (e3.congr_fderiv ?_).congr_of_eventuallyEq ?_
    · ext w
      simp only [ContinuousLinearMap.sub_apply, ContinuousLinearMap.smul_apply,
        ContinuousLinearMap.sum_apply, lin_apply, ContinuousLinearMap.proj_apply, smul_eq_mul]
      rw [Finset.mul_sum, ← Finset.sum_sub_distrib, ← Finset.sum_sub_distrib]
      refine Finset.sum_congr rfl fun i _ => ?_
      have e5 : (Sᵀ *ᵥ (gr - z)) i = (Sᵀ *ᵥ gr) i - ((Sᵀ * S) *ᵥ (x - m)) i := by
        rw [mulVec_sub Sᵀ gr z, Pi.sub_apply, hz, mulVec_mulVec]
      rw [Pi.sub_apply, e5]
      ring
    · filter_upwards [hev] with y hy
      rw [SparseStore.evaluate, Transform.interpolate, ← hm, ← hS,
        interpolate_raw hb ha hgd hg' _ hy]
      simp only [res_ok_bind, res_pure, Pi.sub_apply]
      rw [interpolate_raw hb ha hgd hg' _ hy, quad, ← mulVec_mulVec, dotProduct_mulVec,
        ← mulVec_transpose, dotProduct_comm (Sᵀ *ᵥ _)]
      rfl
  · intro j
    have e1 : ∀ i : Fin n, HasFDerivAt (fun y => SparseGrid.comp (SparseGrid.interpolateDerivative
        env.ar env.basis s.fPlusModifierStored.grid (List.ofFn (S *ᵥ (y - m)))) (i : ℕ))
        (lin (Sᵀ *ᵥ hr i)) x := by
      intro i
      rw [← lin_comp]
      have e6 : (∑ r : Fin n, h ((r : ℕ), (i : ℕ)) •
          (ContinuousLinearMap.proj r : (Fin n → ℝ) →L[ℝ] ℝ)) = lin (hr i) := by
        rw [lin]
        refine Finset.sum_congr rfl fun r _ => ?_
        rw [hh2 r i r.2 i.2]
        rfl
      rw [← e6]
      exact HasFDerivAt.comp (f := fun y => S *ᵥ (y - m)) x (hh3 i) hzd
    have e2 : ∀ i : Fin n, HasFDerivAt (fun y => (S *ᵥ (y - m)) i) (lin (S i)) x := by
      intro i
      have h1 := HasFDerivAt.comp (f := fun y => S *ᵥ (y - m)) x
        (ContinuousLinearMap.proj i : (Fin n → ℝ) →L[ℝ] ℝ).hasFDerivAt hzd
      refine h1.congr_fderiv ?_
      ext w
      rw [lin_apply]
      rfl
    have e3 := (HasFDerivAt.fun_sum (u := Finset.univ) fun i _ =>
      ((e1 i).sub (e2 i)).const_mul (Sᵀ j i)).sub ((quadratic_derivatives s.modifier x).2 j)
    refine (e3.congr_fderiv ?_).congr_of_eventuallyEq ?_
    · ext w
      simp only [ContinuousLinearMap.sub_apply, ContinuousLinearMap.smul_apply,
        ContinuousLinearMap.sum_apply, lin_apply, smul_eq_mul]
      have e4 : (∑ k, (Sᵀ * (hr - 1) * S - s.modifier.secondDerivative) j k * w k) =
          (Sᵀ *ᵥ ((hr - 1) *ᵥ (S *ᵥ w))) j - ∑ k, s.modifier.secondDerivative j k * w k := by
        rw [mulVec_mulVec, mulVec_mulVec]
        show ((Sᵀ * (hr - 1) * S - s.modifier.secondDerivative) *ᵥ w) j = _
        rw [sub_mulVec]
        rfl
      rw [e4]
      congr 1
      show _ = ∑ i, Sᵀ j i * ((hr - 1) *ᵥ (S *ᵥ w)) i
      refine Finset.sum_congr rfl fun i _ => ?_
      congr 1
      rw [sub_mulVec, one_mulVec, Pi.sub_apply]
      congr 1
      show (Sᵀ *ᵥ hr i) ⬝ᵥ w = (hr i) ⬝ᵥ (S *ᵥ w)
      rw [mulVec_transpose, dotProduct_mulVec]
    · filter_upwards [hev] with y hy
      obtain ⟨gy, hgy⟩ : ∃ gy, SparseGrid.interpolateDerivative env.ar env.basis
          s.fPlusModifierStored.grid (List.ofFn (S *ᵥ (y - m))) = Except.ok gy := by
        have h1 := interpolate_raw hb ha hgd hg' _ hy
        by_cases hc : raw s.fPlusModifierStored.grid φ n env.levelMax (S *ᵥ (y - m)) <
            s.fPlusModifierStored.grid.bound
        · obtain ⟨gy, h2, -⟩ := interpolateDerivative_raw hb hb' ha hgd hg' _ hy hc
          exact ⟨gy, h2⟩
        · exact ⟨_, (c08_clamped_zero _ _ _ h1 (le_min (not_lt.mp hc) le_rfl)).1⟩
      rw [SparseStore.evaluateDerivative, Transform.interpolateDerivative, ← hm, ← hS, hgy]
      simp only [Pi.sub_apply]
      rw [hgy]
      rfl

/-- C62 for the basis as coded, with machine integers, under the complexity check of the SR method,
for a store made from any factor: there is a bound `X` beyond all knots such that the derivatives
are exact wherever the transformed coordinates are below `X` (C10 says what happens beyond) and the
interpolant is strictly below its bound. -/
theorem c62_coded (Q : ℝ → ℝ) (hQ : IsNormalQuantile Q) (w k : ℕ) (hw : 2 ≤ w)
    (hw2 : w ≤ 2147483645) (hc : complexityAccepted w k) (hk : 1 ≤ k) (hn : 0 < n) (hnw : n ≤ w)
    (solve : Solver n) (eig : EigenSolver n)
    {f : (Fin n → ℝ) → Res ℝ} {F : (Fin n → ℝ) → ℝ} (hf : ∀ x, f x = Except.ok (F x))
    {df : (Fin n → ℝ) → Res (Fin n → ℝ)} {ddf : (Fin n → ℝ) → Res (Matrix (Fin n) (Fin n) ℝ)}
    (normal : MN n) {d : Fin n → ℝ} {h : Matrix (Fin n) (Fin n) ℝ}
    (hd : df normal.mean = Except.ok d) (hh' : ddf normal.mean = Except.ok h) :
    ∃ ls s X, basisLevels i32 Q k = Except.ok ls ∧
      SparseStore.create ⟨i32, basis u32 ls, k⟩ solve eig f df ddf normal = Except.ok s ∧
      (∀ l p, l ≤ k → p < 2 ^ l → ∃ y, (basis u32 ls).getKnot l p = Except.ok y ∧ y < X) ∧
      ∀ x z : Fin n → ℝ,
        z = s.fPlusModifierStored.inverseScale *ᵥ (x - s.fPlusModifierStored.shift) →
        (∀ t, z t < X) →
        ∃ v, SparseGrid.interpolate i32 (basis u32 ls) s.fPlusModifierStored.grid (List.ofFn z) =
            Except.ok v ∧
          (v < s.fPlusModifierStored.grid.bound →
            ∃ (G : Fin n → ℝ) (H : Matrix (Fin n) (Fin n) ℝ),
              s.evaluateDerivative ⟨i32, basis u32 ls, k⟩ x = Except.ok G ∧
              s.evaluateSecondDerivative ⟨i32, basis u32 ls, k⟩ x = Except.ok H ∧ Hᵀ = H ∧
              HasFDerivAt (fun y => SparseGrid.val (s.evaluate ⟨i32, basis u32 ls, k⟩ y))
                (lin G) x ∧
              ∀ j, HasFDerivAt
                (fun y => SparseGrid.comp (s.evaluateDerivative ⟨i32, basis u32 ls, k⟩ y) j)
                (lin (H j)) x) := by
  have hk' : k ≤ 25 := le_trans (guard_bounds hw hc).2 (by norm_num)
  obtain ⟨ls, h1, -, -, h2, h2'⟩ := basis_32 hQ hk hk'
  have hok := quantileOk hQ
  have ha := gridArOk_i32 hw hw2 hc hn hnw
  obtain ⟨s, h3, -, -, -, -, h6, h7, -⟩ := create_ok (env := ⟨i32, basis u32 ls, k⟩) h2
    (hierarchical hok hk) ha solve eig hf normal hd hh'
  refine ⟨ls, s, tk Q k k 0 + 4294967296 * bandwidth Q k, h1, h3, fun l p hl hp => ?_,
    fun x z hz hX => ?_⟩
  · refine ⟨_, h2.knot_ok l p hl hp, ?_⟩
    exact knot_lt_u32 hQ hk hk' hl (own_lt hp)
  · have hD : ∀ t, Dom u32 Q k ∈ 𝓝 (z t) := fun t => by
      filter_upwards [Iio_mem_nhds (hX t)] with y hy
      exact dom_u32 hok hk hy
    have hv := interpolate_raw h2 ha.1 h6 h7 z (fun t => mem_of_mem_nhds (hD t))
    refine ⟨_, hv, fun hlt => ?_⟩
    exact c62_derivatives (env := ⟨i32, basis u32 ls, k⟩) h2 h2' ha.1 s h6
      (by rw [ncard_numPts]; exact h7) x z hz hD
      (fun t l p hl hp => (phi_deriv hok hk hl hp _).1)
      (fun t l p hl hp => (phi_deriv hok hk hl hp _).2) _ hv hlt

/-- The hypotheses of C62 are met: the constant basis and a store of one variable with one
coefficient below the bound; the derivative found is minus `x` (with mean 0 and precision 1). -/
example : ∃ G H, (SparseStore.mk ⟨0, 0⟩ ⟨⟨0, 1, [1], 2⟩, 0, 1, 1⟩ : SparseStore 1).evaluateDerivative
      ⟨exactZ, constBasis, 0⟩ (fun _ => 3) = Except.ok G ∧
    (SparseStore.mk ⟨0, 0⟩ ⟨⟨0, 1, [1], 2⟩, 0, 1, 1⟩ : SparseStore 1).evaluateSecondDerivative
      ⟨exactZ, constBasis, 0⟩ (fun _ => 3) = Except.ok H ∧ Hᵀ = H := by
  have hN : numPts 1 0 = 1 := by simp [numPts, gridCount]
  have hb : BasisOk constBasis 0 Set.univ (fun _ _ => 0) (fun _ _ _ => 1) :=
    ⟨fun _ _ _ _ => rfl, fun _ _ _ _ => trivial, fun _ _ _ _ _ _ => rfl⟩
  have hv := interpolate_raw (g := ⟨0, 1, [1], 2⟩) hb (gridArOk_exactZ 1 0).1 rfl (by rw [hN]; rfl)
    (fun _ : Fin 1 => (3 : ℝ)) (fun _ => trivial)
  obtain ⟨G, H, h1, h2, h3, -⟩ := c62_derivatives (env := ⟨exactZ, constBasis, 0⟩) (D := Set.univ)
    (κ := fun _ _ => 0) (φ := fun _ _ _ => 1) (φ' := fun _ _ _ => 0) (φ'' := fun _ _ _ => 0)
    hb ⟨fun _ _ _ _ _ _ => rfl, fun _ _ _ _ _ _ => rfl⟩ (gridArOk_exactZ 1 0).1
    (SparseStore.mk ⟨0, 0⟩ ⟨⟨0, 1, [1], 2⟩, 0, 1, 1⟩ : SparseStore 1) rfl
    (by rw [ncard_numPts, hN]; rfl) (fun _ => 3) (fun _ => 3) (by simp)
    (fun _ => Filter.univ_mem) (fun _ _ _ _ _ => hasDerivAt_const _ _)
    (fun _ _ _ _ _ => hasDerivAt_const _ _) _ hv (by
      refine lt_of_le_of_lt (min_le_left _ _) ?_
      rw [raw, hN, Finset.sum_range_one]
      simp [SparseGrid.tprod])
  exact ⟨G, H, h1, h2, h3⟩

end c62

end Verif.Store
