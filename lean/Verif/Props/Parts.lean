import Verif.Spec.Parts
import Verif.Props.Hol
import Verif.Proofs.Grouped
import Mathlib.MeasureTheory.Constructions.Pi
import Mathlib.MeasureTheory.Integral.Prod
import Mathlib.LinearAlgebra.Matrix.SchurComplement

/-!
# C105: models made of independent parts
-/
namespace Verif.Parts

open Verif.Split Verif.IS Verif.Parts.Spec
open Matrix MeasureTheory

variable {q₁ q₂ n₁ n₂ p p₁ p₂ : ℕ} {M : ModFr (q₁ + q₂) (n₁ + n₂) p} {M₁ : ModFr q₁ n₁ p₁}
  {M₂ : ModFr q₂ n₂ p₂} {theta beta theta₁ beta₁ theta₂ beta₂ : List ℝ}

/-- C105, the integrand: the log-integrand is the sum of those of the parts. -/
theorem c105_integrand (h : Parts M M₁ M₂ theta beta theta₁ beta₁ theta₂ beta₂) (μ : ℝ → ℝ)
    (u₁ : Fin q₁ → ℝ) (u₂ : Fin q₂ → ℝ) :
    Split.Spec.logIntegrand M μ theta beta (Fin.append u₁ u₂) =
      Split.Spec.logIntegrand M₁ μ theta₁ beta₁ u₁ + Split.Spec.logIntegrand M₂ μ theta₂ beta₂ u₂ := by
  unfold Split.Spec.logIntegrand
  rw [Fin.sum_univ_add, Fin.sum_univ_add]
  simp only [h.resp₁, h.resp₂, h.weight₁, h.weight₂, h.eta₁, h.eta₂, Fin.append_left,
    Fin.append_right]
  ring

theorem integral_append (f : (Fin q₁ → ℝ) → ℝ) (g : (Fin q₂ → ℝ) → ℝ) :
    ∫ u : Fin (q₁ + q₂) → ℝ, f (fun i => u (Fin.castAdd q₂ i)) * g (fun i => u (Fin.natAdd q₁ i)) =
      (∫ u, f u) * ∫ u, g u := by
  rw [← integral_prod_mul]
  change _ = ∫ z : (Fin q₁ → ℝ) × (Fin q₂ → ℝ), f z.1 * g z.2
  have h1 := volume_measurePreserving_piCongrLeft (fun _ : Fin (q₁ + q₂) => ℝ) finSumFinEquiv
  have h2 := volume_measurePreserving_sumPiEquivProdPi (fun _ : Fin q₁ ⊕ Fin q₂ => ℝ)
  rw [← h1.integral_comp (MeasurableEquiv.measurableEmbedding _),
    ← h2.integral_comp (MeasurableEquiv.measurableEmbedding _)]
  refine integral_congr_ae (.of_forall fun u => ?_)
  dsimp only
  congr 2
  · funext i
    have := MeasurableEquiv.piCongrLeft_apply_apply finSumFinEquiv (β := fun _ => ℝ) u (Sum.inl i)
    exact this
  · funext i
    have := MeasurableEquiv.piCongrLeft_apply_apply finSumFinEquiv (β := fun _ => ℝ) u (Sum.inr i)
    exact this

/-- C105, the likelihood: it is the product of the likelihoods of the parts. -/
theorem c105_likelihood (h : Parts M M₁ M₂ theta beta theta₁ beta₁ theta₂ beta₂) (μ : ℝ → ℝ) :
    ∫ u, Real.exp (Split.Spec.logIntegrand M μ theta beta u) =
      (∫ u, Real.exp (Split.Spec.logIntegrand M₁ μ theta₁ beta₁ u)) *
        ∫ u, Real.exp (Split.Spec.logIntegrand M₂ μ theta₂ beta₂ u) := by
  rw [← integral_append]
  refine integral_congr_ae (.of_forall fun u => ?_)
  dsimp only
  rw [← Real.exp_add, ← c105_integrand h, Fin.append_castAdd_natAdd]

/-! ## Laplace approximation of second order -/

/-- A matrix of two blocks. -/
def blocks {a b c d : ℕ} (A : Matrix (Fin a) (Fin b) ℝ) (B : Matrix (Fin c) (Fin d) ℝ) :
    Matrix (Fin (a + c)) (Fin (b + d)) ℝ :=
  (fromBlocks A 0 0 B).submatrix finSumFinEquiv.symm finSumFinEquiv.symm

section
variable {a b c d e f : ℕ} (A : Matrix (Fin a) (Fin b) ℝ) (B : Matrix (Fin c) (Fin d) ℝ)

theorem blocks_11 (i j) : blocks A B (Fin.castAdd c i) (Fin.castAdd d j) = A i j := by simp [blocks]
theorem blocks_22 (i j) : blocks A B (Fin.natAdd a i) (Fin.natAdd b j) = B i j := by simp [blocks]
theorem blocks_12 (i j) : blocks A B (Fin.castAdd c i) (Fin.natAdd b j) = 0 := by simp [blocks]
theorem blocks_21 (i j) : blocks A B (Fin.natAdd a i) (Fin.castAdd d j) = 0 := by simp [blocks]

theorem eq_blocks {C : Matrix (Fin (a + c)) (Fin (b + d)) ℝ}
    (h11 : ∀ i j, C (Fin.castAdd c i) (Fin.castAdd d j) = A i j)
    (h22 : ∀ i j, C (Fin.natAdd a i) (Fin.natAdd b j) = B i j)
    (h12 : ∀ i j, C (Fin.castAdd c i) (Fin.natAdd b j) = 0)
    (h21 : ∀ i j, C (Fin.natAdd a i) (Fin.castAdd d j) = 0) : C = blocks A B := by
  ext i j
  refine Fin.addCases (fun i => ?_) (fun i => ?_) i <;>
    refine Fin.addCases (fun j => ?_) (fun j => ?_) j
  · rw [h11, blocks_11]
  · rw [h12, blocks_12]
  · rw [h21, blocks_21]
  · rw [h22, blocks_22]

theorem blocks_transpose : (blocks A B)ᵀ = blocks Aᵀ Bᵀ := by
  simp [blocks, transpose_submatrix, fromBlocks_transpose]

theorem blocks_mul (C : Matrix (Fin b) (Fin e) ℝ) (D : Matrix (Fin d) (Fin f) ℝ) :
    blocks A B * blocks C D = blocks (A * C) (B * D) := by
  unfold blocks
  rw [submatrix_mul_equiv, fromBlocks_multiply]
  simp

theorem blocks_one : blocks (1 : Matrix (Fin a) (Fin a) ℝ) (1 : Matrix (Fin c) (Fin c) ℝ) = 1 := by
  unfold blocks
  rw [fromBlocks_one, submatrix_one_equiv]

theorem blocks_det (A : Matrix (Fin a) (Fin a) ℝ) (B : Matrix (Fin c) (Fin c) ℝ) :
    (blocks A B).det = A.det * B.det := by
  unfold blocks
  rw [det_submatrix_equiv_self, det_fromBlocks_zero₂₁]

theorem blocks_inv {A : Matrix (Fin a) (Fin a) ℝ} {B : Matrix (Fin c) (Fin c) ℝ} (hA : A.det ≠ 0)
    (hB : B.det ≠ 0) : (blocks A B)⁻¹ = blocks A⁻¹ B⁻¹ := by
  refine inv_eq_right_inv ?_
  rw [blocks_mul, mul_nonsing_inv A (isUnit_iff_ne_zero.2 hA),
    mul_nonsing_inv B (isUnit_iff_ne_zero.2 hB), blocks_one]

end

/-- The correction is additive. -/
theorem epsilonOf_blocks (g₃ g₄ : Fin (n₁ + n₂) → ℝ) (A : Matrix (Fin n₁) (Fin n₁) ℝ)
    (B : Matrix (Fin n₂) (Fin n₂) ℝ) : Hol.epsilonOf g₃ g₄ (blocks A B) =
      Hol.epsilonOf (fun j => g₃ (Fin.castAdd n₂ j)) (fun j => g₄ (Fin.castAdd n₂ j)) A +
        Hol.epsilonOf (fun j => g₃ (Fin.natAdd n₁ j)) (fun j => g₄ (Fin.natAdd n₁ j)) B := by
  unfold Hol.epsilonOf
  simp only [dotProduct, mulVec, transpose_apply, of_apply, Fin.sum_univ_add, blocks_11, blocks_22,
    blocks_12, blocks_21, zero_mul, Finset.sum_const_zero, add_zero, zero_add, ne_eq,
    OfNat.ofNat_ne_zero, not_false_eq_true, zero_pow]
  ring

theorem design_parts (h : Parts M M₁ M₂ theta beta theta₁ beta₁ theta₂ beta₂) :
    (Matrix.of fun i c => Split.Spec.lambdat M theta i c) * M.Zt =
      blocks ((Matrix.of fun i c => Split.Spec.lambdat M₁ theta₁ i c) * M₁.Zt)
        ((Matrix.of fun i c => Split.Spec.lambdat M₂ theta₂ i c) * M₂.Zt) := by
  have z : ∀ u₁ u₂ j, (∑ r, (∑ c, Split.Spec.lambdat M theta (Fin.castAdd q₂ r) c * M.Zt c j) * u₁ r) +
      (∑ r, (∑ c, Split.Spec.lambdat M theta (Fin.natAdd q₁ r) c * M.Zt c j) * u₂ r) =
      Split.Spec.eta M theta beta (Fin.append u₁ u₂) j - Split.Spec.eta M theta beta (Fin.append 0 0) j := by
    intro u₁ u₂ j
    unfold Split.Spec.eta
    rw [Fin.sum_univ_add, Fin.sum_univ_add]
    simp
  have z₁ : ∀ u j, ∑ r, (∑ c, Split.Spec.lambdat M₁ theta₁ r c * M₁.Zt c j) * u r =
      Split.Spec.eta M₁ theta₁ beta₁ u j - Split.Spec.eta M₁ theta₁ beta₁ 0 j := by
    intro u j
    simp [Split.Spec.eta]
  have z₂ : ∀ u j, ∑ r, (∑ c, Split.Spec.lambdat M₂ theta₂ r c * M₂.Zt c j) * u r =
      Split.Spec.eta M₂ theta₂ beta₂ u j - Split.Spec.eta M₂ theta₂ beta₂ 0 j := by
    intro u j
    simp [Split.Spec.eta]
  refine eq_blocks _ _ (fun i j => ?_) (fun i j => ?_) (fun i j => ?_) (fun i j => ?_)
  · have a := z (Pi.single i 1) 0 (Fin.castAdd n₂ j)
    have b := z₁ (Pi.single i 1) j
    rw [h.eta₁, h.eta₁, ← b] at a
    simpa [Pi.single_apply, Matrix.mul_apply] using a
  · have a := z 0 (Pi.single i 1) (Fin.natAdd n₁ j)
    have b := z₂ (Pi.single i 1) j
    rw [h.eta₂, h.eta₂, ← b] at a
    simpa [Pi.single_apply, Matrix.mul_apply] using a
  · have a := z (Pi.single i 1) 0 (Fin.natAdd n₁ j)
    rw [h.eta₂, h.eta₂, sub_self] at a
    simpa [Pi.single_apply, Matrix.mul_apply] using a
  · have a := z 0 (Pi.single i 1) (Fin.castAdd n₂ j)
    rw [h.eta₁, h.eta₁, sub_self] at a
    simpa [Pi.single_apply, Matrix.mul_apply] using a

/-- C105, Laplace approximation of second order: the correction is the sum of those of the parts, or one
of them stops with the same error. -/
theorem c105_hol (h : Parts M M₁ M₂ theta beta theta₁ beta₁ theta₂ beta₂)
    (hM : Split.Spec.WellFormed M theta.length) (hM₁ : Split.Spec.WellFormed M₁ theta₁.length)
    (hM₂ : Split.Spec.WellFormed M₂ theta₂.length) (ht : theta ≠ []) (ht₁ : theta₁ ≠ [])
    (ht₂ : theta₂ ≠ []) (hb : beta.length = p) (hb₁ : beta₁.length = p₁) (hb₂ : beta₂.length = p₂)
    {a : NormalApprox (q₁ + q₂)} {a₁ : NormalApprox q₁} {a₂ : NormalApprox q₂}
    (ha : Independent a a₁ a₂) (family link : String) :
    Hol.findEpsilon1 family link (theta ++ beta) M theta.length a = (do
      let e₁ ← Hol.findEpsilon1 family link (theta₁ ++ beta₁) M₁ theta₁.length a₁
      let e₂ ← Hol.findEpsilon1 family link (theta₂ ++ beta₂) M₂ theta₂.length a₂
      return e₁ + e₂) := by
  have hw : ∀ {r m s : ℕ} (F : ModFr r m s),
      (fun j : Fin m => (IS.weightsOf F).getD j 0) = Split.Spec.weight F := fun F => by
    funext j
    rw [IS.weightsOf_eq, List.getD_eq_getElem _ _ (by simp), List.getElem_ofFn]
  unfold Hol.findEpsilon1
  rcases Verif.Family.Family.ofNames family link with e | f
  · rfl
  simp only [res_ok_bind, Hol.etaHat_eq hM ht hb, Hol.etaHat_eq hM₁ ht₁ hb₁,
    Hol.etaHat_eq hM₂ ht₂ hb₂, hw]
  rcases Grouped.third_lin f with h3 | ⟨a3, b3, h3⟩
  · simp only at h3
    rw [h3, h3, h3]; rfl
  rcases Grouped.fourth_lin f with h4 | ⟨a4, b4, h4⟩
  · simp only at h3 h4
    rw [h3, h3, h3, h4, h4, h4]; rfl
  simp only at h3 h4
  rw [h3, h3, h3, h4, h4, h4]
  simp only [res_ok_bind]
  unfold Hol.findM
  rw [IS.findLambdatThetaZt_ok beta hM ht, IS.findLambdatThetaZt_ok beta₁ hM₁ ht₁,
    IS.findLambdatThetaZt_ok beta₂ hM₂ ht₂]
  simp only [res_ok_bind]
  have hp : a.precision = blocks a₁.precision a₂.precision :=
    eq_blocks _ _ ha.precision₁ ha.precision₂ ha.cross₁ ha.cross₂
  rw [hp, blocks_det]
  by_cases d₁ : a₁.precision.det = 0
  · rw [if_pos (by rw [d₁, zero_mul]), if_pos d₁]
    rfl
  by_cases d₂ : a₂.precision.det = 0
  · rw [if_pos (by rw [d₂, mul_zero]), if_neg d₁, if_pos d₂]
    rfl
  rw [if_neg (mul_ne_zero d₁ d₂), if_neg d₁, if_neg d₂]
  refine congrArg Except.ok ?_
  rw [design_parts h, blocks_inv d₁ d₂, blocks_transpose, blocks_mul, blocks_mul, epsilonOf_blocks]
  simp only [ha.mean, h.resp₁, h.resp₂, h.weight₁, h.weight₂, h.eta₁, h.eta₂]

/-! ## Random effects without observations -/

/-- C105: the likelihood of random effects without observations is 1, so that they may be left out. -/
theorem c105_unused (M₂ : ModFr q₂ 0 p₂) (μ : ℝ → ℝ) :
    ∫ u, Real.exp (Split.Spec.logIntegrand M₂ μ theta₂ beta₂ u) = 1 := by
  have h : ∀ u : Fin q₂ → ℝ, Real.exp (Split.Spec.logIntegrand M₂ μ theta₂ beta₂ u) =
      ∏ r, ProbabilityTheory.gaussianPDFReal 0 1 (u r) := fun u => by
    unfold Split.Spec.logIntegrand
    rw [Finset.univ_eq_empty, Finset.sum_empty, zero_add, Real.exp_sum]
    exact Finset.prod_congr rfl fun r _ =>
      Real.exp_log (ProbabilityTheory.gaussianPDFReal_pos 0 1 _ one_ne_zero)
  simp only [h]
  rw [integral_fintype_prod_volume_eq_prod]
  exact Finset.prod_eq_one fun r _ => ProbabilityTheory.integral_gaussianPDFReal_eq_one 0 one_ne_zero

/-- Their correction is 0. -/
theorem c105_unused_hol (M₂ : ModFr q₂ 0 p₂) (h : Split.Spec.WellFormed M₂ theta₂.length)
    (ht : theta₂ ≠ []) (hb : beta₂.length = p₂) {a₂ : NormalApprox q₂} (ha : a₂.precision.det ≠ 0)
    {link : String} {μ : ℝ → ℝ} (hl : GLMM.IsLink link μ) :
    Hol.findEpsilon1 "binomial" link (theta₂ ++ beta₂) M₂ theta₂.length a₂ = Except.ok 0 := by
  obtain ⟨f, hf, hfam⟩ := GLMM.family_facts hl
  obtain ⟨-, D1, D2, D3, D4, -, -, h3, h4, -⟩ := hfam 0 (Split.Spec.eta M₂ theta₂ beta₂ a₂.mean)
    M₂.resp (fun j => (IS.weightsOf M₂).getD j 0) fun j => j.elim0
  unfold Hol.findEpsilon1
  rw [hf, res_ok_bind, Hol.etaHat_eq h ht hb, res_ok_bind]
  dsimp only
  rw [h3, res_ok_bind, h4, res_ok_bind]
  unfold Hol.findM
  rw [IS.findLambdatThetaZt_ok beta₂ h ht, res_ok_bind, if_neg ha]
  refine congrArg Except.ok ?_
  simp [Hol.epsilonOf, dotProduct]

/-! ## Model frames one after the other -/

section
variable {M₁ : ModFr q₁ n₁ p} {M₂ : ModFr q₂ n₂ p}

theorem stack_wf {size : ℕ} (h₁ : Split.Spec.WellFormed M₁ size) (h₂ : Split.Spec.WellFormed M₂ size) :
    Split.Spec.WellFormed (stack M₁ M₂) size where
  nodup := by
    refine List.Nodup.append (h₁.nodup.map fun x y hxy => ?_) (h₂.nodup.map fun x y hxy => ?_) ?_
    · simp only [Prod.mk.injEq, Fin.castAdd_inj] at hxy
      exact Prod.ext hxy.1 hxy.2
    · simp only [Prod.mk.injEq, Fin.natAdd_inj] at hxy
      exact Prod.ext hxy.1 hxy.2
    · intro x hx hy
      obtain ⟨x', -, rfl⟩ := List.mem_map.1 hx
      obtain ⟨y', -, hy'⟩ := List.mem_map.1 hy
      have := congrArg (fun e => (e.1 : ℕ)) hy'
      simp only [Fin.val_natAdd, Fin.val_castAdd] at this
      omega
  diag c := by
    refine Fin.addCases (fun c => ?_) (fun c => ?_) c
    · exact List.mem_append_left _ (List.mem_map.2 ⟨(c, c), h₁.diag c, rfl⟩)
    · exact List.mem_append_right _ (List.mem_map.2 ⟨(c, c), h₂.diag c, rfl⟩)
  length := by simp [stack, h₁.length, h₂.length]
  lind l hl := (List.mem_append.1 hl).elim (h₁.lind l) (h₂.lind l)
  zt c j := by
    refine Fin.addCases (fun c => ?_) (fun c => ?_) c <;>
      refine Fin.addCases (fun j => ?_) (fun j => ?_) j
    · simpa [stack] using h₁.zt c j
    · simp [stack]
    · simp [stack]
    · simpa [stack] using h₂.zt c j

/-- `Lambda'` from the stored entries in order. -/
theorem lambdat_list {q n p : ℕ} {M : ModFr q n p} (h : M.Lind.length = M.lambdat.length)
    (theta : List ℝ) (r c : Fin q) : Split.Spec.lambdat M theta r c =
      ((M.lambdat.zip M.Lind).map fun e => if e.1 = (r, c) then theta.getD (e.2 - 1).toNat 0 else 0).sum := by
  have hl : ((M.lambdat.zip M.Lind).map fun e : (Fin q × Fin q) × ℤ =>
      if e.1 = (r, c) then theta.getD (e.2 - 1).toNat 0 else 0) =
      List.ofFn fun k : Fin M.lambdat.length =>
        if M.lambdat.get k = (r, c) then theta.getD (M.Lind.getD k 0 - 1).toNat 0 else 0 := by
    refine List.ext_getElem (by simp [h]) fun k h1 h2 => ?_
    have hk : k < M.Lind.length := by
      simp only [List.length_ofFn] at h2
      omega
    simp [List.getElem?_eq_getElem hk]
  rw [hl, List.sum_ofFn]
  rfl

theorem stack_zip (h₁ : M₁.Lind.length = M₁.lambdat.length) :
    (stack M₁ M₂).lambdat.zip (stack M₁ M₂).Lind =
      (M₁.lambdat.zip M₁.Lind).map (fun e => ((Fin.castAdd q₂ e.1.1, Fin.castAdd q₂ e.1.2), e.2)) ++
        (M₂.lambdat.zip M₂.Lind).map (fun e => ((Fin.natAdd q₁ e.1.1, Fin.natAdd q₁ e.1.2), e.2)) := by
  show List.zip (_ ++ _) (_ ++ _) = _
  rw [List.zip_append (by simp [h₁]), List.zip_map_left, List.zip_map_left]
  rfl

theorem stack_lambdat {theta : List ℝ} (h₁ : M₁.Lind.length = M₁.lambdat.length)
    (h₂ : M₂.Lind.length = M₂.lambdat.length) :
    (Matrix.of fun r c => Split.Spec.lambdat (stack M₁ M₂) theta r c) =
      blocks (Matrix.of fun r c => Split.Spec.lambdat M₁ theta r c)
        (Matrix.of fun r c => Split.Spec.lambdat M₂ theta r c) := by
  have hs : (stack M₁ M₂).Lind.length = (stack M₁ M₂).lambdat.length := by simp [stack, h₁, h₂]
  have hne : ∀ (i : Fin q₁) (k : Fin q₂), Fin.castAdd q₂ i ≠ Fin.natAdd q₁ k := fun i k hc => by
    have := congrArg Fin.val hc
    simp only [Fin.val_natAdd, Fin.val_castAdd] at this
    omega
  refine eq_blocks _ _ (fun r c => ?_) (fun r c => ?_) (fun r c => ?_) (fun r c => ?_) <;>
    simp only [of_apply] <;> rw [lambdat_list hs, stack_zip h₁, List.map_append, List.sum_append]
  · rw [lambdat_list h₁, List.map_map, List.map_map]
    simp [Function.comp_def, Prod.ext_iff, (hne _ _).symm]
  · rw [lambdat_list h₂, List.map_map, List.map_map]
    simp [Function.comp_def, Prod.ext_iff, hne]
  · rw [List.map_map, List.map_map]
    simp [Function.comp_def, Prod.ext_iff, hne, (hne _ _).symm]
  · rw [List.map_map, List.map_map]
    simp [Function.comp_def, Prod.ext_iff, hne, (hne _ _).symm]

theorem stack_Zt : (stack M₁ M₂).Zt = blocks M₁.Zt M₂.Zt :=
  eq_blocks _ _ (fun _ _ => by simp [stack]) (fun _ _ => by simp [stack])
    (fun _ _ => by simp [stack]) (fun _ _ => by simp [stack])

theorem eta_design {q n p : ℕ} (M : ModFr q n p) (theta beta : List ℝ) (u : Fin q → ℝ) (j : Fin n) :
    Split.Spec.eta M theta beta u j = (∑ k : Fin p, M.X j k * beta.getD k 0) +
      ∑ r, ((Matrix.of fun r c => Split.Spec.lambdat M theta r c) * M.Zt) r j * u r := by
  simp only [Split.Spec.eta, Matrix.mul_apply, of_apply]

/-- C105: model frames put one after the other are independent parts of the result. -/
theorem c105_stack (M₁ : ModFr q₁ n₁ p) (M₂ : ModFr q₂ n₂ p) (theta beta : List ℝ)
    (h₁ : M₁.Lind.length = M₁.lambdat.length) (h₂ : M₂.Lind.length = M₂.lambdat.length) :
    Parts (stack M₁ M₂) M₁ M₂ theta beta theta beta theta beta where
  resp₁ j := by simp [stack]
  resp₂ j := by simp [stack]
  weight₁ j := by simp [stack, Split.Spec.weight]
  weight₂ j := by simp [stack, Split.Spec.weight]
  eta₁ u₁ u₂ j := by
    rw [eta_design, eta_design, stack_lambdat h₁ h₂, stack_Zt, blocks_mul, Fin.sum_univ_add]
    simp [blocks_11, blocks_21, stack]
  eta₂ u₁ u₂ j := by
    rw [eta_design, eta_design, stack_lambdat h₁ h₂, stack_Zt, blocks_mul, Fin.sum_univ_add]
    simp [blocks_12, blocks_22, stack]

end

/-! ## A case -/

/-- Two groups of crossed random effects, independent of each other. -/
example : ∫ u, Real.exp (Split.Spec.logIntegrand (stack Split.crossed Split.crossed) Verif.Family.expit [1, 2] [0] u) =
    (∫ u, Real.exp (Split.Spec.logIntegrand Split.crossed Verif.Family.expit [1, 2] [0] u)) *
      ∫ u, Real.exp (Split.Spec.logIntegrand Split.crossed Verif.Family.expit [1, 2] [0] u) :=
  c105_likelihood (c105_stack _ _ _ _ Split.crossed_wf.length Split.crossed_wf.length) _

/-- The correction of the two groups together is twice that of one. -/
example (a : NormalApprox (2 + 2)) (ha : Independent a IS.dependent IS.dependent) (link : String) :
    Hol.findEpsilon1 "binomial" link [1, 2, 0] (stack Split.crossed Split.crossed) 2 a = (do
      let e ← Hol.findEpsilon1 "binomial" link [1, 2, 0] Split.crossed 2 IS.dependent
      return e + e) := by
  have h := c105_hol
    (c105_stack Split.crossed Split.crossed [1, 2] [0] Split.crossed_wf.length Split.crossed_wf.length)
    (stack_wf Split.crossed_wf Split.crossed_wf) Split.crossed_wf Split.crossed_wf (by simp) (by simp)
    (by simp) rfl rfl rfl ha "binomial" link
  refine h.trans ?_
  change ((Hol.findEpsilon1 "binomial" link [1, 2, 0] Split.crossed 2 IS.dependent) >>= fun e₁ =>
    (Hol.findEpsilon1 "binomial" link [1, 2, 0] Split.crossed 2 IS.dependent) >>= fun e₂ =>
      pure (e₁ + e₂)) = _
  rcases Hol.findEpsilon1 "binomial" link [1, 2, 0] Split.crossed 2 IS.dependent with e | v <;> rfl

end Verif.Parts
