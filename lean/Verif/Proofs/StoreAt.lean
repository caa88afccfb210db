import Verif.Proofs.IntegratedAt
import Verif.Proofs.LaplaceDet
import Verif.Proofs.SparseStore

/-! Distances of the points of the quadrature from the mean, and stored functions that return near
the mean. -/
namespace Verif.Store

open Verif.Gauss Verif.Quad Verif.SparseGrid Verif.Spec Verif.Integrated Matrix

/-- The squared distance of a point from the mean, in terms of the distance of its other coordinates
and of its own distance from the conditional mean. -/
theorem ext_dist {m : ℕ} {V : Matrix (Fin (m + 1)) (Fin (m + 1)) ℝ} (hV : V.PosDef)
    (i : Fin (m + 1)) (d : Fin m → ℝ) (s : ℝ) :
    (i.insertNth (((v22 V i)⁻¹ *ᵥ v21 V i) ⬝ᵥ d + s) d : Fin (m + 1) → ℝ) ⬝ᵥ
      (V⁻¹ *ᵥ (i.insertNth (((v22 V i)⁻¹ *ᵥ v21 V i) ⬝ᵥ d + s) d)) =
      d ⬝ᵥ ((v22 V i)⁻¹ *ᵥ d) + s ^ 2 * V⁻¹ i i := by
  have hVs := posDef_symm hV
  have hVi : ∀ r, V (i.succAbove r) i = v21 V i r := fun r =>
    (congrFun (congrFun hVs (i.succAbove r)) i).symm
  have h22 : (v22 V i).PosDef := hV.submatrix Fin.succAbove_right_injective
  have h22s := posDef_symm h22
  have hu : IsUnit V.det := hV.det_pos.ne'.isUnit
  have hu22 : IsUnit (v22 V i).det := h22.det_pos.ne'.isUnit
  set u := (v22 V i)⁻¹ *ᵥ d with hudef
  set z : Fin (m + 1) → ℝ := i.insertNth (((v22 V i)⁻¹ *ᵥ v21 V i) ⬝ᵥ d) d with hz
  have hVz : V *ᵥ (i.insertNth 0 u : Fin (m + 1) → ℝ) = z := by
    funext b
    rcases Fin.eq_self_or_eq_succAbove i b with rfl | ⟨r, rfl⟩
    · rw [hz, Fin.insertNth_apply_same, mulVec, dotProduct, Fin.sum_univ_succAbove _ b,
        Fin.insertNth_apply_same]
      simp only [Fin.insertNth_apply_succAbove, mul_zero, zero_add]
      show v21 V b ⬝ᵥ u = _
      rw [hudef, symm_dot (posDef_symm h22.inv), dotProduct_comm]
    · rw [hz, Fin.insertNth_apply_succAbove, mulVec, dotProduct, Fin.sum_univ_succAbove _ i,
        Fin.insertNth_apply_same]
      simp only [Fin.insertNth_apply_succAbove, mul_zero, zero_add]
      show (v22 V i *ᵥ u) r = _
      rw [hudef, mulVec_mulVec, Matrix.mul_nonsing_inv _ hu22, one_mulVec]
  have hiz : V⁻¹ *ᵥ z = i.insertNth 0 u := by
    rw [← hVz, mulVec_mulVec, Matrix.nonsing_inv_mul _ hu, one_mulVec]
  have he : (i.insertNth (((v22 V i)⁻¹ *ᵥ v21 V i) ⬝ᵥ d + s) d : Fin (m + 1) → ℝ) =
      z + s • Pi.single i 1 := by
    funext b
    rcases Fin.eq_self_or_eq_succAbove i b with rfl | ⟨r, rfl⟩
    · simp [hz]
    · simp [hz, Pi.single_apply]
  have h1 : (Pi.single i 1 : Fin (m + 1) → ℝ) ⬝ᵥ (V⁻¹ *ᵥ z) = 0 := by
    rw [single_one_dotProduct, hiz, Fin.insertNth_apply_same]
  have h2 : z ⬝ᵥ (V⁻¹ *ᵥ Pi.single i 1) = 0 := by
    rw [symm_dot (posDef_symm hV.inv), h1]
  have h3 : (Pi.single i 1 : Fin (m + 1) → ℝ) ⬝ᵥ (V⁻¹ *ᵥ Pi.single i 1) = V⁻¹ i i := by
    rw [single_one_dotProduct]
    simp
  have h4 : z ⬝ᵥ (V⁻¹ *ᵥ z) = d ⬝ᵥ u := by
    rw [hiz, hz, dotProduct, Fin.sum_univ_succAbove _ i]
    simp [dotProduct]
  rw [he, mulVec_add, mulVec_smul, add_dotProduct, dotProduct_add, dotProduct_add, smul_dotProduct,
    smul_dotProduct, dotProduct_smul, dotProduct_smul, h1, h2, h3, h4]
  simp only [smul_eq_mul]
  ring

theorem condVar_inv {m : ℕ} {V : Matrix (Fin (m + 1)) (Fin (m + 1)) ℝ} (hV : V.PosDef)
    (i : Fin (m + 1)) : 0 < condVar V i ∧ condVar V i * V⁻¹ i i = 1 := by
  have h := LaplaceDet.condVar_mul hV.det_pos.ne' i
    (hV.submatrix Fin.succAbove_right_injective).det_pos.ne' (posDef_symm hV)
  have h : condVar V i * V⁻¹ i i = 1 := h
  refine ⟨?_, h⟩
  have := hV.inv.diag_pos (i := i)
  by_contra h0
  have : condVar V i * V⁻¹ i i ≤ 0 := mul_nonpos_of_nonpos_of_nonneg (not_lt.mp h0) this.le
  linarith

/-- The points of the quadrature are near the mean: the regression term has the wrong sign (C28), so
the bound depends on how well the other coordinates determine this one. -/
theorem pt_dist {m : ℕ} {V : Matrix (Fin (m + 1)) (Fin (m + 1)) ℝ} (hV : V.PosDef)
    (i : Fin (m + 1)) (d : Fin m → ℝ) (node : ℝ) {C : ℝ} (hC : V i i * V⁻¹ i i ≤ C) :
    (i.insertNth (Real.sqrt 2 * Real.sqrt (condVar V i) * node -
        ((v22 V i)⁻¹ *ᵥ v21 V i) ⬝ᵥ d) d : Fin (m + 1) → ℝ) ⬝ᵥ
      (V⁻¹ *ᵥ (i.insertNth (Real.sqrt 2 * Real.sqrt (condVar V i) * node -
        ((v22 V i)⁻¹ *ᵥ v21 V i) ⬝ᵥ d) d)) ≤
      8 * C * (d ⬝ᵥ ((v22 V i)⁻¹ *ᵥ d)) + 4 * node ^ 2 := by
  obtain ⟨c0, c1⟩ := condVar_inv hV i
  have h22 : (v22 V i).PosDef := hV.submatrix Fin.succAbove_right_injective
  have hu22 : IsUnit (v22 V i).det := h22.det_pos.ne'.isUnit
  set cross := (v22 V i)⁻¹ *ᵥ v21 V i with hcross
  set D := d ⬝ᵥ ((v22 V i)⁻¹ *ᵥ d) with hD
  have hD0 : 0 ≤ D := posDef_form_nonneg h22.inv d
  set g := cross ⬝ᵥ d with hg
  set σ := Real.sqrt (condVar V i) with hσ
  have hσ2 : σ ^ 2 = condVar V i := Real.sq_sqrt c0.le
  have h2 : Real.sqrt 2 ^ 2 = 2 := Real.sq_sqrt (by norm_num)
  have e : Real.sqrt 2 * σ * node - g = g + (Real.sqrt 2 * σ * node - 2 * g) := by ring
  rw [e, hg, hcross, ext_dist hV i d, ← hcross, ← hg, ← hD]
  have hcs := form_cauchy h22 cross d
  have hcc : cross ⬝ᵥ (v22 V i *ᵥ cross) = V i i - condVar V i := by
    rw [hcross, mulVec_mulVec, Matrix.mul_nonsing_inv _ hu22, one_mulVec, ← hcross, condVar,
      ← hcross, dotProduct_comm]
    ring
  rw [hcc, ← hg, ← hD] at hcs
  have hpos : 0 < V⁻¹ i i := hV.inv.diag_pos
  have k1 : g ^ 2 * V⁻¹ i i ≤ (C - 1) * D := by
    have := mul_le_mul_of_nonneg_right hcs hpos.le
    have e2 : (V i i - condVar V i) * D * V⁻¹ i i = (V i i * V⁻¹ i i - 1) * D := by
      linear_combination (-D) * c1
    rw [e2] at this
    have h5 : (V i i * V⁻¹ i i - 1) * D ≤ (C - 1) * D :=
      mul_le_mul_of_nonneg_right (by linarith) hD0
    linarith
  have k2 : (Real.sqrt 2 * σ * node) ^ 2 * V⁻¹ i i = 2 * node ^ 2 := by
    have : (Real.sqrt 2 * σ * node) ^ 2 = 2 * condVar V i * node ^ 2 := by
      rw [mul_pow, mul_pow, h2, hσ2]
    rw [this]
    linear_combination (2 * node ^ 2) * c1
  have k3 : (Real.sqrt 2 * σ * node - 2 * g) ^ 2 ≤
      2 * (Real.sqrt 2 * σ * node) ^ 2 + 8 * g ^ 2 := by
    nlinarith [sq_nonneg (Real.sqrt 2 * σ * node + 2 * g)]
  have k4 := mul_le_mul_of_nonneg_right k3 hpos.le
  have k5 : (2 * (Real.sqrt 2 * σ * node) ^ 2 + 8 * g ^ 2) * V⁻¹ i i =
      2 * ((Real.sqrt 2 * σ * node) ^ 2 * V⁻¹ i i) + 8 * (g ^ 2 * V⁻¹ i i) := by ring
  rw [k5, k2] at k4
  linarith

variable {n : ℕ}

/-- Both transformations keep the distance. -/
theorem scale_dist {p : Matrix (Fin n) (Fin n) ℝ} (hp : p.PosDef)
    {e : (Fin n → ℝ) × Matrix (Fin n) (Fin n) ℝ} (he : IsEigen p e.1 e.2) (z : Fin n → ℝ) :
    (operatorInverseSqrt e *ᵥ z) ⬝ᵥ (p *ᵥ (operatorInverseSqrt e *ᵥ z)) = z ⬝ᵥ z := by
  have h1 := sqrt_mul_inv hp he
  have h2 : operatorInverseSqrt e * operatorSqrt e = 1 := mul_eq_one_comm.mp h1
  rw [← sqrt_mul_sqrt hp he, mulVec_mulVec, Matrix.mul_assoc, h1, Matrix.mul_one,
    symm_dot sqrt_symm, mulVec_mulVec, h1, one_mulVec]

theorem inv_dist {p : Matrix (Fin n) (Fin n) ℝ} (hp : p.PosDef)
    {e : (Fin n → ℝ) × Matrix (Fin n) (Fin n) ℝ} (he : IsEigen p e.1 e.2) (x : Fin n → ℝ) :
    (operatorSqrt e *ᵥ x) ⬝ᵥ (operatorSqrt e *ᵥ x) = x ⬝ᵥ (p *ᵥ x) := by
  rw [symm_dot sqrt_symm, mulVec_mulVec, sqrt_mul_sqrt hp he]

/-- Basis functions that answer on `D`. -/
structure Answers (env : GridEnv) (D : Set ℝ) (κ : ℕ → ℕ → ℝ) : Prop where
  fns : ∃ φ φ' φ'', BasisOk env.basis env.levelMax D κ φ ∧
    BasisDerivOk env.basis env.levelMax D φ' φ'' ∧ Hierarchical env.levelMax κ φ

/-- Reading a stored function where the basis answers. -/
theorem stored_ok {env : GridEnv} {D : Set ℝ} {κ : ℕ → ℕ → ℝ} (hb : Answers env D κ)
    (ha : GridArOk env.ar n env.levelMax) {s : SparseStore n}
    (hd : s.fPlusModifierStored.grid.d = n)
    (hl : s.fPlusModifierStored.grid.coefficients.length = numPts n env.levelMax)
    {x : Fin n → ℝ}
    (hx : ∀ t, (s.fPlusModifierStored.inverseScale *ᵥ (x - s.fPlusModifierStored.shift)) t ∈ D) :
    (∃ v, s.evaluate env x = Except.ok v) ∧ (∃ v, s.evaluateDerivative env x = Except.ok v) ∧
      ∃ v, s.evaluateSecondDerivative env x = Except.ok v := by
  obtain ⟨φ, φ', φ'', b1, b2, -⟩ := hb.fns
  have e0 := interpolate_raw b1 ha.1 hd hl _ hx
  set z := s.fPlusModifierStored.inverseScale *ᵥ (x - s.fPlusModifierStored.shift) with hz
  have e12 : (∃ G, SparseGrid.interpolateDerivative env.ar env.basis s.fPlusModifierStored.grid
        (List.ofFn z) = Except.ok G) ∧
      ∃ H, SparseGrid.interpolateSecondDerivative env.ar env.basis s.fPlusModifierStored.grid
        (List.ofFn z) = Except.ok H := by
    by_cases hlt : raw s.fPlusModifierStored.grid φ n env.levelMax z <
        s.fPlusModifierStored.grid.bound
    · obtain ⟨G, e1, -⟩ := interpolateDerivative_raw b1 b2 ha.1 hd hl z hx hlt
      obtain ⟨H, e2, -⟩ := interpolateSecondDerivative_raw b1 b2 ha.1 hd hl z hx hlt
      exact ⟨⟨G, e1⟩, H, e2⟩
    · obtain ⟨e1, e2⟩ := c08_clamped_zero (ar := env.ar) (b := env.basis) _ _ _ e0
        (by rw [min_eq_right (not_lt.mp hlt)])
      exact ⟨⟨_, e1⟩, _, e2⟩
  obtain ⟨⟨G, e1⟩, H, e2⟩ := e12
  refine ⟨?_, ?_, ?_⟩
  · rw [SparseStore.evaluate, Transform.interpolate]
    rw [← hz, e0]
    exact ⟨_, rfl⟩
  · rw [SparseStore.evaluateDerivative, Transform.interpolateDerivative]
    rw [← hz, e1]
    exact ⟨_, rfl⟩
  · rw [SparseStore.evaluateSecondDerivative, Transform.interpolateSecondDerivative]
    rw [← hz, e2]
    exact ⟨_, rfl⟩

/-- A list of coordinates as a point. -/
def ptOf (z : List ℝ) : Fin n → ℝ := fun t => z.getD t 0

/-- A function that returns at the transformed grid points and whose derivatives return at the mean
can be stored. -/
theorem create_at {env : GridEnv} {D : Set ℝ} {κ : ℕ → ℕ → ℝ} (hb : Answers env D κ)
    (ha : GridArOk env.ar n env.levelMax) (solve : Solver n) (eig : EigenSolver n)
    {f : (Fin n → ℝ) → Res ℝ} {df : (Fin n → ℝ) → Res (Fin n → ℝ)}
    {ddf : (Fin n → ℝ) → Res (Matrix (Fin n) (Fin n) ℝ)} (normal : MN n)
    (hf : ∀ ls ps, IsGridPoint n env.levelMax ls ps → ∃ v,
      f (normal.mean + (if n > 0 then operatorInverseSqrt (eig normal.precision) else 0) *ᵥ
        ptOf (List.zipWith κ ls ps)) = Except.ok v)
    (hd : ∃ v, df normal.mean = Except.ok v) (hh : ∃ v, ddf normal.mean = Except.ok v) :
    ∃ s, SparseStore.create env solve eig f df ddf normal = Except.ok s ∧
      s.fPlusModifierStored.inverseScale =
        (if n > 0 then operatorSqrt (eig normal.precision) else 0) ∧
      s.fPlusModifierStored.shift = normal.mean ∧
      s.fPlusModifierStored.grid.d = n ∧
      s.fPlusModifierStored.grid.coefficients.length = numPts n env.levelMax := by
  obtain ⟨φ, φ', φ'', b1, b2, b3⟩ := hb.fns
  obtain ⟨d, hd⟩ := hd
  obtain ⟨h, hh⟩ := hh
  have hs : (if n > 0 then normal.mean else 0) = normal.mean := by
    split
    · rfl
    · obtain rfl : n = 0 := by omega
      exact Subsingleton.elim _ _
  set q := modif solve normal d h with hq
  set sc := (if n > 0 then operatorInverseSqrt (eig normal.precision) else 0) with hsc
  set fr : List ℝ → Res ℝ := fTransform (fun x => do let v ← f x; return v + q.evaluate x)
    normal.mean sc with hfr
  have hok : ∀ ls ps, IsGridPoint n env.levelMax ls ps →
      fr (List.zipWith κ ls ps) = Except.ok (onSet Set.univ fr 0 (List.zipWith κ ls ps)) := by
    intro ls ps hg
    obtain ⟨v, ev⟩ := hf ls ps hg
    have hlen : (List.zipWith κ ls ps).length = n := by
      simp [hg.levels_length, hg.positions_length]
    have : ∃ w, fr (List.zipWith κ ls ps) = Except.ok w := by
      obtain ⟨z, hz⟩ := ofFn_of_length hlen
      have hz' : (ptOf (List.zipWith κ ls ps) : Fin n → ℝ) = z := by
        rw [hz]
        funext t
        simp [ptOf, List.getD_eq_getElem?_getD]
      rw [hz'] at ev
      rw [hfr, fTransform, hz, ofList_ofFn]
      simp only [res_ok_bind]
      rw [ev]
      exact ⟨_, rfl⟩
    obtain ⟨w, ew⟩ := this
    rw [onSet, if_pos (Set.mem_univ _), ew]
  obtain ⟨g, h1, h2, h3, -⟩ := construct_at b1 b3 ha (onSet Set.univ fr 0) hok
  refine ⟨⟨q, ⟨g, normal.mean, sc,
    (if n > 0 then operatorSqrt (eig normal.precision) else 0)⟩⟩, ?_, rfl, rfl, h2, h3⟩
  rw [SparseStore.create]
  simp only
  rw [hd, hh]
  simp only [res_ok_bind]
  rw [Transform.ofNormal, hs]
  erw [h1]
  rfl

end Verif.Store
