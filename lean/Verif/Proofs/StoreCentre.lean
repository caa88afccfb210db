import Verif.Proofs.SparseStore
import Verif.Props.SparseGrid

/-! Storing a function on the grid of level 0: the grid has one point, the centre, and the stored
value there is exact. -/
namespace Verif.Store

open Verif.Gauss Verif.Quad Verif.SparseGrid Verif.Point Verif.Counting Verif.Spec Matrix

/-- The basis answers at level 0, where its only knot is zero. -/
def CentreBasis (b : BasisI) : Prop :=
  b.getKnot 0 0 = Except.ok 0 ∧ b.evaluate 0 0 0 = Except.ok 1

theorem CentreBasis.basisOk {b : BasisI} (h : CentreBasis b) :
    BasisOk b 0 {0} (fun _ _ => 0) (fun _ _ _ => 1) := by
  refine ⟨?_, ?_, ?_⟩
  · intro l p hl hp
    obtain rfl : l = 0 := by omega
    obtain rfl : p = 0 := by simpa using hp
    exact h.1
  · intro l p hl hp
    rfl
  · rintro x rfl l p hl hp
    obtain rfl : l = 0 := by omega
    obtain rfl : p = 0 := by simpa using hp
    exact h.2

theorem hierarchical_centre : Hierarchical 0 (fun _ _ => 0) (fun _ _ _ => 1) := by
  constructor <;> intros <;> first | rfl | omega | simp_all

theorem numPts_centre (d : ℕ) : numPts d 0 = 1 := by
  rw [numPts]
  split
  · rfl
  · simp [gridCount]

theorem zip_centre (d : ℕ) : List.zipWith (fun _ _ => (0 : ℝ)) (SparseGrid.pt d 0).1
    (SparseGrid.pt d 0).2 = List.replicate d 0 := by
  simp [SparseGrid.pt]

theorem getGridPoint_centre {b : BasisI} (h : CentreBasis b) (d : ℕ) :
    getGridPoint b (center d) = Except.ok (List.replicate d 0) := by
  have := getGridPoint_ok h.basisOk (d := d) (i := 0) (s := 0)
    (pt_isGridPoint (n := 0) (k := 0) (by rw [numPts_centre]; omega))
  rw [zip_centre] at this
  exact this

theorem construct_centre {ar : Arith} {b : BasisI} (hb : CentreBasis b) {d : ℕ}
    (ha : GridArOk ar d 0) {f : List ℝ → Res ℝ} {v : ℝ}
    (hf : f (List.replicate d 0) = Except.ok v) :
    ∃ g, construct ar b f d 0 = Except.ok g ∧
      SparseGrid.interpolate ar b g (List.replicate d 0) = Except.ok v ∧ g.bound = v := by
  obtain ⟨g, h1, h2, h3, h4, h5, n, hn, hbd⟩ := construct_ok hb.basisOk hierarchical_centre ha
    (fun _ => v) (fr := fun _ => Except.ok v) (fun _ _ => rfl)
  have hc : construct ar b f d 0 = construct ar b (fun _ => Except.ok v) d 0 := by
    have : initializeStorage ar b f d 1 = initializeStorage ar b (fun _ => Except.ok v) d 1 := by
      rw [initializeStorage, initializeStorage, storageLoop, storageLoop, getGridPoint_centre hb]
      simp only [res_ok_bind]
      rw [hf]
      rfl
    unfold construct
    rw [ha.2, findNum_eq, numPts_centre]
    simp only [res_ok_bind, Int.toNat_natCast, this]
  refine ⟨g, hc.trans h1, ?_, hbd⟩
  rw [interpolate_ok hb.basisOk ha.1 h2 h3 ⟨by simp, fun y hy => (List.mem_replicate.mp hy).2⟩]
  have := h4 0 (by rw [numPts_centre]; omega)
  rw [zip_centre] at this
  rw [this, hbd, min_self]

variable {n : ℕ}

/-- The sparse store of level 0 keeps the value at the mean of the normal. -/
theorem create_centre {env : GridEnv} (hb : CentreBasis env.basis) (hl : env.levelMax = 0)
    (ha : GridArOk env.ar n 0) (solve : Solver n) (eig : EigenSolver n)
    {f : (Fin n → ℝ) → Res ℝ} {df : (Fin n → ℝ) → Res (Fin n → ℝ)}
    {ddf : (Fin n → ℝ) → Res (Matrix (Fin n) (Fin n) ℝ)} (normal : MN n) {v : ℝ}
    {d : Fin n → ℝ} {h : Matrix (Fin n) (Fin n) ℝ} (hf : f normal.mean = Except.ok v)
    (hd : df normal.mean = Except.ok d) (hh : ddf normal.mean = Except.ok h) :
    ∃ s, SparseStore.create env solve eig f df ddf normal = Except.ok s ∧
      s.evaluate env normal.mean = Except.ok v ∧
      (∃ d', s.evaluateDerivative env normal.mean = Except.ok d') ∧
      ∃ h', s.evaluateSecondDerivative env normal.mean = Except.ok h' := by
  have hs : (if n > 0 then normal.mean else 0) = normal.mean := by
    split
    · rfl
    · obtain rfl : n = 0 := by omega
      exact Subsingleton.elim _ _
  set q := modif solve normal d h with hq
  set sc := (if n > 0 then operatorInverseSqrt (eig normal.precision) else 0) with hsc
  set isc := (if n > 0 then operatorSqrt (eig normal.precision) else 0) with hisc
  have hz : List.replicate n (0 : ℝ) = List.ofFn fun _ : Fin n => (0 : ℝ) := by
    rw [List.ofFn_const]
  have hm : fTransform (fun x => do let v ← f x; return v + q.evaluate x) normal.mean sc
      (List.replicate n 0) = Except.ok (v + q.evaluate normal.mean) := by
    rw [hz, fTransform, ofList_ofFn]
    simp only [res_ok_bind]
    have h0 : normal.mean + sc *ᵥ (fun _ : Fin n => (0 : ℝ)) = normal.mean := by
      have : (fun _ : Fin n => (0 : ℝ)) = 0 := rfl
      rw [this, mulVec_zero, add_zero]
    rw [h0, hf]
    simp [res_ok_bind, res_pure, dotProduct]
  obtain ⟨g, h1, h2, h3⟩ := construct_centre hb ha hm
  have hz2 : List.ofFn (isc *ᵥ (normal.mean - normal.mean)) = List.replicate n 0 := by
    rw [sub_self, mulVec_zero, hz]
    rfl
  have hcr : SparseStore.create env solve eig f df ddf normal =
      Except.ok ⟨q, ⟨g, normal.mean, sc, isc⟩⟩ := by
    rw [SparseStore.create]
    simp only
    rw [hd, hh]
    simp only [res_ok_bind]
    rw [Transform.ofNormal, hs, hl]
    erw [h1]
    rfl
  refine ⟨_, hcr, ?_, ?_, ?_⟩
  · rw [SparseStore.evaluate, Transform.interpolate]
    simp only
    rw [hz2, h2]
    simp only [res_ok_bind, res_pure, sub_self, mulVec_zero, dotProduct_zero, mul_zero, sub_zero]
    congr 1
    ring
  · rw [SparseStore.evaluateDerivative, Transform.interpolateDerivative,
      SparseGrid.interpolateDerivative]
    simp only
    rw [hz2, h2]
    simp only [res_ok_bind, h3, lt_irrefl, if_false, res_pure]
    exact ⟨_, rfl⟩
  · rw [SparseStore.evaluateSecondDerivative, Transform.interpolateSecondDerivative,
      SparseGrid.interpolateSecondDerivative]
    simp only
    rw [hz2, h2]
    simp only [res_ok_bind, h3, lt_irrefl, if_false, res_pure]
    exact ⟨_, rfl⟩

end Verif.Store
