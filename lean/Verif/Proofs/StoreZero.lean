import Verif.Model.SparseStore
import Mathlib.Tactic.NormNum

/-! Storing a function without arguments: the grid has one point and the stored value is exact,
whatever the basis and its level. -/
namespace Verif.Store

open Verif.Gauss Verif.Quad Verif.SparseGrid Verif.Point Verif.Counting Matrix

theorem construct_zero (ar : Arith) (b : BasisI) {f : List ℝ → Res ℝ} {v : ℝ}
    (hf : f [] = Except.ok v) (k : ℕ) :
    construct ar b f 0 k = Except.ok ⟨k, 0, [v], v⟩ := by
  have h1 : findNumGridPoints ar ((0 : ℕ) : ℤ) (k : ℤ) = Except.ok 1 := by
    rw [findNumGridPoints, if_neg (by simp)]
  have h2 : storageLoop ar b f 1 0 (List.replicate 1 0) none (center 0) =
      Except.ok ([v], some v) := by
    rw [storageLoop]
    rw [show getGridPoint b (center 0) = Except.ok [] from rfl]
    simp only [res_ok_bind]
    rw [hf]
    simp only [res_ok_bind]
    rw [show setE (List.replicate 1 (0 : ℝ)) 0 v = Except.ok [v] from rfl]
    simp only [res_ok_bind]
    rw [show atE [v] 0 = Except.ok v from rfl]
    simp only [res_ok_bind]
    rw [show updateMax 0 none v = Except.ok (some v) from rfl]
    simp only [res_ok_bind]
    rw [if_neg (by simp)]
    rfl
  rw [construct, h1]
  simp only [res_ok_bind]
  rw [initializeStorage, show (1 : ℤ).toNat = 1 from rfl, h2]
  simp only [res_ok_bind, res_pure]
  rw [show hierarchize ar b 0 [v] = Except.ok [v] from rfl]
  rfl

theorem interpolate_zero (ar : Arith) (b : BasisI) (k : ℕ) (v : ℝ) :
    SparseGrid.interpolate ar b ⟨k, 0, [v], v⟩ [] = Except.ok v := by
  rw [SparseGrid.interpolate]
  simp only [List.length_singleton]
  rw [interpolateLoop]
  rw [show nth [v] 0 = Except.ok v from rfl]
  simp only [res_ok_bind]
  rw [show computeBasis b (center 0) [] = Except.ok 1 from rfl]
  simp only [res_ok_bind]
  rw [if_neg (by simp), interpolateLoop]
  simp only [res_pure, res_ok_bind]
  simp

/-- Storing a function without arguments keeps its value. -/
theorem create_zero (env : GridEnv) (solve : Solver 0) (eig : EigenSolver 0)
    {f : (Fin 0 → ℝ) → Res ℝ} {fd : (Fin 0 → ℝ) → Res (Fin 0 → ℝ)}
    {fh : (Fin 0 → ℝ) → Res (Matrix (Fin 0) (Fin 0) ℝ)} {v : ℝ}
    (hf : ∀ x, f x = Except.ok v) (hd : ∀ x, ∃ d, fd x = Except.ok d)
    (hh : ∀ x, ∃ h, fh x = Except.ok h) (normal : MN 0) :
    ∃ s, SparseStore.create env solve eig f fd fh normal = Except.ok s ∧
      ∀ x, s.evaluate env x = Except.ok v ∧ (∃ d, s.evaluateDerivative env x = Except.ok d) ∧
        ∃ h, s.evaluateSecondDerivative env x = Except.ok h := by
  obtain ⟨d, ed⟩ := hd normal.mean
  obtain ⟨h, eh⟩ := hh normal.mean
  rw [SparseStore.create, ed]
  simp only [res_ok_bind]
  rw [eh]
  simp only [res_ok_bind]
  rw [Transform.ofNormal]
  simp only [lt_irrefl, if_false, gt_iff_lt]
  have e1 : ∀ (q : Quadratic 0) (s : Fin 0 → ℝ) (A : Matrix (Fin 0) (Fin 0) ℝ),
      fTransform (fun x => do
        let v ← f x
        return v + q.evaluate x) s A [] = Except.ok v := by
    intro q s A
    rw [fTransform, ofList, dif_pos List.length_nil]
    simp only [res_ok_bind]
    rw [hf]
    simp [res_pure, res_ok_bind, Quadratic.evaluate]
  rw [construct_zero env.ar env.basis (e1 _ _ _)]
  simp only [res_ok_bind, res_pure]
  refine ⟨_, rfl, fun x => ⟨?_, ?_, ?_⟩⟩
  · rw [SparseStore.evaluate, Transform.interpolate]
    simp only [List.ofFn_zero]
    rw [interpolate_zero]
    simp [res_pure, res_ok_bind, Quadratic.evaluate]
  · rw [SparseStore.evaluateDerivative, Transform.interpolateDerivative,
      SparseGrid.interpolateDerivative]
    simp only [List.ofFn_zero]
    rw [interpolate_zero]
    simp only [res_ok_bind, lt_irrefl, if_false, res_pure]
    exact ⟨_, rfl⟩
  · rw [SparseStore.evaluateSecondDerivative, Transform.interpolateSecondDerivative,
      SparseGrid.interpolateSecondDerivative]
    simp only [List.ofFn_zero]
    rw [interpolate_zero]
    simp only [res_ok_bind, lt_irrefl, if_false, res_pure]
    exact ⟨_, rfl⟩

end Verif.Store
