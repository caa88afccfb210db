import Verif.Proofs.SRSingle
import Verif.Proofs.StoreCentre
import Verif.Proofs.IntegratedCentre
import Verif.Proofs.LaplaceDet

/-! Storing an integral with one quadrature point at zero and a grid of level 0: everything is
evaluated at the mean of the normal approximation. -/
namespace Verif.SR

open Verif.Gauss Verif.Belief Verif.ClusterGraph Verif.Store Verif.Pars Verif.Integrated Verif.Items
  Verif.SparseGrid Matrix

/-- All nodes of the rule are zero, and its total weight `W` is positive. -/
structure CentreRule (r : QuadratureRule) (W : ℝ) : Prop where
  len : r.weights.length = r.nodes.length
  nodes : ∀ x ∈ r.nodes, x = 0
  weights : r.weights.sum = W
  pos : 0 < W

theorem CentreRule.sum {r : QuadratureRule} {W : ℝ} (h : CentreRule r W) :
    ∑ j, (ruleOf r).weights j = W := by
  have := sum_pairs h.len (fun _ w => w)
  rw [this, ← h.weights, pairs]
  congr 1
  rw [List.map_snd_zip]
  exact h.len.le

/-- The grid of level 0, whose basis has the single knot zero. The grids for lists of distinct items
in `U` can be counted. -/
structure CentreGrid (lib : Lib) (pars : Parameters) (U : ℤ → Prop) : Prop where
  basis : CentreBasis (gridEnv lib pars).basis
  level : pars.sparseBasis.levelMax.toNat = 0
  ar : ∀ l : List ℤ, l.Nodup → (∀ x ∈ l, U x) → GridArOk lib.ar l.length 0

theorem vec_ofFn {n : ℕ} (x : Fin n → ℝ) : NB.vec n (List.ofFn x) = Except.ok x := by
  rw [NB.vec, dif_pos (by simp)]
  congr 1
  funext i
  simp

theorem vec_of_length {n : ℕ} {x : List ℝ} (h : x.length = n) :
    ∃ v, NB.vec n x = Except.ok v := by
  rw [NB.vec, dif_pos h]
  exact ⟨_, rfl⟩

theorem mat_of_length {n : ℕ} {x : List (List ℝ)} (h : x.length = n)
    (h2 : ∀ r ∈ x, r.length = n) : ∃ v, mat n x = Except.ok v := by
  have : ∃ rs, x.mapM (NB.vec n) = Except.ok rs ∧ rs.length = x.length := by
    clear h
    induction x with
    | nil => exact ⟨[], rfl, rfl⟩
    | cons r x ih =>
      obtain ⟨rs, e, hl⟩ := ih fun r hr => h2 r (by simp [hr])
      obtain ⟨v, ev⟩ := vec_of_length (h2 r (by simp))
      refine ⟨v :: rs, ?_, by simp [hl]⟩
      rw [List.mapM_cons, ev, e]
      rfl
  obtain ⟨rs, e, hl⟩ := this
  rw [mat, e]
  simp only [res_ok_bind]
  rw [dif_pos (hl.trans h)]
  exact ⟨_, rfl⟩

/-- The rows of a matrix, read as a matrix, are that matrix. -/
theorem mat_rows {n : ℕ} (A : Matrix (Fin n) (Fin n) ℝ) : mat n (rows A) = Except.ok A := by
  have : ∀ l : List (Fin n → ℝ),
      (l.map List.ofFn).mapM (NB.vec n) = (Except.ok l : Res (List (Fin n → ℝ))) := by
    intro l
    induction l with
    | nil => rfl
    | cons r l ih => rw [List.map_cons, List.mapM_cons, vec_ofFn, ih]; rfl
  have e : rows A = (List.ofFn fun i => A i).map List.ofFn := by
    rw [List.map_ofFn]; rfl
  rw [mat, e, this]
  simp only [res_ok_bind]
  rw [dif_pos (by simp)]
  refine congrArg Except.ok ?_
  ext i j
  simp

theorem storeWith_centre {lib : Lib} {pars : Parameters} {W : ℝ}
    (hr : CentreRule pars.quadratureRule W) {U : ℤ → Prop} (hg : CentreGrid lib pars U)
    {f : List ℝ → Res ℝ} {d : List ℝ → Res (List ℝ)} {h : List ℝ → Res (List (List ℝ))}
    {remaining : List ℤ} (i : Fin (remaining.length + 1))
    {normal : MN (remaining.length + 1)} {v : ℝ} {g : List ℝ} {H : List (List ℝ)}
    (hf : f (List.ofFn normal.mean) = Except.ok v) (hd : d (List.ofFn normal.mean) = Except.ok g)
    (hgl : g.length = remaining.length + 1) (hh : h (List.ofFn normal.mean) = Except.ok H)
    (hHl : H.length = remaining.length + 1) (hHl2 : ∀ r ∈ H, r.length = remaining.length + 1)
    (hp : normal.isProper = true) (hv : 0 < condVar normal.variance i) (hnd : remaining.Nodup)
    (hU : ∀ x ∈ remaining, U x) :
    ∃ s : SparseStore remaining.length, storeWith lib pars i f d h remaining normal =
        Except.ok (Factor.sparse remaining remaining.length s) ∧
      s.evaluate (gridEnv lib pars) (fun r => normal.mean (i.succAbove r)) = Except.ok
        (v + Real.log (Real.sqrt 2 * W) + 1 / 2 * Real.log (condVar normal.variance i)) ∧
      (∃ d', s.evaluateDerivative (gridEnv lib pars) (fun r => normal.mean (i.succAbove r))
        = Except.ok d') ∧
      ∃ h', s.evaluateSecondDerivative (gridEnv lib pars)
        (fun r => normal.mean (i.succAbove r)) = Except.ok h' := by
  obtain ⟨gv, egv⟩ := vec_of_length hgl
  obtain ⟨Hv, eHv⟩ := mat_of_length hHl hHl2
  have h0 : ∀ j, (ruleOf pars.quadratureRule).nodes j = 0 := fun j =>
    hr.nodes _ (List.get_mem _ _)
  obtain ⟨a, ea, a0, ⟨d', a1⟩, h', a2⟩ := centre_ok (lib.junk remaining.length) i
    (f := fun x => f (List.ofFn x))
    (df := fun x => do
      let r ← d (List.ofFn x)
      NB.vec (remaining.length + 1) r)
    (ddf := fun x => do
      let r ← h (List.ofFn x)
      mat (remaining.length + 1) r) (normal := normal) (v := v) (g := gv) (h := Hv) hf
    (by rw [hd]; exact egv) (by rw [hh]; exact eHv) hp (rule := ruleOf pars.quadratureRule) h0
    (by rw [hr.sum]; exact hr.pos) hv
  rw [hr.sum] at a0
  have hint : ∃ nm, normal.integrate i (lib.junk remaining.length).vec
      (lib.junk remaining.length).mat = Except.ok nm ∧
      nm.mean = fun r => normal.mean (i.succAbove r) := by
    rw [MN.integrate, Eigen.getMatrixWithout_ok, Eigen.getVectorWithout_ok]
    exact ⟨_, rfl, rfl⟩
  obtain ⟨nm, enm, hnm⟩ := hint
  rw [← hnm] at a0 a1 a2 ⊢
  obtain ⟨s, es, s0, s1, s2⟩ := create_centre (env := gridEnv lib pars) hg.basis hg.level
    (hg.ar _ hnd hU) (lib.solve remaining.length) (lib.eig remaining.length) nm
    (f := fun x => a.evaluate (lib.junk remaining.length) x (ruleOf pars.quadratureRule))
    (df := fun x => a.evaluateDerivative (lib.junk remaining.length) x
      (ruleOf pars.quadratureRule))
    (ddf := fun x => a.evaluateSecondDerivative (lib.junk remaining.length) x
      (ruleOf pars.quadratureRule)) a0 a1 a2
  refine ⟨s, ?_, s0, s1, s2⟩
  rw [storeWith]
  simp only
  rw [ea]
  simp only [res_ok_bind]
  rw [enm]
  simp only [res_ok_bind]
  rw [es]
  rfl

end Verif.SR
