import Verif.Proofs.SRCentre
import Verif.Proofs.BeliefAt
import Verif.Proofs.ForwardAt

/-! Beliefs whose normal approximation is a marginal of one normal distribution, integrated with
one quadrature point at zero and a grid of level 0. -/
namespace Verif.SR

open Verif.Gauss Verif.Belief Verif.ClusterGraph Verif.Store Verif.Pars Verif.Integrated Verif.Items
  Verif.SparseGrid Matrix

/-- The matrix with the values of `V` at pairs of items. -/
def vm (V : ℤ → ℤ → ℝ) (l : List ℤ) : Matrix (Fin l.length) (Fin l.length) ℝ :=
  Matrix.of fun i j => V l[i] l[j]

/-- Variance matrices of items in `U` are positive definite, and the normalizing constant of the
normal distribution is never exactly zero (in logarithm). -/
def Regular (U : ℤ → Prop) (V : ℤ → ℤ → ℝ) : Prop :=
  ∀ l : List ℤ, l.Nodup → (∀ x ∈ l, U x) → (vm V l).PosDef ∧
    (l ≠ [] → normalizerOf (vm V l)⁻¹ ≠ some 0)

/-- A normal belief that is the marginal of the normal distribution with mean `μ` and variance
`V`. -/
structure MargOf (μ : ℤ → ℝ) (V : ℤ → ℤ → ℝ) (b : NB) : Prop where
  mean : b.normal.mean = at_ b.items μ
  var : b.normal.variance = vm V b.items
  nrm : b.normal.normalizer = normalizerOf (vm V b.items)⁻¹
  nc : b.logNC = 0

/-- A belief with such a normal approximation. -/
structure Cl (lib : Lib) (pars : Parameters) (U : ℤ → Prop) (μ : ℤ → ℝ) (V : ℤ → ℤ → ℝ)
    (m : Mixed Factor NB) : Prop where
  wf : WFAt (Factor.ops lib pars) NB.ops NWF μ m
  marg : MargOf μ V m.normalApprox
  sub : ∀ x ∈ m.items, U x

variable {lib : Lib} {pars : Parameters} {U : ℤ → Prop} {μ : ℤ → ℝ} {V : ℤ → ℤ → ℝ}

theorem margOf_margin {b : NB} (h : MargOf μ V b) {l : List ℤ} (hl : ∀ x ∈ l, x ∈ b.items) :
    ∃ r, NB.margin b l = Except.ok r ∧ r.items = l ∧ MargOf μ V r ∧ (l.Nodup → NWF r) := by
  refine ⟨_, margin_eq hl, rfl, ⟨?_, ?_, ?_, h.nc⟩, fun hn => ⟨hn, Or.inr rfl⟩⟩
  · show (fun k => b.normal.mean (pos hl k)) = _
    rw [h.mean]
    exact at_pos hl μ
  · show b.normal.variance.submatrix (pos hl) (pos hl) = vm V l
    rw [h.var]
    ext i j
    simp only [vm, Matrix.submatrix_apply, Matrix.of_apply]
    rw [pos_get hl i, pos_get hl j]
  · show normalizerOf (b.normal.variance.submatrix (pos hl) (pos hl))⁻¹ = _
    congr 2
    rw [h.var]
    ext i j
    simp only [vm, Matrix.submatrix_apply, Matrix.of_apply]
    rw [pos_get hl i, pos_get hl j]

theorem vm_cons_det {V : ℤ → ℤ → ℝ} (l l' : List ℤ) (h : l = l') :
    (vm V l).det = (vm V l').det := by rw [h]

theorem cast_mean {n n' : ℕ} (e : n = n') (a : MN n) :
    (e ▸ a : MN n').mean = fun k => a.mean (Fin.cast e.symm k) := by subst e; rfl

theorem cast_variance {n n' : ℕ} (e : n = n') (a : MN n) :
    (e ▸ a : MN n').variance = a.variance.submatrix (Fin.cast e.symm) (Fin.cast e.symm) := by
  subst e; rfl

theorem cast_proper {n n' : ℕ} (e : n = n') (a : MN n) :
    (e ▸ a : MN n').isProper = a.isProper := by subst e; rfl

theorem det_cast {n n' : ℕ} (e : n = n') (M : Matrix (Fin n) (Fin n) ℝ) :
    (M.submatrix (Fin.cast e.symm) (Fin.cast e.symm)).det = M.det := by subst e; rfl

theorem posDef_cast {n n' : ℕ} (e : n = n') {M : Matrix (Fin n) (Fin n) ℝ} (h : M.PosDef) :
    (M.submatrix (Fin.cast e.symm) (Fin.cast e.symm)).PosDef := by subst e; exact h

theorem margOf_proper (hR : Regular U V) {b : NB} (h : MargOf μ V b) (hn : b.items.Nodup)
    (hU : ∀ x ∈ b.items, U x) (h0 : b.items ≠ []) : b.normal.isProper = true := by
  obtain ⟨h1, h2⟩ := hR _ hn hU
  have h2 := h2 h0
  have hd : 0 < (vm V b.items)⁻¹.det := h1.inv.det_pos
  rw [MN.isProper, h.nrm]
  rw [normalizerOf, if_pos hd] at h2 ⊢
  simpa using h2

/-- Position in a list with one element erased. -/
theorem eraseIdx_succAbove {l : List ℤ} {i : ℕ} (hi : i < l.length)
    (e : l.length = (l.eraseIdx i).length + 1) (r : Fin (l.eraseIdx i).length) :
    l[Fin.cast e.symm ((Fin.cast e ⟨i, hi⟩).succAbove r)] = (l.eraseIdx i)[r] := by
  have hr := r.isLt
  simp only [Fin.getElem_fin, Fin.val_cast, List.getElem_eraseIdx]
  by_cases h : (r : ℕ) < i
  · rw [dif_pos h]
    congr 1
    rw [Fin.succAbove_of_castSucc_lt _ _ (by rw [Fin.lt_def]; simpa using h)]
    rfl
  · rw [dif_neg h]
    congr 1
    rw [Fin.succAbove_of_le_castSucc _ _ (by rw [Fin.le_def]; simpa using h)]
    rfl

/-- Integrating over one item. -/
theorem integrate_centre {W : ℝ} (hr : CentreRule pars.quadratureRule W)
    (hg : CentreGrid lib pars U) (hR : Regular U V) {b : Mixed Factor NB}
    (hb : Cl lib pars U μ V b) {x : ℤ} (hx : x ∈ b.items) :
    ∃ r, Mixed.integrate (Factor.ops lib pars) NB.ops (store lib pars) b x = Except.ok r ∧
      Cl lib pars U μ V r ∧ r.items = b.items.filter (fun y => decide (y ≠ x)) ∧
      valAt (Factor.ops lib pars) μ r = valAt (Factor.ops lib pars) μ b +
        Real.log (Real.sqrt 2 * W) +
        1 / 2 * (Real.log (vm V b.items).det - Real.log (vm V r.items).det) := by
  set fo := Factor.ops lib pars with hfo
  have hni : b.normalApprox.items = b.items := hb.wf.normal
  have hnd := hb.wf.nodup
  have hi := relativeItem_lt hx
  set i := findRelativeItem x b.items with hi'
  set l := b.items.eraseIdx i with hl
  have hlf : l = b.items.filter fun y => decide (y ≠ x) := eraseIdx_relative hnd hx
  have e0 : b.items.length = l.length + 1 := by
    rw [hl, List.length_eraseIdx_of_lt hi]
    omega
  have e : b.normalApprox.items.length = l.length + 1 := by rw [hni, e0]
  have hlsub : ∀ y ∈ l, y ∈ b.items := fun y hy => List.mem_of_mem_eraseIdx hy
  have hlnd : l.Nodup := hnd.eraseIdx i
  obtain ⟨n, en, hn1, hn2, hn3⟩ := margOf_margin hb.marg (l := l) (by rw [hni]; exact hlsub)
  set I : Fin (l.length + 1) := Fin.cast e0 ⟨i, hi⟩ with hI
  set nm : MN (l.length + 1) := e ▸ b.normalApprox.normal with hnm
  -- the normal approximation in terms of the items
  have hmean : nm.mean = fun k => μ b.items[Fin.cast e0.symm k] := by
    rw [hnm, cast_mean, hb.marg.mean]
    funext k
    simp only [at_, Fin.getElem_fin, Fin.val_cast, hni]
  have hvar : nm.variance = (vm V b.items).submatrix (Fin.cast e0.symm) (Fin.cast e0.symm) := by
    rw [hnm, cast_variance, hb.marg.var]
    ext j k
    simp only [vm, Matrix.submatrix_apply, Matrix.of_apply, Fin.getElem_fin, Fin.val_cast, hni]
  have hprop : nm.isProper = true := by
    rw [hnm, cast_proper]
    refine margOf_proper hR hb.marg (by rw [hni]; exact hnd) (by rw [hni]; exact hb.sub) ?_
    rw [hni]
    exact List.ne_nil_of_mem hx
  have hml : List.ofFn nm.mean = b.items.map μ := by
    refine List.ext_getElem (by simp [e0]) fun k h1 h2 => ?_
    rw [List.getElem_ofFn, List.getElem_map]
    exact congrFun hmean _
  have hm2 : (fun r => nm.mean (I.succAbove r)) = at_ l μ := by
    funext r
    rw [hmean]
    show μ _ = μ _
    rw [hI, eraseIdx_succAbove hi e0 r]
  have h22 : nm.variance.submatrix I.succAbove I.succAbove = vm V l := by
    ext j k
    rw [hvar]
    simp only [vm, Matrix.submatrix_apply, Matrix.of_apply]
    rw [hI, eraseIdx_succAbove hi e0 j, eraseIdx_succAbove hi e0 k]
  have pb := (hR _ hnd hb.sub).1
  have pl := (hR l hlnd fun y hy => hb.sub y (hlsub y hy)).1
  have hdet : nm.variance.det = (vm V b.items).det := by rw [hvar, det_cast e0]
  have hsym : nm.varianceᵀ = nm.variance := by
    have := (posDef_cast e0 pb).isHermitian.eq
    rw [← hvar] at this
    rwa [Matrix.conjTranspose_eq_transpose_of_trivial] at this
  have hmul : (vm V b.items).det = (vm V l).det * condVar nm.variance I := by
    have := LaplaceDet.det_eq_mul (V := nm.variance) (by rw [hdet]; exact pb.det_pos.ne') I
      (by rw [h22]; exact pl.det_pos.ne') hsym
    rw [hdet, h22] at this
    rw [this, condVar]
    congr 2
    have h3 : v22 nm.variance I = vm V l := h22
    rw [h3]
    rfl
  have hcv : 0 < condVar nm.variance I := by
    have h1 := pb.det_pos
    rw [hmul] at h1
    exact (pos_iff_pos_of_mul_pos h1).mp pl.det_pos
  obtain ⟨g, eg, hgl⟩ := evaluateDerivativeAt_ok hb.wf
  obtain ⟨H, eH, hH1, hH2⟩ := evaluateSecondDerivativeAt_ok hb.wf
  obtain ⟨s, es, s0, ⟨d', s1⟩, h', s2⟩ := storeWith_centre hr hg (f := b.evaluate fo)
    (d := b.evaluateDerivative fo) (h := b.evaluateSecondDerivative fo) (remaining := l) I
    (normal := nm) (by rw [hml]; exact evaluateAt_ok hb.wf) (by rw [hml]; exact eg)
    (by rw [hgl, e0]) (by rw [hml]; exact eH) (by rw [hH1, e0])
    (fun r hr => by rw [hH2 r hr, e0]) hprop hcv hlnd
    fun y hy => hb.sub y (hlsub y hy)
  rw [hm2] at s0 s1 s2
  have hst : store lib pars i (b.evaluate fo) (b.evaluateDerivative fo)
      (b.evaluateSecondDerivative fo) b.normalApprox l =
      Except.ok (Factor.sparse l l.length s) := by
    rw [store, dif_pos e]
    exact es
  have hv : NB.vec l.length (l.map μ) = Except.ok (at_ l μ) := by
    rw [NB.vec, dif_pos (by simp)]
    congr 1
    funext k
    simp [at_]
  have hev : fo.eval (Factor.sparse l l.length s) (l.map μ) = Except.ok
      (valAt fo μ b + Real.log (Real.sqrt 2 * W) + 1 / 2 * Real.log (condVar nm.variance I)) := by
    show Factor.eval lib pars (Factor.sparse l l.length s) (l.map μ) = _
    rw [Factor.eval, hv]
    simp only [res_ok_bind]
    exact s0
  have hA : AtMean fo μ (Factor.sparse l l.length s) := by
    refine ⟨hlnd, ⟨_, hev⟩, ?_, ?_⟩
    · refine ⟨List.ofFn d', ?_, by rw [List.length_ofFn]; rfl⟩
      show Factor.deriv lib pars (Factor.sparse l l.length s) (l.map μ) = _
      rw [Factor.deriv, hv]
      simp only [res_ok_bind]
      rw [s1]
      rfl
    · refine ⟨List.ofFn fun i => List.ofFn fun j => h' i j, ?_,
        by rw [List.length_ofFn]; rfl, ?_⟩
      · show Factor.hess lib pars (Factor.sparse l l.length s) (l.map μ) = _
        rw [Factor.hess, hv]
        simp only [res_ok_bind]
        rw [s2]
        rfl
      · intro r hr
        obtain ⟨k, rfl⟩ := List.mem_ofFn.mp hr
        rw [List.length_ofFn]
        rfl
  rw [Mixed.integrate, ← hi', show Mixed.eraseAt b.items i = Except.ok l by
    rw [Mixed.eraseAt, if_pos hi]]
  simp only [res_ok_bind]
  rw [hst]
  simp only [res_ok_bind]
  rw [show NB.ops.margin b.normalApprox l = _ from en]
  have hitems : (Mixed.setNormalApprox (Mixed.ofFactor fo NB.ops (Factor.sparse l l.length s))
      n).items = l := by
    rw [Mixed.setNormalApprox]
    split <;> rfl
  have hnorm : (Mixed.setNormalApprox (Mixed.ofFactor fo NB.ops (Factor.sparse l l.length s))
      n).normalApprox = n := rfl
  refine ⟨_, rfl, ⟨wf_setNormal (wf_ofFactor_nd (fun g hg => hg.1) nb_laws hA) (hn3 hlnd) hn1,
    ?_, ?_⟩, hitems.trans hlf, ?_⟩
  · rw [hnorm]
    exact hn2
  · rw [hitems]
    exact fun y hy => hb.sub y (hlsub y hy)
  · rw [vm_cons_det _ _ hitems, hmul, Real.log_mul pl.det_pos.ne' hcv.ne', valAt, value_setNormal,
      value_ofFactor]
    show fval fo (Factor.sparse l l.length s) (l.map μ) = _
    rw [fval, hev]
    simp only
    ring

/-- Integrating over several items. -/
theorem fold_centre {W : ℝ} (hr : CentreRule pars.quadratureRule W)
    (hg : CentreGrid lib pars U) (hR : Regular U V) : ∀ (L : List ℤ) {b : Mixed Factor NB},
    Cl lib pars U μ V b → L.Nodup → (∀ x ∈ L, x ∈ b.items) →
    ∃ r, L.foldlM (Mixed.integrate (Factor.ops lib pars) NB.ops (store lib pars)) b =
        Except.ok r ∧
      Cl lib pars U μ V r ∧ r.items = b.items.filter (fun y => decide (y ∉ L)) ∧
      valAt (Factor.ops lib pars) μ r = valAt (Factor.ops lib pars) μ b +
        L.length * Real.log (Real.sqrt 2 * W) +
        1 / 2 * (Real.log (vm V b.items).det - Real.log (vm V r.items).det)
  | [], b, hb, _, _ => ⟨b, rfl, hb, by simp, by simp⟩
  | x :: L, b, hb, hn, hs => by
    obtain ⟨r1, e1, c1, i1, v1⟩ := integrate_centre hr hg hR hb (hs x (by simp))
    obtain ⟨hx, hn'⟩ := List.nodup_cons.mp hn
    obtain ⟨r2, e2, c2, i2, v2⟩ := fold_centre hr hg hR L c1 hn' (by
      intro y hy
      rw [i1, List.mem_filter]
      refine ⟨hs y (by simp [hy]), decide_eq_true ?_⟩
      rintro rfl
      exact hx hy)
    refine ⟨r2, ?_, c2, ?_, ?_⟩
    · rw [List.foldlM_cons, e1]
      exact e2
    · rw [i2, i1, List.filter_filter]
      congr 1
      funext y
      simp only [List.mem_cons, not_or]
      rw [Bool.eq_iff_iff]
      simp
      tauto
    · rw [v2, v1, List.length_cons]
      push_cast
      ring

/-- What a message from a cluster with items `l` to an edge with items `l'` adds. -/
noncomputable def lapTau (V : ℤ → ℤ → ℝ) (c0 : ℝ) (l l' : List ℤ) : ℝ :=
  (l.filter fun y => decide (y ∉ l')).length * c0 + 1 / 2 * (Real.log (vm V l).det -
    Real.log (vm V (l.filter fun y => decide (y ∈ l'))).det)

theorem margin_centre {W : ℝ} (hr : CentreRule pars.quadratureRule W)
    (hg : CentreGrid lib pars U) (hR : Regular U V) {b : Mixed Factor NB}
    (hb : Cl lib pars U μ V b) (l : List ℤ) :
    ∃ r, Mixed.margin (Factor.ops lib pars) NB.ops (store lib pars) b l false = Except.ok r ∧
      Cl lib pars U μ V r ∧ r.items = b.items.filter (fun y => decide (y ∈ l)) ∧
      valAt (Factor.ops lib pars) μ r = valAt (Factor.ops lib pars) μ b +
        lapTau V (Real.log (Real.sqrt 2 * W)) b.items l := by
  obtain ⟨r, e, c, i, v⟩ := fold_centre hr hg hR (b.items.filter fun y => decide (y ∉ l)) hb
    (hb.wf.nodup.filter _) fun x hx => (List.mem_filter.mp hx).1
  have hi : r.items = b.items.filter fun y => decide (y ∈ l) := by
    rw [i]
    refine List.filter_congr fun y hy => ?_
    simp [hy]
  refine ⟨r, ?_, c, hi, ?_⟩
  · rw [Mixed.margin, if_neg (by simp), difference_eq]
    exact e
  · rw [v, lapTau, vm_cons_det _ _ hi]
    ring

/-- Clusters and edges during the forward sweep. -/
theorem centre_laws {W : ℝ} (hr : CentreRule pars.quadratureRule W)
    (hg : CentreGrid lib pars U) (hR : Regular U V) : AtPoint (ops lib pars)
      (fun b => Cl lib pars U μ V b ∧ b.isNormalFixed = true)
      (WFAt (Factor.ops lib pars) NB.ops NWF μ) (valAt (Factor.ops lib pars) μ)
      (lapTau V (Real.log (Real.sqrt 2 * W))) := by
  set fo := Factor.ops lib pars with hfo
  refine ⟨?_, ?_, ?_, ?_, ?_⟩
  · rintro b d ⟨hb, -⟩ - hs
    obtain ⟨r, e, c, i, v⟩ := margin_centre hr hg hR hb d.items
    refine ⟨r, e, c.wf, fun x => ?_, v⟩
    show x ∈ r.items ↔ x ∈ d.items
    rw [i, List.mem_filter]
    simp only [decide_eq_true_eq, and_iff_right_iff_imp]
    exact hs x
  · rintro b d ⟨hb, hf⟩ hd hs
    obtain ⟨r, e, w, i, f, v⟩ := mul_ok (F := fval fo) nb_laws hb.wf hd hs
    have hna : r.normalApprox = b.normalApprox := by
      rw [Mixed.mul, Mixed.combineNormal, if_pos hf] at e
      simp only [res_ok_bind] at e
      rw [flags_ok hd] at e
      cases e
      rfl
    exact ⟨r, e, ⟨⟨w, by rw [hna]; exact hb.marg, by rw [i]; exact hb.sub⟩, f.trans hf⟩, i, v μ⟩
  · rintro b d ⟨hb, hf⟩ hd hs
    obtain ⟨r, e, w, i, f, v⟩ := div_ok (F := fval fo) nb_laws hb.wf hd hs
    have hna : r.normalApprox = b.normalApprox := by
      rw [Mixed.div, Mixed.combineNormal, if_pos hf] at e
      simp only [res_ok_bind] at e
      rw [flags_ok hd] at e
      cases e
      rfl
    exact ⟨r, e, ⟨⟨w, by rw [hna]; exact hb.marg, by rw [i]; exact hb.sub⟩, f.trans hf⟩, i, v μ⟩
  · rintro b ⟨hb, -⟩
    have hni : b.normalApprox.items = b.items := hb.wf.normal
    show ∃ t, Mixed.isProper fo NB.ops b = Except.ok t
    have hm : NB.ops.mean b.normalApprox = b.items.map μ := by
      show List.ofFn b.normalApprox.normal.mean = _
      rw [hb.marg.mean, ← hni]
      refine List.ext_getElem (by simp) fun k h1 h2 => ?_
      rw [List.getElem_ofFn, List.getElem_map]
      rfl
    have hn : ∃ o, NB.ops.eval b.normalApprox (b.items.map μ) = Except.ok o := by
      show ∃ o, NB.evaluate b.normalApprox (b.items.map μ) = Except.ok o
      rw [NB.evaluate, NB.vec, dif_pos (by rw [List.length_map, hni])]
      exact ⟨_, rfl⟩
    obtain ⟨o, eo⟩ := hn
    rw [Mixed.isProper, Mixed.factorsProper, hm, evaluateAt_ok hb.wf]
    split <;>
    · simp only [res_ok_bind, res_pure]
      rw [eo]
      exact ⟨_, rfl⟩
  · rintro b ⟨hb, -⟩
    obtain ⟨r, e, c, i, v⟩ := margin_centre hr hg hR hb []
    show Mixed.logNorm fo NB.ops (store lib pars) b = _
    rw [Mixed.logNorm, e]
    simp only [res_ok_bind]
    have hri : r.items = [] := by rw [i]; simp
    have := evaluateAt_ok c.wf
    rw [hri, List.map_nil] at this
    rw [this, v]
    rfl

end Verif.SR
