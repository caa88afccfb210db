import Verif.Proofs.SRLaplace
import Verif.Proofs.StoreAt
import Verif.Proofs.SafeRun

/-! Beliefs whose factors return near the mean of the normal approximation, and messages between
them: all points the code visits are near the mean. -/
namespace Verif.SR

open Verif.Gauss Verif.Belief Verif.ClusterGraph Verif.Store Verif.Pars Verif.Integrated Verif.Items
  Verif.SparseGrid Verif.Spec Verif.Quad Matrix

/-! ## Distances -/

/-- The squared distance on fewer items is smaller. -/
theorem qf_mono {V : ℤ → ℤ → ℝ} {l l' : List ℤ} (h : ∀ x ∈ l, x ∈ l') (p : (vm V l).PosDef)
    (p' : (vm V l').PosDef) (a : ℤ → ℝ) : qf V l a ≤ qf V l' a := by
  set c : Fin l.length → ℝ := (vm V l)⁻¹ *ᵥ at_ l a with hc
  set c' : Fin l'.length → ℝ := fun k' => ∑ k, if pos h k = k' then c k else 0 with hc'
  have hdot : ∀ w : Fin l'.length → ℝ, c' ⬝ᵥ w = c ⬝ᵥ fun k => w (pos h k) := by
    intro w
    simp only [dotProduct, hc', Finset.sum_mul]
    rw [Finset.sum_comm]
    refine Finset.sum_congr rfl fun k _ => ?_
    simp [ite_mul]
  have hmul : (fun k => (vm V l' *ᵥ c') (pos h k)) = vm V l *ᵥ c := by
    funext k
    rw [mulVec, dotProduct_comm, hdot, vm_pos V h, mulVec, dotProduct_comm]
    rfl
  have h1 := form_ge p' c' (at_ l' a)
  rw [hdot, hdot, hmul] at h1
  have h2 : (fun k => at_ l' a (pos h k)) = at_ l a := at_pos h a
  have h3 : vm V l *ᵥ c = at_ l a := by
    rw [hc, mulVec_mulVec, Matrix.mul_nonsing_inv _ p.det_pos.ne'.isUnit, one_mulVec]
  rw [h2, h3, dotProduct_comm] at h1
  rw [qf, qf]
  linarith

theorem form_cast {n n' : ℕ} (e : n = n') (M : Matrix (Fin n) (Fin n) ℝ) (x : Fin n → ℝ) :
    x ⬝ᵥ (M⁻¹ *ᵥ x) = (fun k => x (Fin.cast e.symm k)) ⬝ᵥ
      ((M.submatrix (Fin.cast e.symm) (Fin.cast e.symm))⁻¹ *ᵥ fun k => x (Fin.cast e.symm k)) := by
  subst e
  rfl

/-! ## Stored factors -/

/-- Grids in fewer than `K` dimensions can be built and read within the distance `√R` of the mean:
`C` is a bound for the variance inflation factors. -/
structure RangeGrid (lib : Lib) (pars : Parameters) (K : ℕ) (R C : ℝ) : Prop where
  eig : ∀ (n : ℕ) (p : Matrix (Fin n) (Fin n) ℝ), p.PosDef →
    IsEigen p (lib.eig n p).1 (lib.eig n p).2
  basis : ∃ D κ, Answers (gridEnv lib pars) D κ ∧ (2 ≤ K → ∀ y : ℝ, y ^ 2 ≤ R → y ∈ D) ∧
    ∀ d < K, ∀ ls ps, IsGridPoint d pars.sparseBasis.levelMax.toNat ls ps →
      ∀ node ∈ pars.quadratureRule.nodes,
        8 * C * ((ptOf (List.zipWith κ ls ps) : Fin d → ℝ) ⬝ᵥ ptOf (List.zipWith κ ls ps)) +
          4 * node ^ 2 ≤ R
  ar : ∀ d < K, GridArOk lib.ar d pars.sparseBasis.levelMax.toNat
  nodes : ∀ node ∈ pars.quadratureRule.nodes, 4 * node ^ 2 ≤ R
  nonneg : 0 ≤ R

theorem storeWith_range {lib : Lib} {pars : Parameters} {K : ℕ} {R C : ℝ}
    (hg : RangeGrid lib pars K R C)
    {f : List ℝ → Res ℝ} {d : List ℝ → Res (List ℝ)} {h : List ℝ → Res (List (List ℝ))}
    {remaining : List ℤ} (hK : remaining.length < K) (i : Fin (remaining.length + 1))
    {normal : MN (remaining.length + 1)}
    (hf : ∀ y : Fin (remaining.length + 1) → ℝ,
      (y - normal.mean) ⬝ᵥ (normal.variance⁻¹ *ᵥ (y - normal.mean)) ≤ R →
      ∃ v, f (List.ofFn y) = Except.ok v)
    (hd : ∀ y : Fin (remaining.length + 1) → ℝ,
      (y - normal.mean) ⬝ᵥ (normal.variance⁻¹ *ᵥ (y - normal.mean)) ≤ R →
      ∃ v, d (List.ofFn y) = Except.ok v ∧ v.length = remaining.length + 1)
    (hh : ∀ y : Fin (remaining.length + 1) → ℝ,
      (y - normal.mean) ⬝ᵥ (normal.variance⁻¹ *ᵥ (y - normal.mean)) ≤ R →
      ∃ v, h (List.ofFn y) = Except.ok v ∧ v.length = remaining.length + 1 ∧
        ∀ r ∈ v, r.length = remaining.length + 1)
    (hp : normal.isProper = true) (hV : normal.variance.PosDef)
    (hC : normal.variance i i * normal.variance⁻¹ i i ≤ C) :
    ∃ s : SparseStore remaining.length, storeWith lib pars i f d h remaining normal =
        Except.ok (Factor.sparse remaining remaining.length s) ∧
      ∀ x : Fin remaining.length → ℝ,
        (x - fun r => normal.mean (i.succAbove r)) ⬝ᵥ
          ((v22 normal.variance i)⁻¹ *ᵥ (x - fun r => normal.mean (i.succAbove r))) ≤ R →
        (∃ v, s.evaluate (gridEnv lib pars) x = Except.ok v) ∧
        (∃ v, s.evaluateDerivative (gridEnv lib pars) x = Except.ok v) ∧
        ∃ v, s.evaluateSecondDerivative (gridEnv lib pars) x = Except.ok v := by
  obtain ⟨D, κ, hb, hD, hpts⟩ := hg.basis
  set S : Set (Fin (remaining.length + 1) → ℝ) :=
    {y | (y - normal.mean) ⬝ᵥ (normal.variance⁻¹ *ᵥ (y - normal.mean)) ≤ R} with hS
  have hmS : normal.mean ∈ S := by
    show _ ≤ R
    rw [sub_self, zero_dotProduct]
    exact hg.nonneg
  have h22 : (v22 normal.variance i).PosDef := hV.submatrix Fin.succAbove_right_injective
  set mean2 : Fin remaining.length → ℝ := fun r => normal.mean (i.succAbove r) with hmean2
  obtain ⟨a, ea, ha⟩ := at_ok (k := pars.quadratureRule.nodes.length) (lib.junk remaining.length) i S
    (f := fun x => f (List.ofFn x))
    (df := fun x => do
      let r ← d (List.ofFn x)
      NB.vec (remaining.length + 1) r)
    (ddf := fun x => do
      let r ← h (List.ofFn x)
      mat (remaining.length + 1) r) (normal := normal) hf
    (fun y hy => by
      obtain ⟨v, e, hl⟩ := hd y hy
      rw [e]
      exact vec_of_length hl)
    (fun y hy => by
      obtain ⟨v, e, hl, hl2⟩ := hh y hy
      rw [e]
      exact mat_of_length hl hl2) hp hmS
  have ha' : ∀ x : Fin remaining.length → ℝ,
      (∀ node ∈ pars.quadratureRule.nodes,
        8 * C * ((x - mean2) ⬝ᵥ ((v22 normal.variance i)⁻¹ *ᵥ (x - mean2))) + 4 * node ^ 2 ≤ R) →
      (∃ v, a.evaluate (lib.junk remaining.length) x (ruleOf pars.quadratureRule) =
        Except.ok v) ∧
      (∃ v, a.evaluateDerivative (lib.junk remaining.length) x (ruleOf pars.quadratureRule) =
        Except.ok v) ∧
      ∃ v, a.evaluateSecondDerivative (lib.junk remaining.length) x
        (ruleOf pars.quadratureRule) = Except.ok v := by
    intro x hx
    refine ha _ x fun j => ?_
    show _ ≤ R
    have e : (i.insertNth (Real.sqrt 2 * Real.sqrt (condVar normal.variance i) *
        (ruleOf pars.quadratureRule).nodes j + (normal.mean i -
          ((v22 normal.variance i)⁻¹ *ᵥ v21 normal.variance i) ⬝ᵥ (x - mean2))) x -
        normal.mean : Fin (remaining.length + 1) → ℝ) =
        i.insertNth (Real.sqrt 2 * Real.sqrt (condVar normal.variance i) *
          (ruleOf pars.quadratureRule).nodes j -
          ((v22 normal.variance i)⁻¹ *ᵥ v21 normal.variance i) ⬝ᵥ (x - mean2)) (x - mean2) := by
      funext b
      rcases Fin.eq_self_or_eq_succAbove i b with rfl | ⟨r, rfl⟩
      · rw [Pi.sub_apply, Fin.insertNth_apply_same, Fin.insertNth_apply_same]
        ring
      · rw [Pi.sub_apply, Fin.insertNth_apply_succAbove, Fin.insertNth_apply_succAbove]
        rfl
    rw [e]
    exact (pt_dist hV i _ _ hC).trans (hx _ (List.get_mem _ _))
  set nm : MN remaining.length := MN.ofMeanVariance mean2 (v22 normal.variance i) with hnm
  have enm : normal.integrate i (lib.junk remaining.length).vec
      (lib.junk remaining.length).mat = Except.ok nm := by
    rw [MN.integrate, Eigen.getMatrixWithout_ok, Eigen.getVectorWithout_ok]
    rfl
  have hpp : nm.precision.PosDef := h22.inv
  have he := hg.eig _ _ hpp
  obtain ⟨a0, a1, a2⟩ := ha' nm.mean (fun node hn => by
    rw [show nm.mean = mean2 from rfl, sub_self, zero_dotProduct, mul_zero, zero_add]
    exact hg.nodes node hn)
  obtain ⟨s, es, s1, s2, s3, s4⟩ := create_at (env := gridEnv lib pars) hb (hg.ar _ hK)
    (lib.solve remaining.length) (lib.eig remaining.length) nm
    (f := fun x => a.evaluate (lib.junk remaining.length) x (ruleOf pars.quadratureRule))
    (df := fun x => a.evaluateDerivative (lib.junk remaining.length) x
      (ruleOf pars.quadratureRule))
    (ddf := fun x => a.evaluateSecondDerivative (lib.junk remaining.length) x
      (ruleOf pars.quadratureRule))
    (fun ls ps hgp => (ha' _ (fun node hn => by
      refine le_trans (le_of_eq ?_) (hpts _ hK ls ps hgp node hn)
      congr 2
      rw [show nm.mean = mean2 from rfl, add_sub_cancel_left]
      by_cases h0 : remaining.length > 0
      · rw [if_pos h0]
        exact scale_dist hpp he _
      · have : IsEmpty (Fin remaining.length) := by
          rw [show remaining.length = 0 by omega]
          exact Fin.isEmpty
        simp [dotProduct])).1) a1 a2
  refine ⟨s, ?_, ?_⟩
  · rw [storeWith]
    simp only
    rw [ea]
    simp only [res_ok_bind]
    rw [enm]
    simp only [res_ok_bind]
    rw [es]
    rfl
  · intro x hx
    refine stored_ok hb (hg.ar _ hK) s3 s4 fun t => ?_
    have h0 : remaining.length > 0 := lt_of_le_of_lt (Nat.zero_le _) t.isLt
    rw [s1, s2, if_pos h0]
    refine hD (by omega) _ ?_
    refine le_trans ?_ hx
    have hdist : _ = _ := inv_dist hpp he (x - nm.mean)
    rw [show (v22 normal.variance i)⁻¹ = nm.precision from rfl,
      show mean2 = nm.mean from rfl, ← hdist]
    rw [dotProduct, sq]
    exact Finset.single_le_sum (f := fun k => (operatorSqrt (lib.eig _ nm.precision) *ᵥ
      (x - nm.mean)) k * (operatorSqrt (lib.eig _ nm.precision) *ᵥ (x - nm.mean)) k)
      (fun k _ => mul_self_nonneg _) (Finset.mem_univ t)

/-! ## Beliefs -/

/-- No item twice, and the functions of the factor return within the distance `√R` of the mean. -/
def Near (lib : Lib) (pars : Parameters) (μ : ℤ → ℝ) (V : ℤ → ℤ → ℝ) (R : ℝ) (g : Factor) : Prop :=
  ((Factor.ops lib pars).items g).Nodup ∧
    ∀ a : ℤ → ℝ, qf V ((Factor.ops lib pars).items g) (fun x => a x - μ x) ≤ R →
      AtMean (Factor.ops lib pars) a g

/-- A belief with at most `K` items made of such factors, whose normal approximation is a marginal
of the normal distribution with mean `μ` and variance `V`. -/
structure ClR (lib : Lib) (pars : Parameters) (U : ℤ → Prop) (μ : ℤ → ℝ) (V : ℤ → ℤ → ℝ) (K : ℕ)
    (R : ℝ) (m : Mixed Factor NB) : Prop where
  wf : WF (Factor.ops lib pars) NB.ops (Near lib pars μ V R) NWF m
  marg : MargOf μ V m.normalApprox
  sub : ∀ x ∈ m.items, U x
  len : m.items.length ≤ K

/-- The variance inflation factors of all marginals are at most `C`. -/
def Inflation (U : ℤ → Prop) (V : ℤ → ℤ → ℝ) (C : ℝ) : Prop :=
  ∀ l : List ℤ, l.Nodup → (∀ x ∈ l, U x) → ∀ i, vm V l i i * (vm V l)⁻¹ i i ≤ C

variable {lib : Lib} {pars : Parameters} {U : ℤ → Prop} {μ : ℤ → ℝ} {V : ℤ → ℤ → ℝ} {K : ℕ}
  {R C : ℝ}

theorem wfAt_near (hR : Regular U V) {m : Mixed Factor NB}
    (h : WF (Factor.ops lib pars) NB.ops (Near lib pars μ V R) NWF m) (hU : ∀ x ∈ m.items, U x)
    {a : ℤ → ℝ} (ha : qf V m.items (fun x => a x - μ x) ≤ R) :
    WFAt (Factor.ops lib pars) NB.ops NWF a m := by
  refine ⟨h.nodup, h.normal, h.normalWF, h.inv, h.rel, fun g hg => ?_⟩
  obtain ⟨⟨h1, h2⟩, h3⟩ := h.sub g hg
  refine ⟨h2 a ?_, h3⟩
  exact (qf_mono h3 (hR _ h1 fun x hx => hU x (h3 x hx)).1 (hR _ h.nodup hU).1 _).trans ha

theorem inflation_cast {n n' : ℕ} (e : n = n') {M : Matrix (Fin n) (Fin n) ℝ}
    (h : ∀ i, M i i * M⁻¹ i i ≤ C) (i : Fin n') :
    (M.submatrix (Fin.cast e.symm) (Fin.cast e.symm)) i i *
      (M.submatrix (Fin.cast e.symm) (Fin.cast e.symm))⁻¹ i i ≤ C := by
  subst e
  exact h i

/-- Integrating over one item. -/
theorem integrate_range (hg : RangeGrid lib pars K R C) (hR : Regular U V) (hC : Inflation U V C)
    {b : Mixed Factor NB} (hb : ClR lib pars U μ V K R b) {x : ℤ} (hx : x ∈ b.items) :
    ∃ r, Mixed.integrate (Factor.ops lib pars) NB.ops (store lib pars) b x = Except.ok r ∧
      ClR lib pars U μ V K R r ∧ r.items = b.items.filter (fun y => decide (y ≠ x)) := by
  set fo := Factor.ops lib pars with hfo
  have hni : b.normalApprox.items = b.items := hb.wf.normal
  have hnd := hb.wf.nodup
  have hi := relativeItem_lt hx
  set i := findRelativeItem x b.items with hi'
  set l := b.items.eraseIdx i with hl
  have hlf : l = b.items.filter fun y => decide (y ≠ x) := eraseIdx_relative hnd hx
  have e0 : b.items.length = l.length + 1 := by
    rw [hl, List.length_eraseIdx_of_lt hi]
    omega
  have e : b.normalApprox.items.length = l.length + 1 := by rw [hni, e0]
  have hlsub : ∀ y ∈ l, y ∈ b.items := fun y hy => List.mem_of_mem_eraseIdx hy
  have hlnd : l.Nodup := hnd.eraseIdx i
  have hlK : l.length < K := by
    have := hb.len
    omega
  obtain ⟨n, en, hn1, hn2, hn3⟩ := margOf_margin hb.marg (l := l) (by rw [hni]; exact hlsub)
  set I : Fin (l.length + 1) := Fin.cast e0 ⟨i, hi⟩ with hI
  set nm : MN (l.length + 1) := e ▸ b.normalApprox.normal with hnm
  -- the normal approximation in terms of the items
  have hmean : nm.mean = fun k => μ b.items[Fin.cast e0.symm k] := by
    rw [hnm, cast_mean, hb.marg.mean]
    funext k
    simp only [at_, Fin.getElem_fin, Fin.val_cast, hni]
  have hvar : nm.variance = (vm V b.items).submatrix (Fin.cast e0.symm) (Fin.cast e0.symm) := by
    rw [hnm, cast_variance, hb.marg.var]
    ext j k
    simp only [vm, Matrix.submatrix_apply, Matrix.of_apply, Fin.getElem_fin, Fin.val_cast, hni]
  have hprop : nm.isProper = true := by
    rw [hnm, cast_proper]
    refine margOf_proper hR hb.marg (by rw [hni]; exact hnd) (by rw [hni]; exact hb.sub) ?_
    rw [hni]
    exact List.ne_nil_of_mem hx
  have hm2 : (fun r => nm.mean (I.succAbove r)) = at_ l μ := by
    funext r
    rw [hmean]
    show μ _ = μ _
    rw [hI, eraseIdx_succAbove hi e0 r]
  have h22 : v22 nm.variance I = vm V l := by
    ext j k
    rw [hvar]
    simp only [v22, vm, Matrix.submatrix_apply, Matrix.of_apply]
    rw [hI, eraseIdx_succAbove hi e0 j, eraseIdx_succAbove hi e0 k]
  have pb := (hR _ hnd hb.sub).1
  have hVP : nm.variance.PosDef := by rw [hvar]; exact posDef_cast e0 pb
  -- the points in terms of the items
  have hpt : ∀ y : Fin (l.length + 1) → ℝ,
      (y - nm.mean) ⬝ᵥ (nm.variance⁻¹ *ᵥ (y - nm.mean)) ≤ R → ∃ a : ℤ → ℝ,
        List.ofFn y = b.items.map a ∧ WFAt fo NB.ops NWF a b := by
    intro y hy
    have hmap := eq_map_getD hnd (l := List.ofFn y) (by rw [List.length_ofFn, e0]) 0
    refine ⟨_, hmap, wfAt_near hR hb.wf hb.sub (le_trans (le_of_eq ?_) hy)⟩
    rw [qf, form_cast e0, hvar]
    have : (fun k => at_ b.items (fun x => (List.ofFn y).getD (findRelativeItem x b.items) 0 - μ x)
        (Fin.cast e0.symm k)) = y - nm.mean := by
      funext k
      rw [Pi.sub_apply, hmean]
      show _ - _ = _ - _
      congr 1
      have h1 := List.getElem_of_eq hmap (i := k) (by rw [List.length_ofFn]; exact k.2)
      rw [List.getElem_ofFn, List.getElem_map] at h1
      exact h1.symm
    rw [this]
  obtain ⟨s, es, hs⟩ := storeWith_range hg (f := b.evaluate fo) (d := b.evaluateDerivative fo)
    (h := b.evaluateSecondDerivative fo) (remaining := l) hlK I (normal := nm)
    (fun y hy => by
      obtain ⟨a, ea, w⟩ := hpt y hy
      rw [ea]
      exact ⟨_, evaluateAt_ok w⟩)
    (fun y hy => by
      obtain ⟨a, ea, w⟩ := hpt y hy
      rw [ea, ← e0]
      exact evaluateDerivativeAt_ok w)
    (fun y hy => by
      obtain ⟨a, ea, w⟩ := hpt y hy
      rw [ea, ← e0]
      exact evaluateSecondDerivativeAt_ok w) hprop hVP
    (by rw [hvar]; exact inflation_cast e0 (hC _ hnd hb.sub) I)
  rw [hm2, h22] at hs
  have hst : store lib pars i (b.evaluate fo) (b.evaluateDerivative fo)
      (b.evaluateSecondDerivative fo) b.normalApprox l =
      Except.ok (Factor.sparse l l.length s) := by
    rw [store, dif_pos e]
    exact es
  have hA : Near lib pars μ V R (Factor.sparse l l.length s) := by
    refine ⟨hlnd, fun a ha => ?_⟩
    have hv : NB.vec l.length (l.map a) = Except.ok (at_ l a) := by
      rw [NB.vec, dif_pos (by simp)]
      congr 1
      funext k
      simp [at_]
    obtain ⟨⟨v0, s0⟩, ⟨d', s1⟩, h', s2⟩ := hs (at_ l a) (by
      have : at_ l a - at_ l μ = at_ l fun x => a x - μ x := rfl
      rw [this]
      exact ha)
    refine ⟨hlnd, ⟨v0, ?_⟩, ?_, ?_⟩
    · show Factor.eval lib pars (Factor.sparse l l.length s) (l.map a) = _
      rw [Factor.eval, hv]
      simp only [res_ok_bind]
      exact s0
    · refine ⟨List.ofFn d', ?_, by rw [List.length_ofFn]; rfl⟩
      show Factor.deriv lib pars (Factor.sparse l l.length s) (l.map a) = _
      rw [Factor.deriv, hv]
      simp only [res_ok_bind]
      rw [s1]
      rfl
    · refine ⟨List.ofFn fun i => List.ofFn fun j => h' i j, ?_,
        by rw [List.length_ofFn]; rfl, ?_⟩
      · show Factor.hess lib pars (Factor.sparse l l.length s) (l.map a) = _
        rw [Factor.hess, hv]
        simp only [res_ok_bind]
        rw [s2]
        rfl
      · intro r hr
        obtain ⟨k, rfl⟩ := List.mem_ofFn.mp hr
        rw [List.length_ofFn]
        rfl
  rw [Mixed.integrate, ← hi', show Mixed.eraseAt b.items i = Except.ok l by
    rw [Mixed.eraseAt, if_pos hi]]
  simp only [res_ok_bind]
  rw [hst]
  simp only [res_ok_bind]
  rw [show NB.ops.margin b.normalApprox l = _ from en]
  have hitems : (Mixed.setNormalApprox (Mixed.ofFactor fo NB.ops (Factor.sparse l l.length s))
      n).items = l := by
    rw [Mixed.setNormalApprox]
    split <;> rfl
  have hnorm : (Mixed.setNormalApprox (Mixed.ofFactor fo NB.ops (Factor.sparse l l.length s))
      n).normalApprox = n := rfl
  refine ⟨_, rfl, ⟨wf_setNormal (wf_ofFactor_nd (fun g hg => hg.1) nb_laws hA) (hn3 hlnd) hn1,
    ?_, ?_, ?_⟩, hitems.trans hlf⟩
  · rw [hnorm]
    exact hn2
  · rw [hitems]
    exact fun y hy => hb.sub y (hlsub y hy)
  · rw [hitems]
    exact hlK.le

/-- Integrating over several items. -/
theorem fold_range (hg : RangeGrid lib pars K R C) (hR : Regular U V) (hC : Inflation U V C) :
    ∀ (L : List ℤ) {b : Mixed Factor NB}, ClR lib pars U μ V K R b → L.Nodup →
    (∀ x ∈ L, x ∈ b.items) →
    ∃ r, L.foldlM (Mixed.integrate (Factor.ops lib pars) NB.ops (store lib pars)) b =
        Except.ok r ∧
      ClR lib pars U μ V K R r ∧ r.items = b.items.filter (fun y => decide (y ∉ L))
  | [], b, hb, _, _ => ⟨b, rfl, hb, by simp⟩
  | x :: L, b, hb, hn, hs => by
    obtain ⟨r1, e1, c1, i1⟩ := integrate_range hg hR hC hb (hs x (by simp))
    obtain ⟨hx, hn'⟩ := List.nodup_cons.mp hn
    obtain ⟨r2, e2, c2, i2⟩ := fold_range hg hR hC L c1 hn' (by
      intro y hy
      rw [i1, List.mem_filter]
      refine ⟨hs y (by simp [hy]), decide_eq_true ?_⟩
      rintro rfl
      exact hx hy)
    refine ⟨r2, ?_, c2, ?_⟩
    · rw [List.foldlM_cons, e1]
      exact e2
    · rw [i2, i1, List.filter_filter]
      congr 1
      funext y
      simp only [List.mem_cons, not_or]
      rw [Bool.eq_iff_iff]
      simp
      tauto

theorem margin_range (hg : RangeGrid lib pars K R C) (hR : Regular U V) (hC : Inflation U V C)
    {b : Mixed Factor NB} (hb : ClR lib pars U μ V K R b) (l : List ℤ) :
    ∃ r, Mixed.margin (Factor.ops lib pars) NB.ops (store lib pars) b l false = Except.ok r ∧
      ClR lib pars U μ V K R r ∧ r.items = b.items.filter (fun y => decide (y ∈ l)) := by
  obtain ⟨r, e, c, i⟩ := fold_range hg hR hC (b.items.filter fun y => decide (y ∉ l)) hb
    (hb.wf.nodup.filter _) fun x hx => (List.mem_filter.mp hx).1
  refine ⟨r, ?_, c, ?_⟩
  · rw [Mixed.margin, if_neg (by simp), difference_eq]
    exact e
  · rw [i]
    refine List.filter_congr fun y hy => ?_
    simp [hy]

theorem wfAt_mean (hR : Regular U V) (h0 : 0 ≤ R) {b : Mixed Factor NB}
    (hb : ClR lib pars U μ V K R b) : WFAt (Factor.ops lib pars) NB.ops NWF μ b := by
  refine wfAt_near hR hb.wf hb.sub ?_
  have : at_ b.items (fun x => μ x - μ x) = 0 := by
    funext k
    exact sub_self _
  rw [qf, this, zero_dotProduct]
  exact h0

theorem logNorm_range (hg : RangeGrid lib pars K R C) (hR : Regular U V) (hC : Inflation U V C)
    {b : Mixed Factor NB} (hb : ClR lib pars U μ V K R b) :
    ∃ v, (ops lib pars).logNorm b = Except.ok v := by
  obtain ⟨r, e, c, i⟩ := margin_range hg hR hC hb []
  show ∃ v, Mixed.logNorm (Factor.ops lib pars) NB.ops (store lib pars) b = Except.ok v
  rw [Mixed.logNorm, e]
  simp only [res_ok_bind]
  have hri : r.items = [] := by rw [i]; simp
  have := evaluateAt_ok (wfAt_mean hR hg.nonneg c)
  rw [hri, List.map_nil] at this
  exact ⟨_, this⟩

/-- The operations of the forward sweep (the last integral is left out). -/
theorem range_laws (hg : RangeGrid lib pars K R C) (hR : Regular U V) (hC : Inflation U V C) :
    AtPoint { ops lib pars with logNorm := fun _ => Except.ok 0 }
      (fun b => ClR lib pars U μ V K R b ∧ b.isNormalFixed = true)
      (WF (Factor.ops lib pars) NB.ops (Near lib pars μ V R) NWF) (fun _ => 0) fun _ _ => 0 := by
  set fo := Factor.ops lib pars with hfo
  refine ⟨?_, ?_, ?_, ?_, ?_⟩
  · rintro b d ⟨hb, -⟩ - hs
    obtain ⟨r, e, c, i⟩ := margin_range hg hR hC hb d.items
    refine ⟨r, e, c.wf, fun x => ?_, by simp⟩
    show x ∈ r.items ↔ x ∈ d.items
    rw [i, List.mem_filter]
    simp only [decide_eq_true_eq, and_iff_right_iff_imp]
    exact hs x
  · rintro b d ⟨hb, hf⟩ hd hs
    obtain ⟨r, e, w, i, f, v⟩ := mul_ok (F := fval fo) nb_laws hb.wf hd hs
    have hna : r.normalApprox = b.normalApprox := by
      rw [Mixed.mul, Mixed.combineNormal, if_pos hf] at e
      simp only [res_ok_bind] at e
      rw [flags_ok hd] at e
      cases e
      rfl
    exact ⟨r, e, ⟨⟨w, by rw [hna]; exact hb.marg, by rw [i]; exact hb.sub,
      by rw [i]; exact hb.len⟩, f.trans hf⟩, i, by simp⟩
  · rintro b d ⟨hb, hf⟩ hd hs
    obtain ⟨r, e, w, i, f, v⟩ := div_ok (F := fval fo) nb_laws hb.wf hd hs
    have hna : r.normalApprox = b.normalApprox := by
      rw [Mixed.div, Mixed.combineNormal, if_pos hf] at e
      simp only [res_ok_bind] at e
      rw [flags_ok hd] at e
      cases e
      rfl
    exact ⟨r, e, ⟨⟨w, by rw [hna]; exact hb.marg, by rw [i]; exact hb.sub,
      by rw [i]; exact hb.len⟩, f.trans hf⟩, i, by simp⟩
  · rintro b ⟨hb, -⟩
    have hni : b.normalApprox.items = b.items := hb.wf.normal
    show ∃ t, Mixed.isProper fo NB.ops b = Except.ok t
    have hm : NB.ops.mean b.normalApprox = b.items.map μ := by
      show List.ofFn b.normalApprox.normal.mean = _
      rw [hb.marg.mean, ← hni]
      refine List.ext_getElem (by simp) fun k h1 h2 => ?_
      rw [List.getElem_ofFn, List.getElem_map]
      rfl
    have hn : ∃ o, NB.ops.eval b.normalApprox (b.items.map μ) = Except.ok o := by
      show ∃ o, NB.evaluate b.normalApprox (b.items.map μ) = Except.ok o
      rw [NB.evaluate, NB.vec, dif_pos (by rw [List.length_map, hni])]
      exact ⟨_, rfl⟩
    obtain ⟨o, eo⟩ := hn
    rw [Mixed.isProper, Mixed.factorsProper, hm, evaluateAt_ok (wfAt_mean hR hg.nonneg hb)]
    split <;>
    · simp only [res_ok_bind, res_pure]
      rw [eo]
      exact ⟨_, rfl⟩
  · rintro b -
    simp

/-- The forward sweep and the last integral return a value or raise an error. -/
theorem range_total (hg : RangeGrid lib pars K R C) (hR : Regular U V) (hC : Inflation U V C)
    {c : CG (Mixed Factor NB)} (hc : ChainSub (ops lib pars) c)
    (hP : ∀ b ∈ c.clusters, ClR lib pars U μ V K R b ∧ b.isNormalFixed = true)
    (hE : ∀ e ∈ c.edges,
      WF (Factor.ops lib pars) NB.ops (Near lib pars μ V R) NWF e.belief) :
    (do
      let c' ← calibrateForward (ops lib pars) c
      logNormalizingConstant (ops lib pars) c') =
      Res.raise "improper cluster belief after passing message" ∨
    ∃ v, (do
      let c' ← calibrateForward (ops lib pars) c
      logNormalizingConstant (ops lib pars) c') = Except.ok v := by
  rw [calibrateForward, calibrateInternal]
  simp only [if_true]
  rw [List.range_eq_range']
  have hloop := at_loop (range_laws (μ := μ) hg hR hC) c.edges.length 0 (c := c) hc hP
    (fun l _ h => hE _ (List.getElem_mem h)) (by omega)
  rcases hloop with h | ⟨c2, h, hc2, hP2, l2, -, -⟩
  · have h' : (List.range' 0 c.edges.length).foldlM
        (fun c k => passMessage (ops lib pars) c k true false) c = _ := h
    rw [h']
    exact Or.inl rfl
  · have h' : (List.range' 0 c.edges.length).foldlM
        (fun c k => passMessage (ops lib pars) c k true false) c = _ := h
    rw [h']
    refine Or.inr ?_
    simp only [res_ok_bind]
    have hl : c.edges.length < c2.clusters.length := by rw [hc2.1]; omega
    rw [logNormalizingConstant,
      show ((c2.clusters.length : ℤ) - 1) = ((c.edges.length : ℕ) : ℤ) by
        rw [hc2.1, l2]; push_cast; ring, atZ_ok hl]
    simp only [res_ok_bind]
    exact logNorm_range hg hR hC (hP2 _ (List.getElem_mem hl)).1

/-- After the forward sweep the last integral has a value. -/
theorem range_value (hg : RangeGrid lib pars K R C) (hR : Regular U V) (hC : Inflation U V C)
    {c c2 : CG (Mixed Factor NB)} (hc : ChainSub (ops lib pars) c)
    (hP : ∀ b ∈ c.clusters, ClR lib pars U μ V K R b ∧ b.isNormalFixed = true)
    (hE : ∀ e ∈ c.edges,
      WF (Factor.ops lib pars) NB.ops (Near lib pars μ V R) NWF e.belief)
    (h : calibrateForward (ops lib pars) c = Except.ok c2) :
    ∃ v, logNormalizingConstant (ops lib pars) c2 = Except.ok v := by
  rw [calibrateForward, calibrateInternal] at h
  simp only [if_true] at h
  rw [List.range_eq_range'] at h
  have hloop := at_loop (range_laws (μ := μ) hg hR hC) c.edges.length 0 (c := c) hc hP
    (fun l _ h => hE _ (List.getElem_mem h)) (by omega)
  rcases hloop with h' | ⟨c3, h', hc2, hP2, l2, -, -⟩
  · have h'' : (List.range' 0 c.edges.length).foldlM
        (fun c k => passMessage (ops lib pars) c k true false) c = _ := h'
    rw [h''] at h
    cases h
  · have h'' : (List.range' 0 c.edges.length).foldlM
        (fun c k => passMessage (ops lib pars) c k true false) c = _ := h'
    rw [h''] at h
    cases h
    have hl : c.edges.length < c2.clusters.length := by rw [hc2.1]; omega
    rw [logNormalizingConstant,
      show ((c2.clusters.length : ℤ) - 1) = ((c.edges.length : ℕ) : ℤ) by
        rw [hc2.1, l2]; push_cast; ring, atZ_ok hl]
    simp only [res_ok_bind]
    exact logNorm_range hg hR hC (hP2 _ (List.getElem_mem hl)).1

/-- In the forward sweep nothing but the tests for improper beliefs can fail. -/
theorem range_safe (hg : RangeGrid lib pars K R C) (hR : Regular U V) (hC : Inflation U V C)
    {c : CG (Mixed Factor NB)} (hc : ChainSub (ops lib pars) c)
    (hP : ∀ b ∈ c.clusters, ClR lib pars U μ V K R b ∧ b.isNormalFixed = true)
    (hE : ∀ e ∈ c.edges,
      WF (Factor.ops lib pars) NB.ops (Near lib pars μ V R) NWF e.belief) :
    Safe (ops lib pars) (sweep c.edges.length true false) c :=
  safe_congr (ops := { ops lib pars with logNorm := fun _ => Except.ok 0 })
    (ops' := ops lib pars) rfl
    (fun _ _ _ => rfl) (safe_forward (range_laws (μ := μ) hg hR hC) hc hP hE)

/-! ## The whole run -/

theorem wf_near_of_tot {m : Mixed Factor NB} (h : WF (Factor.ops lib pars) NB.ops
    (Tot (Factor.ops lib pars)) NWF m) :
    WF (Factor.ops lib pars) NB.ops (Near lib pars μ V R) NWF m :=
  ⟨h.nodup, h.normal, h.normalWF, h.inv, h.rel, fun g hg =>
    ⟨⟨(h.sub g hg).1.1, fun a _ => (h.sub g hg).1.atMean a⟩, (h.sub g hg).2⟩⟩

variable {N : ℕ} {mean : Fin N → ℝ} {Q : Matrix (Fin N) (Fin N) ℝ}

/-- The clusters have different items, all of them in range. -/
theorem clusters_range (lib : Lib) (pars : Parameters) {beliefs : List (Mixed Factor NB)}
    (hb : ∀ b ∈ beliefs, WFn (Factor.ops lib pars) (Tot (Factor.ops lib pars)) b)
    (hcov : ∀ x : ℤ, (∃ b ∈ beliefs, x ∈ b.items) ↔ 0 ≤ x ∧ x < N)
    (har : Suits lib.ar (beliefs.map Mixed.items)) {c : CG (Mixed Factor NB)}
    (h : ofBeliefs lib.ar (ops lib pars) beliefs = Except.ok c) :
    ∀ b ∈ c.clusters, b.items.length ≤ N := by
  classical
  set fo := Factor.ops lib pars with hfo
  have L := tot_laws fo
  set st0 : Belief.Store Factor NB := fun _ _ _ _ _ _ => Res.ub with hst0
  have hst : StoreLaw fo (Tot fo) st0 := by
    intro k f d h n l g _ h
    cases h
  have hF : ∀ F ∈ beliefs.map (Mixed.ops fo NB.ops st0).items, F.Nodup := by
    intro F hF
    obtain ⟨b, hbm, rfl⟩ := List.mem_map.mp hF
    exact (hb b hbm).wf.nodup
  obtain ⟨B, hf, g1, g2, g3⟩ := Suits.fits har hF
  obtain ⟨c, ec, hB, inv, -⟩ := ofBeliefs_ok (normal_laws L hst fun _ => 0) beliefs hb hf g1 g2 g3
  obtain ⟨c_, ec_, -, -, hedge, bss, hbl, hbp, hbc, -⟩ := ofBeliefs_ok (mixed_laws L nb_laws hst)
    beliefs (fun b hbm => (hb b hbm).wf) hf g1 g2 g3
  rw [ec] at ec_
  cases ec_
  have ec' := (ofBeliefs_store fo NB.ops (store lib pars) st0 lib.ar beliefs).trans ec
  have hcc := ec'.symm.trans h
  cases hcc
  have hcl : ∀ k (hk : k < c.clusters.length), cl (Mixed.ops fo NB.ops st0) c k =
      c.clusters[k].items := by
    intro k hk
    simp only [cl, List.getElem?_eq_getElem hk]
    rfl
  have hocc : ∀ x, Occurs c x ↔ 0 ≤ x ∧ x < N := by
    intro x
    rw [← hcov x]
    constructor
    · rintro ⟨b, hbm, hx⟩
      obtain ⟨k, hk, rfl⟩ := List.mem_iff_getElem.mp hbm
      obtain ⟨l, hl, hxl⟩ := (hB.items x).mp ⟨k, by rw [hcl k hk]; exact hx⟩
      obtain ⟨b', hb', rfl⟩ := List.mem_map.mp hl
      exact ⟨b', hb', hxl⟩
    · rintro ⟨b, hbm, hx⟩
      obtain ⟨k, hk⟩ := (hB.items x).mpr ⟨_, List.mem_map_of_mem hbm, hx⟩
      by_cases hkl : k < c.clusters.length
      · exact ⟨_, List.getElem_mem hkl, by rwa [hcl k hkl] at hk⟩
      · rw [cl_ge _ (by omega)] at hk
        simp at hk
  intro b hbm
  have hnd : b.items.Nodup := (inv.wfC b hbm).wf.nodup
  have : b.items.toFinset ⊆ Finset.univ.image fun i : Fin N => ((i : ℕ) : ℤ) := by
    intro x hx
    obtain ⟨g0, g1⟩ := (hocc x).mp ⟨b, hbm, List.mem_toFinset.mp hx⟩
    exact Finset.mem_image.mpr ⟨⟨x.toNat, by omega⟩, Finset.mem_univ _, by simp [g0]⟩
  have := (Finset.card_le_card this).trans Finset.card_image_le
  rwa [List.toFinset_card_of_nodup hnd, Finset.card_univ, Fintype.card_fin] at this

section Safe

variable {γ : Type} {fo : FactorOps γ} {GWF : γ → Prop} {F : γ → List ℝ → ℝ} {st : Belief.Store γ NB}
  {n : ℕ} {C S : ℕ → Set ℤ} {p : ℕ → ℕ}

/-- Nothing but the tests for improper beliefs can fail in `computeLogNormalizingConstant`. -/
structure SafeValue (fo : FactorOps γ) (st : Belief.Store γ NB) (mean : Fin N → ℝ)
    (Q : Matrix (Fin N) (Fin N) ℝ) (c : CG (Mixed γ NB)) : Prop where
  down : ∀ c0, initNormal mean Q c = Except.ok c0 →
    Safe (Mixed.ops fo NB.ops st) (sweep c0.edges.length true true) c0
  up : ∀ c0 c1, initNormal mean Q c = Except.ok c0 →
    calibrateInternal (Mixed.ops fo NB.ops st) c0 true true = Except.ok c1 →
    Safe (Mixed.ops fo NB.ops st) (sweep c1.edges.length false true) c1
  forward : ∀ c1, setNormalApprox fo st mean Q c = Except.ok c1 →
    Safe (Mixed.ops fo NB.ops st) (sweep c1.edges.length true false) c1
  value : ∀ c1 c2, setNormalApprox fo st mean Q c = Except.ok c1 →
    calibrateForward (Mixed.ops fo NB.ops st) c1 = Except.ok c2 →
    ∃ v, logNormalizingConstant (Mixed.ops fo NB.ops st) c2 = Except.ok v

/-- Messages with the normal approximation only. -/
theorem safe_normal (L : FLaws fo GWF F) (hst : StoreLaw fo GWF st) {R : (ℤ → ℝ) → ℝ} {μ : ℤ → ℝ}
    (hQ : ∀ j ≤ n, ∀ a, (∃ x ∈ C j, a x ≠ 0) → 0 < R a) :
    ∀ (ms : List Msg) {c : CG (Mixed γ NB)}, NInv fo GWF st n C S p R μ c →
      (∀ m ∈ ms, m.1 < n ∧ m.2.2 = true) → Safe (Mixed.ops fo NB.ops st) ms c
  | [], _, _, _ => trivial
  | m :: ms, c, I, h => by
    obtain ⟨h1, h2⟩ := h m (by simp)
    obtain ⟨c1, ⟨r, hr, hrun⟩, I1, -⟩ := message_total L hst m.2.1 I hQ h1
    refine ⟨c1, ?_, fun b hb => ?_, safe_normal L hst hQ ms I1 fun m' hm' => h m' (by simp [hm'])⟩
    · rw [h2]
      exact hrun fun _ => Except.ok true
    · obtain ⟨l, hl, rfl⟩ := List.mem_iff_getElem.mp hb
      obtain ⟨t, ht, -⟩ := proper_total L (I1.inv.wfC _ hb) (I1.goodC _ hb)
        (cluster_posDef I1.shape I1.inv I1.tot I1.reach hQ hl (I1.goodC _ hb).symm)
      exact ⟨t, ht⟩

/-- They do not need the functions stored by integration. -/
theorem safe_store (st' : Belief.Store γ NB) {ms : List Msg} {c : CG (Mixed γ NB)}
    (hm : ∀ m ∈ ms, m.2.2 = true) (h : Safe (Mixed.ops fo NB.ops st) ms c) :
    Safe (Mixed.ops fo NB.ops st') ms c := by
  refine safe_congr (ops := Mixed.ops fo NB.ops st) (ops' := Mixed.ops fo NB.ops st') rfl
    (fun m h c => ?_) h
  rw [hm m h]
  have hm : ∀ b l, (Mixed.ops fo NB.ops st).untested.margin b l true =
      (Mixed.ops fo NB.ops st').untested.margin b l true := by
    intro b l
    show Mixed.margin fo NB.ops st b l true = Mixed.margin fo NB.ops st' b l true
    rw [Mixed.margin, Mixed.margin, if_pos rfl, if_pos rfl]
  simp only [passMessage, hm]
  rfl

end Safe

/-- `computeLogNormalizingConstant` returns a value or raises an error, if the grids answer within
the distance needed. -/
theorem range_run (lib : Lib) {pars : Parameters} {K : ℕ} {R C₀ : ℝ}
    (hg : RangeGrid lib pars K R C₀)
    {beliefs : List (Mixed Factor NB)}
    (hb : ∀ b ∈ beliefs, WFn (Factor.ops lib pars) (Tot (Factor.ops lib pars)) b)
    (hcov : ∀ x : ℤ, (∃ b ∈ beliefs, x ∈ b.items) ↔ 0 ≤ x ∧ x < N)
    (har : Suits lib.ar (beliefs.map Mixed.items))
    (hK : ∀ c, ofBeliefs lib.ar (ops lib pars) beliefs = Except.ok c →
      ∀ b ∈ c.clusters, b.items.length ≤ K)
    (hQ : Q.PosDef) (hz : ∀ i j : Fin N, Q i j ≠ 0 →
      ∃ b ∈ beliefs, ((i : ℕ) : ℤ) ∈ b.items ∧ ((j : ℕ) : ℤ) ∈ b.items)
    (hl : NoZeroNormalizer Q)
    (hC₀ : Inflation (fun x => 0 ≤ x ∧ x < N) (mz Q⁻¹) C₀) :
    ∃ c, ofBeliefs lib.ar (ops lib pars) beliefs = Except.ok c ∧
      SafeValue (Factor.ops lib pars) (store lib pars) mean Q c ∧
      (computeLogNormalizingConstant lib pars c mean Q =
          Res.raise "improper cluster belief after passing message" ∨
        ∃ v, computeLogNormalizingConstant lib pars c mean Q = Except.ok v) := by
  classical
  set fo := Factor.ops lib pars with hfo
  have L := tot_laws fo
  set st0 : Belief.Store Factor NB := fun _ _ _ _ _ _ => Res.ub with hst0
  have hst : StoreLaw fo (Tot fo) st0 := by
    intro k f d h n l g _ h
    cases h
  have hF : ∀ F ∈ beliefs.map (Mixed.ops fo NB.ops st0).items, F.Nodup := by
    intro F hF
    obtain ⟨b, hbm, rfl⟩ := List.mem_map.mp hF
    exact (hb b hbm).wf.nodup
  obtain ⟨B, hf, g1, g2, g3⟩ := Suits.fits har hF
  obtain ⟨c, ec, hB, inv, -⟩ := ofBeliefs_ok (normal_laws L hst fun _ => 0) beliefs hb hf g1 g2 g3
  obtain ⟨c_, ec_, -, -, hedge, bss, hbl, hbp, hbc, -⟩ := ofBeliefs_ok (mixed_laws L nb_laws hst)
    beliefs (fun b hbm => (hb b hbm).wf) hf g1 g2 g3
  rw [ec] at ec_
  cases ec_
  have ec' := (ofBeliefs_store fo NB.ops (store lib pars) st0 lib.ar beliefs).trans ec
  refine ⟨c, ec', ?_⟩
  have hKc := hK c ec'
  have hcl : ∀ k (hk : k < c.clusters.length), cl (Mixed.ops fo NB.ops st0) c k =
      c.clusters[k].items := by
    intro k hk
    simp only [cl, List.getElem?_eq_getElem hk]
    rfl
  have hocc : ∀ x, Occurs c x ↔ 0 ≤ x ∧ x < N := by
    intro x
    rw [← hcov x]
    constructor
    · rintro ⟨b, hbm, hx⟩
      obtain ⟨k, hk, rfl⟩ := List.mem_iff_getElem.mp hbm
      obtain ⟨l, hl, hxl⟩ := (hB.items x).mp ⟨k, by rw [hcl k hk]; exact hx⟩
      obtain ⟨b', hb', rfl⟩ := List.mem_map.mp hl
      exact ⟨b', hb', hxl⟩
    · rintro ⟨b, hbm, hx⟩
      obtain ⟨k, hk⟩ := (hB.items x).mpr ⟨_, List.mem_map_of_mem hbm, hx⟩
      by_cases hkl : k < c.clusters.length
      · exact ⟨_, List.getElem_mem hkl, by rwa [hcl k hkl] at hk⟩
      · rw [cl_ge _ (by omega)] at hk
        simp at hk
  have hz' : ZeroApart Q c := by
    intro i j hi hj hn
    by_contra h0
    obtain ⟨b, hbm, h1, h2⟩ := hz i j h0
    obtain ⟨B', hB', hbB⟩ := List.mem_flatten.mp (hbp.mem_iff.mpr hbm)
    obtain ⟨k, hk, rfl⟩ := List.mem_iff_getElem.mp hB'
    have hk' : k < c.clusters.length := by rw [← hbl]; exact hk
    have hsub := (hbc k _ _ (List.getElem?_eq_getElem hk') (List.getElem?_eq_getElem hk)).1 b hbB
    exact hn _ (List.getElem_mem hk') ⟨hsub _ h1, hsub _ h2⟩
  obtain ⟨p, hs⟩ := Built.exists_shape rfl hB
  generalize hn : c.edges.length = n at hs
  generalize hCdef : (fun k => {x | x ∈ cl (Mixed.ops fo NB.ops st0) c k}) = C at hs
  generalize hSdef : (fun k => {x | x ∈ sp (Mixed.ops fo NB.ops st0) c.edges k}) = S at hs
  have hr' : ∀ x ∈ covered n C, 0 ≤ x ∧ x < N :=
    fun x hx => (hocc x).mp ((occurs_iff hs x).mpr hx)
  have hall : ∀ i : Fin N, ((i : ℕ) : ℤ) ∈ covered n C := fun i =>
    (occurs_iff hs _).mp ((hocc _).mpr ⟨by omega, by omega⟩)
  have hve : ∀ l a, ve fo (fval fo) c l a = 0 := by
    intro l a
    rw [ve]
    rcases he : c.edges[l]? with _ | e
    · rfl
    · exact hedge e (List.mem_of_getElem? he) a
  have hdown : ∀ c0, initNormal mean Q c = Except.ok c0 → NInv fo (Tot fo) st0 n C S p
      (fun a => glob Q (covered n C) a a) (vz mean) c0 ∧ ∀ l a, ve fo (fval fo) c0 l a = 0 := by
    intro c0 e
    obtain ⟨c0', e0, I0, -, -, -, -, he0⟩ := init_inv (mean := mean) hs inv hr' (compatible_of hs hz')
      (posDef_symm hQ)
    rw [e0] at e
    cases e
    exact ⟨I0, fun l a => (he0 (fval fo) l a).trans (hve l a)⟩
  have hup : ∀ c0 c1, initNormal mean Q c = Except.ok c0 →
      calibrateInternal (Mixed.ops fo NB.ops st0) c0 true true = Except.ok c1 →
      NInv fo (Tot fo) st0 n C S p (fun a => glob Q (covered n C) a a) (vz mean) c1 := by
    intro c0 c1 e e1
    obtain ⟨I0, he0⟩ := hdown c0 e
    rw [calibrate_is_passAll, I0.shape.lenE] at e1
    rcases schedule_run (good := fun _ => True) L hst (glob_posQ hQ hr')
      (fun _ _ _ _ _ _ _ => trivial) _ I0 (fun _ _ => rfl) he0 (sweep_range (fw := true)) with
      ⟨c1', h1, I1, -⟩ | ⟨-, h1⟩
    · rw [h1] at e1
      cases e1
      exact I1
    · rw [h1] at e1
      cases e1
  have hna : ∀ (k : ℕ) (fw : Bool), ∀ m ∈ sweep k fw true, m.2.2 = true := by
    intro k fw m hm
    obtain ⟨l, -, rfl⟩ := List.mem_map.mp hm
    rfl
  have sdown : ∀ c0, initNormal mean Q c = Except.ok c0 →
      Safe (ops lib pars) (sweep c0.edges.length true true) c0 := by
    intro c0 e
    obtain ⟨I0, -⟩ := hdown c0 e
    refine safe_store (store lib pars) (hna _ _) (safe_normal L hst (glob_posQ hQ hr') _ I0 ?_)
    rw [I0.shape.lenE]
    exact sweep_range (fw := true)
  have sup : ∀ c0 c1, initNormal mean Q c = Except.ok c0 →
      calibrateInternal (ops lib pars) c0 true true = Except.ok c1 →
      Safe (ops lib pars) (sweep c1.edges.length false true) c1 := by
    intro c0 c1 e e1
    have I1 := hup c0 c1 e (by
      rw [← e1]
      simp only [calibrateInternal, ops, passMessage_store fo NB.ops (store lib pars) st0, ← hfo])
    refine safe_store (store lib pars) (hna _ _) (safe_normal L hst (glob_posQ hQ hr') _ I1 ?_)
    rw [I1.shape.lenE]
    exact sweep_range (fw := false)
  rw [computeLogNormalizingConstant]
  rw [setNormalApprox_store _ (store lib pars) st0]
  rcases set_run (mean := mean) (good := fun _ => True) L hst hs inv hr' hQ
    (compatible_of hs hz') hve (fun _ _ _ _ _ _ _ => trivial) with ⟨c2, I, hv2, he2, h⟩ | ⟨-, h⟩
  swap
  · refine ⟨⟨sdown, sup, fun c1 e => ?_, fun c1 _ e _ => ?_⟩, ?_⟩
    · rw [setNormalApprox_store _ _ st0, h] at e
      cases e
    · rw [setNormalApprox_store _ _ st0, h] at e
      cases e
    · rw [h]
      exact Or.inl rfl
  obtain ⟨mC, mE⟩ := c60_marginals L hst hB inv hocc hQ hz' h
  rw [h]
  simp only [res_ok_bind]
  have hset := (setNormalApprox_store fo (store lib pars) st0 mean Q c).trans h
  set c' : CG (Mixed Factor NB) := ⟨c2.clusters.map Mixed.fixNormalApprox,
        c2.edges.map fun e => ⟨e.first, e.second, e.belief.fixNormalApprox⟩⟩ with hc'
  have hlC : c'.clusters.length = n + 1 := by simp [hc', I.shape.lenC]
  have hlE : c'.edges.length = n := by simp [hc', I.shape.lenE]
  have hcit : ∀ k (hk : k < c2.clusters.length), cit (ops lib pars) c' k = c2.clusters[k].items := by
    intro k hk
    rw [cit_eq (by simpa [hc'] using hk)]
    simp only [hc', List.getElem_map]
    rfl
  have heit : ∀ k (hk : k < c2.edges.length),
      eit (ops lib pars) c' k = c2.edges[k].belief.items := by
    intro k hk
    rw [eit_eq (by simpa [hc'] using hk)]
    simp only [hc', List.getElem_map]
    rfl
  have hCl : ∀ b ∈ c'.clusters, ClR lib pars (fun x => 0 ≤ x ∧ x < N) (vz mean) (mz Q⁻¹) K R b ∧
      b.isNormalFixed = true := by
    intro b hbm
    have hm := mC b hbm
    obtain ⟨b', hb', rfl⟩ := List.mem_map.mp hbm
    obtain ⟨k, hk, rfl⟩ := List.mem_iff_getElem.mp hb'
    have hkn : k ≤ n := by rw [I.shape.lenC] at hk; omega
    have hw := I.inv.wfC _ hb'
    have hrng : ∀ x ∈ c2.clusters[k].items, 0 ≤ x ∧ x < N := fun x hx =>
      hr' x ⟨k, hkn, (I.shape.itemsC k hk x).mp hx⟩
    refine ⟨⟨wf_fix (wf_near_of_tot hw.wf), ?_, hrng, ?_⟩, rfl⟩
    · refine marginal_margOf (b := c2.clusters[k].normalApprox) hQ hm (I.goodC _ hb')
        (I.varC _ hb') hw.wf.normalWF.nodup ?_
      rw [wfn_items hw]
      exact hrng
    · have hkc : k < c.clusters.length := by rw [hs.lenC]; omega
      refine le_trans ?_ (hKc _ (List.getElem_mem hkc))
      refine (hw.wf.nodup.subperm fun x hx => ?_).length_le
      have := (I.shape.itemsC k hk x).mp hx
      rw [← hCdef] at this
      rw [← hcl k hkc]
      exact this
  have hEd : ∀ e ∈ c'.edges,
      WF fo NB.ops (Near lib pars (vz mean) (mz Q⁻¹) R) NWF e.belief := by
    intro e he
    obtain ⟨e', he', rfl⟩ := List.mem_map.mp he
    exact wf_fix (wf_near_of_tot (I.inv.wfE e' he').wf)
  have hChain : ChainSub (ops lib pars) c' := by
    refine ⟨by rw [hlC, hlE], fun k hk => ?_⟩
    have hk2 : k < c2.edges.length := by simpa [hc'] using hk
    have hkn : k < n := by rw [← I.shape.lenE]; exact hk2
    obtain ⟨h1, h2⟩ := I.shape.ends k hk2
    have h3 := hs.tree.lt k hkn
    have hkC : k < c2.clusters.length := by rw [I.shape.lenC]; omega
    have hpC : p k < c2.clusters.length := by rw [I.shape.lenC]; omega
    refine ⟨by simpa [hc'] using h1, p k, by simpa [hc'] using h2, h3.1, by rw [hlC]; omega,
      fun x hx => ?_, fun x hx => ?_⟩
    · rw [heit k hk2, I.shape.itemsE k hk2] at hx
      rw [hcit k hkC, I.shape.itemsC k hkC]
      obtain ⟨v, -, hv2, -⟩ := hs.tree.elim k hkn
      exact (hv2 x).mpr (Or.inr hx)
    · rw [heit k hk2, I.shape.itemsE k hk2] at hx
      rw [hcit (p k) hpC, I.shape.itemsC (p k) hpC]
      exact hs.tree.sub k hkn x hx
  refine ⟨⟨sdown, sup, fun c1 e => ?_, fun c1 c3 e e' => ?_⟩,
    range_total hg (regular_of hQ hl) hC₀ hChain hCl hEd⟩
  · rw [hset] at e
    cases e
    exact range_safe hg (regular_of hQ hl) hC₀ hChain hCl hEd
  · rw [hset] at e
    cases e
    exact range_value hg (regular_of hQ hl) hC₀ hChain hCl hEd e'

end Verif.SR
