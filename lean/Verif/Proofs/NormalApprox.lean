import Verif.Proofs.NormalBelief
import Verif.Proofs.TreeForms

/-! The normal approximation of the cluster graph: invariant of normal-only messages. -/
namespace Verif.Gauss

open Verif.Eigen Verif.Items Verif.Belief Verif.ClusterGraph Verif.TreeForms Matrix

variable {γ : Type} {fo : FactorOps γ} {GWF : γ → Prop} {F : γ → List ℝ → ℝ} {store : Store γ NB}

/-! ## Forms of normal beliefs -/

theorem exists_at {l : List ℤ} (hl : l.Nodup) (x : Fin l.length → ℝ) : ∃ a : ℤ → ℝ, at_ l a = x := by
  classical
  refine ⟨fun z => if h : ∃ k : Fin l.length, l[k] = z then x h.choose else 0, ?_⟩
  funext k
  have h : ∃ k' : Fin l.length, l[k'] = l[k] := ⟨k, rfl⟩
  have hc := h.choose_spec
  rw [at_, dif_pos h]
  congr 1
  exact Fin.ext (hl.getElem_inj_iff.mp hc)

theorem at_congr {l : List ℤ} {a a' : ℤ → ℝ} (h : ∀ x ∈ l, a x = a' x) : at_ l a = at_ l a' := by
  funext k
  exact h _ (by simp)

theorem at_eq {l : List ℤ} {a a' : ℤ → ℝ} (h : at_ l a = at_ l a') : ∀ x ∈ l, a x = a' x := by
  intro x hx
  obtain ⟨k, hk, rfl⟩ := List.mem_iff_getElem.mp hx
  exact congrFun h ⟨k, hk⟩

theorem bil_congr (b : NB) {a a' : ℤ → ℝ} (h : ∀ x ∈ b.items, a x = a' x) : bil b a a = bil b a' a' := by
  rw [bil, bil, at_congr h]

/-- Symmetric precision, mean given by a function of the item, stored normaliser, log constant
zero. -/
structure Good (μ : ℤ → ℝ) (b : NB) : Prop where
  symm : b.normal.precisionᵀ = b.normal.precision
  mean : b.normal.mean = at_ b.items μ
  nrm : b.normal.normalizer = normalizerOf b.normal.precision
  nc : b.logNC = 0

theorem combined_symm (divide : Bool) {a b : NB} (h : ∀ x ∈ b.items, x ∈ a.items)
    (ha : a.normal.precisionᵀ = a.normal.precision) (hb : b.normal.precisionᵀ = b.normal.precision) :
    (combined divide h).normal.precisionᵀ = (combined divide h).normal.precision := by
  show (a.normal.precision + pad (pos h) (sg divide • b.normal.precision))ᵀ = _
  rw [transpose_add, ha, pad_symm _ (by rw [transpose_smul, hb])]
  rfl

theorem combined_mean (divide : Bool) {a b : NB} (h : ∀ x ∈ b.items, x ∈ a.items) {μ : ℤ → ℝ}
    (hnd : b.items.Nodup)
    (ha : a.normal.mean = at_ a.items μ) (hb : b.normal.mean = at_ b.items μ)
    (hu : IsUnit (a.normal.precision.submatrix (pos h) (pos h) + sg divide • b.normal.precision)) :
    (combined divide h).normal.mean = at_ (combined divide h).items μ := by
  show scatter (pos h) (newMean (pos h) a.normal b.normal divide) a.normal.mean = at_ a.items μ
  have h1 : newMean (pos h) a.normal b.normal divide = at_ b.items μ := by
    rw [newMean, ha, at_pos, hb, ← add_mulVec, mulVec_mulVec,
      Matrix.nonsing_inv_mul _ ((Matrix.isUnit_iff_isUnit_det _).mp hu), one_mulVec]
  funext i
  by_cases hi : ∃ k, pos h k = i
  · obtain ⟨k, rfl⟩ := hi
    rw [scatter_mem (pos_inj h hnd), h1, ← congrFun (at_pos h μ) k]
  · rw [scatter_notMem _ _ fun k hk => hi ⟨k, hk⟩, ha]

/-- The block of a combined precision. -/
theorem combined_block (divide : Bool) {a b : NB} (h : ∀ x ∈ b.items, x ∈ a.items)
    (hnd : b.items.Nodup) :
    ((combined divide h).normal.precision : Matrix (Fin a.items.length) (Fin a.items.length) ℝ).submatrix
      (pos h) (pos h) =
      a.normal.precision.submatrix (pos h) (pos h) + sg divide • b.normal.precision := by
  ext k l
  show (a.normal.precision + pad (pos h) (sg divide • b.normal.precision)) (pos h k) (pos h l) = _
  rw [Matrix.add_apply, pad_mem (pos_inj h hnd)]
  rfl

/-! ## States -/

/-- Quadratic form of cluster `i`. -/
noncomputable def qc (c : CG (Mixed γ NB)) (i : ℕ) (a : ℤ → ℝ) : ℝ :=
  ((c.clusters[i]?).map fun m => bil m.normalApprox a a).getD 0

/-- Quadratic form of edge `k`. -/
noncomputable def qe (c : CG (Mixed γ NB)) (k : ℕ) (a : ℤ → ℝ) : ℝ :=
  ((c.edges[k]?).map fun e => bil e.belief.normalApprox a a).getD 0

theorem qc_eq {c : CG (Mixed γ NB)} {i : ℕ} (hi : i < c.clusters.length) (a : ℤ → ℝ) :
    qc c i a = bil c.clusters[i].normalApprox a a := by simp [qc, hi]

theorem qe_eq {c : CG (Mixed γ NB)} {k : ℕ} (hk : k < c.edges.length) (a : ℤ → ℝ) :
    qe c k a = bil c.edges[k].belief.normalApprox a a := by simp [qe, hk]

theorem sum_eq_range {α : Type} (f : α → ℝ) : ∀ l : List α,
    (l.map f).sum = ∑ i ∈ Finset.range l.length, ((l[i]?).map f).getD 0
  | [] => by simp
  | x :: l => by
    rw [List.map_cons, List.sum_cons, List.length_cons, Finset.sum_range_succ', sum_eq_range f l]
    simp [add_comm]

/-- The tree on which the messages are passed. -/
structure Shape (n : ℕ) (C S : ℕ → Set ℤ) (p : ℕ → ℕ) (c : CG (Mixed γ NB)) : Prop where
  tree : JT n C S p
  lenC : c.clusters.length = n + 1
  lenE : c.edges.length = n
  itemsC : ∀ i (hi : i < c.clusters.length), ∀ x, x ∈ c.clusters[i].items ↔ x ∈ C i
  itemsE : ∀ k (hk : k < c.edges.length), ∀ x, x ∈ c.edges[k].belief.items ↔ x ∈ S k
  ends : ∀ k (hk : k < c.edges.length), c.edges[k].first = k ∧ c.edges[k].second = p k

theorem total_joint {n : ℕ} {C S : ℕ → Set ℤ} {p : ℕ → ℕ} {c : CG (Mixed γ NB)}
    (h : Shape n C S p c) (a : ℤ → ℝ) : total n (qc c) (qe c) a = joint (evn a) c a := by
  rw [total, joint, sum_eq_range, sum_eq_range, h.lenC, h.lenE]
  rfl

theorem state_local {n : ℕ} {C S : ℕ → Set ℤ} {p : ℕ → ℕ} {c : CG (Mixed γ NB)}
    (h : Shape n C S p c) (inv : MsgInv (Mixed.ops fo NB.ops store) (WFn fo GWF) c) :
    Local C S (qc c) (qe c) where
  c k a a' haa := by
    by_cases hk : k < c.clusters.length
    · rw [qc_eq hk, qc_eq hk]
      refine bil_congr _ fun x hx => haa x ?_
      rw [wfn_items (inv.wfC _ (List.getElem_mem hk))] at hx
      exact (h.itemsC k hk x).mp hx
    · simp [qc, List.getElem?_eq_none (by omega : c.clusters.length ≤ k)]
  e k a a' haa := by
    by_cases hk : k < c.edges.length
    · rw [qe_eq hk, qe_eq hk]
      refine bil_congr _ fun x hx => haa x ?_
      rw [wfn_items (inv.wfE _ (List.getElem_mem hk))] at hx
      exact (h.itemsE k hk x).mp hx
    · simp [qe, List.getElem?_eq_none (by omega : c.edges.length ≤ k)]

/-- Invariant of normal-only messages: `Q` is the quadratic form of the global Gaussian and `μ`
its mean. -/
structure NInv (fo : FactorOps γ) (GWF : γ → Prop) (store : Store γ NB) (n : ℕ) (C S : ℕ → Set ℤ)
    (p : ℕ → ℕ) (Q : (ℤ → ℝ) → ℝ) (μ : ℤ → ℝ) (c : CG (Mixed γ NB)) : Prop where
  shape : Shape n C S p c
  inv : MsgInv (Mixed.ops fo NB.ops store) (WFn fo GWF) c
  tot : ∀ a, total n (qc c) (qe c) a = Q a
  reach : Reach n S p (qc c) (qe c)
  goodC : ∀ b ∈ c.clusters, Good μ b.normalApprox
  goodE : ∀ e ∈ c.edges, Good μ e.belief.normalApprox
  varC : ∀ b ∈ c.clusters, b.normalApprox.normal.variance = b.normalApprox.normal.precision⁻¹

variable {n : ℕ} {C S : ℕ → Set ℤ} {p : ℕ → ℕ} {Q : (ℤ → ℝ) → ℝ} {μ : ℤ → ℝ}

/-- Positive definite cluster precisions, from the walk through the tree. -/
theorem cluster_posDef {c : CG (Mixed γ NB)} (hs : Shape n C S p c)
    (inv : MsgInv (Mixed.ops fo NB.ops store) (WFn fo GWF) c)
    (tot : ∀ a, total n (qc c) (qe c) a = Q a) (reach : Reach n S p (qc c) (qe c))
    (hQ : ∀ j ≤ n, ∀ a, (∃ x ∈ C j, a x ≠ 0) → 0 < Q a) {j : ℕ} (hj : j < c.clusters.length)
    (hsym : c.clusters[j].normalApprox.normal.precisionᵀ =
      c.clusters[j].normalApprox.normal.precision) :
    c.clusters[j].normalApprox.normal.precision.PosDef := by
  have hjn : j ≤ n := by rw [hs.lenC] at hj; omega
  have hit := wfn_items (inv.wfC _ (List.getElem_mem hj))
  have hnd := (inv.wfC _ (List.getElem_mem hj)).wf.normalWF.nodup
  refine posDef_of hsym fun x hx => ?_
  obtain ⟨a, ha⟩ := exists_at hnd x
  obtain ⟨a', h1, h2⟩ := walk hs.tree (state_local hs inv) reach hjn a
  rw [tot, qc_eq hj, bil, ha] at h2
  refine lt_of_lt_of_le (hQ j hjn a' ?_) h2
  by_contra hcon
  push Not at hcon
  apply hx
  rw [← ha]
  funext k
  have hm : c.clusters[j].normalApprox.items[k] ∈ C j := by
    rw [← hs.itemsC j hj, ← hit]
    simp
  show a _ = 0
  rw [← h1 _ hm, hcon _ hm]

/-- A normal-only margin. -/
theorem margin_normal {m b : Mixed γ NB} {l : List ℤ}
    (h : Mixed.margin fo NB.ops store m l true = Except.ok b)
    (hs : ∀ x ∈ l, x ∈ m.normalApprox.items) :
    b.items = l ∧ b.normalApprox = ⟨l, MN.ofMeanVariance (fun k => m.normalApprox.normal.mean (pos hs k))
      (m.normalApprox.normal.variance.submatrix (pos hs) (pos hs)), m.normalApprox.logNC⟩ := by
  rw [Mixed.margin, if_pos rfl, show NB.ops.margin m.normalApprox l = _ from margin_eq hs] at h
  simp only [res_ok_bind, res_pure] at h
  cases h
  exact ⟨rfl, rfl⟩

/-- Value of the factors of a cluster. -/
noncomputable def vc (fo : FactorOps γ) (F : γ → List ℝ → ℝ) (c : CG (Mixed γ NB)) (l : ℕ)
    (a : ℤ → ℝ) : ℝ := ((c.clusters[l]?).map fun b => value fo F b a).getD 0

/-- Value of the factors of an edge. -/
noncomputable def ve (fo : FactorOps γ) (F : γ → List ℝ → ℝ) (c : CG (Mixed γ NB)) (l : ℕ)
    (a : ℤ → ℝ) : ℝ := ((c.edges[l]?).map fun e => value fo F e.belief a).getD 0

theorem margin_value {m b : Mixed γ NB} {l : List ℤ}
    (h : Mixed.margin fo NB.ops store m l true = Except.ok b)
    (hs : ∀ x ∈ l, x ∈ m.normalApprox.items) (F : γ → List ℝ → ℝ) (a : ℤ → ℝ) :
    value fo F b a = 0 := by
  rw [Mixed.margin, if_pos rfl, show NB.ops.margin m.normalApprox l = _ from margin_eq hs] at h
  simp only [res_ok_bind, res_pure] at h
  cases h
  simp [value, Mixed.setNormalApprox, Mixed.ofItems]

theorem step_inv (L : FLaws fo GWF F) (hst : StoreLaw fo GWF store) {pr : Mixed γ NB → Res Bool}
    {c c' : CG (Mixed γ NB)} {k : ℕ} {fw : Bool} (I : NInv fo GWF store n C S p Q μ c)
    (hQ : ∀ j ≤ n, ∀ a, (∃ x ∈ C j, a x ≠ 0) → 0 < Q a)
    (h : passMessage (opsP fo store pr) c k fw true = Except.ok c') :
    k < n ∧ NInv fo GWF store n C S p Q μ c' ∧
      Step n S p (qc c) (qe c) (qc c') (qe c') k (if fw then k else p k) (if fw then p k else k) ∧
      (∀ (F : γ → List ℝ → ℝ) a l, vc fo F c' l a = vc fo F c l a -
        if l = (if fw then p k else k) then ve fo F c k a else 0) ∧
      (∀ (F : γ → List ℝ → ℝ) a l, ve fo F c' l a = if l = k then 0 else ve fo F c l a) ∧
      c'.clusters.map Mixed.items = c.clusters.map Mixed.items := by
  have Iinv : MsgInv (opsP fo store pr) (WFn fo GWF) c := ⟨I.inv.wfC, I.inv.wfE, I.inv.ends⟩
  obtain ⟨hk, i, j, hi, hj, b, r, hends, hsi, hm, hbw, hrw, hri, -, hc1, hc2, hsj, r1, hr1, hr2⟩ :=
    passMessage_form (normal_laws' L hst (fun _ => 0) pr) Iinv h
  obtain ⟨inv0', -, hit, hfst, hsnd⟩ := passMessage_joint (normal_laws' L hst (fun _ => 0) pr) Iinv h
  have inv' : MsgInv (Mixed.ops fo NB.ops store) (WFn fo GWF) c' := ⟨inv0'.wfC, inv0'.wfE, inv0'.ends⟩
  have hkn : k < n := by rw [← I.shape.lenE]; exact hk
  obtain ⟨hplt, hple⟩ := I.shape.tree.lt k hkn
  -- which clusters
  obtain ⟨he1, he2⟩ := I.shape.ends k hk
  have hij : i = (if fw then k else p k) ∧ j = (if fw then p k else k) := by
    rw [ClusterGraph.ends, he1, he2] at hends
    cases fw with
    | true => simp only [if_true, Prod.mk.injEq, Nat.cast_inj] at hends ⊢; exact ⟨hends.1.symm, hends.2.symm⟩
    | false =>
      simp only [Bool.false_eq_true, if_false, Prod.mk.injEq, Nat.cast_inj] at hends ⊢
      exact ⟨hends.1.symm, hends.2.symm⟩
  have hne : i ≠ j := by
    rw [hij.1, hij.2]
    cases fw <;> simp <;> omega
  rw [← hij.1, ← hij.2]
  have hwi := I.inv.wfC _ (List.getElem_mem hi)
  have hwj := I.inv.wfC _ (List.getElem_mem hj)
  have hwe := I.inv.wfE _ (List.getElem_mem hk)
  have hiti := wfn_items hwi
  have hitj := wfn_items hwj
  have hite := wfn_items hwe
  have gi := I.goodC _ (List.getElem_mem hi)
  have gj := I.goodC _ (List.getElem_mem hj)
  have ge := I.goodE _ (List.getElem_mem hk)
  have Pi := cluster_posDef I.shape I.inv I.tot I.reach hQ hi gi.symm
  have Pj := cluster_posDef I.shape I.inv I.tot I.reach hQ hj gj.symm
  -- the margin
  change ∀ x ∈ c.edges[k].belief.items, x ∈ c.clusters[i].items at hsi
  change ∀ x ∈ c.edges[k].belief.items, x ∈ c.clusters[j].items at hsj
  have hs1 : ∀ x ∈ c.edges[k].belief.items, x ∈ c.clusters[i].normalApprox.items := by
    rw [hiti]; exact hsi
  have hlnd : c.edges[k].belief.items.Nodup := hwe.wf.nodup
  change Mixed.margin fo NB.ops store c.clusters[i] c.edges[k].belief.items true = Except.ok b at hm
  obtain ⟨hbi, hbn⟩ := margin_normal hm hs1
  have hbP : b.normalApprox.normal.precision.PosDef := by
    rw [hbn]
    show (c.clusters[i].normalApprox.normal.variance.submatrix (pos hs1) (pos hs1))⁻¹.PosDef
    rw [I.varC _ (List.getElem_mem hi)]
    exact margP_posDef (pos_inj hs1 hlnd) Pi
  have hbg : Good μ b.normalApprox := by
    refine ⟨posDef_symm hbP, ?_, by rw [hbn]; rfl, by rw [hbn]; exact gi.nc⟩
    rw [hbn]
    show (fun q => c.clusters[i].normalApprox.normal.mean (pos hs1 q)) = at_ c.edges[k].belief.items μ
    rw [gi.mean, at_pos]
  have hbform : ∀ a, bil b.normalApprox a a = at_ c.edges[k].belief.items a ⬝ᵥ
      (margP (pos hs1) c.clusters[i].normalApprox.normal.precision *ᵥ at_ c.edges[k].belief.items a) := by
    intro a
    rw [hbn]
    show at_ c.edges[k].belief.items a ⬝ᵥ
      ((c.clusters[i].normalApprox.normal.variance.submatrix (pos hs1) (pos hs1))⁻¹ *ᵥ
        at_ c.edges[k].belief.items a) = _
    rw [I.varC _ (List.getElem_mem hi)]
    rfl
  -- product and quotient
  have hs2 : ∀ x ∈ b.items, x ∈ c.clusters[j].items := by rw [hbi]; exact hsj
  have hs2' : ∀ x ∈ b.normalApprox.items, x ∈ c.clusters[j].normalApprox.items := by
    rw [wfn_items hbw, hitj]; exact hs2
  obtain ⟨r1', e1, w1, i1, n1, v1⟩ := mul_normal hwj hbw hs2 hs2'
  have : r1 = r1' := by
    change Mixed.mul fo NB.ops c.clusters[j] b = Except.ok r1 at hr1
    rw [e1] at hr1
    injection hr1 with hr1
    exact hr1.symm
  subst this
  have hs3 : ∀ x ∈ c.edges[k].belief.items, x ∈ r1.items := by rw [i1]; exact hsj
  have hs3' : ∀ x ∈ c.edges[k].belief.normalApprox.items, x ∈ r1.normalApprox.items := by
    rw [hite, wfn_items w1]; exact hs3
  obtain ⟨r', e2, w2, i2, n2, v2⟩ := div_normal w1 hwe hs3 hs3'
  have : r = r' := by
    change Mixed.div fo NB.ops r1 c.edges[k].belief = Except.ok r at hr2
    rw [e2] at hr2
    injection hr2 with hr2
    exact hr2.symm
  subst this
  have hr1s : r1.normalApprox.normal.precisionᵀ = r1.normalApprox.normal.precision := by
    rw [n1]; exact combined_symm _ _ gj.symm hbg.symm
  have hrs : r.normalApprox.normal.precisionᵀ = r.normalApprox.normal.precision := by
    rw [n2]; exact combined_symm _ _ hr1s ge.symm
  have hrform : ∀ a, bil r.normalApprox a a = bil c.clusters[j].normalApprox a a +
      bil b.normalApprox a a - bil c.edges[k].belief.normalApprox a a := by
    intro a
    rw [n2, bil_combined, n1, bil_combined]
    simp [sg]
    ring
  have hr1mean : r1.normalApprox.normal.mean = at_ r1.normalApprox.items μ := by
    rw [n1]
    refine combined_mean false hs2' hbw.wf.normalWF.nodup gj.mean hbg.mean ?_
    rw [sg, if_neg (by simp), one_smul]
    exact ((Pj.submatrix (pos_inj hs2' hbw.wf.normalWF.nodup)).add hbP).isUnit
  -- the new state
  have hlC' : c'.clusters.length = c.clusters.length := by rw [hc1, List.length_set]
  have hlE' : c'.edges.length = c.edges.length := by rw [hc2, List.length_set]
  have hqc : ∀ l, l ≠ j → qc c' l = qc c l := by
    intro l hl
    funext a
    rw [qc, qc, hc1, List.getElem?_set_ne (Ne.symm hl)]
  have hqcj : ∀ a, qc c' j a = bil r.normalApprox a a := by
    intro a
    rw [qc, hc1, List.getElem?_set_self hj]
    rfl
  have hqe : ∀ l, l ≠ k → qe c' l = qe c l := by
    intro l hl
    funext a
    rw [qe, qe, hc2, List.getElem?_set_ne (Ne.symm hl)]
  have hqek : ∀ a, qe c' k a = bil b.normalApprox a a := by
    intro a
    rw [qe, hc2, List.getElem?_set_self hk]
    rfl
  have hst' : Step n S p (qc c) (qe c) (qc c') (qe c') k i j := by
    refine ⟨?_, hqe, hqc, ?_, ?_, ?_⟩
    · rw [hij.1, hij.2]
      cases fw <;> simp
    · intro a
      rw [hqcj, hqek, qc_eq hj, qe_eq hk, hrform]
    · intro a
      rw [hqek, hbform, qc_eq hi, bil, ← at_pos hs1]
      exact marg_le (pos_inj hs1 hlnd) Pi _
    · intro a
      obtain ⟨a', ha'⟩ := exists_at hwi.wf.normalWF.nodup
        (ext (pos hs1) c.clusters[i].normalApprox.normal.precision (at_ c.edges[k].belief.items a))
      refine ⟨a', fun x hx => ?_, ?_⟩
      · refine at_eq (l := c.edges[k].belief.items) ?_ x ((I.shape.itemsE k hk x).mpr hx)
        rw [← at_pos hs1, ha', ext_apply (pos_inj hs1 hlnd) Pi]
      · rw [hqek, hbform, qc_eq hi, bil, ha', ext_quad (pos_inj hs1 hlnd) Pi]
  have hshape : Shape n C S p c' := by
    refine ⟨I.shape.tree, by rw [hlC', I.shape.lenC], by rw [hlE', I.shape.lenE], ?_, ?_, ?_⟩
    · intro l hl x
      have hl' : l < c.clusters.length := by rw [← hlC']; exact hl
      rw [← I.shape.itemsC l hl' x]
      have h1 : (c'.clusters.map Mixed.items)[l]? = (c.clusters.map Mixed.items)[l]? := by
        rw [show c'.clusters.map Mixed.items = c.clusters.map Mixed.items from hit]
      rw [List.getElem?_map, List.getElem?_map, List.getElem?_eq_getElem hl,
        List.getElem?_eq_getElem hl'] at h1
      simp only [Option.map_some, Option.some.injEq] at h1
      rw [h1]
    · intro l hl x
      have hl' : l < c.edges.length := by rw [← hlE']; exact hl
      rw [← I.shape.itemsE l hl' x]
      have h1 : c'.edges[l]? = (c.edges.set k ⟨c.edges[k].first, c.edges[k].second, b⟩)[l]? := by
        rw [hc2]
      rw [List.getElem?_eq_getElem hl, List.getElem?_set] at h1
      by_cases hlk : k = l
      · subst hlk
        rw [if_pos rfl, if_pos hk] at h1
        simp only [Option.some.injEq] at h1
        rw [h1, hbi]

      · rw [if_neg hlk, List.getElem?_eq_getElem hl'] at h1
        simp only [Option.some.injEq] at h1
        rw [h1]
    · intro l hl
      have hl' : l < c.edges.length := by rw [← hlE']; exact hl
      have h1 : (c'.edges.map Edge.first)[l]? = (c.edges.map Edge.first)[l]? := by rw [hfst]
      have h2 : (c'.edges.map Edge.second)[l]? = (c.edges.map Edge.second)[l]? := by rw [hsnd]
      rw [List.getElem?_map, List.getElem?_map, List.getElem?_eq_getElem hl,
        List.getElem?_eq_getElem hl'] at h1 h2
      simp only [Option.map_some, Option.some.injEq] at h1 h2
      rw [h1, h2]
      exact I.shape.ends l hl'
  have htot : ∀ a, total n (qc c') (qe c') a = Q a := by
    intro a
    rw [← I.tot a, total_joint hshape, total_joint I.shape]
    exact (passMessage_joint (normal_laws' L hst a pr) Iinv h).2.1 a
  have hreach := hst'.reach (state_local I.shape I.inv) (state_local hshape inv') I.shape.tree
    I.reach hkn
  -- the mean of the target
  have hj' : j < c'.clusters.length := by rw [hlC']; exact hj
  have hcj' : c'.clusters[j] = r := by
    have h1 : c'.clusters[j]? = (c.clusters.set j r)[j]? := by rw [hc1]
    rw [List.getElem?_eq_getElem hj', List.getElem?_set_self hj] at h1
    simpa using h1
  have Pr : r.normalApprox.normal.precision.PosDef := by
    have := cluster_posDef (GWF := GWF) hshape inv' htot hreach hQ hj' (by rw [hcj']; exact hrs)
    rwa [hcj'] at this
  have hrmean : r.normalApprox.normal.mean = at_ r.normalApprox.items μ := by
    rw [n2] at Pr ⊢
    have hnd := hwe.wf.normalWF.nodup
    refine combined_mean true hs3' hnd hr1mean ge.mean ?_
    rw [← combined_block true hs3' hnd]
    exact (Pr.submatrix (pos_inj hs3' hnd)).isUnit
  refine ⟨hkn, ⟨hshape, inv', htot, hreach, ?_, ?_, ?_⟩, hst', ?_, ?_, hit⟩
  · intro m hmm
    rw [hc1] at hmm
    rcases mem_set_cases hmm with rfl | hmm
    · exact ⟨hrs, hrmean, by rw [n2]; rfl, by
        rw [n2]; show r1.normalApprox.logNC + _ * c.edges[k].belief.normalApprox.logNC = 0
        rw [ge.nc, n1]; show c.clusters[j].normalApprox.logNC + _ * b.normalApprox.logNC + _ = 0
        rw [gj.nc, hbg.nc]; ring⟩
    · exact I.goodC m hmm
  · intro m hmm
    rw [hc2] at hmm
    rcases mem_set_cases hmm with rfl | hmm
    · exact hbg
    · exact I.goodE m hmm
  · intro m hmm
    rw [hc1] at hmm
    rcases mem_set_cases hmm with rfl | hmm
    · rw [n2]; rfl
    · exact I.varC m hmm
  · intro F a l
    rw [vc, vc, hc1, List.getElem?_set]
    by_cases hlj : l = j
    · subst hlj
      rw [if_pos rfl, if_pos hj, if_pos rfl, List.getElem?_eq_getElem hj, ve,
        List.getElem?_eq_getElem hk]
      simp only [Option.map_some, Option.getD_some]
      rw [v2 F a, v1 F a, margin_value hm hs1]
      ring
    · rw [if_neg (Ne.symm hlj), if_neg hlj, sub_zero]
  · intro F a l
    rw [ve, ve, hc2, List.getElem?_set]
    by_cases hlk : l = k
    · subst hlk
      rw [if_pos rfl, if_pos hk, if_pos rfl]
      exact margin_value hm hs1 F a
    · rw [if_neg (Ne.symm hlk), if_neg hlk]

/-- What happens with an invariant state and a message that exists: only the test of the new
cluster belief decides. -/
theorem message_total (L : FLaws fo GWF F) (hst : StoreLaw fo GWF store) {c : CG (Mixed γ NB)}
    {k : ℕ} (fw : Bool) (I : NInv fo GWF store n C S p Q μ c)
    (hQ : ∀ j ≤ n, ∀ a, (∃ x ∈ C j, a x ≠ 0) → 0 < Q a) (hk : k < n) :
    ∃ c', (∃ r, c'.clusters[if fw then p k else k]? = some r ∧ ∀ pr : Mixed γ NB → Res Bool,
      passMessage (opsP fo store pr) c k fw true = do
        let proper ← pr r
        if proper then return c' else Res.raise "improper cluster belief after passing message") ∧
      NInv fo GWF store n C S p Q μ c' ∧
      Step n S p (qc c) (qe c) (qc c') (qe c') k (if fw then k else p k) (if fw then p k else k) ∧
      (∀ (F : γ → List ℝ → ℝ) a l, vc fo F c' l a = vc fo F c l a -
        if l = (if fw then p k else k) then ve fo F c k a else 0) ∧
      (∀ (F : γ → List ℝ → ℝ) a l, ve fo F c' l a = if l = k then 0 else ve fo F c l a) ∧
      c'.clusters.map Mixed.items = c.clusters.map Mixed.items := by
  have hk' : k < c.edges.length := by rw [I.shape.lenE]; exact hk
  obtain ⟨hplt, hple⟩ := I.shape.tree.lt k hk
  obtain ⟨he1, he2⟩ := I.shape.ends k hk'
  obtain ⟨i, hi⟩ : ∃ i, i = if fw then k else p k := ⟨_, rfl⟩
  obtain ⟨j, hj⟩ : ∃ j, j = if fw then p k else k := ⟨_, rfl⟩
  have hends : ends c.edges[k] fw = ((i : ℤ), (j : ℤ)) := by
    rw [ClusterGraph.ends, he1, he2, hi, hj]
    cases fw <;> rfl
  have hil : i < c.clusters.length := by
    rw [I.shape.lenC, hi]; cases fw <;> simp <;> omega
  have hjl : j < c.clusters.length := by
    rw [I.shape.lenC, hj]; cases fw <;> simp <;> omega
  have hwi := I.inv.wfC _ (List.getElem_mem hil)
  have hwj := I.inv.wfC _ (List.getElem_mem hjl)
  have hwe := I.inv.wfE _ (List.getElem_mem hk')
  have hsub : ∀ x ∈ c.edges[k].belief.items, x ∈ c.clusters[i].items ∧ x ∈ c.clusters[j].items := by
    intro x hx
    obtain ⟨i', j', hi', hj', h1, h2, h3, h4⟩ := I.inv.ends _ (List.getElem_mem hk')
    rw [he1] at h1
    rw [he2] at h2
    have e1 : k = i' := by exact_mod_cast h1
    have e2 : p k = j' := by exact_mod_cast h2
    subst e1 e2
    have g3 := h3 x hx
    have g4 := h4 x hx
    cases fw with
    | true =>
      have e3 : i = k := by simpa using hi
      have e4 : j = p k := by simpa using hj
      subst e3 e4
      exact ⟨g3, g4⟩
    | false =>
      have e3 : i = p k := by simpa using hi
      have e4 : j = k := by simpa using hj
      subst e3 e4
      exact ⟨g4, g3⟩
  have hs1 : ∀ x ∈ c.edges[k].belief.items, x ∈ c.clusters[i].normalApprox.items := by
    rw [wfn_items hwi]; exact fun x hx => (hsub x hx).1
  have hm : ∃ b, Mixed.margin fo NB.ops store c.clusters[i] c.edges[k].belief.items true =
      Except.ok b := by
    rw [Mixed.margin, if_pos rfl, show NB.ops.margin _ _ = _ from margin_eq hs1]
    exact ⟨_, rfl⟩
  obtain ⟨b, hm⟩ := hm
  have N0 := normal_laws L hst (fun _ => 0)
  obtain ⟨hbw, hbi⟩ := N0.margin_items _ _ true b hwi hwe.wf.nodup (fun x hx => (hsub x hx).1) hm
  change ∀ x, x ∈ b.items ↔ _ at hbi
  obtain ⟨r1, e1, w1, i1, -⟩ := N0.mul_ok _ _ hwj hbw (by
    exact fun x hx => (hsub x ((hbi x).mp hx)).2)
  obtain ⟨r, e2, w2, i2, -⟩ := N0.div_ok _ _ w1 hwe (by
    change r1.items = c.clusters[j].items at i1
    change ∀ x ∈ c.edges[k].belief.items, x ∈ r1.items
    rw [i1]; exact fun x hx => (hsub x hx).2)
  have hrun : ∀ pr : Mixed γ NB → Res Bool, passMessage (opsP fo store pr) c k fw true = (do
      let proper ← pr r
      if proper then return (⟨c.clusters.set j r, c.edges.set k
        ⟨c.edges[k].first, c.edges[k].second, b⟩⟩ : CG (Mixed γ NB))
      else Res.raise "improper cluster belief after passing message") := by
    intro pr
    rw [passMessage, nth_ok hk']
    simp only [res_ok_bind]
    rw [hends]
    simp only
    rw [atZ_ok hil]
    simp only [res_ok_bind]
    change (do
      let b ← Mixed.margin fo NB.ops store c.clusters[i] c.edges[k].belief.items true
      _) = _
    rw [hm]
    simp only [res_ok_bind]
    rw [setN_ok hk']
    simp only [res_ok_bind]
    rw [atZ_ok hjl]
    simp only [res_ok_bind]
    change (do
      let cj1 ← (Mixed.ops fo NB.ops store).mul c.clusters[j] b
      _) = _
    rw [e1]
    simp only [res_ok_bind]
    change (do
      let cj1 ← (Mixed.ops fo NB.ops store).div r1 c.edges[k].belief
      _) = _
    rw [e2]
    simp only [res_ok_bind]
    rw [setZ_ok hjl]
    rfl
  refine ⟨_, ⟨r, ?_, hrun⟩, (step_inv (pr := fun _ => pure true) L hst I hQ (by rw [hrun]; rfl)).2⟩
  rw [← hj]
  exact List.getElem?_set_self hjl

/-- Any schedule of normal-only messages keeps the invariant. -/
theorem pass_inv (L : FLaws fo GWF F) (hst : StoreLaw fo GWF store)
    (hQ : ∀ j ≤ n, ∀ a, (∃ x ∈ C j, a x ≠ 0) → 0 < Q a) : ∀ (ms : List Msg)
    {c c' : CG (Mixed γ NB)}, NInv fo GWF store n C S p Q μ c → (∀ m ∈ ms, m.2.2 = true) →
    passAll (Mixed.ops fo NB.ops store) c ms = Except.ok c' → NInv fo GWF store n C S p Q μ c'
  | [], c, c', I, _, h => by cases h; exact I
  | m :: ms, c, c', I, hms, h => by
    rw [passAll, List.foldlM_cons] at h
    rcases hm : passMessage (Mixed.ops fo NB.ops store) c m.1 m.2.1 m.2.2 with err | c1
    · rw [hm] at h; cases h
    rw [hm] at h
    rw [hms m (by simp)] at hm
    exact pass_inv L hst hQ ms (step_inv L hst I hQ hm).2.1 (fun m' h' => hms m' (by simp [h'])) h

/-- Normal-only forward sweep: every edge is below its source. -/
theorem forward_inv (L : FLaws fo GWF F) (hst : StoreLaw fo GWF store)
    (hQ : ∀ j ≤ n, ∀ a, (∃ x ∈ C j, a x ≠ 0) → 0 < Q a) : ∀ (m k : ℕ) {c c' : CG (Mixed γ NB)},
    k + m = n → NInv fo GWF store n C S p Q μ c → (∀ l < k, ∀ a, qe c l a ≤ qc c l a) →
    (List.range' k m).foldlM (fun c k => passMessage (Mixed.ops fo NB.ops store) c k true true) c =
      Except.ok c' →
    NInv fo GWF store n C S p Q μ c' ∧ ∀ l < n, ∀ a, qe c' l a ≤ qc c' l a
  | 0, k, c, c', hk, I, hE, h => by
    cases h
    exact ⟨I, fun l hl => hE l (by omega)⟩
  | m + 1, k, c, c', hk, I, hE, h => by
    rw [List.range'_succ, List.foldlM_cons] at h
    rcases hm : passMessage (Mixed.ops fo NB.ops store) c k true true with err | c1
    · rw [hm] at h; cases h
    rw [hm] at h
    obtain ⟨hkn, I1, st, -⟩ := step_inv L hst I hQ hm
    exact forward_inv L hst hQ m (k + 1) (by omega) I1 (st.forward I.shape.tree hkn hE) h

/-- Normal-only backward sweep after a forward sweep: every edge is below both its clusters. -/
theorem backward_inv (L : FLaws fo GWF F) (hst : StoreLaw fo GWF store)
    (hQ : ∀ j ≤ n, ∀ a, (∃ x ∈ C j, a x ≠ 0) → 0 < Q a) : ∀ (m : ℕ) {c c' : CG (Mixed γ NB)},
    m ≤ n → NInv fo GWF store n C S p Q μ c → (∀ l < m, ∀ a, qe c l a ≤ qc c l a) →
    (∀ l, m ≤ l → l < n → ∀ a, qe c l a ≤ qc c l a ∧ qe c l a ≤ qc c (p l) a) →
    ((List.range m).reverse).foldlM
      (fun c k => passMessage (Mixed.ops fo NB.ops store) c k false true) c = Except.ok c' →
    NInv fo GWF store n C S p Q μ c' ∧
      ∀ l < n, ∀ a, qe c' l a ≤ qc c' l a ∧ qe c' l a ≤ qc c' (p l) a
  | 0, c, c', _, I, _, h2, h => by
    cases h
    exact ⟨I, fun l hl => h2 l (Nat.zero_le _) hl⟩
  | m + 1, c, c', hm, I, h1, h2, h => by
    rw [List.range_succ, List.reverse_append, List.reverse_singleton, List.singleton_append,
      List.foldlM_cons] at h
    rcases hp : passMessage (Mixed.ops fo NB.ops store) c m false true with err | c1
    · rw [hp] at h; cases h
    rw [hp] at h
    obtain ⟨hkn, I1, st, -⟩ := step_inv L hst I hQ hp
    obtain ⟨g1, g2⟩ := st.backward I.shape.tree hkn (fun l hl => h1 l (by omega))
      (fun l hl => h2 l hl)
    exact backward_inv L hst hQ m (by omega) I1 g1 g2 h

end Verif.Gauss
