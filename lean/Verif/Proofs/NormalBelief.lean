import Verif.Proofs.Gauss
import Verif.Model.NormalApprox
import Verif.Proofs.ClusterExact

/-! Normal beliefs obey the laws used by mixed beliefs; their bilinear forms add up. -/
namespace Verif.Gauss

open Verif.Eigen Verif.Items Verif.Belief Matrix

variable {γ : Type}

/-- Values of an assignment at the items. -/
def at_ (l : List ℤ) (a : ℤ → ℝ) : Fin l.length → ℝ := fun k => a l[k]

/-- Bilinear form of the precision of a normal belief, on assignments. -/
def bil (b : NB) (a a' : ℤ → ℝ) : ℝ := at_ b.items a ⬝ᵥ (b.normal.precision *ᵥ at_ b.items a')

theorem relative_spec {l items : List ℤ} (h : ∀ x ∈ l, x ∈ items) (k : Fin l.length) :
    items[NB.relative l items k]? = some l[k] := (relativeItem_getElem? (h _ (by simp))).1

theorem relative_lt {l items : List ℤ} (h : ∀ x ∈ l, x ∈ items) :
    InRange items.length (NB.relative l items) := by
  intro k
  have := relative_spec h k
  by_contra hcon
  rw [List.getElem?_eq_none (by omega)] at this
  cases this

theorem relative_inj {l items : List ℤ} (h : ∀ x ∈ l, x ∈ items) (hl : l.Nodup) :
    Function.Injective (NB.relative l items) := by
  intro k k' hkk
  have h1 := relative_spec h k
  have h2 := relative_spec h k'
  rw [hkk, h2] at h1
  have h3 : l[(k' : ℕ)] = l[(k : ℕ)] := by simpa using h1
  exact Fin.ext ((hl.getElem_inj_iff.mp h3).symm)

/-- Position map of the items `l` in `items`. -/
def pos {l items : List ℤ} (h : ∀ x ∈ l, x ∈ items) : Fin l.length → Fin items.length :=
  toFin (relative_lt h)

theorem pos_inj {l items : List ℤ} (h : ∀ x ∈ l, x ∈ items) (hl : l.Nodup) :
    Function.Injective (pos h) := fun _ _ hkk => relative_inj h hl (congrArg Fin.val hkk)

theorem pos_get {l items : List ℤ} (h : ∀ x ∈ l, x ∈ items) (k : Fin l.length) :
    items[pos h k] = l[k] := by
  have h1 := relative_spec h k
  rw [List.getElem?_eq_getElem (relative_lt h k)] at h1
  simpa [pos, toFin] using h1

theorem at_pos {l items : List ℤ} (h : ∀ x ∈ l, x ∈ items) (a : ℤ → ℝ) :
    (fun k => at_ items a (pos h k)) = at_ l a := by
  funext k
  rw [at_, at_, pos_get h k]

/-- Result of a product or a quotient of normal beliefs. -/
noncomputable def combined (divide : Bool) {a b : NB} (h : ∀ x ∈ b.items, x ∈ a.items) : NB :=
  ⟨a.items, ⟨scatter (pos h) (newMean (pos h) a.normal b.normal divide) a.normal.mean,
    a.normal.precision + pad (pos h) (sg divide • b.normal.precision),
    (a.normal.precision + pad (pos h) (sg divide • b.normal.precision))⁻¹,
    normalizerOf (a.normal.precision + pad (pos h) (sg divide • b.normal.precision))⟩,
    a.logNC + sg divide * b.logNC⟩

theorem mul_eq {a b : NB} (hb : b.items.Nodup) (h : ∀ x ∈ b.items, x ∈ a.items) :
    NB.mul a b = Except.ok (combined false h) := by
  rw [NB.mul, multiplySubset_ok (relative_lt h) (relative_inj h hb)]
  simp only [res_ok_bind, res_pure, combined, sg, Bool.false_eq_true, if_false, one_mul]
  rfl

theorem div_eq {a b : NB} (hb : b.items.Nodup) (h : ∀ x ∈ b.items, x ∈ a.items) :
    NB.div a b = Except.ok (combined true h) := by
  rw [NB.div, multiplySubset_ok (relative_lt h) (relative_inj h hb)]
  simp only [res_ok_bind, res_pure, combined, sg, if_true, neg_mul, one_mul, ← sub_eq_add_neg]
  rfl

theorem margin_eq {a : NB} {l : List ℤ} (h : ∀ x ∈ l, x ∈ a.items) :
    NB.margin a l = Except.ok ⟨l, MN.ofMeanVariance (fun k => a.normal.mean (pos h k))
      (a.normal.variance.submatrix (pos h) (pos h)), a.logNC⟩ := by
  rw [NB.margin, computeMarginal_ok (relative_lt h)]
  rfl

theorem bil_combined (divide : Bool) {a b : NB} (h : ∀ x ∈ b.items, x ∈ a.items) (u w : ℤ → ℝ) :
    bil (combined divide h) u w = bil a u w + sg divide * bil b u w := by
  show at_ a.items u ⬝ᵥ ((a.normal.precision + pad (pos h) (sg divide • b.normal.precision)) *ᵥ
    at_ a.items w) = at_ a.items u ⬝ᵥ (a.normal.precision *ᵥ at_ a.items w) +
      sg divide * (at_ b.items u ⬝ᵥ (b.normal.precision *ᵥ at_ b.items w))
  rw [add_mulVec, dotProduct_add, dot_pad, at_pos, at_pos, smul_mulVec, dotProduct_smul, smul_eq_mul]

/-- Well-formedness of a normal belief: distinct items, stored variance the inverse of the
precision. -/
structure NWF (b : NB) : Prop where
  nodup : b.items.Nodup
  variance : b.normal.variance = b.normal.precision⁻¹ ∨
    b.normal.precision = b.normal.variance⁻¹

theorem nb_laws : NLaws NB.ops NWF where
  items_ofItems _ := rfl
  ofItems_wf _ h := ⟨h, Or.inl rfl⟩
  setItems_ok _ _ _ h := ⟨⟨h, Or.inl rfl⟩, rfl⟩
  mul_ok _ _ ha hb hs := ⟨_, mul_eq hb.nodup hs, ⟨ha.nodup, Or.inl rfl⟩, rfl⟩
  div_ok _ _ ha hb hs := ⟨_, div_eq hb.nodup hs, ⟨ha.nodup, Or.inl rfl⟩, rfl⟩
  margin_ok a l r _ hl hs h := by
    have h' : NB.margin a l = Except.ok r := h
    rw [margin_eq hs] at h'
    injection h' with h'
    subst h'
    exact ⟨⟨hl, Or.inr rfl⟩, rfl⟩

/-- Well-formed mixed belief with a normal approximation that may still change. -/
structure WFn (fo : FactorOps γ) (GWF : γ → Prop) (m : Mixed γ NB) : Prop where
  wf : WF fo NB.ops GWF NWF m
  free : m.isNormalFixed = false

/-- Bilinear form of the normal approximation. -/
def evn (w : ℤ → ℝ) (m : Mixed γ NB) (a : ℤ → ℝ) : ℝ := bil m.normalApprox a w

variable {fo : FactorOps γ} {GWF : γ → Prop} {F : γ → List ℝ → ℝ} {store : Store γ NB}

theorem wfn_items {m : Mixed γ NB} (h : WFn fo GWF m) : m.normalApprox.items = m.items := h.wf.normal

theorem mul_normal {b d : Mixed γ NB} (hb : WFn fo GWF b) (hd : WFn fo GWF d)
    (hs : ∀ x ∈ d.items, x ∈ b.items) (hs' : ∀ x ∈ d.normalApprox.items, x ∈ b.normalApprox.items) :
    ∃ r, Mixed.mul fo NB.ops b d = Except.ok r ∧ WFn fo GWF r ∧ r.items = b.items ∧
      r.normalApprox = combined false hs' ∧
      ∀ (F : γ → List ℝ → ℝ) a, value fo F r a = value fo F b a + value fo F d a := by
  obtain ⟨r, e, w, i, hf, -⟩ := Belief.mul_ok (F := fun _ _ => 0) nb_laws hb.wf hd.wf hs
  refine ⟨r, e, ⟨w, hf.trans hb.free⟩, i, ?_, fun F a => ?_⟩
  swap
  · obtain ⟨r', e', -, -, -, v⟩ := Belief.mul_ok (F := F) nb_laws hb.wf hd.wf hs
    rw [e] at e'
    injection e' with e'
    rw [e']
    exact v a
  rw [Mixed.mul, Mixed.combineNormal, hb.free] at e
  simp only [Bool.false_eq_true, if_false] at e
  rw [show NB.ops.mul b.normalApprox d.normalApprox = Except.ok (combined false hs') from
    mul_eq hd.wf.normalWF.nodup hs'] at e
  simp only [res_ok_bind] at e
  rw [flags_ok hd.wf] at e
  simp only [res_ok_bind, res_pure] at e
  cases e
  rfl

theorem div_normal {b d : Mixed γ NB} (hb : WFn fo GWF b) (hd : WFn fo GWF d)
    (hs : ∀ x ∈ d.items, x ∈ b.items) (hs' : ∀ x ∈ d.normalApprox.items, x ∈ b.normalApprox.items) :
    ∃ r, Mixed.div fo NB.ops b d = Except.ok r ∧ WFn fo GWF r ∧ r.items = b.items ∧
      r.normalApprox = combined true hs' ∧
      ∀ (F : γ → List ℝ → ℝ) a, value fo F r a = value fo F b a - value fo F d a := by
  obtain ⟨r, e, w, i, hf, -⟩ := Belief.div_ok (F := fun _ _ => 0) nb_laws hb.wf hd.wf hs
  refine ⟨r, e, ⟨w, hf.trans hb.free⟩, i, ?_, fun F a => ?_⟩
  swap
  · obtain ⟨r', e', -, -, -, v⟩ := Belief.div_ok (F := F) nb_laws hb.wf hd.wf hs
    rw [e] at e'
    injection e' with e'
    rw [e']
    exact v a
  rw [Mixed.div, Mixed.combineNormal, hb.free] at e
  simp only [Bool.false_eq_true, if_false] at e
  rw [show NB.ops.div b.normalApprox d.normalApprox = Except.ok (combined true hs') from
    div_eq hd.wf.normalWF.nodup hs'] at e
  simp only [res_ok_bind] at e
  rw [flags_ok hd.wf] at e
  simp only [res_ok_bind, res_pure] at e
  cases e
  rfl

theorem free_setNormal {m : Mixed γ NB} (h : m.isNormalFixed = false) (n : NB) :
    m.setNormalApprox n = ⟨m.items, m.beliefs, m.relativeItems, m.isInverted, n, false⟩ := by
  rw [Mixed.setNormalApprox, h]
  rfl

theorem integrate_free (L : FLaws fo GWF F) {m r : Mixed γ NB} {x : ℤ}
    (h : Mixed.integrate fo NB.ops store m x = Except.ok r) : r.isNormalFixed = false := by
  rw [Mixed.integrate] at h
  rcases h1 : Mixed.eraseAt m.items (findRelativeItem x m.items) with err | rem
  · rw [h1] at h; cases h
  rw [h1] at h
  simp only [res_ok_bind] at h
  rcases h2 : store (findRelativeItem x m.items) (Mixed.evaluate fo m)
    (Mixed.evaluateDerivative fo m) (Mixed.evaluateSecondDerivative fo m) m.normalApprox rem
    with err | g
  · rw [h2] at h; cases h
  rw [h2] at h
  simp only [res_ok_bind] at h
  rcases h3 : NB.ops.margin m.normalApprox rem with err | n
  · rw [h3] at h; cases h
  rw [h3] at h
  simp only [res_ok_bind, res_pure] at h
  cases h
  rw [Mixed.setNormalApprox]
  split
  · rfl
  · rfl

theorem integrateAll_free (L : FLaws fo GWF F) : ∀ (l : List ℤ) {m r : Mixed γ NB},
    m.isNormalFixed = false → l.foldlM (Mixed.integrate fo NB.ops store) m = Except.ok r →
    r.isNormalFixed = false
  | [], m, r, hm, h => by cases h; exact hm
  | x :: l, m, r, hm, h => by
    rw [List.foldlM_cons] at h
    rcases h1 : Mixed.integrate fo NB.ops store m x with err | m1
    · rw [h1] at h; cases h
    rw [h1] at h
    exact integrateAll_free L l (integrate_free L h1) h

theorem normal_laws (L : FLaws fo GWF F) (hst : StoreLaw fo GWF store) (w : ℤ → ℝ) :
    ClusterGraph.Laws (Mixed.ops fo NB.ops store) (WFn fo GWF) (evn w) where
  items_ofItems _ := rfl
  ofItems_wf l h := ⟨wf_ofItems nb_laws h, rfl⟩
  ofItems_ev l a := by
    show at_ l a ⬝ᵥ ((0 : Matrix (Fin l.length) (Fin l.length) ℝ) *ᵥ at_ l w) = 0
    rw [zero_mulVec, dotProduct_zero]
  nodup b h := h.wf.nodup
  mul_ok b d hb hd hs := by
    have hs' : ∀ x ∈ d.normalApprox.items, x ∈ b.normalApprox.items := by
      rw [wfn_items hb, wfn_items hd]; exact hs
    obtain ⟨r, e, wr, i, hn, -⟩ := mul_normal hb hd hs hs'
    refine ⟨r, e, wr, i, fun a => ?_⟩
    rw [evn, hn, bil_combined]
    simp [sg, evn]
  div_ok b d hb hd hs := by
    have hs' : ∀ x ∈ d.normalApprox.items, x ∈ b.normalApprox.items := by
      rw [wfn_items hb, wfn_items hd]; exact hs
    obtain ⟨r, e, wr, i, hn, -⟩ := div_normal hb hd hs hs'
    refine ⟨r, e, wr, i, fun a => ?_⟩
    rw [evn, hn, bil_combined]
    simp [sg, evn, sub_eq_add_neg]
  margin_items b l na r hb hl hs h := by
    obtain ⟨h1, h2⟩ := (mixed_laws L nb_laws hst).margin_items b l na r hb.wf hl hs h
    refine ⟨⟨h1, ?_⟩, h2⟩
    change Mixed.margin fo NB.ops store b l na = Except.ok r at h
    rw [Mixed.margin] at h
    split at h
    · rcases hn : NB.ops.margin b.normalApprox l with err | n
      · rw [hn] at h; cases h
      rw [hn] at h
      simp only [res_ok_bind, res_pure] at h
      cases h
      rfl
    · exact integrateAll_free L _ hb.free h

/-- The belief operations with another test in place of `isProper`. -/
noncomputable def opsP (fo : FactorOps γ) (store : Store γ NB) (pr : Mixed γ NB → Res Bool) :
    ClusterGraph.Ops (Mixed γ NB) :=
  { Mixed.ops fo NB.ops store with isProper := pr }

theorem normal_laws' (L : FLaws fo GWF F) (hst : StoreLaw fo GWF store) (w : ℤ → ℝ)
    (pr : Mixed γ NB → Res Bool) :
    ClusterGraph.Laws (opsP fo store pr) (WFn fo GWF) (evn w) :=
  have N := normal_laws L hst w
  ⟨N.items_ofItems, N.ofItems_wf, N.ofItems_ev, N.nodup, N.mul_ok, N.div_ok, N.margin_items⟩

end Verif.Gauss
