import Verif.Proofs.SignList
import Verif.Proofs.ReorderGraph

/-!
# Beliefs under changes of sign
-/
namespace Verif.Sign

open Verif.Gauss Verif.Items Verif.Belief Verif.ClusterGraph Verif.Reorder

variable {γ γ' : Type} {s : ℤ → ℝ} {fo : FactorOps γ} {fo' : FactorOps γ'}

/-- The functions of the second factor are those of the first with the signs of the items changed,
wherever both have values. -/
structure FRel (s : ℤ → ℝ) (fo : FactorOps γ) (fo' : FactorOps γ') (g : γ) (g' : γ') : Prop where
  items : fo'.items g' = fo.items g
  eval : ∀ x x', VR (sgnOf s (fo.items g)) x x' → RelOk Eq (fo.eval g x) (fo'.eval g' x')
  deriv : ∀ x x', VR (sgnOf s (fo.items g)) x x' →
    RelOk (VR (sgnOf s (fo.items g))) (fo.deriv g x) (fo'.deriv g' x')
  hess : ∀ x x', VR (sgnOf s (fo.items g)) x x' →
    RelOk (MR (sgnOf s (fo.items g))) (fo.hess g x) (fo'.hess g' x')

/-- Beliefs with the same items, whose factors and normal approximations have changed signs. -/
structure Bel (s : ℤ → ℝ) (fo : FactorOps γ) (fo' : FactorOps γ') (m : Mixed γ NB)
    (m' : Mixed γ' NB) : Prop where
  items : m'.items = m.items
  factors : List.Forall₂ (fun p p' => FRel s fo fo' p.1 p'.1 ∧ p.2 = p'.2) (fz m) (fz m')
  normal : m'.normalApprox = flipNB s m.normalApprox
  fixed : m'.isNormalFixed = m.isNormalFixed
  wf : Wf fo m
  wf' : Wf fo' m'

theorem relative_sgn {l items : List ℤ} (h : ∀ x ∈ l, x ∈ items) (k i : ℕ)
    (hk : (findRelativeItems l items)[k]? = some i) : sgnOf s l k = sgnOf s items i := by
  rw [findRelativeItems, List.getElem?_map] at hk
  rcases hl : l[k]? with _ | x
  · rw [hl] at hk; cases hk
  rw [hl] at hk
  cases Option.some.inj hk
  have h1 := (relativeItem_getElem? (h x (List.mem_of_getElem? hl))).1
  rw [sgnOf, sgnOf, List.getD_eq_getElem?_getD, List.getD_eq_getElem?_getD, hl, h1]

theorem fz_sub {m : Mixed γ NB} (h : Wf fo m) {p : γ × Bool} (hp : p ∈ fz m) :
    ∀ x ∈ fo.items p.1, x ∈ m.items :=
  (h.sub p.1 (List.of_mem_zip hp).1).2

theorem factors_sub {m : Mixed γ NB} {m' : Mixed γ' NB} (h : Bel s fo fo' m m') :
    List.Forall₂ (fun p p' => (FRel s fo fo' p.1 p'.1 ∧ p.2 = p'.2) ∧
      (∀ x ∈ fo.items p.1, x ∈ m.items) ∧ True) (fz m) (fz m') :=
  forall₂_and_mem' h.factors (fun _ hp => fz_sub h.wf hp)
where
  forall₂_and_mem' {α α' : Type} {P : α → α' → Prop} {A : α → Prop} {l : List α} {l' : List α'}
      (hl : List.Forall₂ P l l') (hA : ∀ a ∈ l, A a) :
      List.Forall₂ (fun a b => P a b ∧ A a ∧ True) l l' := by
    induction hl with
    | nil => exact .nil
    | cons h1 _ ih => exact .cons ⟨h1, hA _ (by simp), trivial⟩ (ih fun a ha => hA a (by simp [ha]))

/-- The functions of two beliefs. -/
theorem functions_flip {m : Mixed γ NB} {m' : Mixed γ' NB} (h : Bel s fo fo' m m') {x x' : List ℝ}
    (hx : VR (sgnOf s m.items) x x') :
    RelOk Eq (m.evaluate fo x) (m'.evaluate fo' x') ∧
    RelOk (VR (sgnOf s m.items)) (m.evaluateDerivative fo x) (m'.evaluateDerivative fo' x') ∧
    RelOk (MR (sgnOf s m.items)) (m.evaluateSecondDerivative fo x)
      (m'.evaluateSecondDerivative fo' x') := by
  rw [evaluate_pass h.wf, evaluate_pass h.wf', evaluateDerivative_pass h.wf,
    evaluateDerivative_pass h.wf', evaluateSecondDerivative_pass h.wf,
    evaluateSecondDerivative_pass h.wf', h.items, hx.length]
  refine ⟨RelOk.foldlM ?_ (factors_sub h) rfl, RelOk.foldlM ?_ (factors_sub h) (VR.zero _ _),
    RelOk.foldlM ?_ (factors_sub h) (MR.zero _ _)⟩
  · rintro r _ p p' rfl ⟨⟨hf, hv⟩, hs, -⟩
    unfold pEval
    rw [hf.items, ← hv]
    refine (findSubset_flip hx (relative_sgn hs)).bind fun y y' hy => ?_
    refine (hf.eval y y' hy).bind ?_
    rintro v _ rfl
    exact RelOk.ok rfl
  · rintro r r' p p' hr ⟨⟨hf, hv⟩, hs, -⟩
    unfold pDeriv
    rw [hf.items, ← hv]
    refine (findSubset_flip hx (relative_sgn hs)).bind fun y y' hy => ?_
    refine (hf.deriv y y' hy).bind fun v v' hvv => ?_
    refine addVectorSubset_flip hr ?_ (relative_sgn hs)
    split
    · exact hvv.neg
    · exact hvv
  · rintro r r' p p' hr ⟨⟨hf, hv⟩, hs, -⟩
    unfold pHess
    rw [hf.items, ← hv]
    refine (findSubset_flip hx (relative_sgn hs)).bind fun y y' hy => ?_
    refine (hf.hess y y' hy).bind fun v v' hvv => ?_
    refine addMatrixSubset_flip hr ?_ (relative_sgn hs)
    split
    · exact hvv.neg
    · exact hvv

/-! ## Products and quotients -/

theorem mul_bel (hs : IsSignZ s) {a b : Mixed γ NB} {a' b' : Mixed γ' NB} (ha : Bel s fo fo' a a')
    (hb : Bel s fo fo' b b') (h : ∀ x ∈ b.items, x ∈ a.items) :
    ∃ r r', Mixed.mul fo NB.ops a b = Except.ok r ∧ Mixed.mul fo' NB.ops a' b' = Except.ok r' ∧
      Bel s fo fo' r r' ∧ r.items = a.items := by
  have h' : ∀ x ∈ b'.items, x ∈ a'.items := by rw [ha.items, hb.items]; exact h
  obtain ⟨r, e, w, i, f, -⟩ := mul_ok (F := fun _ _ => 0) nb_laws ha.wf hb.wf h
  obtain ⟨r', e', w', i', f', -⟩ := mul_ok (F := fun _ _ => 0) nb_laws ha.wf' hb.wf' h'
  have hn := mul_normalApprox e
  have hn' := mul_normalApprox e'
  refine ⟨r, r', e, e', ⟨by rw [i, i', ha.items], ?_, ?_, by rw [f, f', ha.fixed], w, w'⟩, i⟩
  · rw [mul_fz ha.wf hb.wf e, mul_fz ha.wf' hb.wf' e']
    exact Param.forall₂_append ha.factors hb.factors
  · unfold Mixed.combineNormal at hn hn'
    rw [ha.fixed, ha.normal, hb.normal] at hn'
    split at hn
    · rename_i hfx
      rw [if_pos hfx] at hn'
      rw [← Except.ok.inj hn, ← Except.ok.inj hn']
    · rename_i hfx
      rw [if_neg hfx] at hn'
      have h1 : b.normalApprox.items = b.items := hb.wf.normal
      have h2 : a.normalApprox.items = a.items := ha.wf.normal
      obtain ⟨q, q1, q2⟩ := mul_flip hs (a := a.normalApprox) (b := b.normalApprox)
        (by rw [h1]; exact hb.wf.nodup) (by rw [h1, h2]; exact h)
      change NB.mul a.normalApprox b.normalApprox = _ at hn
      change NB.mul (flipNB s a.normalApprox) (flipNB s b.normalApprox) = _ at hn'
      rw [q1] at hn
      rw [q2] at hn'
      rw [← Except.ok.inj hn, ← Except.ok.inj hn']

theorem div_bel (hs : IsSignZ s) {a b : Mixed γ NB} {a' b' : Mixed γ' NB} (ha : Bel s fo fo' a a')
    (hb : Bel s fo fo' b b') (h : ∀ x ∈ b.items, x ∈ a.items) :
    ∃ r r', Mixed.div fo NB.ops a b = Except.ok r ∧ Mixed.div fo' NB.ops a' b' = Except.ok r' ∧
      Bel s fo fo' r r' ∧ r.items = a.items := by
  have h' : ∀ x ∈ b'.items, x ∈ a'.items := by rw [ha.items, hb.items]; exact h
  obtain ⟨r, e, w, i, f, -⟩ := div_ok (F := fun _ _ => 0) nb_laws ha.wf hb.wf h
  obtain ⟨r', e', w', i', f', -⟩ := div_ok (F := fun _ _ => 0) nb_laws ha.wf' hb.wf' h'
  have hn := div_normalApprox e
  have hn' := div_normalApprox e'
  refine ⟨r, r', e, e', ⟨by rw [i, i', ha.items], ?_, ?_, by rw [f, f', ha.fixed], w, w'⟩, i⟩
  · rw [div_fz ha.wf hb.wf e, div_fz ha.wf' hb.wf' e']
    refine Param.forall₂_append ha.factors ?_
    rw [List.forall₂_map_left_iff, List.forall₂_map_right_iff]
    exact hb.factors.imp fun p p' hp => ⟨hp.1, congrArg not hp.2⟩
  · unfold Mixed.combineNormal at hn hn'
    rw [ha.fixed, ha.normal, hb.normal] at hn'
    split at hn
    · rename_i hfx
      rw [if_pos hfx] at hn'
      rw [← Except.ok.inj hn, ← Except.ok.inj hn']
    · rename_i hfx
      rw [if_neg hfx] at hn'
      have h1 : b.normalApprox.items = b.items := hb.wf.normal
      have h2 : a.normalApprox.items = a.items := ha.wf.normal
      obtain ⟨q, q1, q2⟩ := div_flip hs (a := a.normalApprox) (b := b.normalApprox)
        (by rw [h1]; exact hb.wf.nodup) (by rw [h1, h2]; exact h)
      change NB.div a.normalApprox b.normalApprox = _ at hn
      change NB.div (flipNB s a.normalApprox) (flipNB s b.normalApprox) = _ at hn'
      rw [q1] at hn
      rw [q2] at hn'
      rw [← Except.ok.inj hn, ← Except.ok.inj hn']

/-! ## Margins -/

variable {st : Store γ NB} {st' : Store γ' NB}

theorem marginN_bel (hs : IsSignZ s) {a : Mixed γ NB} {a' : Mixed γ' NB} (ha : Bel s fo fo' a a')
    {l : List ℤ} (hl : l.Nodup) (h : ∀ x ∈ l, x ∈ a.items) :
    ∃ r r', Mixed.margin fo NB.ops st a l true = Except.ok r ∧
      Mixed.margin fo' NB.ops st' a' l true = Except.ok r' ∧ Bel s fo fo' r r' ∧ r.items = l := by
  have hi : a.normalApprox.items = a.items := ha.wf.normal
  have hi' : a'.normalApprox.items = a'.items := ha.wf'.normal
  obtain ⟨n, e, e', i⟩ := margin_flip hs (a := a.normalApprox) (l := l) (by rw [hi]; exact h)
  obtain ⟨w1, -⟩ := nb_laws.margin_ok a.normalApprox l n ha.wf.normalWF hl
    (by change ∀ x ∈ l, x ∈ a.normalApprox.items; rw [hi]; exact h) e
  rw [← ha.normal] at e'
  obtain ⟨w2, -⟩ := nb_laws.margin_ok a'.normalApprox l _ ha.wf'.normalWF hl
    (by change ∀ x ∈ l, x ∈ a'.normalApprox.items; rw [hi', ha.items]; exact h) e'
  rw [Mixed.margin, if_pos rfl, Mixed.margin, if_pos rfl]
  change ∃ r r', ((NB.margin a.normalApprox l : Res NB) >>= _) = _ ∧
    ((NB.margin a'.normalApprox l : Res NB) >>= _) = _ ∧ _
  rw [e, e']
  simp only [res_ok_bind, res_pure]
  refine ⟨_, _, rfl, rfl, ⟨rfl, .nil, rfl, rfl, ?_, ?_⟩, rfl⟩
  · exact wf_setNormal (wf_ofItems nb_laws hl) w1 i
  · exact wf_setNormal (wf_ofItems nb_laws hl) w2 i

/-- Storing the integral of functions with changed signs. -/
def StoreRel (s : ℤ → ℝ) (K : ℕ) (fo : FactorOps γ) (fo' : FactorOps γ') (st : Store γ NB)
    (st' : Store γ' NB) : Prop :=
  ∀ k f f' d d' h h' (n : NB), k < n.items.length → n.items.length ≤ K →
    (∀ x x', VR (sgnOf s n.items) x x' → RelOk Eq (f x) (f' x') ∧
      RelOk (VR (sgnOf s n.items)) (d x) (d' x') ∧ RelOk (MR (sgnOf s n.items)) (h x) (h' x')) →
    RelOk (FRel s fo fo') (st k f d h n (n.items.eraseIdx k))
      (st' k f' d' h' (flipNB s n) (n.items.eraseIdx k))

theorem integrate_bel (hs : IsSignZ s) {K : ℕ} (hst : StoreLaw fo (Nd fo) st)
    (hst' : StoreLaw fo' (Nd fo') st') (hsr : StoreRel s K fo fo' st st') {a : Mixed γ NB}
    {a' : Mixed γ' NB} (ha : Bel s fo fo' a a') (hK : a.items.length ≤ K) {item : ℤ}
    (hi : item ∈ a.items) :
    RelOk (fun r r' => Bel s fo fo' r r' ∧ r.items = a.items.filter fun x => decide (x ≠ item))
      (Mixed.integrate fo NB.ops st a item) (Mixed.integrate fo' NB.ops st' a' item) := by
  intro r r' e e'
  obtain ⟨w, it, -⟩ := integrate_nd (F := fun _ _ => 0) (fun _ h => h) nb_laws hst ha.wf hi e
  obtain ⟨w', it', -⟩ := integrate_nd (F := fun _ _ => 0) (fun _ h => h) nb_laws hst' ha.wf'
    (by rw [ha.items]; exact hi) e'
  have h1 : a.normalApprox.items = a.items := ha.wf.normal
  have h1' : a'.normalApprox.items = a'.items := ha.wf'.normal
  have hk : findRelativeItem item a.items < a.items.length := relativeItem_lt hi
  unfold Mixed.integrate at e e'
  rw [ha.items, ha.normal] at e'
  have he : Mixed.eraseAt a.items (findRelativeItem item a.items) =
      Except.ok (a.items.eraseIdx (findRelativeItem item a.items)) := if_pos hk
  dsimp only at e e'
  rw [he, res_ok_bind] at e e'
  obtain ⟨g, e2, e⟩ := bind_inv e
  obtain ⟨n, e3, e⟩ := bind_inv e
  obtain ⟨g', e2', e'⟩ := bind_inv e'
  obtain ⟨n', e3', e'⟩ := bind_inv e'
  have hf := hsr _ _ (a'.evaluate fo') _ (a'.evaluateDerivative fo') _
    (a'.evaluateSecondDerivative fo') a.normalApprox (by rw [h1]; exact hk) (by rw [h1]; exact hK)
    (fun x x' hx => functions_flip ha (by rw [← h1]; exact hx) |>.imp_right fun h => by
      rw [h1]; exact h)
  rw [h1] at hf
  have hg := hf _ _ e2 e2'
  obtain ⟨q, q1, q2, -⟩ := margin_flip hs (a := a.normalApprox)
    (l := a.items.eraseIdx (findRelativeItem item a.items)) fun x hx => by
      rw [h1]; exact List.mem_of_mem_eraseIdx hx
  change NB.margin _ _ = _ at e3 e3'
  rw [q1] at e3
  rw [q2] at e3'
  cases Except.ok.inj e3
  cases Except.ok.inj e3'
  cases Except.ok.inj e
  cases Except.ok.inj e'
  refine ⟨⟨by rw [it, it', ha.items], ?_, rfl, rfl, w, w'⟩, it⟩
  exact .cons ⟨hg, rfl⟩ .nil

theorem marginF_bel (hs : IsSignZ s) {K : ℕ} (hst : StoreLaw fo (Nd fo) st)
    (hst' : StoreLaw fo' (Nd fo') st') (hsr : StoreRel s K fo fo' st st') :
    ∀ (ys : List ℤ) {a : Mixed γ NB} {a' : Mixed γ' NB}, Bel s fo fo' a a' → a.items.length ≤ K →
    ys.Nodup → (∀ y ∈ ys, y ∈ a.items) →
    RelOk (Bel s fo fo') (ys.foldlM (Mixed.integrate fo NB.ops st) a)
      (ys.foldlM (Mixed.integrate fo' NB.ops st') a')
  | [], _, _, ha, _, _, _ => RelOk.ok ha
  | y :: ys, a, a', ha, hK, hn, hy => by
    rw [List.foldlM_cons, List.foldlM_cons]
    refine (integrate_bel hs hst hst' hsr ha hK (hy y (by simp))).bind fun r r' hr => ?_
    refine marginF_bel hs hst hst' hsr ys hr.1 ?_ (List.nodup_cons.mp hn).2 fun z hz => ?_
    · rw [hr.2]
      exact (List.length_filter_le _ _).trans hK
    · rw [hr.2, List.mem_filter]
      refine ⟨hy z (by simp [hz]), ?_⟩
      have : z ≠ y := fun h => (List.nodup_cons.mp hn).1 (h ▸ hz)
      simpa using this

theorem margin_bel (hs : IsSignZ s) {K : ℕ} (hst : StoreLaw fo (Nd fo) st)
    (hst' : StoreLaw fo' (Nd fo') st') (hsr : StoreRel s K fo fo' st st') {a : Mixed γ NB}
    {a' : Mixed γ' NB} (ha : Bel s fo fo' a a') (hK : a.items.length ≤ K) {l : List ℤ} (hl : l.Nodup)
    (h : ∀ x ∈ l, x ∈ a.items) (na : Bool) :
    RelOk (Bel s fo fo') (Mixed.margin fo NB.ops st a l na) (Mixed.margin fo' NB.ops st' a' l na) := by
  cases na with
  | true =>
    obtain ⟨r, r', e, e', hr, -⟩ := marginN_bel (st := st) (st' := st') hs ha hl h
    rw [e, e']
    exact RelOk.ok hr
  | false =>
    rw [Mixed.margin, if_neg (by simp), Mixed.margin, if_neg (by simp), ha.items]
    refine marginF_bel hs hst hst' hsr _ ha hK ?_ ?_
    · rw [difference_eq]
      exact ha.wf.nodup.filter _
    · rw [difference_eq]
      exact fun y hy => (List.mem_filter.mp hy).1

theorem mean_flip (n : NB) : VR (sgnOf s n.items) (NB.ops.mean n) (NB.ops.mean (flipNB s n)) :=
  VR.ofFn (sgnOf s n.items) n.normal.mean

theorem isProper_bel (hs : IsSignZ s) {a : Mixed γ NB} {a' : Mixed γ' NB} (ha : Bel s fo fo' a a') :
    RelOk Eq (Mixed.isProper fo NB.ops a) (Mixed.isProper fo' NB.ops a') := by
  have h1 : a.normalApprox.items = a.items := ha.wf.normal
  have hl : a'.beliefs.length = a.beliefs.length := by
    rw [← fz_length ha.wf, ← fz_length ha.wf', ha.factors.length_eq]
  have hm := mean_flip (s := s) a.normalApprox
  unfold Mixed.isProper
  refine RelOk.bind (P := Eq) ?_ ?_
  · unfold Mixed.factorsProper
    rw [hl]
    split
    · rw [h1] at hm
      rw [ha.normal]
      refine (functions_flip ha hm).1.bind ?_
      rintro v _ rfl
      exact RelOk.ok rfl
    · exact RelOk.ok rfl
  · rintro p _ rfl
    rw [ha.normal]
    refine RelOk.bind (P := Eq) ?_ ?_
    · change RelOk Eq (NB.evaluate a.normalApprox _) (NB.evaluate (flipNB s a.normalApprox) _)
      rw [evaluateNB_flip hs a.normalApprox hm.length fun k => ?_]
      · exact RelOk.rfl' (fun _ => rfl) _
      · have := hm k
        rw [List.getD_eq_getElem?_getD, List.getD_eq_getElem?_getD]
        generalize (NB.ops.mean a.normalApprox)[k]? = o at this
        generalize (NB.ops.mean (flipNB s a.normalApprox))[k]? = o' at this
        cases this with
        | some h => exact h
        | none => simp
    · rintro v _ rfl
      exact RelOk.ok rfl

theorem logNorm_bel (hs : IsSignZ s) {K : ℕ} (hst : StoreLaw fo (Nd fo) st)
    (hst' : StoreLaw fo' (Nd fo') st') (hsr : StoreRel s K fo fo' st st') {a : Mixed γ NB}
    {a' : Mixed γ' NB} (ha : Bel s fo fo' a a') (hK : a.items.length ≤ K) :
    RelOk Eq (Mixed.logNorm fo NB.ops st a) (Mixed.logNorm fo' NB.ops st' a') := by
  unfold Mixed.logNorm
  refine (margin_bel hs hst hst' hsr ha hK List.nodup_nil (by simp) false).bind fun r r' hr => ?_
  exact (functions_flip hr LR.nil).1

end Verif.Sign
