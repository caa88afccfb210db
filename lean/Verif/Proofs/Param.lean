import Verif.Model.SR

/-!
# The cluster graph sees its factors only through their functions

Two lists of beliefs whose factors have the same items, values and derivatives give the same results.
-/
namespace Verif.Param

open Verif.Belief Verif.ClusterGraph Verif.Gauss Verif.Items Verif.DepGraph

/-- Both end the same way, with related results. -/
inductive RelRes {α β : Type} (P : α → β → Prop) : Res α → Res β → Prop
  | ok {a : α} {b : β} : P a b → RelRes P (Except.ok a) (Except.ok b)
  | err (e : Err) : RelRes P (Except.error e) (Except.error e)

theorem RelRes.bind {α β α' β' : Type} {P : α → β → Prop} {Q : α' → β' → Prop} {r : Res α}
    {r' : Res β} {f : α → Res α'} {f' : β → Res β'} (h : RelRes P r r')
    (hf : ∀ a b, P a b → RelRes Q (f a) (f' b)) : RelRes Q (r >>= f) (r' >>= f') := by
  cases h with
  | ok h => exact hf _ _ h
  | err e => exact .err e

theorem RelRes.rfl' {α : Type} {P : α → α → Prop} (hP : ∀ a, P a a) (r : Res α) : RelRes P r r := by
  rcases r with e | a
  · exact .err e
  · exact .ok (hP a)

theorem RelRes.eq {α : Type} {r r' : Res α} (h : RelRes Eq r r') : r = r' := by
  cases h with
  | ok h => rw [h]
  | err e => rfl

theorem RelRes.foldlM {α β σ τ : Type} {P : σ → τ → Prop} {A : α → β → Prop} {f : σ → α → Res σ}
    {f' : τ → β → Res τ} (hf : ∀ s t a b, P s t → A a b → RelRes P (f s a) (f' t b)) :
    ∀ {l : List α} {l' : List β}, List.Forall₂ A l l' → ∀ {s : σ} {t : τ}, P s t →
      RelRes P (l.foldlM f s) (l'.foldlM f' t)
  | _, _, .nil, _, _, h => .ok h
  | _, _, .cons ha hl, _, _, h => by
    rw [List.foldlM_cons, List.foldlM_cons]
    exact (hf _ _ _ _ h ha).bind fun _ _ h' => RelRes.foldlM hf hl h'

theorem RelRes.mapM {α β σ τ : Type} {P : σ → τ → Prop} {A : α → β → Prop} {f : α → Res σ}
    {f' : β → Res τ} (hf : ∀ a b, A a b → RelRes P (f a) (f' b)) :
    ∀ {l : List α} {l' : List β}, List.Forall₂ A l l' →
      RelRes (List.Forall₂ P) (l.mapM f) (l'.mapM f')
  | _, _, .nil => .ok .nil
  | _, _, .cons ha hl => by
    rw [List.mapM_cons, List.mapM_cons]
    exact (hf _ _ ha).bind fun _ _ h => (RelRes.mapM hf hl).bind fun _ _ h' => .ok (.cons h h')

theorem forall₂_get? {α β : Type} {P : α → β → Prop} : ∀ {l : List α} {l' : List β},
    List.Forall₂ P l l' → ∀ k : ℕ, (l[k]? = none ∧ l'[k]? = none) ∨
      ∃ a b, l[k]? = some a ∧ l'[k]? = some b ∧ P a b
  | _, _, .nil, k => Or.inl (by simp)
  | _, _, .cons ha _, 0 => Or.inr ⟨_, _, rfl, rfl, ha⟩
  | _, _, .cons _ hl, k + 1 => by
    rw [List.getElem?_cons_succ, List.getElem?_cons_succ]
    exact forall₂_get? hl k

theorem rel_nth {α β : Type} {P : α → β → Prop} {l : List α} {l' : List β}
    (h : List.Forall₂ P l l') (k : ℕ) : RelRes P (nth l k) (nth l' k) := by
  unfold nth
  rcases forall₂_get? h k with ⟨h1, h2⟩ | ⟨a, b, h1, h2, h3⟩
  · rw [h1, h2]
    exact .err _
  · rw [h1, h2]
    exact .ok h3

theorem rel_atZ {α β : Type} {P : α → β → Prop} {l : List α} {l' : List β}
    (h : List.Forall₂ P l l') (k : ℤ) : RelRes P (atZ l k) (atZ l' k) := by
  unfold atZ
  split
  · exact .err _
  · unfold atE
    rcases forall₂_get? h k.toNat with ⟨h1, h2⟩ | ⟨a, b, h1, h2, h3⟩
    · rw [h1, h2]
      exact .err _
    · rw [h1, h2]
      exact .ok h3

theorem forall₂_set {α β : Type} {P : α → β → Prop} {a : α} {b : β} (hab : P a b) :
    ∀ {l : List α} {l' : List β}, List.Forall₂ P l l' → ∀ k, List.Forall₂ P (l.set k a) (l'.set k b)
  | _, _, .nil, _ => .nil
  | _, _, .cons _ hl, 0 => .cons hab hl
  | _, _, .cons ha hl, k + 1 => .cons ha (forall₂_set hab hl k)

theorem rel_setN {α β : Type} {P : α → β → Prop} {l : List α} {l' : List β}
    (h : List.Forall₂ P l l') (k : ℕ) {a : α} {b : β} (hab : P a b) :
    RelRes (List.Forall₂ P) (setN l k a) (setN l' k b) := by
  unfold setN
  rw [h.length_eq]
  split
  · exact .ok (forall₂_set hab h k)
  · exact .err _

theorem rel_setZ {α β : Type} {P : α → β → Prop} {l : List α} {l' : List β}
    (h : List.Forall₂ P l l') (k : ℤ) {a : α} {b : β} (hab : P a b) :
    RelRes (List.Forall₂ P) (setZ l k a) (setZ l' k b) := by
  unfold setZ setE
  split
  · exact .err _
  · rw [h.length_eq]
    split
    · exact .ok (forall₂_set hab h _)
    · exact .err _

theorem forall₂_refl {α : Type} {P : α → α → Prop} (hP : ∀ a, P a a) (l : List α) :
    List.Forall₂ P l l := by
  induction l with
  | nil => exact .nil
  | cons a l ih => exact .cons (hP a) ih

theorem forall₂_append {α β : Type} {P : α → β → Prop} {a c : List α} {b d : List β}
    (h1 : List.Forall₂ P a b) (h2 : List.Forall₂ P c d) : List.Forall₂ P (a ++ c) (b ++ d) := by
  induction h1 with
  | nil => exact h2
  | cons h _ ih => exact .cons h ih

theorem forall₂_filter {α β : Type} {P : α → β → Prop} {f : α → Bool} {g : β → Bool}
    (hfg : ∀ a b, P a b → f a = g b) {a : List α} {b : List β} (h : List.Forall₂ P a b) :
    List.Forall₂ P (a.filter f) (b.filter g) := by
  induction h with
  | nil => exact .nil
  | cons h _ ih =>
    rw [List.filter_cons, List.filter_cons, hfg _ _ h]
    split
    · exact .cons h ih
    · exact ih

/-! ## Cluster graphs -/

section Graphs

variable {β : Type} {B : β → β → Prop} {ops ops' : Ops β}

/-- The operations keep the relation `B`. -/
structure OpsRel (B : β → β → Prop) (ops : Ops β) : Prop where
  refl : ∀ b, B b b
  items : ∀ b b', B b b' → ops.items b = ops.items b'
  mul : ∀ a a' b b', B a a' → B b b' → RelRes B (ops.mul a b) (ops.mul a' b')
  div : ∀ a a' b b', B a a' → B b b' → RelRes B (ops.div a b) (ops.div a' b')
  margin : ∀ b b' is n, B b b' → RelRes B (ops.margin b is n) (ops.margin b' is n)
  logNorm : ∀ b b', B b b' → ops.logNorm b = ops.logNorm b'
  isProper : ∀ b b', B b b' → ops.isProper b = ops.isProper b'

/-- Edges with the same ends and related beliefs. -/
def EdgeRel (B : β → β → Prop) (e e' : Edge β) : Prop :=
  e.first = e'.first ∧ e.second = e'.second ∧ B e.belief e'.belief

/-- Cluster graphs with related beliefs. -/
def CGRel (B : β → β → Prop) (c c' : CG β) : Prop :=
  List.Forall₂ B c.clusters c'.clusters ∧ List.Forall₂ (EdgeRel B) c.edges c'.edges

theorem populateClusters_rel (h : OpsRel B ops) : ∀ {cs cs' bs bs' : List β},
    List.Forall₂ B cs cs' → List.Forall₂ B bs bs' →
    RelRes (List.Forall₂ B) (populateClusters ops cs bs) (populateClusters ops cs' bs')
  | _, _, _, _, .nil, _ => .ok .nil
  | _, _, _, _, .cons (a := c) (b := c') hc hcs, hb => by
    have hf : ∀ b b', B b b' → isSubset (ops.items b) (ops.items c) =
        isSubset (ops.items b') (ops.items c') := fun b b' hb => by
      rw [h.items b b' hb, h.items c c' hc]
    have h1 := RelRes.foldlM (P := B) (A := B) (f := ops.mul) (f' := ops.mul)
      (fun s t a b hs ha => h.mul s t a b hs ha) (forall₂_filter hf hb) hc
    exact h1.bind fun _ _ h2 => (populateClusters_rel h hcs
      (forall₂_filter (fun b b' hb => congrArg not (hf b b' hb)) hb)).bind fun _ _ h3 => .ok (.cons h2 h3)

theorem ofBeliefs_rel (h : OpsRel B ops) {ar : Arith} {bs bs' : List β}
    (hb : List.Forall₂ B bs bs') :
    RelRes (CGRel B) (ofBeliefs ar ops bs) (ofBeliefs ar ops bs') := by
  have hi : bs.map ops.items = bs'.map ops.items := by
    induction hb with
    | nil => rfl
    | cons h1 _ ih => rw [List.map_cons, List.map_cons, h.items _ _ h1, ih]
  unfold ofBeliefs
  rw [hi]
  refine (RelRes.rfl' (P := Eq) (fun _ => rfl) _).bind ?_
  rintro g _ rfl
  refine (RelRes.rfl' (P := Eq) (fun _ => rfl) _).bind ?_
  rintro c _ rfl
  exact (populateClusters_rel h (forall₂_refl h.refl _) hb).bind fun _ _ h1 =>
    .ok ⟨h1, forall₂_refl (fun e => ⟨rfl, rfl, h.refl _⟩) _⟩

theorem width_rel (h : OpsRel B ops) {c c' : CG β} (hc : CGRel B c c') :
    width ops c = width ops c' := by
  unfold width
  obtain ⟨h1, -⟩ := hc
  generalize 0 = w
  generalize c.clusters = l at h1 ⊢
  generalize c'.clusters = l' at h1 ⊢
  induction h1 generalizing w with
  | nil => rfl
  | cons ha _ ih => rw [List.foldl_cons, List.foldl_cons, h.items _ _ ha, ih]

theorem passMessage_rel (h : OpsRel B ops) {c c' : CG β} (hc : CGRel B c c') (k : ℕ)
    (forward only : Bool) :
    RelRes (CGRel B) (passMessage ops c k forward only) (passMessage ops c' k forward only) := by
  unfold passMessage
  refine (rel_nth hc.2 k).bind fun e e' he => ?_
  have hends : ends e forward = ends e' forward := by
    unfold ends
    rw [he.1, he.2.1]
  dsimp only
  rw [hends, h.items _ _ he.2.2]
  refine (rel_atZ hc.1 _).bind fun ci ci' hci => ?_
  refine (h.margin _ _ _ _ hci).bind fun b b' hb => ?_
  refine (rel_setN hc.2 k (a := { e with belief := b }) (b := { e' with belief := b' })
    ⟨he.1, he.2.1, hb⟩).bind fun es es' hes => ?_
  refine (rel_atZ hc.1 _).bind fun cj cj' hcj => ?_
  refine (h.mul _ _ _ _ hcj hb).bind fun c1 c1' hc1 => ?_
  refine (h.div _ _ _ _ hc1 he.2.2).bind fun c2 c2' hc2 => ?_
  refine (rel_setZ hc.1 _ hc2).bind fun cl cl' hcl => ?_
  rw [h.isProper _ _ hc2]
  refine (RelRes.rfl' (P := Eq) (fun _ => rfl) _).bind ?_
  rintro p _ rfl
  split
  · exact .ok ⟨hcl, hes⟩
  · exact .err _

theorem calibrateInternal_rel (h : OpsRel B ops) {c c' : CG β} (hc : CGRel B c c')
    (forward only : Bool) : RelRes (CGRel B) (calibrateInternal ops c forward only)
      (calibrateInternal ops c' forward only) := by
  unfold calibrateInternal
  rw [hc.2.length_eq]
  dsimp only
  exact RelRes.foldlM (A := Eq) (fun s t a b hs hab => by rw [hab]; exact passMessage_rel h hs b _ _)
    (forall₂_refl (fun _ => rfl) _) hc

theorem logNormalizingConstant_rel (h : OpsRel B ops) {c c' : CG β} (hc : CGRel B c c') :
    logNormalizingConstant ops c = logNormalizingConstant ops c' := by
  unfold logNormalizingConstant
  rw [hc.1.length_eq]
  exact RelRes.eq ((rel_atZ hc.1 _).bind fun b b' hb => by
    rw [h.logNorm _ _ hb]
    exact RelRes.rfl' (fun _ => rfl) _)

end Graphs

/-! ## Mixed beliefs -/

section Mixed

variable {γ ν : Type} {R : γ → γ → Prop} {fo : FactorOps γ} {no : NormalOps ν} {store : Store γ ν}

/-- Factors in the relation `R` have the same functions. -/
structure Good (R : γ → γ → Prop) (fo : FactorOps γ) : Prop where
  refl : ∀ g, R g g
  items : ∀ g g', R g g' → fo.items g = fo.items g'
  eval : ∀ g g', R g g' → fo.eval g = fo.eval g'
  deriv : ∀ g g', R g g' → fo.deriv g = fo.deriv g'
  hess : ∀ g g', R g g' → fo.hess g = fo.hess g'

/-- Beliefs that differ only in their factors, which are related. -/
structure MixedRel (R : γ → γ → Prop) (m m' : Mixed γ ν) : Prop where
  items : m.items = m'.items
  beliefs : List.Forall₂ R m.beliefs m'.beliefs
  relativeItems : m.relativeItems = m'.relativeItems
  isInverted : m.isInverted = m'.isInverted
  normalApprox : m.normalApprox = m'.normalApprox
  isNormalFixed : m.isNormalFixed = m'.isNormalFixed

theorem MixedRel.refl (h : Good R fo) (m : Mixed γ ν) : MixedRel R m m :=
  ⟨rfl, forall₂_refl h.refl _, rfl, rfl, rfl, rfl⟩

theorem zipIdx_rel {l l' : List γ} (h : List.Forall₂ R l l') : ∀ k,
    List.Forall₂ (fun a b : γ × ℕ => R a.1 b.1 ∧ a.2 = b.2) (l.zipIdx k) (l'.zipIdx k) := by
  induction h with
  | nil => exact fun _ => .nil
  | cons h _ ih => exact fun k => .cons ⟨h, rfl⟩ (ih (k + 1))

theorem recompute_rel (h : Good R fo) {m m' : Mixed γ ν} (hi : m.items = m'.items)
    (hb : List.Forall₂ R m.beliefs m'.beliefs) (hv : m.isInverted = m'.isInverted)
    (hn : m.normalApprox = m'.normalApprox) (hf : m.isNormalFixed = m'.isNormalFixed) :
    MixedRel R (Mixed.recomputeRelativeItems fo m) (Mixed.recomputeRelativeItems fo m') := by
  refine ⟨hi, hb, ?_, hv, hn, hf⟩
  unfold Mixed.recomputeRelativeItems
  dsimp only
  rw [hi]
  generalize m.beliefs = l at hb ⊢
  generalize m'.beliefs = l' at hb ⊢
  induction hb with
  | nil => rfl
  | cons h1 _ ih => rw [List.map_cons, List.map_cons, h.items _ _ h1, ih]

theorem ofFactor_rel (h : Good R fo) {g g' : γ} (hg : R g g') :
    MixedRel R (Mixed.ofFactor fo no g) (Mixed.ofFactor fo no g') := by
  refine recompute_rel h (h.items _ _ hg) (.cons hg .nil) rfl ?_ rfl
  show no.ofItems _ = no.ofItems _
  rw [h.items _ _ hg]

theorem setNormalApprox_rel {m m' : Mixed γ ν} (hm : MixedRel R m m') (n : ν) :
    MixedRel R (m.setNormalApprox n) (m'.setNormalApprox n) := by
  unfold Mixed.setNormalApprox
  rw [hm.isNormalFixed]
  split
  · exact hm
  · exact ⟨hm.items, hm.beliefs, hm.relativeItems, hm.isInverted, rfl, rfl⟩

theorem combineNormal_rel {op : ν → ν → Res ν} {m m' o o' : Mixed γ ν} (hm : MixedRel R m m')
    (ho : MixedRel R o o') : Mixed.combineNormal op m o = Mixed.combineNormal op m' o' := by
  unfold Mixed.combineNormal
  rw [hm.isNormalFixed, hm.normalApprox, ho.normalApprox]

theorem flags_rel {o o' : Mixed γ ν} (ho : MixedRel R o o') : Mixed.flags o = Mixed.flags o' := by
  unfold Mixed.flags
  rw [ho.beliefs.length_eq, ho.isInverted]

theorem mul_rel (h : Good R fo) {m m' o o' : Mixed γ ν} (hm : MixedRel R m m')
    (ho : MixedRel R o o') : RelRes (MixedRel R) (Mixed.mul fo no m o) (Mixed.mul fo no m' o') := by
  unfold Mixed.mul
  rw [combineNormal_rel hm ho, flags_rel ho]
  refine (RelRes.rfl' (P := Eq) (fun _ => rfl) _).bind ?_
  rintro n _ rfl
  refine (RelRes.rfl' (P := Eq) (fun _ => rfl) _).bind ?_
  rintro inv _ rfl
  refine .ok (recompute_rel h rfl (forall₂_append hm.beliefs ho.beliefs) ?_ rfl hm.isNormalFixed)
  dsimp only
  rw [hm.isInverted]

theorem div_rel (h : Good R fo) {m m' o o' : Mixed γ ν} (hm : MixedRel R m m')
    (ho : MixedRel R o o') : RelRes (MixedRel R) (Mixed.div fo no m o) (Mixed.div fo no m' o') := by
  unfold Mixed.div
  rw [combineNormal_rel hm ho, flags_rel ho]
  refine (RelRes.rfl' (P := Eq) (fun _ => rfl) _).bind ?_
  rintro n _ rfl
  refine (RelRes.rfl' (P := Eq) (fun _ => rfl) _).bind ?_
  rintro inv _ rfl
  refine .ok (recompute_rel h rfl (forall₂_append hm.beliefs ho.beliefs) ?_ rfl hm.isNormalFixed)
  dsimp only
  rw [hm.isInverted]

theorem evaluate_rel (h : Good R fo) {m m' : Mixed γ ν} (hm : MixedRel R m m') :
    Mixed.evaluate fo m = Mixed.evaluate fo m' := by
  funext x
  refine RelRes.eq (RelRes.foldlM (P := Eq) (fun s t a b hs hab => ?_)
    (zipIdx_rel hm.beliefs 0) rfl)
  obtain ⟨h1, h2⟩ := hab
  unfold Mixed.evalStep
  rw [hs, h2, hm.relativeItems, hm.isInverted, h.eval _ _ h1]
  exact RelRes.rfl' (fun _ => rfl) _

theorem evaluateDerivative_rel (h : Good R fo) {m m' : Mixed γ ν} (hm : MixedRel R m m') :
    Mixed.evaluateDerivative fo m = Mixed.evaluateDerivative fo m' := by
  funext x
  refine RelRes.eq (RelRes.foldlM (P := Eq) (fun s t a b hs hab => ?_)
    (zipIdx_rel hm.beliefs 0) rfl)
  obtain ⟨h1, h2⟩ := hab
  unfold Mixed.derivStep
  rw [hs, h2, hm.items, hm.isInverted, h.deriv _ _ h1, h.items _ _ h1]
  exact RelRes.rfl' (fun _ => rfl) _

theorem evaluateSecondDerivative_rel (h : Good R fo) {m m' : Mixed γ ν} (hm : MixedRel R m m') :
    Mixed.evaluateSecondDerivative fo m = Mixed.evaluateSecondDerivative fo m' := by
  funext x
  refine RelRes.eq (RelRes.foldlM (P := Eq) (fun s t a b hs hab => ?_)
    (zipIdx_rel hm.beliefs 0) rfl)
  obtain ⟨h1, h2⟩ := hab
  unfold Mixed.hessStep
  rw [hs, h2, hm.items, hm.isInverted, h.hess _ _ h1, h.items _ _ h1]
  exact RelRes.rfl' (fun _ => rfl) _

theorem isProper_rel (h : Good R fo) {m m' : Mixed γ ν} (hm : MixedRel R m m') :
    Mixed.isProper fo no m = Mixed.isProper fo no m' := by
  unfold Mixed.isProper Mixed.factorsProper
  rw [evaluate_rel h hm, hm.normalApprox, hm.beliefs.length_eq]

theorem integrate_rel (h : Good R fo) {m m' : Mixed γ ν} (hm : MixedRel R m m') (item : ℤ) :
    RelRes (MixedRel R) (Mixed.integrate fo no store m item)
      (Mixed.integrate fo no store m' item) := by
  unfold Mixed.integrate
  rw [hm.items, hm.normalApprox, evaluate_rel h hm, evaluateDerivative_rel h hm,
    evaluateSecondDerivative_rel h hm]
  exact RelRes.rfl' (MixedRel.refl h) _

theorem margin_rel (h : Good R fo) {m m' : Mixed γ ν} (hm : MixedRel R m m') (items : List ℤ)
    (only : Bool) : RelRes (MixedRel R) (Mixed.margin fo no store m items only)
      (Mixed.margin fo no store m' items only) := by
  unfold Mixed.margin
  rw [hm.normalApprox, hm.items]
  split
  · exact RelRes.rfl' (MixedRel.refl h) _
  · exact RelRes.foldlM (A := Eq) (fun s t a b hs hab => by rw [hab]; exact integrate_rel h hs b)
      (forall₂_refl (fun _ => rfl) _) hm

theorem logNorm_rel (h : Good R fo) {m m' : Mixed γ ν} (hm : MixedRel R m m') :
    Mixed.logNorm fo no store m = Mixed.logNorm fo no store m' := by
  unfold Mixed.logNorm
  exact RelRes.eq ((margin_rel h hm [] false).bind fun e e' he => by
    rw [evaluate_rel h he]
    exact RelRes.rfl' (fun _ => rfl) _)

theorem ops_rel (h : Good R fo) : OpsRel (MixedRel R) (Mixed.ops fo no store) where
  refl := MixedRel.refl h
  items _ _ hb := hb.items
  mul _ _ _ _ ha hb := mul_rel h ha hb
  div _ _ _ _ ha hb := div_rel h ha hb
  margin _ _ is n hb := margin_rel h hb is n
  logNorm _ _ hb := logNorm_rel h hb
  isProper _ _ hb := isProper_rel h hb

end Mixed

/-! ## The normal approximation -/

section Normal

variable {γ : Type} {R : γ → γ → Prop} {fo : FactorOps γ} {store : Store γ NB}

theorem restrictMixed_rel {n : ℕ} {mean : Fin n → ℝ} {precision : Matrix (Fin n) (Fin n) ℝ}
    {m m' : Mixed γ NB} (hm : MixedRel R m m') :
    RelRes (MixedRel R) (restrictMixed mean precision m) (restrictMixed mean precision m') := by
  unfold restrictMixed
  rw [hm.items]
  refine (RelRes.rfl' (P := Eq) (fun _ => rfl) _).bind ?_
  rintro nb _ rfl
  exact .ok (setNormalApprox_rel hm nb)

theorem initNormal_rel {n : ℕ} {mean : Fin n → ℝ} {precision : Matrix (Fin n) (Fin n) ℝ}
    {c c' : CG (Mixed γ NB)} (hc : CGRel (MixedRel R) c c') :
    RelRes (CGRel (MixedRel R)) (initNormal mean precision c) (initNormal mean precision c') := by
  unfold initNormal
  refine (RelRes.mapM (fun _ _ h => restrictMixed_rel h) hc.1).bind fun _ _ h1 => ?_
  refine (RelRes.mapM (P := EdgeRel (MixedRel R)) (fun e e' h => ?_) hc.2).bind
    fun _ _ h2 => .ok ⟨h1, h2⟩
  unfold restrictEdge
  exact (restrictMixed_rel h.2.2).bind fun _ _ h3 => .ok ⟨h.1, h.2.1, h3⟩

theorem fix_rel {m m' : Mixed γ NB} (hm : MixedRel R m m') :
    MixedRel R m.fixNormalApprox m'.fixNormalApprox :=
  ⟨hm.items, hm.beliefs, hm.relativeItems, hm.isInverted, hm.normalApprox, rfl⟩

theorem setNormalApprox_graph_rel (h : Good R fo) {n : ℕ} {mean : Fin n → ℝ}
    {precision : Matrix (Fin n) (Fin n) ℝ} {c c' : CG (Mixed γ NB)} (hc : CGRel (MixedRel R) c c') :
    RelRes (CGRel (MixedRel R)) (Gauss.setNormalApprox fo store mean precision c)
      (Gauss.setNormalApprox fo store mean precision c') := by
  unfold Gauss.setNormalApprox
  refine (initNormal_rel hc).bind fun c0 c0' h0 => ?_
  refine (calibrateInternal_rel (ops_rel h) h0 _ _).bind fun c1 c1' h1 => ?_
  refine (calibrateInternal_rel (ops_rel h) h1 _ _).bind fun c2 c2' h2 => .ok ⟨?_, ?_⟩
  · rw [List.forall₂_map_left_iff, List.forall₂_map_right_iff]
    exact h2.1.imp fun _ _ h3 => fix_rel h3
  · rw [List.forall₂_map_left_iff, List.forall₂_map_right_iff]
    exact h2.2.imp fun _ _ h3 => ⟨h3.1, h3.2.1, fix_rel h3.2.2⟩

end Normal

/-! ## Sequential reduction -/

/-- Factors with the same functions, for all parameters. -/
def Same (lib : SR.Lib) (g g' : SR.Factor) : Prop :=
  g.items = g'.items ∧ ∀ pars, SR.Factor.eval lib pars g = SR.Factor.eval lib pars g' ∧
    SR.Factor.deriv lib pars g = SR.Factor.deriv lib pars g' ∧
    SR.Factor.hess lib pars g = SR.Factor.hess lib pars g'

theorem same_good (lib : SR.Lib) (pars : Pars.Parameters) : Good (Same lib) (SR.Factor.ops lib pars) where
  refl _ := ⟨rfl, fun _ => ⟨rfl, rfl, rfl⟩⟩
  items _ _ h := h.1
  eval _ _ h := (h.2 pars).1
  deriv _ _ h := (h.2 pars).2.1
  hess _ _ h := (h.2 pars).2.2

/-- The result is the same for cluster graphs whose factors have the same functions. -/
theorem computeLogNormalizingConstant_rel {lib : SR.Lib} {pars : Pars.Parameters}
    {c c' : CG (Mixed SR.Factor NB)} (hc : CGRel (MixedRel (Same lib)) c c') {N : ℕ}
    (mean : Fin N → ℝ) (precision : Matrix (Fin N) (Fin N) ℝ) :
    SR.computeLogNormalizingConstant lib pars c mean precision =
      SR.computeLogNormalizingConstant lib pars c' mean precision := by
  unfold SR.computeLogNormalizingConstant
  refine RelRes.eq ((setNormalApprox_graph_rel (same_good lib pars) hc).bind fun c1 c1' h1 => ?_)
  refine (calibrateInternal_rel (ops_rel (same_good lib pars)) h1 _ _).bind fun c2 c2' h2 => ?_
  rw [show logNormalizingConstant (SR.ops lib pars) c2 = logNormalizingConstant (SR.ops lib pars) c2'
    from logNormalizingConstant_rel (ops_rel (same_good lib pars)) h2]
  exact RelRes.rfl' (fun _ => rfl) _

end Verif.Param
