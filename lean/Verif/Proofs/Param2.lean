import Verif.Proofs.Param
import Verif.Proofs.StoreFree
import Verif.Proofs.ClusterInit

/-!
# Relations between runs with different parameters

As in `Proofs/Param`, for two sets of operations: the cluster graphs run through related states if the
factors of one have, with its parameters, the functions that those of the other have with its own.
-/
namespace Verif.Param2

open Verif.Gauss Verif.Items Verif.Belief Verif.Param Verif.ClusterGraph Verif.DepGraph

/-! ## Cluster graphs -/

section Graphs

variable {β : Type} {B : β → β → Prop} {ops ops' : Ops β}

/-- The operations keep the relation `B`. -/
structure OpsRel2 (B : β → β → Prop) (ops ops' : Ops β) : Prop where
  ofItems : ops.ofItems = ops'.ofItems
  same : ops.items = ops'.items
  fresh : ∀ l, B (ops.ofItems l) (ops.ofItems l)
  items : ∀ b b', B b b' → ops.items b = ops'.items b'
  mul : ∀ a a' b b', B a a' → B b b' → RelRes B (ops.mul a b) (ops'.mul a' b')
  div : ∀ a a' b b', B a a' → B b b' → RelRes B (ops.div a b) (ops'.div a' b')
  margin : ∀ b b' is n, B b b' → RelRes B (ops.margin b is n) (ops'.margin b' is n)
  logNorm : ∀ b b', B b b' → ops.logNorm b = ops'.logNorm b'
  isProper : ∀ b b', B b b' → ops.isProper b = ops'.isProper b'

theorem populateClusters_rel2 (h : OpsRel2 B ops ops') : ∀ {cs cs' bs bs' : List β},
    List.Forall₂ B cs cs' → List.Forall₂ B bs bs' →
    RelRes (List.Forall₂ B) (populateClusters ops cs bs) (populateClusters ops' cs' bs')
  | _, _, _, _, .nil, _ => .ok .nil
  | _, _, _, _, .cons (a := c) (b := c') hc hcs, hb => by
    have hf : ∀ b b', B b b' → isSubset (ops.items b) (ops.items c) =
        isSubset (ops'.items b') (ops'.items c') := fun b b' hb => by
      rw [h.items b b' hb, h.items c c' hc]
    have h1 := RelRes.foldlM (P := B) (A := B) (f := ops.mul) (f' := ops'.mul)
      (fun s t a b hs ha => h.mul s t a b hs ha) (forall₂_filter hf hb) hc
    exact h1.bind fun _ _ h2 => (populateClusters_rel2 h hcs
      (forall₂_filter (fun b b' hb => congrArg not (hf b b' hb)) hb)).bind fun _ _ h3 => .ok (.cons h2 h3)

theorem forall₂_of_mem {α : Type} {P : α → α → Prop} : ∀ {l : List α}, (∀ a ∈ l, P a a) →
    List.Forall₂ P l l
  | [], _ => .nil
  | _ :: _, h => .cons (h _ (by simp)) (forall₂_of_mem fun a ha => h a (by simp [ha]))

theorem ofBeliefs_rel2 (h : OpsRel2 B ops ops') {ar : Arith} {bs bs' : List β}
    (hb : List.Forall₂ B bs bs') :
    RelRes (CGRel B) (ofBeliefs ar ops bs) (ofBeliefs ar ops' bs') := by
  have hi : bs.map ops.items = bs'.map ops'.items := by
    induction hb with
    | nil => rfl
    | cons h1 _ ih => rw [List.map_cons, List.map_cons, h.items _ _ h1, ih]
  have hs : ∀ g, initStructure ar ops g = initStructure ar ops' g := fun g => by
    simp only [initStructure, initializeInternal_congr h.same h.ofItems]
  unfold ofBeliefs
  rw [hi]
  refine (RelRes.rfl' (P := Eq) (fun _ => rfl) _).bind ?_
  rintro g _ rfl
  rw [← hs g]
  rcases hc : initStructure ar ops g with e | c
  · exact .err e
  obtain ⟨f1, f2⟩ := init_form hc
  refine (populateClusters_rel2 h (forall₂_of_mem fun b hb => ?_) hb).bind fun _ _ h1 =>
    .ok ⟨h1, forall₂_of_mem fun e he => ⟨rfl, rfl, ?_⟩⟩
  · obtain ⟨l, rfl⟩ := f1 b hb
    exact h.fresh l
  · obtain ⟨l, hl⟩ := f2 e he
    rw [hl]
    exact h.fresh l

theorem passMessage_rel2 (h : OpsRel2 B ops ops') {c c' : CG β} (hc : CGRel B c c') (k : ℕ)
    (forward only : Bool) :
    RelRes (CGRel B) (passMessage ops c k forward only) (passMessage ops' c' k forward only) := by
  unfold passMessage
  refine (rel_nth hc.2 k).bind fun e e' he => ?_
  have hends : ends e forward = ends e' forward := by
    unfold ends
    rw [he.1, he.2.1]
  dsimp only
  rw [hends, h.items _ _ he.2.2]
  refine (rel_atZ hc.1 _).bind fun ci ci' hci => ?_
  refine (h.margin _ _ _ _ hci).bind fun b b' hb => ?_
  refine (rel_setN hc.2 k (a := { e with belief := b }) (b := { e' with belief := b' })
    ⟨he.1, he.2.1, hb⟩).bind fun es es' hes => ?_
  refine (rel_atZ hc.1 _).bind fun cj cj' hcj => ?_
  refine (h.mul _ _ _ _ hcj hb).bind fun c1 c1' hc1 => ?_
  refine (h.div _ _ _ _ hc1 he.2.2).bind fun c2 c2' hc2 => ?_
  refine (rel_setZ hc.1 _ hc2).bind fun cl cl' hcl => ?_
  rw [h.isProper _ _ hc2]
  refine (RelRes.rfl' (P := Eq) (fun _ => rfl) _).bind ?_
  rintro p _ rfl
  split
  · exact .ok ⟨hcl, hes⟩
  · exact .err _

theorem calibrateInternal_rel2 (h : OpsRel2 B ops ops') {c c' : CG β} (hc : CGRel B c c')
    (forward only : Bool) : RelRes (CGRel B) (calibrateInternal ops c forward only)
      (calibrateInternal ops' c' forward only) := by
  unfold calibrateInternal
  rw [hc.2.length_eq]
  dsimp only
  exact RelRes.foldlM (A := Eq) (fun s t a b hs hab => by rw [hab]; exact passMessage_rel2 h hs b _ _)
    (forall₂_refl (fun _ => rfl) _) hc

theorem logNormalizingConstant_rel2 (h : OpsRel2 B ops ops') {c c' : CG β} (hc : CGRel B c c') :
    logNormalizingConstant ops c = logNormalizingConstant ops' c' := by
  unfold logNormalizingConstant
  rw [hc.1.length_eq]
  exact RelRes.eq ((rel_atZ hc.1 _).bind fun b b' hb => by
    rw [h.logNorm _ _ hb]
    exact RelRes.rfl' (fun _ => rfl) _)

end Graphs

/-! ## Mixed beliefs -/

section Mixed

variable {γ ν : Type} {R : γ → γ → Prop} {fo fo' : FactorOps γ} {no : NormalOps ν}
  {store store' : Store γ ν}

/-- Factors in the relation `R` have the same functions; storing keeps the relation. -/
structure Good2 (R : γ → γ → Prop) (fo fo' : FactorOps γ) (store store' : Store γ ν) : Prop where
  items : ∀ g g', R g g' → fo.items g = fo'.items g'
  eval : ∀ g g', R g g' → fo.eval g = fo'.eval g'
  deriv : ∀ g g', R g g' → fo.deriv g = fo'.deriv g'
  hess : ∀ g g', R g g' → fo.hess g = fo'.hess g'
  store : ∀ k f d h n is, RelRes R (store k f d h n is) (store' k f d h n is)

variable (h : Good2 R fo fo' store store')

include h in
theorem recompute_rel2 {m m' : Mixed γ ν} (hi : m.items = m'.items)
    (hb : List.Forall₂ R m.beliefs m'.beliefs) (hv : m.isInverted = m'.isInverted)
    (hn : m.normalApprox = m'.normalApprox) (hf : m.isNormalFixed = m'.isNormalFixed) :
    MixedRel R (Mixed.recomputeRelativeItems fo m) (Mixed.recomputeRelativeItems fo' m') := by
  refine ⟨hi, hb, ?_, hv, hn, hf⟩
  unfold Mixed.recomputeRelativeItems
  dsimp only
  rw [hi]
  generalize m.beliefs = l at hb ⊢
  generalize m'.beliefs = l' at hb ⊢
  induction hb with
  | nil => rfl
  | cons h1 _ ih => rw [List.map_cons, List.map_cons, h.items _ _ h1, ih]

include h in
theorem ofFactor_rel2 {g g' : γ} (hg : R g g') :
    MixedRel R (Mixed.ofFactor fo no g) (Mixed.ofFactor fo' no g') := by
  refine recompute_rel2 h (h.items _ _ hg) (.cons hg .nil) rfl ?_ rfl
  show no.ofItems _ = no.ofItems _
  rw [h.items _ _ hg]

include h in
theorem mul_rel2 {m m' o o' : Mixed γ ν} (hm : MixedRel R m m') (ho : MixedRel R o o') :
    RelRes (MixedRel R) (Mixed.mul fo no m o) (Mixed.mul fo' no m' o') := by
  unfold Mixed.mul
  rw [combineNormal_rel hm ho, flags_rel ho]
  refine (RelRes.rfl' (P := Eq) (fun _ => rfl) _).bind ?_
  rintro n _ rfl
  refine (RelRes.rfl' (P := Eq) (fun _ => rfl) _).bind ?_
  rintro inv _ rfl
  refine .ok (recompute_rel2 h ?_ (forall₂_append hm.beliefs ho.beliefs) ?_ rfl hm.isNormalFixed)
  · dsimp only
  · dsimp only
    rw [hm.isInverted]

include h in
theorem div_rel2 {m m' o o' : Mixed γ ν} (hm : MixedRel R m m') (ho : MixedRel R o o') :
    RelRes (MixedRel R) (Mixed.div fo no m o) (Mixed.div fo' no m' o') := by
  unfold Mixed.div
  rw [combineNormal_rel hm ho, flags_rel ho]
  refine (RelRes.rfl' (P := Eq) (fun _ => rfl) _).bind ?_
  rintro n _ rfl
  refine (RelRes.rfl' (P := Eq) (fun _ => rfl) _).bind ?_
  rintro inv _ rfl
  refine .ok (recompute_rel2 h ?_ (forall₂_append hm.beliefs ho.beliefs) ?_ rfl hm.isNormalFixed)
  · dsimp only
  · dsimp only
    rw [hm.isInverted]

include h in
theorem evaluate_rel2 {m m' : Mixed γ ν} (hm : MixedRel R m m') :
    Mixed.evaluate fo m = Mixed.evaluate fo' m' := by
  funext x
  refine RelRes.eq (RelRes.foldlM (P := Eq) (fun s t a b hs hab => ?_)
    (zipIdx_rel hm.beliefs 0) rfl)
  obtain ⟨h1, h2⟩ := hab
  unfold Mixed.evalStep
  rw [hs, h2, hm.relativeItems, hm.isInverted, h.eval _ _ h1]
  exact RelRes.rfl' (fun _ => rfl) _

include h in
theorem evaluateDerivative_rel2 {m m' : Mixed γ ν} (hm : MixedRel R m m') :
    Mixed.evaluateDerivative fo m = Mixed.evaluateDerivative fo' m' := by
  funext x
  refine RelRes.eq (RelRes.foldlM (P := Eq) (fun s t a b hs hab => ?_)
    (zipIdx_rel hm.beliefs 0) rfl)
  obtain ⟨h1, h2⟩ := hab
  unfold Mixed.derivStep
  rw [hs, h2, hm.items, hm.isInverted, h.deriv _ _ h1, h.items _ _ h1]
  exact RelRes.rfl' (fun _ => rfl) _

include h in
theorem evaluateSecondDerivative_rel2 {m m' : Mixed γ ν} (hm : MixedRel R m m') :
    Mixed.evaluateSecondDerivative fo m = Mixed.evaluateSecondDerivative fo' m' := by
  funext x
  refine RelRes.eq (RelRes.foldlM (P := Eq) (fun s t a b hs hab => ?_)
    (zipIdx_rel hm.beliefs 0) rfl)
  obtain ⟨h1, h2⟩ := hab
  unfold Mixed.hessStep
  rw [hs, h2, hm.items, hm.isInverted, h.hess _ _ h1, h.items _ _ h1]
  exact RelRes.rfl' (fun _ => rfl) _

include h in
theorem isProper_rel2 {m m' : Mixed γ ν} (hm : MixedRel R m m') :
    Mixed.isProper fo no m = Mixed.isProper fo' no m' := by
  unfold Mixed.isProper Mixed.factorsProper
  rw [evaluate_rel2 h hm, hm.normalApprox, hm.beliefs.length_eq]

include h in
theorem integrate_rel2 {m m' : Mixed γ ν} (hm : MixedRel R m m') (item : ℤ) :
    RelRes (MixedRel R) (Mixed.integrate fo no store m item)
      (Mixed.integrate fo' no store' m' item) := by
  unfold Mixed.integrate
  rw [hm.items, hm.normalApprox, evaluate_rel2 h hm, evaluateDerivative_rel2 h hm,
    evaluateSecondDerivative_rel2 h hm]
  refine (RelRes.rfl' (P := Eq) (fun _ => rfl) _).bind ?_
  rintro is _ rfl
  refine (h.store _ _ _ _ _ _).bind fun g g' hg => ?_
  refine (RelRes.rfl' (P := Eq) (fun _ => rfl) _).bind ?_
  rintro n _ rfl
  exact .ok (setNormalApprox_rel (ofFactor_rel2 h hg) n)

include h in
theorem margin_rel2 {m m' : Mixed γ ν} (hm : MixedRel R m m') (items : List ℤ)
    (only : Bool) : RelRes (MixedRel R) (Mixed.margin fo no store m items only)
      (Mixed.margin fo' no store' m' items only) := by
  unfold Mixed.margin
  rw [hm.normalApprox, hm.items]
  split
  · refine (RelRes.rfl' (P := Eq) (fun _ => rfl) _).bind ?_
    rintro n _ rfl
    exact .ok (setNormalApprox_rel ⟨rfl, .nil, rfl, rfl, rfl, rfl⟩ n)
  · exact RelRes.foldlM (A := Eq) (fun s t a b hs hab => by rw [hab]; exact integrate_rel2 h hs b)
      (forall₂_refl (fun _ => rfl) _) hm

include h in
theorem logNorm_rel2 {m m' : Mixed γ ν} (hm : MixedRel R m m') :
    Mixed.logNorm fo no store m = Mixed.logNorm fo' no store' m' := by
  unfold Mixed.logNorm
  exact RelRes.eq ((margin_rel2 h hm [] false).bind fun e e' he => by
    rw [evaluate_rel2 h he]
    exact RelRes.rfl' (fun _ => rfl) _)

include h in
theorem ops_rel2 : OpsRel2 (MixedRel R) (Mixed.ops fo no store) (Mixed.ops fo' no store') where
  ofItems := rfl
  same := rfl
  fresh _ := ⟨rfl, .nil, rfl, rfl, rfl, rfl⟩
  items _ _ hb := hb.items
  mul _ _ _ _ ha hb := mul_rel2 h ha hb
  div _ _ _ _ ha hb := div_rel2 h ha hb
  margin _ _ is n hb := margin_rel2 h hb is n
  logNorm _ _ hb := logNorm_rel2 h hb
  isProper _ _ hb := isProper_rel2 h hb

end Mixed

/-! ## The normal approximation -/

section Normal

variable {γ : Type} {R : γ → γ → Prop} {fo fo' : FactorOps γ} {store store' : Store γ NB}

theorem setNormalApprox_graph_rel2 (h : Good2 R fo fo' store store') {n : ℕ} {mean : Fin n → ℝ}
    {precision : Matrix (Fin n) (Fin n) ℝ} {c c' : CG (Mixed γ NB)} (hc : CGRel (MixedRel R) c c') :
    RelRes (CGRel (MixedRel R)) (Gauss.setNormalApprox fo store mean precision c)
      (Gauss.setNormalApprox fo' store' mean precision c') := by
  unfold Gauss.setNormalApprox
  refine (initNormal_rel hc).bind fun c0 c0' h0 => ?_
  refine (calibrateInternal_rel2 (ops_rel2 h) h0 _ _).bind fun c1 c1' h1 => ?_
  refine (calibrateInternal_rel2 (ops_rel2 h) h1 _ _).bind fun c2 c2' h2 => .ok ⟨?_, ?_⟩
  · rw [List.forall₂_map_left_iff, List.forall₂_map_right_iff]
    exact h2.1.imp fun _ _ h3 => fix_rel h3
  · rw [List.forall₂_map_left_iff, List.forall₂_map_right_iff]
    exact h2.2.imp fun _ _ h3 => ⟨h3.1, h3.2.1, fix_rel h3.2.2⟩

end Normal

/-! ## Sequential reduction -/

/-- Factors with the same functions, each with its own parameters. -/
def Same2 (lib : SR.Lib) (pars pars' : Pars.Parameters) (g g' : SR.Factor) : Prop :=
  g.items = g'.items ∧ SR.Factor.eval lib pars g = SR.Factor.eval lib pars' g' ∧
    SR.Factor.deriv lib pars g = SR.Factor.deriv lib pars' g' ∧
    SR.Factor.hess lib pars g = SR.Factor.hess lib pars' g'

/-- Parameters that agree but for the model parameters. -/
structure SameRules (pars pars' : Pars.Parameters) : Prop where
  family : pars.family = pars'.family
  basis : pars.sparseBasis = pars'.sparseBasis
  rule : pars.quadratureRule = pars'.quadratureRule

theorem same2_good (lib : SR.Lib) {pars pars' : Pars.Parameters} (h : SameRules pars pars') :
    Good2 (Same2 lib pars pars') (SR.Factor.ops lib pars) (SR.Factor.ops lib pars')
      (SR.store lib pars) (SR.store lib pars') where
  items _ _ h := h.1
  eval _ _ h := h.2.1
  deriv _ _ h := h.2.2.1
  hess _ _ h := h.2.2.2
  store k f d hs n is := by
    have hg : SR.gridEnv lib pars = SR.gridEnv lib pars' := by
      unfold SR.gridEnv
      rw [h.basis]
    unfold SR.store SR.storeWith
    split
    · rw [hg, h.rule]
      refine (RelRes.rfl' (P := Eq) (fun _ => rfl) _).bind ?_
      rintro i _ rfl
      refine (RelRes.rfl' (P := Eq) (fun _ => rfl) _).bind ?_
      rintro m _ rfl
      refine (RelRes.rfl' (P := Eq) (fun _ => rfl) _).bind ?_
      rintro s _ rfl
      refine .ok ⟨rfl, ?_, ?_, ?_⟩ <;> funext x
      · rw [SR.Factor.eval, SR.Factor.eval, hg]
      · rw [SR.Factor.deriv, SR.Factor.deriv, hg]
      · rw [SR.Factor.hess, SR.Factor.hess, hg]
    · exact .err _

/-- The result is the same for cluster graphs whose factors have the same functions. -/
theorem computeLogNormalizingConstant_rel2 {lib : SR.Lib} {pars pars' : Pars.Parameters}
    (h : SameRules pars pars') {c c' : CG (Mixed SR.Factor NB)}
    (hc : CGRel (MixedRel (Same2 lib pars pars')) c c') {N : ℕ} (mean : Fin N → ℝ)
    (precision : Matrix (Fin N) (Fin N) ℝ) :
    SR.computeLogNormalizingConstant lib pars c mean precision =
      SR.computeLogNormalizingConstant lib pars' c' mean precision := by
  have hg := same2_good lib h
  unfold SR.computeLogNormalizingConstant
  refine RelRes.eq ((setNormalApprox_graph_rel2 hg hc).bind fun c1 c1' h1 => ?_)
  refine (calibrateInternal_rel2 (ops_rel2 hg) h1 _ _).bind fun c2 c2' h2 => ?_
  rw [show logNormalizingConstant (SR.ops lib pars) c2 = logNormalizingConstant (SR.ops lib pars') c2'
    from logNormalizingConstant_rel2 (ops_rel2 hg) h2]
  exact RelRes.rfl' (fun _ => rfl) _

end Verif.Param2
