import Verif.Spec.Reparam
import Verif.Proofs.Param2
import Verif.Proofs.ZeroWeight
import Verif.Props.Reorder

/-!
# Factors of two parametrisations of the same model
-/
namespace Verif.Reparam

open Verif.Gauss Verif.Items Verif.Belief Verif.Param Verif.Param2 Verif.ClusterGraph Verif.DepGraph
open Verif.Split Verif.Reparam.Spec Verif.Pars Verif.GLMM Verif.Family

variable {q n p p' : ℕ} {M : ModFr q n p} {M' : ModFr q n p'}

/-! ## The same cliques -/

theorem columnItems_same (h : ∀ j, Split.Spec.Active M j = Split.Spec.Active M' j) :
    columnItems M = columnItems M' := by
  funext j
  have hl : ∀ {k : ℕ} (F : ModFr q n k), (columnItems F j).Pairwise (· < ·) := fun F =>
    (List.pairwise_lt_finRange q).filter _
  refine List.Perm.eq_of_pairwise (fun a b _ _ hab hba => absurd (lt_trans hab hba) (lt_irrefl a))
    (hl M) (hl M') ?_
  refine (List.perm_ext_iff_of_nodup ((List.nodup_finRange q).filter _)
    ((List.nodup_finRange q).filter _)).2 fun r => ?_
  change r ∈ columnItems M j ↔ r ∈ columnItems M' j
  rw [mem_columnItems, mem_columnItems, h]

theorem covered_same (h : ∀ j, Split.Spec.Active M j = Split.Spec.Active M' j)
    (hc : Split.Spec.Covered M) : Split.Spec.Covered M' :=
  fun j => h j ▸ hc j

/-- The terms of the two model frames belong to the same cliques and observations. -/
theorem terms_both (h : ∀ j, Split.Spec.Active M j = Split.Spec.Active M' j)
    (hc : Split.Spec.Covered M) :
    ∃ ext : List (List (Fin q) × List (Fin n)),
      findFactorizationTerms M = Except.ok
        ((ext.map fun e => Term.glmm e.1 e.2.length (findLocalTerm e.1 e.2 M)) ++
          (List.finRange q).map fun i => Term.normal i 0 1) ∧
      findFactorizationTerms M' = Except.ok
        ((ext.map fun e => Term.glmm e.1 e.2.length (findLocalTerm e.1 e.2 M')) ++
          (List.finRange q).map fun i => Term.normal i 0 1) ∧
      Split.Spec.Contained M ext ∧ ∀ e ∈ ext, e.1 ≠ [] ∧ e.1.Nodup := by
  have ha : findActive M = findActive M' := by
    unfold findActive
    rw [columnItems_same h]
  obtain ⟨h1, h2⟩ := c40_partition hc (findActive M).eraseDups
  have hmem : ∀ C, C ∈ (findActive M).eraseDups ↔ ∃ j, columnItems M j = C := by
    intro C
    rw [List.mem_eraseDups, findActive_covered hc, List.mem_map]
    simp
  obtain ⟨ext, he⟩ := h2.2 fun j => ⟨columnItems M j, (hmem _).2 ⟨j, rfl⟩, fun r hr =>
    mem_columnItems.2 hr⟩
  obtain ⟨a1, a2, a3⟩ := h1 ext he
  refine ⟨ext, ?_, ?_, a3, fun e hm => ?_⟩
  · unfold findFactorizationTerms
    dsimp only
    rw [he]
    rfl
  · unfold findFactorizationTerms
    dsimp only
    rw [← ha, he]
    rfl
  · have : e.1 ∈ (findActive M).eraseDups := a1 ▸ List.mem_map_of_mem hm
    obtain ⟨j, hj⟩ := (hmem _).1 this
    refine ⟨fun h0 => ?_, hj ▸ (List.nodup_finRange q).filter _⟩
    obtain ⟨r, hr⟩ := hc j
    have := mem_columnItems.2 hr
    rw [hj, h0] at this
    cases this

/-! ## The same linear predictor -/

theorem design_of_eta {d m k k' : ℕ} {D : Data d m k} {D' : Data d m k'}
    {theta beta theta' beta' : List ℝ} {i : Fin m} (h : ∀ v, GLMM.Spec.eta D theta beta v i =
      GLMM.Spec.eta D' theta' beta' v i) (r : Fin d) :
    GLMM.Spec.design D theta r i = GLMM.Spec.design D' theta' r i := by
  have h0 := h 0
  have h1 := h (Pi.single r 1)
  simp only [GLMM.Spec.eta, Pi.zero_apply, mul_zero, Finset.sum_const_zero, add_zero] at h0
  simp only [GLMM.Spec.eta, h0, Pi.single_apply, mul_ite, mul_one, mul_zero, Finset.sum_ite_eq',
    Finset.mem_univ, if_true] at h1
  exact add_left_cancel h1

theorem extend {C : List (Fin q)} (hC : C.Nodup) (v : Fin C.length → ℝ) :
    ∃ u : Fin q → ℝ, (fun r => u (C.get r)) = v := by
  classical
  refine ⟨fun x => if hx : ∃ r, C.get r = x then v hx.choose else 0, ?_⟩
  funext r
  have hx : ∃ s, C.get s = C.get r := ⟨r, rfl⟩
  simp only [dif_pos hx]
  exact congrArg v (List.nodup_iff_injective_get.1 hC hx.choose_spec)

theorem local_weights {k : ℕ} (F : ModFr q n k) (C : List (Fin q)) (obs : List (Fin n)) :
    (findLocalTerm C obs F).weights = fun i => Split.Spec.weight F (obs.get i) := by
  unfold findLocalTerm Split.Spec.weight
  rcases F.weights with _ | w <;> rfl

theorem local_same (h : SameCounted M M') {nTheta nTheta' : ℕ} (hM : Split.Spec.WellFormed M nTheta)
    (hM' : Split.Spec.WellFormed M' nTheta') {theta beta theta' beta' : List ℝ}
    (hs : SamePredictorCounted M M' theta beta theta' beta') {C : List (Fin q)} (hC : C.Nodup)
    {obs : List (Fin n)} (ho : ∀ j ∈ obs, ∀ r ∈ Split.Spec.Active M j, r ∈ C) (v : Fin C.length → ℝ)
    {i : Fin obs.length} (hi : (findLocalTerm C obs M).weights i ≠ 0) :
    GLMM.Spec.eta (findLocalTerm C obs M) theta beta v i =
      GLMM.Spec.eta (findLocalTerm C obs M') theta' beta' v i := by
  obtain ⟨u, rfl⟩ := extend hC v
  rw [local_weights] at hi
  rw [local_eta hM hC i (ho _ (List.get_mem _ _)), local_eta hM' hC i
    (by rw [← h.active]; exact ho _ (List.get_mem _ _)), hs _ _ hi]

theorem local_data (h : SameCounted M M') (C : List (Fin q)) (obs : List (Fin n)) :
    (∀ i, (findLocalTerm C obs M).weights i ≠ 0 →
      (findLocalTerm C obs M).response i = (findLocalTerm C obs M').response i) ∧
      (findLocalTerm C obs M).weights = (findLocalTerm C obs M').weights := by
  refine ⟨fun i hi => ?_, by rw [local_weights, local_weights, h.weight]⟩
  rw [local_weights] at hi
  exact h.resp _ hi

/-! ## The same factors -/

theorem same2_glmm (lib : SR.Lib) {pars pars' : Parameters} (hf : pars.family = pars'.family)
    {d m k k' : ℕ} {D : Data d m k} {D' : Data d m k'} (hn : D.entries.Nodup)
    (hn' : D'.entries.Nodup) (hfit : GLMM.Spec.Fit D pars.theta pars.beta)
    (hfit' : GLMM.Spec.Fit D' pars'.theta pars'.beta)
    (hr : ∀ i, D.weights i ≠ 0 → D.response i = D'.response i) (hw : D.weights = D'.weights)
    (he : ∀ v i, D.weights i ≠ 0 →
      GLMM.Spec.eta D pars.theta pars.beta v i = GLMM.Spec.eta D' pars'.theta pars'.beta v i)
    {b : GLMM.Belief d m k} {b' : GLMM.Belief d m k'} (hb : GLMM.Inv D b) (hb' : GLMM.Inv D' b')
    (items : List ℤ) :
    Same2 lib pars pars' (SR.Factor.glmm items d m k b) (SR.Factor.glmm items d m k' b') := by
  have hd : ∀ i, D.weights i ≠ 0 → ∀ r, GLMM.Spec.design D pars.theta r i =
      GLMM.Spec.design D' pars'.theta r i := fun i hi => design_of_eta fun v => he v i hi
  have hc : ∀ v, Counted (GLMM.Spec.eta D pars.theta pars.beta v)
      (GLMM.Spec.eta D' pars'.theta pars'.beta v) D.response D'.response D.weights :=
    fun v i hi => ⟨he v i hi, hr i hi⟩
  refine ⟨rfl, ?_, ?_, ?_⟩ <;> funext x
  · rw [SR.Factor.eval, SR.Factor.eval]
    rcases NB.vec d x with e | v
    · rfl
    obtain ⟨c, -, e⟩ := evaluate_inv hn hb hfit v
    obtain ⟨c', -, e'⟩ := evaluate_inv hn' hb' hfit' v
    simp only [res_ok_bind, e, e', GLMM.Spec.value, hf, ← hw, evaluate_counted _ (hc v)]
    rcases pars'.family.evaluate _ _ _ with e | w <;> rfl
  · rw [SR.Factor.deriv, SR.Factor.deriv]
    rcases NB.vec d x with e | v
    · rfl
    obtain ⟨c, -, e⟩ := derivative_inv hn hb hfit v
    obtain ⟨c', -, e'⟩ := derivative_inv hn' hb' hfit' v
    simp only [res_ok_bind, e, e', GLMM.Spec.gradient, hf, ← hw, derivative_counted _ (hc v)]
    rcases hz : pars'.family.evaluateDerivative _ _ _ with e | w
    · rfl
    · have : (fun r => ∑ i, GLMM.Spec.design D pars.theta r i * w i) =
          fun r => ∑ i, GLMM.Spec.design D' pars'.theta r i * w i := by
        funext r
        refine Finset.sum_congr rfl fun i _ => ?_
        by_cases hi : D.weights i = 0
        · rw [derivative_zero _ hz hi, mul_zero, mul_zero]
        · rw [hd i hi]
      simp only [res_ok_bind, this]
      rfl
  · rw [SR.Factor.hess, SR.Factor.hess]
    rcases NB.vec d x with e | v
    · rfl
    obtain ⟨c, -, e⟩ := second_inv hn hb hfit v
    obtain ⟨c', -, e'⟩ := second_inv hn' hb' hfit' v
    simp only [res_ok_bind, e, e', GLMM.Spec.hessian, hf, ← hw, second_counted _ (hc v)]
    rcases hz : pars'.family.evaluateSecondDerivative _ _ _ with e | w
    · rfl
    · have : (Matrix.of fun r s => ∑ i, GLMM.Spec.design D pars.theta r i * w i *
            GLMM.Spec.design D pars.theta s i) =
          Matrix.of fun r s => ∑ i, GLMM.Spec.design D' pars'.theta r i * w i *
            GLMM.Spec.design D' pars'.theta s i := by
        ext r s
        simp only [Matrix.of_apply]
        refine Finset.sum_congr rfl fun i _ => ?_
        by_cases hi : D.weights i = 0
        · rw [second_zero _ hz hi, mul_zero, mul_zero, zero_mul, zero_mul]
        · rw [hd i hi, hd i hi]
      simp only [res_ok_bind, this]
      rfl

theorem same2_normal (lib : SR.Lib) (pars pars' : Parameters) (nb : NB) :
    Same2 lib pars pars' (SR.Factor.normal nb) (SR.Factor.normal nb) :=
  ⟨rfl, rfl, rfl, rfl⟩

/-- Parameters of the two model frames, of the right lengths, that give the same linear predictor and
agree otherwise; observations of weight 0 are left out. -/
structure Match (M : ModFr q n p) (M' : ModFr q n p') (nTheta nTheta' : ℕ)
    (pars pars' : Parameters) : Prop where
  rules : SameRules pars pars'
  theta : pars.theta.length = nTheta
  theta' : pars'.theta.length = nTheta'
  beta : pars.beta.length = p
  beta' : pars'.beta.length = p'
  same : SamePredictorCounted M M' pars.theta pars.beta pars'.theta pars'.beta

/-- Both lists of beliefs are made, and the functions of the factors agree for matching parameters. -/
theorem beliefs_both (h : SameCounted M M') (hc : Split.Spec.Covered M) {nTheta nTheta' : ℕ}
    (hM : Split.Spec.WellFormed M nTheta) (hM' : Split.Spec.WellFormed M' nTheta') {lib : SR.Lib}
    (hrd : SR.Reads lib.rd M) (hrd' : SR.Reads lib.rd M') :
    ∃ bs bs', Lfun.factorizationTerms lib M = Except.ok bs ∧
      Lfun.factorizationTerms lib M' = Except.ok bs' ∧
      ∀ pars pars', Match M M' nTheta nTheta' pars pars' →
        List.Forall₂ (MixedRel (Same2 lib pars pars')) bs bs' := by
  obtain ⟨ext, e1, e2, hcon, hext⟩ := terms_both h.active hc
  unfold Lfun.factorizationTerms
  rw [e1, e2]
  simp only [res_ok_bind]
  -- the two beliefs of one term
  have hg : ∀ e ∈ ext, ∃ b b', SR.beliefOf lib Parameters.empty
        (Term.glmm e.1 e.2.length (findLocalTerm e.1 e.2 M)) = Except.ok b ∧
      SR.beliefOf lib Parameters.empty
        (Term.glmm e.1 e.2.length (findLocalTerm e.1 e.2 M')) = Except.ok b' ∧
      ∀ pars pars', Match M M' nTheta nTheta' pars pars' → MixedRel (Same2 lib pars pars') b b' := by
    intro e he
    obtain ⟨hC, hnd⟩ := hext e he
    obtain ⟨b, eb⟩ := SR.local_create hrd hM hC e.2
    obtain ⟨b', eb'⟩ := SR.local_create hrd' hM' hC e.2
    have hn : (findLocalTerm e.1 e.2 M).entries.Nodup := subLambdat_nodup M e.1
    have hn' : (findLocalTerm e.1 e.2 M').entries.Nodup := subLambdat_nodup M' e.1
    have hr := Reachable.create hrd.inside eb
    have hr' := Reachable.create hrd'.inside eb'
    refine ⟨_, _, by rw [SR.beliefOf, SR.factorOf, eb]; rfl, by
      rw [SR.beliefOf, SR.factorOf, eb']; rfl, fun pars pars' hm => ?_⟩
    have hfit : GLMM.Spec.Fit (findLocalTerm e.1 e.2 M) pars.theta pars.beta :=
      local_fit (by rw [hm.theta]; exact hM) hm.beta e.1 e.2
    have hfit' : GLMM.Spec.Fit (findLocalTerm e.1 e.2 M') pars'.theta pars'.beta :=
      local_fit (by rw [hm.theta']; exact hM') hm.beta' e.1 e.2
    obtain ⟨d1, d2⟩ := local_data h e.1 e.2
    have hg := same2_glmm lib hm.rules.family hn hn' hfit hfit' d1 d2
      (fun v i hi => local_same h hM hM' hm.same hnd (hcon e he) v hi) (hr.inv hn) (hr'.inv hn')
      (e.1.map fun i : Fin q => ((i : ℕ) : ℤ))
    have := ofFactor_rel2 (no := NB.ops) (same2_good lib hm.rules) hg
    rw [Lfun.ofFactor_congr (Lfun.factor_items lib Parameters.empty pars),
      Lfun.ofFactor_congr (Lfun.factor_items lib Parameters.empty pars')]
    exact this
  have hnorm : ∀ i : Fin q, ∃ b, SR.beliefOf lib Parameters.empty (Term.normal (p := p) i 0 1) =
        Except.ok b ∧
      SR.beliefOf lib Parameters.empty (Term.normal (p := p') i 0 1) = Except.ok b ∧
      ∀ pars pars', Match M M' nTheta nTheta' pars pars' → MixedRel (Same2 lib pars pars') b b := by
    intro i
    refine ⟨_, rfl, rfl, fun pars pars' hm => ?_⟩
    have := ofFactor_rel2 (no := NB.ops) (same2_good lib hm.rules) (same2_normal lib pars pars'
      (normalFactor i 0 1))
    rw [Lfun.ofFactor_congr (Lfun.factor_items lib Parameters.empty pars)]
    rw [Lfun.ofFactor_congr (Lfun.factor_items lib pars' pars)] at this
    exact this
  -- the lists
  have hlist : ∀ l : List (List (Fin q) × List (Fin n)), (∀ e ∈ l, e ∈ ext) →
      ∀ k : List (Fin q), ∃ bs bs',
        ((l.map fun e : List (Fin q) × List (Fin n) => Term.glmm e.1 e.2.length (findLocalTerm e.1 e.2 M)) ++
          k.map fun i => Term.normal i 0 1).mapM (SR.beliefOf lib Parameters.empty) =
            Except.ok bs ∧
        ((l.map fun e : List (Fin q) × List (Fin n) => Term.glmm e.1 e.2.length (findLocalTerm e.1 e.2 M')) ++
          k.map fun i => Term.normal i 0 1).mapM (SR.beliefOf lib Parameters.empty) =
            Except.ok bs' ∧
        ∀ pars pars', Match M M' nTheta nTheta' pars pars' →
          List.Forall₂ (MixedRel (Same2 lib pars pars')) bs bs' := by
    intro l hl k
    induction l with
    | nil =>
      induction k with
      | nil => exact ⟨[], [], rfl, rfl, fun _ _ _ => .nil⟩
      | cons i k ih =>
        obtain ⟨b, a1, a2, a3⟩ := hnorm i
        obtain ⟨bs, bs', c1, c2, c3⟩ := ih
        refine ⟨b :: bs, b :: bs', ?_, ?_, fun pars pars' hm => .cons (a3 _ _ hm) (c3 _ _ hm)⟩
        · simp only [List.map_nil, List.nil_append, List.map_cons, List.mapM_cons] at c1 ⊢
          rw [a1, c1]; rfl
        · simp only [List.map_nil, List.nil_append, List.map_cons, List.mapM_cons] at c2 ⊢
          rw [a2, c2]; rfl
    | cons e l ih =>
      obtain ⟨b, b', a1, a2, a3⟩ := hg e (hl e (by simp))
      obtain ⟨bs, bs', c1, c2, c3⟩ := ih fun e he => hl e (List.mem_cons_of_mem _ he)
      refine ⟨b :: bs, b' :: bs', ?_, ?_, fun pars pars' hm => .cons (a3 _ _ hm) (c3 _ _ hm)⟩
      · simp only [List.map_cons, List.cons_append, List.mapM_cons] at c1 ⊢
        rw [a1, c1]; rfl
      · simp only [List.map_cons, List.cons_append, List.mapM_cons] at c2 ⊢
        rw [a2, c2]; rfl
  exact hlist ext (fun _ h => h) (List.finRange q)

end Verif.Reparam
