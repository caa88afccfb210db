import Verif.Spec.SignChange
import Verif.Proofs.SignEnv
import Verif.Props.Reparam

/-!
# Sequential reduction of two model frames that differ by signs of random effects
-/
namespace Verif.Sign

open Verif.Gauss Verif.Items Verif.Belief Verif.ClusterGraph Verif.Reorder Verif.Param Verif.Param2
open Verif.DepGraph Verif.Split Verif.Pars Verif.GLMM Verif.Family Verif.Reparam.Spec Verif.Sign.Spec
open Verif.Reparam (terms_both extend local_weights covered_same)

/-! ## Cluster graphs -/

section Graph

variable {γ : Type} {s : ℤ → ℝ} {fo fo' : FactorOps γ} {st st' : Store γ NB}

theorem ofFactor_bel (hs : IsSignZ s) {g g' : γ} (h : FRel s fo fo' g g')
    (hn : (fo.items g).Nodup) :
    Bel s fo fo' (Mixed.ofFactor fo NB.ops g) (Mixed.ofFactor fo' NB.ops g') where
  items := h.items
  factors := .cons ⟨h, rfl⟩ .nil
  normal := by
    show NB.ofItems (fo'.items g') = flipNB s (NB.ofItems (fo.items g))
    rw [ofItems_flip hs, h.items]
  fixed := rfl
  wf := wf_ofFactor_nd (fun _ h => h) nb_laws hn
  wf' := wf_ofFactor_nd (fun _ h => h) nb_laws (show (fo'.items g').Nodup by rw [h.items]; exact hn)

theorem bel_items {bs bs' : List (Mixed γ NB)} (h : List.Forall₂ (Bel s fo fo') bs bs') :
    bs'.map Mixed.items = bs.map Mixed.items := by
  induction h with
  | nil => rfl
  | cons h _ ih => rw [List.map_cons, List.map_cons, h.items, ih]

theorem bel_wf {bs bs' : List (Mixed γ NB)} (h : List.Forall₂ (Bel s fo fo') bs bs') :
    (∀ b ∈ bs, Wf fo b) ∧ ∀ b ∈ bs', Wf fo' b := by
  induction h with
  | nil => simp
  | cons h _ ih =>
    refine ⟨fun b hb => ?_, fun b hb => ?_⟩ <;> rcases List.mem_cons.mp hb with rfl | hb
    exacts [h.wf, ih.1 b hb, h.wf', ih.2 b hb]

/-- The cluster graphs made of two lists of beliefs. -/
theorem ofBeliefs_sign (hs : IsSignZ s) (hst : StoreLaw fo (Nd fo) st)
    (hst' : StoreLaw fo' (Nd fo') st') {bs bs' : List (Mixed γ NB)}
    (hbs : List.Forall₂ (Bel s fo fo') bs bs') {ar : Arith} {B : ℤ} (hf : Fits ar B) (hB1 : 1 ≤ B)
    (hb1 : (((depA (bs.map Mixed.items)).active.card : ℕ) : ℤ) *
      ((depA (bs.map Mixed.items)).active.card - 1) ≤ B)
    (hb2 : (((depA (bs.map Mixed.items)).active.card : ℕ) : ℤ) ≤ B) :
    ∃ c c', ofBeliefs ar (gops fo st) bs = Except.ok c ∧
      ofBeliefs ar (gops fo' st') bs' = Except.ok c' ∧
      Built (gops fo st) (bs.map Mixed.items) c ∧
      ∀ K, (∀ b ∈ c.clusters, b.items.length ≤ K) → GSign s K fo fo' st st' c c' := by
  have hi := bel_items hbs
  obtain ⟨w, w'⟩ := bel_wf hbs
  have hn : ∀ f ∈ bs.map Mixed.items, f.Nodup := fun f hfm => by
    obtain ⟨b, hbm, rfl⟩ := List.mem_map.mp hfm
    exact (w b hbm).nodup
  obtain ⟨c, e, hB, inv, -⟩ := ofBeliefs_ok (laws hst) bs w hf hB1 hb1 hb2
  obtain ⟨c', e', -, inv', -⟩ := ofBeliefs_ok (laws hst') bs' w' hf hB1
    (by
      show (((depA (bs'.map Mixed.items)).active.card : ℕ) : ℤ) *
        ((depA (bs'.map Mixed.items)).active.card - 1) ≤ B
      rw [hi]; exact hb1)
    (by
      show (((depA (bs'.map Mixed.items)).active.card : ℕ) : ℤ) ≤ B
      rw [hi]; exact hb2)
  obtain ⟨g, c0, eg, ec, hB0⟩ := init_ok (laws hst).items_ofItems (bs.map Mixed.items) hn hf
    hB1 hb1 hb2
  have ec' : initStructure ar (gops fo' st') g = Except.ok c0 := by
    rw [← ec]
    unfold initStructure
    exact (initializeInternal_congr (ops := gops fo st) (ops' := gops fo' st') rfl rfl ..).symm
  have hform := init_form ec
  have h1 := e
  have h1' := e'
  unfold ofBeliefs at h1 h1'
  rw [show bs.map (gops fo st).items = bs.map Mixed.items from rfl, eg, res_ok_bind, ec, res_ok_bind,
    populate] at h1
  rw [show bs'.map (gops fo' st').items = bs'.map Mixed.items from rfl, hi, eg, res_ok_bind, ec',
    res_ok_bind, populate] at h1'
  obtain ⟨cl1, p1, q1⟩ := Reorder.bind_inv h1
  obtain ⟨cl1', p1', q1'⟩ := Reorder.bind_inv h1'
  cases Except.ok.inj q1
  cases Except.ok.inj q1'
  have hcl : List.Forall₂ (Bel s fo fo') c0.clusters c0.clusters := by
    refine List.forall₂_same.mpr fun b hbm => ?_
    obtain ⟨l, hl⟩ := hform.1 b hbm
    obtain ⟨k, hk⟩ := List.mem_iff_getElem?.mp hbm
    have h3 := hB0.ndC k
    have hnd : l.Nodup := by simpa [cl, hk, hl, (laws hst).items_ofItems l] using h3
    rw [hl]
    exact ofItems_bel hs hnd
  have hp := populate_sign (st := st) (st' := st') hs hcl hbs
  rw [p1, p1'] at hp
  refine ⟨_, _, e, e', hB, fun K hK => ⟨?_, ?_, inv, inv', hK⟩⟩
  · cases hp with
    | ok h => exact h
  · refine List.forall₂_same.mpr fun d hd => ⟨rfl, rfl, ?_⟩
    obtain ⟨l, hl⟩ := hform.2 d hd
    have hw := inv.wfE d hd
    rw [hl] at hw ⊢
    exact ofItems_bel hs hw.nodup

end Graph

/-! ## Beliefs of the model -/

variable {q n p p' : ℕ} {M : ModFr q n p} {M' : ModFr q n p'} {s : Fin q → ℝ}

/-- The sign of an item. -/
noncomputable def sz (s : Fin q → ℝ) (i : ℤ) : ℝ :=
  if h : 0 ≤ i ∧ i < q then s ⟨i.toNat, by omega⟩ else 1

theorem sz_sign (h : Signs s) : IsSignZ (sz s) := by
  intro i
  unfold sz
  split
  · exact h _
  · exact Or.inl rfl

theorem sz_fin (r : Fin q) : sz s ((r : ℕ) : ℤ) = s r := by
  unfold sz
  rw [dif_pos ⟨by omega, by exact_mod_cast r.2⟩]
  rfl

/-- The same data, or successes and failures exchanged, according to `τ`. -/
structure TurnData (τ : ℝ) (M : ModFr q n p) (M' : ModFr q n p') : Prop where
  resp : ∀ j, M.resp j = turn τ (M'.resp j)
  weight : Split.Spec.weight M = Split.Spec.weight M'
  active : ∀ j, Split.Spec.Active M j = Split.Spec.Active M' j

/-- The linear predictor changes by the factor `τ` when the signs of the random effects change. -/
def TurnPredictor (τ : ℝ) (s : Fin q → ℝ) (M : ModFr q n p) (M' : ModFr q n p')
    (theta beta theta' beta' : List ℝ) : Prop :=
  ∀ u j, Split.Spec.eta M theta beta u j =
    τ * Split.Spec.eta M' theta' beta' (fun r => s r * u r) j

theorem turn_same (h : SameData M M') : TurnData 1 M M' :=
  ⟨fun j => by rw [turn_one, h.resp], h.weight, h.active⟩

theorem turn_swap (h : SwapData M M') : TurnData (-1) M M' :=
  ⟨fun j => by rw [turn_neg, h.resp, sub_sub_cancel], h.weight, h.active⟩

theorem local_turn {τ : ℝ} (h : TurnData τ M M') (C : List (Fin q)) (obs : List (Fin n)) :
    ((findLocalTerm C obs M).response = fun i => turn τ ((findLocalTerm C obs M').response i)) ∧
      (findLocalTerm C obs M).weights = (findLocalTerm C obs M').weights := by
  refine ⟨?_, by rw [local_weights, local_weights, h.weight]⟩
  unfold findLocalTerm
  funext i
  exact h.resp _

theorem local_mirror {τ : ℝ} (h : TurnData τ M M') {nTheta nTheta' : ℕ} (hM : Split.Spec.WellFormed M nTheta)
    (hM' : Split.Spec.WellFormed M' nTheta') {theta beta theta' beta' : List ℝ}
    (hs : TurnPredictor τ s M M' theta beta theta' beta') {C : List (Fin q)} (hC : C.Nodup)
    {obs : List (Fin n)} (ho : ∀ j ∈ obs, ∀ r ∈ Split.Spec.Active M j, r ∈ C) (v : Fin C.length → ℝ) :
    GLMM.Spec.eta (findLocalTerm C obs M) theta beta v =
      fun i => τ * GLMM.Spec.eta (findLocalTerm C obs M') theta' beta'
        (fv (sgnOf (sz s) (C.map fun i : Fin q => ((i : ℕ) : ℤ))) v) i := by
  obtain ⟨u, rfl⟩ := extend hC v
  have hv : fv (sgnOf (sz s) (C.map fun i : Fin q => ((i : ℕ) : ℤ))) (fun r => u (C.get r)) =
      fun r => (fun r => s r * u r) (C.get r) := by
    funext r
    have hr : (r : ℕ) < (C.map fun i : Fin q => ((i : ℕ) : ℤ)).length := by
      rw [List.length_map]; exact r.2
    show sgnOf (sz s) _ r * _ = _
    rw [sgnOf, List.getD_eq_getElem _ _ hr, List.getElem_map, sz_fin]
    rfl
  rw [hv]
  funext i
  rw [local_eta hM hC i (ho _ (List.get_mem _ _)), hs]
  exact congrArg (τ * ·) (local_eta (u := fun r => s r * u r) hM' hC i
    (by rw [← h.active]; exact ho _ (List.get_mem _ _)) _ _).symm

/-- Parameters of the two model frames, of the right lengths, whose linear predictors differ by the
signs of the random effects and the factor `τ` and that agree otherwise. -/
structure SMatch (τ : ℝ) (s : Fin q → ℝ) (M : ModFr q n p) (M' : ModFr q n p') (nTheta nTheta' : ℕ)
    (pars pars' : Parameters) : Prop where
  rules : SameRules pars pars'
  turns : Turns τ pars'.family
  theta : pars.theta.length = nTheta
  theta' : pars'.theta.length = nTheta'
  beta : pars.beta.length = p
  beta' : pars'.beta.length = p'
  mirror : TurnPredictor τ s M M' pars.theta pars.beta pars'.theta pars'.beta

/-- The relation of the beliefs for all matching parameters. -/
def BelAll (τ : ℝ) (s : Fin q → ℝ) (M : ModFr q n p) (M' : ModFr q n p') (nTheta nTheta' : ℕ) (lib : SR.Lib)
    (b b' : Mixed SR.Factor NB) : Prop :=
  ∀ pars pars', SMatch τ s M M' nTheta nTheta' pars pars' →
    Bel (sz s) (SR.Factor.ops lib pars) (SR.Factor.ops lib pars') b b'

theorem mapM_map {α β : Type} {P : β → β → Prop} {δ δ' : Type} {f : δ → Res β} {f' : δ' → Res β}
    {u : α → δ} {u' : α → δ'} : ∀ (l : List α),
    (∀ a ∈ l, ∃ b b', f (u a) = Except.ok b ∧ f' (u' a) = Except.ok b' ∧ P b b') →
    ∃ bs bs', (l.map u).mapM f = Except.ok bs ∧ (l.map u').mapM f' = Except.ok bs' ∧
      List.Forall₂ P bs bs'
  | [], _ => ⟨[], [], rfl, rfl, .nil⟩
  | a :: l, h => by
    obtain ⟨b, b', h1, h2, h3⟩ := h a (by simp)
    obtain ⟨bs, bs', g1, g2, g3⟩ := mapM_map (P := P) (f := f) (f' := f') (u := u) (u' := u') l
      fun a ha => h a (by simp [ha])
    refine ⟨b :: bs, b' :: bs', ?_, ?_, .cons h3 g3⟩
    · rw [List.map_cons, List.mapM_cons, h1, g1]; rfl
    · rw [List.map_cons, List.mapM_cons, h2, g2]; rfl

theorem mapM_append' {α β : Type} {f : α → Res β} : ∀ {l l' : List α} {r r' : List β},
    l.mapM f = Except.ok r → l'.mapM f = Except.ok r' → (l ++ l').mapM f = Except.ok (r ++ r') := by
  intro l l' r r' h h'
  rw [List.mapM_append, h, h']
  rfl

/-- Both lists of beliefs are made, and they differ by the signs of the random effects. -/
theorem beliefs_sign {τ : ℝ} (hτ : τ * τ = 1) (hsg : Signs s) (h : TurnData τ M M') (hc : Split.Spec.Covered M)
    {nTheta nTheta' : ℕ} (hM : Split.Spec.WellFormed M nTheta)
    (hM' : Split.Spec.WellFormed M' nTheta') {lib : SR.Lib} (hrd : SR.Reads lib.rd M)
    (hrd' : SR.Reads lib.rd M') :
    ∃ bs bs', Lfun.factorizationTerms lib M = Except.ok bs ∧
      Lfun.factorizationTerms lib M' = Except.ok bs' ∧
      List.Forall₂ (fun b b' => (∀ x ∈ b.items, 0 ≤ x ∧ x < (q : ℤ)) ∧
        BelAll τ s M M' nTheta nTheta' lib b b') bs bs' := by
  obtain ⟨ext, e1, e2, hcon, hext⟩ := terms_both h.active hc
  have hz := sz_sign hsg
  unfold Lfun.factorizationTerms
  rw [e1, e2]
  simp only [res_ok_bind]
  obtain ⟨bs, bs', g1, g2, g3⟩ := mapM_map (f := SR.beliefOf lib Parameters.empty)
    (f' := SR.beliefOf lib Parameters.empty) (P := fun b b' => (∀ x ∈ b.items, 0 ≤ x ∧ x < (q : ℤ)) ∧
      BelAll τ s M M' nTheta nTheta' lib b b')
    (u := fun e : List (Fin q) × List (Fin n) =>
      Term.glmm e.1 e.2.length (findLocalTerm e.1 e.2 M))
    (u' := fun e : List (Fin q) × List (Fin n) =>
      Term.glmm e.1 e.2.length (findLocalTerm e.1 e.2 M')) ext (by
    intro e he
    obtain ⟨hC, hnd⟩ := hext e he
    obtain ⟨b, eb⟩ := SR.local_create hrd hM hC e.2
    obtain ⟨b', eb'⟩ := SR.local_create hrd' hM' hC e.2
    have hn : (findLocalTerm e.1 e.2 M).entries.Nodup := subLambdat_nodup M e.1
    have hn' : (findLocalTerm e.1 e.2 M').entries.Nodup := subLambdat_nodup M' e.1
    have hr := Reachable.create hrd.inside eb
    have hr' := Reachable.create hrd'.inside eb'
    refine ⟨_, _, by rw [SR.beliefOf, SR.factorOf, eb]; rfl, by
      rw [SR.beliefOf, SR.factorOf, eb']; rfl, fun x hx => ?_, fun pars pars' hm => ?_⟩
    · obtain ⟨i, -, rfl⟩ := List.mem_map.1 hx
      exact ⟨by omega, by exact_mod_cast i.2⟩
    have hfit : GLMM.Spec.Fit (findLocalTerm e.1 e.2 M) pars.theta pars.beta :=
      local_fit (by rw [hm.theta]; exact hM) hm.beta e.1 e.2
    have hfit' : GLMM.Spec.Fit (findLocalTerm e.1 e.2 M') pars'.theta pars'.beta :=
      local_fit (by rw [hm.theta']; exact hM') hm.beta' e.1 e.2
    obtain ⟨d1, d2⟩ := local_turn h e.1 e.2
    have hg := glmm_rel (s := sz s) hτ lib hm.rules.family hm.turns hn hn' hfit hfit' d1 d2
      (e.1.map fun i : Fin q => ((i : ℕ) : ℤ)) hz
      (local_mirror h hM hM' hm.mirror hnd (hcon e he)) (hr.inv hn) (hr'.inv hn')
    have hN : (e.1.map fun i : Fin q => ((i : ℕ) : ℤ)).Nodup :=
      hnd.map fun a b hab => Fin.ext (by exact_mod_cast hab)
    have := ofFactor_bel hz hg hN
    rw [Lfun.ofFactor_congr (Lfun.factor_items lib Parameters.empty pars)]
    rw [Lfun.ofFactor_congr (Lfun.factor_items lib Parameters.empty pars')]
    exact this)
  obtain ⟨cs, cs', k1, k2, k3⟩ := mapM_map (f := SR.beliefOf lib Parameters.empty)
    (f' := SR.beliefOf lib Parameters.empty) (P := fun b b' => (∀ x ∈ b.items, 0 ≤ x ∧ x < (q : ℤ)) ∧
      BelAll τ s M M' nTheta nTheta' lib b b')
    (u := fun i : Fin q => Term.normal (p := p) i 0 1)
    (u' := fun i : Fin q => Term.normal (p := p') i 0 1) (List.finRange q) (by
    intro i _
    refine ⟨_, _, rfl, rfl, fun x hx => ?_, fun pars pars' hm => ?_⟩
    · rw [List.mem_singleton.mp hx]
      exact ⟨by omega, by exact_mod_cast i.2⟩
    have := ofFactor_bel hz (normal_rel hz lib pars pars' (standard_flip hz ((i : ℕ) : ℤ) 0 1))
      (List.nodup_singleton _)
    rw [Lfun.ofFactor_congr (Lfun.factor_items lib pars' pars)] at this
    rw [Lfun.ofFactor_congr (Lfun.factor_items lib Parameters.empty pars)]
    exact this)
  exact ⟨bs ++ cs, bs' ++ cs', mapM_append' g1 k1, mapM_append' g2 k2, forall₂_append g3 k3⟩

end Verif.Sign
