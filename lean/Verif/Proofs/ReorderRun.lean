import Verif.Proofs.ReorderGraph
import Verif.Proofs.SRFactors

/-!
# The computation on the same factors in another order
-/
namespace Verif.Reorder

open Verif.Gauss Verif.Items Verif.Belief Verif.Param Verif.ClusterGraph Verif.DepGraph

variable {γ : Type} {fo : FactorOps γ} {st : Store γ NB}

theorem forall₂_map_both {α α' β β' : Type} {P : α → α' → Prop} {Q : β → β' → Prop} {f : α → β}
    {g : α' → β'} (h : ∀ a b, P a b → Q (f a) (g b)) {l : List α} {l' : List α'}
    (hl : List.Forall₂ P l l') : List.Forall₂ Q (l.map f) (l'.map g) := by
  induction hl with
  | nil => exact .nil
  | cons h1 _ ih => exact .cons (h _ _ h1) ih

theorem forall₂_and_mem {α α' : Type} {P : α → α' → Prop} {A : α → Prop} {A' : α' → Prop}
    {l : List α} {l' : List α'} (hl : List.Forall₂ P l l') (hA : ∀ a ∈ l, A a)
    (hA' : ∀ a ∈ l', A' a) : List.Forall₂ (fun a b => P a b ∧ A a ∧ A' b) l l' := by
  induction hl with
  | nil => exact .nil
  | cons h1 _ ih =>
    exact .cons ⟨h1, hA _ (by simp), hA' _ (by simp)⟩ (ih (fun a ha => hA a (by simp [ha]))
      fun a ha => hA' a (by simp [ha]))

/-- Edges before the normal approximation: no factors. -/
structure SepB (fo : FactorOps γ) (m m' : Mixed γ NB) : Prop where
  items : m.items.Perm m'.items
  factors : fz m = []
  factors' : fz m' = []
  free : m.isNormalFixed = false
  free' : m'.isNormalFixed = false
  wf : Wf fo m
  wf' : Wf fo m'

/-- The graphs made by the constructor. -/
structure CRel (fo : FactorOps γ) (st : Store γ NB) (c c' : CG (Mixed γ NB)) : Prop where
  clusters : List.Forall₂ (PopRel fo) c.clusters c'.clusters
  edges : List.Forall₂ (EdgeRel (SepB fo)) c.edges c'.edges
  inv : MsgInv (gops fo st) (Wf fo) c
  inv' : MsgInv (gops fo st) (Wf fo) c'
  strict : Strict c

/-- Beliefs the construction starts from. -/
def Start (fo : FactorOps γ) (bs : List (Mixed γ NB)) : Prop :=
  ∀ b ∈ bs, Wf fo b ∧ ∀ p ∈ fz b, Tot fo p.1

theorem built_strict {fs : List (List ℤ)} {c : CG (Mixed γ NB)} (h : Built (gops fo st) fs c) :
    Strict c := by
  intro e he
  obtain ⟨k, hk, rfl⟩ := List.mem_iff_getElem.mp he
  have hkc : k < c.clusters.length := by have := h.len; omega
  obtain ⟨v, h1, h2, -⟩ := h.elim k hk
  refine ⟨k, hkc, (h.edge k hk).1, v, ?_, ?_⟩
  · have := (h2 v).mpr (Or.inl rfl)
    rw [cl, List.getElem?_eq_getElem hkc] at this
    exact this
  · rw [sp, List.getElem?_eq_getElem hk] at h1
    exact h1

theorem ofBeliefs_same (hst : StoreLaw fo (Nd fo) st) {bs bs' : List (Mixed γ NB)}
    (hp : bs.Perm bs') (hb : Start fo bs) {ar : Arith} {B : ℤ} (hf : Fits ar B) (hB1 : 1 ≤ B)
    (hb1 : (((depA (bs.map Mixed.items)).active.card : ℕ) : ℤ) *
      ((depA (bs.map Mixed.items)).active.card - 1) ≤ B)
    (hb2 : (((depA (bs.map Mixed.items)).active.card : ℕ) : ℤ) ≤ B) :
    ∃ c c', ofBeliefs ar (gops fo st) bs = Except.ok c ∧
      ofBeliefs ar (gops fo st) bs' = Except.ok c' ∧ CRel fo st c c' ∧
      Built (gops fo st) (bs.map Mixed.items) c := by
  have hps : (bs.map Mixed.items).Perm (bs'.map Mixed.items) := hp.map _
  have hb' : ∀ b ∈ bs', Wf fo b ∧ ∀ p ∈ fz b, Tot fo p.1 := fun b h => hb b (hp.mem_iff.mpr h)
  have hn : ∀ f ∈ bs.map Mixed.items, f.Nodup := fun f hfm => by
    obtain ⟨b, hbm, rfl⟩ := List.mem_map.mp hfm
    exact (hb b hbm).1.nodup
  have hA := depA_perm hps hn
  obtain ⟨c, e, hB, inv, -⟩ := ofBeliefs_ok (laws hst) bs (fun b h => (hb b h).1) hf hB1 hb1 hb2
  obtain ⟨c', e', hB', inv', -⟩ := ofBeliefs_ok (laws hst) bs' (fun b h => (hb' b h).1) hf hB1
    (by rw [hA] at hb1; exact hb1) (by rw [hA] at hb2; exact hb2)
  have hs := structure_same (ops := gops fo st) (laws hst).items_ofItems ar hps hn
  have e2 : (makeDependenceGraph (bs.map Mixed.items) >>= initStructure ar (gops fo st)) >>=
      (fun c => populate (gops fo st) c bs) = Except.ok c := by
    rw [bind_assoc]; exact e
  have e2' : (makeDependenceGraph (bs'.map Mixed.items) >>= initStructure ar (gops fo st)) >>=
      (fun c => populate (gops fo st) c bs') = Except.ok c' := by
    rw [bind_assoc]; exact e'
  obtain ⟨c0, h0, h1⟩ := bind_inv e2
  obtain ⟨c0', h0', h1'⟩ := bind_inv e2'
  rw [h0, h0'] at hs
  obtain ⟨g, -, hg⟩ := bind_inv h0
  have hform := init_form hg
  obtain ⟨hs1, hs2⟩ : StructRel (gops fo st) c0 c0' := by
    cases hs with
    | ok hs => exact hs
  rw [populate] at h1 h1'
  obtain ⟨cl1, p1, q1⟩ := bind_inv h1
  obtain ⟨cl1', p1', q1'⟩ := bind_inv h1'
  cases Except.ok.inj q1
  cases Except.ok.inj q1'
  refine ⟨_, _, e, e', ⟨?_, ?_, inv, inv', built_strict hB⟩, hB⟩
  · obtain ⟨g0, c00, eg, ec, hB0⟩ := init_ok (laws hst).items_ofItems (bs.map Mixed.items) hn hf
      hB1 hb1 hb2
    have hc00 : c00 = c0 := by
      have : (makeDependenceGraph (bs.map Mixed.items) >>= initStructure ar (gops fo st)) =
          Except.ok c00 := by
        rw [eg]; exact ec
      rw [h0] at this
      exact (Except.ok.inj this).symm
    subst hc00
    obtain ⟨rs, rs', r1, r2, r3⟩ := populateClusters_same (st := st) c00.clusters hp
      (fun b hbm => by
        obtain ⟨l, hl⟩ := hform.1 b hbm
        obtain ⟨k, hk⟩ := List.mem_iff_getElem?.mp hbm
        have h3 := hB0.ndC k
        have hnd : l.Nodup := by simpa [cl, hk, hl, (laws hst).items_ofItems l] using h3
        rw [hl]
        exact ⟨(laws hst).ofItems_wf l hnd, rfl, rfl⟩) hb
    rw [r1] at p1
    rw [← hs1, r2] at p1'
    cases Except.ok.inj p1
    cases Except.ok.inj p1'
    exact r3
  · refine List.Forall₂.imp ?_ (forall₂_and_mem hs2 inv.wfE inv'.wfE)
    rintro a b ⟨⟨h3, h4, l, l', hl, h5, h6⟩, w, w'⟩
    refine ⟨h3, h4, ⟨?_, ?_, ?_, ?_, ?_, w, w'⟩⟩
    · rw [h5, h6]; exact hl
    · rw [h5]; rfl
    · rw [h6]; rfl
    · rw [h5]; rfl
    · rw [h6]; rfl

theorem free_set {m : Mixed γ NB} (h : m.isNormalFixed = false) (n : NB) :
    m.setNormalApprox n = ⟨m.items, m.beliefs, m.relativeItems, m.isInverted, n, false⟩ := by
  rw [Mixed.setNormalApprox, if_neg (by simp [h]), ← h]

theorem MsgInv.map {c : CG (Mixed γ NB)} (inv : MsgInv (gops fo st) (Wf fo) c)
    {f g : Mixed γ NB → Mixed γ NB} (hf : ∀ m, (f m).items = m.items)
    (hg : ∀ m, (g m).items = m.items) (wf : ∀ m ∈ c.clusters, Wf fo (f m))
    (wg : ∀ e ∈ c.edges, Wf fo (g e.belief)) :
    MsgInv (gops fo st) (Wf fo) ⟨c.clusters.map f,
      c.edges.map fun e => ⟨e.first, e.second, g e.belief⟩⟩ := by
  refine ⟨?_, ?_, ?_⟩
  · intro b hb
    obtain ⟨b', hb', rfl⟩ := List.mem_map.mp hb
    exact wf b' hb'
  · intro e he
    obtain ⟨e', he', rfl⟩ := List.mem_map.mp he
    exact wg e' he'
  · intro e he
    obtain ⟨e', he', rfl⟩ := List.mem_map.mp he
    obtain ⟨i, j, hi, hj, h1, h2, h3, h4⟩ := inv.ends e' he'
    refine ⟨i, j, by simpa using hi, by simpa using hj, h1, h2, ?_, ?_⟩
    · intro x hx
      have := h3 x (by have hx : x ∈ (g e'.belief).items := hx; rw [hg] at hx; exact hx)
      simp only [List.getElem_map]
      show x ∈ (f c.clusters[i]).items
      rw [hf]; exact this
    · intro x hx
      have := h4 x (by have hx : x ∈ (g e'.belief).items := hx; rw [hg] at hx; exact hx)
      simp only [List.getElem_map]
      show x ∈ (f c.clusters[j]).items
      rw [hf]; exact this

theorem Strict.map {c : CG (Mixed γ NB)} (h : Strict c) {f g : Mixed γ NB → Mixed γ NB}
    (hf : ∀ m, (f m).items = m.items) (hg : ∀ m, (g m).items = m.items) :
    Strict ⟨c.clusters.map f, c.edges.map fun e => ⟨e.first, e.second, g e.belief⟩⟩ := by
  intro e he
  obtain ⟨e', he', rfl⟩ := List.mem_map.mp he
  obtain ⟨i, hi, h1, v, h2, h3⟩ := h e' he'
  refine ⟨i, by simpa using hi, h1, v, ?_, ?_⟩
  · simp only [List.getElem_map]
    rw [hf]; exact h2
  · show v ∉ (g e'.belief).items
    rw [hg]; exact h3

theorem set_items (m : Mixed γ NB) (n : NB) : (m.setNormalApprox n).items = m.items := by
  rw [Mixed.setNormalApprox]
  split <;> rfl

theorem set_wf {N : ℕ} (mean : Fin N → ℝ) (Q : Matrix (Fin N) (Fin N) ℝ) {m : Mixed γ NB}
    (h : Wf fo m) : Wf fo (m.setNormalApprox (restr mean Q m.items)) :=
  wf_setNormal h ⟨h.nodup, Or.inl rfl⟩ rfl

/-- The normal approximations given to the two graphs. -/
theorem initNormal_same {N : ℕ} (mean : Fin N → ℝ) (Q : Matrix (Fin N) (Fin N) ℝ)
    {c c' : CG (Mixed γ NB)} (h : CRel fo st c c')
    (hr : ∀ b ∈ c.clusters, ∀ x ∈ b.items, 0 ≤ x ∧ x < N) :
    ∃ d d', initNormal mean Q c = Except.ok d ∧ initNormal mean Q c' = Except.ok d' ∧
      GRel fo st d d' := by
  have hr' : ∀ b ∈ c'.clusters, ∀ x ∈ b.items, 0 ≤ x ∧ x < N := by
    intro b hb
    obtain ⟨k, hk, rfl⟩ := List.mem_iff_getElem.mp hb
    have hk' : k < c.clusters.length := by rwa [h.clusters.length_eq]
    rw [← (forall₂_at h.clusters hk' hk).items]
    exact hr _ (List.getElem_mem hk')
  have hE : ∀ {c : CG (Mixed γ NB)}, MsgInv (gops fo st) (Wf fo) c →
      (∀ b ∈ c.clusters, ∀ x ∈ b.items, 0 ≤ x ∧ x < N) →
      ∀ e ∈ c.edges, ∀ x ∈ e.belief.items, 0 ≤ x ∧ x < N := by
    intro c inv hc e he x hx
    obtain ⟨i, j, hi, hj, h1, h2, h3, h4⟩ := inv.ends e he
    exact hc _ (List.getElem_mem hi) x (h3 x hx)
  have iF : ∀ m : Mixed γ NB, (m.setNormalApprox (restr mean Q m.items)).items = m.items :=
    fun m => set_items m _
  refine ⟨_, _, initNormal_ok hr (hE h.inv hr), initNormal_ok hr' (hE h.inv' hr'), ⟨?_, ?_,
    MsgInv.map h.inv iF iF (fun m hm => set_wf mean Q (h.inv.wfC m hm))
      (fun e he => set_wf mean Q (h.inv.wfE e he)),
    MsgInv.map h.inv' iF iF (fun m hm => set_wf mean Q (h.inv'.wfC m hm))
      (fun e he => set_wf mean Q (h.inv'.wfE e he)), Strict.map h.strict iF iF⟩⟩
  · refine forall₂_map_both ?_ h.clusters
    intro a b hab
    refine ⟨by rw [set_items, set_items]; exact hab.items, ?_, ?_, ?_, set_wf mean Q hab.wf,
      set_wf mean Q hab.wf'⟩
    · rw [free_set hab.free, free_set hab.free']
      exact ⟨fz a, fz b, [], by simp [fz], by simp [fz], hab.factors, hab.total⟩
    · rw [free_set hab.free, free_set hab.free', hab.items]
    · rw [free_set hab.free, free_set hab.free']
  · refine forall₂_map_both ?_ h.edges
    rintro a b ⟨h1, h2, hab⟩
    refine ⟨h1, h2, ⟨by rw [set_items, set_items]; exact hab.items, ?_, ?_, set_wf mean Q hab.wf,
      set_wf mean Q hab.wf'⟩⟩
    · rw [free_set hab.free, free_set hab.free']
      exact hab.factors.trans hab.factors'.symm
    · rw [free_set hab.free, free_set hab.free']
      exact restr_same mean Q hab.items hab.wf.nodup

theorem fix_same {c c' : CG (Mixed γ NB)} (h : GRel fo st c c') :
    GRel fo st ⟨c.clusters.map Mixed.fixNormalApprox, c.edges.map fun e =>
        { first := e.first, second := e.second, belief := e.belief.fixNormalApprox }⟩
      ⟨c'.clusters.map Mixed.fixNormalApprox, c'.edges.map fun e =>
        { first := e.first, second := e.second, belief := e.belief.fixNormalApprox }⟩ := by
  have iF : ∀ m : Mixed γ NB, m.fixNormalApprox.items = m.items := fun _ => rfl
  refine ⟨forall₂_map_both ?_ h.clusters, forall₂_map_both ?_ h.edges,
    MsgInv.map h.inv iF iF (fun m hm => wf_fix (h.inv.wfC m hm))
      (fun e he => wf_fix (h.inv.wfE e he)),
    MsgInv.map h.inv' iF iF (fun m hm => wf_fix (h.inv'.wfC m hm))
      (fun e he => wf_fix (h.inv'.wfE e he)), Strict.map h.strict iF iF⟩
  · intro a b hab
    exact ⟨hab.items, hab.factors, hab.normal, rfl, wf_fix hab.wf, wf_fix hab.wf'⟩
  · rintro a b ⟨h1, h2, hab⟩
    exact ⟨h1, h2, ⟨hab.items, hab.factors, hab.normal, wf_fix hab.wf, wf_fix hab.wf'⟩⟩

/-- The log normalizing constant from two graphs made of the same beliefs in another order. -/
theorem value_same (hst : StoreLaw fo (Nd fo) st) (hx : StoreExt st) {N : ℕ} (mean : Fin N → ℝ)
    (Q : Matrix (Fin N) (Fin N) ℝ) {c c' : CG (Mixed γ NB)} (h : CRel fo st c c')
    (hr : ∀ b ∈ c.clusters, ∀ x ∈ b.items, 0 ≤ x ∧ x < N) :
    (do let c1 ← setNormalApprox fo st mean Q c
        let c2 ← calibrateForward (gops fo st) c1
        logNormalizingConstant (gops fo st) c2) =
    (do let c1 ← setNormalApprox fo st mean Q c'
        let c2 ← calibrateForward (gops fo st) c1
        logNormalizingConstant (gops fo st) c2) := by
  refine RelRes.eq ?_
  have hset : RelRes (GRel fo st) (setNormalApprox fo st mean Q c)
      (setNormalApprox fo st mean Q c') := by
    obtain ⟨d, d', e, e', hd⟩ := initNormal_same mean Q h hr
    unfold setNormalApprox
    rw [e, e']
    simp only [res_ok_bind]
    exact (calibrate_same hst hx hd (Or.inl rfl)).bind fun a a' ha =>
      (calibrate_same hst hx ha (Or.inl rfl)).bind fun b b' hb => .ok (fix_same hb)
  refine hset.bind fun a a' ha => ?_
  refine (calibrate_same hst hx ha (Or.inr rfl)).bind fun b b' hb => ?_
  rw [logNormalizingConstant_same hx hb]
  exact RelRes.rfl' (fun _ => rfl) _

theorem sr_storeExt (lib : SR.Lib) (pars : Pars.Parameters) : StoreExt (SR.store lib pars) := by
  intro k f f' d d' h h' n l hfd
  unfold SR.store
  split
  · rename_i e
    unfold SR.storeWith
    have hl : ∀ x : Fin (l.length + 1) → ℝ, (List.ofFn x).length = n.items.length := by
      intro x; rw [List.length_ofFn, e]
    have h1 : (fun x : Fin (l.length + 1) → ℝ => f (List.ofFn x)) = fun x => f' (List.ofFn x) :=
      funext fun x => (hfd _ (hl x)).1
    have h2 : (fun x : Fin (l.length + 1) → ℝ => d (List.ofFn x)) = fun x => d' (List.ofFn x) :=
      funext fun x => (hfd _ (hl x)).2.1
    have h3 : (fun x : Fin (l.length + 1) → ℝ => h (List.ofFn x)) = fun x => h' (List.ofFn x) :=
      funext fun x => (hfd _ (hl x)).2.2
    have h2' : (fun x : Fin (l.length + 1) → ℝ => d (List.ofFn x) >>= fun r => NB.vec (l.length + 1) r)
        = fun x => d' (List.ofFn x) >>= fun r => NB.vec (l.length + 1) r :=
      funext fun x => by rw [congrFun h2 x]
    have h3' : (fun x : Fin (l.length + 1) → ℝ => h (List.ofFn x) >>= fun r => SR.mat (l.length + 1) r)
        = fun x => h' (List.ofFn x) >>= fun r => SR.mat (l.length + 1) r :=
      funext fun x => by rw [congrFun h3 x]
    dsimp only
    rw [h1, h2', h3']
  · rfl

end Verif.Reorder
