import Verif.Proofs.ReorderInit
import Verif.Proofs.ReorderBelief

/-!
# Two runs of the cluster graph on the same factors in another order
-/
namespace Verif.Reorder

open Verif.Gauss Verif.Items Verif.Belief Verif.Param Verif.ClusterGraph Verif.DepGraph

variable {γ : Type} {fo : FactorOps γ} {st : Store γ NB}

/-- The operations of the cluster graph. -/
noncomputable abbrev gops (fo : FactorOps γ) (st : Store γ NB) : Ops (Mixed γ NB) :=
  Mixed.ops fo NB.ops st

theorem laws (hst : StoreLaw fo (Nd fo) st) :
    Laws (gops fo st) (Wf fo) (value fo fun _ _ => 0) :=
  mixed_laws_nd _ (fun _ h => h) nb_laws hst

theorem RelRes.and {α β : Type} {P : α → β → Prop} {r : Res α} {r' : Res β} {Q : α → Prop}
    {Q' : β → Prop} (h : RelRes P r r') (hq : ∀ a, r = Except.ok a → Q a)
    (hq' : ∀ b, r' = Except.ok b → Q' b) : RelRes (fun a b => P a b ∧ Q a ∧ Q' b) r r' := by
  cases h with
  | ok h => exact .ok ⟨h, hq _ rfl, hq' _ rfl⟩
  | err e => exact .err e

theorem RelRes.imp {α β : Type} {P P' : α → β → Prop} {r : Res α} {r' : Res β}
    (h : RelRes P r r') (hi : ∀ a b, P a b → P' a b) : RelRes P' r r' := by
  cases h with
  | ok h => exact .ok (hi _ _ h)
  | err e => exact .err e

/-! ## Populating -/

theorem mulAll_fz : ∀ (ds : List (Mixed γ NB)) {b : Mixed γ NB}, Wf fo b →
    (∀ d ∈ ds, Wf fo d ∧ ∀ x ∈ d.items, x ∈ b.items) →
    ∃ r, mulAll (gops fo st) b ds = Except.ok r ∧ Wf fo r ∧ r.items = b.items ∧
      r.isNormalFixed = b.isNormalFixed ∧ fz r = fz b ++ ds.flatMap fz
  | [], b, hb, _ => ⟨b, rfl, hb, rfl, rfl, by simp⟩
  | d :: ds, b, hb, h => by
    obtain ⟨hd, hs⟩ := h d (by simp)
    obtain ⟨r1, e1, w1, i1, f1, -⟩ := mul_ok (F := fun _ _ => 0) nb_laws hb hd hs
    obtain ⟨r, e, w, i, f, z⟩ := mulAll_fz ds w1 fun d' hd' => by
      rw [i1]
      exact h d' (by simp [hd'])
    refine ⟨r, ?_, w, i.trans i1, f.trans f1, ?_⟩
    · rw [mulAll, List.foldlM_cons]
      change (Mixed.mul fo NB.ops b d >>= _) = _
      rw [e1]
      exact e
    · rw [z, mul_fz hb hd e1, List.flatMap_cons, List.append_assoc]

/-- Clusters after populating: total factors in another order. -/
structure PopRel (fo : FactorOps γ) (m m' : Mixed γ NB) : Prop where
  items : m.items = m'.items
  factors : (fz m).Perm (fz m')
  total : ∀ p ∈ fz m, Tot fo p.1
  free : m.isNormalFixed = false
  free' : m'.isNormalFixed = false
  wf : Wf fo m
  wf' : Wf fo m'

theorem flatMap_perm {α δ : Type} (f : α → List δ) {l l' : List α} (h : l.Perm l') :
    (l.flatMap f).Perm (l'.flatMap f) := h.flatMap_right f

theorem populateClusters_same : ∀ (cs : List (Mixed γ NB)) {bs bs' : List (Mixed γ NB)},
    bs.Perm bs' → (∀ c ∈ cs, Wf fo c ∧ c.isNormalFixed = false ∧ fz c = []) →
    (∀ b ∈ bs, Wf fo b ∧ ∀ p ∈ fz b, Tot fo p.1) →
    ∃ rs rs', populateClusters (gops fo st) cs bs = Except.ok rs ∧
      populateClusters (gops fo st) cs bs' = Except.ok rs' ∧ List.Forall₂ (PopRel fo) rs rs'
  | [], _, _, _, _, _ => ⟨[], [], rfl, rfl, .nil⟩
  | c :: cs, bs, bs', hp, hc, hb => by
    obtain ⟨hcw, hcf, hcz⟩ := hc c (by simp)
    set P : Mixed γ NB → Bool := fun b => isSubset b.items c.items with hP
    have hsub : ∀ b ∈ bs.filter P, Wf fo b ∧ ∀ x ∈ b.items, x ∈ c.items := fun b hbm => by
      rw [List.mem_filter] at hbm
      have hw := (hb b hbm.1).1
      exact ⟨hw, (isSubset_iff hw.nodup hcw.nodup).mp hbm.2⟩
    have hpf := hp.filter P
    obtain ⟨r, e, w, i, f, z⟩ := mulAll_fz (st := st) (bs.filter P) hcw hsub
    obtain ⟨r', e', w', i', f', z'⟩ := mulAll_fz (st := st) (bs'.filter P) hcw fun b hbm =>
      hsub b (hpf.mem_iff.mpr hbm)
    obtain ⟨rs, rs', h1, h2, h3⟩ := populateClusters_same cs (hp.filter fun b => !P b)
      (fun c' hc' => hc c' (by simp [hc'])) fun b hbm => hb b (List.mem_of_mem_filter hbm)
    have hz := flatMap_perm fz hpf
    refine ⟨r :: rs, r' :: rs', ?_, ?_, .cons ⟨i.trans i'.symm, ?_, ?_, f.trans hcf, f'.trans hcf,
      w, w'⟩ h3⟩
    · rw [populateClusters]
      dsimp only
      change (mulAll (gops fo st) c (bs.filter P) >>= _) = _
      rw [e]
      simp only [res_ok_bind]
      change (populateClusters (gops fo st) cs (bs.filter fun b => !P b) >>= _) = _
      rw [h1]
      rfl
    · rw [populateClusters]
      dsimp only
      change (mulAll (gops fo st) c (bs'.filter P) >>= _) = _
      rw [e']
      simp only [res_ok_bind]
      change (populateClusters (gops fo st) cs (bs'.filter fun b => !P b) >>= _) = _
      rw [h2]
      rfl
    · rw [z, z', hcz, List.nil_append, List.nil_append]
      exact hz
    · rw [z, hcz, List.nil_append]
      intro p hpm
      obtain ⟨b, hbm, hpb⟩ := List.mem_flatMap.mp hpm
      exact (hb b (List.mem_of_mem_filter hbm)).2 p hpb

/-! ## Messages -/

/-- Every edge leaves at least one item of its first cluster out. -/
def Strict (c : CG (Mixed γ NB)) : Prop :=
  ∀ e ∈ c.edges, ∃ (i : ℕ) (hi : i < c.clusters.length), e.first = i ∧
    ∃ v ∈ c.clusters[i].items, v ∉ e.belief.items

/-- Two cluster graphs in the course of the computation. -/
structure GRel (fo : FactorOps γ) (st : Store γ NB) (c c' : CG (Mixed γ NB)) : Prop where
  clusters : List.Forall₂ (ClRel fo) c.clusters c'.clusters
  edges : List.Forall₂ (EdgeRel (EdRel fo)) c.edges c'.edges
  inv : MsgInv (gops fo st) (Wf fo) c
  inv' : MsgInv (gops fo st) (Wf fo) c'
  strict : Strict c

theorem bind_inv {α δ : Type} {x : Res α} {f : α → Res δ} {r : δ} (h : (x >>= f) = Except.ok r) :
    ∃ y, x = Except.ok y ∧ f y = Except.ok r := by
  rcases x with err | y
  · cases h
  · exact ⟨y, rfl, h⟩

theorem get_items {c c' : CG (Mixed γ NB)}
    (h : c'.clusters.map Mixed.items = c.clusters.map Mixed.items) {i : ℕ}
    (hi : i < c.clusters.length) (hi' : i < c'.clusters.length) :
    c'.clusters[i].items = c.clusters[i].items := by
  have h1 : (c'.clusters.map Mixed.items)[i]? = (c.clusters.map Mixed.items)[i]? := by rw [h]
  rw [List.getElem?_map, List.getElem?_map, List.getElem?_eq_getElem hi',
    List.getElem?_eq_getElem hi] at h1
  simpa using h1

theorem passMessage_strict (hst : StoreLaw fo (Nd fo) st) {c c' : CG (Mixed γ NB)} {k : ℕ}
    {fw na : Bool} (inv : MsgInv (gops fo st) (Wf fo) c) (hs : Strict c)
    (h : passMessage (gops fo st) c k fw na = Except.ok c') : Strict c' := by
  obtain ⟨-, -, hci, -, -⟩ := passMessage_joint (laws hst) inv h
  have hlen : c'.clusters.length = c.clusters.length := by
    simpa using congrArg List.length hci
  rw [passMessage] at h
  obtain ⟨e, he, h⟩ := bind_inv h
  obtain ⟨ci, hc1, h⟩ := bind_inv h
  obtain ⟨b, hm, h⟩ := bind_inv h
  obtain ⟨es, hes, h⟩ := bind_inv h
  obtain ⟨cj, -, h⟩ := bind_inv h
  obtain ⟨r1, -, h⟩ := bind_inv h
  obtain ⟨r2, -, h⟩ := bind_inv h
  obtain ⟨cl, -, h⟩ := bind_inv h
  obtain ⟨pr, -, h⟩ := bind_inv h
  have hk : k < c.edges.length := by
    by_contra hcon
    rw [nth, List.getElem?_eq_none (by omega)] at he
    cases he
  rw [nth_ok hk] at he
  cases Except.ok.inj he
  rw [setN_ok hk] at hes
  cases Except.ok.inj hes
  have hce : c'.edges = c.edges.set k { c.edges[k] with belief := b } := by
    cases pr with
    | false => cases h
    | true =>
      cases Except.ok.inj h
      rfl
  have hem : c.edges[k] ∈ c.edges := List.getElem_mem hk
  obtain ⟨i0, j0, hi0, hj0, hf, hsd, hsi, hsj⟩ := inv.ends _ hem
  have hbi : ∀ x, x ∈ b.items ↔ x ∈ (c.edges[k]).belief.items := by
    cases fw with
    | true =>
      have : ends c.edges[k] true = ((i0 : ℤ), (j0 : ℤ)) := by simp [ClusterGraph.ends, hf, hsd]
      rw [this] at hc1
      rw [atZ_ok hi0] at hc1
      cases Except.ok.inj hc1
      exact ((laws hst).margin_items _ _ _ _ (inv.wfC _ (List.getElem_mem hi0))
        (inv.wfE _ hem).nodup hsi hm).2
    | false =>
      have : ends c.edges[k] false = ((j0 : ℤ), (i0 : ℤ)) := by simp [ClusterGraph.ends, hf, hsd]
      rw [this] at hc1
      rw [atZ_ok hj0] at hc1
      cases Except.ok.inj hc1
      exact ((laws hst).margin_items _ _ _ _ (inv.wfC _ (List.getElem_mem hj0))
        (inv.wfE _ hem).nodup hsj hm).2
  intro e' he'
  rw [hce] at he'
  rcases mem_set_cases he' with rfl | he'
  · obtain ⟨i, hi, h1, v, h2, h3⟩ := hs _ hem
    refine ⟨i, by rw [hlen]; exact hi, h1, v, ?_, fun hv => h3 ((hbi v).mp hv)⟩
    rw [get_items hci hi (by rw [hlen]; exact hi)]
    exact h2
  · obtain ⟨i, hi, h1, v, h2, h3⟩ := hs _ he'
    refine ⟨i, by rw [hlen]; exact hi, h1, v, ?_, h3⟩
    rw [get_items hci hi (by rw [hlen]; exact hi)]
    exact h2

theorem forall₂_at {α δ : Type} {P : α → δ → Prop} {l : List α} {l' : List δ}
    (h : List.Forall₂ P l l') {k : ℕ} (hk : k < l.length) (hk' : k < l'.length) : P l[k] l'[k] := by
  rcases forall₂_get? h k with ⟨h1, -⟩ | ⟨a, b, h1, h2, h3⟩
  · rw [List.getElem?_eq_getElem hk] at h1
    cases h1
  · rw [List.getElem?_eq_getElem hk] at h1
    rw [List.getElem?_eq_getElem hk'] at h2
    cases h1
    cases h2
    exact h3

/-- One message in both runs. -/
theorem passMessage_same (hst : StoreLaw fo (Nd fo) st) (hx : StoreExt st)
    {c c' : CG (Mixed γ NB)} (hc : GRel fo st c c') (k : ℕ) {fw na : Bool}
    (hd : na = true ∨ fw = true) :
    RelRes (GRel fo st) (passMessage (gops fo st) c k fw na)
      (passMessage (gops fo st) c' k fw na) := by
  have key : RelRes (fun d d' => List.Forall₂ (ClRel fo) d.clusters d'.clusters ∧
      List.Forall₂ (EdgeRel (EdRel fo)) d.edges d'.edges) (passMessage (gops fo st) c k fw na)
      (passMessage (gops fo st) c' k fw na) := by
    unfold passMessage
    by_cases hk : k < c.edges.length
    swap
    · have hk' : ¬ k < c'.edges.length := by rwa [← hc.edges.length_eq]
      rw [nth, List.getElem?_eq_none (by omega), nth, List.getElem?_eq_none (by omega)]
      exact .err _
    have hk' : k < c'.edges.length := by rwa [← hc.edges.length_eq]
    rw [nth_ok hk, nth_ok hk']
    simp only [res_ok_bind]
    have hem : c.edges[k] ∈ c.edges := List.getElem_mem hk
    obtain ⟨he1, he2, he⟩ := forall₂_at hc.edges hk hk'
    generalize hee' : c'.edges[k] = e' at he1 he2 he ⊢
    generalize hee : c.edges[k] = e at hem he1 he2 he ⊢
    have hends : ends e fw = ends e' fw := by
      unfold ClusterGraph.ends
      rw [he1, he2]
    obtain ⟨i0, j0, hi0, hj0, hf, hsd, hsi, hsj⟩ := hc.inv.ends _ hem
    obtain ⟨i, j, hi, hj, hij, hci, hcj, hstr⟩ : ∃ (i j : ℕ) (hi : i < c.clusters.length)
        (hj : j < c.clusters.length), ends e fw = ((i : ℤ), (j : ℤ)) ∧
        (∀ x ∈ e.belief.items, x ∈ c.clusters[i].items) ∧
        (∀ x ∈ e.belief.items, x ∈ c.clusters[j].items) ∧
        (fw = true → ∃ v ∈ c.clusters[i].items, v ∉ e.belief.items) := by
      cases fw with
      | true =>
        refine ⟨i0, j0, hi0, hj0, by simp [ClusterGraph.ends, hf, hsd], hsi, hsj, fun _ => ?_⟩
        obtain ⟨i, hi, h1, h2⟩ := hc.strict _ hem
        rw [hf] at h1
        have : i0 = i := by exact_mod_cast h1
        subst this
        exact h2
      | false =>
        exact ⟨j0, i0, hj0, hi0, by simp [ClusterGraph.ends, hf, hsd], hsj, hsi, by simp⟩
    have hi' : i < c'.clusters.length := by rwa [← hc.clusters.length_eq]
    have hj' : j < c'.clusters.length := by rwa [← hc.clusters.length_eq]
    rw [← hends, hij]
    dsimp only
    rw [atZ_ok hi, atZ_ok hi']
    simp only [res_ok_bind]
    have hCi := forall₂_at hc.clusters hi hi'
    have hCj := forall₂_at hc.clusters hj hj'
    have hmargin : RelRes (fun b b' => EdRel fo b b' ∧ ∀ x ∈ b.items, x ∈ e.belief.items)
        ((gops fo st).margin c.clusters[i] ((gops fo st).items e.belief) na)
        ((gops fo st).margin c'.clusters[i] ((gops fo st).items e'.belief) na) := by
      cases na with
      | true =>
        exact RelRes.imp (marginN st hCi he.items he.wf.nodup hci) fun b b' h1 =>
          ⟨h1.1, fun x hxm => by rw [h1.2] at hxm; exact hxm⟩
      | false =>
        have hfw : fw = true := by simpa using hd
        have := marginF hx hCi he.items (hstr hfw)
        show RelRes _ (Mixed.margin fo NB.ops st c.clusters[i] e.belief.items false)
          (Mixed.margin fo NB.ops st c'.clusters[i] e'.belief.items false)
        rw [← this]
        cases hh : Mixed.margin fo NB.ops st c.clusters[i] e.belief.items false with
        | error err => exact .err _
        | ok b =>
          obtain ⟨w, hm⟩ := (laws hst).margin_items _ _ false b hCi.wf he.wf.nodup hci hh
          exact .ok ⟨.refl w, fun x hxm => (hm x).mp hxm⟩
    refine hmargin.bind fun b b' hb => ?_
    obtain ⟨hb, hbi⟩ := hb
    refine (rel_setN hc.edges k (a := { e with belief := b }) (b := { e' with belief := b' })
      ⟨he1, he2, hb⟩).bind fun es es' hes => ?_
    rw [atZ_ok hj, atZ_ok hj']
    simp only [res_ok_bind]
    have hmul := mulC hCj hb fun x hxm => hcj x (hbi x hxm)
    have hmul' : RelRes (fun r r' => ClRel fo r r' ∧ r.items = c.clusters[j].items ∧ True)
        (Mixed.mul fo NB.ops c.clusters[j] b) (Mixed.mul fo NB.ops c'.clusters[j] b') :=
      RelRes.and hmul (fun r hr => by
        obtain ⟨r', e1, -, i1, -⟩ := mul_ok (F := fun _ _ => 0) nb_laws hCj.wf hb.wf
          fun x hxm => hcj x (hbi x hxm)
        rw [e1] at hr
        cases Except.ok.inj hr
        exact i1) fun _ _ => trivial
    refine hmul'.bind fun r1 r1' hr1 => ?_
    refine (divC hr1.1 he fun x hxm => by rw [hr1.2.1]; exact hcj x hxm).bind fun r2 r2' hr2 => ?_
    refine (rel_setZ hc.clusters _ hr2).bind fun cl cl' hcl => ?_
    change RelRes _ (Mixed.isProper fo NB.ops r2 >>= _) (Mixed.isProper fo NB.ops r2' >>= _)
    rw [isProper_same hr2]
    refine (RelRes.rfl' (P := Eq) (fun _ => rfl) _).bind ?_
    rintro p _ rfl
    split
    · exact .ok ⟨hcl, hes⟩
    · exact .err _
  have h2 := RelRes.and key
    (Q := fun d => MsgInv (gops fo st) (Wf fo) d ∧ Strict d)
    (Q' := fun d => MsgInv (gops fo st) (Wf fo) d)
    (fun d hd => ⟨(passMessage_joint (laws hst) hc.inv hd).1,
      passMessage_strict hst hc.inv hc.strict hd⟩)
    (fun d hd => (passMessage_joint (laws hst) hc.inv' hd).1)
  exact RelRes.imp h2 fun d d' h3 => ⟨h3.1.1, h3.1.2, h3.2.1.1, h3.2.2, h3.2.1.2⟩

theorem calibrate_same (hst : StoreLaw fo (Nd fo) st) (hx : StoreExt st)
    {c c' : CG (Mixed γ NB)} (hc : GRel fo st c c') {fw na : Bool} (hd : na = true ∨ fw = true) :
    RelRes (GRel fo st) (calibrateInternal (gops fo st) c fw na)
      (calibrateInternal (gops fo st) c' fw na) := by
  unfold calibrateInternal
  rw [hc.edges.length_eq]
  dsimp only
  exact RelRes.foldlM (A := Eq)
    (fun s t a b hs hab => by rw [hab]; exact passMessage_same hst hx hs b hd)
    (forall₂_refl (fun _ => rfl) _) hc

theorem logNormalizingConstant_same (hx : StoreExt st) {c c' : CG (Mixed γ NB)}
    (hc : GRel fo st c c') :
    logNormalizingConstant (gops fo st) c = logNormalizingConstant (gops fo st) c' := by
  unfold logNormalizingConstant
  rw [hc.clusters.length_eq]
  exact RelRes.eq ((rel_atZ hc.clusters _).bind fun b b' hb => by
    show RelRes Eq (Mixed.logNorm fo NB.ops st b) (Mixed.logNorm fo NB.ops st b')
    rw [logNorm_same hx hb]
    exact RelRes.rfl' (fun _ => rfl) _)

end Verif.Reorder
