import Verif.Proofs.SignBelief
import Verif.Proofs.ReorderRun

/-!
# Cluster graphs under changes of sign
-/
namespace Verif.Sign

open Verif.Gauss Verif.Items Verif.Belief Verif.ClusterGraph Verif.Reorder Verif.Param

variable {γ : Type} {s : ℤ → ℝ} {fo fo' : FactorOps γ} {st st' : Store γ NB} {K : ℕ}

/-- What is needed of the two sets of operations. -/
structure Ctx (s : ℤ → ℝ) (K : ℕ) (fo fo' : FactorOps γ) (st st' : Store γ NB) : Prop where
  sign : IsSignZ s
  law : StoreLaw fo (Nd fo) st
  law' : StoreLaw fo' (Nd fo') st'
  store : StoreRel s K fo fo' st st'

/-- Cluster graphs whose beliefs differ in signs. -/
structure GSign (s : ℤ → ℝ) (K : ℕ) (fo fo' : FactorOps γ) (st st' : Store γ NB)
    (c c' : CG (Mixed γ NB)) : Prop where
  clusters : List.Forall₂ (Bel s fo fo') c.clusters c'.clusters
  edges : List.Forall₂ (EdgeRel (Bel s fo fo')) c.edges c'.edges
  inv : MsgInv (gops fo st) (Wf fo) c
  inv' : MsgInv (gops fo' st') (Wf fo') c'
  bound : ∀ b ∈ c.clusters, b.items.length ≤ K

theorem setN_rel {α β : Type} {P : α → β → Prop} {l : List α} {l' : List β}
    (h : List.Forall₂ P l l') (k : ℕ) {a : α} {b : β} (hab : P a b) :
    RelOk (List.Forall₂ P) (setN l k a) (setN l' k b) := by
  intro r r' e e'
  have := rel_setN h k hab
  rw [e, e'] at this
  cases this with
  | ok h => exact h

theorem setZ_rel {α β : Type} {P : α → β → Prop} {l : List α} {l' : List β}
    (h : List.Forall₂ P l l') (k : ℤ) {a : α} {b : β} (hab : P a b) :
    RelOk (List.Forall₂ P) (setZ l k a) (setZ l' k b) := by
  intro r r' e e'
  have := rel_setZ h k hab
  rw [e, e'] at this
  cases this with
  | ok h => exact h

theorem atZ_rel {α β : Type} {P : α → β → Prop} {l : List α} {l' : List β}
    (h : List.Forall₂ P l l') (k : ℤ) : RelOk P (atZ l k) (atZ l' k) := by
  intro r r' e e'
  have := rel_atZ h k
  rw [e, e'] at this
  cases this with
  | ok h => exact h

/-- One message in both graphs, with tests `pr` and `pr'` for improper beliefs that agree. -/
theorem passMessage_key (C : Ctx s K fo fo' st st') {c c' : CG (Mixed γ NB)}
    (hc : GSign s K fo fo' st st' c c') (k : ℕ) (fw na : Bool) {pr pr' : Mixed γ NB → Res Bool}
    (hpr : ∀ b b', Bel s fo fo' b b' → RelOk Eq (pr b) (pr' b')) :
    RelOk (fun d d' => List.Forall₂ (Bel s fo fo') d.clusters d'.clusters ∧
      List.Forall₂ (EdgeRel (Bel s fo fo')) d.edges d'.edges)
      (passMessage { gops fo st with isProper := pr } c k fw na)
      (passMessage { gops fo' st' with isProper := pr' } c' k fw na) := by
  unfold passMessage
  by_cases hk : k < c.edges.length
  swap
  · rw [nth, List.getElem?_eq_none (by omega)]
    exact RelOk.errL _ _
  have hk' : k < c'.edges.length := by rwa [← hc.edges.length_eq]
  rw [nth_ok hk, nth_ok hk']
  simp only [res_ok_bind]
  have hem : c.edges[k] ∈ c.edges := List.getElem_mem hk
  obtain ⟨he1, he2, he⟩ := forall₂_at hc.edges hk hk'
  generalize hee' : c'.edges[k] = e' at he1 he2 he ⊢
  generalize hee : c.edges[k] = e at hem he1 he2 he ⊢
  have hends : ends e fw = ends e' fw := by
    unfold ClusterGraph.ends
    rw [he1, he2]
  obtain ⟨i0, j0, hi0, hj0, hf, hsd, hsi, hsj⟩ := hc.inv.ends _ hem
  obtain ⟨i, j, hi, hj, hij, hci, hcj⟩ : ∃ (i j : ℕ) (hi : i < c.clusters.length)
      (hj : j < c.clusters.length), ends e fw = ((i : ℤ), (j : ℤ)) ∧
      (∀ x ∈ e.belief.items, x ∈ c.clusters[i].items) ∧
      (∀ x ∈ e.belief.items, x ∈ c.clusters[j].items) := by
    cases fw with
    | true => exact ⟨i0, j0, hi0, hj0, by simp [ClusterGraph.ends, hf, hsd], hsi, hsj⟩
    | false => exact ⟨j0, i0, hj0, hi0, by simp [ClusterGraph.ends, hf, hsd], hsj, hsi⟩
  have hi' : i < c'.clusters.length := by rwa [← hc.clusters.length_eq]
  have hj' : j < c'.clusters.length := by rwa [← hc.clusters.length_eq]
  rw [← hends, hij]
  dsimp only
  rw [atZ_ok hi, atZ_ok hi']
  simp only [res_ok_bind]
  have hCi := forall₂_at hc.clusters hi hi'
  have hCj := forall₂_at hc.clusters hj hj'
  have hmargin : RelOk (fun b b' => Bel s fo fo' b b' ∧ ∀ x ∈ b.items, x ∈ e.belief.items)
      (Ops.margin (gops fo st) c.clusters[i] ((gops fo st).items e.belief) na)
      (Ops.margin (gops fo' st') c'.clusters[i] ((gops fo' st').items e'.belief) na) := by
    show RelOk _ (Mixed.margin fo NB.ops st c.clusters[i] e.belief.items na)
      (Mixed.margin fo' NB.ops st' c'.clusters[i] e'.belief.items na)
    rw [he.items]
    refine (margin_bel C.sign C.law C.law' C.store hCi (hc.bound _ (List.getElem_mem hi))
      he.wf.nodup hci na).imp fun b b' hb _ hbb => ⟨hbb, ?_⟩
    obtain ⟨-, hm⟩ := (laws C.law).margin_items _ _ na b hCi.wf he.wf.nodup hci hb
    exact fun x hx => (hm x).mp hx
  refine hmargin.bind fun b b' hb => ?_
  obtain ⟨hb, hbi⟩ := hb
  refine (setN_rel hc.edges k (a := { e with belief := b }) (b := { e' with belief := b' })
    ⟨he1, he2, hb⟩).bind fun es es' hes => ?_
  rw [atZ_ok hj, atZ_ok hj']
  simp only [res_ok_bind]
  obtain ⟨r1, r1', f1, f1', hr1, i1⟩ := mul_bel C.sign hCj hb fun x hx => hcj x (hbi x hx)
  obtain ⟨r2, r2', f2, f2', hr2, i2⟩ := div_bel C.sign hr1 he fun x hx => by
    rw [i1]; exact hcj x hx
  change RelOk _ (Mixed.mul fo NB.ops c.clusters[j] b >>= _)
    (Mixed.mul fo' NB.ops c'.clusters[j] b' >>= _)
  rw [f1, f1']
  simp only [res_ok_bind]
  change RelOk _ (Mixed.div fo NB.ops r1 e.belief >>= _) (Mixed.div fo' NB.ops r1' e'.belief >>= _)
  rw [f2, f2']
  simp only [res_ok_bind]
  refine (setZ_rel hc.clusters _ hr2).bind fun cl cl' hcl => ?_
  refine (hpr _ _ hr2).bind ?_
  rintro p _ rfl
  split
  · exact RelOk.ok ⟨hcl, hes⟩
  · exact RelOk.errL _ _

/-- One message in both graphs. -/
theorem passMessage_sign (C : Ctx s K fo fo' st st') {c c' : CG (Mixed γ NB)}
    (hc : GSign s K fo fo' st st' c c') (k : ℕ) (fw na : Bool) :
    RelOk (GSign s K fo fo' st st') (passMessage (gops fo st) c k fw na)
      (passMessage (gops fo' st') c' k fw na) := by
  have key := passMessage_key C hc k fw na (pr := (gops fo st).isProper)
    (pr' := (gops fo' st').isProper) fun b b' h => isProper_bel C.sign h
  refine key.imp fun d d' hd hd' h => ?_
  obtain ⟨v, -, hci, -, -⟩ := passMessage_joint (laws C.law) hc.inv hd
  refine ⟨h.1, h.2, v, (passMessage_joint (laws C.law') hc.inv' hd').1, fun b hb => ?_⟩
  have h1 : b.items ∈ d.clusters.map (gops fo st).items := List.mem_map_of_mem hb
  rw [hci] at h1
  obtain ⟨b0, hb0, e0⟩ := List.mem_map.mp h1
  rw [← e0]
  exact hc.bound b0 hb0

theorem calibrate_sign (C : Ctx s K fo fo' st st') {c c' : CG (Mixed γ NB)}
    (hc : GSign s K fo fo' st st' c c') (fw na : Bool) :
    RelOk (GSign s K fo fo' st st') (calibrateInternal (gops fo st) c fw na)
      (calibrateInternal (gops fo' st') c' fw na) := by
  unfold calibrateInternal
  rw [hc.edges.length_eq]
  dsimp only
  exact RelOk.foldlM (A := Eq)
    (fun s t a b hs hab => by rw [hab]; exact passMessage_sign C hs b fw na)
    (forall₂_refl (fun _ => rfl) _) hc

theorem logNormalizingConstant_sign (C : Ctx s K fo fo' st st') {c c' : CG (Mixed γ NB)}
    (hc : GSign s K fo fo' st st' c c') :
    RelOk Eq (logNormalizingConstant (gops fo st) c) (logNormalizingConstant (gops fo' st') c') := by
  unfold logNormalizingConstant
  rw [hc.clusters.length_eq]
  have hb : List.Forall₂ (fun a b => Bel s fo fo' a b ∧ a.items.length ≤ K ∧ True) c.clusters
      c'.clusters := forall₂_and_mem hc.clusters hc.bound fun _ _ => trivial
  refine (atZ_rel hb _).bind fun b b' h => ?_
  exact logNorm_bel C.sign C.law C.law' C.store h.1 h.2.1

/-! ## The normal approximation -/

theorem set_bel (hs : IsSignZ s) {N : ℕ} (mean : Fin N → ℝ) (Q : Matrix (Fin N) (Fin N) ℝ)
    {m m' : Mixed γ NB} (h : Bel s fo fo' m m') :
    Bel s fo fo' (m.setNormalApprox (restr mean Q m.items))
      (m'.setNormalApprox (restr (fun i : Fin N => s i * mean i)
        (Matrix.of fun i j : Fin N => s i * Q i j * s j) m'.items)) := by
  refine ⟨by rw [set_items, set_items]; exact h.items, ?_, ?_, ?_, set_wf mean Q h.wf, set_wf _ _ h.wf'⟩
  · have hz : ∀ (m : Mixed γ NB) n, fz (m.setNormalApprox n) = fz m := fun m n => by
      rw [Mixed.setNormalApprox]; split <;> rfl
    rw [hz, hz]
    exact h.factors
  · rw [Mixed.setNormalApprox, Mixed.setNormalApprox, h.fixed]
    split
    · exact h.normal
    · rw [h.items]
      exact restr_flip hs mean Q m.items
  · rw [Mixed.setNormalApprox, Mixed.setNormalApprox, h.fixed]
    split
    · exact h.fixed
    · rfl

theorem fix_bel {m m' : Mixed γ NB} (h : Bel s fo fo' m m') :
    Bel s fo fo' m.fixNormalApprox m'.fixNormalApprox :=
  ⟨h.items, h.factors, h.normal, rfl, wf_fix h.wf, wf_fix h.wf'⟩

/-- The first step of `setNormalApprox` in both graphs. -/
theorem init_sign (C : Ctx s K fo fo' st st') {N : ℕ} (mean : Fin N → ℝ)
    (Q : Matrix (Fin N) (Fin N) ℝ) {c c' : CG (Mixed γ NB)} (h : GSign s K fo fo' st st' c c')
    (hr : ∀ b ∈ c.clusters, ∀ x ∈ b.items, 0 ≤ x ∧ x < N) :
    ∃ d d', initNormal mean Q c = Except.ok d ∧
      initNormal (fun i : Fin N => s i * mean i)
        (Matrix.of fun i j : Fin N => s i * Q i j * s j) c' = Except.ok d' ∧
      GSign s K fo fo' st st' d d' := by
  have hr' : ∀ b ∈ c'.clusters, ∀ x ∈ b.items, 0 ≤ x ∧ x < N := by
    intro b hb
    obtain ⟨k, hk, rfl⟩ := List.mem_iff_getElem.mp hb
    have hk' : k < c.clusters.length := by rwa [h.clusters.length_eq]
    rw [(forall₂_at h.clusters hk' hk).items]
    exact hr _ (List.getElem_mem hk')
  have hE : ∀ {fo : FactorOps γ} {st : Store γ NB} {c : CG (Mixed γ NB)},
      MsgInv (gops fo st) (Wf fo) c →
      (∀ b ∈ c.clusters, ∀ x ∈ b.items, 0 ≤ x ∧ x < N) →
      ∀ e ∈ c.edges, ∀ x ∈ e.belief.items, 0 ≤ x ∧ x < N := by
    intro fo st c inv hc e he x hx
    obtain ⟨i, j, hi, hj, h1, h2, h3, h4⟩ := inv.ends e he
    exact hc _ (List.getElem_mem hi) x (h3 x hx)
  have iF : ∀ {n : ℕ} (mean : Fin n → ℝ) Q (m : Mixed γ NB),
      (m.setNormalApprox (restr mean Q m.items)).items = m.items := fun _ _ m => set_items m _
  refine ⟨_, _, initNormal_ok hr (hE h.inv hr), initNormal_ok hr' (hE h.inv' hr'), ?_⟩
  refine ⟨forall₂_map_both (fun a b hab => set_bel C.sign mean Q hab) h.clusters,
    forall₂_map_both (fun a b hab => ⟨hab.1, hab.2.1, set_bel C.sign mean Q hab.2.2⟩) h.edges,
    MsgInv.map h.inv (iF _ _) (iF _ _) (fun m hm => set_wf _ _ (h.inv.wfC m hm))
      (fun e he => set_wf _ _ (h.inv.wfE e he)),
    MsgInv.map h.inv' (iF _ _) (iF _ _) (fun m hm => set_wf _ _ (h.inv'.wfC m hm))
      (fun e he => set_wf _ _ (h.inv'.wfE e he)), ?_⟩
  intro b hb
  obtain ⟨b0, hb0, rfl⟩ := List.mem_map.mp hb
  rw [iF]
  exact h.bound b0 hb0

/-- The last step of `setNormalApprox` in both graphs. -/
theorem fix_sign {b b' : CG (Mixed γ NB)} (hb : GSign s K fo fo' st st' b b') :
    GSign s K fo fo' st st'
      ⟨b.clusters.map Mixed.fixNormalApprox,
        b.edges.map fun e => ⟨e.first, e.second, e.belief.fixNormalApprox⟩⟩
      ⟨b'.clusters.map Mixed.fixNormalApprox,
        b'.edges.map fun e => ⟨e.first, e.second, e.belief.fixNormalApprox⟩⟩ := by
  have iX : ∀ m : Mixed γ NB, m.fixNormalApprox.items = m.items := fun _ => rfl
  refine ⟨forall₂_map_both (fun a b hab => fix_bel hab) hb.clusters,
    forall₂_map_both (fun a b hab => ⟨hab.1, hab.2.1, fix_bel hab.2.2⟩) hb.edges,
    MsgInv.map hb.inv iX iX (fun m hm => wf_fix (hb.inv.wfC m hm))
      (fun e he => wf_fix (hb.inv.wfE e he)),
    MsgInv.map hb.inv' iX iX (fun m hm => wf_fix (hb.inv'.wfC m hm))
      (fun e he => wf_fix (hb.inv'.wfE e he)), ?_⟩
  intro x hx
  obtain ⟨b0, hb0, rfl⟩ := List.mem_map.mp hx
  exact hb.bound b0 hb0

/-! ## Making the graphs -/

theorem populate_sign (hs : IsSignZ s) : ∀ {cs cs' bs bs' : List (Mixed γ NB)},
    List.Forall₂ (Bel s fo fo') cs cs' → List.Forall₂ (Bel s fo fo') bs bs' →
    RelRes (List.Forall₂ (Bel s fo fo')) (populateClusters (gops fo st) cs bs)
      (populateClusters (gops fo' st') cs' bs')
  | _, _, _, _, .nil, _ => RelRes.ok .nil
  | _, _, bs, bs', .cons (a := c) (b := c') hc hcs, hb => by
    have hf : ∀ b b', Bel s fo fo' b b' → isSubset b.items c.items = isSubset b'.items c'.items :=
      fun b b' hb => by rw [hb.items, hc.items]
    have h1 : List.Forall₂ (fun a b => Bel s fo fo' a b ∧ (∀ x ∈ a.items, x ∈ c.items) ∧ True)
        (bs.filter fun b => isSubset b.items c.items)
        (bs'.filter fun b => isSubset b.items c'.items) :=
      forall₂_and_mem (forall₂_filter hf hb) (fun a ha => by
        rw [List.mem_filter] at ha
        obtain ⟨k, hk, rfl⟩ := List.mem_iff_getElem.mp ha.1
        have := forall₂_at hb hk (by rw [← hb.length_eq]; exact hk)
        exact (isSubset_iff this.wf.nodup hc.wf.nodup).mp ha.2) fun _ _ => trivial
    have h2 : RelRes (fun a b => Bel s fo fo' a b ∧ a.items = c.items)
        (mulAll (gops fo st) c (bs.filter fun b => isSubset b.items c.items))
        (mulAll (gops fo' st') c' (bs'.filter fun b => isSubset b.items c'.items)) := by
      refine RelRes.foldlM (fun a a' b b' ha hb => ?_) h1 ⟨hc, rfl⟩
      obtain ⟨r, r', e, e', hr, i⟩ := mul_bel hs ha.1 hb.1 (by rw [ha.2]; exact hb.2.1)
      change RelRes _ (Mixed.mul fo NB.ops a b) (Mixed.mul fo' NB.ops a' b')
      rw [e, e']
      exact RelRes.ok ⟨hr, i.trans ha.2⟩
    rw [populateClusters, populateClusters]
    dsimp only
    refine h2.bind fun a a' ha => ?_
    exact (populate_sign hs hcs (forall₂_filter (fun b b' hb => congrArg not (hf b b' hb)) hb)).bind
      fun _ _ h3 => RelRes.ok (.cons ha.1 h3)

theorem ofItems_bel (hs : IsSignZ s) {l : List ℤ} (hl : l.Nodup) :
    Bel s fo fo' (Mixed.ofItems NB.ops l) (Mixed.ofItems NB.ops l) :=
  ⟨rfl, .nil, (ofItems_flip hs l).symm, rfl, wf_ofItems nb_laws hl, wf_ofItems nb_laws hl⟩

theorem built_bound {β : Type} {ops : Ops β} {c : CG β} {N : ℕ}
    (hr : ∀ b ∈ c.clusters, (ops.items b).Nodup ∧ ∀ x ∈ ops.items b, 0 ≤ x ∧ x < (N : ℤ)) :
    ∀ b ∈ c.clusters, (ops.items b).length ≤ N := by
  intro b hb
  obtain ⟨h1, h2⟩ := hr b hb
  have h3 : (ops.items b).toFinset ⊆ Finset.Ico 0 (N : ℤ) := fun x hx => by
    rw [Finset.mem_Ico]
    exact h2 x (List.mem_toFinset.mp hx)
  have h4 := Finset.card_le_card h3
  rwa [List.toFinset_card_of_nodup h1, Int.card_Ico, sub_zero, Int.toNat_natCast] at h4

end Verif.Sign
