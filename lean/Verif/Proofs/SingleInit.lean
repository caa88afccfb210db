import Verif.Proofs.ClusterMsg

/-! Cluster graphs of factors with at most one item: every cluster has exactly one item. -/
namespace Verif.ClusterGraph

open Verif.Items Verif.DepGraph Verif.Spec.Graph

variable {β : Type}

theorem chooseItem_of {g : Graph} {A : AGraph} (h : Rep g A) (hne : A.active.Nonempty) {v : ℤ}
    (hv : chooseItem g = Except.ok v) : v ∈ A.active := by
  obtain ⟨v', e, hv', -⟩ := chooseItem_ok h hne
  rw [e] at hv
  cases hv
  exact hv'

/-- On a graph without edges every new cluster has one item. -/
theorem internal_single {ops : Ops β} (hops : ItemsLaw ops) {ar : Arith} {B : ℤ}
    (hf : Fits ar B) (hB1 : 1 ≤ B) : ∀ (fuel : ℕ) {g : Graph} {A : AGraph} {c c' : CG β}
    {hanging : List ℕ}, Rep g A → (∀ x y, ¬ A.adj x y) → A.active.Nonempty →
    (A.active.card : ℤ) * (A.active.card - 1) ≤ B → (A.active.card : ℤ) ≤ B →
    (∀ b ∈ c.clusters, (ops.items b).length = 1) →
    initializeInternal ar ops fuel g c hanging = Except.ok c' →
    ∀ b ∈ c'.clusters, (ops.items b).length = 1
  | 0, g, A, c, c', hanging, _, _, _, _, _, _, h => by cases h
  | fuel + 1, g, A, c, c', hanging, hr, hadj, hne, hb1, hb2, hc, h => by
    obtain ⟨b, hb, hbc⟩ := isComplete_ok hr hf hB1 hb1 hb2
    rw [initializeInternal, hb] at h
    simp only [res_ok_bind] at h
    by_cases hcb : b = true
    · rw [if_pos hcb, finish] at h
      rcases hq : hanging.foldlM (fun es id => setSecond es id (c.clusters.length : ℤ)) c.edges
        with err | es
      · rw [hq] at h; cases h
      rw [hq] at h
      cases h
      intro d hd
      rcases List.mem_append.mp hd with hd | hd
      · exact hc d hd
      · rw [List.mem_singleton.mp hd, hops, getItems_length hr]
        apply le_antisymm
        · rw [Finset.card_le_one]
          intro x hx y hy
          by_contra hxy
          exact hadj x y (hbc.mp hcb x hx y hy hxy)
        · exact Finset.card_pos.mpr hne
    · rw [if_neg hcb] at h
      have hcard : 1 < A.active.card := by
        by_contra hle
        push Not at hle
        rw [Finset.card_le_one] at hle
        exact hcb (hbc.mpr fun x hx y hy hxy => absurd (hle x hx y hy) hxy)
      rcases hq : eliminate ops g c hanging with err | s
      · rw [hq] at h; cases h
      rw [hq] at h
      simp only [res_ok_bind] at h
      rw [eliminate] at hq
      rcases h1 : chooseItem g with err | v
      · rw [h1] at hq; cases hq
      rw [h1] at hq
      simp only [res_ok_bind] at hq
      have hva := chooseItem_of hr hne h1
      obtain ⟨sep, hsep, -, -, hsm⟩ := neighbours_ok hr (hr.sub v hva)
      have hnil : sep = [] := by
        rw [List.eq_nil_iff_forall_not_mem]
        exact fun x hx => hadj v x ((hsm x).mp hx).2
      subst hnil
      rw [hsep] at hq
      simp only [res_ok_bind] at hq
      rcases h3 : hanging.foldlM (attachStep ops (findItemsUnion [v] []) (c.clusters.length : ℤ))
        (c.edges ++ [⟨(c.clusters.length : ℤ), -1, ops.ofItems []⟩], []) with err | s1
      · rw [h3] at hq; cases hq
      rw [h3] at hq
      simp only [res_ok_bind] at hq
      rw [show connect g [] = Except.ok g from rfl] at hq
      simp only [res_ok_bind] at hq
      obtain ⟨g2, e2, r2, -⟩ := rep_removeNode hr (i := v) (hr.sub v hva)
      rw [e2] at hq
      cases hq
      have hact : (A.remove v).active = A.active.erase v := rfl
      have hcard' : ((A.remove v).active.card : ℤ) + 1 = A.active.card := by
        rw [hact]
        exact_mod_cast Finset.card_erase_add_one hva
      have h0 : (1 : ℤ) ≤ (A.remove v).active.card := by omega
      refine internal_single hops hf hB1 fuel r2 hadj ?_ ?_ (by omega) ?_ h
      · rw [← Finset.card_pos]
        omega
      · rw [← hcard'] at hb1
        nlinarith
      · intro d hd
        rcases List.mem_append.mp hd with hd | hd
        · exact hc d hd
        · rw [List.mem_singleton.mp hd, hops]
          have hnd : (findItemsUnion [v] []).Nodup := union_nodup (by simp) (by simp)
          have hm : ∀ x, x ∈ findItemsUnion [v] [] ↔ x ∈ [v] := by
            intro x; rw [mem_union]; simp
          exact ((List.perm_ext_iff_of_nodup hnd (by simp)).mpr hm).length_eq

/-- Factors with at most one item each, not all of them empty: every cluster has one item. -/
theorem init_single {ops : Ops β} (hops : ItemsLaw ops) {factors : List (List ℤ)}
    (hF : ∀ F ∈ factors, F.length ≤ 1) (hne : ∃ F ∈ factors, F ≠ []) {ar : Arith} {B : ℤ}
    (hf : Fits ar B) (hB1 : 1 ≤ B)
    (hb1 : (((depA factors).active.card : ℕ) : ℤ) * ((depA factors).active.card - 1) ≤ B)
    (hb2 : (((depA factors).active.card : ℕ) : ℤ) ≤ B) {g : Graph} {c : CG β}
    (hg : makeDependenceGraph factors = Except.ok g)
    (hc : initStructure ar ops g = Except.ok c) :
    ∀ b ∈ c.clusters, (ops.items b).length = 1 := by
  have hnd : ∀ F ∈ factors, F.Nodup := by
    intro F hFm
    have := hF F hFm
    match F, this with
    | [], _ => exact List.nodup_nil
    | [x], _ => simp
    | _ :: _ :: _, h => simp at h
  obtain ⟨g', e, r, -⟩ := rep_makeDependenceGraph factors hnd
  rw [e] at hg
  cases hg
  refine internal_single hops hf hB1 _ r ?_ ?_ hb1 hb2 (by simp) hc
  · rintro x y ⟨hxy, F, hFm, hx, hy⟩
    have := hF F hFm
    match F, this, hx, hy with
    | [z], _, hx, hy =>
      exact hxy ((List.mem_singleton.mp hx).trans (List.mem_singleton.mp hy).symm)
    | _ :: _ :: _, h, _, _ => simp at h
  · obtain ⟨F, hFm, hFne⟩ := hne
    obtain ⟨x, hx⟩ := List.exists_mem_of_ne_nil F hFne
    refine ⟨x, ?_⟩
    have : x ∈ (depA factors).items := (mem_depA_items hnd).mpr ⟨F, hFm, hx⟩
    simpa [depA] using this

/-- The same for the cluster graph made of well-formed beliefs. -/
theorem ofBeliefs_single {ops : Ops β} {WF : β → Prop} {ev : β → (ℤ → ℝ) → ℝ} (L : Laws ops WF ev)
    (beliefs : List β) (hb : ∀ b ∈ beliefs, WF b)
    (hF : ∀ b ∈ beliefs, (ops.items b).length ≤ 1) (hne : ∃ b ∈ beliefs, ops.items b ≠ [])
    {ar : Arith} {B : ℤ} (hf : Fits ar B) (hB1 : 1 ≤ B)
    (hb1 : (((depA (beliefs.map ops.items)).active.card : ℕ) : ℤ) *
      ((depA (beliefs.map ops.items)).active.card - 1) ≤ B)
    (hb2 : (((depA (beliefs.map ops.items)).active.card : ℕ) : ℤ) ≤ B) {c : CG β}
    (h : ofBeliefs ar ops beliefs = Except.ok c) :
    ∀ b ∈ c.clusters, (ops.items b).length = 1 := by
  have hFn : ∀ F ∈ beliefs.map ops.items, F.Nodup := by
    intro F hF
    obtain ⟨b, hbm, rfl⟩ := List.mem_map.mp hF
    exact L.nodup b (hb b hbm)
  obtain ⟨g, c0, eg, ec, hB⟩ := init_ok L.items_ofItems (beliefs.map ops.items) hFn hf hB1 hb1 hb2
  have hs : ∀ b ∈ c0.clusters, (ops.items b).length = 1 := by
    refine init_single L.items_ofItems ?_ ?_ hf hB1 hb1 hb2 eg ec
    · intro F hFm
      obtain ⟨b, hbm, rfl⟩ := List.mem_map.mp hFm
      exact hF b hbm
    · obtain ⟨b, hbm, hbn⟩ := hne
      exact ⟨_, List.mem_map_of_mem hbm, hbn⟩
  have hform := init_form (ops := ops) ec
  have hwfC : ∀ b ∈ c0.clusters, WF b := by
    intro b hbm
    obtain ⟨l, rfl⟩ := hform.1 b hbm
    refine L.ofItems_wf l ?_
    obtain ⟨k, hk⟩ := List.mem_iff_getElem?.mp hbm
    have := hB.ndC k
    simpa [cl, hk, L.items_ofItems l] using this
  have hcov : ∀ b ∈ beliefs, ∃ c ∈ c0.clusters, ∀ x ∈ ops.items b, x ∈ ops.items c := by
    intro b hbm
    obtain ⟨k, hk, hc⟩ := hB.cover _ (List.mem_map_of_mem (f := ops.items) hbm)
    exact ⟨c0.clusters[k], List.getElem_mem hk, fun x hx => by simpa [cl, hk] using hc x hx⟩
  obtain ⟨rs, bss, er, l1, l2, hperm, hw, hi, hk⟩ := populateClusters_ok L c0.clusters beliefs
    hwfC hb hcov
  rw [ofBeliefs, eg] at h
  simp only [res_ok_bind] at h
  rw [ec] at h
  simp only [res_ok_bind] at h
  rw [populate, er] at h
  cases h
  intro b hbm
  have : ops.items b ∈ c0.clusters.map ops.items := by
    rw [← hi]
    exact List.mem_map_of_mem hbm
  obtain ⟨b', hb', e⟩ := List.mem_map.mp this
  rw [← e]
  exact hs b' hb'

end Verif.ClusterGraph
