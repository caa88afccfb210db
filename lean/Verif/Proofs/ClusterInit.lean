import Verif.Model.ClusterGraph
import Verif.Proofs.Graph
import Mathlib.Tactic.Linarith

/-! Structure of the cluster graph built by `initializeInternal`. -/
namespace Verif.ClusterGraph

open Verif.Items Verif.DepGraph Verif.Spec.Graph

variable {β : Type}

/-- The constructor from an item list stores that list. -/
def ItemsLaw (ops : Ops β) : Prop := ∀ l, ops.items (ops.ofItems l) = l

/-- Item list of cluster `k`. -/
def cl (ops : Ops β) (c : CG β) (k : ℕ) : List ℤ := ((c.clusters[k]?).map ops.items).getD []

/-- Item list of edge `k`. -/
def sp (ops : Ops β) (es : List (Edge β)) (k : ℕ) : List ℤ :=
  ((es[k]?).map fun e => ops.items e.belief).getD []

/-! ## The loop over hanging edges -/

theorem setSecond_ok {es : List (Edge β)} {k : ℕ} (hk : k < es.length) (id : ℤ) :
    setSecond es k id = Except.ok (es.set k { es[k] with second := id }) := by
  rw [setSecond, atE_ok hk]
  simp only [res_ok_bind]
  rw [setE_ok hk]

theorem sp_set (ops : Ops β) {es : List (Edge β)} {k : ℕ} (hk : k < es.length) (id : ℤ) (j : ℕ) :
    sp ops (es.set k { es[k] with second := id }) j = sp ops es j := by
  unfold sp
  rw [List.getElem?_set]
  split
  · rename_i h
    subst h
    simp [hk]
  · rfl

theorem attach_fold (ops : Ops β) (cluster : List ℤ) (id : ℤ) :
    ∀ (hanging : List ℕ) (es : List (Edge β)) (acc : List ℕ),
    (∀ k ∈ hanging, k < es.length) → hanging.Nodup →
    ∃ es', hanging.foldlM (attachStep ops cluster id) (es, acc) = Except.ok
        (es', acc ++ hanging.filter fun k => !isSubset (sp ops es k) cluster) ∧
      es'.length = es.length ∧
      ∀ k, es'[k]? = if k ∈ hanging ∧ isSubset (sp ops es k) cluster = true
        then es[k]?.map (fun e => { e with second := id }) else es[k]?
  | [], es, acc, _, _ => by
    refine ⟨es, by simp, rfl, fun k => by simp⟩
  | h :: hs, es, acc, hlt, hnd => by
    rw [List.nodup_cons] at hnd
    have hh : h < es.length := hlt h (by simp)
    have hsp : sp ops es h = ops.items (es[h]).belief := by simp [sp, hh]
    rw [List.foldlM_cons, attachStep, atE_ok hh]
    simp only [res_ok_bind]
    by_cases hs' : isSubset (sp ops es h) cluster = true
    · rw [← hsp, if_pos hs', setSecond_ok hh]
      simp only [res_ok_bind, res_pure]
      obtain ⟨es', h1, h2, h3⟩ := attach_fold ops cluster id hs
        (es.set h { es[h] with second := id }) acc (fun k hk => by
          rw [List.length_set]; exact hlt k (by simp [hk])) hnd.2
      refine ⟨es', ?_, by rw [h2, List.length_set], fun k => ?_⟩
      · rw [h1]
        simp only [sp_set ops hh]
        rw [List.filter_cons, hs']
        simp
      · rw [h3 k, sp_set ops hh]
        by_cases hkh : k = h
        · subst hkh
          rw [if_neg fun hc => hnd.1 hc.1, if_pos ⟨by simp, hs'⟩]
          simp [hh]
        · simp only [List.mem_cons, hkh, false_or]
          rw [List.getElem?_set_ne (Ne.symm hkh)]
    · rw [← hsp, if_neg hs']
      simp only [res_ok_bind, res_pure]
      obtain ⟨es', h1, h2, h3⟩ := attach_fold ops cluster id hs es (acc ++ [h])
        (fun k hk => hlt k (by simp [hk])) hnd.2
      refine ⟨es', ?_, h2, fun k => ?_⟩
      · rw [h1, List.filter_cons]
        have : isSubset (sp ops es h) cluster = false := by simpa using hs'
        simp [this]
      · rw [h3 k]
        by_cases hkh : k = h
        · subst hkh
          rw [if_neg fun hc => hnd.1 hc.1, if_neg fun hc => hs' hc.2]
        · simp only [List.mem_cons, hkh, false_or]

theorem finish_fold (id : ℤ) : ∀ (hanging : List ℕ) (es : List (Edge β)),
    (∀ k ∈ hanging, k < es.length) →
    ∃ es', hanging.foldlM (fun es k => setSecond es k id) es = Except.ok es' ∧
      es'.length = es.length ∧
      ∀ k, es'[k]? = if k ∈ hanging then es[k]?.map (fun e => { e with second := id })
        else es[k]?
  | [], es, _ => ⟨es, rfl, rfl, fun k => by simp⟩
  | h :: hs, es, hlt => by
    have hh : h < es.length := hlt h (by simp)
    rw [List.foldlM_cons, setSecond_ok hh]
    simp only [res_ok_bind]
    obtain ⟨es', h1, h2, h3⟩ := finish_fold id hs (es.set h { es[h] with second := id })
      fun k hk => by rw [List.length_set]; exact hlt k (by simp [hk])
    refine ⟨es', h1, by rw [h2, List.length_set], fun k => ?_⟩
    rw [h3 k]
    by_cases hkh : k = h
    · subst hkh
      simp [hh]
    · simp only [List.mem_cons, hkh, false_or]
      rw [List.getElem?_set_ne (Ne.symm hkh)]

/-! ## Choice of the item to eliminate -/

theorem choose_fold {g : Graph} {A : AGraph} (h : Rep g A) :
    ∀ (L : List ℤ) (s : ℤ × ℕ), (∀ x ∈ L, x ∈ A.active) → (s.1 ∈ A.active) →
    (∀ x ∈ L, degA A x < A.active.card) →
    ∃ s', L.foldlM (chooseStep g) s = Except.ok s' ∧ s'.1 ∈ A.active ∧ s'.2 ≤ s.2 ∧
      (∀ x ∈ L, s'.2 ≤ degA A x) ∧ (s' = s ∨ (s'.2 = degA A s'.1))
  | [], s, _, hs, _ => ⟨s, rfl, hs, le_refl _, by simp, Or.inl rfl⟩
  | x :: L, s, hL, hs, hd => by
    have hx := hL x (by simp)
    obtain ⟨l, hl, -⟩ := neighbours_ok h (h.sub x hx)
    have hlen := neighbours_length h (h.sub x hx) hl
    have hstep : chooseStep g s x =
        Except.ok (if degA A x < s.2 then (x, degA A x) else s) := by
      rw [chooseStep, hl]
      simp only [res_ok_bind, hlen, res_pure]
    rw [List.foldlM_cons, hstep]
    simp only [res_ok_bind]
    by_cases hc : degA A x < s.2
    · rw [if_pos hc]
      obtain ⟨s', h1, h2, h3, h4, h5⟩ := choose_fold h L (x, degA A x)
        (fun y hy => hL y (by simp [hy])) hx fun y hy => hd y (by simp [hy])
      refine ⟨s', h1, h2, le_trans h3 hc.le, ?_, ?_⟩
      · intro y hy
        rcases List.mem_cons.mp hy with rfl | hy
        · exact h3
        · exact h4 y hy
      · right
        rcases h5 with rfl | h5
        · rfl
        · exact h5
    · rw [if_neg hc]
      obtain ⟨s', h1, h2, h3, h4, h5⟩ := choose_fold h L s
        (fun y hy => hL y (by simp [hy])) hs fun y hy => hd y (by simp [hy])
      refine ⟨s', h1, h2, h3, ?_, h5⟩
      intro y hy
      rcases List.mem_cons.mp hy with rfl | hy
      · omega
      · exact h4 y hy

theorem chooseItem_ok {g : Graph} {A : AGraph} (h : Rep g A) (hne : A.active.Nonempty) :
    ∃ v, chooseItem g = Except.ok v ∧ v ∈ A.active ∧ ∀ x ∈ A.active, degA A v ≤ degA A x := by
  have hlen := getItems_length h
  have hpos : 0 < (getItems g).length := by rw [hlen]; exact Finset.card_pos.mpr hne
  have hd : ∀ x ∈ getItems g, degA A x < A.active.card := by
    intro x hx
    have := degA_le h ((mem_getItems h).mp hx)
    have := Finset.card_pos.mpr hne
    omega
  obtain ⟨s', h1, h2, h3, h4, h5⟩ := choose_fold h (getItems g)
    ((getItems g)[0], (getItems g).length) (fun x hx => (mem_getItems h).mp hx)
    ((mem_getItems h).mp (List.getElem_mem hpos)) hd
  refine ⟨s'.1, ?_, h2, ?_⟩
  · rw [chooseItem, atE_ok hpos]
    simp only [res_ok_bind]
    rw [h1]
    rfl
  · intro x hx
    have hx' := h4 x ((mem_getItems h).mpr hx)
    rcases h5 with rfl | h5
    · exfalso
      have := hd x ((mem_getItems h).mpr hx)
      simp only [hlen] at hx'
      omega
    · omega

/-! ## Invariant of the recursion -/

/-- Invariant of `initializeInternal` with remaining graph `A`, for a given collection of
factors. -/
structure Inv (ops : Ops β) (factors : List (List ℤ)) (A : AGraph) (c : CG β)
    (hanging : List ℕ) : Prop where
  len : c.edges.length = c.clusters.length
  hnd : hanging.Nodup
  hlt : ∀ k ∈ hanging, k < c.edges.length
  first : ∀ k, (hk : k < c.edges.length) → (c.edges[k]).first = k
  ndS : ∀ k, (sp ops c.edges k).Nodup
  ndC : ∀ k, (cl ops c k).Nodup
  hang : ∀ k ∈ hanging, (∀ x ∈ sp ops c.edges k, x ∈ A.active) ∧
    ∀ x ∈ sp ops c.edges k, ∀ y ∈ sp ops c.edges k, x ≠ y → A.adj x y
  done : ∀ k, (hk : k < c.edges.length) → k ∉ hanging → ∃ p : ℕ, k < p ∧ p < c.clusters.length ∧
    (c.edges[k]).second = p ∧ ∀ x ∈ sp ops c.edges k, x ∈ cl ops c p
  elim : ∀ k < c.edges.length, ∃ v, v ∉ A.active ∧ v ∉ sp ops c.edges k ∧
    (∀ x, x ∈ cl ops c k ↔ x = v ∨ x ∈ sp ops c.edges k) ∧ (∀ j, k < j → v ∉ cl ops c j) ∧
    ∀ x ∈ sp ops c.edges k, x ∈ A.active ∨ ∃ j, k < j ∧ x ∈ cl ops c j
  cover : ∀ F ∈ factors, (∃ k < c.clusters.length, ∀ x ∈ F, x ∈ cl ops c k) ∨
    ((∀ x ∈ F, x ∈ A.active) ∧ ∀ x ∈ F, ∀ y ∈ F, x ≠ y → A.adj x y)
  items : ∀ x, (x ∈ A.active ∨ ∃ k, x ∈ cl ops c k) ↔ ∃ F ∈ factors, x ∈ F

/-- What is known of the finished cluster graph. -/
structure Built (ops : Ops β) (factors : List (List ℤ)) (c : CG β) : Prop where
  len : c.edges.length + 1 = c.clusters.length
  ndS : ∀ k, (sp ops c.edges k).Nodup
  ndC : ∀ k, (cl ops c k).Nodup
  edge : ∀ k, (hk : k < c.edges.length) → (c.edges[k]).first = k ∧
    ∃ p : ℕ, k < p ∧ p < c.clusters.length ∧ (c.edges[k]).second = p ∧
      ∀ x ∈ sp ops c.edges k, x ∈ cl ops c p
  elim : ∀ k < c.edges.length, ∃ v, v ∉ sp ops c.edges k ∧
    (∀ x, x ∈ cl ops c k ↔ x = v ∨ x ∈ sp ops c.edges k) ∧ (∀ j, k < j → v ∉ cl ops c j) ∧
    ∀ x ∈ sp ops c.edges k, ∃ j, k < j ∧ x ∈ cl ops c j
  cover : ∀ F ∈ factors, ∃ k < c.clusters.length, ∀ x ∈ F, x ∈ cl ops c k
  items : ∀ x, (∃ k, x ∈ cl ops c k) ↔ ∃ F ∈ factors, x ∈ F

theorem cl_append_lt (ops : Ops β) {cs : List β} {es es' : List (Edge β)} {b : β} {k : ℕ}
    (hk : k < cs.length) : cl ops ⟨cs ++ [b], es'⟩ k = cl ops ⟨cs, es⟩ k := by
  simp [cl, List.getElem?_append_left hk]

theorem cl_append_eq (ops : Ops β) {cs : List β} {es' : List (Edge β)} {b : β} :
    cl ops ⟨cs ++ [b], es'⟩ cs.length = ops.items b := by
  simp [cl]

theorem cl_ge (ops : Ops β) {c : CG β} {k : ℕ} (hk : c.clusters.length ≤ k) : cl ops c k = [] := by
  simp [cl, List.getElem?_eq_none hk]

theorem sp_ge (ops : Ops β) {es : List (Edge β)} {k : ℕ} (hk : es.length ≤ k) :
    sp ops es k = [] := by
  simp [sp, List.getElem?_eq_none hk]

theorem sp_congr (ops : Ops β) {es es' : List (Edge β)} {P : ℕ → Prop} [DecidablePred P] {id : ℤ}
    (h : ∀ k, es'[k]? = if P k then es[k]?.map (fun e => { e with second := id }) else es[k]?)
    (k : ℕ) : sp ops es' k = sp ops es k := by
  unfold sp
  rw [h k]
  split
  · cases es[k]? <;> rfl
  · rfl

theorem sp_append_lt (ops : Ops β) {es : List (Edge β)} {e : Edge β} {k : ℕ}
    (hk : k < es.length) : sp ops (es ++ [e]) k = sp ops es k := by
  simp [sp, List.getElem?_append_left hk]

theorem sp_append_eq (ops : Ops β) {es : List (Edge β)} {e : Edge β} :
    sp ops (es ++ [e]) es.length = ops.items e.belief := by
  simp [sp]

theorem finish_ok {ops : Ops β} (hops : ItemsLaw ops) {factors : List (List ℤ)} {g : Graph}
    {A : AGraph} {c : CG β} {hanging : List ℕ} (h : Rep g A)
    (inv : Inv ops factors A c hanging) :
    ∃ c', finish ops g c hanging = Except.ok c' ∧ Built ops factors c' := by
  obtain ⟨es', h1, h2, h3⟩ := finish_fold (c.clusters.length : ℤ) hanging c.edges inv.hlt
  have hsp := sp_congr ops h3
  have hlast : cl ops ⟨c.clusters ++ [ops.ofItems (getItems g)], es'⟩ c.clusters.length =
      getItems g := by
    rw [cl_append_eq, hops]
  have hlt : ∀ {k}, k < c.clusters.length →
      cl ops ⟨c.clusters ++ [ops.ofItems (getItems g)], es'⟩ k = cl ops c k :=
    fun hk => cl_append_lt ops hk
  have hge : ∀ {k}, c.clusters.length < k →
      cl ops ⟨c.clusters ++ [ops.ofItems (getItems g)], es'⟩ k = [] :=
    fun hk => cl_ge ops (by simp; omega)
  refine ⟨⟨c.clusters ++ [ops.ofItems (getItems g)], es'⟩, ?_, ?_, ?_, ?_, ?_, ?_, ?_, ?_⟩
  · rw [finish, h1]; rfl
  · simp [h2, inv.len]
  · intro k; rw [hsp]; exact inv.ndS k
  · intro k
    rcases lt_trichotomy k c.clusters.length with hk | rfl | hk
    · rw [hlt hk]; exact inv.ndC k
    · rw [hlast]; exact getItems_nodup h
    · rw [hge hk]; exact List.nodup_nil
  · intro k hk
    simp only [h2] at hk
    have hget := h3 k
    rw [List.getElem?_eq_getElem (by rw [h2]; exact hk), List.getElem?_eq_getElem hk] at hget
    by_cases hkh : k ∈ hanging
    · rw [if_pos hkh] at hget
      have he : es'[k]'(by rw [h2]; exact hk) = { c.edges[k] with second := c.clusters.length } := by
        simpa using hget
      refine ⟨by simp only [he]; exact inv.first k hk, c.clusters.length, ?_, by simp, ?_, ?_⟩
      · rw [← inv.len]; exact hk
      · simp only [he]
      · intro x hx
        rw [hsp] at hx
        rw [hlast, mem_getItems h]
        exact (inv.hang k hkh).1 x hx
    · rw [if_neg hkh] at hget
      have he : es'[k]'(by rw [h2]; exact hk) = c.edges[k] := by simpa using hget
      obtain ⟨p, hp1, hp2, hp3, hp4⟩ := inv.done k hk hkh
      refine ⟨by simp only [he]; exact inv.first k hk, p, hp1, by simp; omega, ?_, ?_⟩
      · simp only [he]; exact hp3
      · intro x hx
        rw [hsp] at hx
        rw [hlt hp2]
        exact hp4 x hx
  · intro k hk
    simp only [h2] at hk
    obtain ⟨v, hv1, hv2, hv3, hv4, hv5⟩ := inv.elim k hk
    have hkc : k < c.clusters.length := by rw [← inv.len]; exact hk
    refine ⟨v, by rw [hsp]; exact hv2, ?_, ?_, ?_⟩
    · intro x; rw [hlt hkc, hsp]; exact hv3 x
    · intro j hj
      rcases lt_trichotomy j c.clusters.length with hk' | rfl | hk'
      · rw [hlt hk']; exact hv4 j hj
      · rw [hlast, mem_getItems h]; exact hv1
      · rw [hge hk']; simp
    · intro x hx
      rw [hsp] at hx
      rcases hv5 x hx with ha | ⟨j, hj, hxj⟩
      · exact ⟨c.clusters.length, hkc, by rw [hlast, mem_getItems h]; exact ha⟩
      · have hj' : j < c.clusters.length := by
          by_contra hc
          rw [cl_ge ops (by omega)] at hxj
          simp at hxj
        exact ⟨j, hj, by rw [hlt hj']; exact hxj⟩
  · intro F hF
    rcases inv.cover F hF with ⟨k, hk, hc⟩ | ⟨hc, -⟩
    · exact ⟨k, by simp; omega, fun x hx => by rw [hlt hk]; exact hc x hx⟩
    · exact ⟨c.clusters.length, by simp, fun x hx => by
        rw [hlast, mem_getItems h]; exact hc x hx⟩
  · intro x
    rw [← inv.items x]
    constructor
    · rintro ⟨k, hk⟩
      rcases lt_trichotomy k c.clusters.length with hk' | rfl | hk'
      · rw [hlt hk'] at hk; exact Or.inr ⟨k, hk⟩
      · rw [hlast, mem_getItems h] at hk; exact Or.inl hk
      · rw [hge hk'] at hk; simp at hk
    · rintro (ha | ⟨k, hk⟩)
      · exact ⟨c.clusters.length, by rw [hlast, mem_getItems h]; exact ha⟩
      · have hk' : k < c.clusters.length := by
          by_contra hc
          rw [cl_ge ops (by omega)] at hk
          simp at hk
        exact ⟨k, by rw [hlt hk']; exact hk⟩

theorem eliminate_ok {ops : Ops β} (hops : ItemsLaw ops) {factors : List (List ℤ)} {g : Graph}
    {A : AGraph} {c : CG β} {hanging : List ℕ} (h : Rep g A) (hne : A.active.Nonempty)
    (inv : Inv ops factors A c hanging) :
    ∃ g' c' hanging' A', eliminate ops g c hanging = Except.ok (g', c', hanging') ∧ Rep g' A' ∧
      Inv ops factors A' c' hanging' ∧ A'.active.card + 1 = A.active.card := by
  obtain ⟨v, hv, hva, -⟩ := chooseItem_ok h hne
  obtain ⟨sep, hsep, -, hsnd, hsm⟩ := neighbours_ok h (h.sub v hva)
  have hvsep : v ∉ sep := fun hc => h.irrefl v ((hsm v).mp hc).2
  set cluster := findItemsUnion [v] sep with hcluster
  have hcnd : cluster.Nodup := union_nodup (by simp) hsnd
  have hcm : ∀ x, x ∈ cluster ↔ x = v ∨ x ∈ sep := by
    intro x; rw [hcluster, mem_union]; simp
  set edges0 := c.edges ++
    [{ first := (c.clusters.length : ℤ), second := -1, belief := ops.ofItems sep }] with hedges0
  obtain ⟨es', h1, h2, h3⟩ := attach_fold ops cluster (c.clusters.length : ℤ) hanging edges0 []
    (fun k hk => by have := inv.hlt k hk; simp [hedges0]; omega) inv.hnd
  have h2' : es'.length = c.edges.length + 1 := by rw [h2, hedges0]; simp
  have hsp := sp_congr ops h3
  have hsp0 : ∀ {k}, k < c.edges.length → sp ops es' k = sp ops c.edges k := by
    intro k hk
    rw [hsp, hedges0, sp_append_lt ops hk]
  have hspn : sp ops es' c.edges.length = sep := by
    rw [hsp, hedges0, sp_append_eq, hops]
  have hspg : ∀ {k}, c.edges.length < k → sp ops es' k = [] := fun hk => sp_ge ops (by omega)
  obtain ⟨g1, e1, r1, l1⟩ := rep_connect sep h hsnd fun x hx => ((hsm x).mp hx).1
  obtain ⟨g2, e2, r2, l2⟩ := rep_removeNode r1 (i := v) (h.sub v hva)
  set c' : CG β := ⟨c.clusters ++ [ops.ofItems cluster], es'⟩ with hc'
  set A' : AGraph := (A.connect sep).remove v with hA'
  have hA'act : ∀ x, x ∈ A'.active ↔ x ≠ v ∧ x ∈ A.active := by
    intro x; simp [hA', AGraph.remove, AGraph.connect]
  have hA'adj : ∀ x y, A'.adj x y ↔ A.adj x y ∨ (x ≠ y ∧ x ∈ sep ∧ y ∈ sep) := by
    intro x y; rfl
  have hlt : ∀ {k}, k < c.clusters.length → cl ops c' k = cl ops c k :=
    fun hk => cl_append_lt ops hk
  have hlast : cl ops c' c.clusters.length = cluster := by rw [hc', cl_append_eq, hops]
  have hge : ∀ {k}, c.clusters.length < k → cl ops c' k = [] :=
    fun hk => cl_ge ops (by simp [hc']; omega)
  have hlt_of : ∀ {k x}, x ∈ cl ops c k → k < c.clusters.length := by
    intro k x hx
    by_contra hc
    rw [cl_ge ops (by omega)] at hx
    simp at hx
  -- the condition tested for a hanging edge
  have hsub : ∀ k ∈ hanging, (isSubset (sp ops edges0 k) cluster = true ↔
      ∀ x ∈ sp ops c.edges k, x ∈ cluster) := by
    intro k hk
    have : sp ops edges0 k = sp ops c.edges k := by
      rw [hedges0, sp_append_lt ops (inv.hlt k hk)]
    rw [this, isSubset_iff (inv.ndS k) hcnd]
  have hnewmem : ∀ k, k ∈ (hanging.filter fun k => !isSubset (sp ops edges0 k) cluster) ++
      [edges0.length - 1] ↔
      (k ∈ hanging ∧ isSubset (sp ops edges0 k) cluster = false) ∨ k = c.edges.length := by
    intro k
    have : edges0.length - 1 = c.edges.length := by simp [hedges0]
    rw [this]
    simp [List.mem_append, List.mem_filter]
  refine ⟨g2, c', (hanging.filter fun k => !isSubset (sp ops edges0 k) cluster) ++
    [c.edges.length], A', ?_, r2, ?_, ?_⟩
  · rw [eliminate, hv]
    simp only [res_ok_bind]
    rw [hsep]
    simp only [res_ok_bind]
    rw [← hcluster, ← hedges0, h1]
    simp only [res_ok_bind]
    rw [e1]
    simp only [res_ok_bind]
    rw [e2]
    simp [hc']
  · have hedge_at : ∀ k, (hk : k < c.edges.length) → (hk' : k < es'.length) →
        es'[k] = if k ∈ hanging ∧ isSubset (sp ops edges0 k) cluster = true
          then { c.edges[k] with second := (c.clusters.length : ℤ) } else c.edges[k] := by
      intro k hk hk'
      have := h3 k
      rw [List.getElem?_eq_getElem hk'] at this
      have h0 : edges0[k]? = some c.edges[k] := by
        rw [hedges0, List.getElem?_append_left hk, List.getElem?_eq_getElem hk]
      rw [h0] at this
      split
      · rename_i hc
        rw [if_pos hc] at this
        simpa using this
      · rename_i hc
        rw [if_neg hc] at this
        simpa using this
    have hedge_n : ∀ (hk' : c.edges.length < es'.length),
        es'[c.edges.length] = ⟨(c.clusters.length : ℤ), -1, ops.ofItems sep⟩ := by
      intro hk'
      have := h3 c.edges.length
      rw [List.getElem?_eq_getElem hk', if_neg] at this
      · have h0 : edges0[c.edges.length]? =
            some ⟨(c.clusters.length : ℤ), -1, ops.ofItems sep⟩ := by
          simp [hedges0]
        rw [h0] at this
        exact Option.some.inj this
      · rintro ⟨hc, -⟩
        exact absurd (inv.hlt _ hc) (lt_irrefl _)
    refine ⟨?_, ?_, ?_, ?_, ?_, ?_, ?_, ?_, ?_, ?_, ?_⟩
    · simp [hc', h2', inv.len]
    · refine nodup_snoc (inv.hnd.filter _) ?_
      intro hc
      have := inv.hlt _ (List.mem_of_mem_filter hc)
      omega
    · intro k hk
      simp only [List.mem_append, List.mem_filter, List.mem_singleton] at hk
      show k < es'.length
      rw [h2']
      rcases hk with hk | rfl
      · have := inv.hlt k hk.1; omega
      · omega
    · intro k hk
      have hk0 : k < es'.length := hk
      show (es'[k]).first = k
      rcases Nat.lt_or_ge k c.edges.length with hk' | hk'
      · rw [hedge_at k hk' hk0]
        split
        · exact inv.first k hk'
        · exact inv.first k hk'
      · have : k = c.edges.length := by omega
        subst this
        rw [hedge_n hk0]
        simp [inv.len]
    · intro k
      show (sp ops es' k).Nodup
      rcases lt_trichotomy k c.edges.length with hk | rfl | hk
      · rw [hsp0 hk]; exact inv.ndS k
      · rw [hspn]; exact hsnd
      · rw [hspg hk]; exact List.nodup_nil
    · intro k
      rcases lt_trichotomy k c.clusters.length with hk | rfl | hk
      · rw [hlt hk]; exact inv.ndC k
      · rw [hlast]; exact hcnd
      · rw [hge hk]; exact List.nodup_nil
    · intro k hk
      show (∀ x ∈ sp ops es' k, x ∈ A'.active) ∧ ∀ x ∈ sp ops es' k, ∀ y ∈ sp ops es' k,
        x ≠ y → A'.adj x y
      simp only [List.mem_append, List.mem_filter, List.mem_singleton] at hk
      rcases hk with ⟨hkh, hns⟩ | rfl
      · have hns' : ¬ ∀ x ∈ sp ops c.edges k, x ∈ cluster := by
          intro hc
          have := (hsub k hkh).mpr hc
          rw [this] at hns
          simp at hns
        obtain ⟨ha, hadj⟩ := inv.hang k hkh
        rw [hsp0 (inv.hlt k hkh)]
        refine ⟨fun x hx => (hA'act x).mpr ⟨?_, ha x hx⟩, fun x hx y hy hxy =>
          (hA'adj x y).mpr (Or.inl (hadj x hx y hy hxy))⟩
        rintro rfl
        apply hns'
        intro y hy
        rw [hcm]
        by_cases hyv : y = x
        · exact Or.inl hyv
        · exact Or.inr ((hsm y).mpr ⟨ha y hy, hadj x hx y hy (Ne.symm hyv)⟩)
      · rw [hspn]
        refine ⟨fun x hx => (hA'act x).mpr ⟨fun hc => hvsep (hc ▸ hx), ((hsm x).mp hx).1⟩,
          fun x hx y hy hxy => (hA'adj x y).mpr (Or.inr ⟨hxy, hx, hy⟩)⟩
    · intro k hk hkn
      have hk0 : k < es'.length := hk
      show ∃ p : ℕ, k < p ∧ p < c'.clusters.length ∧ (es'[k]).second = p ∧
        ∀ x ∈ sp ops es' k, x ∈ cl ops c' p
      simp only [List.mem_append, List.mem_filter, List.mem_singleton, not_or, not_and] at hkn
      have hk' : k < c.edges.length := by omega
      rw [hedge_at k hk' hk0, hsp0 hk']
      by_cases hkh : k ∈ hanging
      · have hs : isSubset (sp ops edges0 k) cluster = true := by
          have := hkn.1 hkh
          simpa using this
        rw [if_pos ⟨hkh, hs⟩]
        refine ⟨c.clusters.length, by rw [← inv.len]; exact hk', by simp [hc'], rfl, ?_⟩
        intro x hx
        rw [hlast]
        exact (hsub k hkh).mp hs x hx
      · rw [if_neg fun hc => hkh hc.1]
        obtain ⟨p, hp1, hp2, hp3, hp4⟩ := inv.done k hk' hkh
        exact ⟨p, hp1, by simp [hc']; omega, hp3, fun x hx => by rw [hlt hp2]; exact hp4 x hx⟩
    · intro k hk
      have hk0 : k < es'.length := hk
      show ∃ w, w ∉ A'.active ∧ w ∉ sp ops es' k ∧
        (∀ x, x ∈ cl ops c' k ↔ x = w ∨ x ∈ sp ops es' k) ∧ (∀ j, k < j → w ∉ cl ops c' j) ∧
        ∀ x ∈ sp ops es' k, x ∈ A'.active ∨ ∃ j, k < j ∧ x ∈ cl ops c' j
      rcases Nat.lt_or_ge k c.edges.length with hk' | hk'
      · obtain ⟨w, hw1, hw2, hw3, hw4, hw5⟩ := inv.elim k hk'
        have hkc : k < c.clusters.length := by rw [← inv.len]; exact hk'
        have hwv : w ≠ v := fun hc => hw1 (hc ▸ hva)
        refine ⟨w, fun hc => hw1 ((hA'act w).mp hc).2, by rw [hsp0 hk']; exact hw2, ?_, ?_, ?_⟩
        · intro x; rw [hlt hkc, hsp0 hk']; exact hw3 x
        · intro j hj
          rcases lt_trichotomy j c.clusters.length with hk'' | rfl | hk''
          · rw [hlt hk'']; exact hw4 j hj
          · rw [hlast, hcm]
            rintro (hc | hc)
            · exact hwv hc
            · exact hw1 ((hsm w).mp hc).1
          · rw [hge hk'']; simp
        · intro x hx
          rw [hsp0 hk'] at hx
          rcases hw5 x hx with ha | ⟨j, hj, hxj⟩
          · by_cases hxv : x = v
            · exact Or.inr ⟨c.clusters.length, hkc, by rw [hlast, hcm]; exact Or.inl hxv⟩
            · exact Or.inl ((hA'act x).mpr ⟨hxv, ha⟩)
          · exact Or.inr ⟨j, hj, by rw [hlt (hlt_of hxj)]; exact hxj⟩
      · have : k = c.edges.length := by omega
        subst this
        refine ⟨v, fun hc => ((hA'act v).mp hc).1 rfl, by rw [hspn]; exact hvsep, ?_, ?_, ?_⟩
        · intro x
          rw [hspn]
          have : cl ops c' c.edges.length = cluster := by rw [inv.len]; exact hlast
          rw [this]
          exact hcm x
        · intro j hj
          rw [hge (by rw [← inv.len]; exact hj)]
          simp
        · intro x hx
          rw [hspn] at hx
          exact Or.inl ((hA'act x).mpr ⟨fun hc => hvsep (hc ▸ hx), ((hsm x).mp hx).1⟩)
    · intro F hF
      rcases inv.cover F hF with ⟨k, hk, hc⟩ | ⟨ha, hadj⟩
      · exact Or.inl ⟨k, by simp [hc']; omega, fun x hx => by rw [hlt hk]; exact hc x hx⟩
      · by_cases hvF : v ∈ F
        · refine Or.inl ⟨c.clusters.length, by simp [hc'], fun x hx => ?_⟩
          rw [hlast, hcm]
          by_cases hxv : x = v
          · exact Or.inl hxv
          · exact Or.inr ((hsm x).mpr ⟨ha x hx, hadj v hvF x hx (Ne.symm hxv)⟩)
        · refine Or.inr ⟨fun x hx => (hA'act x).mpr ⟨fun hc => hvF (hc ▸ hx), ha x hx⟩,
            fun x hx y hy hxy => (hA'adj x y).mpr (Or.inl (hadj x hx y hy hxy))⟩
    · intro x
      rw [← inv.items x, hA'act]
      constructor
      · rintro (⟨-, ha⟩ | ⟨k, hk⟩)
        · exact Or.inl ha
        · rcases lt_trichotomy k c.clusters.length with hk' | rfl | hk'
          · rw [hlt hk'] at hk; exact Or.inr ⟨k, hk⟩
          · rw [hlast, hcm] at hk
            rcases hk with rfl | hk
            · exact Or.inl hva
            · exact Or.inl ((hsm x).mp hk).1
          · rw [hge hk'] at hk; simp at hk
      · rintro (ha | ⟨k, hk⟩)
        · by_cases hxv : x = v
          · exact Or.inr ⟨c.clusters.length, by rw [hlast, hcm]; exact Or.inl hxv⟩
          · exact Or.inl ⟨hxv, ha⟩
        · exact Or.inr ⟨k, by rw [hlt (hlt_of hk)]; exact hk⟩
  · have : A'.active = A.active.erase v := rfl
    rw [this]
    exact Finset.card_erase_add_one hva

/-- The recursion terminates and builds a cluster graph with the stated structure. -/
theorem internal_ok {ops : Ops β} (hops : ItemsLaw ops) {factors : List (List ℤ)} {ar : Arith}
    {B : ℤ} (hf : Fits ar B) (hB1 : 1 ≤ B) : ∀ (fuel : ℕ) {g : Graph} {A : AGraph} {c : CG β}
    {hanging : List ℕ}, Rep g A → Inv ops factors A c hanging → A.active.card < fuel →
    (A.active.card : ℤ) * (A.active.card - 1) ≤ B → (A.active.card : ℤ) ≤ B →
    ∃ c', initializeInternal ar ops fuel g c hanging = Except.ok c' ∧ Built ops factors c'
  | 0, g, A, c, hanging, _, _, hfu, _, _ => absurd hfu (by omega)
  | fuel + 1, g, A, c, hanging, h, inv, hfu, hb1, hb2 => by
    obtain ⟨b, hb, hbc⟩ := isComplete_ok h hf hB1 hb1 hb2
    rw [initializeInternal, hb]
    simp only [res_ok_bind]
    by_cases hc : b = true
    · rw [if_pos hc]
      exact finish_ok hops h inv
    · rw [if_neg hc]
      have hne : A.active.Nonempty := by
        rw [Finset.nonempty_iff_ne_empty]
        intro he
        apply hc
        rw [hbc]
        intro x hx
        rw [he] at hx
        simp at hx
      obtain ⟨g', c', hanging', A', e, r, inv', hcard⟩ := eliminate_ok hops h hne inv
      rw [e]
      simp only [res_ok_bind]
      have h1 : (A'.active.card : ℤ) + 1 = A.active.card := by exact_mod_cast hcard
      have h0 : (0 : ℤ) ≤ A'.active.card := by positivity
      refine internal_ok hops hf hB1 fuel r inv' (by omega) ?_ (by omega)
      rw [← h1] at hb1
      nlinarith

theorem init_ok {ops : Ops β} (hops : ItemsLaw ops) (factors : List (List ℤ))
    (hF : ∀ F ∈ factors, F.Nodup) {ar : Arith} {B : ℤ} (hf : Fits ar B) (hB1 : 1 ≤ B)
    (hb1 : (((depA factors).active.card : ℕ) : ℤ) * ((depA factors).active.card - 1) ≤ B)
    (hb2 : (((depA factors).active.card : ℕ) : ℤ) ≤ B) :
    ∃ g c, makeDependenceGraph factors = Except.ok g ∧ initStructure ar ops g = Except.ok c ∧
      Built ops factors c := by
  obtain ⟨g, e, r, hl⟩ := rep_makeDependenceGraph factors hF
  have inv : Inv ops factors (depA factors) ⟨[], []⟩ [] := by
    refine ⟨rfl, List.nodup_nil, by simp, by simp, by simp [sp], by simp [cl], by simp, by simp,
      by simp, ?_, ?_⟩
    · intro F hFm
      refine Or.inr ⟨fun x hx => ?_, fun x hx y hy hxy => ⟨hxy, F, hFm, hx, hy⟩⟩
      have : x ∈ (depA factors).items := (mem_depA_items hF).mpr ⟨F, hFm, hx⟩
      simpa [depA] using this
    · intro x
      rw [← mem_depA_items hF]
      simp [cl, depA]
  have hcard : (depA factors).active.card < g.verts.length + 1 := by
    rw [hl]
    have : (depA factors).active.card ≤ (depA factors).items.length := List.toFinset_card_le _
    omega
  obtain ⟨c, ec, hc⟩ := internal_ok hops hf hB1 (g.verts.length + 1) r inv hcard hb1 hb2
  exact ⟨g, c, e, ec, hc⟩

/-! ## Every cluster and edge belief is freshly constructed from an item list -/

theorem setSecond_belief {es es' : List (Edge β)} {k : ℕ} {id : ℤ}
    (h : setSecond es k id = Except.ok es') : ∀ e ∈ es', ∃ e0 ∈ es, e.belief = e0.belief := by
  by_cases hk : k < es.length
  · rw [setSecond_ok hk] at h
    cases h
    intro e he
    rcases List.mem_or_eq_of_mem_set he with he | rfl
    · exact ⟨e, he, rfl⟩
    · exact ⟨es[k], List.getElem_mem hk, rfl⟩
  · rw [setSecond, atE, List.getElem?_eq_none (by omega)] at h
    cases h

theorem attach_belief (ops : Ops β) (cluster : List ℤ) (id : ℤ) :
    ∀ (hanging : List ℕ) (s s' : List (Edge β) × List ℕ),
    hanging.foldlM (attachStep ops cluster id) s = Except.ok s' →
    ∀ e ∈ s'.1, ∃ e0 ∈ s.1, e.belief = e0.belief
  | [], s, s', h => by cases h; exact fun e he => ⟨e, he, rfl⟩
  | k :: ks, s, s', h => by
    rw [List.foldlM_cons] at h
    rcases hs : attachStep ops cluster id s k with err | s1
    · rw [hs] at h; cases h
    rw [hs] at h
    intro e he
    obtain ⟨e1, he1, hb1⟩ := attach_belief ops cluster id ks s1 s' h e he
    have h1 : ∃ e0 ∈ s.1, e1.belief = e0.belief := by
      rw [attachStep] at hs
      rcases ha : atE s.1 k with err | e2
      · rw [ha] at hs; cases hs
      rw [ha] at hs
      simp only [res_ok_bind] at hs
      split at hs
      · rcases hq : setSecond s.1 k id with err | es
        · rw [hq] at hs; cases hs
        rw [hq] at hs
        cases hs
        exact setSecond_belief hq e1 he1
      · cases hs
        exact ⟨e1, he1, rfl⟩
    obtain ⟨e0, he0, hb0⟩ := h1
    exact ⟨e0, he0, hb1.trans hb0⟩

theorem finish_belief (id : ℤ) : ∀ (hanging : List ℕ) (es es' : List (Edge β)),
    hanging.foldlM (fun es k => setSecond es k id) es = Except.ok es' →
    ∀ e ∈ es', ∃ e0 ∈ es, e.belief = e0.belief
  | [], es, es', h => by cases h; exact fun e he => ⟨e, he, rfl⟩
  | k :: ks, es, es', h => by
    rw [List.foldlM_cons] at h
    rcases hs : setSecond es k id with err | es1
    · rw [hs] at h; cases h
    rw [hs] at h
    intro e he
    obtain ⟨e1, he1, hb1⟩ := finish_belief id ks es1 es' h e he
    obtain ⟨e0, he0, hb0⟩ := setSecond_belief hs e1 he1
    exact ⟨e0, he0, hb1.trans hb0⟩

/-- Clusters and edge beliefs come from the constructor. -/
def Fresh (ops : Ops β) (c : CG β) : Prop :=
  (∀ b ∈ c.clusters, ∃ l, b = ops.ofItems l) ∧ ∀ e ∈ c.edges, ∃ l, e.belief = ops.ofItems l

theorem internal_form {ar : Arith} {ops : Ops β} : ∀ (fuel : ℕ) {g : Graph} {c c' : CG β}
    {hanging : List ℕ}, Fresh ops c → initializeInternal ar ops fuel g c hanging = Except.ok c' →
    Fresh ops c'
  | 0, g, c, c', hanging, _, h => by cases h
  | fuel + 1, g, c, c', hanging, hfr, h => by
    rw [initializeInternal] at h
    rcases hc : isComplete ar g with err | b
    · rw [hc] at h; cases h
    rw [hc] at h
    simp only [res_ok_bind] at h
    split at h
    · rw [finish] at h
      rcases hq : hanging.foldlM (fun es id => setSecond es id (c.clusters.length : ℤ)) c.edges
        with err | es
      · rw [hq] at h; cases h
      rw [hq] at h
      cases h
      refine ⟨?_, ?_⟩
      · intro b' hb'
        rcases List.mem_append.mp hb' with hb' | hb'
        · exact hfr.1 b' hb'
        · exact ⟨_, List.mem_singleton.mp hb'⟩
      · intro e he
        obtain ⟨e0, he0, hb0⟩ := finish_belief _ hanging c.edges es hq e he
        obtain ⟨l, hl⟩ := hfr.2 e0 he0
        exact ⟨l, hb0.trans hl⟩
    · rcases hq : eliminate ops g c hanging with err | s
      · rw [hq] at h; cases h
      rw [hq] at h
      simp only [res_ok_bind] at h
      refine internal_form fuel ?_ h
      rw [eliminate] at hq
      rcases h1 : chooseItem g with err | v
      · rw [h1] at hq; cases hq
      rw [h1] at hq
      simp only [res_ok_bind] at hq
      rcases h2 : findNeighbours g v with err | sep
      · rw [h2] at hq; cases hq
      rw [h2] at hq
      simp only [res_ok_bind] at hq
      rcases h3 : hanging.foldlM (attachStep ops (findItemsUnion [v] sep) (c.clusters.length : ℤ))
        (c.edges ++ [⟨(c.clusters.length : ℤ), -1, ops.ofItems sep⟩], []) with err | s1
      · rw [h3] at hq; cases hq
      rw [h3] at hq
      simp only [res_ok_bind] at hq
      rcases h4 : connect g sep with err | g1
      · rw [h4] at hq; cases hq
      rw [h4] at hq
      simp only [res_ok_bind] at hq
      rcases h5 : removeNode g1 v with err | g2
      · rw [h5] at hq; cases hq
      rw [h5] at hq
      cases hq
      refine ⟨?_, ?_⟩
      · intro b' hb'
        rcases List.mem_append.mp hb' with hb' | hb'
        · exact hfr.1 b' hb'
        · exact ⟨_, List.mem_singleton.mp hb'⟩
      · intro e he
        obtain ⟨e0, he0, hb0⟩ := attach_belief ops _ _ hanging _ s1 h3 e he
        rcases List.mem_append.mp he0 with he0 | he0
        · obtain ⟨l, hl⟩ := hfr.2 e0 he0
          exact ⟨l, hb0.trans hl⟩
        · rw [List.mem_singleton] at he0
          exact ⟨sep, by rw [hb0, he0]⟩

theorem init_form {ar : Arith} {ops : Ops β} {g : Graph} {c : CG β}
    (h : initStructure ar ops g = Except.ok c) : Fresh ops c :=
  internal_form _ ⟨by simp, by simp⟩ h

end Verif.ClusterGraph
