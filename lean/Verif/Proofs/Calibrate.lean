import Verif.Model.Calibrate
import Verif.Proofs.ClusterExact

/-! Calibration in both directions with exact local integrals. -/
namespace Verif.ClusterGraph

open Verif.Items Verif.DepGraph MeasureTheory
open scoped ENNReal

variable {β : Type} {ops : Ops β} {WF : β → Prop} {ev : β → (ℤ → ℝ) → ℝ}

/-- What messages do not change: the clusters' items, the ends of the edges and, as sets, their
items. -/
structure Same (ops : Ops β) (WF : β → Prop) (c0 c : CG β) : Prop where
  inv : MsgInv ops WF c
  items : clusterItems ops c = clusterItems ops c0
  len : c.edges.length = c0.edges.length
  ends : ∀ (k : ℕ) (hk : k < c.edges.length) (hk' : k < c0.edges.length),
    c.edges[k].first = c0.edges[k].first ∧ c.edges[k].second = c0.edges[k].second
  seps : ∀ (k : ℕ) (hk : k < c.edges.length) x,
    x ∈ ops.items c.edges[k].belief ↔ x ∈ sp ops c0.edges k

theorem Same.refl {c0 : CG β} (inv : MsgInv ops WF c0) : Same ops WF c0 c0 :=
  ⟨inv, rfl, rfl, fun _ _ _ => ⟨rfl, rfl⟩, fun k hk x => by rw [sp_eq hk]⟩

theorem same_step (L : Laws ops WF ev) {c0 c c' : CG β} {k : ℕ} {fw na : Bool}
    (S : Same ops WF c0 c) (h : passMessage ops c k fw na = Except.ok c') : Same ops WF c0 c' := by
  obtain ⟨hke, i, j, hi, hj, b, r, hends, hsub, hm, hbw, hrw, hri, hrv, hc1, hc2, -⟩ :=
    passMessage_form L S.inv h
  obtain ⟨inv', -, hit, -, -⟩ := passMessage_joint L S.inv h
  have hbi := (L.margin_items _ _ _ _ (S.inv.wfC _ (List.getElem_mem hi))
    (L.nodup _ (S.inv.wfE _ (List.getElem_mem hke))) hsub hm).2
  refine ⟨inv', hit.trans S.items, by rw [hc2, List.length_set, S.len], ?_, ?_⟩
  · intro l hl hl'
    simp only [hc2, List.getElem_set]
    split
    · rename_i hkl
      subst hkl
      exact S.ends k hke hl'
    · exact S.ends l (by rw [hc2, List.length_set] at hl; exact hl) hl'
  · intro l hl x
    simp only [hc2, List.getElem_set]
    split
    · rename_i hkl
      subst hkl
      rw [hbi x]
      exact S.seps k hke x
    · exact S.seps l (by rw [hc2, List.length_set] at hl; exact hl) x

theorem Same.lenC {c0 c : CG β} (S : Same ops WF c0 c) : c.clusters.length = c0.clusters.length := by
  have := congrArg List.length S.items
  simpa [clusterItems] using this

theorem Same.cl {c0 c : CG β} (S : Same ops WF c0 c) {k : ℕ} (hk : k < c.clusters.length) :
    ops.items c.clusters[k] = ClusterGraph.cl ops c0 k := by
  have hk0 : k < (clusterItems ops c0).length := by rw [len_ci, ← S.lenC]; exact hk
  rw [← clusterItems_get hk (by rw [len_ci]; exact hk), ← cl_eq hk0]
  simp only [S.items]

/-- Log value of the clusters and edges from number `m` on. -/
def tailJ (ev : β → (ℤ → ℝ) → ℝ) (c : CG β) (m : ℕ) (a : ℤ → ℝ) : ℝ :=
  ((c.clusters.drop m).map fun b => ev b a).sum - ((c.edges.drop m).map fun e => ev e.belief a).sum

theorem tailJ_zero (c : CG β) : tailJ ev c 0 = joint ev c := by
  funext a
  simp [tailJ, joint]

theorem drop_set_sum {α : Type} (f : α → ℝ) {l : List α} {j m : ℕ} {r : α} (hj : j < l.length)
    (hm : m ≤ j) : (((l.set j r).drop m).map f).sum = ((l.drop m).map f).sum + (f r - f l[j]) := by
  rw [List.drop_set, if_neg (by omega)]
  have hj' : j - m < (l.drop m).length := by rw [List.length_drop]; omega
  rw [sum_set f _ _ r hj', List.getElem_drop]
  have : m + (j - m) = j := by omega
  simp only [this]

theorem drop_set_same {α : Type} {l : List α} {j m : ℕ} {r : α} (hm : j < m) :
    (l.set j r).drop m = l.drop m := by
  rw [List.drop_set, if_pos hm]

section
variable {factors : List (List ℤ)} {c0 c : CG β}

/-- The set of all items. -/
def allItems (ops : Ops β) (c0 : CG β) : Finset ℤ := later (clusterItems ops c0) 0

/-- The items that occur only in clusters before number `m`. -/
def gone (ops : Ops β) (c0 : CG β) (m : ℕ) : Finset ℤ :=
  allItems ops c0 \ later (clusterItems ops c0) m

theorem mem_later' {m : ℕ} {x : ℤ} :
    x ∈ later (clusterItems ops c0) m ↔ ∃ j, m ≤ j ∧ x ∈ cl ops c0 j := by
  rw [mem_later]
  constructor
  · rintro ⟨j, hj, h1, h2⟩
    exact ⟨j, h1, by rw [← cl_eq hj]; exact h2⟩
  · rintro ⟨j, h1, h2⟩
    have hj : j < (clusterItems ops c0).length := by rw [len_ci]; exact Built.lt_of_mem h2
    exact ⟨j, hj, h1, by rw [cl_eq hj]; exact h2⟩

theorem mem_allItems {x : ℤ} : x ∈ allItems ops c0 ↔ ∃ j, x ∈ cl ops c0 j := by
  rw [allItems, mem_later']
  simp

theorem later_sub {m : ℕ} {x : ℤ} (h : x ∈ later (clusterItems ops c0) m) : x ∈ allItems ops c0 := by
  rw [mem_later'] at h
  obtain ⟨j, -, hj⟩ := h
  exact mem_allItems.2 ⟨j, hj⟩

theorem tailJ_local (X : ExactLaws ops WF ev) (hB : Built ops factors c0) (S : Same ops WF c0 c)
    {m : ℕ} {a a' : ℤ → ℝ} (h : ∀ x ∈ later (clusterItems ops c0) m, a x = a' x) :
    tailJ ev c m a = tailJ ev c m a' := by
  unfold tailJ
  congr 1
  · refine local_sum _ fun d hd => ?_
    refine X.local_ d (S.inv.wfC d (List.mem_of_mem_drop hd)) a a' fun x hx => h x ?_
    obtain ⟨l, hl, rfl⟩ := List.mem_iff_getElem.mp hd
    rw [List.length_drop] at hl
    rw [List.getElem_drop, S.cl (by omega)] at hx
    exact mem_later'.2 ⟨m + l, by omega, hx⟩
  · refine local_sum (f := fun e : Edge β => ev e.belief) _ fun e he => ?_
    refine X.local_ e.belief (S.inv.wfE e (List.mem_of_mem_drop he)) a a' fun x hx => h x ?_
    obtain ⟨l, hl, rfl⟩ := List.mem_iff_getElem.mp he
    rw [List.length_drop] at hl
    rw [List.getElem_drop, S.seps _ (by omega)] at hx
    obtain ⟨v, -, hv2, -⟩ := hB.elim (m + l) (by rw [← S.len]; omega)
    exact mem_later'.2 ⟨m + l, by omega, (hv2 x).2 (Or.inr hx)⟩

theorem tailJ_meas (X : ExactLaws ops WF ev) (S : Same ops WF c0 c) (m : ℕ) :
    Measurable (tailJ ev c m) :=
  (measurable_sum _ fun d hd => X.meas d (S.inv.wfC d (List.mem_of_mem_drop hd))).sub
    (measurable_sum (f := fun e : Edge β => ev e.belief) _ fun e he =>
      X.meas e.belief (S.inv.wfE e (List.mem_of_mem_drop he)))

/-- The clusters and edges from number `m` on represent the integral of `F` over the other items. -/
def Tails (ops : Ops β) (ev : β → (ℤ → ℝ) → ℝ) (c0 : CG β) (F : (ℤ → ℝ) → ℝ≥0∞) (c : CG β) (m : ℕ) :
    Prop := wt (tailJ ev c m) = integ (gone ops c0 m) F

theorem integ_union {s t : Finset ℤ} {F : (ℤ → ℝ) → ℝ≥0∞} (hF : Measurable F) (h : Disjoint s t) :
    integ (s ∪ t) F = integ s (integ t F) :=
  lmarginal_union _ F hF h

theorem gone_succ (hB : Built ops factors c0) {k : ℕ} {v : ℤ}
    (hv1 : v ∉ sp ops c0.edges k)
    (hv2 : ∀ x, x ∈ cl ops c0 k ↔ x = v ∨ x ∈ sp ops c0.edges k) (hv3 : ∀ j, k < j → v ∉ cl ops c0 j)
    (hv4 : ∀ x ∈ sp ops c0.edges k, ∃ j, k < j ∧ x ∈ cl ops c0 j) :
    gone ops c0 (k + 1) = {v} ∪ gone ops c0 k ∧ Disjoint {v} (gone ops c0 k) := by
  have hvk : v ∈ later (clusterItems ops c0) k := mem_later'.2 ⟨k, le_rfl, (hv2 v).2 (Or.inl rfl)⟩
  constructor
  · ext x
    simp only [gone, Finset.mem_union, Finset.mem_singleton, Finset.mem_sdiff]
    constructor
    · rintro ⟨h1, h2⟩
      by_cases hx : x = v
      · exact Or.inl hx
      · refine Or.inr ⟨h1, fun h3 => ?_⟩
        obtain ⟨j, hj1, hj2⟩ := mem_later'.1 h3
        rcases Nat.lt_or_ge k j with h4 | h4
        · exact h2 (mem_later'.2 ⟨j, h4, hj2⟩)
        · have : j = k := by omega
          subst this
          rcases (hv2 x).1 hj2 with h5 | h5
          · exact hx h5
          · obtain ⟨l, hl1, hl2⟩ := hv4 x h5
            exact h2 (mem_later'.2 ⟨l, hl1, hl2⟩)
    · rintro (rfl | ⟨h1, h2⟩)
      · refine ⟨later_sub hvk, fun h => ?_⟩
        obtain ⟨j, hj1, hj2⟩ := mem_later'.1 h
        exact hv3 j (by omega) hj2
      · refine ⟨h1, fun h => h2 ?_⟩
        obtain ⟨j, hj1, hj2⟩ := mem_later'.1 h
        exact mem_later'.2 ⟨j, by omega, hj2⟩
  · rw [Finset.disjoint_singleton_left, gone, Finset.mem_sdiff]
    exact fun h => h.2 hvk

/-- A message forward, over the next edge. -/
theorem fwd_step (L : Laws ops WF ev) (X : ExactLaws ops WF ev) {c' : CG β}
    {k : ℕ} {F : (ℤ → ℝ) → ℝ≥0∞} (hF : Measurable F) (hB : Built ops factors c0)
    (hk : k < c0.edges.length) (S : Same ops WF c0 c) (T : ∀ m ≤ k, Tails ops ev c0 F c m)
    (h : passMessage ops c k true false = Except.ok c') :
    ∀ m ≤ k + 1, Tails ops ev c0 F c' m := by
  obtain ⟨hke, i, j, hi, hj, b, r, hends, hsub, hm, hbw, hrw, hri, hrv, hc1, hc2, -⟩ :=
    passMessage_form L S.inv h
  obtain ⟨hf, p, hkp, hpn, hs, hps⟩ := hB.edge k hk
  have hij : i = k ∧ j = p := by
    rw [ClusterGraph.ends, if_pos rfl, (S.ends k hke hk).1, (S.ends k hke hk).2, hf, hs] at hends
    simp only [Prod.mk.injEq, Nat.cast_inj] at hends
    exact ⟨hends.1.symm, hends.2.symm⟩
  obtain ⟨rfl, rfl⟩ := hij
  have hdiff : ∀ m ≤ j, (fun a => (((c'.clusters).drop m).map fun b => ev b a).sum) =
      fun a => ((c.clusters.drop m).map fun b => ev b a).sum +
        (ev b a - ev c.edges[i].belief a) := by
    intro m hm
    funext a
    rw [hc1, drop_set_sum (fun b => ev b a) hj hm, hrv a]
    ring
  intro m hmk
  rcases Nat.lt_or_ge i m with h1 | h1
  · have : m = i + 1 := by omega
    subst this
    obtain ⟨v, hv1, hv2, hv3, hv4⟩ := hB.elim i hk
    obtain ⟨hg, hd⟩ := gone_succ hB hv1 hv2 hv3 hv4
    unfold Tails
    rw [hg, integ_union hF hd, ← T i le_rfl]
    have hset : (ops.items c.clusters[i]).toFinset \ (ops.items c.edges[i].belief).toFinset = {v} := by
      ext x
      rw [S.cl hi, Finset.mem_sdiff, List.mem_toFinset, List.mem_toFinset, S.seps i hke,
        Finset.mem_singleton, hv2 x]
      constructor
      · rintro ⟨h1 | h1, h2⟩
        · exact h1
        · exact absurd h1 h2
      · rintro rfl
        exact ⟨Or.inl rfl, hv1⟩
    have hmar : wt (ev b) = integ {v} (wt (ev c.clusters[i])) := by
      funext a
      rw [X.margin_exact _ _ _ (S.inv.wfC _ (List.getElem_mem hi))
        (L.nodup _ (S.inv.wfE _ (List.getElem_mem hke))) hsub hm a, hset]
    have h2 : tailJ ev c i = fun a => ev c.clusters[i] a +
        (tailJ ev c (i + 1) a - ev c.edges[i].belief a) := by
      funext a
      simp only [tailJ]
      rw [List.drop_eq_getElem_cons hi, List.drop_eq_getElem_cons hke]
      simp only [List.map_cons, List.sum_cons]
      ring
    have h3 : tailJ ev c' (i + 1) = fun a => ev b a +
        (tailJ ev c (i + 1) a - ev c.edges[i].belief a) := by
      funext a
      simp only [tailJ]
      rw [congrFun (hdiff (i + 1) (by omega)) a, hc2, drop_set_same (by omega)]
      ring
    rw [h2, h3, wt_add, wt_add, hmar]
    rw [integ_mul (wt_measurable (X.meas _ (S.inv.wfC _ (List.getElem_mem hi))))]
    intro a a' haa
    have hvl : ∀ x ∈ later (clusterItems ops c0) (i + 1), a x = a' x := by
      intro x hx
      refine haa x ?_
      rw [Finset.mem_singleton]
      rintro rfl
      obtain ⟨l, hl1, hl2⟩ := mem_later'.1 hx
      exact hv3 l (by omega) hl2
    rw [wt, wt, tailJ_local X hB S hvl, X.local_ _ (S.inv.wfE _ (List.getElem_mem hke)) a a' ?_]
    intro x hx
    rw [S.seps i hke] at hx
    refine haa x ?_
    rw [Finset.mem_singleton]
    rintro rfl
    exact hv1 hx
  · have hT := T m h1
    unfold Tails at hT ⊢
    rw [← hT]
    congr 1
    funext a
    simp only [tailJ]
    rw [congrFun (hdiff m (by omega)) a, hc2,
      drop_set_sum (fun e : Edge β => ev e.belief a) hke (by omega)]
    ring

/-- A cluster is the marginal of `F`. -/
def Marg (ops : Ops β) (ev : β → (ℤ → ℝ) → ℝ) (c0 : CG β) (F : (ℤ → ℝ) → ℝ≥0∞) (b : β)
    (l : List ℤ) : Prop := wt (ev b) = integ (allItems ops c0 \ l.toFinset) F

/-- A margin of a marginal is a marginal. -/
theorem marg_margin (L : Laws ops WF ev) (X : ExactLaws ops WF ev) {F : (ℤ → ℝ) → ℝ≥0∞}
    (hF : Measurable F) {b r : β} {l : List ℤ} (hb : WF b)
    (hbl : ∀ x ∈ ops.items b, x ∈ allItems ops c0) (hM : Marg ops ev c0 F b (ops.items b))
    (hl : l.Nodup) (hsub : ∀ x ∈ l, x ∈ ops.items b) (hr : ops.margin b l false = Except.ok r) :
    Marg ops ev c0 F r l := by
  unfold Marg at hM ⊢
  funext a
  rw [X.margin_exact _ _ _ hb hl hsub hr a, hM, ← integ_union hF]
  · congr 1
    ext x
    simp only [Finset.mem_union, Finset.mem_sdiff, List.mem_toFinset]
    constructor
    · rintro (⟨h1, h2⟩ | ⟨h1, h2⟩)
      · exact ⟨hbl x h1, h2⟩
      · exact ⟨h1, fun h => h2 (hsub x h)⟩
    · rintro ⟨h1, h2⟩
      by_cases h3 : x ∈ ops.items b
      · exact Or.inl ⟨h3, h2⟩
      · exact Or.inr ⟨h1, h3⟩
  · rw [Finset.disjoint_left]
    intro x h1 h2
    simp only [Finset.mem_sdiff, List.mem_toFinset] at h1 h2
    exact h2.2 h1.1

/-- A message backward, over the last edge that is not done. -/
theorem bwd_step (L : Laws ops WF ev) (X : ExactLaws ops WF ev) {c' : CG β}
    {k : ℕ} {F : (ℤ → ℝ) → ℝ≥0∞} (hF : Measurable F) (hB : Built ops factors c0)
    (hk : k < c0.edges.length) (S : Same ops WF c0 c)
    (T : ∀ m ≤ c0.edges.length, Tails ops ev c0 F c m)
    (M : ∀ (j : ℕ) (hj : j < c.clusters.length), k < j →
      Marg ops ev c0 F c.clusters[j] (ops.items c.clusters[j]))
    (E : ∀ (l : ℕ) (hl : l < c.edges.length), k < l →
      Marg ops ev c0 F c.edges[l].belief (ops.items c.edges[l].belief))
    (h : passMessage ops c k false false = Except.ok c') :
    (∀ m ≤ c0.edges.length, Tails ops ev c0 F c' m) ∧
    (∀ (j : ℕ) (hj : j < c'.clusters.length), k ≤ j →
      Marg ops ev c0 F c'.clusters[j] (ops.items c'.clusters[j])) ∧
    (∀ (l : ℕ) (hl : l < c'.edges.length), k ≤ l →
      Marg ops ev c0 F c'.edges[l].belief (ops.items c'.edges[l].belief)) := by
  obtain ⟨hke, i, j, hi, hj, b, r, hends, hsub, hm, hbw, hrw, hri, hrv, hc1, hc2, -⟩ :=
    passMessage_form L S.inv h
  obtain ⟨hf, p, hkp, hpn, hs, hps⟩ := hB.edge k hk
  have hij : i = p ∧ j = k := by
    rw [ClusterGraph.ends, if_neg (by simp), (S.ends k hke hk).1, (S.ends k hke hk).2, hf, hs]
      at hends
    simp only [Prod.mk.injEq, Nat.cast_inj] at hends
    exact ⟨hends.1.symm, hends.2.symm⟩
  obtain ⟨rfl, rfl⟩ := hij
  obtain ⟨v, hv1, hv2, hv3, hv4⟩ := hB.elim j hk
  have hnd := L.nodup _ (S.inv.wfE _ (List.getElem_mem hke))
  have hbi := (L.margin_items _ _ _ _ (S.inv.wfC _ (List.getElem_mem hi)) hnd hsub hm).2
  have hb : Marg ops ev c0 F b (ops.items c.edges[j].belief) :=
    marg_margin L X hF (S.inv.wfC _ (List.getElem_mem hi))
      (fun x hx => by rw [S.cl hi] at hx; exact mem_allItems.2 ⟨i, hx⟩) (M i hi hkp) hnd hsub hm
  refine ⟨?_, ?_, ?_⟩
  · intro m hmn
    have hT := T m hmn
    unfold Tails at hT ⊢
    rw [← hT]
    congr 1
    funext a
    simp only [tailJ]
    rcases Nat.lt_or_ge j m with h1 | h1
    · rw [hc1, hc2, drop_set_same h1, drop_set_same h1]
    · rw [hc1, hc2, drop_set_sum (fun b => ev b a) hj h1,
        drop_set_sum (fun e : Edge β => ev e.belief a) hke h1, hrv a]
      ring
  · intro l hl hkl
    simp only [hc1]
    rcases Nat.eq_or_lt_of_le hkl with rfl | h1
    swap
    · rw [List.getElem_set_ne (by omega)]
      exact M l (by rw [hc1, List.length_set] at hl; exact hl) h1
    rw [List.getElem_set_self]
    -- the cluster that is changed
    have hR1 : allItems ops c0 \ (ops.items r).toFinset =
        (later (clusterItems ops c0) (j + 1) \ (sp ops c0.edges j).toFinset) ∪ gone ops c0 j ∧
        Disjoint (later (clusterItems ops c0) (j + 1) \ (sp ops c0.edges j).toFinset)
          (gone ops c0 j) := by
      constructor
      · ext x
        simp only [gone, Finset.mem_union, Finset.mem_sdiff, List.mem_toFinset]
        rw [hri, S.cl hj]
        constructor
        · rintro ⟨h1, h2⟩
          by_cases h3 : x ∈ later (clusterItems ops c0) j
          · left
            obtain ⟨l, hl1, hl2⟩ := mem_later'.1 h3
            refine ⟨mem_later'.2 ⟨l, ?_, hl2⟩, fun h4 => h2 ((hv2 x).2 (Or.inr h4))⟩
            rcases Nat.eq_or_lt_of_le hl1 with rfl | h5
            · exact absurd hl2 h2
            · exact h5
          · exact Or.inr ⟨h1, h3⟩
        · rintro (⟨h1, h2⟩ | ⟨h1, h2⟩)
          · refine ⟨later_sub h1, fun h3 => ?_⟩
            rcases (hv2 x).1 h3 with rfl | h4
            · obtain ⟨l, hl1, hl2⟩ := mem_later'.1 h1
              exact hv3 l (by omega) hl2
            · exact h2 h4
          · exact ⟨h1, fun h3 => h2 (mem_later'.2 ⟨j, le_rfl, h3⟩)⟩
      · rw [Finset.disjoint_left]
        intro x h1 h2
        simp only [gone, Finset.mem_sdiff] at h1 h2
        obtain ⟨l, hl1, hl2⟩ := mem_later'.1 h1.1
        exact h2.2 (mem_later'.2 ⟨l, by omega, hl2⟩)
    have hR2 : allItems ops c0 \ (ops.items c.edges[j].belief).toFinset =
        (later (clusterItems ops c0) (j + 1) \ (sp ops c0.edges j).toFinset) ∪ gone ops c0 (j + 1) ∧
        Disjoint (later (clusterItems ops c0) (j + 1) \ (sp ops c0.edges j).toFinset)
          (gone ops c0 (j + 1)) := by
      constructor
      · ext x
        simp only [gone, Finset.mem_union, Finset.mem_sdiff, List.mem_toFinset]
        rw [S.seps j hke]
        constructor
        · rintro ⟨h1, h2⟩
          by_cases h3 : x ∈ later (clusterItems ops c0) (j + 1)
          · exact Or.inl ⟨h3, h2⟩
          · exact Or.inr ⟨h1, h3⟩
        · rintro (⟨h1, h2⟩ | ⟨h1, h2⟩)
          · exact ⟨later_sub h1, h2⟩
          · refine ⟨h1, fun h3 => h2 ?_⟩
            obtain ⟨l, hl1, hl2⟩ := hv4 x h3
            exact mem_later'.2 ⟨l, hl1, hl2⟩
      · rw [Finset.disjoint_left]
        intro x h1 h2
        simp only [gone, Finset.mem_sdiff] at h1 h2
        exact h2.2 h1.1
    unfold Marg at hb ⊢
    rw [hR1.1, integ_union hF hR1.2, ← T j (by omega)]
    rw [hR2.1, integ_union hF hR2.2, ← T (j + 1) (by omega)] at hb
    have h2 : tailJ ev c j = fun a => tailJ ev c (j + 1) a +
        (ev c.clusters[j] a - ev c.edges[j].belief a) := by
      funext a
      simp only [tailJ]
      rw [List.drop_eq_getElem_cons hj, List.drop_eq_getElem_cons hke]
      simp only [List.map_cons, List.sum_cons]
      ring
    have h3 : ev r = fun a => ev b a + (ev c.clusters[j] a - ev c.edges[j].belief a) := by
      funext a
      rw [hrv a]
      ring
    rw [h2, h3, wt_add, wt_add, hb, integ_mul (wt_measurable (tailJ_meas X S (j + 1)))]
    intro a a' haa
    have hvR : ∀ x ∈ cl ops c0 j,
        x ∉ later (clusterItems ops c0) (j + 1) \ (sp ops c0.edges j).toFinset := by
      intro x hx h4
      rw [Finset.mem_sdiff, List.mem_toFinset] at h4
      rcases (hv2 x).1 hx with rfl | h5
      · obtain ⟨l, hl1, hl2⟩ := mem_later'.1 h4.1
        exact hv3 l (by omega) hl2
      · exact h4.2 h5
    rw [wt, wt, X.local_ _ (S.inv.wfC _ (List.getElem_mem hj)) a a' fun x hx => haa x (by
      rw [S.cl hj] at hx
      exact hvR x hx), X.local_ _ (S.inv.wfE _ (List.getElem_mem hke)) a a' fun x hx => haa x (by
      rw [S.seps j hke] at hx
      exact hvR x ((hv2 x).2 (Or.inr hx)))]
  · intro l hl hkl
    simp only [hc2]
    rcases Nat.eq_or_lt_of_le hkl with rfl | h1
    swap
    · rw [List.getElem_set_ne (by omega)]
      exact E l (by rw [hc2, List.length_set] at hl; exact hl) h1
    rw [List.getElem_set_self]
    unfold Marg at hb ⊢
    rw [hb]
    congr 2
    ext x
    rw [List.mem_toFinset, List.mem_toFinset]
    exact (hbi x).symm

theorem fwd_all (L : Laws ops WF ev) (X : ExactLaws ops WF ev) {F : (ℤ → ℝ) → ℝ≥0∞}
    (hF : Measurable F) (hB : Built ops factors c0) : ∀ (n k : ℕ) (c c' : CG β),
    k + n = c0.edges.length → Same ops WF c0 c → (∀ m ≤ k, Tails ops ev c0 F c m) →
    (List.range' k n).foldlM (fun c k => passMessage ops c k true false) c = Except.ok c' →
    Same ops WF c0 c' ∧ ∀ m ≤ k + n, Tails ops ev c0 F c' m
  | 0, k, c, c', _, S, T, h => by
    cases h
    exact ⟨S, T⟩
  | n + 1, k, c, c', hn, S, T, h => by
    rw [List.range'_succ, List.foldlM_cons] at h
    rcases hp : passMessage ops c k true false with err | c1
    · rw [hp] at h; cases h
    rw [hp] at h
    have := fwd_all L X hF hB n (k + 1) c1 c' (by omega) (same_step L S hp)
      (fwd_step L X hF hB (by omega) S T hp) h
    rwa [show k + (n + 1) = k + 1 + n by omega]

theorem bwd_all (L : Laws ops WF ev) (X : ExactLaws ops WF ev) {F : (ℤ → ℝ) → ℝ≥0∞}
    (hF : Measurable F) (hB : Built ops factors c0) : ∀ (k : ℕ) (c c' : CG β),
    k ≤ c0.edges.length → Same ops WF c0 c → (∀ m ≤ c0.edges.length, Tails ops ev c0 F c m) →
    (∀ (j : ℕ) (hj : j < c.clusters.length), k ≤ j →
      Marg ops ev c0 F c.clusters[j] (ops.items c.clusters[j])) →
    (∀ (l : ℕ) (hl : l < c.edges.length), k ≤ l →
      Marg ops ev c0 F c.edges[l].belief (ops.items c.edges[l].belief)) →
    (List.range k).reverse.foldlM (fun c k => passMessage ops c k false false) c = Except.ok c' →
    Same ops WF c0 c' ∧ (∀ (j : ℕ) (hj : j < c'.clusters.length),
      Marg ops ev c0 F c'.clusters[j] (ops.items c'.clusters[j])) ∧
    (∀ (l : ℕ) (hl : l < c'.edges.length),
      Marg ops ev c0 F c'.edges[l].belief (ops.items c'.edges[l].belief))
  | 0, c, c', _, S, _, M, E, h => by
    cases h
    exact ⟨S, fun j hj => M j hj (Nat.zero_le _), fun l hl => E l hl (Nat.zero_le _)⟩
  | k + 1, c, c', hn, S, T, M, E, h => by
    rw [List.range_succ, List.reverse_append, List.reverse_singleton, List.singleton_append,
      List.foldlM_cons] at h
    rcases hp : passMessage ops c k false false with err | c1
    · rw [hp] at h; cases h
    rw [hp] at h
    obtain ⟨T1, M1, E1⟩ := bwd_step L X hF hB (by omega) S T M E hp
    exact bwd_all L X hF hB k c1 c' (by omega) (same_step L S hp) T1 M1 E1 h

/-- After the forward sweep the last cluster is a marginal. -/
theorem last_marg {F : (ℤ → ℝ) → ℝ≥0∞} (hB : Built ops factors c0) (S : Same ops WF c0 c)
    (T : Tails ops ev c0 F c c0.edges.length) {j : ℕ} (hj : j < c.clusters.length)
    (hkj : c0.edges.length ≤ j) : Marg ops ev c0 F c.clusters[j] (ops.items c.clusters[j]) := by
  have hjn : j = c0.edges.length := by
    have := hB.len
    rw [S.lenC] at hj
    omega
  subst hjn
  unfold Tails at T
  unfold Marg
  have h2 : tailJ ev c c0.edges.length = ev c.clusters[c0.edges.length] := by
    funext a
    rw [tailJ, List.drop_eq_getElem_cons hj, List.drop_of_length_le (l := c.clusters) (by
      rw [S.lenC, ← hB.len]), List.drop_of_length_le (by rw [S.len])]
    simp
  rw [h2] at T
  rw [T]
  congr 1
  ext x
  simp only [gone, Finset.mem_sdiff, List.mem_toFinset]
  rw [S.cl hj, mem_later']
  refine and_congr_right fun _ => not_congr ⟨?_, fun hx => ⟨_, le_rfl, hx⟩⟩
  rintro ⟨l, hl1, hl2⟩
  have := Built.lt_of_mem hl2
  have hl : l = c0.edges.length := by
    have := hB.len
    omega
  rwa [hl] at hl2

/-- After calibration every cluster and every edge is the marginal of the joint function. -/
theorem calibrate_exact (L : Laws ops WF ev) (X : ExactLaws ops WF ev) {c' : CG β}
    (hB : Built ops factors c0) (S : Same ops WF c0 c)
    (h : calibrate ops c = Except.ok c') :
    Same ops WF c0 c' ∧ (∀ (j : ℕ) (hj : j < c'.clusters.length),
      Marg ops ev c0 (wt (joint ev c)) c'.clusters[j] (ops.items c'.clusters[j])) ∧
    (∀ (l : ℕ) (hl : l < c'.edges.length),
      Marg ops ev c0 (wt (joint ev c)) c'.edges[l].belief (ops.items c'.edges[l].belief)) := by
  unfold calibrate at h
  rcases h1 : calibrateForward ops c with err | c1
  · rw [h1] at h
    cases h
  rw [h1] at h
  simp only [res_ok_bind] at h
  rw [calibrateForward, calibrateInternal] at h1
  simp only [if_true] at h1
  rw [List.range_eq_range'] at h1
  have hF : Measurable (wt (joint ev c)) := by
    rw [← tailJ_zero]
    exact wt_measurable (tailJ_meas X S 0)
  obtain ⟨S1, T1⟩ := fwd_all L X hF hB c.edges.length 0 c c1 (by rw [S.len]; omega) S (by
    intro m hm
    have : m = 0 := by omega
    subst this
    unfold Tails
    rw [tailJ_zero, gone, allItems, Finset.sdiff_self, integ, lmarginal_empty]) h1
  rw [Nat.zero_add, S.len] at T1
  rw [calibrateBackward, calibrateInternal] at h
  simp only [Bool.false_eq_true, if_false] at h
  refine bwd_all L X hF hB c1.edges.length c1 c' (by rw [S1.len]) S1 T1 ?_ ?_ h
  · intro j hj hkj
    exact last_marg hB S1 (T1 _ le_rfl) hj (by rwa [S1.len] at hkj)
  · intro l hl hl'
    omega

end

end Verif.ClusterGraph
