import Verif.Proofs.Calibrate
import Verif.Proofs.ClusterRuns
import Mathlib.Analysis.SpecialFunctions.Trigonometric.Basic

/-!
# C79: margins of a calibrated cluster graph
-/
namespace Verif.ClusterGraph

open Verif.Items Verif.DepGraph MeasureTheory
open scoped ENNReal

variable {β : Type} {ops : Ops β} {WF : β → Prop} {ev : β → (ℤ → ℝ) → ℝ}

/-- Specification: `f` is the log of the marginal, for the items `l`, of the function whose log is `g`,
a function of the items `all`: the integral over all other items. -/
def Spec.IsMarginal (all : Finset ℤ) (g : (ℤ → ℝ) → ℝ) (l : List ℤ) (f : (ℤ → ℝ) → ℝ) : Prop :=
  ∀ a, ENNReal.ofReal (Real.exp (f a)) =
    lmarginal (fun _ => (volume : Measure ℝ)) (all \ l.toFinset)
      (fun a => ENNReal.ofReal (Real.exp (g a))) a

open Spec

theorem same_passAll (L : Laws ops WF ev) {c0 : CG β} : ∀ (ms : List Msg) {c c' : CG β},
    Same ops WF c0 c → passAll ops c ms = Except.ok c' → Same ops WF c0 c'
  | [], c, c', S, h => by
    cases h
    exact S
  | m :: ms, c, c', S, h => by
    rw [passAll, List.foldlM_cons] at h
    rcases hm : passMessage ops c m.1 m.2.1 m.2.2 with err | c1
    · rw [hm] at h; cases h
    rw [hm] at h
    exact same_passAll L ms (same_step L S hm) h

theorem allItems_eq {factors : List (List ℤ)} {c0 : CG β} (hB : Built ops factors c0) :
    allItems ops c0 = factors.flatten.toFinset := by
  ext x
  rw [mem_allItems, List.mem_toFinset, List.mem_flatten]
  exact hB.items x

/-- C79: after `calibrate`, called after any sequence of messages, if margins that are returned are
exact integrals, then every cluster and every edge is the marginal of the product of all input
factors. -/
theorem c79_calibrate (L : Laws ops WF ev) (X : ExactLaws ops WF ev) (beliefs : List β)
    (hb : ∀ b ∈ beliefs, WF b) {ar : Arith} (har : Suits ar (beliefs.map ops.items)) {c0 c1 c : CG β}
    (ms : List Msg) (h0 : ofBeliefs ar ops beliefs = Except.ok c0)
    (h1 : passAll ops c0 ms = Except.ok c1) (h2 : calibrate ops c1 = Except.ok c) :
    (∀ b ∈ c.clusters, IsMarginal (beliefs.map ops.items).flatten.toFinset
      (fun a => (beliefs.map fun b => ev b a).sum) (ops.items b) (ev b)) ∧
    ∀ e ∈ c.edges, IsMarginal (beliefs.map ops.items).flatten.toFinset
      (fun a => (beliefs.map fun b => ev b a).sum) (ops.items e.belief) (ev e.belief) := by
  have hF : ∀ F ∈ beliefs.map ops.items, F.Nodup := by
    intro F hF
    obtain ⟨b, hbm, rfl⟩ := List.mem_map.mp hF
    exact L.nodup b (hb b hbm)
  obtain ⟨B, hf, g1, g2, g3⟩ := har.fits hF
  obtain ⟨c0', ec, hB, inv, hE, bss, hl, hp, hk, hj⟩ := ofBeliefs_ok L beliefs hb hf g1 g2 g3
  rw [h0] at ec
  cases ec
  have S := same_passAll L ms (Same.refl inv) h1
  have hjj : joint ev c1 = fun a => (beliefs.map fun b => ev b a).sum := by
    funext a
    rw [(passAll_joint L ms inv h1).2.1 a, hj a]
  obtain ⟨-, M, E⟩ := calibrate_exact L X hB S h2
  rw [hjj] at M E
  unfold Marg at M E
  rw [allItems_eq hB] at M E
  constructor
  · intro b hb
    obtain ⟨j, hj, rfl⟩ := List.mem_iff_getElem.1 hb
    exact fun a => congrFun (M j hj) a
  · intro e he
    obtain ⟨l, hl, rfl⟩ := List.mem_iff_getElem.1 he
    exact fun a => congrFun (E l hl) a

theorem firstMargin_inv (L : Laws ops WF ev) {l : List ℤ} (hl : l.Nodup) {r : β} : ∀ {bs : List β},
    (∀ b ∈ bs, WF b) → bs ≠ [] → firstMargin ops l bs = Except.ok r →
    ∃ b ∈ bs, (∀ x ∈ l, x ∈ ops.items b) ∧ ops.margin b l false = Except.ok r
  | [b], hw, _, h => by
    rw [firstMargin] at h
    split_ifs at h with hs
    · rw [isSubset_iff hl (L.nodup b (hw b (by simp)))] at hs
      exact ⟨b, by simp, hs, h⟩
    · cases h
  | b :: b' :: bs, hw, _, h => by
    rw [firstMargin] at h
    · split_ifs at h with hs
      · rw [isSubset_iff hl (L.nodup b (hw b (by simp)))] at hs
        exact ⟨b, by simp, hs, h⟩
      · obtain ⟨d, hd, h1⟩ := firstMargin_inv L hl (fun b hb => hw b (by simp [hb])) (by simp) h
        exact ⟨d, List.mem_cons_of_mem _ hd, h1⟩
    · simp

theorem firstMargin_none (L : Laws ops WF ev) {l : List ℤ} (hl : l.Nodup) : ∀ {bs : List β},
    (∀ b ∈ bs, WF b) → bs ≠ [] → (∀ b ∈ bs, ¬∀ x ∈ l, x ∈ ops.items b) →
    firstMargin ops l bs = Res.raise "items not fully contained in any cluster"
  | [b], hw, _, h => by
    rw [firstMargin, if_neg]
    rw [isSubset_iff hl (L.nodup b (hw b (by simp)))]
    exact h b (by simp)
  | b :: b' :: bs, hw, _, h => by
    rw [firstMargin, if_neg]
    · exact firstMargin_none L hl (fun b hb => hw b (by simp [hb])) (by simp)
        fun d hd => h d (List.mem_cons_of_mem _ hd)
    · rw [isSubset_iff hl (L.nodup b (hw b (by simp)))]
      exact h b (by simp)
    · simp

theorem firstMargin_some (L : Laws ops WF ev) {l : List ℤ} (hl : l.Nodup) : ∀ {bs : List β},
    (∀ b ∈ bs, WF b) → (∃ b ∈ bs, ∀ x ∈ l, x ∈ ops.items b) →
    ∃ b ∈ bs, (∀ x ∈ l, x ∈ ops.items b) ∧ firstMargin ops l bs = ops.margin b l false
  | [], _, ⟨b, hb, _⟩ => by cases hb
  | [b], hw, ⟨d, hd, h⟩ => by
    rw [List.mem_singleton] at hd
    subst hd
    refine ⟨d, by simp, h, ?_⟩
    rw [firstMargin, if_pos]
    rw [isSubset_iff hl (L.nodup d (hw d (by simp)))]
    exact h
  | b :: b' :: bs, hw, ⟨d, hd, h⟩ => by
    by_cases hs : isSubset l (ops.items b) = true
    · refine ⟨b, by simp, ?_, ?_⟩
      · rwa [isSubset_iff hl (L.nodup b (hw b (by simp)))] at hs
      · rw [firstMargin, if_pos hs]
        simp
    · have hdb : d ∈ b' :: bs := by
        rcases List.mem_cons.1 hd with rfl | hd
        · rw [isSubset_iff hl (L.nodup d (hw d (by simp)))] at hs
          exact absurd h hs
        · exact hd
      obtain ⟨m, hm, h1, h2⟩ := firstMargin_some L hl (fun b hb => hw b (by simp [hb])) ⟨d, hdb, h⟩
      refine ⟨m, List.mem_cons_of_mem _ hm, h1, ?_⟩
      rw [firstMargin, if_neg hs, h2]
      simp

/-- What a state of the cluster graph has to satisfy between calls of `margin`. -/
structure Kept (ops : Ops β) (WF : β → Prop) (ev : β → (ℤ → ℝ) → ℝ) (c0 : CG β)
    (g : (ℤ → ℝ) → ℝ) (s : CG β × Bool) : Prop where
  same : Same ops WF c0 s.1
  joint : s.2 = false → ClusterGraph.joint ev s.1 = g
  marg : s.2 = true → ∀ b ∈ s.1.clusters, Marg ops ev c0 (wt g) b (ops.items b)

theorem kept_calibrated (L : Laws ops WF ev) (X : ExactLaws ops WF ev) {factors : List (List ℤ)}
    {c0 c : CG β} {g : (ℤ → ℝ) → ℝ} {s : CG β × Bool} (hB : Built ops factors c0)
    (K : Kept ops WF ev c0 g s)
    (h : calibrated ops s = Except.ok c) :
    Kept ops WF ev c0 g (c, true) := by
  unfold calibrated at h
  rcases s with ⟨c1, _ | _⟩
  · rw [if_neg (by simp)] at h
    obtain ⟨S, M, -⟩ := calibrate_exact L X hB K.same h
    rw [K.joint rfl] at M
    refine ⟨S, fun h => by simp at h, fun _ b hb => ?_⟩
    obtain ⟨j, hj, rfl⟩ := List.mem_iff_getElem.1 hb
    exact M j hj
  · rw [if_pos rfl] at h
    cases h
    exact K

theorem margin_kept (L : Laws ops WF ev) (X : ExactLaws ops WF ev) {factors : List (List ℤ)}
    {c0 : CG β} {g : (ℤ → ℝ) → ℝ} (hg : Measurable g) {s s' : CG β × Bool} {l : List ℤ} {r : β}
    (hB : Built ops factors c0) (K : Kept ops WF ev c0 g s) (hl : l.Nodup)
    (h : margin ops s l = Except.ok (r, s')) :
    Kept ops WF ev c0 g s' ∧ Marg ops ev c0 (wt g) r l := by
  unfold margin at h
  rcases hc : calibrated ops s with err | c
  · rw [hc] at h
    cases h
  rw [hc] at h
  simp only [res_ok_bind] at h
  rcases hr : firstMargin ops l c.clusters with err | b
  · rw [hr] at h
    cases h
  rw [hr] at h
  cases Except.ok.inj h
  have K' := kept_calibrated L X hB K hc
  refine ⟨K', ?_⟩
  have hne : c.clusters ≠ [] := by
    intro h0
    have h1 : c.clusters.length = _ := K'.same.lenC
    rw [h0, ← hB.len] at h1
    simp at h1
  obtain ⟨b', hb', h1, h2⟩ := firstMargin_inv L hl K'.same.inv.wfC hne hr
  refine marg_margin L X (wt_measurable hg) (K'.same.inv.wfC b' hb') ?_ (K'.marg rfl b' hb') hl h1 h2
  intro x hx
  obtain ⟨j, hj, rfl⟩ := List.mem_iff_getElem.1 hb'
  rw [K'.same.cl hj] at hx
  exact mem_allItems.2 ⟨j, hx⟩

/-- C79: any sequence of calls of `margin` on a cluster graph built from beliefs, after any messages:
each belief returned is the marginal of the product of all input factors. -/
theorem c79_margins (L : Laws ops WF ev) (X : ExactLaws ops WF ev) (beliefs : List β)
    (hb : ∀ b ∈ beliefs, WF b) {ar : Arith} (har : Suits ar (beliefs.map ops.items)) {c0 c1 : CG β}
    (ms : List Msg) (h0 : ofBeliefs ar ops beliefs = Except.ok c0)
    (h1 : passAll ops c0 ms = Except.ok c1) {qs : List (List ℤ)} (hq : ∀ l ∈ qs, l.Nodup)
    {rs : List β} (h2 : margins ops (c1, false) qs = Except.ok rs) :
    List.Forall₂ (fun l r => IsMarginal (beliefs.map ops.items).flatten.toFinset
      (fun a => (beliefs.map fun b => ev b a).sum) l (ev r)) qs rs := by
  have hF : ∀ F ∈ beliefs.map ops.items, F.Nodup := by
    intro F hF
    obtain ⟨b, hbm, rfl⟩ := List.mem_map.mp hF
    exact L.nodup b (hb b hbm)
  obtain ⟨B, hf, g1, g2, g3⟩ := har.fits hF
  obtain ⟨c0', ec, hB, inv, hE, bss, hl, hp, hk, hj⟩ := ofBeliefs_ok L beliefs hb hf g1 g2 g3
  rw [h0] at ec
  cases ec
  have K : Kept ops WF ev c0 (fun a => (beliefs.map fun b => ev b a).sum) (c1, false) := by
    refine ⟨same_passAll L ms (Same.refl inv) h1, fun _ => ?_, fun h => by simp at h⟩
    funext a
    rw [(passAll_joint L ms inv h1).2.1 a, hj a]
  have hg : Measurable fun a => (beliefs.map fun b => ev b a).sum :=
    measurable_sum _ fun b h => X.meas b (hb b h)
  have hall := allItems_eq hB
  clear h1 h0 hk hj hp hl hE
  generalize ((c1, false) : CG β × Bool) = s at K h2
  induction qs generalizing rs s with
  | nil =>
    cases Except.ok.inj h2
    exact .nil
  | cons l qs ih =>
    rw [margins] at h2
    rcases hm : margin ops s l with err | ⟨r, s'⟩
    · rw [hm] at h2
      cases h2
    rw [hm] at h2
    simp only [res_ok_bind] at h2
    rcases hr : margins ops s' qs with err | rs'
    · rw [hr] at h2
      cases h2
    rw [hr] at h2
    cases Except.ok.inj h2
    obtain ⟨K', M⟩ := margin_kept L X hg hB K (hq l (by simp)) hm
    refine .cons (fun a => ?_) (ih (fun l hl => hq l (by simp [hl])) s' K' hr)
    unfold Marg at M
    rw [hall] at M
    exact congrFun M a

/-- C79: items that no cluster contains are reported. -/
theorem c79_stops (L : Laws ops WF ev) {c : CG β} (inv : MsgInv ops WF c) (hne : c.clusters ≠ [])
    {l : List ℤ} (hl : l.Nodup) (h : ∀ b ∈ c.clusters, ¬∀ x ∈ l, x ∈ ops.items b) :
    margin ops (c, true) l = Res.raise "items not fully contained in any cluster" := by
  unfold margin calibrated
  rw [if_pos rfl]
  simp only [res_ok_bind]
  rw [firstMargin_none L hl inv.wfC hne h]
  rfl

/-! ## Exact calibration runs through -/

/-- A message returns normally if its margin does. -/
theorem passMessage_runs' {c : CG Fn} {k : ℕ} {fw : Bool} (hk : k < c.edges.length) {i j : ℕ}
    (hi : i < c.clusters.length) (hj : j < c.clusters.length)
    (hij : ends c.edges[k] fw = ((i : ℤ), (j : ℤ)))
    {b : Fn} (hm : exactOps.margin c.clusters[i] c.edges[k].belief.1 false = Except.ok b) :
    ∃ c', passMessage exactOps c k fw false = Except.ok c' := by
  rw [passMessage, nth_ok hk]
  simp only [res_ok_bind]
  rw [hij]
  simp only
  rw [atZ_ok hi]
  simp only [res_ok_bind]
  rw [show exactOps.items c.edges[k].belief = c.edges[k].belief.1 from rfl, hm]
  simp only [res_ok_bind]
  rw [setN_ok hk]
  simp only [res_ok_bind]
  rw [atZ_ok hj]
  simp only [res_ok_bind]
  rw [show exactOps.mul c.clusters[j] b = Except.ok _ from rfl]
  simp only [res_ok_bind]
  rw [show exactOps.div _ c.edges[k].belief = Except.ok _ from rfl]
  simp only [res_ok_bind]
  rw [setZ_ok hj]
  simp only [res_ok_bind]
  exact ⟨_, rfl⟩

/-- The margin of a marginal exists if the joint function can be integrated. -/
theorem margin_exists {c0 : CG Fn} {F : (ℤ → ℝ) → ℝ≥0∞} (hF : Measurable F)
    (hfin : ∀ s ⊆ allItems exactOps c0, ∀ a, integ s F a ≠ ⊤ ∧ integ s F a ≠ 0) {b : Fn}
    (hbl : ∀ x ∈ b.1, x ∈ allItems exactOps c0) (hM : Marg exactOps Prod.snd c0 F b b.1) {l : List ℤ}
    (hsub : ∀ x ∈ l, x ∈ b.1) : ∃ r, exactOps.margin b l false = Except.ok r := by
  simp only [exactOps]
  rw [if_pos]
  · exact ⟨_, rfl⟩
  · intro a
    have hM : wt b.2 = integ (allItems exactOps c0 \ b.1.toFinset) F := hM
    rw [hM, ← integ_union hF]
    · refine hfin _ ?_ a
      intro x hx
      simp only [Finset.mem_union, Finset.mem_sdiff, List.mem_toFinset] at hx
      rcases hx with hx | hx
      · exact hbl x hx.1
      · exact hx.1
    · rw [Finset.disjoint_left]
      intro x h1 h2
      simp only [Finset.mem_sdiff, List.mem_toFinset] at h1 h2
      exact h2.2 h1.1

theorem bwd_runs {factors : List (List ℤ)} {c0 : CG Fn} {F : (ℤ → ℝ) → ℝ≥0∞} (hF : Measurable F)
    (hfin : ∀ s ⊆ allItems exactOps c0, ∀ a, integ s F a ≠ ⊤ ∧ integ s F a ≠ 0)
    (hB : Built exactOps factors c0) : ∀ (k : ℕ) (c : CG Fn),
    k ≤ c0.edges.length → Same exactOps ExactWF c0 c →
    (∀ m ≤ c0.edges.length, Tails exactOps Prod.snd c0 F c m) →
    (∀ (j : ℕ) (hj : j < c.clusters.length), k ≤ j →
      Marg exactOps Prod.snd c0 F c.clusters[j] (exactOps.items c.clusters[j])) →
    (∀ (l : ℕ) (hl : l < c.edges.length), k ≤ l →
      Marg exactOps Prod.snd c0 F c.edges[l].belief (exactOps.items c.edges[l].belief)) →
    ∃ c', (List.range k).reverse.foldlM (fun c k => passMessage exactOps c k false false) c =
      Except.ok c'
  | 0, c, _, _, _, _, _ => ⟨c, rfl⟩
  | k + 1, c, hn, S, T, M, E => by
    have hk : k < c0.edges.length := by omega
    have hke : k < c.edges.length := by rw [S.len]; exact hk
    obtain ⟨hf, p, hkp, hpn, hs, hps⟩ := hB.edge k hk
    have hpC : p < c.clusters.length := by rw [S.lenC]; exact hpn
    have hkC : k < c.clusters.length := by omega
    have hij : ends c.edges[k] false = ((p : ℤ), (k : ℤ)) := by
      rw [ClusterGraph.ends, if_neg (by simp), (S.ends k hke hk).1, (S.ends k hke hk).2, hf, hs]
    have hsub : ∀ x ∈ c.edges[k].belief.1, x ∈ c.clusters[p].1 := by
      intro x hx
      have h1 := (S.seps k hke x).1 hx
      have h2 : c.clusters[p].1 = cl exactOps c0 p := S.cl hpC
      rw [h2]
      exact hps x h1
    obtain ⟨b, hm⟩ := margin_exists hF hfin (b := c.clusters[p]) (fun x hx => by
      have h2 : c.clusters[p].1 = cl exactOps c0 p := S.cl hpC
      rw [h2] at hx
      exact mem_allItems.2 ⟨p, hx⟩) (M p hpC (by omega)) hsub
    obtain ⟨c1, h1⟩ := passMessage_runs' hke hpC hkC hij hm
    obtain ⟨T1, M1, E1⟩ := bwd_step exactOps_laws exactOps_exact hF hB hk S T M E h1
    obtain ⟨c', h2⟩ := bwd_runs hF hfin hB k c1 (by omega) (same_step exactOps_laws S h1) T1 M1 E1
    refine ⟨c', ?_⟩
    rw [List.range_succ, List.reverse_append, List.reverse_singleton, List.singleton_append,
      List.foldlM_cons, h1]
    exact h2

/-- C79: exact calibration runs through, and so does the margin for items of one factor, if every
belief lies between two multiples of a product of powers of normal densities of its items, and every
item has such a power in some belief. -/
theorem c79_runs (beliefs : List Fn) (hw : ∀ b ∈ beliefs, ExactWF b) {ar : Arith}
    (har : Suits ar (beliefs.map Prod.fst)) {T : Finset ℤ} (hT : ∀ b ∈ beliefs, ∀ x ∈ b.1, x ∈ T)
    (N : Fn → ℤ → ℕ) (hN : ∀ b ∈ beliefs, Tame T (N b) b.2 ∧ ∀ x, 1 ≤ N b x → x ∈ b.1)
    (hcov : ∀ b ∈ beliefs, ∀ x ∈ b.1, ∃ d ∈ beliefs, 1 ≤ N d x) :
    ∃ c0, ofBeliefs ar exactOps beliefs = Except.ok c0 ∧ ∀ l : List ℤ, l.Nodup →
      (∃ b ∈ beliefs, ∀ x ∈ l, x ∈ b.1) → ∃ r, margin exactOps (c0, false) l = Except.ok r := by
  obtain ⟨c0, c1, v, e0, e1, -⟩ := exact_runs beliefs hw har hT N hN hcov
  have hF : ∀ F ∈ beliefs.map exactOps.items, F.Nodup := by
    intro F hF
    obtain ⟨b, hbm, rfl⟩ := List.mem_map.mp hF
    exact (hw b hbm).nodup
  obtain ⟨B, hf, g1, g2, g3⟩ := Suits.fits (factors := beliefs.map exactOps.items) har hF
  obtain ⟨c0', ec, hB, inv, hE, bss, hl, hp, hk, hj⟩ :=
    ofBeliefs_ok exactOps_laws beliefs hw hf g1 g2 g3
  rw [e0] at ec
  cases ec
  have hmeas : Measurable fun a => (beliefs.map fun b : Fn => b.2 a).sum :=
    measurable_sum _ fun b h => (hw b h).meas
  have hjj : joint Prod.snd c0 = fun a => (beliefs.map fun b : Fn => b.2 a).sum := funext hj
  have hall := allItems_eq hB
  have hfin : ∀ s ⊆ allItems exactOps c0, ∀ a, integ s (wt (joint Prod.snd c0)) a ≠ ⊤ ∧
      integ s (wt (joint Prod.snd c0)) a ≠ 0 := by
    intro s hs
    rw [hjj]
    have hmem : ∀ x ∈ s, ∃ b ∈ beliefs, x ∈ b.1 := by
      intro x hx
      have := hs hx
      rw [hall, List.mem_toFinset, List.mem_flatten] at this
      obtain ⟨F, hF, hxF⟩ := this
      obtain ⟨b, hb, rfl⟩ := List.mem_map.1 hF
      exact ⟨b, hb, hxF⟩
    refine (Tame.integ hmeas s _ (Tame.sum (N := N) beliefs fun b hb => (hN b hb).1) ?_ ?_).1
    · intro x hx
      obtain ⟨b, hb, hxb⟩ := hmem x hx
      exact hT b hb x hxb
    · intro x hx
      obtain ⟨b, hb, hxb⟩ := hmem x hx
      obtain ⟨d, hd, hdx⟩ := hcov b hb x hxb
      exact hdx.trans (List.le_sum_of_mem (List.mem_map_of_mem hd))
  have hFm : Measurable (wt (joint Prod.snd c0)) := by
    rw [hjj]
    exact wt_measurable hmeas
  have S0 : Same exactOps ExactWF c0 c0 := Same.refl inv
  have e1' := e1
  rw [calibrateForward, calibrateInternal] at e1'
  simp only [if_true] at e1'
  rw [List.range_eq_range'] at e1'
  obtain ⟨S1, T1⟩ := fwd_all exactOps_laws exactOps_exact hFm hB c0.edges.length 0 c0 c1 (by omega) S0
    (by
      intro m hm
      have : m = 0 := by omega
      subst this
      unfold Tails
      rw [tailJ_zero, gone, allItems, Finset.sdiff_self, integ, lmarginal_empty]) e1'
  rw [Nat.zero_add] at T1
  obtain ⟨c2, e2⟩ := bwd_runs hFm hfin hB c1.edges.length c1 (by rw [S1.len]) S1 T1 (by
    intro j hj hkj
    exact last_marg hB S1 (T1 _ le_rfl) hj (by rwa [S1.len] at hkj)) (by
    intro l hl hl'
    omega)
  have e2' : calibrate exactOps c0 = Except.ok c2 := by
    unfold calibrate
    rw [e1]
    simp only [res_ok_bind]
    rw [calibrateBackward, calibrateInternal]
    simp only [Bool.false_eq_true, if_false]
    exact e2
  obtain ⟨S2, M2, -⟩ := calibrate_exact exactOps_laws exactOps_exact hB S0 e2'
  refine ⟨c0, e0, fun l hl ⟨b, hb, hlb⟩ => ?_⟩
  obtain ⟨k, hk, hck⟩ := hB.cover b.1 (List.mem_map_of_mem (f := exactOps.items) hb)
  have hk2 : k < c2.clusters.length := by rw [S2.lenC]; exact hk
  obtain ⟨d, hd, h1, h2⟩ := firstMargin_some exactOps_laws hl S2.inv.wfC
    ⟨c2.clusters[k], List.getElem_mem hk2, fun x hx => by
      rw [S2.cl hk2]
      exact hck x (hlb x hx)⟩
  obtain ⟨j, hj, rfl⟩ := List.mem_iff_getElem.1 hd
  obtain ⟨r, hr⟩ := margin_exists hFm hfin (b := c2.clusters[j]) (fun x hx => by
    have h2 : c2.clusters[j].1 = cl exactOps c0 j := S2.cl hj
    rw [h2] at hx
    exact mem_allItems.2 ⟨j, hx⟩) (M2 j hj) h1
  refine ⟨(r, c2, true), ?_⟩
  unfold margin calibrated
  rw [if_neg (by simp)]
  rw [e2']
  simp only [res_ok_bind]
  rw [h2, hr]
  rfl

/-! ### A concrete case -/

/-- A factor for two items that is neither a product nor normal. -/
noncomputable def wavy (i j : ℤ) : Fn :=
  ([i, j], fun a => Real.sin (a i * a j) - a i ^ 2 / 2 - a j ^ 2 / 2)

theorem wavy_wf {i j : ℤ} (h : i ≠ j) : ExactWF (wavy i j) where
  nodup := by simp [wavy, h]
  meas := by
    unfold wavy
    dsimp only
    fun_prop
  local_ a a' haa := by
    unfold wavy at haa ⊢
    dsimp only at haa ⊢
    rw [haa i (by simp), haa j (by simp)]

/-- The power of the normal density of an item in a factor. -/
def onePower (b : Fn) (x : ℤ) : ℕ := if x ∈ b.1 then 1 else 0

theorem wavy_tame {i j : ℤ} (h : i ≠ j) {T : Finset ℤ} (hi : i ∈ T) (hj : j ∈ T) :
    Tame T (onePower (wavy i j)) (wavy i j).2 := by
  refine ⟨-1, 1, fun a => ?_⟩
  have hs : ∑ x ∈ T, (onePower (wavy i j) x : ℝ) * a x ^ 2 / 2 = a i ^ 2 / 2 + a j ^ 2 / 2 := by
    have h1 : ∀ x ∈ T, (onePower (wavy i j) x : ℝ) * a x ^ 2 / 2 =
        (if x = i then a x ^ 2 / 2 else 0) + if x = j then a x ^ 2 / 2 else 0 := by
      intro x _
      simp only [onePower, wavy, List.mem_cons, List.not_mem_nil, or_false]
      by_cases h1 : x = i
      · subst h1
        rw [if_pos (Or.inl rfl), if_pos rfl, if_neg h]
        push_cast
        ring
      · by_cases h2 : x = j
        · subst h2
          rw [if_pos (Or.inr rfl), if_neg h1, if_pos rfl]
          push_cast
          ring
        · rw [if_neg (by simp [h1, h2]), if_neg h1, if_neg h2]
          push_cast
          ring
    rw [Finset.sum_congr rfl h1, Finset.sum_add_distrib, Finset.sum_ite_eq', Finset.sum_ite_eq',
      if_pos hi, if_pos hj]
  rw [hs]
  have h1 := Real.sin_le_one (a i * a j)
  have h2 := Real.neg_one_le_sin (a i * a j)
  simp only [wavy]
  constructor <;> linarith

/-- A cycle of four items: the hypotheses of `c79_runs` are met, and those of `c79_margins` for the
marginal of two items. -/
example : ∃ c0 r s, ofBeliefs i32 exactOps [wavy 0 1, wavy 1 2, wavy 2 3, wavy 3 0] = Except.ok c0 ∧
    margin exactOps (c0, false) [2, 1] = Except.ok (r, s) ∧
    IsMarginal {0, 1, 2, 3} (fun a => (wavy 0 1).2 a + (wavy 1 2).2 a + (wavy 2 3).2 a + (wavy 3 0).2 a)
      [2, 1] r.2 := by
  have hsuits : Suits i32 (([wavy 0 1, wavy 1 2, wavy 2 3, wavy 3 0] : List Fn).map Prod.fst) :=
    Or.inr ⟨rfl, by simp only [wavy, List.map_cons, List.map_nil]; decide⟩
  have hw : ∀ b ∈ ([wavy 0 1, wavy 1 2, wavy 2 3, wavy 3 0] : List Fn), ExactWF b := by
    intro b hb
    simp only [List.mem_cons, List.not_mem_nil, or_false] at hb
    rcases hb with rfl | rfl | rfl | rfl <;> exact wavy_wf (by norm_num)
  obtain ⟨c0, h0, h1⟩ := c79_runs [wavy 0 1, wavy 1 2, wavy 2 3, wavy 3 0] hw hsuits
    (T := {0, 1, 2, 3}) (by
      intro b hb x hx
      simp only [List.mem_cons, List.not_mem_nil, or_false] at hb
      rcases hb with rfl | rfl | rfl | rfl <;>
        (simp only [wavy, List.mem_cons, List.not_mem_nil, or_false] at hx; simp; tauto))
    onePower (by
      intro b hb
      refine ⟨?_, fun x hx => ?_⟩
      · simp only [List.mem_cons, List.not_mem_nil, or_false] at hb
        rcases hb with rfl | rfl | rfl | rfl <;>
          exact wavy_tame (by norm_num) (by decide) (by decide)
      · by_contra hcon
        rw [onePower, if_neg hcon] at hx
        omega)
    (fun b hb x hx => ⟨b, hb, by rw [onePower, if_pos hx]⟩)
  obtain ⟨⟨r, s⟩, hr⟩ := h1 [2, 1] (by decide) ⟨wavy 1 2, by simp, by simp [wavy]⟩
  refine ⟨c0, r, s, h0, hr, ?_⟩
  have h2 := c79_margins exactOps_laws exactOps_exact _ hw hsuits [] h0 (c1 := c0) rfl (qs := [[2, 1]])
    (by simp) (rs := [r]) (by
      rw [margins, hr]
      rfl)
  have h3 := (List.forall₂_cons.1 h2).1
  intro a
  have h4 := h3 a
  have e1 : (List.map exactOps.items [wavy 0 1, wavy 1 2, wavy 2 3, wavy 3 0]).flatten.toFinset =
      {0, 1, 2, 3} := by
    simp only [exactOps, wavy, List.map_cons, List.map_nil]
    decide
  rw [e1] at h4
  rw [h4]
  congr 1
  funext a
  congr 2
  simp only [List.map_cons, List.map_nil, List.sum_cons, List.sum_nil]
  ring

end Verif.ClusterGraph
