import Verif.Spec.Eliminate
import Verif.Props.Nested

/-!
# C107: every random effect is integrated out exactly once
-/
namespace Verif.ClusterGraph

open Verif.Items Verif.DepGraph Verif.Spec.Tree

variable {β : Type}

theorem Built.onceEach {ops : Ops β} {factors : List (List ℤ)} {c : CG β} (hb : Built ops factors c) :
    ∃ vs last, OnceEach (clusterItems ops c) (edgeData ops c) (fun x => ∃ F ∈ factors, x ∈ F) vs last := by
  classical
  choose f hf using hb.elim
  have hlen : (edgeData ops c).length = c.edges.length := by simp [edgeData]
  set vs : List ℤ := List.ofFn fun k : Fin c.edges.length => f k k.2 with hvs
  have hvl : vs.length = c.edges.length := by simp [vs]
  have hvk : ∀ (k : ℕ) (hk : k < vs.length), vs[k] = f k (hvl ▸ hk) := by
    intro k hk
    simp [vs]
  have hlast : c.edges.length < (clusterItems ops c).length := by rw [len_ci, ← hb.len]; omega
  refine ⟨vs, cl ops c c.edges.length, ?_⟩
  have hmem : ∀ {v : ℤ}, v ∈ vs → ∃ (k : ℕ) (hk : k < c.edges.length), v = f k hk := by
    intro v hv
    obtain ⟨k, hk, rfl⟩ := List.mem_iff_getElem.mp hv
    exact ⟨k, hvl ▸ hk, hvk k hk⟩
  refine ⟨by rw [hvl, hlen], ?_, ?_, ?_, ?_⟩
  · intro k hk hC hE x
    have hk' : k < c.edges.length := hvl ▸ hk
    obtain ⟨h1, h2, h3, h4⟩ := hf k hk'
    have he : (edgeData ops c)[k].2.2 = sp ops c.edges k := by simp [edgeData, sp_eq hk']
    rw [he, cl_eq hC, hvk k hk, h2 x]
    constructor
    · rintro ⟨h | h, h'⟩
      · exact h
      · exact absurd h h'
    · rintro rfl
      exact ⟨Or.inl rfl, h1⟩
  · rw [List.getLast?_eq_getElem?, ← cl_eq hlast, ← List.getElem?_eq_getElem hlast]
    congr 1
    rw [len_ci, ← hb.len]
    omega
  · rw [List.nodup_append]
    refine ⟨?_, hb.ndC _, ?_⟩
    · rw [hvs, List.nodup_ofFn]
      intro i j hij
      by_contra hne
      have key : ∀ i j : Fin c.edges.length, i < j → f i i.2 = f j j.2 → False := by
        intro i j h e
        obtain ⟨-, -, h3, -⟩ := hf i i.2
        obtain ⟨-, h2, -, -⟩ := hf j j.2
        exact h3 j h ((h2 _).2 (Or.inl e))
      rcases lt_or_gt_of_ne hne with h | h
      · exact key i j h hij
      · exact key j i h hij.symm
    · rintro v hv w hw rfl
      obtain ⟨k, hk, rfl⟩ := hmem hv
      exact (hf k hk).2.2.1 _ hk hw
  · intro x
    rw [← hb.items x, List.mem_append]
    constructor
    · rintro (h | h)
      · obtain ⟨k, hk, rfl⟩ := hmem h
        exact ⟨k, ((hf k hk).2.1 _).2 (Or.inl rfl)⟩
      · exact ⟨_, h⟩
    · rintro ⟨k, hk⟩
      -- the last cluster with the item
      by_contra hno
      push Not at hno
      have step : ∀ d k, c.edges.length ≤ k + d → x ∉ cl ops c k := by
        intro d
        induction d with
        | zero =>
          intro k hk hx
          rcases Nat.lt_or_ge c.edges.length k with h | h
          · rw [cl_ge ops (by rw [← hb.len]; omega)] at hx
            simp at hx
          · have : k = c.edges.length := by omega
            exact hno.2 (this ▸ hx)
        | succ d ih =>
          intro k hk hx
          rcases Nat.lt_or_ge k c.edges.length with h | h
          · obtain ⟨-, h2, -, h4⟩ := hf k h
            rcases (h2 x).1 hx with e | hs
            · refine hno.1 ?_
              rw [e, ← hvk k (by rw [hvl]; exact h)]
              exact List.getElem_mem _
            · obtain ⟨j, hj, hxj⟩ := h4 x hs
              exact ih j (by omega) hxj
          · exact ih k (by omega) hx
      exact step c.edges.length k (by omega) hk

/-- At the end some item is left, if there were any. -/
theorem internal_last {ops : Ops β} (hops : ItemsLaw ops) {ar : Arith} {B : ℤ} (hf : Fits ar B)
    (hB1 : 1 ≤ B) : ∀ (fuel : ℕ) {g : Graph} {A : Spec.Graph.AGraph} {c c' : CG β} {hanging : List ℕ},
    Rep g A → A.active.Nonempty → (A.active.card : ℤ) * (A.active.card - 1) ≤ B →
    (A.active.card : ℤ) ≤ B → initializeInternal ar ops fuel g c hanging = Except.ok c' →
    ∃ b, c'.clusters.getLast? = some b ∧ ops.items b ≠ []
  | 0, g, A, c, c', hanging, _, _, _, _, h => by cases h
  | fuel + 1, g, A, c, c', hanging, hr, hne, hb1, hb2, h => by
    obtain ⟨b, hb, hbc⟩ := isComplete_ok hr hf hB1 hb1 hb2
    rw [initializeInternal, hb] at h
    simp only [res_ok_bind] at h
    split at h
    · rw [finish] at h
      rcases hq : hanging.foldlM (fun es id => setSecond es id (c.clusters.length : ℤ)) c.edges
        with err | es
      · rw [hq] at h; cases h
      rw [hq] at h
      cases h
      refine ⟨_, List.getLast?_concat, ?_⟩
      rw [hops]
      obtain ⟨x, hx⟩ := hne
      exact List.ne_nil_of_mem ((mem_getItems hr).2 hx)
    · rename_i hcomp
      obtain ⟨v, hv, hva, -⟩ := chooseItem_ok hr hne
      obtain ⟨sep, hsep, -, hsnd, hsm⟩ := neighbours_ok hr (hr.sub v hva)
      obtain ⟨g1, e1, r1, -⟩ := rep_connect sep hr hsnd fun x hx => ((hsm x).mp hx).1
      obtain ⟨g2, e2, r2, -⟩ := rep_removeNode r1 (i := v) (hr.sub v hva)
      rw [eliminate, hv] at h
      simp only [res_ok_bind] at h
      rw [hsep] at h
      simp only [res_ok_bind] at h
      rcases h3 : hanging.foldlM (attachStep ops (findItemsUnion [v] sep) (c.clusters.length : ℤ))
        (c.edges ++ [⟨(c.clusters.length : ℤ), -1, ops.ofItems sep⟩], []) with err | s1
      · rw [h3] at h; cases h
      rw [h3] at h
      simp only [res_ok_bind, e1, e2, res_pure] at h
      have hcard : ((A.connect sep).remove v).active.card + 1 = A.active.card :=
        Finset.card_erase_add_one hva
      have hc1 : (((A.connect sep).remove v).active.card : ℤ) + 1 = A.active.card := by
        exact_mod_cast hcard
      have hc0 : (0 : ℤ) ≤ ((A.connect sep).remove v).active.card := by positivity
      refine internal_last hops hf hB1 fuel r2 ?_ ?_ (by omega) h
      · -- not complete: there is another item
        by_contra hemp
        rw [Finset.not_nonempty_iff_eq_empty] at hemp
        rw [hemp] at hcard
        obtain ⟨a, ha⟩ := Finset.card_eq_one.1 hcard.symm
        apply hcomp
        rw [hbc]
        intro x hx y hy hxy
        rw [ha, Finset.mem_singleton] at hx hy
        exact absurd (hx.trans hy.symm) hxy
      · rw [← hc1] at hb1
        nlinarith

/-- The number of items. -/
theorem onceEach_count {factors : List (List ℤ)} {C : List (List ℤ)} {E : List (ℤ × ℤ × List ℤ)}
    {vs last : List ℤ} (h : OnceEach C E (fun x => ∃ F ∈ factors, x ∈ F) vs last) :
    E.length + last.length = factors.flatten.toFinset.card := by
  rw [← h.count, ← List.length_append, ← List.toFinset_card_of_nodup h.once]
  congr 1
  ext x
  rw [List.mem_toFinset, h.all, List.mem_toFinset, List.mem_flatten]

/-- C107: every message integrates out exactly one item, the rest are the items of the last cluster, and
so every item is integrated out exactly once; if there are any items there are at most as many clusters
as items. -/
theorem c107 {ops : Ops β} (hops : ItemsLaw ops) (factors : List (List ℤ))
    (hF : ∀ F ∈ factors, F.Nodup) {ar : Arith} (har : Suits ar factors) :
    ∃ g c, makeDependenceGraph factors = Except.ok g ∧ initStructure ar ops g = Except.ok c ∧
      (∃ vs last, OnceEach (clusterItems ops c) (edgeData ops c) (fun x => ∃ F ∈ factors, x ∈ F) vs last ∧
        c.clusters.length + last.length = factors.flatten.toFinset.card + 1) ∧
      ((∃ F ∈ factors, F ≠ []) → c.clusters.length ≤ factors.flatten.toFinset.card) := by
  obtain ⟨B, hf, h1, h2, h3⟩ := har.fits hF
  obtain ⟨g, c, eg, ec, hb⟩ := init_ok hops factors hF hf h1 h2 h3
  obtain ⟨vs, last, ho⟩ := hb.onceEach
  have hc := onceEach_count ho
  have hl : (edgeData ops c).length = c.edges.length := by simp [edgeData]
  have hlen := hb.len
  refine ⟨g, c, eg, ec, ⟨vs, last, ho, by omega⟩, ?_⟩
  rintro ⟨F, hFm, hne⟩
  obtain ⟨g', e, r, -⟩ := rep_makeDependenceGraph factors hF
  cases e.symm.trans eg
  obtain ⟨b, hb1, hb2⟩ := internal_last hops hf h1 _ r (by
    obtain ⟨x, hx⟩ := List.exists_mem_of_ne_nil _ hne
    refine ⟨x, ?_⟩
    have := (mem_depA_items hF).2 ⟨F, hFm, hx⟩
    simpa [depA] using this) h2 h3 ec
  have hfin := ho.final
  rw [clusterItems, List.getLast?_map, hb1] at hfin
  cases hfin
  have := List.length_pos_iff.2 hb2
  omega

/-- Two classes of a school and another school: four items, at most four clusters. -/
example : ∃ g c, makeDependenceGraph [[0, 2], [1, 2], [3]] = Except.ok g ∧
    initStructure i32 simpleOps g = Except.ok c ∧ c.clusters.length ≤ 4 := by
  obtain ⟨g, c, h1, h2, -, h3⟩ := c107 simpleLaws.items_ofItems [[0, 2], [1, 2], [3]] (by decide)
    (ar := i32) (Or.inr ⟨rfl, by decide⟩)
  exact ⟨g, c, h1, h2, h3 ⟨[3], by decide, by decide⟩⟩

/-- The same for the graph made from beliefs. -/
theorem c107_beliefs {ops : Ops β} {WF : β → Prop} {ev : β → (ℤ → ℝ) → ℝ} (L : Laws ops WF ev)
    (beliefs : List β) (hb : ∀ b ∈ beliefs, WF b) {ar : Arith}
    (har : Suits ar (beliefs.map ops.items)) :
    ∃ c, ofBeliefs ar ops beliefs = Except.ok c ∧ ∃ vs last,
      OnceEach (clusterItems ops c) (edgeData ops c) (fun x => ∃ b ∈ beliefs, x ∈ ops.items b) vs last := by
  have hF : ∀ F ∈ beliefs.map ops.items, F.Nodup := by
    intro F hF
    obtain ⟨b, hbm, rfl⟩ := List.mem_map.mp hF
    exact L.nodup b (hb b hbm)
  obtain ⟨B, hf, h1, h2, h3⟩ := har.fits hF
  obtain ⟨c, ec, hB, -⟩ := ofBeliefs_ok L beliefs hb hf h1 h2 h3
  obtain ⟨vs, last, h⟩ := hB.onceEach
  exact ⟨c, ec, vs, last, h.count, h.only, h.final, h.once, fun x => (h.all x).trans (by simp)⟩

end Verif.ClusterGraph

namespace Verif.Lfun

open Verif.Pars Verif.SR Verif.Belief Verif.ClusterGraph Verif.Split Verif.Split.Spec Verif.Spec
open Verif.Family Verif.GLMM Verif.Gauss Verif.Spec.Tree

variable {q n p : ℕ}

/-- C107 for models: if the log-likelihood function of sequential reduction can be made, every random
effect is integrated out exactly once. -/
theorem c107_model {link : String} {μ : ℝ → ℝ} (hl : IsLink link μ) {M : ModFr q n p} {nTheta : ℕ}
    (hM : WellFormed M nTheta) (hc : Covered M) {lib : Lib}
    (har : lib.ar = exactZ ∨ lib.ar = i32 ∧ q ≤ 46341) (hrd : Reads lib.rd M) {env : Env}
    {nSL nAGQ : ℝ} {pars0 : Parameters} {c : CG (Mixed Factor NB)}
    (h : findLfunSR lib env M "binomial" link nSL nAGQ = Except.ok (pars0, c)) :
    ∃ vs last, OnceEach (c.clusters.map Mixed.items)
        (c.edges.map fun e => (e.first, e.second, e.belief.items)) (fun x => 0 ≤ x ∧ x < q) vs last ∧
      c.clusters.length + last.length = q + 1 := by
  obtain ⟨f, ef⟩ : ∃ f, Family.ofNames "binomial" link = Except.ok f := by
    cases hl <;> exact ⟨_, rfl⟩
  set P : Parameters := ⟨List.replicate nTheta 0, List.replicate p 0, f, pars0.sparseBasis,
    pars0.quadratureRule⟩ with hP
  obtain ⟨beliefs, e3, hwf, hcov, hsuits, -⟩ := beliefs_facts (pars := P) hl ef (by simpa [P] using hM) hc
    (by simp [P]) hrd har
  rw [findLfunSR] at h
  rcases h1 : checkModfrSR "binomial" link with e | u
  · rw [h1] at h; cases h
  rw [h1] at h; simp only [res_ok_bind] at h
  rcases h2 : factorizationTerms lib M with e | ts
  · rw [h2] at h; cases h
  rw [h2] at h; simp only [res_ok_bind] at h
  rcases h3 : calibrationPars env "binomial" link nSL nAGQ with e | cp
  · rw [h3] at h; cases h
  rw [h3] at h; simp only [res_ok_bind] at h
  rcases h4 : ofBeliefs lib.ar (SR.ops lib cp) ts with e | c'
  · rw [h4] at h; cases h
  rw [h4] at h; simp only [res_ok_bind] at h
  split_ifs at h
  · cases h
  cases Except.ok.inj h
  have e' := graph_eq lib pars0 P M
  rw [h2] at e'
  simp only [res_ok_bind] at e'
  rw [h4, e3] at e'
  set fo := Factor.ops lib P with hfo
  have L := tot_laws fo
  set st0 : Belief.Store Factor NB := fun _ _ _ _ _ _ => Res.ub with hst0
  have hst : StoreLaw fo (Tot fo) st0 := by
    intro k f d h n l g _ h
    cases h
  obtain ⟨c2, ec, vs, last, ho⟩ := c107_beliefs (mixed_laws L nb_laws hst) beliefs
    (fun b hbm => (hwf b hbm).wf) hsuits
  have ec' := (ofBeliefs_store fo NB.ops (store lib P) st0 lib.ar beliefs).trans ec
  cases e'.trans ec'
  have ho' : OnceEach (c.clusters.map Mixed.items)
      (c.edges.map fun e => (e.first, e.second, e.belief.items)) (fun x => 0 ≤ x ∧ x < q) vs last :=
    ⟨ho.count, ho.only, ho.final, ho.once, fun x => (ho.all x).trans (hcov x)⟩
  refine ⟨vs, last, ho', ?_⟩
  have hq : (vs ++ last).length = q := by
    rw [← List.toFinset_card_of_nodup ho'.once]
    have : (vs ++ last).toFinset = Finset.univ.image fun i : Fin q => ((i : ℕ) : ℤ) := by
      ext x
      rw [List.mem_toFinset, ho'.all, Finset.mem_image]
      constructor
      · rintro ⟨h0, h1⟩
        exact ⟨⟨x.toNat, by omega⟩, Finset.mem_univ _, by simp [h0]⟩
      · rintro ⟨i, -, rfl⟩
        exact ⟨by omega, by omega⟩
    rw [this, Finset.card_image_of_injective _ fun i j hij => by
      ext
      exact_mod_cast hij]
    simp
  have hv := ho'.count
  rw [List.length_map] at hv
  rw [List.length_append] at hq
  obtain ⟨B, hf, g1, g2, g3⟩ := Suits.fits hsuits (by
    intro F hF
    obtain ⟨b, hbm, rfl⟩ := List.mem_map.mp hF
    exact (hwf b hbm).wf.nodup)
  obtain ⟨c3, ec3, hB, -⟩ := ofBeliefs_ok (mixed_laws L nb_laws hst) beliefs
    (fun b hbm => (hwf b hbm).wf) hf g1 g2 g3
  cases ec3.symm.trans ec
  have := hB.len
  omega

/-- The model with two random effects, with two sparse grid levels. -/
example {lib : Lib} (har : lib.ar = i32) (hrd : Reads lib.rd crossed) {env : Env} {nAGQ : ℝ}
    {pars0 : Parameters} (hp : calibrationPars env "binomial" "logit" (2 : ℕ) nAGQ = Except.ok pars0) :
    ∃ c, findLfunSR lib env crossed "binomial" "logit" (2 : ℕ) nAGQ = Except.ok (pars0, c) ∧
      ∃ last : List ℤ, c.clusters.length + last.length = 3 := by
  obtain ⟨c, h⟩ := c106_accepted .logit crossed_wf crossed_covered crossed_nested
    (Or.inr ⟨har, by norm_num⟩) hrd hp crossed_nActive (by norm_num)
  obtain ⟨-, last, -, hc⟩ := c107_model .logit crossed_wf crossed_covered (Or.inr ⟨har, by norm_num⟩) hrd h
  exact ⟨c, h, last, hc⟩

end Verif.Lfun
