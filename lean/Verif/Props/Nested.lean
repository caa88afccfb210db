import Verif.Proofs.Nested
import Verif.Props.SRRange

/-!
# C106: nested random effects need no larger clusters than the observations
-/
namespace Verif.ClusterGraph

open Verif.Items Verif.DepGraph Verif.Nested.Spec

variable {β : Type}

theorem init_within {ops : Ops β} (hops : ItemsLaw ops) {factors : List (List ℤ)}
    (hF : ∀ F ∈ factors, F.Nodup) (hn : Nested factors) {ar : Arith} (har : Suits ar factors)
    {g : Graph} {c : CG β} (hg : makeDependenceGraph factors = Except.ok g)
    (hc : initStructure ar ops g = Except.ok c) : InFactor ops factors c := by
  obtain ⟨B, hf, h1, h2, h3⟩ := har.fits hF
  obtain ⟨g', e, r, -⟩ := rep_makeDependenceGraph factors hF
  cases e.symm.trans hg
  exact internal_within hops hn hf h1 _ r (plain_depA hF) (fun b hb => by simp at hb) h2 h3 hc

/-- The width from clusters within factors that cover them. -/
theorem width_iff {ops : Ops β} {factors : List (List ℤ)} (hF : ∀ F ∈ factors, F.Nodup) {c : CG β}
    (hb : Built ops factors c) (hw : InFactor ops factors c) (w : ℕ) :
    width ops c ≤ w ↔ ∀ F ∈ factors, F.length ≤ w := by
  obtain ⟨-, hle, hat⟩ := foldl_max (fun b => (ops.items b).length) c.clusters 0
  constructor
  · intro h F hFm
    obtain ⟨k, hk, hcov⟩ := hb.cover F hFm
    have hkl : k < (clusterItems ops c).length := by rw [len_ci]; exact hk
    have hsub : F.length ≤ (cl ops c k).length := by
      rw [← List.toFinset_card_of_nodup (hF F hFm), ← List.toFinset_card_of_nodup (hb.ndC k)]
      refine Finset.card_le_card fun x hx => ?_
      rw [List.mem_toFinset] at hx ⊢
      exact hcov x hx
    have h2 := hle _ (List.getElem_mem hk)
    have h3 : cl ops c k = ops.items c.clusters[k] := by simp [cl, hk]
    rw [h3] at hsub
    exact hsub.trans (h2.trans h)
  · intro h
    rcases hat with h0 | ⟨b, hbm, he⟩
    · exact h0.le.trans (Nat.zero_le _)
    · refine he.le.trans ?_
      have hnd : (ops.items b).Nodup := by
        obtain ⟨k, hk⟩ := List.mem_iff_getElem?.mp hbm
        have := hb.ndC k
        simpa [cl, hk] using this
      rcases hw b hbm with h1 | ⟨F, hFm, hsub⟩
      · show (ops.items b).length ≤ w
        rw [h1]
        exact Nat.zero_le _
      · refine le_trans ?_ (h F hFm)
        show (ops.items b).length ≤ F.length
        rw [← List.toFinset_card_of_nodup (hF F hFm), ← List.toFinset_card_of_nodup hnd]
        refine Finset.card_le_card fun x hx => ?_
        rw [List.mem_toFinset] at hx ⊢
        exact hsub x hx

/-- C106 for factors: if the factors are nested, every cluster that is not empty is contained in a
factor, and the width is the size of the largest factor. -/
theorem c106 {ops : Ops β} (hops : ItemsLaw ops) (factors : List (List ℤ))
    (hF : ∀ F ∈ factors, F.Nodup) (hn : Nested factors) {ar : Arith} (har : Suits ar factors) :
    ∃ g c, makeDependenceGraph factors = Except.ok g ∧ initStructure ar ops g = Except.ok c ∧
      (∀ C ∈ clusterItems ops c, C = [] ∨ ∃ F ∈ factors, ∀ x ∈ C, x ∈ F) ∧
      ∀ w, width ops c ≤ w ↔ ∀ F ∈ factors, F.length ≤ w := by
  obtain ⟨B, hf, h1, h2, h3⟩ := har.fits hF
  obtain ⟨g, c, eg, ec, hb⟩ := init_ok hops factors hF hf h1 h2 h3
  have hw := init_within hops hF hn har eg ec
  refine ⟨g, c, eg, ec, fun C hC => ?_, width_iff hF hb hw⟩
  obtain ⟨b, hbm, rfl⟩ := List.mem_map.mp hC
  exact hw b hbm

/-- A school with two classes, each effect also with its own factor. -/
example : ∃ g c, makeDependenceGraph [[0, 2], [1, 2], [0], [1], [2]] = Except.ok g ∧
    initStructure i32 simpleOps g = Except.ok c ∧ width simpleOps c ≤ 2 ∧ ¬ width simpleOps c ≤ 1 := by
  obtain ⟨g, c, h1, h2, -, h3⟩ := c106 simpleLaws.items_ofItems [[0, 2], [1, 2], [0], [1], [2]]
    (by decide) (fun x y => by
      by_cases hx : x = 2
      · subst hx
        exact Or.inr (Or.inl (by simp))
      by_cases hy : y = 2
      · subst hy
        exact Or.inl (by simp)
      by_cases hxy : x = y
      · subst hxy
        exact Or.inl (by simp)
      refine Or.inr (Or.inr ?_)
      simp [hx, hy]
      omega) (ar := i32) (Or.inr ⟨rfl, by decide⟩)
  exact ⟨g, c, h1, h2, (h3 2).2 (by decide), fun h => absurd ((h3 1).1 h) (by decide)⟩

/-- Four effects in a circle are not nested. -/
example : ¬ Nested [[0, 1], [1, 2], [2, 3], [3, 0]] := by
  intro h
  have := h 0 1
  simp at this

/-- The same for a graph made from beliefs. -/
theorem ofBeliefs_width {ops : Ops β} {WF : β → Prop} {ev : β → (ℤ → ℝ) → ℝ} (L : Laws ops WF ev)
    {beliefs : List β} (hb : ∀ b ∈ beliefs, WF b) (hn : Nested (beliefs.map ops.items)) {ar : Arith}
    (har : Suits ar (beliefs.map ops.items)) :
    ∃ c, ofBeliefs ar ops beliefs = Except.ok c ∧
      ∀ w, width ops c ≤ w ↔ ∀ b ∈ beliefs, (ops.items b).length ≤ w := by
  have hF : ∀ F ∈ beliefs.map ops.items, F.Nodup := by
    intro F hF
    obtain ⟨b, hbm, rfl⟩ := List.mem_map.mp hF
    exact L.nodup b (hb b hbm)
  obtain ⟨B, hf, h1, h2, h3⟩ := har.fits hF
  obtain ⟨c, ec, hB, -, -, bss, hbl, -, hbc, -⟩ := ofBeliefs_ok L beliefs hb hf h1 h2 h3
  refine ⟨c, ec, fun w => (width_iff hF hB ?_ w).trans List.forall_mem_map⟩
  rw [ofBeliefs] at ec
  obtain ⟨g, c0, eg, ec0, hB0⟩ := init_ok L.items_ofItems (beliefs.map ops.items) hF hf h1 h2 h3
  have hw0 := init_within L.items_ofItems hF hn har eg ec0
  rw [eg] at ec
  simp only [res_ok_bind] at ec
  rw [ec0] at ec
  simp only [res_ok_bind] at ec
  have hform := init_form (ops := ops) ec0
  have hwfC : ∀ b ∈ c0.clusters, WF b := by
    intro b hbm
    obtain ⟨l, rfl⟩ := hform.1 b hbm
    refine L.ofItems_wf l ?_
    obtain ⟨k, hk⟩ := List.mem_iff_getElem?.mp hbm
    have := hB0.ndC k
    simpa [cl, hk, L.items_ofItems l] using this
  have hcov : ∀ b ∈ beliefs, ∃ c ∈ c0.clusters, ∀ x ∈ ops.items b, x ∈ ops.items c := by
    intro b hbm
    obtain ⟨k, hk, hc⟩ := hB0.cover _ (List.mem_map_of_mem (f := ops.items) hbm)
    exact ⟨c0.clusters[k], List.getElem_mem hk, fun x hx => by simpa [cl, hk] using hc x hx⟩
  obtain ⟨rs, bss', er, -, -, -, -, hi, -⟩ := populateClusters_ok L c0.clusters beliefs
    hwfC hb hcov
  rw [populate, er] at ec
  cases ec
  intro b hbm
  have : ops.items b ∈ c0.clusters.map ops.items := by
    rw [← hi]
    exact List.mem_map_of_mem hbm
  obtain ⟨b0, hb0, e0⟩ := List.mem_map.mp this
  rw [← e0]
  exact hw0 b0 hb0

end Verif.ClusterGraph

namespace Verif.Lfun

open Verif.Pars Verif.SR Verif.Belief Verif.ClusterGraph Verif.Split Verif.Split.Spec Verif.Spec
open Verif.Family Verif.GLMM Verif.Nested.Spec Verif.Gauss

variable {q n p : ℕ}

/-- The cluster graph of a nested model. -/
theorem nested_width {lib : Lib} {pars : Parameters} {M : ModFr q n p} {μ : ℝ → ℝ}
    {link : String} (hl : IsLink link μ)
    (hfam : Family.ofNames "binomial" link = Except.ok pars.family)
    (hM : WellFormed M pars.theta.length) (hc : Covered M)
    (hb : pars.beta.length = p) (hrd : Reads lib.rd M)
    (har : lib.ar = exactZ ∨ lib.ar = i32 ∧ q ≤ 46341) (hn : NestedEffects M) :
    ∃ c, clusterGraph lib pars M = Except.ok c ∧
      ∀ w, 1 ≤ w → ∀ pars', (width (SR.ops lib pars') c ≤ w ↔ ∀ k, nActive M k ≤ w) := by
  classical
  obtain ⟨ext, beliefs, e1, e2, hmade, hp, hcont, hcl⟩ :=
    beliefs_made (lib := lib) hl hfam hM hc hb hrd
  have hrange : ∀ b ∈ beliefs, ∀ x ∈ b.items, 0 ≤ x ∧ x < (q : ℤ) := by
    intro b hbm x hx
    obtain ⟨t, ht, hm⟩ := forall₂_mem_right hmade b hbm
    rw [hm.items] at hx
    rcases t with ⟨C, m, D⟩ | ⟨i, s, s'⟩
    · obtain ⟨i, -, rfl⟩ := List.mem_map.1 hx
      exact ⟨by omega, by omega⟩
    · rw [termItems, List.mem_singleton] at hx
      omega
  have hsuits : Suits lib.ar (beliefs.map Mixed.items) := by
    unfold Suits
    rcases har with h | ⟨h, hq'⟩
    · exact Or.inl h
    · refine Or.inr ⟨h, le_trans (Finset.card_le_card (t := Finset.univ.image
        fun i : Fin q => ((i : ℕ) : ℤ)) fun x hx => ?_) (Finset.card_image_le.trans ?_)⟩
      · rw [List.mem_toFinset, List.mem_flatten] at hx
        obtain ⟨l, hl', hx⟩ := hx
        obtain ⟨b, hbm, rfl⟩ := List.mem_map.1 hl'
        obtain ⟨h0, h1⟩ := hrange b hbm x hx
        exact Finset.mem_image.mpr ⟨⟨x.toNat, by omega⟩, Finset.mem_univ _, by simp [h0]⟩
      · simpa using hq'
  -- the items of a belief are one random effect or those of an observation
  have hitems : ∀ b ∈ beliefs, (∃ i : Fin q, b.items = [((i : ℕ) : ℤ)]) ∨
      ∃ k, b.items.length = nActive M k ∧
        ∀ x, x ∈ b.items ↔ ∃ r ∈ Active M k, ((r : ℕ) : ℤ) = x := by
    intro b hbm
    obtain ⟨t, ht, hm⟩ := forall₂_mem_right hmade b hbm
    rcases List.mem_append.1 ht with ht | ht
    · obtain ⟨e, he, rfl⟩ := List.mem_map.1 ht
      obtain ⟨hnd, j, hj⟩ := hcl e he
      refine Or.inr ⟨j, ?_, fun x => ?_⟩
      · rw [hm.items]
        show (e.1.map fun i : Fin q => ((i : ℕ) : ℤ)).length = _
        rw [List.length_map, nActive, ← List.toFinset_card_of_nodup hnd, ← Set.ncard_coe_finset]
        congr 1
        ext r
        simp [hj]
      · rw [hm.items]
        show x ∈ e.1.map (fun i : Fin q => ((i : ℕ) : ℤ)) ↔ _
        rw [List.mem_map]
        simp only [hj]
    · obtain ⟨i, -, rfl⟩ := List.mem_map.1 ht
      exact Or.inl ⟨i, hm.items⟩
  have hwide : ∀ k, ∃ b ∈ beliefs, nActive M k ≤ b.items.length := by
    intro k
    obtain ⟨e, he, hke⟩ : ∃ e ∈ ext, k ∈ e.2 := by
      by_contra hno
      push Not at hno
      have := hp k
      rw [List.sum_eq_zero] at this
      · omega
      · intro m hm
        obtain ⟨e, he, rfl⟩ := List.mem_map.1 hm
        exact List.count_eq_zero.2 (hno e he)
    obtain ⟨b, hbm, hm⟩ := forall₂_mem_left hmade
      (Term.glmm e.1 e.2.length (findLocalTerm e.1 e.2 M))
      (List.mem_append_left _ (List.mem_map_of_mem he))
    refine ⟨b, hbm, ?_⟩
    rw [hm.items]
    show _ ≤ (e.1.map fun i : Fin q => ((i : ℕ) : ℤ)).length
    rw [List.length_map, nActive, ← List.toFinset_card_of_nodup (hcl e he).1,
      ← Set.ncard_coe_finset]
    refine Set.ncard_le_ncard (fun r hr => ?_) (Finset.finite_toSet _)
    simpa using hcont e he k hke r hr
  have hnest : Nested (beliefs.map Mixed.items) := by
    -- facts about factors with at least two items
    have hbig : ∀ F ∈ beliefs.map Mixed.items, 2 ≤ F.length →
        ∃ k, ∀ x, x ∈ F ↔ ∃ r ∈ Active M k, ((r : ℕ) : ℤ) = x := by
      intro F hF h2
      obtain ⟨b, hbm, rfl⟩ := List.mem_map.1 hF
      rcases hitems b hbm with ⟨i, hi⟩ | ⟨k, -, hk⟩
      · rw [hi] at h2
        simp at h2
      · exact ⟨k, hk⟩
    intro x y
    by_cases hxy : x = y
    · exact Or.inl fun F _ _ h => hxy ▸ h
    by_cases hx : ∃ r : Fin q, ((r : ℕ) : ℤ) = x
    swap
    · refine Or.inl fun F hF h2 hxF => ?_
      obtain ⟨k, hk⟩ := hbig F hF h2
      obtain ⟨r, -, hr⟩ := (hk x).1 hxF
      exact absurd ⟨r, hr⟩ hx
    by_cases hy : ∃ r : Fin q, ((r : ℕ) : ℤ) = y
    swap
    · refine Or.inr (Or.inl fun F hF h2 hxF => ?_)
      obtain ⟨k, hk⟩ := hbig F hF h2
      obtain ⟨r, -, hr⟩ := (hk y).1 hxF
      exact absurd ⟨r, hr⟩ hy
    obtain ⟨r, hr⟩ := hx
    obtain ⟨s, hs⟩ := hy
    have hmem : ∀ {k : Fin n} {t : Fin q} {z : ℤ}, ((t : ℕ) : ℤ) = z →
        ((∃ r ∈ Active M k, ((r : ℕ) : ℤ) = z) ↔ t ∈ Active M k) := by
      intro k t z ht
      constructor
      · rintro ⟨r', hr', h⟩
        have : r' = t := by
          ext
          have := h.trans ht.symm
          exact_mod_cast this
        exact this ▸ hr'
      · exact fun h => ⟨t, h, ht⟩
    rcases hn r s with h | h | h
    · refine Or.inl fun F hF h2 hxF => ?_
      obtain ⟨k, hk⟩ := hbig F hF h2
      exact (hk y).2 ((hmem hs).2 (h k ((hmem hr).1 ((hk x).1 hxF))))
    · refine Or.inr (Or.inl fun F hF h2 hyF => ?_)
      obtain ⟨k, hk⟩ := hbig F hF h2
      exact (hk x).2 ((hmem hr).2 (h k ((hmem hs).1 ((hk y).1 hyF))))
    · refine Or.inr (Or.inr fun F hF hxyF => ?_)
      obtain ⟨k, hk⟩ := hbig F hF (two_le hxyF.1 hxyF.2 hxy)
      exact h k ⟨(hmem hr).1 ((hk x).1 hxyF.1), (hmem hs).1 ((hk y).1 hxyF.2)⟩
  set fo := Factor.ops lib pars with hfo
  have L := tot_laws fo
  set st0 : Belief.Store Factor NB := fun _ _ _ _ _ _ => Res.ub with hst0
  have hst : StoreLaw fo (Tot fo) st0 := by
    intro k f d h n l g _ h
    cases h
  obtain ⟨c, ec, hw⟩ := ofBeliefs_width (mixed_laws L nb_laws hst) (beliefs := beliefs)
    (fun b hbm => by
      obtain ⟨t, -, hm⟩ := forall₂_mem_right hmade b hbm
      exact hm.wf.wf) hnest hsuits
  refine ⟨c, ?_, fun w hw1 pars' => ?_⟩
  · rw [clusterGraph, e1]
    simp only [res_ok_bind]
    rw [e2]
    exact (ofBeliefs_store fo NB.ops (store lib pars) st0 lib.ar beliefs).trans ec
  · refine (hw w).trans ⟨fun h k => ?_, fun h b hbm => ?_⟩
    · obtain ⟨b, hbm, hb⟩ := hwide k
      exact hb.trans (h b hbm)
    · show b.items.length ≤ w
      rcases hitems b hbm with ⟨i, hi⟩ | ⟨k, hk, -⟩
      · rw [hi]
        exact hw1
      · exact hk.le.trans (h k)

/-- C106 for models: sequential reduction for a model with nested random effects is refused as too
difficult exactly if some observation has so many random effects that this number to the power of
twice the number of sparse grid levels exceeds half a million, however many groups there are; if it is
not refused, no cluster has more items than an observation has random effects. -/
theorem c106_model {link : String} {μ : ℝ → ℝ} (hl : IsLink link μ) {M : ModFr q n p} {nTheta : ℕ}
    (hM : WellFormed M nTheta) (hc : Covered M) (hn : NestedEffects M) {lib : Lib}
    (har : lib.ar = exactZ ∨ lib.ar = i32 ∧ q ≤ 46341) (hrd : Reads lib.rd M) {env : Env}
    {nSL nAGQ : ℝ} (hnSL : 0 ≤ nSL) {pars0 : Parameters}
    (hp : calibrationPars env "binomial" link nSL nAGQ = Except.ok pars0) :
    ((∃ k, (nActive M k : ℝ) ^ (2 * nSL) > 500000) ∧ findLfunSR lib env M "binomial" link nSL nAGQ =
      Res.raise "The sequential reduction approximation is too difficult to compute in this case") ∨
    ((∀ k, (nActive M k : ℝ) ^ (2 * nSL) ≤ 500000) ∧
      ∃ c, findLfunSR lib env M "binomial" link nSL nAGQ = Except.ok (pars0, c) ∧
        ∀ w, 1 ≤ w → ((∀ b ∈ c.clusters, b.items.length ≤ w) ↔ ∀ k, nActive M k ≤ w)) := by
  obtain ⟨f, ef⟩ : ∃ f, Family.ofNames "binomial" link = Except.ok f := by
    cases hl <;> exact ⟨_, rfl⟩
  have hchk : checkModfrSR "binomial" link = Except.ok () := by
    cases hl <;> rfl
  obtain ⟨c, ec, hw⟩ := nested_width (pars := ⟨List.replicate nTheta 0, List.replicate p 0, f,
    pars0.sparseBasis, pars0.quadratureRule⟩) hl ef (by simpa using hM) hc (by simp) hrd har hn
  have e' := graph_eq lib pars0 ⟨List.replicate nTheta 0, List.replicate p 0, f,
    pars0.sparseBasis, pars0.quadratureRule⟩ M
  rw [ec] at e'
  rw [findLfunSR, hchk, hp]
  simp only [res_ok_bind]
  rcases ht : factorizationTerms lib M with e2 | ts
  · rw [ht] at e'
    cases e'
  rw [ht] at e'
  simp only [res_ok_bind] at e' ⊢
  rw [e']
  simp only [res_ok_bind]
  have hmono : ∀ {a b : ℕ}, a ≤ b → (a : ℝ) ^ (2 * nSL) ≤ (b : ℝ) ^ (2 * nSL) := fun h =>
    Real.rpow_le_rpow (Nat.cast_nonneg _) (by exact_mod_cast h) (by positivity)
  have hone : ((1 : ℕ) : ℝ) ^ (2 * nSL) = 1 := by rw [Nat.cast_one, Real.one_rpow]
  split_ifs with hwid
  · refine Or.inl ⟨?_, rfl⟩
    by_contra hno
    push Not at hno
    -- the width is attained
    set W := width (SR.ops lib pars0) c with hW
    have hW2 : 2 ≤ W := by
      by_contra h
      have := hmono (show W ≤ 1 by omega)
      rw [hone] at this
      norm_num at hwid
      linarith
    have h1 := (hw (W - 1) (by omega) pars0).not.1 (by omega)
    push Not at h1
    obtain ⟨k, hk⟩ := h1
    have := (hmono (show W ≤ nActive M k by omega)).trans (hno k)
    norm_num at hwid
    linarith
  · refine Or.inr ⟨fun k => ?_, c, rfl, fun w hw1 => ?_⟩
    · rcases Nat.eq_zero_or_pos (width (SR.ops lib pars0) c) with h0 | h0
      · have := hmono ((hw 1 le_rfl pars0).1 (by omega) k)
        rw [hone] at this
        linarith
      · have := hmono ((hw _ h0 pars0).1 le_rfl k)
        norm_num at hwid
        linarith
    · rw [← hw w hw1 pars0]
      obtain ⟨-, hle, hat⟩ := foldl_max (fun b => b.items.length) c.clusters 0
      constructor
      · intro h
        rcases hat with h0 | ⟨b, hbm, he⟩
        · exact h0.le.trans (Nat.zero_le _)
        · exact he.le.trans (h b hbm)
      · exact fun h b hbm => (hle b hbm).trans h

/-- With at most `d` random effects per observation, and `d` to the power of twice the number of levels
at most half a million, the function can always be made: the number of observations and of groups does
not matter. -/
theorem c106_accepted {link : String} {μ : ℝ → ℝ} (hl : IsLink link μ) {M : ModFr q n p} {nTheta : ℕ}
    (hM : WellFormed M nTheta) (hc : Covered M) (hn : NestedEffects M) {lib : Lib}
    (har : lib.ar = exactZ ∨ lib.ar = i32 ∧ q ≤ 46341) (hrd : Reads lib.rd M) {env : Env} {k d : ℕ}
    {nAGQ : ℝ} {pars0 : Parameters}
    (hp : calibrationPars env "binomial" link k nAGQ = Except.ok pars0)
    (hd : ∀ j, nActive M j ≤ d) (hk : d ^ (2 * k) ≤ 500000) :
    ∃ c, findLfunSR lib env M "binomial" link k nAGQ = Except.ok (pars0, c) := by
  rcases c106_model hl hM hc hn har hrd (nSL := k) (Nat.cast_nonneg _) hp with ⟨⟨j, hj⟩, -⟩ | ⟨-, c, h, -⟩
  · exfalso
    have h1 : (nActive M j : ℝ) ^ (2 * (k : ℝ)) = ((nActive M j ^ (2 * k) : ℕ) : ℝ) := by
      rw [Nat.cast_pow, ← Real.rpow_natCast]
      congr 1
      push_cast
      ring
    have h2 : nActive M j ^ (2 * k) ≤ 500000 := (Nat.pow_le_pow_left (hd j) _).trans hk
    rw [h1] at hj
    have h3 : ((nActive M j ^ (2 * k) : ℕ) : ℝ) ≤ ((500000 : ℕ) : ℝ) := by exact_mod_cast h2
    norm_num at hj h3
    linarith
  · exact ⟨c, h⟩

/-! ## Cases meeting the hypotheses -/

/-- Two random effects, the second within the first: the first observation has the first effect, the
second both. -/
theorem crossed_nested : NestedEffects crossed := by
  intro r s
  have h0 : ∀ k, (0 : Fin 2) ∈ Active crossed k := by
    intro k
    refine ⟨0, by simp [crossed], ?_⟩
    fin_cases k <;> simp [crossed]
  have hr : r = 0 ∨ r = 1 := by fin_cases r <;> simp
  have hs : s = 0 ∨ s = 1 := by fin_cases s <;> simp
  rcases hr with rfl | rfl <;> rcases hs with rfl | rfl
  · exact Or.inl fun _ h => h
  · exact Or.inr (Or.inl fun k _ => h0 k)
  · exact Or.inl fun k _ => h0 k
  · exact Or.inl fun _ h => h

theorem crossed_nActive (k : Fin 2) : nActive crossed k ≤ 2 := by
  unfold nActive
  have := Set.ncard_le_card (Active crossed k)
  simpa using this

/-- Two effects per observation are accepted with up to nine levels. -/
example {lib : Lib} (har : lib.ar = i32) (hrd : Reads lib.rd crossed) {env : Env} {k : ℕ} (hk : k ≤ 9)
    {nAGQ : ℝ} {pars0 : Parameters}
    (hp : calibrationPars env "binomial" "logit" k nAGQ = Except.ok pars0) :
    ∃ c, findLfunSR lib env crossed "binomial" "logit" k nAGQ = Except.ok (pars0, c) :=
  c106_accepted .logit crossed_wf crossed_covered crossed_nested (Or.inr ⟨har, by norm_num⟩) hrd hp
    crossed_nActive ((Nat.pow_le_pow_right (by norm_num) (show 2 * k ≤ 18 by omega)).trans (by norm_num))

end Verif.Lfun
