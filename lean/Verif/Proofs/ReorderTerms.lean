import Verif.Proofs.ReorderRun
import Verif.Proofs.SRApprox
import Verif.Props.Grouped
import Verif.Spec.Reorder

/-!
# The factors of a model frame with its observations in another order
-/
namespace Verif.Reorder

open Verif.Gauss Verif.Items Verif.Belief Verif.Param Verif.ClusterGraph Verif.DepGraph
open Verif.Split Verif.Grouped Verif.Reorder.Spec

/-! ## Beliefs in another order -/

theorem ofBeliefs_pars (lib : SR.Lib) (pars pars' : Pars.Parameters) (bs : List (Mixed SR.Factor NB)) :
    ofBeliefs lib.ar (SR.ops lib pars) bs = ofBeliefs lib.ar (SR.ops lib pars') bs :=
  ofBeliefs_congr (ops := SR.ops lib pars) (ops' := SR.ops lib pars') rfl rfl
    (Lfun.mul_congr (Lfun.factor_items lib pars pars') _) _ _

theorem width_items {γ : Type} {fo : FactorOps γ} {st : Store γ NB} {c c' : CG (Mixed γ NB)}
    (h : c.clusters.map Mixed.items = c'.clusters.map Mixed.items) :
    width (gops fo st) c = width (gops fo st) c' := by
  have key : ∀ c : CG (Mixed γ NB), width (gops fo st) c =
      (c.clusters.map Mixed.items).foldl (fun w l => max w l.length) 0 := by
    intro c
    rw [List.foldl_map]
    rfl
  rw [key, key, h]

theorem order_sr (lib : SR.Lib) {bs bs' : List (Mixed SR.Factor NB)} (hp : bs.Perm bs')
    {pars1 : Pars.Parameters} (h1 : Start (SR.Factor.ops lib pars1) bs)
    (har : Suits lib.ar (bs.map Mixed.items)) {N : ℕ}
    (hr : ∀ b ∈ bs, ∀ x ∈ b.items, 0 ≤ x ∧ x < N) :
    ∃ c c', (∀ pars, ofBeliefs lib.ar (SR.ops lib pars) bs = Except.ok c ∧
        ofBeliefs lib.ar (SR.ops lib pars) bs' = Except.ok c') ∧
      c.clusters.map Mixed.items = c'.clusters.map Mixed.items ∧
      ∀ pars, Start (SR.Factor.ops lib pars) bs → ∀ (mean : Fin N → ℝ) (Q : Matrix (Fin N) (Fin N) ℝ),
        SR.computeLogNormalizingConstant lib pars c mean Q =
          SR.computeLogNormalizingConstant lib pars c' mean Q := by
  have hF : ∀ F ∈ bs.map Mixed.items, F.Nodup := by
    intro F hF
    obtain ⟨b, hbm, rfl⟩ := List.mem_map.mp hF
    exact (h1 b hbm).1.nodup
  obtain ⟨B, hf, g1, g2, g3⟩ := Suits.fits har hF
  obtain ⟨c, c', e, e', hc, hB⟩ := ofBeliefs_same (SR.store_law (lib := lib) (pars := pars1)) hp h1
    hf g1 g2 g3
  have e1 : ∀ pars, ofBeliefs lib.ar (SR.ops lib pars) bs = Except.ok c := fun pars =>
    (ofBeliefs_pars lib pars pars1 bs).trans e
  have e1' : ∀ pars, ofBeliefs lib.ar (SR.ops lib pars) bs' = Except.ok c' := fun pars =>
    (ofBeliefs_pars lib pars pars1 bs').trans e'
  refine ⟨c, c', fun pars => ⟨e1 pars, e1' pars⟩, ?_, fun pars hs mean Q => ?_⟩
  · have : List.Forall₂ (fun a b : Mixed SR.Factor NB => a.items = b.items) c.clusters c'.clusters :=
      hc.clusters.imp fun a b h => h.items
    clear hc hB e e' e1 e1'
    generalize c.clusters = l at this ⊢
    generalize c'.clusters = l' at this ⊢
    induction this with
    | nil => rfl
    | cons h _ ih => simp [h, ih]
  · obtain ⟨d, d', f, f', hd, hBd⟩ := ofBeliefs_same (SR.store_law (lib := lib) (pars := pars)) hp hs
      hf g1 g2 g3
    have hdc : d = c := Except.ok.inj (f.symm.trans (e1 pars))
    have hdc' : d' = c' := Except.ok.inj (f'.symm.trans (e1' pars))
    subst hdc hdc'
    refine value_same (SR.store_law lib pars) (sr_storeExt lib pars) mean Q hd fun b hb x hx => ?_
    obtain ⟨k, hk, rfl⟩ := List.mem_iff_getElem.mp hb
    obtain ⟨F, hFm, hxF⟩ := (hBd.items x).mp ⟨k, by
      rw [cl, List.getElem?_eq_getElem hk]
      exact hx⟩
    obtain ⟨b, hbm, rfl⟩ := List.mem_map.mp hFm
    exact hr b hbm x hxF

/-! ## Terms -/

variable {q n N p : ℕ} {M : ModFr q n p} {M' : ModFr q N p} {ρ : Fin N → Fin n}

theorem columnItems_nested (hn : NoNested M) {j k : Fin n}
    (h : ∀ r ∈ columnItems M j, r ∈ columnItems M k) : columnItems M j = columnItems M k := by
  have hA : Split.Spec.Active M j = Split.Spec.Active M k := hn j k fun r hr =>
    mem_columnItems.1 (h r (mem_columnItems.2 hr))
  unfold columnItems
  refine List.filter_congr fun r _ => ?_
  have h1 := mem_columnItems (M := M) (j := j) (r := r)
  have h2 := mem_columnItems (M := M) (j := k) (r := r)
  rw [hA, ← h2] at h1
  unfold columnItems at h1
  simp only [List.mem_filter, List.mem_finRange, true_and] at h1
  exact Bool.eq_iff_iff.2 h1

/-- Observations with the given active set. -/
def at' (M : ModFr q n p) (C : List (Fin q)) : List (Fin n) :=
  (List.finRange n).filter fun j => columnItems M j = C

theorem addObsC_eq (hn : NoNested M) (ha : Grouped.Active M) {k : Fin n} (obs : List (Fin n)) :
    addObsC (columnItems M k) (findActive M) obs =
      obs.filter fun j => columnItems M j = columnItems M k := by
  unfold addObsC
  refine List.filter_congr fun j _ => ?_
  rw [getD_findActive ha, Bool.eq_iff_iff]
  simp only [List.all_eq_true, List.contains_iff_mem, decide_eq_true_eq]
  exact ⟨columnItems_nested hn, fun h r hr => h ▸ hr⟩

theorem addObsLoop_eq (hn : NoNested M) (ha : Grouped.Active M) :
    ∀ (cliques : List (List (Fin q))) (obs : List (Fin n)), cliques.Nodup →
      (∀ C ∈ cliques, ∃ k, C = columnItems M k) →
      (addObsLoop (findActive M) cliques obs).1 =
        cliques.map (fun C => (C, obs.filter fun j => columnItems M j = C)) ∧
      (addObsLoop (findActive M) cliques obs).2 = obs.filter fun j => columnItems M j ∉ cliques
  | [], obs, _, _ => by simp [addObsLoop]
  | C :: rest, obs, hnd, hC => by
    obtain ⟨k, rfl⟩ := hC C (by simp)
    rw [List.nodup_cons] at hnd
    have h1 := addObsC_eq hn ha (k := k) obs
    have h2 : (obs.filter fun j => ¬ (addObsC (columnItems M k) (findActive M) obs).contains j) =
        obs.filter fun j => columnItems M j ≠ columnItems M k := by
      refine List.filter_congr fun j hj => ?_
      rw [h1]
      simp [hj]
    obtain ⟨i1, i2⟩ := addObsLoop_eq hn ha rest
      (obs.filter fun j => columnItems M j ≠ columnItems M k) hnd.2 fun C hm => hC C (by simp [hm])
    rw [addObsLoop]
    simp only [h1] at h2 ⊢
    rw [h2, i1, i2]
    refine ⟨?_, ?_⟩
    · rw [List.map_cons]
      congr 1
      refine List.map_congr_left fun C hm => ?_
      rw [List.filter_filter]
      congr 1
      refine List.filter_congr fun j _ => ?_
      by_cases h : columnItems M j = C
      · have : C ≠ columnItems M k := fun h0 => hnd.1 (h0 ▸ hm)
        simp [h, this]
      · simp [h]
    · rw [List.filter_filter]
      refine List.filter_congr fun j _ => ?_
      simp [Bool.and_comm]

theorem cliques_nodup {α : Type} [BEq α] [LawfulBEq α] (l : List α) : l.eraseDups.Nodup := by
  induction hk : l.length using Nat.strong_induction_on generalizing l with
  | _ k ih =>
    cases l with
    | nil => simp
    | cons a l =>
      rw [List.eraseDups_cons, List.nodup_cons]
      refine ⟨?_, ih _ ?_ _ rfl⟩
      · rw [List.mem_eraseDups]
        simp
      · have := List.length_filter_le (fun b => !b == a) l
        simp at hk
        omega

/-- Without nested active sets, one term for each active set, of the observations that have it. -/
theorem terms_eq (hn : NoNested M) (ha : Grouped.Active M) :
    findFactorizationTerms M = Except.ok
      (((findActive M).eraseDups.map fun C => Term.glmm C (at' M C).length
          (findLocalTerm C (at' M C) M)) ++
        (List.finRange q).map fun i => Term.normal i 0 1) := by
  have hC : ∀ C ∈ (findActive M).eraseDups, ∃ k, C = columnItems M k := by
    intro C hm
    rw [List.mem_eraseDups, findActive_eq ha] at hm
    obtain ⟨k, -, rfl⟩ := List.mem_map.1 hm
    exact ⟨k, rfl⟩
  obtain ⟨h1, h2⟩ := addObsLoop_eq hn ha _ (List.finRange n) (cliques_nodup _) hC
  unfold findFactorizationTerms addObs
  have h3 : (addObsLoop (findActive M) (findActive M).eraseDups (List.finRange n)).2 = [] := by
    rw [h2, List.filter_eq_nil_iff]
    intro j _
    simp only [decide_eq_true_eq, not_not, List.mem_eraseDups]
    rw [findActive_eq ha]
    exact List.mem_map_of_mem (List.mem_finRange j)
  dsimp only
  rw [h3, if_neg (by simp), h1]
  simp only [res_ok_bind, List.map_map]
  rfl

theorem noNested_rows (h : Rows M M' ρ) (hn : NoNested M) : NoNested M' := by
  have hA : ∀ k, Split.Spec.Active M' k = Split.Spec.Active M (ρ k) := by
    intro k
    unfold Split.Spec.Active
    simp only [h.lambdat, h.ztStored]
  intro j k hjk
  rw [hA, hA] at hjk ⊢
  exact hn _ _ hjk

theorem at'_rows (h : Rows M M' ρ) (C : List (Fin q)) : at' M' C = members ρ (at' M C) := by
  unfold at' members
  refine List.filter_congr fun k _ => ?_
  simp [columnItems_rel h]

theorem cliques_perm (h : Rows M M' ρ) (hs : Function.Surjective ρ) (ha : Grouped.Active M) :
    (findActive M).eraseDups.Perm (findActive M').eraseDups := by
  rw [List.perm_ext_iff_of_nodup (cliques_nodup _) (cliques_nodup _)]
  intro C
  rw [List.mem_eraseDups, List.mem_eraseDups, findActive_eq ha, findActive_eq (active_rel h ha),
    List.mem_map, List.mem_map]
  constructor
  · rintro ⟨j, -, rfl⟩
    obtain ⟨k, rfl⟩ := hs j
    exact ⟨k, List.mem_finRange k, columnItems_rel h k⟩
  · rintro ⟨k, -, rfl⟩
    exact ⟨ρ k, List.mem_finRange _, (columnItems_rel h k).symm⟩

/-- The terms of both model frames, up to the order. -/
theorem terms_same (h : Rows M M' ρ) (hs : Function.Surjective ρ) (hn : NoNested M)
    (ha : Grouped.Active M) : ∃ ts us us', findFactorizationTerms M = Except.ok ts ∧
      findFactorizationTerms M' = Except.ok us' ∧ List.Forall₂ TermRel ts us ∧ us.Perm us' := by
  refine ⟨_, ((findActive M).eraseDups.map fun C => Term.glmm C (at' M' C).length
          (findLocalTerm C (at' M' C) M')) ++ (List.finRange q).map fun i => Term.normal i 0 1, _,
    terms_eq hn ha, terms_eq (noNested_rows h hn) (active_rel h ha), forall₂_append ?_ ?_,
    ((cliques_perm h hs ha).map _).append_right _⟩
  · rw [List.forall₂_map_left_iff, List.forall₂_map_right_iff]
    refine List.forall₂_same.2 fun C _ => ?_
    rw [at'_rows h]
    exact local_rel h C ((List.nodup_finRange n).filter _)
  · rw [List.forall₂_map_left_iff, List.forall₂_map_right_iff]
    exact List.forall₂_same.2 fun i _ => .normal i 0 1

end Verif.Reorder
