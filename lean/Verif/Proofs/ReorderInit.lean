import Verif.Proofs.ClusterInit
import Verif.Proofs.Param

/-!
# The structure of the cluster graph does not depend on the order of the factors

Two coded graphs that represent the same abstract graph give the same clusters and the same tree; the
separators may be listed in another order.
-/
namespace Verif.Reorder

open Verif.ClusterGraph Verif.DepGraph Verif.Items Verif.Param Verif.Spec.Graph

variable {β : Type} {ops : Ops β}

/-! ## Items as sets -/

theorem stdSort_eq {l l' : List ℤ} (h : l.Perm l') : stdSort l = stdSort l' :=
  List.Perm.eq_of_pairwise (le := (· ≤ ·)) (fun _ _ _ _ h1 h2 => le_antisymm h1 h2)
    (stdSort_sorted l) (stdSort_sorted l') ((stdSort_perm l).trans (h.trans (stdSort_perm l').symm))

theorem union_eq {l l' : List ℤ} (h : l.Perm l') (k : List ℤ) :
    findItemsUnion k l = findItemsUnion k l' := by
  unfold findItemsUnion
  rw [stdSort_eq h]

theorem isSubset_eq {l l' : List ℤ} (h : l.Perm l') (k : List ℤ) : isSubset l k = isSubset l' k := by
  unfold isSubset
  rw [stdSort_eq h]

theorem strict_ext {l l' : List ℤ} (h : l.Pairwise (· < ·)) (h' : l'.Pairwise (· < ·))
    (hm : ∀ x, x ∈ l ↔ x ∈ l') : l = l' :=
  List.Perm.eq_of_pairwise (le := (· < ·)) (fun _ _ _ _ h1 h2 => absurd h2 (lt_asymm h1)) h h'
    ((List.perm_ext_iff_of_nodup (nodup_of_strict h) (nodup_of_strict h')).mpr hm)

theorem union_fold_strict : ∀ (bs : List (List ℤ)) (acc : List ℤ), acc.Pairwise (· < ·) →
    (∀ b ∈ bs, b.Nodup) → (bs.foldl findItemsUnion acc).Pairwise (· < ·)
  | [], _, h, _ => h
  | b :: bs, _, h, hb =>
    union_fold_strict bs _ (union_strict (nodup_of_strict h) (hb b (by simp))) fun c hc =>
      hb c (by simp [hc])

theorem depA_perm {fs fs' : List (List ℤ)} (h : fs.Perm fs') (hn : ∀ f ∈ fs, f.Nodup) :
    depA fs = depA fs' := by
  have hn' : ∀ f ∈ fs', f.Nodup := fun f hf => hn f (h.mem_iff.mpr hf)
  have e : fs.foldl findItemsUnion [] = fs'.foldl findItemsUnion [] := by
    refine strict_ext (union_fold_strict _ _ .nil hn) (union_fold_strict _ _ .nil hn') fun x => ?_
    rw [(union_fold_nodup fs [] List.nodup_nil hn).2, (union_fold_nodup fs' [] List.nodup_nil hn').2]
    simp [h.mem_iff]
  unfold depA
  rw [e]
  congr 1
  funext x y
  simp [h.mem_iff]

/-! ## Two representations of one graph -/

variable {g g' : Graph} {A : AGraph}

theorem getItems_same (h : Rep g A) (h' : Rep g' A) : getItems g = getItems g' := by
  rw [getItems_eq_filter h, getItems_eq_filter h']

theorem isComplete_same (h : Rep g A) (h' : Rep g' A) (ar : Arith) :
    isComplete ar g = isComplete ar g' := by
  have h1 : g.numVertices = g'.numVertices := h.nV.trans h'.nV.symm
  have h2 : g.numEdges = g'.numEdges := by
    have := h.nE.trans h'.nE.symm
    omega
  unfold isComplete
  rw [h1, h2]

theorem neighbours_same (h : Rep g A) (h' : Rep g' A) {i : ℤ} (hi : i ∈ A.items) :
    ∃ l l', findNeighbours g i = Except.ok l ∧ findNeighbours g' i = Except.ok l' ∧ l.Perm l' ∧
      l.Nodup ∧ l'.Nodup ∧ (∀ j, j ∈ l ↔ j ∈ A.active ∧ A.adj i j) := by
  obtain ⟨l, h1, -, h2, h3⟩ := neighbours_ok h hi
  obtain ⟨l', h1', -, h2', h3'⟩ := neighbours_ok h' hi
  exact ⟨l, l', h1, h1', (List.perm_ext_iff_of_nodup h2 h2').mpr fun x => by rw [h3, h3'], h2, h2', h3⟩

theorem chooseFold_same (h : Rep g A) (h' : Rep g' A) : ∀ (L : List ℤ), (∀ x ∈ L, x ∈ A.items) →
    ∀ s, L.foldlM (chooseStep g) s = L.foldlM (chooseStep g') s
  | [], _, _ => rfl
  | x :: L, hL, s => by
    obtain ⟨l, l', e, e', hp, -⟩ := neighbours_same h h' (hL x (by simp))
    rw [List.foldlM_cons, List.foldlM_cons]
    unfold chooseStep
    rw [e, e']
    simp only [res_ok_bind, res_pure]
    rw [hp.length_eq]
    exact chooseFold_same h h' L (fun y hy => hL y (by simp [hy])) _

theorem chooseItem_same (h : Rep g A) (h' : Rep g' A) : chooseItem g = chooseItem g' := by
  unfold chooseItem
  rw [getItems_same h h']
  dsimp only
  congr 1
  funext c0
  rw [chooseFold_same h h' _ fun x hx => h'.sub x ((mem_getItems h').mp hx)]

/-! ## Two runs of the construction -/

/-- The same ends, and separators that list the same items. -/
def SepRel (ops : Ops β) (e e' : Edge β) : Prop :=
  e.first = e'.first ∧ e.second = e'.second ∧
    ∃ l l' : List ℤ, l.Perm l' ∧ e.belief = ops.ofItems l ∧ e'.belief = ops.ofItems l'

/-- The same clusters, related edges. -/
def StructRel (ops : Ops β) (c c' : CG β) : Prop :=
  c.clusters = c'.clusters ∧ List.Forall₂ (SepRel ops) c.edges c'.edges

theorem rel_atE {α α' : Type} {P : α → α' → Prop} {l : List α} {l' : List α'}
    (h : List.Forall₂ P l l') (k : ℕ) : RelRes P (atE l k) (atE l' k) := by
  unfold atE
  rcases forall₂_get? h k with ⟨h1, h2⟩ | ⟨a, b, h1, h2, h3⟩
  · rw [h1, h2]
    exact .err _
  · rw [h1, h2]
    exact .ok h3

theorem rel_setE {α α' : Type} {P : α → α' → Prop} {l : List α} {l' : List α'}
    (h : List.Forall₂ P l l') (k : ℕ) {a : α} {b : α'} (hab : P a b) :
    RelRes (List.Forall₂ P) (setE l k a) (setE l' k b) := by
  unfold setE
  rw [h.length_eq]
  split
  · exact .ok (forall₂_set hab h k)
  · exact .err _

theorem setSecond_same {es es' : List (Edge β)} (h : List.Forall₂ (SepRel ops) es es') (k : ℕ)
    (id : ℤ) : RelRes (List.Forall₂ (SepRel ops)) (setSecond es k id) (setSecond es' k id) := by
  unfold setSecond
  refine (rel_atE h k).bind fun e e' he => ?_
  exact rel_setE h k ⟨he.1, rfl, he.2.2⟩

theorem attach_same (hops : ItemsLaw ops) (cluster : List ℤ) (id : ℤ) (hanging : List ℕ)
    {es es' : List (Edge β)} (h : List.Forall₂ (SepRel ops) es es') (acc : List ℕ) :
    RelRes (fun s s' => List.Forall₂ (SepRel ops) s.1 s'.1 ∧ s.2 = s'.2)
      (hanging.foldlM (attachStep ops cluster id) (es, acc))
      (hanging.foldlM (attachStep ops cluster id) (es', acc)) := by
  refine RelRes.foldlM (A := Eq) (fun s t a b hs hab => ?_) (forall₂_refl (fun _ => rfl) _) ⟨h, rfl⟩
  subst hab
  unfold attachStep
  refine (rel_atE hs.1 a).bind fun e e' he => ?_
  obtain ⟨-, -, l, l', hp, h1, h2⟩ := he
  rw [h1, h2, hops, hops, isSubset_eq hp]
  split
  · exact (setSecond_same hs.1 a id).bind fun _ _ h3 => .ok ⟨h3, hs.2⟩
  · exact .ok ⟨hs.1, by rw [hs.2]⟩

theorem finish_same {c c' : CG β} (h : Rep g A) (h' : Rep g' A) (hc : StructRel ops c c')
    (hanging : List ℕ) :
    RelRes (StructRel ops) (finish ops g c hanging) (finish ops g' c' hanging) := by
  unfold finish
  rw [← hc.1, getItems_same h h']
  refine (RelRes.foldlM (A := Eq) (fun s t a b hs hab => ?_) (forall₂_refl (fun _ => rfl) _)
    hc.2).bind fun es es' he => .ok ⟨by rw [hc.1], he⟩
  subst hab
  exact setSecond_same hs a _

/-- State of the construction: graph, clusters and edges, hanging edges. -/
def StateRel (ops : Ops β) (s s' : Graph × CG β × List ℕ) : Prop :=
  (∃ A, Rep s.1 A ∧ Rep s'.1 A) ∧ StructRel ops s.2.1 s'.2.1 ∧ s.2.2 = s'.2.2

theorem eliminate_same (hops : ItemsLaw ops) {c c' : CG β} (h : Rep g A) (h' : Rep g' A)
    (hc : StructRel ops c c') (hanging : List ℕ) :
    RelRes (StateRel ops) (eliminate ops g c hanging) (eliminate ops g' c' hanging) := by
  unfold eliminate
  rw [← chooseItem_same h h']
  by_cases hne : A.active.Nonempty
  · obtain ⟨v, hv, hva, -⟩ := chooseItem_ok h hne
    obtain ⟨l, l', e, e', hp, hl, hl', hm⟩ := neighbours_same h h' (h.sub v hva)
    rw [hv]
    simp only [res_ok_bind]
    rw [e, e']
    simp only [res_ok_bind]
    rw [← hc.1, hc.2.length_eq, union_eq hp]
    have hes : List.Forall₂ (SepRel ops)
        (c.edges ++ [{ first := (c.clusters.length : ℤ), second := -1, belief := ops.ofItems l }])
        (c'.edges ++ [{ first := (c.clusters.length : ℤ), second := -1, belief := ops.ofItems l' }]) :=
      forall₂_append hc.2 (.cons ⟨rfl, rfl, l, l', hp, rfl, rfl⟩ .nil)
    refine (attach_same hops _ _ hanging hes []).bind fun s s' hs => ?_
    obtain ⟨g1, c1, r1, -⟩ := rep_connect l h hl fun x hx => ((hm x).mp hx).1
    obtain ⟨g1', c1', r1', -⟩ := rep_connect l' h' hl' fun x hx =>
      ((hm x).mp (hp.mem_iff.mpr hx)).1
    have r1'' : Rep g1' (A.connect l) := by
      refine rep_congr r1' rfl rfl fun x y => ?_
      show (A.adj x y ∨ _) ↔ (A.adj x y ∨ _)
      simp only [hp.mem_iff]
    rw [c1, c1']
    simp only [res_ok_bind]
    obtain ⟨g2, c2, r2, -⟩ := rep_removeNode r1 (i := v) (h.sub v hva)
    obtain ⟨g2', c2', r2', -⟩ := rep_removeNode r1'' (i := v) (h.sub v hva)
    rw [c2, c2']
    exact .ok ⟨⟨_, r2, r2'⟩, ⟨by rw [hc.1], hs.1⟩, by rw [hs.2]⟩
  · have h0 : getItems g = [] := by
      rw [← List.length_eq_zero_iff, getItems_length h, Finset.card_eq_zero]
      exact Finset.not_nonempty_iff_eq_empty.mp hne
    have : chooseItem g = Res.raise "out_of_range" := by
      unfold chooseItem
      rw [h0]
      rfl
    rw [this]
    exact .err _

theorem internal_same (hops : ItemsLaw ops) (ar : Arith) : ∀ (fuel : ℕ) {g g' : Graph} {A : AGraph}
    {c c' : CG β} (hanging : List ℕ), Rep g A → Rep g' A → StructRel ops c c' →
    RelRes (StructRel ops) (initializeInternal ar ops fuel g c hanging)
      (initializeInternal ar ops fuel g' c' hanging)
  | 0, _, _, _, _, _, _, _, _, _ => .err _
  | fuel + 1, g, g', A, c, c', hanging, h, h', hc => by
    rw [initializeInternal, initializeInternal, isComplete_same h h']
    refine (RelRes.rfl' (P := Eq) (fun _ => rfl) _).bind ?_
    rintro b _ rfl
    split
    · exact finish_same h h' hc hanging
    · refine (eliminate_same hops h h' hc hanging).bind fun s s' hs => ?_
      obtain ⟨⟨A', r, r'⟩, hs2, hs3⟩ := hs
      rw [← hs3]
      exact internal_same hops ar fuel _ r r' hs2

/-- Clusters and tree for two orders of the factors. -/
theorem structure_same (hops : ItemsLaw ops) (ar : Arith) {fs fs' : List (List ℤ)} (h : fs.Perm fs')
    (hn : ∀ f ∈ fs, f.Nodup) :
    RelRes (StructRel ops) (makeDependenceGraph fs >>= initStructure ar ops)
      (makeDependenceGraph fs' >>= initStructure ar ops) := by
  obtain ⟨g, e, r, hl⟩ := rep_makeDependenceGraph fs hn
  obtain ⟨g', e', r', hl'⟩ := rep_makeDependenceGraph fs' fun f hf => hn f (h.mem_iff.mpr hf)
  rw [← depA_perm h hn] at r' hl'
  rw [e, e']
  simp only [res_ok_bind]
  unfold initStructure
  rw [hl, hl']
  exact internal_same hops ar _ _ r r' ⟨rfl, .nil⟩

end Verif.Reorder
