import Verif.Proofs.ClusterInit
import Verif.Spec.Tree

/-! The built cluster graph is a tree with the running intersection property. -/
namespace Verif.ClusterGraph

open Verif.Items Verif.Spec.Tree

variable {β : Type}

/-- Item lists of the clusters. -/
def clusterItems (ops : Ops β) (c : CG β) : List (List ℤ) := c.clusters.map ops.items

/-- Edges with their item lists. -/
def edgeData (ops : Ops β) (c : CG β) : List (ℤ × ℤ × List ℤ) :=
  c.edges.map fun e => (e.first, e.second, ops.items e.belief)

theorem cl_eq {ops : Ops β} {c : CG β} {k : ℕ} (hk : k < (clusterItems ops c).length) :
    (clusterItems ops c)[k] = cl ops c k := by
  have : k < c.clusters.length := by simpa [clusterItems] using hk
  simp [clusterItems, cl, this]

theorem sp_eq {ops : Ops β} {c : CG β} {k : ℕ} (hk : k < c.edges.length) :
    sp ops c.edges k = ops.items (c.edges[k]).belief := by
  simp [sp, hk]

theorem len_ci {ops : Ops β} {c : CG β} : (clusterItems ops c).length = c.clusters.length := by
  simp [clusterItems]

variable {ops : Ops β} {factors : List (List ℤ)} {c : CG β}

theorem Built.adj (hb : Built ops factors c) {k : ℕ} (hk : k < c.edges.length) :
    ∃ p : ℕ, ∃ hp : p < (clusterItems ops c).length, k < p ∧
      (∀ x ∈ sp ops c.edges k, x ∈ cl ops c p) ∧
      (graph (clusterItems ops c).length (edgeData ops c)).Adj
        ⟨k, by rw [len_ci, ← hb.len]; omega⟩ ⟨p, hp⟩ := by
  obtain ⟨h1, p, hkp, hpn, h2, h3⟩ := hb.edge k hk
  refine ⟨p, by rw [len_ci]; exact hpn, hkp, h3, ?_⟩
  rw [graph, SimpleGraph.fromRel_adj]
  refine ⟨fun hc => by simp only [Fin.mk.injEq] at hc; omega, Or.inl ?_⟩
  refine ⟨((c.edges[k]).first, (c.edges[k]).second, ops.items (c.edges[k]).belief),
    h1.symm, h2.symm, ?_⟩
  exact List.mem_map.mpr ⟨c.edges[k], List.getElem_mem hk, rfl⟩

theorem Built.connected (hb : Built ops factors c) :
    (graph (clusterItems ops c).length (edgeData ops c)).Connected := by
  have hn : (clusterItems ops c).length = c.edges.length + 1 := by rw [len_ci, ← hb.len]
  have hlast : c.edges.length < (clusterItems ops c).length := by omega
  have key : ∀ m k, (hk : k < (clusterItems ops c).length) → c.edges.length - k ≤ m →
      (graph (clusterItems ops c).length (edgeData ops c)).Reachable ⟨k, hk⟩
        ⟨c.edges.length, hlast⟩ := by
    intro m
    induction m with
    | zero =>
      intro k hk hm
      have : k = c.edges.length := by omega
      subst this
      exact SimpleGraph.Reachable.refl _
    | succ m ih =>
      intro k hk hm
      by_cases hke : k < c.edges.length
      · obtain ⟨p, hp, hkp, -, hadj⟩ := hb.adj hke
        exact hadj.reachable.trans (ih p hp (by omega))
      · have : k = c.edges.length := by omega
        subst this
        exact SimpleGraph.Reachable.refl _
  have : Nonempty (Fin (clusterItems ops c).length) := ⟨⟨c.edges.length, hlast⟩⟩
  refine SimpleGraph.Connected.mk fun a b => ?_
  exact (key _ a.1 a.2 le_rfl).trans (key _ b.1 b.2 le_rfl).symm

theorem Built.isTree (hb : Built ops factors c) :
    (graph (clusterItems ops c).length (edgeData ops c)).IsTree := by
  classical
  rw [SimpleGraph.isTree_iff_connected_and_card]
  refine ⟨hb.connected, le_antisymm ?_ ?_⟩
  · have hn : (clusterItems ops c).length = c.edges.length + 1 := by rw [len_ci, ← hb.len]
    have hfin : Nat.card (Fin (clusterItems ops c).length) = c.edges.length + 1 := by
      rw [Nat.card_eq_fintype_card, Fintype.card_fin, hn]
    rw [hfin]
    refine Nat.add_le_add_right ?_ 1
    have hsub : (graph (clusterItems ops c).length (edgeData ops c)).edgeSet ⊆
        Set.range fun k : Fin c.edges.length =>
          s((⟨k, by omega⟩ : Fin (clusterItems ops c).length),
            (⟨(hb.adj k.2).choose, (hb.adj k.2).choose_spec.choose⟩ :
              Fin (clusterItems ops c).length)) := by
      intro e
      refine Sym2.ind (fun i j => ?_) e
      · rw [SimpleGraph.mem_edgeSet]
        intro hij
        have hij' := (SimpleGraph.fromRel_adj _ _ _).mp hij
        revert hij'
        have hone : ∀ i j : Fin (clusterItems ops c).length, (∃ S : ℤ × ℤ × List ℤ,
            ((i : ℕ) : ℤ) = S.1 ∧ ((j : ℕ) : ℤ) = S.2.1 ∧ S ∈ edgeData ops c) →
            ∃ k : Fin c.edges.length, i = ⟨k, by omega⟩ ∧
              j = ⟨(hb.adj k.2).choose, (hb.adj k.2).choose_spec.choose⟩ := by
          rintro i j ⟨S, h1, h2, h3⟩
          obtain ⟨e, he, rfl⟩ := List.mem_map.mp h3
          obtain ⟨k, hk, rfl⟩ := List.mem_iff_getElem.mp he
          obtain ⟨e1, p, hkp, hpn, e2, e3⟩ := hb.edge k hk
          simp only at h1 h2
          have hik : (i : ℕ) = k := by
            have : ((i : ℕ) : ℤ) = k := h1.trans e1
            exact_mod_cast this
          have hadj := (SimpleGraph.fromRel_adj _ _ _).mp
            (hb.adj hk).choose_spec.choose_spec.2.2
          have hq := (hb.adj hk).choose_spec.choose_spec.1
          refine ⟨⟨k, hk⟩, Fin.ext hik, Fin.ext ?_⟩
          -- the chosen target is the target of edge `k`
          have hj : (j : ℕ) = p := by
            have : ((j : ℕ) : ℤ) = p := h2.trans e2
            exact_mod_cast this
          show (j : ℕ) = (hb.adj hk).choose
          rw [hj]
          have huniq : ∀ a b : ℕ, a < b → (∃ S : ℤ × ℤ × List ℤ,
              ((a : ℕ) : ℤ) = S.1 ∧ ((b : ℕ) : ℤ) = S.2.1 ∧ S ∈ edgeData ops c) →
              ∃ ha : a < c.edges.length, (c.edges[a]).second = b := by
            rintro a b hab ⟨S, g1, g2, g3⟩
            obtain ⟨e', he', rfl⟩ := List.mem_map.mp g3
            obtain ⟨l, hl, rfl⟩ := List.mem_iff_getElem.mp he'
            have hla := (hb.edge l hl).1
            simp only at g1 g2
            have : a = l := by
              have : (a : ℤ) = l := g1.trans hla
              exact_mod_cast this
            subst this
            exact ⟨hl, g2.symm⟩
          rcases hadj.2 with hS | ⟨S, g1, g2, g3⟩
          · obtain ⟨_, hsec⟩ := huniq k _ hq hS
            rw [e2] at hsec
            exact_mod_cast hsec
          · exfalso
            obtain ⟨e', he', rfl⟩ := List.mem_map.mp g3
            obtain ⟨l, hl, rfl⟩ := List.mem_iff_getElem.mp he'
            obtain ⟨f1, q, f2, f3, f4, f5⟩ := hb.edge l hl
            simp only at g1 g2
            rw [f1] at g1
            rw [f4] at g2
            have : (hb.adj hk).choose = l := by exact_mod_cast g1
            have : k = q := by exact_mod_cast g2
            omega
        rintro ⟨-, h | h⟩
        · obtain ⟨k, hi, hj⟩ := hone i j h
          exact ⟨k, by rw [hi, hj]⟩
        · obtain ⟨k, hj, hi⟩ := hone j i h
          exact ⟨k, by rw [hi, hj]; exact Sym2.eq_swap⟩
    calc Nat.card (graph (clusterItems ops c).length (edgeData ops c)).edgeSet
        ≤ Nat.card (Set.range fun k : Fin c.edges.length =>
          s((⟨k, by omega⟩ : Fin (clusterItems ops c).length),
            (⟨(hb.adj k.2).choose, (hb.adj k.2).choose_spec.choose⟩ :
              Fin (clusterItems ops c).length))) := Nat.card_mono (Set.toFinite _) hsub
      _ ≤ Nat.card (Fin c.edges.length) := Finite.card_range_le _
      _ = c.edges.length := by simp
  · exact hb.connected.card_vert_le_card_edgeSet_add_one

theorem Built.sep_iff (hb : Built ops factors c) {k : ℕ} (hk : k < c.edges.length) (x : ℤ) :
    x ∈ sp ops c.edges k ↔ x ∈ cl ops c k ∧ ∃ j, k < j ∧ x ∈ cl ops c j := by
  obtain ⟨v, h1, h2, h3, h4⟩ := hb.elim k hk
  constructor
  · intro hx
    exact ⟨(h2 x).mpr (Or.inr hx), h4 x hx⟩
  · rintro ⟨hx, j, hj, hxj⟩
    rcases (h2 x).mp hx with rfl | hx
    · exact absurd hxj (h3 j hj)
    · exact hx

theorem Built.lt_of_mem {k : ℕ} {x : ℤ} (hx : x ∈ cl ops c k) : k < c.clusters.length := by
  by_contra hc
  rw [cl_ge ops (by omega)] at hx
  simp at hx

theorem Built.running (hb : Built ops factors c) :
    RunningIntersection (clusterItems ops c) (edgeData ops c) := by
  intro x
  have hn : (clusterItems ops c).length = c.edges.length + 1 := by rw [len_ci, ← hb.len]
  have hmem : ∀ a : Fin (clusterItems ops c).length,
      a ∈ holders (clusterItems ops c) x ↔ x ∈ cl ops c a := by
    intro a
    show x ∈ (clusterItems ops c)[a] ↔ _
    rw [← cl_eq a.2]
    rfl
  have key : ∀ m, ∀ a b : holders (clusterItems ops c) x,
      ((clusterItems ops c).length - a.1.1) + ((clusterItems ops c).length - b.1.1) ≤ m →
      ((graph (clusterItems ops c).length (edgeData ops c)).induce
        (holders (clusterItems ops c) x)).Reachable a b := by
    intro m
    induction m with
    | zero =>
      intro a b hm
      have := a.1.2
      omega
    | succ m ih =>
      have hstep : ∀ a b : holders (clusterItems ops c) x, a.1.1 < b.1.1 →
          ((clusterItems ops c).length - a.1.1) +
            ((clusterItems ops c).length - b.1.1) ≤ m + 1 →
          ((graph (clusterItems ops c).length (edgeData ops c)).induce
            (holders (clusterItems ops c) x)).Reachable a b := by
        intro a b hab hm
        have hab' : a.1.1 < b.1.1 := hab
        have hb1 := b.1.2
        have hak : a.1.1 < c.edges.length := by omega
        have hxS : x ∈ sp ops c.edges a.1.1 :=
          (hb.sep_iff hak x).mpr ⟨(hmem _).mp a.2, _, hab', (hmem _).mp b.2⟩
        obtain ⟨p, hp, hkp, hsub, hadj⟩ := hb.adj hak
        have hpm : (⟨p, hp⟩ : Fin (clusterItems ops c).length) ∈
            holders (clusterItems ops c) x := (hmem _).mpr (hsub x hxS)
        have h1 : ((graph (clusterItems ops c).length (edgeData ops c)).induce
            (holders (clusterItems ops c) x)).Adj a ⟨⟨p, hp⟩, hpm⟩ := by
          rw [SimpleGraph.comap_adj]
          exact hadj
        refine h1.reachable.trans (ih _ _ ?_)
        simp only
        omega
      intro a b hm
      rcases lt_trichotomy a.1.1 b.1.1 with h | h | h
      · exact hstep a b h hm
      · have : a = b := Subtype.ext (Fin.ext h)
        subst this
        exact SimpleGraph.Reachable.refl _
      · exact (hstep b a h (by omega)).symm
  intro a b
  exact key _ a b le_rfl

end Verif.ClusterGraph
