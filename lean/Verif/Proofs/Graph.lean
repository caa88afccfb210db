import Verif.Model.Graph
import Verif.Spec.Graph
import Verif.Proofs.Items
import Mathlib.Tactic.Linarith
import Mathlib.Tactic.Ring
import Mathlib.Algebra.BigOperators.Group.Finset.Basic
import Mathlib.Algebra.Order.BigOperators.Group.Finset
import Mathlib.Algebra.BigOperators.Group.Finset.Sigma
import Mathlib.Algebra.BigOperators.Group.Finset.Piecewise
import Mathlib.Data.Finset.Card
import Mathlib.Algebra.Group.Int.Even

/-! Refinement of the abstract graph by the coded one. -/
namespace Verif.DepGraph

open Verif.Spec.Graph

/-- The coded graph `g` represents the abstract graph `A`. -/
structure Rep (g : Graph) (A : AGraph) : Prop where
  items : g.verts.map Vtx.item = A.items
  nodup : A.items.Nodup
  pos : ∀ i v, g.positions i = some v ↔ A.items[v]? = some i
  active : ∀ u ∈ g.verts, (u.active = true ↔ u.item ∈ A.active)
  outNodup : ∀ u ∈ g.verts, u.out.Nodup
  out : ∀ u ∈ g.verts, ∀ w, w ∈ u.out ↔ ∃ j, A.items[w]? = some j ∧ A.adj u.item j
  sub : ∀ i ∈ A.active, i ∈ A.items
  symm : ∀ x y, A.adj x y → A.adj y x
  irrefl : ∀ x, ¬ A.adj x x
  mem : ∀ x y, A.adj x y → x ∈ A.items
  nV : g.numVertices = A.active.card
  nE : 2 * g.numEdges = A.pairs.card

variable {g : Graph} {A : AGraph}

theorem Rep.len (h : Rep g A) : g.verts.length = A.items.length := by
  rw [← h.items]; simp

theorem Rep.item_at (h : Rep g A) {v : ℕ} (hv : v < g.verts.length) :
    A.items[v]? = some (g.verts[v]).item := by
  rw [← h.items]; simp [hv]

theorem Rep.find (h : Rep g A) {i : ℤ} (hi : i ∈ A.items) :
    ∃ (v : ℕ) (hv : v < g.verts.length), posAt g i = Except.ok v ∧
      nth g.verts v = Except.ok g.verts[v] ∧ (g.verts[v]).item = i ∧ A.items[v]? = some i := by
  obtain ⟨v, hv⟩ := List.mem_iff_getElem?.mp hi
  have hlt : v < g.verts.length := by
    rw [h.len]; exact (List.getElem?_eq_some_iff.mp hv).1
  refine ⟨v, hlt, ?_, nth_ok hlt, ?_, hv⟩
  · rw [posAt, (h.pos i v).mpr hv]
  · have := h.item_at hlt
    rw [hv] at this
    exact (Option.some.inj this).symm

theorem Rep.idx_inj (h : Rep g A) {v w : ℕ} {i : ℤ} (hv : A.items[v]? = some i)
    (hw : A.items[w]? = some i) : v = w := by
  have h1 := (h.pos i v).mpr hv
  have h2 := (h.pos i w).mpr hw
  rw [h1] at h2
  exact Option.some.inj h2

/-! ## Queries -/

theorem mem_pairs {p : ℤ × ℤ} :
    p ∈ A.pairs ↔ p.1 ∈ A.active ∧ p.2 ∈ A.active ∧ A.adj p.1 p.2 := by
  classical
  simp [AGraph.pairs, and_assoc]

theorem getItems_eq_filter (h : Rep g A) :
    getItems g = A.items.filter (fun i => decide (i ∈ A.active)) := by
  rw [getItems, ← h.items, List.filter_map]
  have : ∀ l : List Vtx, (∀ u ∈ l, (u.active = true ↔ u.item ∈ A.active)) →
      l.filterMap (fun u => if u.active then some u.item else none) =
        List.map Vtx.item (l.filter ((fun i => decide (i ∈ A.active)) ∘ Vtx.item)) := by
    intro l
    induction l with
    | nil => simp
    | cons u us ih =>
      intro hl
      have hu := hl u (by simp)
      have ih' := ih fun w hw => hl w (by simp [hw])
      by_cases hm : u.item ∈ A.active
      · have := hu.mpr hm
        simp [hm, this, ih']
      · have : u.active = false := by
          by_contra hc
          exact hm (hu.mp (by simpa using hc))
        simp [hm, this, ih']
  exact this g.verts h.active

theorem getItems_nodup (h : Rep g A) : (getItems g).Nodup := by
  rw [getItems_eq_filter h]; exact h.nodup.filter _

theorem mem_getItems (h : Rep g A) {i : ℤ} : i ∈ getItems g ↔ i ∈ A.active := by
  rw [getItems_eq_filter h]
  simp only [List.mem_filter, decide_eq_true_eq]
  exact ⟨fun hi => hi.2, fun hi => ⟨h.sub i hi, hi⟩⟩

theorem getItems_length (h : Rep g A) : (getItems g).length = A.active.card := by
  rw [← List.toFinset_card_of_nodup (getItems_nodup h)]
  congr 1
  ext i
  simp [mem_getItems h]

/-- Pure value of the fold in `findNeighbours`. -/
theorem nbr_fold (vs : List Vtx) : ∀ (out : List ℕ) (acc : List ℤ), (∀ w ∈ out, w < vs.length) →
    out.foldlM (fun neighbours w => do
      let x ← nth vs w
      return if x.active then neighbours ++ [x.item] else neighbours) acc =
    (Except.ok (acc ++ (out.filterMap fun w =>
      vs[w]?.bind fun x => if x.active then some x.item else none)) : Res (List ℤ))
  | [], acc, _ => by simp
  | w :: ws, acc, hw => by
    have h1 : w < vs.length := hw w (by simp)
    rw [List.foldlM_cons, nth_ok h1]
    simp only [res_ok_bind, res_pure]
    refine (nbr_fold vs ws _ fun x hx => hw x (by simp [hx])).trans ?_
    by_cases ha : (vs[w]).active <;> simp [h1, ha]

theorem deg_fold (vs : List Vtx) : ∀ (out : List ℕ) (acc : ℤ), (∀ w ∈ out, w < vs.length) →
    out.foldlM (fun degree w => do
      let x ← nth vs w
      return if x.active then degree + 1 else degree) acc =
    (Except.ok (acc + ((out.filterMap fun w =>
      vs[w]?.bind fun x => if x.active then some x.item else none).length : ℤ)) : Res ℤ)
  | [], acc, _ => by simp
  | w :: ws, acc, hw => by
    have h1 : w < vs.length := hw w (by simp)
    rw [List.foldlM_cons, nth_ok h1]
    simp only [res_ok_bind, res_pure]
    refine (deg_fold vs ws _ fun x hx => hw x (by simp [hx])).trans ?_
    by_cases ha : (vs[w]).active
    · simp [h1, ha]; ring
    · simp [h1, ha]

theorem Rep.out_lt (h : Rep g A) {u : Vtx} (hu : u ∈ g.verts) : ∀ w ∈ u.out, w < g.verts.length := by
  intro w hw
  obtain ⟨j, hj, -⟩ := (h.out u hu w).mp hw
  rw [h.len]
  exact (List.getElem?_eq_some_iff.mp hj).1

/-- Neighbours as a set. -/
theorem neighbours_ok (h : Rep g A) {i : ℤ} (hi : i ∈ A.items) :
    ∃ l, findNeighbours g i = Except.ok l ∧ findDegree g i = Except.ok (l.length : ℤ) ∧
      l.Nodup ∧ ∀ j, j ∈ l ↔ j ∈ A.active ∧ A.adj i j := by
  obtain ⟨v, hv, hp, hn, hit, hiv⟩ := h.find hi
  have hu : g.verts[v] ∈ g.verts := List.getElem_mem hv
  have hlt := h.out_lt hu
  refine ⟨[] ++ ((g.verts[v]).out.filterMap fun w =>
      g.verts[w]?.bind fun x => if x.active then some x.item else none), ?_, ?_, ?_, ?_⟩
  · rw [findNeighbours, hp]
    simp only [res_ok_bind]
    rw [hn]
    simp only [res_ok_bind]
    exact nbr_fold g.verts _ [] hlt
  · rw [findDegree, hp]
    simp only [res_ok_bind]
    rw [hn]
    simp only [res_ok_bind]
    rw [deg_fold g.verts _ 0 hlt]
    simp
  · rw [List.nil_append]
    refine List.Nodup.filterMap ?_ (h.outNodup _ hu)
    intro a a' b hb hb'
    rw [Option.mem_def, Option.bind_eq_some_iff] at hb hb'
    obtain ⟨x, hx, hxb⟩ := hb
    obtain ⟨x', hx', hxb'⟩ := hb'
    have e1 : x.item = b := by
      split at hxb
      · exact Option.some.inj hxb
      · cases hxb
    have e2 : x'.item = b := by
      split at hxb'
      · exact Option.some.inj hxb'
      · cases hxb'
    refine h.idx_inj (i := b) ?_ ?_
    · rw [← h.items]; simp [hx, e1]
    · rw [← h.items]; simp [hx', e2]
  · intro j
    rw [List.nil_append, List.mem_filterMap]
    constructor
    · rintro ⟨w, hw, hb⟩
      rw [Option.bind_eq_some_iff] at hb
      obtain ⟨x, hx, hxb⟩ := hb
      have hxm : x ∈ g.verts := List.mem_of_getElem? hx
      split at hxb
      · rename_i ha
        have e1 : x.item = j := Option.some.inj hxb
        have hwj : A.items[w]? = some j := by rw [← h.items]; simp [hx, e1]
        obtain ⟨j', hj', hadj⟩ := (h.out _ hu w).mp hw
        rw [hwj] at hj'
        have : j = j' := Option.some.inj hj'
        subst this
        rw [hit] at hadj
        exact ⟨e1 ▸ (h.active x hxm).mp ha, hadj⟩
      · cases hxb
    · rintro ⟨hj, hadj⟩
      obtain ⟨w, hw, -, hnw, hitw, hjw⟩ := h.find (h.sub j hj)
      refine ⟨w, (h.out _ hu w).mpr ⟨j, hjw, by rw [hit]; exact hadj⟩, ?_⟩
      rw [List.getElem?_eq_getElem hw]
      have : (g.verts[w]).active = true := by
        rw [h.active _ (List.getElem_mem hw), hitw]; exact hj
      simp [this, hitw]

/-! ## Counting -/

/-- Number of active neighbours. -/
noncomputable def degA (A : AGraph) (i : ℤ) : ℕ := by
  classical exact (A.active.filter fun j => A.adj i j).card

theorem neighbours_length (h : Rep g A) {i : ℤ} (hi : i ∈ A.items) {l : List ℤ}
    (hl : findNeighbours g i = Except.ok l) : l.length = degA A i := by
  obtain ⟨l', h1, -, h2, h3⟩ := neighbours_ok h hi
  rw [hl] at h1
  cases h1
  rw [← List.toFinset_card_of_nodup h2, degA]
  congr 1
  ext j
  simp [h3]

theorem pairs_card_sum (A : AGraph) : A.pairs.card = ∑ i ∈ A.active, degA A i := by
  classical
  unfold AGraph.pairs degA
  rw [Finset.card_filter, Finset.sum_product]
  refine Finset.sum_congr rfl fun i _ => ?_
  rw [Finset.card_filter]

theorem degA_le (h : Rep g A) {i : ℤ} (hi : i ∈ A.active) : degA A i ≤ A.active.card - 1 := by
  classical
  unfold degA
  rw [← Finset.card_erase_of_mem hi]
  refine Finset.card_le_card fun j hj => ?_
  rw [Finset.mem_filter] at hj
  refine Finset.mem_erase.mpr ⟨?_, hj.1⟩
  rintro rfl
  exact h.irrefl _ hj.2

theorem degA_eq_iff (h : Rep g A) {i : ℤ} (hi : i ∈ A.active) :
    degA A i = A.active.card - 1 ↔ ∀ j ∈ A.active, i ≠ j → A.adj i j := by
  classical
  have hsub : (A.active.filter fun j => A.adj i j) ⊆ A.active.erase i := by
    intro j hj
    rw [Finset.mem_filter] at hj
    refine Finset.mem_erase.mpr ⟨?_, hj.1⟩
    rintro rfl
    exact h.irrefl _ hj.2
  unfold degA
  rw [← Finset.card_erase_of_mem hi]
  constructor
  · intro hc j hj hij
    have := Finset.eq_of_subset_of_card_le hsub (by rw [hc])
    have hm : j ∈ A.active.erase i := Finset.mem_erase.mpr ⟨fun hc => hij hc.symm, hj⟩
    rw [← this, Finset.mem_filter] at hm
    exact hm.2
  · intro hall
    congr 1
    refine Finset.Subset.antisymm hsub fun j hj => ?_
    rw [Finset.mem_erase] at hj
    exact Finset.mem_filter.mpr ⟨hj.2, hall j hj.2 fun hc => hj.1 hc.symm⟩

theorem complete_iff_card (h : Rep g A) :
    A.Complete ↔ A.pairs.card = A.active.card * (A.active.card - 1) := by
  rw [pairs_card_sum]
  constructor
  · intro hc
    rw [Finset.sum_congr rfl fun i hi => (degA_eq_iff h hi).mpr (hc i hi)]
    simp
  · intro hs x hx
    rw [← degA_eq_iff h hx]
    by_contra hne
    have hlt : degA A x < A.active.card - 1 := lt_of_le_of_ne (degA_le h hx) hne
    have : ∑ i ∈ A.active, degA A i < ∑ _i ∈ A.active, (A.active.card - 1) :=
      Finset.sum_lt_sum (fun i hi => degA_le h hi) ⟨x, hx, hlt⟩
    rw [hs] at this
    simp at this

theorem pairs_card_le (h : Rep g A) : A.pairs.card ≤ A.active.card * (A.active.card - 1) := by
  rw [pairs_card_sum]
  calc ∑ i ∈ A.active, degA A i ≤ ∑ _i ∈ A.active, (A.active.card - 1) :=
        Finset.sum_le_sum fun i hi => degA_le h hi
    _ = _ := by simp

/-- The completeness test, whenever the product does not overflow. -/
theorem isComplete_ok (h : Rep g A) {ar : Arith} {B : ℤ} (hf : Fits ar B) (hB1 : 1 ≤ B)
    (hB : (A.active.card : ℤ) * (A.active.card - 1) ≤ B) (hn : (A.active.card : ℤ) ≤ B) :
    ∃ b, isComplete ar g = Except.ok b ∧ (b = true ↔ A.Complete) := by
  have hnn : (0 : ℤ) ≤ A.active.card := by positivity
  have hp0 : (0 : ℤ) ≤ (A.active.card : ℤ) * (A.active.card - 1) := by
    rcases Nat.eq_zero_or_pos A.active.card with h0 | h0
    · simp [h0]
    · have : (1 : ℤ) ≤ A.active.card := by exact_mod_cast h0
      exact mul_nonneg hnn (by linarith)
  refine ⟨g.numEdges == Int.tdiv ((A.active.card : ℤ) * (A.active.card - 1)) 2, ?_, ?_⟩
  · rw [isComplete, h.nV]
    rw [hf _ (by linarith) (by linarith)]
    simp only [res_ok_bind]
    rw [hf _ (by linarith) hB]
    simp only [res_ok_bind]
    rw [divA, if_neg (by norm_num)]
    have h2 : Int.tdiv ((A.active.card : ℤ) * (A.active.card - 1)) 2 =
        ((A.active.card : ℤ) * (A.active.card - 1)) / 2 := Int.tdiv_eq_ediv_of_nonneg hp0
    rw [h2]
    rw [hf _ (by omega) (by omega)]
    simp only [res_ok_bind, res_pure]
  · have hdvd : (2 : ℤ) ∣ (A.active.card : ℤ) * (A.active.card - 1) := by
      have := (Int.even_mul_pred_self (A.active.card : ℤ)).two_dvd
      exact this
    obtain ⟨q, hq⟩ := hdvd
    rw [hq, beq_iff_eq, Int.mul_tdiv_cancel_left _ (by norm_num), complete_iff_card h]
    have hE := h.nE
    have hcast : ((A.active.card * (A.active.card - 1) : ℕ) : ℤ) =
        (A.active.card : ℤ) * (A.active.card - 1) := by
      rcases Nat.eq_zero_or_pos A.active.card with h0 | h0
      · simp [h0]
      · push_cast [Nat.cast_sub h0]; ring
    constructor
    · intro he
      have : (A.pairs.card : ℤ) = ((A.active.card * (A.active.card - 1) : ℕ) : ℤ) := by
        rw [hcast, ← hE, hq, he]
      exact_mod_cast this
    · intro he
      have : (A.pairs.card : ℤ) = ((A.active.card * (A.active.card - 1) : ℕ) : ℤ) := by
        rw [he]
      rw [hcast, ← hE, hq] at this
      omega

/-! ## Operations -/

theorem rep_addNode (h : Rep g A) {i : ℤ} (hi : i ∉ A.items) (hA : A.active = A.items.toFinset)
    (hadj : ∀ x y, ¬ A.adj x y) :
    Rep (addNode g i) ⟨A.items ++ [i], (A.items ++ [i]).toFinset, A.adj⟩ := by
  have hiA : i ∉ A.active := fun hc => hi (h.sub i hc)
  refine ⟨?_, ?_, ?_, ?_, ?_, ?_, ?_, ?_, ?_, ?_, ?_, ?_⟩
  · simp [addNode, h.items]
  · rw [List.nodup_append]
    refine ⟨h.nodup, by simp, fun a ha b hb hab => ?_⟩
    rw [List.mem_singleton] at hb
    exact hi (hb ▸ hab ▸ ha)
  · intro j v
    simp only [addNode, Function.update_apply]
    split
    · rename_i hj
      subst hj
      rw [h.len]
      constructor
      · intro hv; cases hv; simp
      · intro hv
        by_contra hc
        have hne : v ≠ A.items.length := fun he => hc (by rw [he])
        rcases lt_or_gt_of_ne hne with hlt | hgt
        · rw [List.getElem?_append_left hlt] at hv
          exact hi (List.mem_of_getElem? hv)
        · rw [List.getElem?_eq_none (by simp; omega)] at hv
          cases hv
    · rename_i hj
      rw [h.pos]
      constructor
      · intro hv
        rw [List.getElem?_append_left (List.getElem?_eq_some_iff.mp hv).1]
        exact hv
      · intro hv
        by_cases hlt : v < A.items.length
        · rwa [List.getElem?_append_left hlt] at hv
        · rw [List.getElem?_append_right (by omega)] at hv
          have hm := List.mem_of_getElem? hv
          simp at hm
          exact absurd hm hj
  · intro u hu
    simp only [addNode, List.mem_append, List.mem_singleton] at hu
    rcases hu with hu | rfl
    · rw [h.active u hu, hA]
      have : u.item ≠ i := by
        rintro rfl
        exact hi (by rw [← h.items]; exact List.mem_map_of_mem hu)
      simp [this]
    · simp
  · intro u hu
    simp only [addNode, List.mem_append, List.mem_singleton] at hu
    rcases hu with hu | rfl
    · exact h.outNodup u hu
    · simp
  · intro u hu w
    simp only [addNode, List.mem_append, List.mem_singleton] at hu
    rcases hu with hu | rfl
    · rw [h.out u hu]
      constructor
      · rintro ⟨j, -, hc⟩; exact absurd hc (hadj _ _)
      · rintro ⟨j, -, hc⟩; exact absurd hc (hadj _ _)
    · simp [hadj]
  · intro j hj; exact List.mem_toFinset.mp hj
  · exact h.symm
  · exact h.irrefl
  · intro x y hxy; exact absurd hxy (hadj _ _)
  · have h1 : (A.items ++ [i]).toFinset = insert i A.active := by
      rw [hA]; ext j; simp
    simp only [addNode]
    rw [h1, Finset.card_insert_of_notMem hiA, h.nV]
    push_cast
    ring
  · have h1 : ∀ B : AGraph, (∀ x y, ¬ B.adj x y) → B.pairs.card = 0 := by
      intro B hB
      rw [Finset.card_eq_zero, Finset.eq_empty_iff_forall_notMem]
      intro p hp
      exact hB _ _ (mem_pairs.mp hp).2.2
    have h2 := h.nE
    rw [h1 A hadj] at h2
    have h3 := h1 ⟨A.items ++ [i], (A.items ++ [i]).toFinset, A.adj⟩ hadj
    rw [h3]
    exact h2

theorem rep_ofItems {items : List ℤ} (hnd : items.Nodup) :
    Rep (ofItems items) (AGraph.init items) := by
  have key : ∀ (l : List ℤ) (g : Graph) (done : List ℤ),
      Rep g (AGraph.init done) → (done ++ l).Nodup →
      Rep (l.foldl addNode g) (AGraph.init (done ++ l)) := by
    intro l
    induction l with
    | nil => intro g done h _; simpa using h
    | cons i l ih =>
      intro g done h hn
      have hi : i ∉ done := by
        intro hc
        rw [List.nodup_append] at hn
        exact hn.2.2 i hc i (by simp) rfl
      have h1 : Rep (addNode g i) (AGraph.init (done ++ [i])) :=
        rep_addNode h (i := i) hi rfl (fun _ _ hc => hc)
      have := ih (addNode g i) (done ++ [i]) h1 (by simpa using hn)
      simpa using this
  have h0 : Rep { verts := [], positions := fun _ => none, numVertices := 0, numEdges := 0 }
      (AGraph.init []) := by
    refine ⟨rfl, by simp [AGraph.init], ?_, ?_, ?_, ?_, ?_, ?_, ?_, ?_, ?_, ?_⟩ <;>
      simp [AGraph.init, AGraph.pairs]
  have := key items _ [] h0 (by simpa using hnd)
  simpa [ofItems] using this

theorem set_same {α : Type} {l : List α} {i : ℕ} {a : α} (h : l[i]? = some a) :
    l.set i a = l := by
  refine List.ext_getElem? fun k => ?_
  rw [List.getElem?_set]
  split
  · rename_i hik
    subst hik
    have hlt : i < l.length := (List.getElem?_eq_some_iff.mp h).1
    rw [h]
    simp [hlt]
  · rfl

theorem nodup_snoc {α : Type} {l : List α} {a : α} (h : l.Nodup) (ha : a ∉ l) :
    (l ++ [a]).Nodup := by
  rw [List.nodup_append]
  refine ⟨h, by simp, fun x hx b hb hab => ?_⟩
  rw [List.mem_singleton] at hb
  exact ha (hb ▸ hab ▸ hx)

theorem rep_removeNode (h : Rep g A) {i : ℤ} (hi : i ∈ A.items) :
    ∃ g', removeNode g i = Except.ok g' ∧ Rep g' (A.remove i) ∧
      g'.verts.length = g.verts.length := by
  classical
  obtain ⟨v, hv, hp, hn, hit, hiv⟩ := h.find hi
  have hu : g.verts[v] ∈ g.verts := List.getElem_mem hv
  rw [removeNode, hp]
  simp only [res_ok_bind]
  rw [hn]
  simp only [res_ok_bind]
  by_cases ha : (g.verts[v]).active = true
  · have hact : i ∈ A.active := by rw [← hit]; exact (h.active _ hu).mp ha
    rw [if_pos ha]
    obtain ⟨l, -, hd, hnd, hl⟩ := neighbours_ok h hi
    rw [hd]
    simp only [res_ok_bind]
    rw [setN_ok hv]
    simp only [res_ok_bind, res_pure]
    refine ⟨_, rfl, ?_, by simp⟩
    -- members of the new vertex list
    have hmem : ∀ u ∈ g.verts.set v ⟨(g.verts[v]).item, false, (g.verts[v]).out⟩,
        (u ∈ g.verts ∧ u.item ≠ i) ∨ (u = ⟨(g.verts[v]).item, false, (g.verts[v]).out⟩) := by
      intro u hu'
      obtain ⟨k, hk⟩ := List.mem_iff_getElem?.mp hu'
      rw [List.getElem?_set] at hk
      split at hk
      · rename_i hvk
        exact Or.inr (Option.some.inj hk).symm
      · rename_i hvk
        refine Or.inl ⟨List.mem_of_getElem? hk, ?_⟩
        intro hc
        have : A.items[k]? = some i := by rw [← h.items]; simp [hk, hc]
        exact hvk (h.idx_inj hiv this)
    refine ⟨?_, h.nodup, h.pos, ?_, ?_, ?_, ?_, h.symm, h.irrefl, h.mem, ?_, ?_⟩
    · simp only [AGraph.remove]
      rw [List.map_set, ← h.items]
      exact set_same (by simp [hv])
    · intro u hu'
      rcases hmem u hu' with ⟨h1, h2⟩ | rfl
      · rw [h.active u h1]; simp [AGraph.remove, h2]
      · simp [AGraph.remove, hit]
    · intro u hu'
      rcases hmem u hu' with ⟨h1, h2⟩ | rfl
      · exact h.outNodup u h1
      · exact h.outNodup (g.verts[v]) hu
    · intro u hu' w
      rcases hmem u hu' with ⟨h1, h2⟩ | rfl
      · exact h.out u h1 w
      · exact h.out (g.verts[v]) hu w
    · intro j hj
      exact h.sub j (Finset.mem_of_mem_erase hj)
    · simp only [AGraph.remove]
      rw [h.nV]
      have := Finset.card_erase_add_one hact
      omega
    · simp only
      -- pairs of the smaller graph plus those at `i`
      have hdeg : l.length = degA A i := by
        rw [← List.toFinset_card_of_nodup hnd, degA]
        congr 1
        ext j
        simp [hl]
      have hsplit : A.pairs = (A.remove i).pairs ∪
          ((A.active.filter fun j => A.adj i j).map ⟨fun j => (i, j), fun a b hab => by
              simpa using hab⟩ ∪
            (A.active.filter fun j => A.adj i j).map ⟨fun j => (j, i), fun a b hab => by
              simpa using hab⟩) := by
        ext ⟨x, y⟩
        rw [Finset.mem_union, Finset.mem_union, mem_pairs, mem_pairs, Finset.mem_map,
          Finset.mem_map]
        simp only [AGraph.remove, Finset.mem_filter, Finset.mem_erase]
        constructor
        · rintro ⟨hx, hy, hxy⟩
          by_cases h1 : x = i
          · subst h1; exact Or.inr (Or.inl ⟨y, ⟨hy, hxy⟩, rfl⟩)
          · by_cases h2 : y = i
            · subst h2; exact Or.inr (Or.inr ⟨x, ⟨hx, h.symm _ _ hxy⟩, rfl⟩)
            · exact Or.inl ⟨⟨h1, hx⟩, ⟨h2, hy⟩, hxy⟩
        · rintro (⟨⟨_, hx⟩, ⟨_, hy⟩, hxy⟩ | ⟨j, ⟨hj, hij⟩, he⟩ | ⟨j, ⟨hj, hij⟩, he⟩)
          · exact ⟨hx, hy, hxy⟩
          · obtain ⟨rfl, rfl⟩ := Prod.mk.inj he
            exact ⟨hact, hj, hij⟩
          · obtain ⟨rfl, rfl⟩ := Prod.mk.inj he
            exact ⟨hj, hact, h.symm _ _ hij⟩
      have hd1 : Disjoint ((A.active.filter fun j => A.adj i j).map
          (⟨fun j => (i, j), fun a b hab => by simpa using hab⟩ : ℤ ↪ ℤ × ℤ))
          ((A.active.filter fun j => A.adj i j).map
          (⟨fun j => (j, i), fun a b hab => by simpa using hab⟩ : ℤ ↪ ℤ × ℤ)) := by
        rw [Finset.disjoint_left]
        rintro ⟨x, y⟩ h1 h2
        rw [Finset.mem_map] at h1 h2
        obtain ⟨j, hj, he1⟩ := h1
        obtain ⟨k, hk, he2⟩ := h2
        obtain ⟨rfl, rfl⟩ := Prod.mk.inj he1
        obtain ⟨-, rfl⟩ := Prod.mk.inj he2
        exact h.irrefl _ (Finset.mem_filter.mp hj).2
      have hd2 : Disjoint (A.remove i).pairs (((A.active.filter fun j => A.adj i j).map
          (⟨fun j => (i, j), fun a b hab => by simpa using hab⟩ : ℤ ↪ ℤ × ℤ)) ∪
          ((A.active.filter fun j => A.adj i j).map
          (⟨fun j => (j, i), fun a b hab => by simpa using hab⟩ : ℤ ↪ ℤ × ℤ))) := by
        rw [Finset.disjoint_left]
        rintro ⟨x, y⟩ h1 h2
        rw [mem_pairs] at h1
        simp only [AGraph.remove, Finset.mem_erase] at h1
        rw [Finset.mem_union, Finset.mem_map, Finset.mem_map] at h2
        rcases h2 with ⟨j, -, he⟩ | ⟨j, -, he⟩
        · obtain ⟨rfl, rfl⟩ := Prod.mk.inj he
          exact h1.1.1 rfl
        · obtain ⟨rfl, rfl⟩ := Prod.mk.inj he
          exact h1.2.1.1 rfl
      have hcard : A.pairs.card = (A.remove i).pairs.card + 2 * degA A i := by
        rw [hsplit, Finset.card_union_of_disjoint hd2, Finset.card_union_of_disjoint hd1,
          Finset.card_map, Finset.card_map]
        unfold degA
        ring
      have := h.nE
      rw [hcard] at this
      push_cast at this
      rw [hdeg]
      linarith
  · rw [if_neg ha]
    have hact : i ∉ A.active := fun hc => ha ((h.active _ hu).mpr (by rw [hit]; exact hc))
    refine ⟨g, rfl, ?_, rfl⟩
    have : A.remove i = A := by
      simp [AGraph.remove, Finset.erase_eq_of_notMem hact]
    rw [this]
    exact h

theorem activate_active {v : ℕ} (hv : v < g.verts.length) (ha : (g.verts[v]).active = true) :
    activate g v = Except.ok g := by
  rw [activate, nth_ok hv]
  simp [ha]

/-- Abstract graph with one more edge. -/
def addA (A : AGraph) (i j : ℤ) : AGraph :=
  { A with adj := fun x y => A.adj x y ∨ (x = i ∧ y = j) ∨ (x = j ∧ y = i) }

theorem rep_congr {A' : AGraph} (h : Rep g A) (h1 : A'.items = A.items)
    (h2 : A'.active = A.active) (h3 : ∀ x y, A'.adj x y ↔ A.adj x y) : Rep g A' := by
  have : A' = A := by
    cases A; cases A'
    simp only at h1 h2 h3
    subst h1 h2
    congr
    funext x y
    exact propext (h3 x y)
  rw [this]; exact h

theorem rep_addEdge (h : Rep g A) {i j : ℤ} (hi : i ∈ A.active) (hj : j ∈ A.active)
    (hij : i ≠ j) :
    ∃ g', addEdge g i j = Except.ok g' ∧ Rep g' (addA A i j) ∧
      g'.verts.length = g.verts.length := by
  classical
  obtain ⟨v, hv, hp, hn, hit, hiv⟩ := h.find (h.sub i hi)
  obtain ⟨w, hw, hpw, hnw, hjt, hjw⟩ := h.find (h.sub j hj)
  have hvm : g.verts[v] ∈ g.verts := List.getElem_mem hv
  have hwm : g.verts[w] ∈ g.verts := List.getElem_mem hw
  have hva : (g.verts[v]).active = true := (h.active _ hvm).mpr (by rw [hit]; exact hi)
  have hwa : (g.verts[w]).active = true := (h.active _ hwm).mpr (by rw [hjt]; exact hj)
  have hvw : v ≠ w := by
    rintro rfl
    rw [hiv] at hjw
    exact hij (Option.some.inj hjw)
  rw [addEdge, hp]
  simp only [res_ok_bind]
  rw [hpw]
  simp only [res_ok_bind]
  rw [activate_active hv hva]
  simp only [res_ok_bind]
  rw [activate_active hw hwa]
  simp only [res_ok_bind]
  rw [addIfAbsent, hn]
  simp only [res_ok_bind]
  have hcont : (g.verts[v]).out.contains w = true ↔ A.adj i j := by
    rw [List.contains_iff_mem, h.out _ hvm, hit]
    constructor
    · rintro ⟨k, hk, hadj⟩
      rw [hjw] at hk
      cases hk
      exact hadj
    · intro hadj; exact ⟨j, hjw, hadj⟩
  by_cases hadj : A.adj i j
  · rw [if_pos (hcont.mpr hadj)]
    refine ⟨g, rfl, rep_congr h rfl rfl ?_, rfl⟩
    intro x y
    simp only [addA]
    constructor
    · rintro (hh | ⟨rfl, rfl⟩ | ⟨rfl, rfl⟩)
      · exact hh
      · exact hadj
      · exact h.symm _ _ hadj
    · exact Or.inl
  · rw [if_neg fun hc => hadj (hcont.mp hc)]
    have hw' : w < (g.verts.set v ⟨(g.verts[v]).item, (g.verts[v]).active, (g.verts[v]).out ++ [w]⟩).length := by
      simpa using hw
    have hbe : boostAddEdge g.verts v w = Except.ok
        ((g.verts.set v ⟨(g.verts[v]).item, (g.verts[v]).active, (g.verts[v]).out ++ [w]⟩).set w
          ⟨(g.verts[w]).item, (g.verts[w]).active, (g.verts[w]).out ++ [v]⟩) := by
      rw [boostAddEdge, hn]
      simp only [res_ok_bind]
      rw [setN_ok hv]
      simp only [res_ok_bind]
      rw [nth_ok hw']
      simp only [res_ok_bind]
      rw [setN_ok hw']
      simp [List.getElem_set_ne hvw]
    rw [hbe]
    simp only [res_ok_bind, res_pure]
    refine ⟨_, rfl, ?_, by simp⟩
    have hmem : ∀ u ∈ (g.verts.set v ⟨(g.verts[v]).item, (g.verts[v]).active, (g.verts[v]).out ++ [w]⟩).set w
          ⟨(g.verts[w]).item, (g.verts[w]).active, (g.verts[w]).out ++ [v]⟩,
        (u ∈ g.verts ∧ u.item ≠ i ∧ u.item ≠ j) ∨
        (u = ⟨(g.verts[v]).item, (g.verts[v]).active, (g.verts[v]).out ++ [w]⟩) ∨
        (u = ⟨(g.verts[w]).item, (g.verts[w]).active, (g.verts[w]).out ++ [v]⟩) := by
      intro u hu'
      obtain ⟨k, hk⟩ := List.mem_iff_getElem?.mp hu'
      rw [List.getElem?_set] at hk
      split at hk
      · rename_i hvk
        exact Or.inr (Or.inr (Option.some.inj hk).symm)
      · rename_i hwk
        rw [List.getElem?_set] at hk
        split at hk
        · rename_i hvk
          exact Or.inr (Or.inl (Option.some.inj hk).symm)
        · rename_i hvk
          refine Or.inl ⟨List.mem_of_getElem? hk, ?_, ?_⟩
          · intro hc
            have : A.items[k]? = some i := by rw [← h.items]; simp [hk, hc]
            exact hvk (h.idx_inj hiv this)
          · intro hc
            have : A.items[k]? = some j := by rw [← h.items]; simp [hk, hc]
            exact hwk (h.idx_inj hjw this)
    have hnadj' : ¬ A.adj j i := fun hc => hadj (h.symm _ _ hc)
    have hnv : w ∉ (g.verts[v]).out := fun hc =>
      hadj (hcont.mp (List.contains_iff_mem.mpr hc))
    have hnw' : v ∉ (g.verts[w]).out := by
      intro hc
      obtain ⟨k, hk, hh⟩ := (h.out _ hwm v).mp hc
      rw [hiv] at hk
      cases hk
      rw [hjt] at hh
      exact hnadj' hh
    refine ⟨?_, h.nodup, h.pos, ?_, ?_, ?_, h.sub, ?_, ?_, ?_, h.nV, ?_⟩
    · show _ = A.items
      rw [List.map_set, List.map_set, ← h.items]
      rw [set_same (i := v) (by simp [hv])]
      exact set_same (by simp [hw])
    · intro u hu'
      rcases hmem u hu' with ⟨h1, -⟩ | rfl | rfl
      · exact h.active u h1
      · exact h.active (g.verts[v]) hvm
      · exact h.active (g.verts[w]) hwm
    · intro u hu'
      rcases hmem u hu' with ⟨h1, -⟩ | rfl | rfl
      · exact h.outNodup u h1
      · exact nodup_snoc (h.outNodup _ hvm) hnv
      · exact nodup_snoc (h.outNodup _ hwm) hnw'
    · intro u hu' x
      rcases hmem u hu' with ⟨h1, h2, h3⟩ | rfl | rfl
      · rw [h.out u h1]
        simp only [addA, h2, h3, false_and, or_false]
      · simp only [List.mem_append, List.mem_singleton, hit, addA]
        rw [h.out _ hvm, hit]
        constructor
        · rintro (⟨k, hk, hh⟩ | rfl)
          · exact ⟨k, hk, Or.inl hh⟩
          · exact ⟨j, hjw, Or.inr (Or.inl ⟨trivial, rfl⟩)⟩
        · rintro ⟨k, hk, hh | ⟨-, rfl⟩ | ⟨hc, -⟩⟩
          · exact Or.inl ⟨k, hk, hh⟩
          · exact Or.inr (h.idx_inj hk hjw)
          · exact absurd hc hij
      · simp only [List.mem_append, List.mem_singleton, hjt, addA]
        rw [h.out _ hwm, hjt]
        constructor
        · rintro (⟨k, hk, hh⟩ | rfl)
          · exact ⟨k, hk, Or.inl hh⟩
          · exact ⟨i, hiv, Or.inr (Or.inr ⟨trivial, rfl⟩)⟩
        · rintro ⟨k, hk, hh | ⟨hc, -⟩ | ⟨-, rfl⟩⟩
          · exact Or.inl ⟨k, hk, hh⟩
          · exact absurd hc.symm hij
          · exact Or.inr (h.idx_inj hk hiv)
    · rintro x y (hh | ⟨rfl, rfl⟩ | ⟨rfl, rfl⟩)
      · exact Or.inl (h.symm _ _ hh)
      · exact Or.inr (Or.inr ⟨rfl, rfl⟩)
      · exact Or.inr (Or.inl ⟨rfl, rfl⟩)
    · rintro x (hh | ⟨rfl, hc⟩ | ⟨rfl, hc⟩)
      · exact h.irrefl _ hh
      · exact hij hc
      · exact hij hc.symm
    · rintro x y (hh | ⟨rfl, rfl⟩ | ⟨rfl, rfl⟩)
      · exact h.mem _ _ hh
      · exact h.sub _ hi
      · exact h.sub _ hj
    · have hset : (addA A i j).pairs = insert (i, j) (insert (j, i) A.pairs) := by
        ext ⟨x, y⟩
        simp only [mem_pairs, addA, Finset.mem_insert, Prod.mk.injEq]
        constructor
        · rintro ⟨hx, hy, hh | hh | hh⟩
          · exact Or.inr (Or.inr ⟨hx, hy, hh⟩)
          · exact Or.inl hh
          · exact Or.inr (Or.inl hh)
        · rintro (⟨rfl, rfl⟩ | ⟨rfl, rfl⟩ | ⟨hx, hy, hh⟩)
          · exact ⟨hi, hj, Or.inr (Or.inl ⟨rfl, rfl⟩)⟩
          · exact ⟨hj, hi, Or.inr (Or.inr ⟨rfl, rfl⟩)⟩
          · exact ⟨hx, hy, Or.inl hh⟩
      have hn1 : (j, i) ∉ A.pairs := fun hc => hnadj' (mem_pairs.mp hc).2.2
      have hn2 : (i, j) ∉ insert (j, i) A.pairs := by
        rw [Finset.mem_insert, not_or]
        exact ⟨fun hc => hij (Prod.mk.inj hc).1, fun hc => hadj (mem_pairs.mp hc).2.2⟩
      rw [hset, Finset.card_insert_of_notMem hn2, Finset.card_insert_of_notMem hn1]
      have := h.nE
      push_cast
      linarith

theorem rep_connectFrom {i : ℤ} : ∀ (rest : List ℤ) {g : Graph} {A : AGraph}, Rep g A →
    i ∈ A.active → (∀ x ∈ rest, x ∈ A.active ∧ x ≠ i) →
    ∃ g', connectFrom g i rest = Except.ok g' ∧
      Rep g' { A with adj := fun x y => A.adj x y ∨ (x = i ∧ y ∈ rest) ∨ (x ∈ rest ∧ y = i) } ∧
      g'.verts.length = g.verts.length
  | [], g, A, h, hi, hr => by
    refine ⟨g, rfl, rep_congr h rfl rfl ?_, rfl⟩
    intro x y; simp
  | j :: rest, g, A, h, hi, hr => by
    obtain ⟨hj, hji⟩ := hr j (by simp)
    obtain ⟨g1, h1, hr1, hl1⟩ := rep_addEdge h hi hj (Ne.symm hji)
    obtain ⟨g2, h2, hr2, hl2⟩ := rep_connectFrom rest hr1 hi fun x hx => hr x (by simp [hx])
    refine ⟨g2, ?_, rep_congr hr2 rfl rfl ?_, by rw [hl2, hl1]⟩
    · rw [connectFrom, List.foldlM_cons, h1]
      exact h2
    · intro x y
      simp only [addA, List.mem_cons]
      tauto

theorem rep_connect : ∀ (L : List ℤ) {g : Graph} {A : AGraph}, Rep g A → L.Nodup →
    (∀ x ∈ L, x ∈ A.active) →
    ∃ g', connect g L = Except.ok g' ∧ Rep g' (A.connect L) ∧ g'.verts.length = g.verts.length
  | [], g, A, h, _, _ => by
    refine ⟨g, rfl, rep_congr h rfl rfl ?_, rfl⟩
    intro x y; simp [AGraph.connect]
  | i :: L, g, A, h, hnd, hL => by
    rw [List.nodup_cons] at hnd
    obtain ⟨g1, h1, hr1, hl1⟩ := rep_connectFrom L h (hL i (by simp))
      fun x hx => ⟨hL x (by simp [hx]), fun hc => hnd.1 (hc ▸ hx)⟩
    obtain ⟨g2, h2, hr2, hl2⟩ := rep_connect L hr1 hnd.2 fun x hx => hL x (by simp [hx])
    refine ⟨g2, ?_, rep_congr hr2 rfl rfl ?_, by rw [hl2, hl1]⟩
    · rw [connect, h1]
      simpa only [res_ok_bind] using h2
    · intro x y
      simp only [AGraph.connect, List.mem_cons]
      constructor
      · rintro (hh | ⟨hne, hx, hy⟩)
        · exact Or.inl (Or.inl hh)
        · rcases hx with rfl | hx
          · rcases hy with rfl | hy
            · exact absurd rfl hne
            · exact Or.inl (Or.inr (Or.inl ⟨rfl, hy⟩))
          · rcases hy with rfl | hy
            · exact Or.inl (Or.inr (Or.inr ⟨hx, rfl⟩))
            · exact Or.inr ⟨hne, hx, hy⟩
      · rintro ((hh | ⟨rfl, hy⟩ | ⟨hx, rfl⟩) | ⟨hne, hx, hy⟩)
        · exact Or.inl hh
        · exact Or.inr ⟨fun hc => hnd.1 (hc ▸ hy), Or.inl rfl, Or.inr hy⟩
        · exact Or.inr ⟨fun hc => hnd.1 (hc ▸ hx), Or.inr hx, Or.inl rfl⟩
        · exact Or.inr ⟨hne, Or.inr hx, Or.inr hy⟩

/-! ## The dependence graph -/

theorem union_fold_nodup : ∀ (bs : List (List ℤ)) (acc : List ℤ), acc.Nodup →
    (∀ b ∈ bs, b.Nodup) → (bs.foldl Items.findItemsUnion acc).Nodup ∧
    ∀ x, x ∈ bs.foldl Items.findItemsUnion acc ↔ x ∈ acc ∨ ∃ b ∈ bs, x ∈ b
  | [], acc, hacc, _ => by simp [hacc]
  | b :: bs, acc, hacc, hb => by
    have h1 := Items.union_nodup hacc (hb b (by simp))
    obtain ⟨h2, h3⟩ := union_fold_nodup bs _ h1 fun c hc => hb c (by simp [hc])
    refine ⟨h2, fun x => ?_⟩
    rw [List.foldl_cons, h3, Items.mem_union]
    simp [or_assoc]

theorem rep_connectAll : ∀ (bs : List (List ℤ)) {g : Graph} {A : AGraph}, Rep g A →
    (∀ b ∈ bs, b.Nodup ∧ ∀ x ∈ b, x ∈ A.active) →
    ∃ g', bs.foldlM connect g = Except.ok g' ∧
      Rep g' { A with adj := fun x y => A.adj x y ∨ (x ≠ y ∧ ∃ b ∈ bs, x ∈ b ∧ y ∈ b) } ∧
      g'.verts.length = g.verts.length
  | [], g, A, h, _ => by
    refine ⟨g, rfl, rep_congr h rfl rfl ?_, rfl⟩
    intro x y; simp
  | b :: bs, g, A, h, hb => by
    obtain ⟨hb1, hb2⟩ := hb b (by simp)
    obtain ⟨g1, h1, hr1, hl1⟩ := rep_connect b h hb1 hb2
    obtain ⟨g2, h2, hr2, hl2⟩ := rep_connectAll bs hr1 fun c hc => hb c (by simp [hc])
    refine ⟨g2, ?_, rep_congr hr2 rfl rfl ?_, by rw [hl2, hl1]⟩
    · rw [List.foldlM_cons, h1]
      simpa only [res_ok_bind] using h2
    · intro x y
      simp only [AGraph.connect, List.mem_cons, exists_eq_or_imp]
      tauto

/-- The abstract dependence graph of a list of factors. -/
def depA (beliefs : List (List ℤ)) : AGraph :=
  { items := beliefs.foldl Items.findItemsUnion []
    active := (beliefs.foldl Items.findItemsUnion []).toFinset
    adj := fun x y => x ≠ y ∧ ∃ b ∈ beliefs, x ∈ b ∧ y ∈ b }

theorem rep_makeDependenceGraph (beliefs : List (List ℤ)) (hb : ∀ b ∈ beliefs, b.Nodup) :
    ∃ g, makeDependenceGraph beliefs = Except.ok g ∧ Rep g (depA beliefs) ∧
      g.verts.length = (depA beliefs).items.length := by
  obtain ⟨h1, h2⟩ := union_fold_nodup beliefs [] List.nodup_nil hb
  have h0 := rep_ofItems h1
  obtain ⟨g, hg, hr, hl⟩ := rep_connectAll beliefs h0 fun b hbm =>
    ⟨hb b hbm, fun x hx => by
      simp only [AGraph.init, List.mem_toFinset]
      exact (h2 x).mpr (Or.inr ⟨b, hbm, hx⟩)⟩
  refine ⟨g, hg, rep_congr hr rfl rfl ?_, by rw [hl]; exact h0.len⟩
  intro x y
  simp [depA, AGraph.init]

theorem mem_depA_items {beliefs : List (List ℤ)} (hb : ∀ b ∈ beliefs, b.Nodup) {x : ℤ} :
    x ∈ (depA beliefs).items ↔ ∃ b ∈ beliefs, x ∈ b := by
  have := (union_fold_nodup beliefs [] List.nodup_nil hb).2 x
  simpa [depA] using this

end Verif.DepGraph
