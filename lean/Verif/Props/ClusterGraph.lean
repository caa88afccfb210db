import Verif.Proofs.ClusterMsg
import Verif.Props.Graph

/-!
# C14, C15, C19: the cluster graph is a junction tree; C16: populating it; C17: message passing
-/
namespace Verif.ClusterGraph

open Verif.Items Verif.DepGraph Verif.Spec.Tree

variable {β : Type}

/-- Integer arithmetic suits the factors: unbounded, or 32-bit with at most 46341 items (the
bound of C57). -/
def Suits (ar : Arith) (factors : List (List ℤ)) : Prop :=
  ar = exactZ ∨ ar = i32 ∧ factors.flatten.toFinset.card ≤ 46341

theorem card_active {factors : List (List ℤ)} (hF : ∀ F ∈ factors, F.Nodup) :
    (depA factors).active.card = factors.flatten.toFinset.card := by
  congr 1
  ext x
  have := mem_depA_items hF (x := x)
  simpa [depA] using this

theorem Suits.fits {ar : Arith} {factors : List (List ℤ)} (h : Suits ar factors)
    (hF : ∀ F ∈ factors, F.Nodup) : ∃ B : ℤ, Fits ar B ∧ 1 ≤ B ∧
      (((depA factors).active.card : ℕ) : ℤ) * ((depA factors).active.card - 1) ≤ B ∧
      (((depA factors).active.card : ℕ) : ℤ) ≤ B := by
  rw [card_active hF]
  unfold Suits at h
  generalize factors.flatten.toFinset.card = n at h
  rcases h with rfl | ⟨rfl, h⟩
  · refine ⟨1 + n * n + n, fits_exactZ _, ?_, ?_, ?_⟩ <;>
      nlinarith [(by positivity : (0 : ℤ) ≤ n)]
  · obtain ⟨B, hB⟩ : ∃ B : ℕ, (B : ℤ) = 2147483647 := ⟨2147483647, rfl⟩
    have hf : Fits i32 B := by rw [hB]; exact fits_i32
    have h1 : (n : ℤ) ≤ 46341 := by exact_mod_cast h
    have h0 : (0 : ℤ) ≤ n := by positivity
    refine ⟨B, hf, by omega, ?_, by omega⟩
    rw [hB]
    nlinarith

theorem Built.directedTree {ops : Ops β} {factors : List (List ℤ)} {c : CG β}
    (hb : Built ops factors c) : DirectedTree (clusterItems ops c) (edgeData ops c) := by
  have hlen : (edgeData ops c).length = c.edges.length := by simp [edgeData]
  have hends : ∀ (k : ℕ) (hk : k < (edgeData ops c).length), ((edgeData ops c)[k]).1 = k ∧
      ∃ p : ℕ, ((edgeData ops c)[k]).2.1 = p ∧ k < p ∧ p < (clusterItems ops c).length := by
    intro k hk
    have hk' : k < c.edges.length := by rw [← hlen]; exact hk
    obtain ⟨h1, p, h2, h3, h4, -⟩ := hb.edge k hk'
    have he : (edgeData ops c)[k] = ((c.edges[k]).first, (c.edges[k]).second,
        ops.items (c.edges[k]).belief) := by simp [edgeData]
    rw [he]
    exact ⟨h1, p, h4, h2, by rw [len_ci]; exact h3⟩
  refine ⟨by rw [hlen, len_ci]; exact hb.len, hends, hb.isTree, ?_⟩
  intro i j hi hj hij
  obtain ⟨-, p, h1, h2, -⟩ := hends i hi
  rw [h1, (hends j hj).1] at hij
  have : p = j := by exact_mod_cast hij
  omega

theorem Built.separators {ops : Ops β} {factors : List (List ℤ)} {c : CG β}
    (hb : Built ops factors c) : Separators (clusterItems ops c) (edgeData ops c) := by
  have hlen : (edgeData ops c).length = c.edges.length := by simp [edgeData]
  have he : ∀ (k : ℕ) (hk : k < (edgeData ops c).length) (hk' : k < c.edges.length),
      (edgeData ops c)[k] = ((c.edges[k]).first, (c.edges[k]).second, sp ops c.edges k) := by
    intro k hk hk'
    simp [edgeData, sp_eq hk']
  refine ⟨?_, ?_, ?_, hb.running⟩
  · intro S hS
    obtain ⟨k, hk, rfl⟩ := List.mem_iff_getElem.mp hS
    rw [he k hk (by rw [← hlen]; exact hk)]
    exact hb.ndS k
  · intro S hS
    obtain ⟨k, hk, rfl⟩ := List.mem_iff_getElem.mp hS
    have hk' : k < c.edges.length := by rw [← hlen]; exact hk
    obtain ⟨h1, p, h2, h3, h4, h5⟩ := hb.edge k hk'
    have hkl : k < (clusterItems ops c).length := by rw [len_ci]; omega
    have hpl : p < (clusterItems ops c).length := by rw [len_ci]; exact h3
    rw [he k hk hk']
    refine ⟨k, p, hkl, hpl, h1, h4, fun x hx => ?_, fun x hx => ?_⟩
    · rw [cl_eq hkl]; exact ((hb.sep_iff hk' x).mp hx).1
    · rw [cl_eq hpl]; exact h5 x hx
  · intro k hk hk' x
    have hke : k < c.edges.length := by rw [← hlen]; exact hk
    rw [he k hk hke, cl_eq hk', hb.sep_iff hke x]
    constructor
    · rintro ⟨h1, j, h2, h3⟩
      have hj : j < (clusterItems ops c).length := by
        rw [len_ci]; exact Built.lt_of_mem h3
      exact ⟨h1, j, hj, h2, by rw [cl_eq hj]; exact h3⟩
    · rintro ⟨h1, j, hj, h2, h3⟩
      exact ⟨h1, j, h2, by rw [cl_eq hj] at h3; exact h3⟩

/-- C14: for every finite collection of factors the construction terminates normally and gives
a directed tree. -/
theorem c14_construction {ops : Ops β} (hops : ItemsLaw ops) (factors : List (List ℤ))
    (hF : ∀ F ∈ factors, F.Nodup) {ar : Arith} (har : Suits ar factors) :
    ∃ g c, makeDependenceGraph factors = Except.ok g ∧ initStructure ar ops g = Except.ok c ∧
      DirectedTree (clusterItems ops c) (edgeData ops c) := by
  obtain ⟨B, hf, h1, h2, h3⟩ := har.fits hF
  obtain ⟨g, c, eg, ec, hb⟩ := init_ok hops factors hF hf h1 h2 h3
  exact ⟨g, c, eg, ec, hb.directedTree⟩

/-- C15: separators and running intersection; the clusters contain exactly the items of the
factors. -/
theorem c15_separators {ops : Ops β} (hops : ItemsLaw ops) (factors : List (List ℤ))
    (hF : ∀ F ∈ factors, F.Nodup) {ar : Arith} (har : Suits ar factors) :
    ∃ g c, makeDependenceGraph factors = Except.ok g ∧ initStructure ar ops g = Except.ok c ∧
      Separators (clusterItems ops c) (edgeData ops c) ∧
      (∀ C ∈ clusterItems ops c, C.Nodup) ∧
      ∀ x, (∃ C ∈ clusterItems ops c, x ∈ C) ↔ ∃ F ∈ factors, x ∈ F := by
  obtain ⟨B, hf, h1, h2, h3⟩ := har.fits hF
  obtain ⟨g, c, eg, ec, hb⟩ := init_ok hops factors hF hf h1 h2 h3
  refine ⟨g, c, eg, ec, hb.separators, ?_, ?_⟩
  · intro C hC
    obtain ⟨k, hk, rfl⟩ := List.mem_iff_getElem.mp hC
    rw [cl_eq hk]; exact hb.ndC k
  · intro x
    rw [← hb.items x]
    constructor
    · rintro ⟨C, hC, hx⟩
      obtain ⟨k, hk, rfl⟩ := List.mem_iff_getElem.mp hC
      exact ⟨k, by rw [cl_eq hk] at hx; exact hx⟩
    · rintro ⟨k, hx⟩
      have hk : k < (clusterItems ops c).length := by rw [len_ci]; exact Built.lt_of_mem hx
      exact ⟨_, List.getElem_mem hk, by rw [cl_eq hk]; exact hx⟩

theorem foldl_max (f : β → ℕ) : ∀ (l : List β) (w : ℕ),
    w ≤ l.foldl (fun w b => max w (f b)) w ∧ (∀ b ∈ l, f b ≤ l.foldl (fun w b => max w (f b)) w) ∧
      (l.foldl (fun w b => max w (f b)) w = w ∨
        ∃ b ∈ l, l.foldl (fun w b => max w (f b)) w = f b)
  | [], w => by simp
  | x :: l, w => by
    obtain ⟨h1, h2, h3⟩ := foldl_max f l (max w (f x))
    simp only [List.foldl_cons]
    refine ⟨le_trans (le_max_left _ _) h1, ?_, ?_⟩
    · intro b hb
      rcases List.mem_cons.mp hb with rfl | hb
      · exact le_trans (le_max_right _ _) h1
      · exact h2 b hb
    · rcases h3 with h3 | ⟨b, hb, h3⟩
      · rcases max_choice w (f x) with hm | hm
        · exact Or.inl (h3.trans hm)
        · exact Or.inr ⟨x, by simp, h3.trans hm⟩
      · exact Or.inr ⟨b, by simp [hb], h3⟩

/-- C19: the width is the size of the largest cluster (attained, and a bound for all), and every
factor has at most that many items. -/
theorem c19_width {ops : Ops β} (hops : ItemsLaw ops) (factors : List (List ℤ))
    (hF : ∀ F ∈ factors, F.Nodup) {ar : Arith} (har : Suits ar factors) :
    ∃ g c, makeDependenceGraph factors = Except.ok g ∧ initStructure ar ops g = Except.ok c ∧
      (∃ C ∈ clusterItems ops c, width ops c = C.length) ∧
      (∀ C ∈ clusterItems ops c, C.length ≤ width ops c) ∧
      ∀ F ∈ factors, F.length ≤ width ops c := by
  obtain ⟨B, hf, h1, h2, h3⟩ := har.fits hF
  obtain ⟨g, c, eg, ec, hb⟩ := init_ok hops factors hF hf h1 h2 h3
  obtain ⟨-, hle, hat⟩ := foldl_max (fun b => (ops.items b).length) c.clusters 0
  have hbound : ∀ C ∈ clusterItems ops c, C.length ≤ width ops c := by
    intro C hC
    obtain ⟨b, hbm, rfl⟩ := List.mem_map.mp hC
    exact hle b hbm
  refine ⟨g, c, eg, ec, ?_, hbound, ?_⟩
  · rcases hat with h0 | ⟨b, hbm, he⟩
    · have hpos : 0 < c.clusters.length := by rw [← hb.len]; omega
      refine ⟨ops.items c.clusters[0], List.mem_map_of_mem (List.getElem_mem hpos), ?_⟩
      have := hle _ (List.getElem_mem hpos)
      rw [h0] at this
      have h0' : width ops c = 0 := h0
      omega
    · exact ⟨ops.items b, List.mem_map_of_mem hbm, he⟩
  · intro F hFm
    obtain ⟨k, hk, hcov⟩ := hb.cover F hFm
    have hkl : k < (clusterItems ops c).length := by rw [len_ci]; exact hk
    refine le_trans ?_ (hbound _ (List.getElem_mem hkl))
    rw [cl_eq hkl, ← List.toFinset_card_of_nodup (hF F hFm),
      ← List.toFinset_card_of_nodup (hb.ndC k)]
    refine Finset.card_le_card fun x hx => ?_
    rw [List.mem_toFinset] at hx ⊢
    exact hcov x hx

/-- C58: in every graph state reached during construction that still has an item, the item
chosen for elimination is an active one with the fewest neighbours. -/
theorem c58_greedy (items : List ℤ) (hnd : items.Nodup) (ops : List Spec.Graph.Op)
    (hv : (Spec.Graph.AGraph.init items).ValidSeq ops) :
    ∃ g, ops.foldlM applyOp (ofItems items) = Except.ok g ∧ (getItems g ≠ [] →
      ∃ v dv, chooseItem g = Except.ok v ∧ v ∈ getItems g ∧ findDegree g v = Except.ok dv ∧
        ∀ x ∈ getItems g, ∃ dx, findDegree g x = Except.ok dx ∧ dv ≤ dx) := by
  obtain ⟨g, e, r⟩ := runOps_rep items hnd ops hv
  refine ⟨g, e, fun hne => ?_⟩
  obtain ⟨x0, hx0⟩ := List.exists_mem_of_ne_nil _ hne
  obtain ⟨v, h1, h2, h3⟩ := chooseItem_ok r ⟨x0, (mem_getItems r).mp hx0⟩
  generalize ops.foldl Spec.Graph.AGraph.apply (Spec.Graph.AGraph.init items) = A at r h2 h3
  have hdeg : ∀ x ∈ A.active, findDegree g x = Except.ok (degA A x : ℤ) := by
    intro x hx
    obtain ⟨l, hl, hd, hn, hm⟩ := neighbours_ok r (r.sub x hx)
    rw [hd, neighbours_length r (r.sub x hx) hl]
  refine ⟨v, _, h1, (mem_getItems r).mpr h2, hdeg v h2, fun x hx => ?_⟩
  have hx' := (mem_getItems r).mp hx
  exact ⟨_, hdeg x hx', by exact_mod_cast h3 x hx'⟩

/-- C16: every input belief is multiplied into exactly one cluster, one that contains its items
(`bss` lists the beliefs multiplied into each cluster and is a rearrangement of the input);
the log value of every cluster is the sum of those beliefs, and the sum over the clusters is the
sum over all inputs, at every assignment. Edge beliefs are initially constant one. -/
theorem c16_populate {ops : Ops β} {WF : β → Prop} {ev : β → (ℤ → ℝ) → ℝ} (L : Laws ops WF ev)
    (beliefs : List β) (hb : ∀ b ∈ beliefs, WF b) {ar : Arith}
    (har : Suits ar (beliefs.map ops.items)) :
    ∃ c, ofBeliefs ar ops beliefs = Except.ok c ∧
      (∃ bss : List (List β), bss.length = c.clusters.length ∧ bss.flatten.Perm beliefs ∧
        ∀ (k : ℕ) r B, c.clusters[k]? = some r → bss[k]? = some B →
          (∀ b ∈ B, ∀ x ∈ ops.items b, x ∈ ops.items r) ∧
          ∀ a, ev r a = (B.map fun b => ev b a).sum) ∧
      (∀ e ∈ c.edges, ∀ a, ev e.belief a = 0) ∧
      ∀ a, (c.clusters.map fun r => ev r a).sum = (beliefs.map fun b => ev b a).sum := by
  have hF : ∀ F ∈ beliefs.map ops.items, F.Nodup := by
    intro F hF
    obtain ⟨b, hbm, rfl⟩ := List.mem_map.mp hF
    exact L.nodup b (hb b hbm)
  obtain ⟨B, hf, h1, h2, h3⟩ := har.fits hF
  obtain ⟨c, ec, hB, inv, hE, bss, hl, hp, hk, hj⟩ := ofBeliefs_ok L beliefs hb hf h1 h2 h3
  refine ⟨c, ec, ⟨bss, hl, hp, fun k r B h1 h2 => ⟨(hk k r B h1 h2).1, (hk k r B h1 h2).2.2⟩⟩,
    hE, fun a => ?_⟩
  have := hj a
  rw [joint] at this
  have hz : (c.edges.map fun e => ev e.belief a).sum = 0 := by
    refine List.sum_eq_zero fun y hy => ?_
    obtain ⟨e, hem, rfl⟩ := List.mem_map.mp hy
    exact hE e hem a
  rw [hz, sub_zero] at this
  exact this

/-- C17: for every sequence of messages (any edges, directions and kinds) that runs through,
whatever the local integrations return, the sum of the clusters minus the sum of the edges is
still the sum of the input beliefs, and `extractBeliefs` returns beliefs with that sum. -/
theorem c17_messages {ops : Ops β} {WF : β → Prop} {ev : β → (ℤ → ℝ) → ℝ} (L : Laws ops WF ev)
    (beliefs : List β) (hb : ∀ b ∈ beliefs, WF b) {ar : Arith}
    (har : Suits ar (beliefs.map ops.items)) :
    ∃ c, ofBeliefs ar ops beliefs = Except.ok c ∧ ∀ (ms : List Msg) c',
      passAll ops c ms = Except.ok c' →
      (∀ a, (c'.clusters.map fun r => ev r a).sum - (c'.edges.map fun e => ev e.belief a).sum =
        (beliefs.map fun b => ev b a).sum) ∧
      ∃ bs, extractBeliefs ops c' = Except.ok bs ∧ bs.length = c'.clusters.length ∧
        ∀ a, (bs.map fun b => ev b a).sum = (beliefs.map fun b => ev b a).sum := by
  have hF : ∀ F ∈ beliefs.map ops.items, F.Nodup := by
    intro F hF
    obtain ⟨b, hbm, rfl⟩ := List.mem_map.mp hF
    exact L.nodup b (hb b hbm)
  obtain ⟨B, hf, h1, h2, h3⟩ := har.fits hF
  obtain ⟨c, ec, hB, inv, hE, bss, hl, hp, hk, hj⟩ := ofBeliefs_ok L beliefs hb hf h1 h2 h3
  refine ⟨c, ec, fun ms c' hc' => ?_⟩
  obtain ⟨inv', hj', -⟩ := passAll_joint L ms inv hc'
  obtain ⟨bs, eb, hbl, hbs⟩ := extract_joint L inv'
  exact ⟨fun a => (hj' a).trans (hj a), bs, eb, hbl, fun a => (hbs a).trans ((hj' a).trans (hj a))⟩

/-- Calibration is such a sequence of messages, so C17 covers it. -/
theorem calibrate_is_passAll (ops : Ops β) (c : CG β) (forward na : Bool) :
    calibrateInternal ops c forward na = passAll ops c
      ((if forward then List.range c.edges.length else (List.range c.edges.length).reverse).map
        fun k => (k, forward, na)) := by
  rw [passAll, List.foldlM_map]
  rfl

/-! ## Concrete cases -/

/-- The simplest beliefs obeying the laws: an item list with a function; margins are constant
one on the requested items, every belief is proper. -/
def simpleOps : Ops (List ℤ × ((ℤ → ℝ) → ℝ)) where
  items := Prod.fst
  ofItems l := (l, fun _ => 0)
  mul b d := .ok (b.1, fun a => b.2 a + d.2 a)
  div b d := .ok (b.1, fun a => b.2 a - d.2 a)
  margin _ l _ := .ok (l, fun _ => 0)
  logNorm _ := .ok 0
  isProper _ := .ok true

/-- The laws hold of it. -/
theorem simpleLaws : Laws simpleOps (fun b => b.1.Nodup) Prod.snd where
  items_ofItems _ := rfl
  ofItems_wf _ h := h
  ofItems_ev _ _ := rfl
  nodup _ h := h
  mul_ok b d hb _ _ := ⟨_, rfl, hb, rfl, fun _ => rfl⟩
  div_ok b d hb _ _ := ⟨_, rfl, hb, rfl, fun _ => rfl⟩
  margin_items b l _ r _ hl _ h := by cases h; exact ⟨hl, fun _ => Iff.rfl⟩

/-- The 4-cycle: four pairwise factors, hypotheses of C14–C19 met with 32-bit integers. -/
example : (∀ F ∈ ([[1, 2], [2, 3], [4, 3], [1, 4]] : List (List ℤ)), F.Nodup) ∧
    Suits i32 [[1, 2], [2, 3], [4, 3], [1, 4]] :=
  ⟨by simp, Or.inr ⟨rfl, by decide⟩⟩

/-- On beliefs over the 4-cycle, C17 applies to a full forward and backward sweep that runs
through. -/
example (f : (ℤ → ℝ) → ℝ) : ∃ c, ofBeliefs i32 simpleOps
    [([1, 2], f), ([2, 3], f), ([4, 3], f), ([1, 4], f)] = Except.ok c ∧
    c.clusters.length = c.edges.length + 1 := by
  obtain ⟨B, hf, h1, h2, h3⟩ := (show Suits i32 (([([1, 2], f), ([2, 3], f), ([4, 3], f),
    ([1, 4], f)] : List (List ℤ × ((ℤ → ℝ) → ℝ))).map simpleOps.items) from
      Or.inr ⟨rfl, by simp [simpleOps]⟩).fits (by simp [simpleOps])
  obtain ⟨c, ec, hB, -⟩ := ofBeliefs_ok simpleLaws _ (by simp) hf h1 h2 h3
  exact ⟨c, ec, hB.len.symm⟩

end Verif.ClusterGraph
