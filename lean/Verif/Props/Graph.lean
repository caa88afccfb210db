import Verif.Proofs.Graph

/-!
# C13: dependence-graph bookkeeping; C57: overflow of the completeness test
-/
namespace Verif.DepGraph

open Verif.Spec.Graph

/-- The coded operation for each abstract one. -/
def applyOp (g : Graph) : Op → Res Graph
  | .connect L => connect g L
  | .remove i => removeNode g i

/-- What C13 says of a state `g` whose history has produced the abstract graph `A`. -/
structure Bookkeeping (g : Graph) (A : AGraph) : Prop where
  /-- the vertex counter is the number of active items -/
  numVertices : g.numVertices = A.active.card
  /-- twice the edge counter is the number of ordered pairs of adjacent active items -/
  numEdges : 2 * g.numEdges = A.pairs.card
  /-- the item list consists of the active items, in the original order -/
  getItems : getItems g = A.items.filter fun i => decide (i ∈ A.active)
  /-- neighbour lists exist, are duplicate-free and contain exactly the active adjacent items;
  the degree is their length -/
  neighbours : ∀ i ∈ A.items, ∃ l, findNeighbours g i = Except.ok l ∧
    findDegree g i = Except.ok (l.length : ℤ) ∧ l.Nodup ∧ ∀ j, j ∈ l ↔ j ∈ A.active ∧ A.adj i j
  /-- the neighbour relation is symmetric on active items -/
  symm : ∀ i ∈ A.active, ∀ j ∈ A.active, ∀ li lj, findNeighbours g i = Except.ok li →
    findNeighbours g j = Except.ok lj → (j ∈ li ↔ i ∈ lj)
  /-- the completeness test is exact (unbounded integers) -/
  complete : ∃ b, isComplete exactZ g = Except.ok b ∧ (b = true ↔ A.Complete)
  /-- and so is the 32-bit one up to 46341 active items -/
  complete32 : A.active.card ≤ 46341 →
    ∃ b, isComplete i32 g = Except.ok b ∧ (b = true ↔ A.Complete)

theorem Rep.bookkeeping {g : Graph} {A : AGraph} (h : Rep g A) : Bookkeeping g A := by
  refine ⟨h.nV, h.nE, getItems_eq_filter h, fun i hi => neighbours_ok h hi, ?_, ?_, ?_⟩
  · intro i hi j hj li lj hli hlj
    obtain ⟨l, h1, -, -, h2⟩ := neighbours_ok h (h.sub i hi)
    obtain ⟨l', h1', -, -, h2'⟩ := neighbours_ok h (h.sub j hj)
    rw [hli] at h1
    rw [hlj] at h1'
    cases h1
    cases h1'
    rw [h2, h2']
    exact ⟨fun hh => ⟨hi, h.symm _ _ hh.2⟩, fun hh => ⟨hj, h.symm _ _ hh.2⟩⟩
  · refine isComplete_ok h (fits_exactZ (1 + A.active.card * A.active.card + A.active.card)) ?_ ?_ ?_
    · nlinarith [(by positivity : (0 : ℤ) ≤ A.active.card)]
    · nlinarith [(by positivity : (0 : ℤ) ≤ A.active.card)]
    · nlinarith [(by positivity : (0 : ℤ) ≤ A.active.card)]
  · intro hc
    obtain ⟨B, hB⟩ : ∃ B : ℕ, (B : ℤ) = 2147483647 := ⟨2147483647, rfl⟩
    have hf : Fits i32 B := by rw [hB]; exact fits_i32
    have hc' : (A.active.card : ℤ) ≤ 46341 := by exact_mod_cast hc
    have h0 : (0 : ℤ) ≤ A.active.card := by positivity
    refine isComplete_ok h hf (by omega) ?_ (by omega)
    rw [hB]
    nlinarith

theorem runOps_rep (items : List ℤ) (hnd : items.Nodup) (ops : List Op)
    (hv : (AGraph.init items).ValidSeq ops) :
    ∃ g, ops.foldlM applyOp (ofItems items) = Except.ok g ∧
      Rep g (ops.foldl AGraph.apply (AGraph.init items)) := by
  have key : ∀ (ops : List Op) (g : Graph) (A : AGraph), Rep g A → A.ValidSeq ops →
      ∃ g', ops.foldlM applyOp g = Except.ok g' ∧ Rep g' (ops.foldl AGraph.apply A) := by
    intro ops
    induction ops with
    | nil => intro g A h _; exact ⟨g, rfl, h⟩
    | cons op ops ih =>
      intro g A h hv
      obtain ⟨hv1, hv2⟩ := hv
      have hstep : ∃ g1, applyOp g op = Except.ok g1 ∧ Rep g1 (A.apply op) := by
        cases op with
        | connect L =>
          obtain ⟨g1, e, r, -⟩ := rep_connect L h hv1.1 hv1.2
          exact ⟨g1, e, r⟩
        | remove i =>
          obtain ⟨g1, e, r, -⟩ := rep_removeNode h hv1
          exact ⟨g1, e, r⟩
      obtain ⟨g1, e1, r1⟩ := hstep
      obtain ⟨g2, e2, r2⟩ := ih g1 _ r1 hv2
      refine ⟨g2, ?_, r2⟩
      rw [List.foldlM_cons, e1]
      exact e2
  exact key ops _ _ (rep_ofItems hnd) hv

/-- C13: for every duplicate-free item list and every finite sequence of operations that
connects duplicate-free lists of active items and removes existing items, the coded graph runs
without error and its counters, neighbour lists and completeness test agree with the abstract
graph. -/
theorem c13_bookkeeping (items : List ℤ) (hnd : items.Nodup) (ops : List Op)
    (hv : (AGraph.init items).ValidSeq ops) :
    ∃ g, ops.foldlM applyOp (ofItems items) = Except.ok g ∧
      Bookkeeping g (ops.foldl AGraph.apply (AGraph.init items)) := by
  obtain ⟨g, e, r⟩ := runOps_rep items hnd ops hv
  exact ⟨g, e, r.bookkeeping⟩

/-- C13 for the initial graph: two distinct items are adjacent exactly when some factor
involves both. -/
theorem c13_dependence_graph (factors : List (List ℤ)) (hb : ∀ b ∈ factors, b.Nodup) :
    ∃ g A, makeDependenceGraph factors = Except.ok g ∧ Bookkeeping g A ∧
      (∀ x, x ∈ A.active ↔ ∃ b ∈ factors, x ∈ b) ∧
      ∀ x y, A.adj x y ↔ x ≠ y ∧ ∃ b ∈ factors, x ∈ b ∧ y ∈ b := by
  obtain ⟨g, e, r, -⟩ := rep_makeDependenceGraph factors hb
  refine ⟨g, depA factors, e, r.bookkeeping, fun x => ?_, fun x y => Iff.rfl⟩
  rw [← mem_depA_items hb]
  simp [depA]

/-- Non-trivial case: a 4-cycle, one node eliminated as in `initializeInternal`. -/
example : (AGraph.init [1, 2, 3, 4]).ValidSeq
    [.connect [1, 2], .connect [2, 3], .connect [4, 3], .connect [1, 4],
     .connect [1, 3], .remove 2] := by
  simp [AGraph.ValidSeq, AGraph.Valid, AGraph.apply, AGraph.connect, AGraph.init]

/-- C57 (violated beyond 46341 items): with 46342 or more active items the `int` product in
the completeness test overflows. -/
theorem c57_overflow (g : Graph) (A : AGraph) (h : Bookkeeping g A) (hn : 46342 ≤ A.active.card)
    (hn' : (A.active.card : ℤ) ≤ 2147483647) : isComplete i32 g = Res.ub := by
  have h1 : (46342 : ℤ) ≤ A.active.card := by exact_mod_cast hn
  rw [isComplete, h.numVertices]
  generalize (A.active.card : ℤ) = n at h1 hn'
  rw [i32_ok (by linarith) (by linarith)]
  simp only [res_ok_bind]
  have : i32 (n * (n - 1)) = Res.ub := by
    rw [i32, if_neg]
    rintro ⟨-, hc⟩
    nlinarith
  rw [this]
  rfl

/-- C57, the part that holds: up to 46341 active items the 32-bit test is exact. Missing: more
items, where it is refuted by `c57_overflow`. -/
theorem c57_exact_partial (g : Graph) (A : AGraph) (h : Bookkeeping g A)
    (hn : A.active.card ≤ 46341) :
    ∃ b, isComplete i32 g = Except.ok b ∧ (b = true ↔ A.Complete) := h.complete32 hn

/-- The overflow state is reachable: 46342 items, no factors joining them. -/
theorem c57_reachable : ∃ factors : List (List ℤ), (∀ b ∈ factors, b.Nodup) ∧
    ∃ g, makeDependenceGraph factors = Except.ok g ∧ isComplete i32 g = Res.ub := by
  obtain ⟨N, hN⟩ : ∃ N : ℕ, N = 46342 := ⟨46342, rfl⟩
  refine ⟨(List.range N).map fun k : ℕ => [(k : ℤ)], ?_, ?_⟩
  · intro b hb
    obtain ⟨k, -, rfl⟩ := List.mem_map.mp hb
    simp
  · obtain ⟨g, A, e, hbk, hact, -⟩ := c13_dependence_graph
      ((List.range N).map fun k : ℕ => [(k : ℤ)]) (by
        intro b hb
        obtain ⟨k, -, rfl⟩ := List.mem_map.mp hb
        simp)
    have hset : A.active = (Finset.range N).map ⟨fun k : ℕ => (k : ℤ), Nat.cast_injective⟩ := by
      ext x
      rw [hact, Finset.mem_map]
      constructor
      · rintro ⟨b, hb, hx⟩
        obtain ⟨k, hk, rfl⟩ := List.mem_map.mp hb
        rw [List.mem_singleton] at hx
        exact ⟨k, Finset.mem_range.mpr (List.mem_range.mp hk), hx.symm⟩
      · rintro ⟨k, hk, rfl⟩
        exact ⟨[(k : ℤ)], List.mem_map.mpr ⟨k, List.mem_range.mpr (Finset.mem_range.mp hk), rfl⟩,
          by simp⟩
    have hcard : A.active.card = N := by rw [hset, Finset.card_map, Finset.card_range]
    refine ⟨g, e, c57_overflow g A hbk (by omega) (by rw [hcard, hN]; norm_num)⟩

end Verif.DepGraph
