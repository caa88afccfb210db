import Verif.Model.Unused
import Verif.Props.Eliminate
import Mathlib.Data.Nat.Choose.Basic

/-!
# C111: helpers that no other part of the package calls
-/
namespace Verif.Unused

open Verif.ClusterGraph Verif.DepGraph

variable {α β : Type}

theorem combn2_length (l : List α) : (combn2 l).length = l.length.choose 2 := by
  induction l with
  | nil => rfl
  | cons x xs ih =>
    rw [combn2, List.length_append, List.length_map, ih, List.length_cons, Nat.choose_succ_succ',
      Nat.choose_one_right]

theorem mem_combn2 {l : List α} {p : List α} :
    p ∈ combn2 l ↔ ∃ (i j : ℕ) (hi : i < j) (hj : j < l.length),
      p = [l[i]'(hi.trans hj), l[j]] := by
  induction l with
  | nil => simp [combn2]
  | cons x xs ih =>
    rw [combn2, List.mem_append, List.mem_map, ih]
    constructor
    · rintro (⟨y, hy, rfl⟩ | ⟨i, j, hi, hj, rfl⟩)
      · obtain ⟨j, hj, rfl⟩ := List.mem_iff_getElem.1 hy
        exact ⟨0, j + 1, by omega, by simpa using hj, by simp⟩
      · exact ⟨i + 1, j + 1, by omega, by simpa using hj, by simp⟩
    · rintro ⟨i, j, hi, hj, rfl⟩
      obtain ⟨j, rfl⟩ : ∃ k, j = k + 1 := ⟨j - 1, by omega⟩
      rcases i with _ | i
      · exact Or.inl ⟨xs[j]'(by simpa using hj), List.getElem_mem _, by simp⟩
      · exact Or.inr ⟨i, j, by omega, by simpa using hj, by simp⟩

theorem combn2_nodup {l : List α} (h : l.Nodup) : (combn2 l).Nodup := by
  induction l with
  | nil => simp [combn2]
  | cons x xs ih =>
    obtain ⟨hx, hxs⟩ := List.nodup_cons.1 h
    rw [combn2, List.nodup_append]
    refine ⟨hxs.map fun a b e => by simpa using e, ih hxs, ?_⟩
    intro a ha b hb e
    obtain ⟨y, -, rfl⟩ := List.mem_map.1 ha
    obtain ⟨i, j, hi, hj, rfl⟩ := mem_combn2.1 hb
    have : x = xs[i]'(hi.trans hj) := (List.cons.inj e).1
    exact hx (this ▸ List.getElem_mem _)

/-- C111: `find_pairs` lists the pairs of different positions, each once; nothing for fewer than two
elements. -/
theorem c111_pairs (set : List α) :
    (set.length ≤ 1 ∧ findPairs set = none) ∨
    ∃ ps, findPairs set = some ps ∧ ps.length = set.length.choose 2 ∧ (set.Nodup → ps.Nodup) ∧
      ∀ p, p ∈ ps ↔ ∃ (i j : ℕ) (hi : i < j) (hj : j < set.length),
        p = [set[i]'(hi.trans hj), set[j]] := by
  unfold findPairs
  split_ifs with h
  · exact Or.inr ⟨_, rfl, combn2_length set, combn2_nodup, fun p => mem_combn2⟩
  · exact Or.inl ⟨by omega, rfl⟩

example : findPairs [1, 2, 3] = some [[1, 2], [1, 3], [2, 3]] := rfl

/-- C111: there is one message fewer than clusters, and together with the items of the last cluster
there are as many messages as items. `complexity` tells nothing. -/
theorem c111_counts {ops : Ops β} (hops : ItemsLaw ops) (factors : List (List ℤ))
    (hF : ∀ F ∈ factors, F.Nodup) {ar : Arith} (har : Suits ar factors) :
    ∃ g c, makeDependenceGraph factors = Except.ok g ∧ initStructure ar ops g = Except.ok c ∧
      nMessages c + 1 = nClusters c ∧ complexity c = 0 ∧
      ∃ b, c.clusters.getLast? = some b ∧
        nMessages c + (ops.items b).length = factors.flatten.toFinset.card := by
  obtain ⟨B, hf, h1, h2, h3⟩ := har.fits hF
  obtain ⟨g, c, eg, ec, hb⟩ := init_ok hops factors hF hf h1 h2 h3
  obtain ⟨vs, last, ho⟩ := hb.onceEach
  refine ⟨g, c, eg, ec, hb.len, rfl, ?_⟩
  have hc := onceEach_count ho
  have hl := ho.final
  rw [clusterItems, List.getLast?_map] at hl
  obtain ⟨b, hb1, hb2⟩ := Option.map_eq_some_iff.1 hl
  refine ⟨b, hb1, ?_⟩
  rw [hb2, ← hc]
  simp [nMessages, edgeData]

/-- Two classes of a school and another school. -/
example : ∃ g c, makeDependenceGraph [[0, 2], [1, 2], [3]] = Except.ok g ∧
    initStructure i32 simpleOps g = Except.ok c ∧ nMessages c + 1 = nClusters c := by
  obtain ⟨g, c, h1, h2, h3, -⟩ := c111_counts simpleLaws.items_ofItems [[0, 2], [1, 2], [3]] (by decide)
    (ar := i32) (Or.inr ⟨rfl, by decide⟩)
  exact ⟨g, c, h1, h2, h3⟩

end Verif.Unused
