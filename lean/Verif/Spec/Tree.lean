import Mathlib.Combinatorics.SimpleGraph.Acyclic
import Mathlib.Combinatorics.SimpleGraph.Connectivity.Connected

/-!
# Specification: trees of clusters

Stated on plain data: a list `C` of item lists (clusters) and a list `E` of edges
`(source, target, separator)`.
-/
namespace Verif.Spec.Tree

/-- The graph on the cluster numbers with an edge for every entry of `E`. -/
def graph (n : ℕ) (E : List (ℤ × ℤ × List ℤ)) : SimpleGraph (Fin n) :=
  SimpleGraph.fromRel fun i j => ∃ S, ((i : ℕ) : ℤ) = S.1 ∧ ((j : ℕ) : ℤ) = S.2.1 ∧ S ∈ E

/-- The cluster numbers whose cluster contains `x`. -/
def holders (C : List (List ℤ)) (x : ℤ) : Set (Fin C.length) := {k | x ∈ C[k]}

/-- Running intersection property: for every item the clusters that contain it are connected
within the tree. -/
def RunningIntersection (C : List (List ℤ)) (E : List (ℤ × ℤ × List ℤ)) : Prop :=
  ∀ x, ((graph C.length E).induce (holders C x)).Preconnected

/-- C14: one edge fewer than clusters; edge `k` leaves cluster `k` and enters a later, existing
cluster; the edges form a tree; and in edge order every message is sent after all messages that
enter its source cluster. -/
structure DirectedTree (C : List (List ℤ)) (E : List (ℤ × ℤ × List ℤ)) : Prop where
  count : E.length + 1 = C.length
  ends : ∀ (k : ℕ) (hk : k < E.length), E[k].1 = k ∧
    ∃ p : ℕ, E[k].2.1 = p ∧ k < p ∧ p < C.length
  tree : (graph C.length E).IsTree
  order : ∀ (i j : ℕ) (hi : i < E.length) (hj : j < E.length), E[i].2.1 = E[j].1 → i < j

/-- C15: separators are contained in both clusters they join, equal the intersection of the
source cluster with the union of all later clusters, and the running intersection property
holds. -/
structure Separators (C : List (List ℤ)) (E : List (ℤ × ℤ × List ℤ)) : Prop where
  nodup : ∀ S ∈ E, S.2.2.Nodup
  sub : ∀ S ∈ E, ∃ (i j : ℕ) (hi : i < C.length) (hj : j < C.length), S.1 = i ∧ S.2.1 = j ∧
    (∀ x ∈ S.2.2, x ∈ C[i]) ∧ ∀ x ∈ S.2.2, x ∈ C[j]
  eq : ∀ (k : ℕ) (hk : k < E.length) (hk' : k < C.length) (x : ℤ), x ∈ E[k].2.2 ↔
    x ∈ C[k] ∧ ∃ (j : ℕ) (hj : j < C.length), k < j ∧ x ∈ C[j]
  running : RunningIntersection C E

end Verif.Spec.Tree
