import Mathlib.Data.Finset.Basic
import Mathlib.Data.Finset.Prod
import Mathlib.Data.Fintype.Defs

/-!
# Specification: an undirected graph with removable nodes

Independent of the code: a set of active items and an adjacency relation determined by the
history of operations.
-/
namespace Verif.Spec.Graph

/-- Abstract graph state. -/
structure AGraph where
  items : List ℤ
  active : Finset ℤ
  adj : ℤ → ℤ → Prop

/-- All items active, no edges. -/
def AGraph.init (items : List ℤ) : AGraph := ⟨items, items.toFinset, fun _ _ => False⟩

/-- Make all members of `L` pairwise adjacent. -/
def AGraph.connect (A : AGraph) (L : List ℤ) : AGraph :=
  { A with adj := fun x y => A.adj x y ∨ (x ≠ y ∧ x ∈ L ∧ y ∈ L) }

/-- Make `i` inactive. -/
def AGraph.remove (A : AGraph) (i : ℤ) : AGraph := { A with active := A.active.erase i }

/-- Operations performed while a cluster graph is built. -/
inductive Op where
  | connect (L : List ℤ)
  | remove (i : ℤ)

def AGraph.apply (A : AGraph) : Op → AGraph
  | .connect L => A.connect L
  | .remove i => A.remove i

/-- Operations that occur: connecting a duplicate-free list of active items; removing an
existing item. -/
def AGraph.Valid (A : AGraph) : Op → Prop
  | .connect L => L.Nodup ∧ ∀ x ∈ L, x ∈ A.active
  | .remove i => i ∈ A.items

/-- A whole sequence of operations is valid. -/
def AGraph.ValidSeq : AGraph → List Op → Prop
  | _, [] => True
  | A, op :: ops => A.Valid op ∧ (A.apply op).ValidSeq ops

/-- The ordered pairs of adjacent active items. -/
noncomputable def AGraph.pairs (A : AGraph) : Finset (ℤ × ℤ) := by
  classical exact (A.active ×ˢ A.active).filter fun p => A.adj p.1 p.2

/-- Every two active items are adjacent. -/
def AGraph.Complete (A : AGraph) : Prop :=
  ∀ x ∈ A.active, ∀ y ∈ A.active, x ≠ y → A.adj x y

end Verif.Spec.Graph
