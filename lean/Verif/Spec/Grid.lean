import Mathlib.Data.List.Basic
import Mathlib.Algebra.BigOperators.Group.List.Basic
import Mathlib.Data.Set.Card

/-!
# Specification of sparse grids

Written without reference to the model of `Point` or `SparseGrid`.
-/
namespace Verif.Spec

/-- A point of the `d`-dimensional sparse grid with level sum at most `k`: a level and a
position per direction, `0 ≤ position < 2^level`. -/
structure IsGridPoint (d k : ℕ) (ls ps : List ℕ) : Prop where
  levels_length : ls.length = d
  positions_length : ps.length = d
  sum_le : ls.sum ≤ k
  pos_lt : ∀ t (h1 : t < ls.length) (h2 : t < ps.length), ps[t] < 2 ^ ls[t]

/-- All points of the sparse grid. -/
def gridPoints (d k : ℕ) : Set (List ℕ × List ℕ) := {x | IsGridPoint d k x.1 x.2}

end Verif.Spec
