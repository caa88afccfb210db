import Verif.Spec.Grid
import Mathlib.Algebra.BigOperators.Group.Finset.Basic

/-!
# Specification of C109: the number of grid points of all integrals

Stated on plain data, as in Spec/Eliminate: a list `E` of edges `(source, target, separator)` and the
items of the last cluster. The message along an edge integrates one item and stores the integral as a
function of the items of the separator, on a sparse grid. The items of the last cluster are integrated
one after the other, and the integral is stored as a function of those that are left.
-/
namespace Verif.Spec.Tree

/-- Number of grid points at which integrals are computed. -/
noncomputable def gridTotal (level : ℕ) (E : List (ℤ × ℤ × List ℤ)) (last : List ℤ) : ℕ :=
  (E.map fun S => (gridPoints S.2.2.length level).ncard).sum +
    ∑ m ∈ Finset.range last.length, (gridPoints m level).ncard

end Verif.Spec.Tree
