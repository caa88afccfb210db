import Mathlib.Data.Finsupp.Basic
import Mathlib.Algebra.BigOperators.Group.Finset.Basic
import Mathlib.Data.Fintype.BigOperators

/-! Specification for C91: which monomials a sparse grid of level `k` reproduces. -/
namespace Verif.Spec

/-- Level needed by the power `a ≤ 3` of one variable: constants are in level 0, the functions of
level 1 are quadratic, those of level 2 and above are piecewise cubic. -/
def powerLevel (a : ℕ) : ℕ := if a = 0 then 0 else if a ≤ 2 then 1 else 2

/-- The monomials reproduced: no power above 3, and the levels needed sum to at most `k`. -/
def Reproduced {d : ℕ} (k : ℕ) (m : Fin d →₀ ℕ) : Prop :=
  (∀ t, m t ≤ 3) ∧ ∑ t, powerLevel (m t) ≤ k

end Verif.Spec
