import Verif.Model.Frames
import Mathlib.Algebra.BigOperators.Group.Finset.Basic
import Mathlib.Algebra.BigOperators.Ring.Finset

/-!
# Specification: the linear predictor of a model frame

`X β + (Λ_θ' Z')' u`, with `Λ_θ'` the matrix `Lambdat` whose stored entry number `k` is the variance
parameter number `Lind[k]`.
-/
namespace Verif.Frames.Spec

open Finset

/-- Entry of `Lambdat` for the variance parameters `θ` (numbered from 0, `Lind` from 1). -/
noncomputable def lambda (R : ReTrms) (θ : ℕ → ℝ) (r c : ℕ) : ℝ :=
  ((R.Lambdat.pos.zip R.Lind).map fun pk => if pk.1 = (r, c) then θ (pk.2 - 1) else 0).sum

/-- Random-effects part of the linear predictor of observation `i`. -/
noncomputable def randomPart (R : ReTrms) (θ u : ℕ → ℝ) (i : ℕ) : ℝ :=
  ∑ r ∈ range R.Lambdat.nrow, u r * ∑ c ∈ range R.Zt.nrow, lambda R θ r c * R.Zt.e c i

/-- Linear predictor of observation `i`. -/
noncomputable def lp (F : Frame) (θ β u : ℕ → ℝ) (i : ℕ) : ℝ :=
  (∑ j ∈ range F.X.ncol, F.X.e i j * β j) +
    match F.reTrms with
    | none => 0
    | some R => randomPart R θ u i

/-- Number of fixed effects, random effects and variance parameters. -/
def nBeta (F : Frame) : ℕ := F.X.ncol

def nU (F : Frame) : ℕ := (F.reTrms.map fun R => R.Zt.nrow).getD 0

def nTheta (F : Frame) : ℕ := (F.reTrms.map fun R => R.theta.length).getD 0

/-- What `lme4` guarantees of `reTrms`. -/
structure WellFormedRe (R : ReTrms) : Prop where
  square : R.Lambdat.nrow = R.Zt.nrow ∧ R.Lambdat.ncol = R.Zt.nrow
  inside : ∀ p ∈ R.Lambdat.pos, p.1 < R.Lambdat.nrow ∧ p.2 < R.Lambdat.ncol
  size : R.Lind.length = R.Lambdat.pos.length
  index : ∀ k ∈ R.Lind, 1 ≤ k ∧ k ≤ R.theta.length

/-- A model frame of `n` observations as made by `lme4`. -/
structure WellFormed (F : Frame) (n : ℕ) : Prop where
  rows : F.X.nrow = n
  re : ∀ R, F.reTrms = some R → WellFormedRe R ∧ R.Zt.ncol = n

end Verif.Frames.Spec
