import Verif.Base.Res
import Mathlib.Data.Matrix.Basic
import Mathlib.Data.Real.Basic

/-!
# Model of `src/subsetEigen.cpp`

An `Eigen::VectorXd` of size `n` is a function `Fin n → ℝ`, an `n x n` `Eigen::MatrixXd` a
`Matrix (Fin n) (Fin n) ℝ`. A `std::vector<int>` of positions of size `m` is a function
`Fin m → ℕ` (positions are never negative in the code). Element access of Eigen objects is
unchecked (`NDEBUG`), so a position outside the vector is undefined behaviour.

Freshly allocated vectors are uninitialised: functions that fill one take its contents as an
argument (`junk`).
-/
namespace Verif.Eigen

/-- Positions written by src/subsetEigen.cpp:24-29 `setVectorWithout` (`head(index)` and
`tail(n - index)` with `n` the smaller size): for position `j` of the target (size `m`) the
position of the source (size `n`) copied there, if any. -/
def withoutIdx (m n index : ℕ) (j : ℕ) : Option ℕ :=
  let k := min n m
  if j < index then some j
  else if m - (k - index) ≤ j then some (n - (k - index) + (j - (m - (k - index))))
  else none

/-- Entry `i` of a vector read without bounds check; `withoutIdx` stays in range when
`index ≤ min m n` (theorem `withoutIdx_lt`), so the alternative `d` is never used then.
Used for src/subsetEigen.cpp:24-29. -/
def entry {α : Type} {n : ℕ} (v : Fin n → α) (i : ℕ) (d : α) : α := if h : i < n then v ⟨i, h⟩ else d

/-- src/subsetEigen.cpp:24-29 `setVectorWithout`. `head(index)` of a shorter vector is undefined
behaviour. -/
def setVectorWithout {α : Type} {m n : ℕ} (index : ℕ) (target : Fin m → α) (source : Fin n → α) :
    Res (Fin m → α) :=
  if index ≤ min n m then
    Except.ok fun j => match withoutIdx m n index j with
      | some i => entry source i (target j)
      | none => target j
  else Res.ub

/-- src/subsetEigen.cpp:31-38 `setMatrixWithout`: the four corners. -/
def setMatrixWithout {α : Type} {m n : ℕ} (index : ℕ) (target : Matrix (Fin m) (Fin m) α)
    (source : Matrix (Fin n) (Fin n) α) : Res (Matrix (Fin m) (Fin m) α) :=
  if index ≤ min n m then
    Except.ok (Matrix.of fun r c => match withoutIdx m n index r, withoutIdx m n index c with
      | some i, some j => entry (fun k => entry (fun l => source k l) j (target r c)) i (target r c)
      | _, _ => target r c)
  else Res.ub

/-- src/subsetEigen.cpp:10-15 `getVectorWithout`. -/
def getVectorWithout {α : Type} {n : ℕ} (index : ℕ) (junk : Fin n → α) (v : Fin (n + 1) → α) :
    Res (Fin n → α) := setVectorWithout index junk v

/-- src/subsetEigen.cpp:17-22 `getMatrixWithout`. -/
def getMatrixWithout {α : Type} {n : ℕ} (index : ℕ) (junk : Matrix (Fin n) (Fin n) α)
    (a : Matrix (Fin (n + 1)) (Fin (n + 1)) α) : Res (Matrix (Fin n) (Fin n) α) :=
  setMatrixWithout index junk a

/-- Positions of a subset all lie in a vector of size `n`. Used for src/subsetEigen.cpp:40-47. -/
def InRange {m : ℕ} (n : ℕ) (s : Fin m → ℕ) : Prop := ∀ k, s k < n

instance {m n : ℕ} (s : Fin m → ℕ) : Decidable (InRange n s) := by
  unfold InRange; infer_instance

/-- src/subsetEigen.cpp:40-47 `getVectorSubset`. -/
def getVectorSubset {α : Type} {n m : ℕ} (v : Fin n → α) (s : Fin m → ℕ) : Res (Fin m → α) :=
  if h : InRange n s then Except.ok fun k => v ⟨s k, h k⟩ else Res.ub

/-- src/subsetEigen.cpp:50-58 `getMatrixSubset`, and 76-84 `getSparseMatrixSubset` (the sparse
matrix is taken as the matrix it represents; `coeff` outside it is undefined as well). -/
def getMatrixSubset {α : Type} {n m : ℕ} (a : Matrix (Fin n) (Fin n) α) (s : Fin m → ℕ) :
    Res (Matrix (Fin m) (Fin m) α) :=
  if h : InRange n s then Except.ok (Matrix.of fun k l => a ⟨s k, h k⟩ ⟨s l, h l⟩) else Res.ub

/-- `target(i) = x`, unchecked. Used for src/subsetEigen.cpp:60-65. -/
def writeAt {α : Type} {n : ℕ} (target : Fin n → α) (i : ℕ) (x : α) : Res (Fin n → α) :=
  if h : i < n then Except.ok (Function.update target ⟨i, h⟩ x) else Res.ub

/-- src/subsetEigen.cpp:60-65 `setVectorSubset`: the assignments in order. -/
def setVectorSubset {α : Type} {n m : ℕ} (target : Fin n → α) (source : Fin m → α)
    (s : Fin m → ℕ) : Res (Fin n → α) :=
  (List.finRange m).foldlM (fun t k => writeAt t (s k) (source k)) target

/-- src/subsetEigen.cpp:68-74 `setMatrixSubset`, inner loop for row `k`: the row `subset[k]` of
the target is changed at the positions of the subset. (For an empty subset nothing is done; a row
number out of range is undefined as soon as one element is written, which happens since the
subset then has an element.) -/
def setMatrixRow {α : Type} {n m : ℕ} (source : Matrix (Fin m) (Fin m) α) (s : Fin m → ℕ)
    (t : Fin n → Fin n → α) (k : Fin m) : Res (Fin n → Fin n → α) :=
  if h : s k < n then do
    let row ← setVectorSubset (t ⟨s k, h⟩) (fun l => source k l) s
    return Function.update t ⟨s k, h⟩ row
  else Res.ub

/-- src/subsetEigen.cpp:68-74 `setMatrixSubset`. -/
def setMatrixSubset {α : Type} {n m : ℕ} (target : Matrix (Fin n) (Fin n) α)
    (source : Matrix (Fin m) (Fin m) α) (s : Fin m → ℕ) : Res (Matrix (Fin n) (Fin n) α) := do
  let t ← (List.finRange m).foldlM (setMatrixRow source s) (fun i j => target i j)
  return Matrix.of t

end Verif.Eigen
