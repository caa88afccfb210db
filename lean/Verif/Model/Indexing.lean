import Verif.Model.Frames
import Mathlib.Algebra.BigOperators.Group.Finset.Basic

/-!
# Model of the index flattening of `R/indexing.R`
-/
namespace Verif.Indexing

open Verif.Frames Finset

/-- `cumprod`, starting from the product `acc` of the previous elements. Used for R/indexing.R:179. -/
def cumprod (acc : ℕ) : List ℕ → List ℕ
  | [] => []
  | l :: ls => acc * l :: cumprod (acc * l) ls

/-- R/indexing.R:179 `h <- c(1, cumprod(l)[-length(l)])`. -/
def strides (l : List ℕ) : List ℕ := 1 :: (cumprod 1 l).dropLast

/-- R/indexing.R:177-181 `multi_to_flat`; `l` are the lengths of the index vectors (line 178). The
columns of `multi_id` are the tuples; `(multi_id-1)*h` recycles `h` along the columns. -/
noncomputable def multiToFlat (multi_id : Mat) (l : List ℕ) : Res (List ℝ) := do
  let s ← Mat.scale ⟨multi_id.nrow, multi_id.ncol, fun i j => multi_id.e i j - 1⟩
    ((strides l).map fun x : ℕ => (x : ℝ))
  return (List.range multi_id.ncol).map fun j => 1 + ∑ i ∈ range multi_id.nrow, s.e i j

/-- R/indexing.R:184 `Reduce(rbind, ...)` of at least two vectors (of one vector it is that vector,
for which `colSums` fails). Vectors of different lengths, which `rbind` would recycle, are not
modelled. -/
def rbindVectors (vs : List (List ℝ)) : Res Mat :=
  match vs with
  | v :: w :: rest =>
    if (w :: rest).all (fun x => x.length = v.length) then
      Except.ok ⟨vs.length, v.length, fun i j => (vs.getD i []).getD j 0⟩
    else Res.raise "vectors of different lengths: not modelled"
  | _ => Res.raise "'x' must be an array of at least two dimensions"

/-- R/indexing.R:183-186 `flatten_vars`, given the numeric values of the variables. -/
noncomputable def flattenVars (vars : List (List ℝ)) (l : List ℕ) : Res (List ℝ) := do
  let multi_id ← rbindVectors vars
  multiToFlat multi_id l

end Verif.Indexing
