import Verif.Base.Res
import Mathlib.Data.Nat.Notation

/-!
# Model of `subset_dim`, R/utility.R

The function writes an R expression as text and evaluates it. The text is a list of tokens (spaces are
left out), its evaluation is the subset operator of R: the arguments are separated by commas, an empty
argument keeps a dimension. Indices are positive numbers; positions are counted from 0 in the model.
-/
namespace Verif.SubsetDim

/-- A vector, or an array with dimensions; the elements of an array are a function of the position.
Used for R/utility.R:17-39. -/
inductive RObj (α : Type) : Type
  | vec (v : List α)
  | arr (dim : List ℕ) (get : List ℕ → α)

/-- Tokens inside the brackets. Used for R/utility.R:26-30. -/
inductive Tok : Type
  | comma
  | indices
  | dropFalse
  deriving DecidableEq

/-- R/utility.R:26-30 `commas_before`; `character(0)` is pasted as the empty text. -/
def commasBefore (i : ℕ) : List Tok := if i > 1 then List.replicate (i - 1) .comma else []

/-- R/utility.R:31-35 `commas_after`. -/
def commasAfter (d i : ℕ) : List Tok := if i < d then List.replicate (d - i) .comma else []

/-- R/utility.R:36-37 `expr_text`, between the brackets. -/
def exprText (d i : ℕ) : List Tok :=
  commasBefore i ++ [.indices] ++ commasAfter d i ++ [.comma, .dropFalse]

/-- The arguments of the subset operator: the tokens between the commas.
Used for R/utility.R:17-39. -/
def arguments : List Tok → List (List Tok)
  | [] => [[]]
  | .comma :: l => [] :: arguments l
  | t :: l => match arguments l with
    | [] => [[t]]
    | a :: as => (t :: a) :: as

/-- One dimension of extent `n`: the positions (from 0) that an argument selects.
Used for R/utility.R:17-39. -/
def positions (indices : List ℕ) (arg : List Tok) (n : ℕ) : Res (List ℕ) :=
  if arg = [] then Except.ok (List.range n)
  else if arg = [.indices] then
    if indices.all fun k => 1 ≤ k ∧ k ≤ n then Except.ok (indices.map (· - 1))
    else Res.raise "subscript out of bounds"
  else Res.raise "not modelled"

/-- The positions selected in all dimensions. Used for R/utility.R:17-39. -/
def allPositions (indices : List ℕ) : List (List Tok) → List ℕ → Res (List (List ℕ))
  | [], [] => Except.ok []
  | a :: as, n :: ns => do
    let p ← positions indices a n
    let ps ← allPositions indices as ns
    return p :: ps
  | _, _ => Res.raise "incorrect number of dimensions"

/-- The subset operator of R for arrays, `x[..., drop = FALSE]`. Used for R/utility.R:17-39. -/
def bracket {α : Type} (dim : List ℕ) (get : List ℕ → α) (indices : List ℕ) (text : List Tok) :
    Res (RObj α) :=
  let args := (arguments text).dropLast
  if (arguments text).getLast? ≠ some [.dropFalse] then Res.raise "not modelled" else do
  let ps ← allPositions indices args dim
  return .arr (ps.map List.length) fun js => get (List.zipWith (fun p j => p.getD j 0) ps js)

/-- R/utility.R:17-39 `subset_dim`. The elements of a vector beyond its end are missing (`none`). -/
def subsetDim {α : Type} (x : RObj α) (i : ℕ) (indices : List ℕ) : Res (RObj (Option α)) :=
  match x with
  | .vec v =>
    if i = 1 then Except.ok (.vec (indices.map fun k => v[k - 1]?))
    else if 0 < i then Res.raise s!"Array does not have dimension {i}"
    else Except.ok (.vec (indices.map fun k => v[k - 1]?))
  | .arr dim get =>
    let d := dim.length
    if d < i then Res.raise s!"Array does not have dimension {i}"
    else bracket dim (fun js => some (get js)) indices (exprText d i)

end Verif.SubsetDim
