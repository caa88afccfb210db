import Verif.Model.ModFr

/-!
# Model of `matrix_indexing` and `flatten_formula` (`R/indexing.R:137-174`)

With several indices the subformula is evaluated in the data frame `expand.grid(indices)`, one row for
each combination of the indices. Its covariates `x[i, j]` are rewritten to `x[cbind(i, j)]`. To say what
this means, this file also has the part of R's evaluation that concerns indexing: vectors and arrays of
numbers, `[` with one or several indices, `cbind`. All other functions are parameters. Missing values,
negative and zero indices, argument names (`drop = FALSE`) and factors other than by their codes are
not modelled.
-/
namespace Verif.Flatten

open Verif.SubExpr

mutual
/-- R/indexing.R:137-155 `matrix_indexing`. The elements of a call with several indices are not
looked into. -/
def matrixIndexing : Expr → Expr
  | .name s => .name s
  | .lit l => .lit l
  | .call (h :: a :: i :: j :: rest) =>
    if isName h "[" then .call [h, a, .call (.name "cbind" :: i :: j :: rest)]
    else .call (matrixIndexing h :: matrixIndexing a :: matrixIndexing i :: matrixIndexing j ::
      matrixIndexingList rest)
  | .call [h, a, i] => .call [matrixIndexing h, matrixIndexing a, matrixIndexing i]
  | .call [h, a] => .call [matrixIndexing h, matrixIndexing a]
  | .call [h] => .call [matrixIndexing h]
  | .call [] => .call []

/-- R/indexing.R:147 `lapply(x, matrix_indexing, ...)`. -/
def matrixIndexingList : List Expr → List Expr
  | [] => []
  | x :: xs => matrixIndexing x :: matrixIndexingList xs
end

/-- R/indexing.R:157-174 `flatten_formula`; `d` is the number of indices (`length(indices)`). -/
def flattenFormula (formula : Expr) (d : ℕ) : Res Expr := do
  let lhs_var ← findSubvar formula
  match formula with
  | .call [h, _, rhs] =>
    let formula_flat := Expr.call [h, .name lhs_var, rhs]
    return if d > 1 then matrixIndexing formula_flat else formula_flat
  | _ => Res.raise "not a formula with two sides"

/-! ## R -/

/-- A vector, or an array with its dimensions and elements (the first index varies fastest).
Used for R/indexing.R:137-155. -/
inductive RVal where
  | vec (v : List ℝ)
  | arr (dims : List ℕ) (data : List ℝ)

/-- Variables. Used for R/subformula.R:154. -/
abbrev REnv := String → Option RVal

/-- The elements in order. Used for R/indexing.R:137-155. -/
def RVal.data : RVal → List ℝ
  | .vec v => v
  | .arr _ v => v

open Classical in
/-- An index: a positive whole number. Used for R/subformula.R:154. -/
noncomputable def toIndex (x : ℝ) : Res ℕ :=
  if h : ∃ k : ℕ, 1 ≤ k ∧ x = k then Except.ok h.choose else Res.raise "index: not modelled"

/-- Element number `k` (from 1). Used for R/subformula.R:154. -/
def element (v : List ℝ) (k : ℕ) : Res ℝ :=
  match v[k - 1]? with
  | some x => Except.ok x
  | none => Res.raise "NA: not modelled"

/-- Position (from 0) of an element of an array; stops for subscripts out of bounds.
Used for R/subformula.R:154. -/
def offset : List ℕ → List ℕ → Res ℕ
  | [], [] => Except.ok 0
  | d :: dims, k :: ks =>
    if k ≤ d then do
      let r ← offset dims ks
      return (k - 1) + d * r
    else Res.raise "subscript out of bounds"
  | _, _ => Res.raise "incorrect number of subscripts"

/-- The element of an array for given indices. Used for R/subformula.R:154. -/
noncomputable def elementAt (dims : List ℕ) (data : List ℝ) (is : List ℝ) : Res ℝ := do
  let ks ← is.mapM toIndex
  let r ← offset dims ks
  element data (r + 1)

/-- `x[w]` with one vector of indices. Used for R/subformula.R:154. -/
noncomputable def pickLinear (x w : List ℝ) : Res RVal := do
  let v ← w.mapM fun i => do
    let k ← toIndex i
    element x k
  return .vec v

/-- `x[i]`. A matrix with a column for each dimension of `x` has the indices of single elements in its
rows; of other matrices and arrays the elements are taken as one vector.
Used for R/subformula.R:154. -/
noncomputable def pick (x i : RVal) : Res RVal :=
  match x, i with
  | .arr dims data, .arr [m, c] w =>
    if c = dims.length then do
      let v ← (List.range m).mapM fun t =>
        elementAt dims data ((List.range c).map fun k => w.getD (t + m * k) 0)
      return .vec v
    else pickLinear data w
  | x, i => pickLinear x.data i.data

/-- All combinations of elements, the first varying fastest. Used for R/subformula.R:154. -/
def combos : List (List ℝ) → List (List ℝ)
  | [] => [[]]
  | v :: vs => (combos vs).flatMap fun t => v.map fun a => a :: t

/-- Dimensions other than 1 are kept; an array with fewer than two dimensions is a vector.
Used for R/subformula.R:154. -/
def dropDims (dims : List ℕ) (data : List ℝ) : RVal :=
  match dims.filter (· ≠ 1) with
  | d :: e :: rest => .arr (d :: e :: rest) data
  | _ => .vec data

/-- `x[i, j, ...]`: all combinations of the indices. Used for R/subformula.R:154. -/
noncomputable def pickAll (x : RVal) (is : List RVal) : Res RVal :=
  match x with
  | .arr dims data => do
    let v ← (combos (is.map RVal.data)).mapM (elementAt dims data)
    return dropDims (is.map fun i => i.data.length) v
  | .vec _ => Res.raise "incorrect number of dimensions"

/-- Number of rows of a matrix. Used for R/indexing.R:137-155. -/
def matrixRows : RVal → Option ℕ
  | .arr [m, _] _ => some m
  | _ => none

/-- Number of rows of `cbind`: that of a matrix, or the length of the longest vector.
Used for R/indexing.R:137-155. -/
def rowsOf (args : List RVal) : ℕ :=
  match args.filterMap matrixRows with
  | m :: _ => m
  | [] => (args.map fun a => a.data.length).foldr max 0

/-- What an argument adds to `cbind`; vectors are recycled. Used for R/indexing.R:137-155. -/
def columnOf (rows : ℕ) : RVal → Res (List ℝ)
  | .vec v => Except.ok ((List.range rows).map fun t => v.getD (t % v.length) 0)
  | .arr [m, _] w => if m = rows then Except.ok w else Res.raise "number of rows of matrices must match"
  | .arr _ _ => Res.raise "cbind of an array: not modelled"

/-- Number of columns that an argument adds. Used for R/indexing.R:137-155. -/
def columnsOf : RVal → ℕ
  | .arr [_, c] _ => c
  | _ => 1

/-- `cbind`. Vectors of length 0 are not modelled. Used for R/indexing.R:137-155. -/
def cbind (args : List RVal) : Res RVal := do
  let cols ← args.mapM (columnOf (rowsOf args))
  return .arr [rowsOf args, (args.map columnsOf).sum] cols.flatten

mutual
/-- Evaluation of an expression in R; `fn` are the functions other than `[` and `cbind`.
Used for R/subformula.R:154. -/
noncomputable def eval (fn : String → List RVal → Res RVal) (env : REnv) : Expr → Res RVal
  | .name s => match env s with
    | some v => Except.ok v
    | none => Res.raise "object not found"
  | .lit (.num x) => Except.ok (.vec [x])
  | .lit _ => Res.raise "not modelled"
  | .call [] => Res.raise "not modelled"
  | .call (h :: args) => do
    let vs ← evalList fn env args
    if isName h "[" then
      match vs with
      | [x, i] => pick x i
      | x :: i :: j :: rest => pickAll x (i :: j :: rest)
      | _ => Res.raise "not modelled"
    else if isName h "cbind" then cbind vs
    else match h with
      | .name f => fn f vs
      | _ => Res.raise "not modelled"

/-- Evaluation of the arguments. Used for R/subformula.R:154. -/
noncomputable def evalList (fn : String → List RVal → Res RVal) (env : REnv) :
    List Expr → Res (List RVal)
  | [] => Except.ok []
  | x :: xs => do
    let v ← eval fn env x
    let vs ← evalList fn env xs
    return v :: vs
end

end Verif.Flatten
