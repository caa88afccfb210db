import Verif.Model.SubExpr

/-!
# Model of the matching of `Sub(.)` terms with subformulas (`R/subformula.R`)

A subformula is represented by the name of its variable (`find_subvar`, R/subformula.R:54-68).
-/
namespace Verif.SubExpr

open Verif.Frames

mutual
/-- R/subformula.R:71-85 `find_vars`; `NULL` is the empty list. -/
def findVars (vars : List String) : Expr → List String
  | .lit _ => []
  | .name x => if vars.contains x then [x] else []
  | .call xs => (findVarsList vars xs).eraseDups

/-- R/subformula.R:81 `unlist(lapply(x, find_vars, vars = vars))`. -/
def findVarsList (vars : List String) : List Expr → List String
  | [] => []
  | x :: xs => findVars vars x ++ findVarsList vars xs
end

/-- `any(n)` for whole numbers, as the number R makes of it in a comparison.
Used for R/subformula.R:101-115. -/
def anyNum (n : List ℕ) : ℕ := if n.any (· ≠ 0) then 1 else 0

/-- R/subformula.R:90 `x[1] == subvar`; of `NULL` this has length 0, which `vapply` does not allow. -/
def firstIs (subvar : String) (vars : List String) : Res Bool :=
  match vars with
  | [] => Res.raise "values must be length 1"
  | v :: _ => Except.ok (v = subvar)

/-- R/subformula.R:87-99 `add_subexpr`: the expression of a subformula, none with a warning. -/
def addSubexpr (subexprs : List Expr) (which_subvars : List (List String)) (subvar : String) :
    Res (Option (String × Expr)) := do
  let first ← which_subvars.mapM (firstIs subvar)
  let which := (subexprs.zip first).filter fun p => p.2
  match which with
  | [] => return none
  | [p] => return some (subvar, p.1)
  | _ => Res.raise "Multiple subexpressions"

/-- R/subformula.R:101-115 `match_subform_subexpr`. -/
def matchSub (subvars : List String) (subexprs : List Expr) :
    Res (List (Option (String × Expr))) :=
  let which_subvars := subexprs.map (findVars subvars)
  let n_subvars := which_subvars.map List.length
  if anyNum n_subvars > 1 then
    Res.raise "Each Sub(.) should only involve a single substituted variable"
  else if anyNum n_subvars = 0 then Res.raise "Each Sub(.) should involve a substituted variable"
  else subvars.mapM (addSubexpr subexprs which_subvars)

/-- R/subformula.R:180-183 the frames of all `Sub(.)` terms: `make` gives the lengths of the indices,
the frame of the subformula and the variables (R/subformula.R:124-137). Without an expression
`parse_sub` stops (`find_dim_sub` gives `NULL`, and `if` of it fails, R/indexing.R:68). -/
noncomputable def subFrames (host : Host) (make : String → List ℕ × Frame × Env)
    (subvars : List String) (subexprs : List Expr) : Res (List Val) := do
  let subs ← matchSub subvars subexprs
  subs.mapM fun s =>
    match s with
    | none => Res.raise "argument is of length zero"
    | some (subvar, subexpr) =>
      parseSub host subvar subexpr (make subvar).1 (make subvar).2.1 (make subvar).2.2

end Verif.SubExpr
