import Verif.Model.Indices

/-!
# Model of `R/subformula.R`: from a formula with `Sub(.)` terms to a model frame

What R and `lme4` do is left open: the terms of a formula come from `terms`, the frame of the formula
without `Sub(.)` terms from `parse_formula`, the frames of subformulas from `parse_subformula`.
-/
namespace Verif.SubExpr

open Verif.Frames

/-! ## `split_formula` -/

/-- A term without `Sub(.)`: an ordinary term, or sums separated by `|` (at least two sums), as
`1 + x | g`, the text of a random effect without its brackets. Used for R/subformula.R:22. -/
inductive Rest where
  | plain (s : String)
  | bars (segs : List (List String))

/-- A term of a formula: without `Sub(.)`, exactly one `Sub(.)`, or an interaction in which `Sub(.)`
occurs. Used for R/subformula.R:1-3. -/
inductive TermLabel where
  | rest (r : Rest)
  | sub (e : Expr)
  | mixed

/-- A formula, as `terms` gives it: with or without intercept, and its terms.
Used for R/subformula.R:10-35. -/
structure TermsObj where
  intercept : Bool
  labels : List TermLabel

/-- The formula without `Sub(.)` terms. Used for R/subformula.R:10-35. -/
structure RestObj where
  intercept : Bool
  labels : List Rest

/-- The text of the terms joined by `+` and parsed again: `|` binds less than `+`, so that the result
is sums separated by `|`. Used for R/subformula.R:22. -/
def segments : List Rest → List (List String)
  | [] => [[]]
  | .plain s :: l => match segments l with
    | [] => [[s]]
    | x :: xs => (s :: x) :: xs
  | .bars segs :: l => match segs.reverse, segments l with
    | r :: ls, x :: xs => ls.reverse ++ (r ++ x) :: xs
    | [], xs => xs
    | _, [] => segs

/-- R/subformula.R:22 `drop.terms`, which is base R's `reformulate(labels[-dropped], ...)`: a formula
made from the joined text of the labels. One sum gives its terms, several sums are one term. -/
def reformulate (l : List Rest) : List Rest := match segments l with
  | [s] => s.map .plain
  | segs => [.bars segs]

/-- The terms without `Sub(.)`. Used for R/subformula.R:10-35. -/
def restLabels (l : List TermLabel) : List Rest := l.filterMap fun t => match t with
  | .rest r => some r
  | _ => none

/-- R/subformula.R:1-3 `find_subexpr` for the terms with `Sub(.)`: of an interaction the text is not
an expression. -/
def subLabels : List TermLabel → Res (List Expr)
  | [] => Except.ok []
  | .rest _ :: l => subLabels l
  | .sub e :: l => do
    let es ← subLabels l
    return e :: es
  | .mixed :: _ => Res.raise "unexpected ')'"

/-- R/subformula.R:10-35 `split_formula`. `fixFormulaObject` (R/utility.R:42-65) puts the brackets
around terms with `|` back and changes nothing else. Offsets in the formula are not modelled. -/
def splitFormula (tf : TermsObj) : Res (RestObj × List Expr) :=
  let rest := restLabels tf.labels
  if rest.length = tf.labels.length then Except.ok (⟨tf.intercept, rest⟩, [])
  else do
    let subexprs ← subLabels tf.labels
    if tf.labels.length > tf.labels.length - rest.length then
      return (⟨false, reformulate rest⟩, subexprs)
    else return (⟨false, []⟩, subexprs)

/-! ## `find_subvar` -/

mutual
/-- R/subformula.R:38-52 `drop_index`. -/
def dropIndex : Expr → Expr
  | .name s => .name s
  | .lit l => .lit l
  | .call [] => .call []
  | .call (h :: []) => .call [dropIndex h]
  | .call (h :: a :: rest) =>
    if isName h "[" then dropIndex a else .call (dropIndex h :: dropIndex a :: dropIndexList rest)

/-- R/subformula.R:45 `lapply(x, drop_index)`. -/
def dropIndexList : List Expr → List Expr
  | [] => []
  | x :: xs => dropIndex x :: dropIndexList xs
end

/-- R/subformula.R:54-68 `find_subvar`. -/
def findSubvar (subform : Expr) : Res String :=
  match subform with
  | .call [_, lhs, _] => match dropIndex lhs with
    | .name s => Except.ok s
    | _ => Res.raise "Should have only a single variable on LHS of subformula"
  | _ => Res.raise "not a formula with two sides"

/-! ## `find_modfr_glmm` -/

/-- R/subformula.R:180-181 one element of the list of `Sub(.)` frames. -/
noncomputable def parseMatched (host : Host) (text : ℝ → String)
    (frame : Expr → List (String × Idx) → Data → Res Frame) (data : Data)
    (s : Expr × Option (String × Expr)) : Res Val :=
  match s.2 with
  | none => Res.raise "argument is of length zero"
  | some p => parseSubAll host text frame p.1 s.1 p.2 data

/-- The parts of a model frame that `concatenate_frames` uses; of anything else `$` is an error.
Used for R/subformula.R:161-190. -/
def asFrame : Val → Res Frame
  | .frame f => Except.ok f
  | _ => Res.raise "$ operator is invalid for atomic vectors"

/-- R/subformula.R:161-190 `find_modfr_glmm`, after the splitting of the formula; `modfr_no_sub` is
the frame of the formula without `Sub(.)` terms. -/
noncomputable def findModfr (host : Host) (text : ℝ → String)
    (frame : Expr → List (String × Idx) → Data → Res Frame) (modfr_no_sub : Frame)
    (subforms subexprs : List Expr) (data : Data) : Res Frame :=
  if subexprs.length = 0 then Except.ok modfr_no_sub
  else do
    let subvars ← subforms.mapM findSubvar
    let subs ← matchSub subvars subexprs
    let modfr_list ← (subforms.zip subs).mapM (parseMatched host text frame data)
    let frames ← modfr_list.mapM asFrame
    attachSubframes modfr_no_sub frames

end Verif.SubExpr
