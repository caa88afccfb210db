import Verif.Base.Res
import Mathlib.Data.Real.Basic

/-!
# Variables, weights and offset of a model frame: R/model_frames.R:3-91

Columns are numeric. The terms of the formula are not modelled, only the names of its variables
(`all.vars`) and whether it has random effects (`has_re`). What `stats::model.frame` does with the
expressions given for weights and offset is modelled as documented in R: they are evaluated in the data
and then in the environment of the formula.
-/
namespace Verif.ParseFormula

open Verif

/-- Columns with their names. Used for R/model_frames.R:5-6. -/
abbrev Cols := List (String × List ℝ)

/-- The first column of that name. Used for R/model_frames.R:5-6. -/
def col (d : Cols) (x : String) : Option (List ℝ) := (d.find? fun c => c.1 = x).map Prod.snd

/-- The argument `data`: a data frame with its number of rows and its columns, or a list.
Used for R/model_frames.R:5-6. -/
inductive Data
  | frame (nrow : ℕ) (cols : Cols)
  | list (cols : Cols)

/-- The columns of a data frame, the elements of a list. Used for R/model_frames.R:5-6. -/
def Data.cols : Data → Cols
  | .frame _ c => c
  | .list c => c

/-- R/model_frames.R:5-6 `data[all.vars(formula)]`. For a list the elements that are not there become
`NULL` with a missing name, which has no effect later. -/
def select (d : Data) (vars : List String) : Res Data :=
  match d with
  | .frame n c => do
    let cols ← vars.mapM fun x => match col c x with
      | some v => Except.ok (x, v)
      | none => Res.raise "undefined columns selected"
    pure (.frame n cols)
  | .list c => pure (.list (vars.filterMap fun x => (col c x).map fun v => (x, v)))

/-- `rep(v, length.out = n)`. Used for R/model_frames.R:43. -/
noncomputable def recycle (v : List ℝ) (n : ℕ) : List ℝ :=
  (List.range n).map fun i => v.getD (i % v.length) 0

/-- `x[[name]] <- v`: the column is replaced, or added at the end. Used for R/model_frames.R:43. -/
def put (d : Cols) (x : String) (v : List ℝ) : Cols :=
  if d.any fun c => c.1 = x then d.map fun c => if c.1 = x then (x, v) else c else d ++ [(x, v)]

/-- `data$name <- v`, as used at R/model_frames.R:43, 49, 55 and 56. For a data frame
(`$<-.data.frame`) a column that is too short is recycled if its length divides the number of rows. -/
noncomputable def assign (d : Data) (x : String) (v : List ℝ) : Res Data :=
  match d with
  | .frame n c =>
    if v.length = n then pure (.frame n (put c x v))
    else if 0 < v.length ∧ v.length < n ∧ n % v.length = 0 then pure (.frame n (put c x (recycle v n)))
    else Res.raise "replacement has different number of rows"
  | .list c => pure (.list (put c x v))

/-- A formula: its variables and whether it has random effects. Used for R/model_frames.R:3-70. -/
structure Formula where
  vars : List String
  hasRe : Bool

/-- The family argument: a name, a function that returns a family, or a family. Of a family only the
name is needed here. Used for R/model_frames.R:7-10. -/
inductive FamArg
  | name (s : String)
  | fn (family : String)
  | obj (family : String)

/-- R/model_frames.R:7-10. `get` is the search for a function of that name. -/
def family (get : String → Option FamArg) (f : FamArg) : Res String := do
  let f ← match f with
    | .name s => match get s with
      | some g => Except.ok g
      | none => Res.raise "object of mode 'function' was not found"
    | f => Except.ok f
  match f with
    | .fn s => pure s
    | .obj s => pure s
    | .name _ => Res.raise "$ operator is invalid for atomic vectors"

/-- The model frame: the variables of the formula, and the values given for weights and offset.
Used for R/model_frames.R:3-70. -/
structure Fr where
  vars : Cols
  weights : Option (List ℝ)
  offset : Option (List ℝ)

/-- The value of a symbol: in the data, then in the environment of the formula.
Used for R/model_frames.R:3-70. -/
def value (env : String → Option (List ℝ)) (d : Cols) (x : String) : Res (List ℝ) :=
  match col d x with
  | some v => Except.ok v
  | none => match env x with
    | some v => Except.ok v
    | none => Res.raise "object not found"

/-- The value of an extra argument of `model.frame`, if there is one.
Used for R/model_frames.R:3-70. -/
def extra (env : String → Option (List ℝ)) (d : Cols) : Option String → Res (Option (List ℝ))
  | some x => do
    let v ← value env d x
    pure (some v)
  | none => pure none

/-- `stats::model.frame`: the variables, then the extra arguments, all of the same length (that of the
first variable). Used for R/model_frames.R:3-70. -/
noncomputable def modelFrame (env : String → Option (List ℝ)) (d : Data) (vars : List String)
    (weights offset : Option String) : Res Fr := do
  let vs ← vars.mapM fun x => do
    let v ← value env d.cols x
    pure (x, v)
  let w ← extra env d.cols weights
  let o ← extra env d.cols offset
  let all := vs.map Prod.snd ++ w.toList ++ o.toList
  if all.all fun v => v.length = (all.headD []).length then pure ⟨vs, w, o⟩
  else Res.raise "variable lengths differ"

/-- What R and lme4 find outside the arguments: functions by name, the environment of the formula as
`glm` sees it, and as `lme4::glFormula` has left it when it calls `model.frame`.
Used for R/model_frames.R:3-70. -/
structure Outside where
  get : String → Option FamArg
  env : String → Option (List ℝ)
  reEnv : String → Option (List ℝ)

/-- R/model_frames.R:3-70 `parse_formula`, the component `fr` of the result. The arguments `weights` and
`off` are passed on as the symbols `weights` and `off` (lines 20, 25, 30-31, 45, 52, 59). -/
noncomputable def parseFormula (out : Outside) (formula : Formula) (data : Data) (fam : FamArg)
    (weights off : Option (List ℝ)) : Res Fr := do
  let dataVars ← select data formula.vars
  let fam ← family out.get fam
  if formula.hasRe then
    if fam = "gaussian" then Res.raise "glmmsr can't yet handle family = gaussian"
    else match weights, off with
      | none, none => modelFrame out.reEnv dataVars formula.vars none none
      | none, some _ => modelFrame out.reEnv dataVars formula.vars none (some "off")
      | some _, none => modelFrame out.reEnv dataVars formula.vars (some "weights") none
      | some _, some _ => modelFrame out.reEnv dataVars formula.vars (some "weights") (some "off")
  else match weights, off with
    | none, none => modelFrame out.env dataVars formula.vars none none
    | none, some o => do
      let d ← assign dataVars "off" o
      modelFrame out.env d formula.vars none (some "off")
    | some w, none => do
      let d ← assign dataVars "weights" w
      modelFrame out.env d formula.vars (some "weights") none
    | some w, some o => do
      let d ← assign dataVars "off" o
      let d ← assign d "weights" w
      modelFrame out.env d formula.vars (some "weights") (some "off")

end Verif.ParseFormula
