import Verif.Model.Summary

/-!
# Model of the names and of the table of the random effects, `R/glmmFit.R`

Of the model frame only the names and sizes are needed. `NA` is `none`. The text that is printed is not
modelled, only the table and the pairs it shows.
-/
namespace Verif.Print

open Verif.IS Verif.Fit

/-- The parts of `modfr$reTrms` that are used: the grouping factor and the variables of each term
(`cnms`), the number of variance parameters, and the numbers of levels of the grouping factors
(`flist`). Used for R/glmmFit.R:69. -/
structure ReNames where
  cnms : List (String × List String)
  nTheta : ℕ
  nlevels : List ℕ

/-- R/glmmFit.R:69 and 132 `names(cnms)`. -/
def groupNames (R : ReNames) : List String := R.cnms.map Prod.fst

/-- R/glmmFit.R:70, 133 and 169 `unlist(unname(cnms))`. -/
def namesTheta (R : ReNames) : List String := R.cnms.flatMap Prod.snd

/-- A column of `data.frame` with `nr` rows: a shorter one is repeated if its length divides `nr`.
Used for R/glmmFit.R:132-142. -/
def recycle {α : Type} (nr : ℕ) (x : List α) : Res (List α) :=
  if x.length = nr then Except.ok x
  else if 0 < x.length ∧ nr % x.length = 0 then
    Except.ok ((List.replicate (nr / x.length) x).flatten)
  else Res.raise "arguments imply differing number of rows"

/-- A row of the table of the random effects. Used for R/glmmFit.R:132-142. -/
structure ReRow where
  group : String
  name : String
  estimate : Option ℝ
  stdError : Option ℝ

/-- The rows of a data frame of four columns: the number of rows is the greatest of the lengths.
Used for R/glmmFit.R:132-142. -/
def dataFrame (groups names : List String) (estim se : List (Option ℝ)) : Res (List ReRow) := do
  let nr := max (max groups.length names.length) (max estim.length se.length)
  let groups ← recycle nr groups
  let names ← recycle nr names
  let estim ← recycle nr estim
  let se ← recycle nr se
  return (List.range nr).map fun i =>
    ⟨groups.getD i "", names.getD i "", estim.getD i none, se.getD i none⟩

/-- R/glmmFit.R:132-142: the table of the random effects that `print.summaryGlmmFit` shows. The table of
`print.glmmFit` (R/glmmFit.R:69-79) has the same columns without the standard errors. -/
def randomTable (R : ReNames) (x : Summary) : Res (List ReRow) :=
  let estim_random := index x.fit.estim (colon 1 R.nTheta)
  let se_random := indexNa x.se (colon 1 R.nTheta)
  dataFrame (groupNames R) (namesTheta R) estim_random se_random

/-- `x[i]`: nothing for `i = 0`, `NA` beyond the end. Used for R/glmmFit.R:83-90. -/
def pick {α : Type} (x : List α) (i : ℕ) : List (Option α) := if i = 0 then [] else [x[i - 1]?]

/-- R/glmmFit.R:83-90 and 144-151: what is shown for each group, its name and its number of levels. -/
def groupLine (R : ReNames) : List (List (Option String) × List (Option ℕ)) :=
  (colon 1 (groupNames R).length).map fun i => (pick (groupNames R) i, pick R.nlevels i)

/-- `names(x) <- v` for a vector of length `n`: missing names are `NA`, too many are an error.
Used for R/glmmFit.R:166-174. -/
def setNames (n : ℕ) (v : List String) : Res (List (Option String)) :=
  if n < v.length then Res.raise "'names' attribute must be the same length as the vector"
  else Except.ok ((List.range n).map fun i => v[i]?)

/-- The names of `coef_random.glmmFit` (R/glmmFit.R:166-174). -/
def coefRandomNames (R : ReNames) (estim : List ℝ) : Res (List (Option String)) :=
  setNames (coefRandom estim R.nTheta).length ((namesTheta R).map fun s => "RE" ++ s)

/-- The names of `coef_fixed.glmmFit` (R/glmmFit.R:176-187); `names_beta` are the names of the columns of
`X`. -/
def coefFixedNames (R : ReNames) (names_beta : List String) (estim : List ℝ) :
    Res (List (Option String)) :=
  setNames (coefFixed estim R.nTheta names_beta.length).length names_beta

/-- The names of `coef.glmmFit` (R/glmmFit.R:197-199), which are also those of the rows and columns of
`vcov.glmmFit` (R/glmmFit.R:209-215). -/
def coefNames (R : ReNames) (names_beta : List String) (estim : List ℝ) :
    Res (List (Option String)) := do
  let a ← coefRandomNames R estim
  let b ← coefFixedNames R names_beta estim
  return a ++ b

/-- R/glmmFit.R:25-32 `find_approximation_name`; the number is that of the option of the method in
`control`. -/
def findApproximationName (method : String) (control : String → String) : Res String :=
  if method = "Laplace" then Except.ok ("Laplace approximation, order  " ++ control "order")
  else if method = "AGQ" then
    Except.ok ("Adaptive Gaussian Quadrature with " ++ control "nAGQ" ++ " points (lme4)")
  else if method = "SR" then Except.ok ("Sequential reduction at level " ++ control "nSL")
  else if method = "IS" then Except.ok ("Importance sampling with " ++ control "nIS" ++ " samples")
  else Res.raise ""

end Verif.Print
