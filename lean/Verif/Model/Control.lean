import Verif.Base.Res
import Mathlib.Analysis.SpecialFunctions.Pow.Real

/-!
# Model of `R/control.R`

R values in a control list are numbers, logicals or anything else; what arithmetic does with
anything else is a parameter (`Ops`).
-/
namespace Verif.Control

/-- Values in a control list. Used for R/control.R:69. -/
inductive Val
  | num (x : ℝ)
  | bool (b : Bool)
  | other (k : ℕ)

/-- Evaluation of `2^(v + 1) - 1` (R/control.R:69) and of the condition `v > 1` (R/control.R:74) for
values that are not numbers: a value or an error. -/
structure Ops where
  quad : Val → Res Val
  gt1 : Val → Res Bool

/-- R/control.R:69, the expression `2^(con$nSL + 1) - 1`. -/
noncomputable def quad (ops : Ops) : Val → Res Val
  | .num x => Except.ok (.num ((2 : ℝ) ^ (x + 1) - 1))
  | v => ops.quad v

open Classical in
/-- R/control.R:74, the condition `con$order > 1`. -/
noncomputable def gt1 (ops : Ops) : Val → Res Bool
  | .num x => Except.ok (decide (x > 1))
  | v => ops.gt1 v

/-- A named R list. Used for R/control.R:67. -/
abbrev RList := List (String × Val)

/-- The argument `control`: a list without names, or one with names (`""` where missing).
Used for R/control.R:67. -/
inductive Arg
  | unnamed (vals : List Val)
  | named (l : RList)

/-- `names(control)`, empty for `NULL`. Used for R/control.R:59-65. -/
def Arg.names : Arg → List String
  | .unnamed _ => []
  | .named l => l.map Prod.fst

/-- `l$name`: exact match, `NULL` if there is none. (Partial matching, which `$` falls back to, is
left out: the names looked up are always present.) Used for R/control.R:68-70. -/
def get (l : RList) (name : String) : Option Val := (l.find? fun e => e.1 == name).map Prod.snd

/-- Assignment to one name: `l$name <- v`, and one step of `l[names] <- values`. An empty name matches
nothing. Used for R/control.R:67. -/
def set : RList → String → Val → RList
  | [], name, v => [(name, v)]
  | e :: rest, name, v =>
    if e.1 = name ∧ name ≠ "" then (name, v) :: rest else e :: set rest name v

/-- R/control.R:67 `con[names(control)] <- control`. With `NULL` names there is nothing to assign. -/
def setAll (con : RList) : Arg → RList
  | .unnamed _ => con
  | .named l => l.foldl (fun con e => set con e.1 e.2) con

/-- The two warnings of R/control.R:59-65. -/
inductive Warning
  | unknown (names : List String)
  | ignored (method : String) (names : List String)

/-- R/control.R:39. -/
noncomputable def conLaplace : RList :=
  [("order", .num 1), ("check_Laplace", .bool false), ("divergence_threshold", .num 0.1)]
/-- R/control.R:40. -/
def conAGQ : RList := [("nAGQ", .num 15)]
/-- R/control.R:41. -/
def conSR : RList := [("nSL", .num 3)]
/-- R/control.R:42. -/
def conIS : RList := [("nIS", .num 1000)]

/-- R/control.R:45-50, the `switch`. -/
noncomputable def defaults (method : String) : Res RList :=
  if method = "Laplace" then Except.ok conLaplace
  else if method = "AGQ" then Except.ok conAGQ
  else if method = "SR" then Except.ok conSR
  else if method = "IS" then Except.ok conIS
  else Res.raise "not recognised"

/-- R/control.R:68-70. -/
noncomputable def finishSR (ops : Ops) (method : String) (con : RList) : Res RList :=
  if method = "SR" then
    match get con "nSL" with
    | some v => do
      let q ← quad ops v
      return set con "nAGQ" q
    | none => Res.raise "argument of length 0"
  else Except.ok con

/-- R/control.R:71-77. -/
noncomputable def finishLaplace (ops : Ops) (method : String) (con : RList) : Res RList :=
  if method ≠ "Laplace" then Except.ok (set con "check_Laplace" (.bool false))
  else
    match get con "order" with
    | some v => do
      let c ← gt1 ops v
      if c then return set con "check_Laplace" (.bool false) else return con
    | none => Res.raise "argument of length 0"

/-- R/control.R:34-80 `find_control_with_defaults`: the options and the warnings. `method` is a
character vector. -/
noncomputable def findControlWithDefaults (ops : Ops) (control : Arg) (method : List String) :
    Res (RList × List Warning) := do
  if method.length = 0 then Res.raise "You must specify which method to use"
  let conTot := conLaplace ++ conAGQ ++ conSR ++ conIS
  let method ← match method with
    | [m] => (Except.ok m : Res String)
    | _ => Res.raise "EXPR must be a length 1 vector"
  let con ← defaults method
  let namesKnown := control.names.filter fun nm => nm ∈ conTot.map Prod.fst
  let namesUnknown := control.names.filter fun nm => ¬ nm ∈ conTot.map Prod.fst
  let namesNotNeeded := namesKnown.filter fun nm => ¬ nm ∈ con.map Prod.fst
  let w1 := if namesUnknown.length > 0 then [Warning.unknown namesUnknown] else []
  let w2 := if namesNotNeeded.length > 0 then [Warning.ignored method namesNotNeeded] else []
  let con := setAll con control
  let con ← finishSR ops method con
  let con ← finishLaplace ops method con
  return (con, w1 ++ w2)

end Verif.Control
