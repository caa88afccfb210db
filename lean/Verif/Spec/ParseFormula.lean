import Verif.Model.ParseFormula

/-!
# Specification of the model frame
-/
namespace Verif.ParseFormula.Spec

open Verif.ParseFormula

/-- The value of a variable of a formula: that in the data, or if there is none the one in the
environment of the formula. -/
def Means (env : String → Option (List ℝ)) (d : Data) (x : String) (v : List ℝ) : Prop :=
  (x, v) ∈ d.cols ∨ x ∉ d.cols.map Prod.fst ∧ env x = some v

/-- A data frame with `n` rows, or any list. -/
def Rows : Data → ℕ → Prop
  | .frame m c, n => m = n ∧ ∀ e ∈ c, e.2.length = n
  | .list _, _ => True

/-- A data frame. -/
def IsFrame : Data → Prop
  | .frame _ _ => True
  | .list _ => False

/-- Data in which the variables of a formula have values for `n` observations. The variables of a data
frame have to be in the data frame. -/
structure Covers (env : String → Option (List ℝ)) (d : Data) (f : Formula) (n : ℕ) : Prop where
  nodup : (d.cols.map Prod.fst).Nodup
  rows : Rows d n
  frame : IsFrame d → ∀ x ∈ f.vars, x ∈ d.cols.map Prod.fst
  vars : ∀ x ∈ f.vars, ∃ v, Means env d x v ∧ v.length = n
  some : f.vars ≠ []

/-- The frame has the variables of the formula with their values, and the weights and the offset
given. -/
structure Right (env : String → Option (List ℝ)) (d : Data) (f : Formula)
    (weights off : Option (List ℝ)) (fr : Fr) : Prop where
  names : fr.vars.map Prod.fst = f.vars
  values : ∀ c ∈ fr.vars, Means env d c.1 c.2
  weights : fr.weights = weights
  offset : fr.offset = off

end Verif.ParseFormula.Spec
