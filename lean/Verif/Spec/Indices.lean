import Verif.Model.Indices
import Verif.Spec.SubExpr

/-!
# Specification: substitution by labels

What a `Sub(.)` expression means when the rows of the subformula are found by the labels of the
indices, not by numbers of rows: `y[a, b]` is, for each observation, the value of `y` in the row of
the subformula whose indices have the labels of `a` and `b` at that observation.
-/
namespace Verif.SubExpr.Spec

open Verif.Frames Verif.Indexing

/-- What an observation says about an index: the level of a factor, or a number. -/
inductive Label where
  | text (s : String)
  | number (x : ℝ)

/-- The label of a variable of the data at observation `k` (from 0). -/
def colLabel : Col → ℕ → Option Label
  | .num v, k => v[k]?.map .number
  | .fac levels codes, k => match codes[k]? with
    | some (some (c + 1)) => levels[c]?.map .text
    | _ => none
  | _, _ => none

/-- Number of observations. -/
def colLength : Col → ℕ
  | .num v => v.length
  | .fac _ codes => codes.length
  | .chr v => v.length
  | _ => 0

/-- The label of element `a` (from 1) of an index of the subformula. -/
def idxLabel : Idx → ℕ → Option Label
  | .fac levels, a => levels[a - 1]?.map .text
  | .seq v, a => v[a - 1]?.map fun n => .number n

/-- The variables `idx` have the labels `L` at observation `k`. -/
def ObsLabels (data : Data) (idx : List String) (k : ℕ) (L : List Label) : Prop :=
  List.Forall₂ (fun s x => ∃ c, data s = some c ∧ colLabel c k = some x) idx L

/-- The row `row` (from 0) of `expand.grid` of the indices has the labels `L`. -/
def RowLabels (ix : List (String × Idx)) (row : ℕ) (L : List Label) : Prop :=
  ∃ t, (Indexing.Spec.grid (ix.map fun p => p.2.length))[row]? = some t ∧
    List.Forall₂ (fun (p : (String × Idx) × ℕ) x => idxLabel p.1.2 p.2 = some x) (ix.zip t) L

/-- The value of an expression linear in the indexed variable `y`, whose values in the rows of the
subformula are `η`. The number 0 is not a label. -/
inductive LabelValue (host : Host) (data : Data) (y : String) (ix : List (String × Idx))
    (η : List ℝ) : Expr → List ℝ → Prop
  | pick {idx : List String} {v : List ℝ} : idx.length = ix.length → y ∉ idx →
      (∀ s ∈ idx, ∃ c, data s = some c ∧ colLength c = v.length) →
      (∀ k < v.length, ∃ L row, ObsLabels data idx k L ∧ Label.number 0 ∉ L ∧ RowLabels ix row L ∧
        row < η.length ∧ v.getD k 0 = η.getD row 0) →
      LabelValue host data y ix η (.call (.name "[" :: .name y :: idx.map .name)) v
  | add {a b : Expr} {x z : List ℝ} : LabelValue host data y ix η a x →
      LabelValue host data y ix η b z → x.length = z.length →
      LabelValue host data y ix η (.call [.name "+", a, b]) (x.zipWith (· + ·) z)
  | sub {a b : Expr} {x z : List ℝ} : LabelValue host data y ix η a x →
      LabelValue host data y ix η b z → x.length = z.length →
      LabelValue host data y ix η (.call [.name "-", a, b]) (x.zipWith (· - ·) z)
  | mulRight {a b : Expr} {x : List ℝ} {c : ℝ} : LabelValue host data y ix η a x → y ∉ names b →
      host.eval data.env b = Except.ok (.num [c]) →
      LabelValue host data y ix η (.call [.name "*", a, b]) (x.map (· * c))
  | mulLeft {a b : Expr} {x : List ℝ} {c : ℝ} : y ∉ names a →
      host.eval data.env a = Except.ok (.num [c]) → LabelValue host data y ix η b x →
      LabelValue host data y ix η (.call [.name "*", a, b]) (x.map (c * ·))
  | div {a b : Expr} {x : List ℝ} {c : ℝ} : LabelValue host data y ix η a x → y ∉ names b →
      host.eval data.env b = Except.ok (.num [c]) → c ≠ 0 →
      LabelValue host data y ix η (.call [.name "/", a, b]) (x.map (· / c))

/-- Factors of the data have different levels, as all factors of R. -/
def GoodFactors (data : Data) : Prop :=
  ∀ s levels codes, data s = some (.fac levels codes) → levels.Nodup

end Verif.SubExpr.Spec
