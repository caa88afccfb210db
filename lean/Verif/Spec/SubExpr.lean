import Verif.Model.SubExpr
import Verif.Spec.Frames
import Verif.Props.Indexing

/-!
# Specification: values of `Sub(.)` expressions and linearity

What a `Sub(.)` expression means when the substituted variable is an ordinary vector, and what it
means that it is linear in that variable. Neither mentions model frames or the rewriting.
-/
namespace Verif.SubExpr.Spec

open Verif.Frames Verif.Indexing

/-- Values that count as whole-number indices: numeric vectors and factors. -/
inductive Numeric : Val → List ℝ → Prop
  | num (v : List ℝ) : Numeric (.num v) v
  | fac (c : List ℕ) : Numeric (.fac c) (c.map fun k : ℕ => (k : ℝ))

/-- `x[w]` for a vector `x` and whole numbers `w`: zeros are dropped, negative numbers exclude. -/
def Picks (x w v : List ℝ) : Prop :=
  (∃ js : List ℕ, w = js.map (fun j : ℕ => (j : ℝ)) ∧ (∀ j ∈ js, j ≤ x.length) ∧
    v = (js.filter (0 < ·)).map fun j => x.getD (j - 1) 0) ∨
  (∃ js : List ℕ, w = js.map (fun j : ℕ => -(j : ℝ)) ∧ (∃ j ∈ js, 0 < j) ∧
    v = ((List.range x.length).filter fun i => !js.contains (i + 1)).map fun i => x.getD i 0)

/-- The value of an expression in which the variable `y` is the vector `η` (for several indices: the
array with the lengths `l` in the order of `expand.grid`) and the other variables are those of
`data`. -/
inductive Value (host : Host) (data : Env) (y : String) (l : List ℕ) (η : List ℝ) :
    Expr → List ℝ → Prop
  | var : Value host data y l η (.name y) η
  | index {a i : Expr} {x w v : List ℝ} {val : Val} : Value host data y l η a x → y ∉ names i →
      host.eval data i = Except.ok val → Numeric val w → Picks x w v →
      Value host data y l η (.call [.name "[", a, i]) v
  | multi {idx : List String} {vals : List (List ℝ)} {v : List ℝ} : 2 ≤ idx.length →
      idx.length = l.length → y ∉ idx →
      List.Forall₂ (fun s w => ∃ val, data s = some val ∧ Numeric val w) idx vals →
      (∀ w ∈ vals, w.length = v.length) →
      (∀ k < v.length, ∃ t row, (Indexing.Spec.grid l)[row]? = some t ∧ row < η.length ∧
        vals.map (fun w => w.getD k 0) = t.map (fun a : ℕ => (a : ℝ)) ∧
        v.getD k 0 = η.getD row 0) →
      Value host data y l η (.call (.name "[" :: .name y :: idx.map .name)) v
  | add {a b : Expr} {x z : List ℝ} : Value host data y l η a x → Value host data y l η b z →
      x.length = z.length → Value host data y l η (.call [.name "+", a, b]) (x.zipWith (· + ·) z)
  | sub {a b : Expr} {x z : List ℝ} : Value host data y l η a x → Value host data y l η b z →
      x.length = z.length → Value host data y l η (.call [.name "-", a, b]) (x.zipWith (· - ·) z)
  | mulRight {a b : Expr} {x : List ℝ} {c : ℝ} : Value host data y l η a x → y ∉ names b →
      host.eval data b = Except.ok (.num [c]) →
      Value host data y l η (.call [.name "*", a, b]) (x.map (· * c))
  | mulLeft {a b : Expr} {x : List ℝ} {c : ℝ} : y ∉ names a →
      host.eval data a = Except.ok (.num [c]) → Value host data y l η b x →
      Value host data y l η (.call [.name "*", a, b]) (x.map (c * ·))
  | div {a b : Expr} {x : List ℝ} {c : ℝ} : Value host data y l η a x → y ∉ names b →
      host.eval data b = Except.ok (.num [c]) → c ≠ 0 →
      Value host data y l η (.call [.name "/", a, b]) (x.map (· / c))

/-- The expressions that are linear in the variable `y` without a constant term. -/
inductive LinearIn (y : String) : Expr → Prop
  | var : LinearIn y (.name y)
  | index {a : Expr} {idx : List Expr} : LinearIn y a → idx ≠ [] → (∀ i ∈ idx, y ∉ names i) →
      LinearIn y (.call (.name "[" :: a :: idx))
  | add {a b : Expr} : LinearIn y a → LinearIn y b → LinearIn y (.call [.name "+", a, b])
  | sub {a b : Expr} : LinearIn y a → LinearIn y b → LinearIn y (.call [.name "-", a, b])
  | mulRight {a b : Expr} : LinearIn y a → y ∉ names b → LinearIn y (.call [.name "*", a, b])
  | mulLeft {a b : Expr} : y ∉ names a → LinearIn y b → LinearIn y (.call [.name "*", a, b])
  | div {a b : Expr} : LinearIn y a → y ∉ names b → LinearIn y (.call [.name "/", a, b])

mutual
/-- The constant `TRUE` does not occur. -/
def NoTrue : Expr → Prop
  | .name _ => True
  | .lit (.logical b) => b = false
  | .lit _ => True
  | .call xs => NoTrueList xs

/-- `NoTrue` for all elements. -/
def NoTrueList : List Expr → Prop
  | [] => True
  | x :: xs => NoTrue x ∧ NoTrueList xs
end

mutual
/-- No constants occur. -/
def NoLit : Expr → Prop
  | .name _ => True
  | .lit _ => False
  | .call xs => NoLitList xs

/-- `NoLit` for all elements. -/
def NoLitList : List Expr → Prop
  | [] => True
  | x :: xs => NoLit x ∧ NoLitList xs
end

mutual
/-- The variable occurs only in the first two arguments of calls: not as or in a function, and not
in a later argument. -/
def Visible (y : String) : Expr → Prop
  | .name _ => True
  | .lit _ => True
  | .call [] => True
  | .call (h :: args) => y ∉ names h ∧ y ∉ namesList (args.drop 2) ∧ VisibleList y args

/-- `Visible` for all elements. -/
def VisibleList (y : String) : List Expr → Prop
  | [] => True
  | x :: xs => Visible y x ∧ VisibleList y xs
end

/-- The expression does not itself name the functions on model frames. -/
def NoFrames (e : Expr) : Prop :=
  ∀ x ∈ names e, x ≠ "[fr" ∧ x ≠ "+fr" ∧ x ≠ "-fr" ∧ x ≠ "*fr" ∧ x ≠ "/fr"

/-- Somewhere in the expression something is indexed by the variables `idx`. -/
inductive IndexedBy (idx : List String) : Expr → Prop
  | here (a : Expr) : IndexedBy idx (.call (.name "[" :: a :: idx.map .name))
  | inside {x : Expr} {xs : List Expr} : x ∈ xs → IndexedBy idx x → IndexedBy idx (.call xs)

/-- Different index lists in the expression have different names when joined by `_`, and no joined
name is itself a name of the expression. -/
def NoClash (e : Expr) : Prop :=
  ∀ p q, IndexedBy p e → IndexedBy q e → 2 ≤ p.length → 2 ≤ q.length →
    (String.intercalate "_" p = String.intercalate "_" q → p = q) ∧
    String.intercalate "_" p ∉ names e

/-- The linear predictor of a frame of `n` observations, as a vector. -/
noncomputable def predictor (F : Frame) (n : ℕ) (θ β u : ℕ → ℝ) : List ℝ :=
  (List.range n).map fun i => Frames.Spec.lp F θ β u i

end Verif.SubExpr.Spec
