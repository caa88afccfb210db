import Verif.Model.SaveFile

/-!
# Reading a saved factorization
-/
namespace Verif.SaveFile.Spec

open Verif.SaveFile Verif.Split

variable {q n p : ℕ}

/-- The number a word stands for. -/
def value : Word → Option ℝ
  | .num x => some x
  | .tag "TRUE" => some 1
  | .tag "FALSE" => some 0
  | .tag _ => none

/-- The contents of a line: a factor of the likelihood, or a normal density. -/
inductive Record : Type
  | glmm (items : List ℝ) (nobs nfixed : ℕ) (X Zt entries Lind resp weights : List ℝ)
  | normal (items mean precision : List ℝ)

/-- The numbers after the letter `"G"`: each size is followed by as many numbers as it says. -/
noncomputable def readG : List ℝ → Option Record
  | [] => none
  | size :: l =>
    let d := ⌊size⌋₊
    match l.drop d with
    | nobs :: nfixed :: l' =>
      let m := ⌊nobs⌋₊
      let p := ⌊nfixed⌋₊
      let l1 := l'.drop (m * p)
      match l1.drop (d * m) with
      | nentries :: l2 =>
        let k := ⌊nentries⌋₊
        let l3 := l2.drop (3 * k)
        let l4 := l3.drop k
        some (.glmm (l.take d) m p (l'.take (m * p)) (l1.take (d * m)) (l2.take (3 * k)) (l3.take k)
          (l4.take m) (l4.drop m))
      | [] => none
    | _ => none

/-- The numbers after the letter `"N"`. -/
noncomputable def readN : List ℝ → Option Record
  | [] => none
  | size :: l =>
    let d := ⌊size⌋₊
    some (.normal (l.take d) ((l.drop d).take d) ((l.drop d).drop d))

/-- A line of a file. -/
noncomputable def readLine : List Word → Option Record
  | .tag "G" :: l => (l.mapM value).bind readG
  | .tag "N" :: l => (l.mapM value).bind readN
  | _ => none

/-- The record is the term: matrices by columns, the entries of `Lambdat` by row, column (from 0) and
value. -/
def Describes : Record → Term q p → Prop
  | .glmm items nobs nfixed X Zt entries Lind resp weights, .glmm C m data =>
    items.length = C.length ∧ (∀ k : Fin C.length, items[k]? = some ((C.get k : ℕ) : ℝ)) ∧
    nobs = m ∧ nfixed = p ∧
    X.length = m * p ∧ (∀ (i : Fin m) (k : Fin p), X[(i : ℕ) + m * k]? = some (data.X i k)) ∧
    Zt.length = C.length * m ∧
      (∀ (r : Fin C.length) (i : Fin m), Zt[(r : ℕ) + C.length * i]? = some (data.Zt r i)) ∧
    entries.length = 3 * data.entries.length ∧
      (∀ k : Fin data.entries.length,
        entries[3 * (k : ℕ)]? = some (((data.entries.get k).1 : ℕ) : ℝ) ∧
        entries[3 * (k : ℕ) + 1]? = some (((data.entries.get k).2 : ℕ) : ℝ)) ∧
    Lind = data.Lind.map (fun l : ℤ => (l : ℝ)) ∧
    resp.length = m ∧ (∀ i : Fin m, resp[i]? = some (data.response i)) ∧
    weights.length = m ∧ ∀ i : Fin m, weights[i]? = some (data.weights i)
  | .normal items mean precision, .normal i μ τ =>
    items = [((i : ℕ) : ℝ)] ∧ mean = [μ] ∧ precision = [τ]
  | _, _ => False

/-- The values of the stored entries of `Lambdat`, for the term with items `C`. -/
def DescribesValues (L : Fin q → Fin q → ℝ) : Record → Term q p → Prop
  | .glmm _ _ _ _ _ entries _ _ _, .glmm C _ data => ∀ k : Fin data.entries.length,
      entries[3 * (k : ℕ) + 2]? =
        some (L (C.get (data.entries.get k).1) (C.get (data.entries.get k).2))
  | _, _ => True

end Verif.SaveFile.Spec
