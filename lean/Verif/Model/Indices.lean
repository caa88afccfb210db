import Verif.Model.SubMatch
import Verif.Model.IS

/-!
# Model of the indices of a subformula: `find_indices_subform`, `R/indexing.R:28-135`

A formula is an expression, the call of `~`. As in `Model/SubExpr.lean`, variables that are indexed,
and indices, are names: of other expressions R takes the text, which is not the name of a variable.
-/
namespace Verif.SubExpr

open Verif.Frames Verif.Indexing

/-- A variable of the data: a numeric vector, a factor (levels and codes, numbered from 1, possibly
missing), a numeric array (only its dimensions are used), a character vector, anything else.
Used for R/utility.R:5-16. -/
inductive Col where
  | num (v : List ℝ)
  | fac (levels : List String) (codes : List (Option ℕ))
  | arr (dims : List ℕ)
  | chr (v : List String)
  | other

/-- The argument `data`. Used for R/indexing.R:115-124. -/
abbrev Data := String → Option Col

mutual
/-- R/indexing.R:28-41 `find_indices`. -/
def findIndices (i : ℕ) (var : String) : Expr → Res (List String)
  | .name _ => Except.ok []
  | .lit _ => Except.ok []
  | .call [] => Except.ok []
  | .call (h :: []) => findIndices i var h
  | .call (h :: a :: rest) =>
    if isName h "[" && isName a var then
      match rest[i - 1]? with
      | some (.name s) => Except.ok [s]
      | some _ => Res.raise "Can't find indexing variables"
      | none => Res.raise "subscript out of bounds"
    else do
      let fh ← findIndices i var h
      let fa ← findIndices i var a
      let fr ← findIndicesList i var rest
      return (fh ++ (fa ++ fr)).eraseDups

/-- R/indexing.R:35 `unlist(lapply(x, find_indices, ...))`. -/
def findIndicesList (i : ℕ) (var : String) : List Expr → Res (List String)
  | [] => Except.ok []
  | x :: xs => do
    let a ← findIndices i var x
    let b ← findIndicesList i var xs
    return a ++ b
end

mutual
/-- R/indexing.R:44-58 `find_vars_with_index`. -/
def findVarsWithIndex (i : ℕ) (index : String) : Expr → Res (List String)
  | .name _ => Except.ok []
  | .lit _ => Except.ok []
  | .call [] => Except.ok []
  | .call (h :: []) => findVarsWithIndex i index h
  | .call (h :: a :: rest) =>
    if isName h "[" && (rest[i - 1]?.map fun e => isName e index) = some true then
      match a with
      | .name s => Except.ok [s]
      | _ => Res.raise "not modelled"
    else do
      let fh ← findVarsWithIndex i index h
      let fa ← findVarsWithIndex i index a
      let fr ← findVarsWithIndexList i index rest
      return (fh ++ (fa ++ fr)).eraseDups

/-- R/indexing.R:52 `unlist(lapply(x, find_vars_with_index, ...))`. -/
def findVarsWithIndexList (i : ℕ) (index : String) : List Expr → Res (List String)
  | [] => Except.ok []
  | x :: xs => do
    let a ← findVarsWithIndex i index x
    let b ← findVarsWithIndexList i index xs
    return a ++ b
end

/-- R/utility.R:5-16 `find_dim_in_dir`. -/
def findDimInDir (i : ℕ) : Col → Res ℕ
  | .num v => if i = 1 then Except.ok v.length else Res.raise "Array does not have dimension"
  | .fac _ c => if i = 1 then Except.ok c.length else Res.raise "Array does not have dimension"
  | .chr v => if i = 1 then Except.ok v.length else Res.raise "Array does not have dimension"
  | .arr d => match d[i - 1]? with
    | some n => Except.ok n
    | none => Res.raise "Array does not have dimension"
  | .other => Res.raise "not modelled"

/-- The local variable `index_i`: the factor of the levels, or the sorted different values of numeric
indices, of which only the number is used. Used for R/indexing.R:115-124. -/
inductive IndexI where
  | fac (levels : List String)
  | num (n : ℕ)

/-- An element of `indices_subform`: a factor with each level once, or `1:n`.
Used for R/indexing.R:114-135. -/
inductive Idx where
  | fac (levels : List String)
  | seq (v : List ℕ)

/-- `length(.)`. Used for R/utility.R:5-16. -/
def IndexI.length : IndexI → ℕ
  | .fac l => l.length
  | .num n => n

/-- `length(.)`. Used for R/utility.R:5-16. -/
def Idx.length : Idx → ℕ
  | .fac l => l.length
  | .seq v => v.length

/-- R/indexing.R:115-124: the number of levels, from the indexed variables of the data if there are
any. -/
def levelsMax (index : String) (i : ℕ) (index_i : IndexI) (subform : Expr) (data : Data) : Res ℕ := do
  let vars ← findVarsWithIndex i index subform
  let x_vars := vars.filterMap data
  let dims ← x_vars.mapM (findDimInDir i)
  match dims with
  | [] => return index_i.length
  | d :: ds => return ds.foldl max d

/-- R/indexing.R:114-135 `find_index_i`. -/
def findIndexI (index : String) (i : ℕ) (index_i : IndexI) (subform : Expr) (data : Data) :
    Res Idx := do
  let levels_i_max ← levelsMax index i index_i subform data
  match index_i with
  | .fac levels =>
    if levels.length ≠ levels_i_max then Res.raise "Indexing factor has wrong number of levels"
    else return .fac levels
  | .num _ => return .seq (IS.colon 1 levels_i_max)

/-- The text of the elements of a variable; `text` is `as.character` of a number.
Used for R/indexing.R:87-92. -/
def texts (text : ℝ → String) : Col → Res (List (Option String))
  | .num v => Except.ok (v.map fun x => some (text x))
  | .fac l c => Except.ok (c.map fun k => k.bind fun k => l[k - 1]?)
  | .chr v => Except.ok (v.map some)
  | .arr _ => Res.raise "not modelled"
  | .other => Res.raise "not modelled"

/-- `factor(x, levels = levels)`, given the texts of both: repeated levels are an error, values which
are not levels become missing, missing values are not levels. Used for R/indexing.R:87-92. -/
def factorOf (x levels : List (Option String)) : Res Col :=
  let l := levels.filterMap id
  if l.Nodup then
    Except.ok (.fac l (x.map fun s => s.bind fun s => if s ∈ l then some (l.idxOf s + 1) else none))
  else Res.raise "factor level is duplicated"

/-- R/indexing.R:87-92: the index variables become factors whose levels are the values of the variable
`index` of the data. -/
def coerceAll (text : ℝ → String) (levels : List (Option String)) :
    List (String × Col) → Data → Res Data
  | [], data => Except.ok data
  | (s, c) :: rest, data => do
    let x ← texts text c
    let f ← factorOf x levels
    coerceAll text levels rest (Function.update data s (some f))

/-- The levels of the factors, if all are factors. Used for R/indexing.R:93-105. -/
def allFactors : List Col → Option (List (List String))
  | [] => some []
  | .fac l _ :: cs => (allFactors cs).map fun ls => l :: ls
  | _ :: _ => none

/-- The values of the numeric vectors, if all are numeric vectors. Used for R/indexing.R:93-105. -/
def allNumeric : List Col → Option (List (List ℝ))
  | [] => some []
  | .num v :: cs => (allNumeric cs).map fun vs => v :: vs
  | _ :: _ => none

open Classical in
/-- R/indexing.R:93-105: `index_i` from the index variables. An array as an index is not modelled. -/
noncomputable def indexI (indices_i : List Col) : Res IndexI :=
  match allFactors indices_i with
  | some [] => Res.raise "subscript out of bounds"
  | some (l :: ls) =>
    if ls.all fun l' => l' = l then Except.ok (.fac l)
    else Res.raise "Indexing factors must have identical levels"
  | none => match allNumeric indices_i with
    | some vs => Except.ok (.num vs.flatten.toFinset.card)
    | none => Res.raise "Should use factor or numeric to index variables"

/-- R/indexing.R:78-83: the index variables; all must be in the data. -/
def getIndices (data : Data) (l : List String) : Res (List (String × Col)) :=
  l.mapM fun s => match data s with
    | some c => Except.ok (s, c)
    | none => Res.raise "Can't find indexing variables"

/-- The state of the loop R/indexing.R:75-109: `index_i` keeps its value from one turn to the next. -/
structure LoopState where
  data : Data
  index_i : Option IndexI
  indices : List (String × Idx)

/-- R/indexing.R:85-105: the data and `index_i` after the branches. -/
noncomputable def chooseIndex (text : ℝ → String) (index : String) (indices_i : List (String × Col))
    (st : LoopState) : Res (Data × Option IndexI) :=
  match st.data index with
  | some c => do
    let levels_i ← texts text c
    let data ← coerceAll text levels_i indices_i st.data
    return (data, st.index_i)
  | none => do
    let index_i ← indexI (indices_i.map Prod.snd)
    return (st.data, some index_i)

/-- `find_indices(subform, i, subvar)`, used as one string. Used for R/indexing.R:76-108. -/
def single (l : List String) : Res String := match l with
  | [s] => Except.ok s
  | _ => Res.raise "first argument has length > 1"

/-- R/indexing.R:76-108, one turn of the loop. -/
noncomputable def indexTurn (text : ℝ → String) (subvar : String) (subform subexpr : Expr)
    (st : LoopState) (i : ℕ) : Res LoopState := do
  let indices_subexpr ← findIndices i subvar subexpr
  let indices_i ← getIndices st.data indices_subexpr
  let l ← findIndices i subvar subform
  let index ← single l
  let c ← chooseIndex text index indices_i st
  match c.2 with
  | none => Res.raise "object 'index_i' not found"
  | some index_i =>
    let x ← findIndexI index i index_i subform c.1
    return ⟨c.1, some index_i, st.indices ++ [(index, x)]⟩

/-- R/indexing.R:60-111 `find_indices_subform`. -/
noncomputable def findIndicesSubform (text : ℝ → String) (subvar : String) (subform subexpr : Expr)
    (data : Data) : Res (Data × List (String × Idx)) := do
  let d ← findDim subvar subexpr none
  let d' ← findDim subvar subform none
  match d, d' with
  | some d, some d' =>
    if d' ≠ d then Res.raise "indexed inconsistently"
    else
      let st ← (IS.colon 1 d).foldlM (indexTurn text subvar subform subexpr) ⟨data, none, []⟩
      return (st.data, st.indices)
  | _, _ => Res.raise "argument is of length zero"

/-- The variables as values of R. A factor with missing codes is not modelled.
Used for R/subformula.R:118-155. -/
def Col.toVal : Col → Val
  | .num v => .num v
  | .fac _ codes => if codes.all Option.isSome then .fac (codes.filterMap id) else .other
  | _ => .other

/-- The data as variables of R. Used for R/subformula.R:118-155. -/
def Data.env (data : Data) : Env := fun x => (data x).map Col.toVal

/-- R/subformula.R:118-155 `parse_sub`; `frame` is what `parse_subformula` (R/model_frames.R:73-88,
that is `lme4` or `lm`) makes of the flattened subformula, the indices and the data. -/
noncomputable def parseSubAll (host : Host) (text : ℝ → String)
    (frame : Expr → List (String × Idx) → Data → Res Frame) (subvar : String) (subform subexpr : Expr)
    (data : Data) : Res Val := do
  let r ← findIndicesSubform text subvar subform subexpr data
  let f ← frame subform r.2 r.1
  parseSub host subvar subexpr (r.2.map fun p => p.2.length) f r.1.env

end Verif.SubExpr
