import Verif.Model.Indexing

/-!
# Model of `R/modify_subexpr.R` and of the evaluation of `Sub(.)` terms (`R/subformula.R`)

An expression of R is a name, a constant or a call; a call is the list of its elements, the function
first, as in R. Argument names are not modelled, nor are pairlists (they occur only inside function
definitions) and the constant `NA`.

Everything the package does not do itself is done by R and left open: `Host.eval env e` is the value
R gives to the expression `e` when the variables are those of `env`. Of it only the three laws in
`Host` are used.
-/
namespace Verif.SubExpr

open Verif.Frames Verif.Indexing

/-- Constants in R expressions. Used for R/modify_subexpr.R:1-15. -/
inductive Lit where
  | logical (b : Bool)
  | num (x : ℝ)
  | str (s : String)

/-- R expressions. Used for R/modify_subexpr.R:1-15. -/
inductive Expr where
  | name (s : String)
  | lit (l : Lit)
  | call (xs : List Expr)

/-- R values: model frames, numeric vectors, factors (their integer codes), logical vectors, and
anything else. Used for R/model_frames.R:100-111. -/
inductive Val where
  | frame (f : Frame)
  | num (v : List ℝ)
  | fac (codes : List ℕ)
  | lgl (v : List Bool)
  | other

/-- Variables of an R environment. Used for R/subformula.R:154. -/
abbrev Env := String → Option Val

mutual
/-- Names occurring in an expression, including names of functions. Used for R/subformula.R:154. -/
def names : Expr → List String
  | .name s => [s]
  | .lit _ => []
  | .call xs => namesList xs

/-- Names occurring in a list of expressions. Used for R/subformula.R:154. -/
def namesList : List Expr → List String
  | [] => []
  | x :: xs => names x ++ namesList xs
end

/-- R itself: values of expressions that the package leaves to it. The value depends only on the
variables occurring in the expression; a variable has its value; an expression none of whose
variables is a model frame does not make one. Used for R/subformula.R:154. -/
structure Host where
  eval : Env → Expr → Res Val
  congr : ∀ env env' e, (∀ x ∈ names e, env x = env' x) → eval env e = eval env' e
  lookup : ∀ env x v, env x = some v → eval env (.name x) = Except.ok v
  noFrame : ∀ env e f, (∀ x ∈ names e, ∀ g, env x ≠ some (.frame g)) →
    eval env e ≠ Except.ok (.frame f)

/-- `identical(x, quote(s))`. Used for R/modify_subexpr.R:38-45. -/
def isName (x : Expr) (s : String) : Bool :=
  match x with
  | .name t => t = s
  | _ => false

mutual
/-- R/modify_subexpr.R:1-15 `find_sub_status`. -/
def status (subvar : String) : Expr → Res Bool
  | .lit (.logical b) => Except.ok b
  | .name x => Except.ok (x = subvar)
  | .call xs => statusList subvar xs
  | .lit _ => Res.raise "Don't know how to handle type"

/-- R/modify_subexpr.R:9-10 `any(vapply(x, find_sub_status, ...))`. -/
def statusList (subvar : String) : List Expr → Res Bool
  | [] => Except.ok false
  | x :: xs => do
    let a ← status subvar x
    let b ← statusList subvar xs
    return a || b
end

/-- R/modify_subexpr.R:22, 25-27, the status of the second argument, if there is one. -/
def status2 (subvar : String) (rest : List Expr) : Res Bool :=
  match rest with
  | [] => Except.ok false
  | b :: _ => status subvar b

/-- The names in a list of expressions, if all of them are names. Used for R/modify_subexpr.R:34. -/
def allNames : List Expr → Option (List String)
  | [] => some []
  | .name s :: xs => (allNames xs).map fun l => s :: l
  | _ :: _ => none

/-- `paste(., collapse = "_")`. Used for R/modify_subexpr.R:34. -/
def joinNames (l : List String) : String := String.intercalate "_" l

/-- R/modify_subexpr.R:34, the flattened index. Indices other than names are stopped before, in
`find_indices_subform` (R/indexing.R:76-82), as their text is not the name of a variable. -/
def flatIndex (rest : List Expr) : Res Expr :=
  match allNames rest with
  | some l => Except.ok (.name (joinNames l))
  | none => Res.raise "Can't find indexing variables"

/-- The name of the function on model frames that replaces an arithmetic function,
R/modify_subexpr.R:38-45. -/
def frName (h : Expr) : Option String :=
  if isName h "+" then some "+fr"
  else if isName h "-" then some "-fr"
  else if isName h "*" then some "*fr"
  else if isName h "/" then some "/fr"
  else none

mutual
/-- R/modify_subexpr.R:17-59 `modify_subexpr`. -/
def modify (subvar : String) : Expr → Res Expr
  | .name x => Except.ok (.name x)
  | .lit l => Except.ok (.lit l)
  | .call [] => Except.ok (.call [])
  | .call (h :: []) => do
    let h' ← modify subvar h
    return .call [h']
  | .call (h :: a :: rest) => do
    let arg1sub ← status subvar a
    let arg2sub ← status2 subvar rest
    if arg1sub || arg2sub then
      if isName h "[" && arg1sub && !arg2sub then
        if rest.length > 1 then
          let index ← flatIndex rest
          let a' ← modify subvar a
          return .call [.name "[fr", a', index]
        else
          let a' ← modify subvar a
          let rest' ← modifyList subvar rest
          return .call (.name "[fr" :: a' :: rest')
      else match frName h with
        | some f =>
          let a' ← modify subvar a
          let rest' ← modifyList subvar rest
          return .call (.name f :: a' :: rest')
        | none => Res.raise "Substituted variables used in non-linear function"
    else
      let h' ← modify subvar h
      let a' ← modify subvar a
      let rest' ← modifyList subvar rest
      return .call (h' :: a' :: rest')

/-- R/modify_subexpr.R:51 `lapply(x, modify_subexpr, ...)`. -/
def modifyList (subvar : String) : List Expr → Res (List Expr)
  | [] => Except.ok []
  | x :: xs => do
    let x' ← modify subvar x
    let xs' ← modifyList subvar xs
    return x' :: xs'
end

/-- R/modify_subexpr.R:65-69, the index variables of a call with several indices. -/
def extractOwn (subvar : String) (h a : Expr) (rest : List Expr) : Res (List (List String)) :=
  if isName h "[" && 1 < rest.length then do
    let s ← status subvar a
    if s then
      match allNames rest with
      | some l => Except.ok [l]
      | none => Res.raise "Can't find indexing variables"
    else Except.ok []
  else Except.ok []

mutual
/-- R/modify_subexpr.R:61-85 `extract_to_flatten` (`unique` only drops repetitions and is left
out). -/
def extract (subvar : String) : Expr → Res (List (List String))
  | .name _ => Except.ok []
  | .lit _ => Except.ok []
  | .call [] => Except.ok []
  | .call (h :: []) => extract subvar h
  | .call (h :: a :: rest) => do
    let own ← extractOwn subvar h a rest
    let eh ← extract subvar h
    let ea ← extract subvar a
    let er ← extractList subvar rest
    return own ++ (eh ++ (ea ++ er))

/-- R/modify_subexpr.R:70, 74 `unlist(lapply(x, extract_to_flatten, ...))`. -/
def extractList (subvar : String) : List Expr → Res (List (List String))
  | [] => Except.ok []
  | x :: xs => do
    let a ← extract subvar x
    let b ← extractList subvar xs
    return a ++ b
end

/-- R/indexing.R:6-14, the number of indices in a call that indexes the variable. -/
def dimOwn (var : String) (h : Expr) (rest : List Expr) (d : Option ℕ) : Res (Option ℕ) :=
  match rest with
  | a :: idx =>
    if isName h "[" && isName a var then
      match d with
      | some d => if d ≠ idx.length then Res.raise "indexed inconsistently" else Except.ok (some d)
      | none => Except.ok (some idx.length)
    else Except.ok d
  | [] => Except.ok d

mutual
/-- R/indexing.R:2-26 `find_dim_sub`. -/
def findDim (var : String) : Expr → Option ℕ → Res (Option ℕ)
  | .name _, d => Except.ok d
  | .lit _, d => Except.ok d
  | .call [], d => Except.ok d
  | .call (h :: rest), d => do
    let d ← dimOwn var h rest d
    let d ← findDim var h d
    findDimList var rest d

/-- R/indexing.R:15-17, the loop over the elements. -/
def findDimList (var : String) : List Expr → Option ℕ → Res (Option ℕ)
  | [], d => Except.ok d
  | x :: xs, d => do
    let d ← findDim var x d
    findDimList var xs d
end

/-- `as.numeric`. Used for R/model_frames.R:100-111. -/
def asNumeric : Val → Res (List ℝ)
  | .num v => Except.ok v
  | .fac c => Except.ok (c.map fun k : ℕ => (k : ℝ))
  | .lgl v => Except.ok (v.map fun b => if b then 1 else 0)
  | .frame _ => Res.raise "list object cannot be coerced"
  | .other => Res.raise "cannot be coerced: not modelled"

/-- R/model_frames.R:100-111 `[fr` on values. -/
noncomputable def indexVal (x i : Val) : Res Val := do
  match x with
  | .frame f =>
    let i ← asNumeric i
    let g ← indexFr f i
    return .frame g
  | _ => Res.raise "$ operator is invalid for atomic vectors"

/-- R/model_frames.R:115-130 `*fr` on values. -/
def mulVal (x y : Val) : Res Val :=
  match x, y with
  | .frame f, .num a => do
    let g ← scaleFr f a
    return .frame g
  | .num a, .frame f => do
    let g ← scaleFr f a
    return .frame g
  | _, _ => Res.raise "Invalid use of `*fr`"

/-- R/model_frames.R:133-138 `/fr` on values. -/
noncomputable def divVal (x y : Val) : Res Val :=
  match x, y with
  | .frame f, .num a => do
    let r ← recip a
    mulVal (.frame f) (.num r)
  | _, _ => Res.raise "Invalid use of `/fr`"

/-- R/model_frames.R:141-167 `+fr` on values. -/
def addVal (x y : Val) : Res Val :=
  match x, y with
  | .frame f, .frame g => do
    let r ← addFr f g
    return .frame r
  | _, _ => Res.raise "Invalid use of `+fr`: both arguments should be model frames"

/-- R/model_frames.R:170-177 `-fr` on values. -/
def subVal (x y : Val) : Res Val :=
  match x, y with
  | .frame f, .frame g => do
    let r ← subFr f g
    return .frame r
  | _, _ => Res.raise "Invalid use of `-fr`: both arguments should be model frames"

/-- The five functions on model frames, by name. Used for R/subformula.R:154. -/
noncomputable def frOp (f : String) : Option (Val → Val → Res Val) :=
  if f = "[fr" then some indexVal
  else if f = "+fr" then some addVal
  else if f = "-fr" then some subVal
  else if f = "*fr" then some mulVal
  else if f = "/fr" then some divVal
  else none

/-- `eval` of a rewritten expression, R/subformula.R:154. The functions on model frames take exactly
two arguments. -/
noncomputable def eval (host : Host) (env : Env) : Expr → Res Val
  | .name x => host.eval env (.name x)
  | .lit l => host.eval env (.lit l)
  | .call (.name f :: a :: b :: []) =>
    match frOp f with
    | some op => do
      let va ← eval host env a
      let vb ← eval host env b
      op va vb
    | none => host.eval env (.call [.name f, a, b])
  | .call (.name f :: args) =>
    match frOp f with
    | some _ => Res.raise "wrong number of arguments"
    | none => host.eval env (.call (.name f :: args))
  | .call xs => host.eval env (.call xs)

/-- R/indexing.R:184 `as.numeric(data[x])`. -/
def lookupNumeric (data : Env) (x : String) : Res (List ℝ) :=
  match data x with
  | some v => asNumeric v
  | none => Res.raise "Can't find indexing variables"

/-- R/subformula.R:145-149, one flattened index variable and its name. -/
noncomputable def flatVar (data : Env) (lengths : List ℕ) (vars : List String) :
    Res (String × Val) := do
  let vs ← vars.mapM (lookupNumeric data)
  let f ← flattenVars vs lengths
  return (joinNames vars, .num f)

/-- R/subformula.R:152, the variables seen by the rewritten expression. The first match counts. -/
def subEnv (subvar : String) (f : Frame) (flats : List (String × Val)) (data : Env) : Env := fun x =>
  if x = subvar then some (.frame f)
  else match flats.lookup x with
    | some v => some v
    | none => data x

/-- R/subformula.R:141-154, the end of `parse_sub`: `f` is the model frame of the subformula,
`lengths` the lengths of its indices, `data` the variables. Before, R/indexing.R:65-70 checks the
number of indices. -/
noncomputable def parseSub (host : Host) (subvar : String) (subexpr : Expr) (lengths : List ℕ)
    (f : Frame) (data : Env) : Res Val := do
  let d ← findDim subvar subexpr none
  if d ≠ some lengths.length then Res.raise "indexed inconsistently"
  else
    let subexpr_mod ← modify subvar subexpr
    let to_flatten ← extract subvar subexpr
    let subset_vars_flat ← to_flatten.mapM (flatVar data lengths)
    eval host (subEnv subvar f subset_vars_flat data) subexpr_mod

end Verif.SubExpr
