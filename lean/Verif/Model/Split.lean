import Verif.Model.GLMM
import Verif.Model.MultiNormal

/-!
# Model of `R/splitframe.R`

Splitting a model frame into local terms. Items (random effects) and observations are numbered from
0 instead of 1. Sparse matrices are represented by their stored entries; a product of sparse
matrices stores an entry exactly where the stored patterns of the operands meet (the Matrix package
does not drop entries that happen to be 0), and the entries of a column are sorted by row.
-/
namespace Verif.Split

open Verif.GLMM Verif.Gauss

variable {q n p : ℕ}

/-- The parts of a model frame (`lme4::glFormula`, R/model_frames.R:190-214) that are used:
`q` random effects, `n` observations, `p` fixed effects. `ztStored r j`: the entry of `reTrms$Zt` is
stored; `lambdat`: the positions of the stored entries of `reTrms$Lambdat` in order of storage;
`Lind`: numbers of the variance parameters, from 1. The response is numeric or, for a factor,
already compared with its first level (R/splitframe.R:39-42), in one column (two columns: Model/Counts). `offset` is
`model.offset(fr)`, zero without an offset. -/
structure ModFr (q n p : ℕ) where
  X : Matrix (Fin n) (Fin p) ℝ
  Zt : Matrix (Fin q) (Fin n) ℝ
  ztStored : Fin q → Fin n → Bool
  lambdat : List (Fin q × Fin q)
  Lind : List ℤ
  resp : Fin n → ℝ
  weights : Option (Fin n → ℝ)
  offset : Fin n → ℝ

/-- The row numbers of the stored entries of column `j` of `Lambdat %*% Zt`
(R/splitframe.R:3-6). -/
def columnItems (M : ModFr q n p) (j : Fin n) : List (Fin q) :=
  (List.finRange q).filter fun r => M.lambdat.any fun e => e.1 = r && M.ztStored e.2 j

/-- R/splitframe.R:2-8 `find_active`: `tapply` makes one element for each column with stored
entries, in increasing order of the columns. -/
def findActive (M : ModFr q n p) : List (List (Fin q)) :=
  ((List.finRange n).map (columnItems M)).filter fun items => items ≠ []

/-- R/splitframe.R:10-15 `add_obs_C`, component `obs_C`. `act[obs]` is by position; beyond the end it
is `NULL`. -/
def addObsC (C : List (Fin q)) (act : List (List (Fin q))) (obs_rem : List (Fin n)) :
    List (Fin n) :=
  obs_rem.filter fun k => (act.getD k []).all fun item => C.contains item

/-- R/splitframe.R:20-23, the loop of `add_obs`; also the observations that remain. -/
def addObsLoop (act : List (List (Fin q))) : List (List (Fin q)) → List (Fin n) →
    List (List (Fin q) × List (Fin n)) × List (Fin n)
  | [], obs_rem => ([], obs_rem)
  | C :: rest, obs_rem =>
    let obs_C := addObsC C act obs_rem
    let r := addObsLoop act rest (obs_rem.filter fun k => ¬ obs_C.contains k)
    ((C, obs_C) :: r.1, r.2)

/-- R/splitframe.R:17-28 `add_obs`. -/
def addObs (cliques act : List (List (Fin q))) (obs : List (Fin n)) :
    Res (List (List (Fin q) × List (Fin n))) :=
  let r := addObsLoop act cliques obs
  if r.2.length ≠ 0 then Res.raise "Couldn't allocate some observations to a clique"
  else Except.ok r.1

/-- R/splitframe.R:36-37: the entry of `Lind_mat` at a position, if it is stored. -/
def lindAt (M : ModFr q n p) (r c : Fin q) : Option ℤ :=
  ((M.lambdat.zip M.Lind).find? fun e => e.1 = (r, c)).map fun e => e.2

/-- R/splitframe.R:35-38: the stored entries of `Lambdat[C, C]`, by columns, with those of
`Lind_mat[C, C] - 1`. -/
def subLambdat (M : ModFr q n p) (C : List (Fin q)) :
    List ((Fin C.length × Fin C.length) × ℤ) :=
  (List.finRange C.length).flatMap fun c => (List.finRange C.length).filterMap fun r =>
    (lindAt M (C.get r) (C.get c)).map fun l => ((r, c), l - 1)

/-- R/splitframe.R:30-60 `find_local_term`. -/
def findLocalTerm (C : List (Fin q)) (obs_C : List (Fin n)) (M : ModFr q n p) :
    Data C.length obs_C.length p where
  X := Matrix.of fun i k => M.X (obs_C.get i) k
  Zt := Matrix.of fun r i => M.Zt (C.get r) (obs_C.get i)
  entries := (subLambdat M C).map fun e => e.1
  Lind := (subLambdat M C).map fun e => e.2
  response := fun i => M.resp (obs_C.get i)
  weights := match M.weights with
    | none => fun _ => 1
    | some w => fun i => w (obs_C.get i)

/-- A factor passed to the cluster graph: src/MixedContinuousBeliefVector.cpp:9-22
`appendGLMMBelief` (the items are `C`) and 24-32 `appendNormalBelief` (one item, mean 0, precision
1, as called in R/splitframe.R:79-84). -/
inductive Term (q p : ℕ) : Type
  | glmm (C : List (Fin q)) (m : ℕ) (data : Data C.length m p)
  | normal (i : Fin q) (mean precision : ℝ)

/-- R/splitframe.R:62-86 `find_factorization_terms`. -/
def findFactorizationTerms (M : ModFr q n p) : Res (List (Term q p)) := do
  let act := findActive M
  let cliques := act.eraseDups
  let cliques_ext ← addObs cliques act (List.finRange n)
  return (cliques_ext.map fun e => Term.glmm e.1 e.2.length (findLocalTerm e.1 e.2 M)) ++
    (List.finRange q).map fun i => Term.normal i 0 1

end Verif.Split
