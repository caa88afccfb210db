import Verif.Base.Res
import Mathlib.Data.Real.Basic
import Mathlib.Algebra.Order.Floor.Ring
import Mathlib.Data.Real.Archimedean

/-!
# Model of the model frames of `R/model_frames.R`

Numbers are real numbers. A model frame is a list with the fixed-effect design matrix `X` and, if
there are random effects, the list `reTrms` of `lme4`. Only the parts that enter the linear
predictor, the lower bounds and the sizes are kept: not kept are `fr`, `family`, `formula`, `Gp`,
`flist`, `cnms`, `Ztlist`, dimension names, and the values of the stored entries of `Lambdat`, which
every user of `Lambdat` overwrites by `theta[Lind]` (R/IS.R:16, src/GLMMBelief.cpp:79-89).
Missing and infinite numbers are not modelled; where the code would make one, the model fails.
-/
namespace Verif.Frames

/-- A matrix of R: sizes and entries, numbered from 0; entries outside are meaningless.
Used for R/model_frames.R:91-93. -/
structure Mat where
  nrow : ℕ
  ncol : ℕ
  e : ℕ → ℕ → ℝ

/-- Positions (row, column), from 0, of the stored entries of a sparse matrix in the order of
storage (by column). Used for R/model_frames.R:179-188. -/
structure Pattern where
  nrow : ℕ
  ncol : ℕ
  pos : List (ℕ × ℕ)

/-- The list `reTrms` made by `lme4::mkReTrms`. `lme4` sets no component called `upper`: reading it
gives `NULL`, the empty list. Used for R/model_frames.R:91-93. -/
structure ReTrms where
  Zt : Mat
  Lambdat : Pattern
  Lind : List ℕ
  theta : List ℝ
  lower : List ℝ
  upper : List ℝ

/-- A model frame; `has_reTrms` (R/model_frames.R:91-93) is `reTrms.isSome`. -/
structure Frame where
  X : Mat
  reTrms : Option ReTrms

/-- `m[idx, , drop = FALSE]` for row numbers from 0. Used for R/model_frames.R:100-111. -/
def Mat.rows (m : Mat) (idx : List ℕ) : Mat :=
  ⟨idx.length, m.ncol, fun i j => m.e (idx.getD i 0) j⟩

/-- `m[, idx, drop = FALSE]` for column numbers from 0. Used for R/model_frames.R:100-111. -/
def Mat.cols (m : Mat) (idx : List ℕ) : Mat :=
  ⟨m.nrow, idx.length, fun i j => m.e i (idx.getD j 0)⟩

/-- `m * a` in R: the vector is recycled along the columns of the matrix, one column after the
other. Fails for a vector longer than the matrix, or an empty one.
Used for R/model_frames.R:123-129. -/
def Mat.scale (m : Mat) (a : List ℝ) : Res Mat :=
  if m.nrow * m.ncol = 0 then Except.ok m
  else if a.length = 0 ∨ m.nrow * m.ncol < a.length then
    Res.raise "dims do not match the length of object"
  else Except.ok ⟨m.nrow, m.ncol, fun i j => m.e i j * a.getD ((i + m.nrow * j) % a.length) 0⟩

/-- `m + m'` for matrices of the same size. Used for R/model_frames.R:146-166. -/
def Mat.add (m m' : Mat) : Mat := ⟨m.nrow, m.ncol, fun i j => m.e i j + m'.e i j⟩

/-- `cbind(m, m')`. Used for R/model_frames.R:190-214. -/
def Mat.cbind (m m' : Mat) : Res Mat :=
  if m.nrow ≠ m'.nrow then Res.raise "number of rows of matrices must match"
  else Except.ok ⟨m.nrow, m.ncol + m'.ncol,
    fun i j => if j < m.ncol then m.e i j else m'.e i (j - m.ncol)⟩

/-- `rbind(m, m')`. Used for R/model_frames.R:195-206. -/
def Mat.rbind (m m' : Mat) : Res Mat :=
  if m.ncol ≠ m'.ncol then Res.raise "number of columns of matrices must match"
  else Except.ok ⟨m.nrow + m'.nrow, m.ncol,
    fun i j => if i < m.nrow then m.e i j else m'.e (i - m.nrow) j⟩

/-- R drops the fraction of a number used as an index. Used for R/model_frames.R:100-111. -/
noncomputable def truncate (x : ℝ) : ℤ := if 0 ≤ x then ⌊x⌋ else ⌈x⌉

/-- Rows or columns (from 0) selected by a numeric index into `n` of them: negative numbers
exclude, zeros are dropped, signs cannot be mixed, numbers that are too large are an error
("subscript out of bounds"). Used for R/model_frames.R:100-111. -/
noncomputable def select (n : ℕ) (v : List ℝ) : Res (List ℕ) :=
  let t := v.map truncate
  if t.any (· < 0) then
    if t.any (0 < ·) then Res.raise "can't mix positive and negative subscripts"
    else Except.ok ((List.range n).filter fun i => !t.contains (-((i : ℤ) + 1)))
  else
    let t := t.filter (0 < ·)
    if t.any ((n : ℤ) < ·) then Res.raise "subscript out of bounds"
    else Except.ok (t.map fun k => (k - 1).toNat)

/-- R/model_frames.R:100-111 `[fr`, for a numeric index. -/
noncomputable def indexFr (f : Frame) (i : List ℝ) : Res Frame := do
  let rows ← select f.X.nrow i
  match f.reTrms with
  | none => return ⟨f.X.rows rows, none⟩
  | some r =>
    let cols ← select r.Zt.ncol i
    return ⟨f.X.rows rows, some { r with Zt := r.Zt.cols cols }⟩

/-- R/model_frames.R:123-129, the part of `*fr` after the checks. -/
def scaleFr (f : Frame) (a : List ℝ) : Res Frame := do
  let X ← f.X.scale a
  match f.reTrms with
  | none => return ⟨X, none⟩
  | some r =>
    let Zt ← r.Zt.scale a
    return ⟨X, some { r with Zt := Zt }⟩

/-- R/model_frames.R:137, `1/a` of `/fr`; an infinite quotient is not modelled. -/
noncomputable def recip (a : List ℝ) : Res (List ℝ) :=
  if a.any (· = 0) then Res.raise "infinite number: not modelled"
  else Except.ok (a.map fun x => 1 / x)

/-- R/model_frames.R:146-166, the part of `+fr` after the first check. -/
def addFr (f g : Frame) : Res Frame :=
  if f.reTrms.isSome ≠ g.reTrms.isSome then Res.raise "Invalid use of `+fr`: Cannot add"
  else if f.X.nrow ≠ g.X.nrow ∨ f.X.ncol ≠ g.X.ncol then
    Res.raise "Invalid use of `+fr`: Dimension mismatch in model matrices"
  else match f.reTrms, g.reTrms with
    | some r, some s =>
      if r.Zt.nrow ≠ s.Zt.nrow ∨ r.Zt.ncol ≠ s.Zt.ncol then
        Res.raise "Invalid use of `+fr`: Dimension mismatch in model matrices"
      else Except.ok ⟨f.X.add g.X, some { r with Zt := r.Zt.add s.Zt }⟩
    | _, _ => Except.ok ⟨f.X.add g.X, f.reTrms⟩

/-- R/model_frames.R:175-176, the part of `-fr` after the check. -/
def subFr (f g : Frame) : Res Frame := do
  let m ← scaleFr g [-1]
  addFr f m

/-- R/model_frames.R:179-188 `concatenate_Matrix`: the entries of the second matrix are moved down
and right. (The triplets are already ordered by column, so `sparseMatrix` keeps their order.) -/
def concatenateMatrix (m m' : Pattern) : Pattern :=
  ⟨m.nrow + m'.nrow, m.ncol + m'.ncol,
    m.pos ++ m'.pos.map fun rc => (m.nrow + rc.1, m.ncol + rc.2)⟩

/-- R/model_frames.R:195-206 `concatenate_frames`, two lists of random effects. -/
def concatenateRe (r s : ReTrms) : Res ReTrms := do
  let Zt ← r.Zt.rbind s.Zt
  return {
    Zt := Zt
    theta := r.theta ++ s.theta
    Lind := r.Lind ++ s.Lind.map (· + r.theta.length)
    lower := r.lower ++ s.upper
    upper := r.upper
    Lambdat := concatenateMatrix r.Lambdat s.Lambdat }

/-- R/model_frames.R:190-214 `concatenate_frames`. -/
def concatenateFrames (f g : Frame) : Res Frame := do
  let X ← f.X.cbind g.X
  match f.reTrms, g.reTrms with
  | some r, some s =>
    let rs ← concatenateRe r s
    return ⟨X, some rs⟩
  | some r, none => return ⟨X, some r⟩
  | none, o => return ⟨X, o⟩

/-- R/model_frames.R:216-219 `attach_subframes`. `Reduce` of no frames is `NULL`, and concatenating
with `NULL` changes nothing. -/
def attachSubframes (f : Frame) (subframes : List Frame) : Res Frame :=
  match subframes with
  | [] => Except.ok f
  | g :: gs => do
    let c ← gs.foldlM concatenateFrames g
    concatenateFrames f c

end Verif.Frames
