import Verif.Model.Split

/-!
# Model of the functions that save a factorization to a file

A file is the list of its lines, a line the list of its words. Numbers are not rounded: `cat` writes 15
significant digits of `ret`, which is a character vector, and 7 of other numbers. The file name is not
the empty string (which stands for the console). A missing file is a file without lines.
-/
namespace Verif.SaveFile

open Verif.GLMM Verif.Split

variable {q n p : ℕ}

/-- A word: text or a number. Used for R/splitframe.R:40-42. -/
inductive Word : Type
  | tag (s : String)
  | num (x : ℝ)

/-- The lines of a file. Used for R/splitframe.R:103-122. -/
abbrev File := List (List Word)

/-- The elements of a matrix by columns, as in `c(..., lmodfr$X, ...)`.
Used for R/splitframe.R:88-100. -/
def byColumns {m r : ℕ} (A : Matrix (Fin m) (Fin r) ℝ) : List ℝ :=
  (List.finRange r).flatMap fun k => List.ofFn fun i => A i k

/-- R/splitframe.R:92-95 and 127-130, `as.numeric(rbind(@i, @j, @x))` of the stored entries: row,
column and value of one entry after the other. -/
def triplets {m r : ℕ} (entries : List ((Fin m × Fin r) × ℝ)) : List ℝ :=
  entries.flatMap fun e => [((e.1.1 : ℕ) : ℝ), ((e.1.2 : ℕ) : ℝ), e.2]

/-- `c("G", ..., lmodfr$resp, ...)`: a logical response (also that of a factor, R/splitframe.R:40-42) is
written in words. -/
noncomputable def respWord (logical : Bool) (y : ℝ) : Word :=
  if logical then Word.tag (if y ≠ 0 then "TRUE" else "FALSE") else Word.num y

/-- R/splitframe.R:88-100 `lmodfr_to_oneline`, the numbers of `ret` before the response. `x` are the
values of the stored entries of `lmodfr$Lambdat`. -/
def numbers (C : List (Fin q)) {m : ℕ} (d : Data C.length m p) (x : List ℝ) : List ℝ :=
  [(C.length : ℝ)] ++ C.map (fun i : Fin q => ((i : ℕ) : ℝ)) ++ [(m : ℝ), (p : ℝ)] ++ byColumns d.X ++
    byColumns d.Zt ++ [(d.entries.length : ℝ)] ++ triplets (d.entries.zip x) ++
    d.Lind.map (fun l : ℤ => (l : ℝ))

/-- R/splitframe.R:88-101 `lmodfr_to_oneline`, the line written. -/
noncomputable def oneLine (logical : Bool) (C : List (Fin q)) {m : ℕ} (d : Data C.length m p)
    (x : List ℝ) : List Word :=
  Word.tag "G" :: ((numbers C d x).map Word.num ++ (List.ofFn d.response).map (respWord logical) ++
    (List.ofFn d.weights).map Word.num)

/-- R/splitframe.R:35: the values of the stored entries of `Lambdat[C, C]`. -/
def subValues (L : Fin q → Fin q → ℝ) (M : ModFr q n p) (C : List (Fin q)) : List ℝ :=
  (subLambdat M C).map fun e => L (C.get e.1.1) (C.get e.1.2)

/-- R/splitframe.R:120 `cat("N", 1, i - 1, 0, 1, "\n", ...)`, with `i` counted from 0. -/
def normalLine (i : Fin q) : List Word :=
  [Word.tag "N", Word.num 1, Word.num ((i : ℕ) : ℝ), Word.num 0, Word.num 1]

/-- R/splitframe.R:103-122 `save_factorization_to_file`: the result, and the file after the call.
The file is removed at once (104); every line is appended. `logical`: the response is a factor or
logical; `L`: the values of `reTrms$Lambdat`. -/
noncomputable def saveFactorization (logical : Bool) (L : Fin q → Fin q → ℝ) (M : ModFr q n p)
    (_old : File) : Res Unit × File :=
  let file : File := []
  let act := findActive M
  let cliques := act.eraseDups
  match addObs cliques act (List.finRange n) with
  | Except.error e => (Except.error e, file)
  | Except.ok cliques_ext =>
    let file := cliques_ext.foldl (fun file e =>
      file ++ [oneLine logical e.1 (findLocalTerm e.1 e.2 M) (subValues L M e.1)]) file
    let file := (List.finRange q).foldl (fun file i => file ++ [normalLine i]) file
    (Except.ok (), file)

/-- R/splitframe.R:124-134 `save_normal`; `precision` are the stored entries. -/
def saveNormal {N : ℕ} (mean : Fin N → ℝ) (precision : List ((Fin N × Fin N) × ℝ)) (_old : File) :
    File :=
  [] ++ [(List.ofFn mean).map Word.num] ++
    [((precision.length : ℝ) :: triplets precision).map Word.num]

end Verif.SaveFile
