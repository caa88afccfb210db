import Verif.Model.Split
import Mathlib.Analysis.SpecialFunctions.Sqrt
import Mathlib.Analysis.Real.Pi.Bounds

/-!
# Model of `R/IS.R`

Numbers are real numbers; a missing value that would reach the result is modelled as an error. A
vector is a list, a matrix passed through `as.numeric` or made by `matrix(., nrow)` is stored by
columns. The model frame is that of `Model/Split.lean`; `nTheta` is `length(modfr$reTrms$theta)`.
-/
namespace Verif.IS

open Verif.Split Matrix

variable {q n p r : ℕ}

/-! ## Base R -/

/-- `a:b`, which counts down when `b < a`. Used for R/IS.R:1-6. -/
def colon (a b : ℕ) : List ℕ :=
  if a ≤ b then (List.range (b - a + 1)).map fun i => a + i
  else (List.range (a - b + 1)).map fun i => a - i

/-- `x[idx]`: index 0 is dropped, an index beyond the end gives a missing value.
Used for R/IS.R:1-6. -/
def index (x : List ℝ) (idx : List ℕ) : List (Option ℝ) :=
  (idx.filter fun i => i ≠ 0).map fun i => x[i - 1]?

/-- `rep(x, each = r)`. Used for R/IS.R:20-35. -/
def repEach {α : Type} (x : List α) (r : ℕ) : List α := x.flatMap fun a => List.replicate r a

/-- `as.numeric(A)` for a matrix. Used for R/IS.R:20-35. -/
def asNumeric (A : Matrix (Fin r) (Fin n) ℝ) : List ℝ :=
  (List.finRange n).flatMap fun j => (List.finRange r).map fun s => A s j

/-- Row sums of `matrix(x, nrow = r)`, a matrix with `n` columns. Used for R/IS.R:49-58. -/
def rowSums (x : List ℝ) (r n : ℕ) (s : Fin r) : ℝ := ∑ j : Fin n, x.getD (s + r * j) 0

/-- `dnorm(x, log = TRUE)`. Used for R/IS.R:49-58. -/
noncomputable def logDnorm (x : ℝ) : ℝ := -(x ^ 2 / 2) - Real.log √(2 * Real.pi)

/-- `X %*% v` for a vector. When the length of `v` is not the number of columns, `v` is taken as a
row if there is one column (this does not occur here), the result is a matrix without columns if there
are none (`do_matprod`), and it is an error otherwise. Used for R/IS.R:1-6. -/
noncomputable def matprod (X : Matrix (Fin n) (Fin p) ℝ) (v : List (Option ℝ)) : Res (List ℝ) :=
  if v.length = p then
    match v.mapM id with
    | some b => Except.ok (List.ofFn fun i => ∑ k : Fin p, X i k * b.getD k 0)
    | none => if n = 0 then Except.ok [] else Res.raise "NA"
  else if p = 0 then Except.ok []
  else Res.raise "non-conformable arguments"

/-! ## `R/IS.R` -/

/-- R/IS.R:1-6 `find_XBeta`. -/
noncomputable def findXBeta (pars : List ℝ) (M : ModFr q n p) (nTheta : ℕ) : Res (List ℝ) :=
  matprod M.X (index pars (colon (nTheta + 1) (nTheta + p)))

/-- R/IS.R:13-16: the entries of `LambdatTheta`. -/
def lambdatTheta (theta : List (Option ℝ)) (M : ModFr q n p) (i c : Fin q) : Option ℝ :=
  match lindAt M i c with
  | none => some 0
  | some l => (theta[(l - 1).toNat]?).join

open Classical in
/-- R/IS.R:8-18 `find_LambdatThetaZt`. -/
noncomputable def findLambdatThetaZt (pars : List ℝ) (M : ModFr q n p) (nTheta : ℕ) :
    Res (Matrix (Fin q) (Fin n) ℝ) :=
  let theta := index pars (colon 1 nTheta)
  if ∃ i c, lambdatTheta theta M i c = none then Res.raise "NA"
  else Except.ok ((Matrix.of fun i c => (lambdatTheta theta M i c).getD 0) * M.Zt)

/-- R/IS.R:20-35 `find_eta`, for a matrix `u` with `r` columns (or a vector, with `r = 1`). -/
noncomputable def findEta (u : Matrix (Fin q) (Fin r) ℝ) (XBeta : List ℝ)
    (LambdatThetaZt : Matrix (Fin q) (Fin n) ℝ) : List ℝ :=
  let utLambdatThetaZt_num := asNumeric (uᵀ * LambdatThetaZt)
  if XBeta.length > 0 then List.zipWith (· + ·) (repEach XBeta r) utLambdatThetaZt_num
  else utLambdatThetaZt_num

/-- The functions of `modfr$family` that are used; they work on each element.
Used for R/IS.R:49-58. -/
structure Fam where
  linkinv : ℝ → ℝ
  devResid : ℝ → ℝ → ℝ → ℝ

/-- R/IS.R:42-44: weights, one for each observation if there are none. -/
def weightsOf (M : ModFr q n p) : List ℝ := match M.weights with
  | none => List.replicate n 1
  | some w => List.ofFn w

/-- R/IS.R:49-58, the closure `log_integrand`: one value for each column of `u`. -/
noncomputable def logIntegrand (fam : Fam) (M : ModFr q n p) (XBeta : List ℝ)
    (LambdatThetaZt : Matrix (Fin q) (Fin n) ℝ) (u : Matrix (Fin q) (Fin r) ℝ) (s : Fin r) : ℝ :=
  let eta_num := findEta u XBeta LambdatThetaZt
  let mu_num := eta_num.map fam.linkinv
  let y_rep := repEach (List.ofFn M.resp) r
  let weights_rep := repEach (weightsOf M) r
  let dev_resids_num := List.zipWith (fun f w => f w)
    (List.zipWith (fun y m => fam.devResid y m) y_rep mu_num) weights_rep
  (-1 / 2) * rowSums dev_resids_num r n s + ∑ i, logDnorm (u i s)

/-- R/IS.R:38-60 `find_log_integrand`. -/
noncomputable def findLogIntegrand (fam : Fam) (pars : List ℝ) (M : ModFr q n p) (nTheta : ℕ) :
    Res (∀ r, Matrix (Fin q) (Fin r) ℝ → Fin r → ℝ) := do
  let XBeta ← findXBeta pars M nTheta
  let LambdatThetaZt ← findLambdatThetaZt pars M nTheta
  return fun _ u s => logIntegrand fam M XBeta LambdatThetaZt u s

/-- R/loglikelihood.R:80-90: the normal approximation. -/
structure NormalApprox (q : ℕ) where
  mean : Fin q → ℝ
  precision : Matrix (Fin q) (Fin q) ℝ

/-- R/IS.R:62-65 `transform_normal`; `chol` is LAPACK's Cholesky factorization
(`base::chol.default`). -/
noncomputable def transformNormal (chol : Matrix (Fin q) (Fin q) ℝ → Matrix (Fin q) (Fin q) ℝ)
    (z : Matrix (Fin q) (Fin r) ℝ) (approx : NormalApprox q) : Matrix (Fin q) (Fin r) ℝ :=
  let C := (chol approx.precision)⁻¹
  Matrix.of fun i s => approx.mean i + (Cᵀ * z) i s

/-- R/IS.R:67-73 `find_log_weights`. -/
noncomputable def findLogWeights (chol : Matrix (Fin q) (Fin q) ℝ → Matrix (Fin q) (Fin q) ℝ)
    (z : Matrix (Fin q) (Fin r) ℝ) (log_integrand : Matrix (Fin q) (Fin r) ℝ → Fin r → ℝ)
    (approx : NormalApprox q) (s : Fin r) : ℝ :=
  let u := transformNormal chol z approx
  let log_det_prec := Real.log |approx.precision.det|
  let normal_part := ∑ i, logDnorm (z i s) + log_det_prec / 2
  log_integrand u s - normal_part

/-- R/IS.R:83-84: the logarithm of the mean of the weights. -/
noncomputable def logMeanExp (log_weights : Fin r → ℝ) : ℝ :=
  let b := (∑ s, log_weights s) / r
  Real.log ((∑ s, Real.exp (log_weights s - b)) / r) + b

/-- R/IS.R:79-85, the closure `lfun`; `approx` is `compute_normal_approx` at these parameters, `z` the
samples drawn in R/IS.R:77. -/
noncomputable def lfun (chol : Matrix (Fin q) (Fin q) ℝ → Matrix (Fin q) (Fin q) ℝ) (fam : Fam)
    (M : ModFr q n p) (nTheta : ℕ) (approx : NormalApprox q) (z : Matrix (Fin q) (Fin r) ℝ)
    (pars : List ℝ) : Res ℝ := do
  let log_integrand ← findLogIntegrand fam pars M nTheta
  return logMeanExp (findLogWeights chol z (log_integrand r) approx)

end Verif.IS
