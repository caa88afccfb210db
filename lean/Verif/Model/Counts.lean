import Verif.Model.Hol

/-!
# Model of the code for a response with two columns

`cbind(successes, failures)` on the left of a formula makes `model.response(modfr$fr)` a matrix with
two columns. `M.resp` is not used here. Conversions of such a matrix to `Eigen::ArrayXd` give the array
of all its elements, by columns (RcppEigen). Binary operations of Eigen on arrays of different lengths
are refused by assertions, which R's compiler flags turn off (`-DNDEBUG`); then the result has the
length of the right operand, and only elements at its positions are read. In src/Binomial.cpp the right
operands of the operations with `response` have the length of the linear predictor.
-/
namespace Verif.Counts

open Verif.GLMM Verif.Split Verif.IS Verif.Family

variable {q n p r : ℕ}

/-- `as.numeric` of the response, by columns. Used for R/splitframe.R:30-60. -/
def asArray {m : ℕ} (Y : Matrix (Fin m) (Fin 2) ℝ) : List ℝ :=
  (List.ofFn fun i => Y i 0) ++ List.ofFn fun i => Y i 1

/-- The elements of an array that are read when the result has `m` elements.
Used for R/splitframe.R:30-60. -/
def operand (x : List ℝ) (m : ℕ) : Fin m → ℝ := fun i => x.getD i 0

/-- R/splitframe.R:30-60 `find_local_term`, with the branch R/splitframe.R:52-57 for a response with
several columns, as seen by src/Binomial.cpp:18-52 through the conversion of R/splitframe.R:71-77. -/
def findLocalTerm (C : List (Fin q)) (obs_C : List (Fin n)) (M : ModFr q n p)
    (Y : Matrix (Fin n) (Fin 2) ℝ) : Data C.length obs_C.length p :=
  { Split.findLocalTerm C obs_C M with
    response := operand (asArray (Matrix.of fun i k => Y (obs_C.get i) k)) obs_C.length }

/-- R/splitframe.R:62-86 `find_factorization_terms`. -/
def findFactorizationTerms (M : ModFr q n p) (Y : Matrix (Fin n) (Fin 2) ℝ) :
    Res (List (Split.Term q p)) := do
  let act := findActive M
  let cliques := act.eraseDups
  let cliques_ext ← addObs cliques act (List.finRange n)
  return (cliques_ext.map fun e => Split.Term.glmm e.1 e.2.length (findLocalTerm e.1 e.2 M Y)) ++
    (List.finRange q).map fun i => Split.Term.normal i 0 1

/-- R/hol.R:17-20: without weights there is one for each element of the response. -/
def weightsOf (M : ModFr q n p) (Y : Matrix (Fin n) (Fin 2) ℝ) : List ℝ := match M.weights with
  | none => List.replicate (asArray Y).length 1
  | some w => List.ofFn w

/-- R/hol.R:7-34 `find_epsilon_1`. -/
noncomputable def findEpsilon1 (family link : String) (pars : List ℝ) (M : ModFr q n p)
    (Y : Matrix (Fin n) (Fin 2) ℝ) (nTheta : ℕ) (approx : NormalApprox q) : Res ℝ := do
  let modfr_family ← Family.ofNames family link
  let eta_hat ← Hol.etaHat pars M nTheta approx
  let response := operand (asArray Y) n
  let weights := operand (weightsOf M Y) n
  let d3 ← modfr_family.evaluateThirdDerivative eta_hat response weights
  let d4 ← modfr_family.evaluateFourthDerivative eta_hat response weights
  let Mm ← Hol.findM pars M nTheta approx
  return Hol.epsilonOf (fun j => -(d3 j)) (fun j => -(d4 j)) Mm

/-- `binomial()$dev.resids` of R: the lengths of `mu` and `wt` must be 1 or that of `y`.
Used for R/IS.R:49-56. -/
def devResids (f : ℝ → ℝ → ℝ → ℝ) (y mu wt : List ℝ) : Res (List ℝ) :=
  if mu.length ≠ y.length ∧ mu.length ≠ 1 then
    Res.raise "argument mu must be a numeric vector of length 1 or length n"
  else if wt.length ≠ y.length ∧ wt.length ≠ 1 then
    Res.raise "argument wt must be a numeric vector of length 1 or length n"
  else Except.ok ((List.range y.length).map fun i =>
    f (y.getD i 0) (mu.getD (if mu.length = 1 then 0 else i) 0)
      (wt.getD (if wt.length = 1 then 0 else i) 0))

/-- R/IS.R:49-56: the deviance residuals in the closure `log_integrand`, for the `r` columns of `u`. -/
noncomputable def devResidsNum (fam : Fam) (M : ModFr q n p) (Y : Matrix (Fin n) (Fin 2) ℝ)
    (XBeta : List ℝ) (LambdatThetaZt : Matrix (Fin q) (Fin n) ℝ) (u : Matrix (Fin q) (Fin r) ℝ) :
    Res (List ℝ) :=
  let eta_num := findEta u XBeta LambdatThetaZt
  let mu_num := eta_num.map fam.linkinv
  let y_rep := repEach (asArray Y) r
  let weights_rep := repEach (weightsOf M Y) r
  devResids fam.devResid y_rep mu_num weights_rep

end Verif.Counts
