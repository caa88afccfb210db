import Verif.Model.SR
import Verif.Model.IS
import Verif.Model.Control

/-!
# Model of `R/loglikelihood.R` for the sequential reduction approximation

Numbers are real numbers. `calibration_pars` is a reference object: assignments in `lfun` change the
object created by `find_lfun_SR`, so `lfun` is a program with that object as its state. The cluster
graph is passed to C++ by constant reference and is not changed (src/ClusterGraph.cpp:327-333).
-/
namespace Verif.Lfun

open Verif.Pars Verif.ClusterGraph Verif.Belief Verif.Gauss Verif.SR Matrix

variable {q n p : ℕ}

open Classical in
/-- R/utility.R:76-83 `check_weights`; no weights (`NULL`) are the empty list. The tolerance
`.Machine$double.eps^0.5` is `2^(-26)`. `round` of R rounds halves to even, here up; this makes no
difference to the distance. -/
noncomputable def checkWeights (weights : List ℝ) : Res Unit :=
  if weights.length > 0 then
    if ∀ w ∈ weights, |w - round w| < (2 : ℝ)⁻¹ ^ 26 then Except.ok ()
    else Res.raise "Cannot currently handle non-integer weights"
  else Except.ok ()

/-- R/utility.R:85-94 `check_modfr_SR`. -/
def checkModfrSR (family link : String) : Res Unit :=
  if family ≠ "binomial" then
    Res.raise "Only binomial family currently implemented for sequential reduction approximation"
  else if ¬ link ∈ ["logit", "probit"] then
    Res.raise
      "Only logit and probit links currently implemented for sequential reduction approximation"
  else Except.ok ()

/-- Conversion of a number to `int` (`Rcpp::as<int>`): towards 0; `NA_integer_`, the least `int`, if
out of range. Used for R/loglikelihood.R:46-49. -/
noncomputable def asInt (x : ℝ) : ℤ :=
  let k := if 0 ≤ x then ⌊x⌋ else ⌈x⌉
  if -(2 : ℤ) ^ 31 < k ∧ k < 2 ^ 31 then k else -(2 : ℤ) ^ 31

/-- R/loglikelihood.R:44, the terms as beliefs (R/splitframe.R:62-86). -/
noncomputable def factorizationTerms (lib : Lib) (M : Split.ModFr q n p) :
    Res (List (Mixed Factor NB)) := do
  let terms ← Split.findFactorizationTerms M
  terms.mapM (beliefOf lib Parameters.empty)

/-- R/loglikelihood.R:46-49: assignments to the object `calibration_pars`. -/
noncomputable def configure (env : Env) (family link : String) (nSL nAGQ : ℝ) :
    Prog Parameters Unit := do
  setParametersNQuadraturePoints env (asInt nAGQ)
  setParametersNSparseLevels env (asInt nSL)
  setParametersFamily family
  setParametersLink link

/-- R/loglikelihood.R:45-49. -/
noncomputable def calibrationPars (env : Env) (family link : String) (nSL nAGQ : ℝ) :
    Res Parameters := do
  let p0 ← makeParametersR env
  let r := (configure env family link nSL nAGQ).exec p0
  let _ ← r.1
  return r.2

open Classical in
/-- R/loglikelihood.R:38-58, `find_lfun_SR` up to the definition of `lfun`: the object
`calibration_pars` and the cluster graph. -/
noncomputable def findLfunSR (lib : Lib) (env : Env) (M : Split.ModFr q n p)
    (family link : String) (nSL nAGQ : ℝ) : Res (Parameters × CG (Mixed Factor NB)) := do
  let _ ← checkModfrSR family link
  let factorization_terms ← factorizationTerms lib M
  let calibration_pars ← calibrationPars env family link nSL nAGQ
  let beliefs ← ofBeliefs lib.ar (SR.ops lib calibration_pars) factorization_terms
  if (width (SR.ops lib calibration_pars) beliefs : ℝ) ^ (2 * nSL) > 5e5 then
    Res.raise "The sequential reduction approximation is too difficult to compute in this case"
  else return (calibration_pars, beliefs)

/-- R/loglikelihood.R:25-27: the branch of `find_lfun_glmm_internal` for `method = "SR"`, with the
options found by `find_control_with_defaults`. Options that are not numbers are left out. -/
noncomputable def findLfunInternalSR (lib : Lib) (env : Env) (M : Split.ModFr q n p)
    (family link : String) (control : Control.RList) : Res (Parameters × CG (Mixed Factor NB)) :=
  match Control.get control "nSL", Control.get control "nAGQ" with
  | some (.num nSL), some (.num nAGQ) => findLfunSR lib env M family link nSL nAGQ
  | _, _ => Res.raise "not a number"

/-- The state of lme4's deviance function after an evaluation: R/loglikelihood.R:83-86 and 88. -/
structure PP (q : ℕ) where
  L : Matrix (Fin q) (Fin q) ℝ
  P : Matrix (Fin q) (Fin q) ℝ
  delu : Fin q → ℝ

/-- R/loglikelihood.R:80-90 `compute_normal_approx`: the log-likelihood of the Laplace approximation
and the normal approximation, from what lme4's deviance function returns and leaves behind. -/
noncomputable def computeNormalApprox (r : ℝ × PP q) : ℝ × IS.NormalApprox q :=
  (-r.1 / 2, ⟨r.2.delu, r.2.Pᵀ * (r.2.L * r.2.Lᵀ) * r.2.P⟩)

/-- `pars[1:n_random]`; without random effects this is `pars[c(1, 0)]`, the first element.
Used for R/loglikelihood.R:60-76. -/
def takeTheta (nTheta : ℕ) (pars : List ℝ) : List ℝ := pars.take (max 1 nTheta)

/-- `pars[-(1:n_random)]`. Used for R/loglikelihood.R:60-76. -/
def dropTheta (nTheta : ℕ) (pars : List ℝ) : List ℝ := pars.drop (max 1 nTheta)

open Classical in
/-- R/loglikelihood.R:69-75; `r` is the result of `compute_normal_approx`. -/
noncomputable def checkedValue (lib : Lib) (calibration_pars : Parameters)
    (beliefs : CG (Mixed Factor NB)) (r : ℝ × IS.NormalApprox q) : Res ℝ := do
  let l_SR ← computeLogNormalizingConstant lib calibration_pars beliefs r.2.mean r.2.precision
  if l_SR > r.1 / 2 then
    Res.raise "Suspect sequential reduction approximation is unstable"
  else return l_SR

/-- R/loglikelihood.R:60-76, `lfun`. `devfun` is lme4's deviance function. -/
noncomputable def lfun (lib : Lib) (nFixed nTheta : ℕ) (beliefs : CG (Mixed Factor NB))
    (devfun : List ℝ → Res (ℝ × PP q)) (pars : List ℝ) : Prog Parameters ℝ := do
  if pars.length ≠ nFixed + nTheta then
    call (Res.raise "cannot compute loglikelihood for parameter of this length")
  else
    setTheta (takeTheta nTheta pars)
    setBeta (dropTheta nTheta pars)
    let r ← call (devfun pars)
    let calibration_pars ← get
    call (checkedValue lib calibration_pars beliefs (computeNormalApprox r))

/-- A sequence of calls of `lfun`; errors are caught by R (`tryCatch`, R/optimization.R:24-30) and the
session goes on with the object as it is. The results, in order. -/
noncomputable def calls (lib : Lib) (nFixed nTheta : ℕ) (beliefs : CG (Mixed Factor NB))
    (devfun : List ℝ → Res (ℝ × PP q)) : List (List ℝ) → Parameters → List (Res ℝ)
  | [], _ => []
  | x :: xs, s =>
    let r := (lfun lib nFixed nTheta beliefs devfun x).exec s
    r.1 :: calls lib nFixed nTheta beliefs devfun xs r.2

end Verif.Lfun
