import Verif.Model.Lfun
import Verif.Model.Divergence
import Verif.Model.Fit

/-!
# Model of `find_lfun_glmm` (`R/loglikelihood.R`, `R/laplace.R`) and of `glmm` (`R/fit.R`)

The choice of the likelihood approximation and of its options, and the whole of `glmm` except for the
making of the model frame. A likelihood function is a program over the object `calibration_pars` of
`Model/Lfun.lean`, which only the sequential reduction approximation uses. Options that are not
numbers where a number is needed are an error here; R would convert logical values, and stop for most
others.
-/
namespace Verif.Whole

open Verif.Pars Verif.SR Verif.Lfun Verif.Fit Matrix

variable {q n p : ℕ}

/-- What is used of a model frame (R/model_frames.R:190-214), for `q` random effects, `n` observations
and `p` fixed effects: `nTheta` is `length(modfr$reTrms$theta)`, `lower` is `modfr$reTrms$lower`, and
`family`, `link` and `fam` belong to `modfr$family`. -/
structure Frame (q n p : ℕ) where
  M : Split.ModFr q n p
  nTheta : ℕ
  lower : List ℝ
  family : String
  link : String
  fam : IS.Fam

/-- What is done by other packages. `devfun nAGQ` is lme4's deviance function with `nAGQ` quadrature
points (`mkGlmerDevfun` and `updateGlmerDevfun`, which may stop), `rnorm m` are `m` random numbers,
`chol` is the Cholesky factorization, `grad` and `hessian` are those of numDeriv, `ops` is for
R/control.R; the rest is as in `Model/SR.lean` and `Model/Parameters.lean`. -/
structure Ext (q : ℕ) where
  lib : Lib
  env : Env
  ops : Control.Ops
  devfun : ℝ → Res (List ℝ → Res (ℝ × PP q))
  rnorm : ℕ → List ℝ
  chol : Matrix (Fin q) (Fin q) ℝ → Matrix (Fin q) (Fin q) ℝ
  grad : (m : ℕ) → ((Fin m → ℝ) → Res ℝ) → (Fin m → ℝ) → Res (Fin m → ℝ)
  hessian : (m : ℕ) → ((Fin m → ℝ) → Res ℝ) → (Fin m → ℝ) → Res (Matrix (Fin m) (Fin m) ℝ)

/-- A likelihood function. Used for R/laplace.R:11-25. -/
abbrev LFun := List ℝ → Prog Parameters ℝ

/-! ## `R/utility.R` and `R/laplace.R` -/

/-- `eval(parse(text = paste(family, "()", sep = "")))$link` (R/utility.R:97): the link of the families
of package stats. Other names are not families there, and this stops. -/
def defaultLink : String → Res String
  | "binomial" => Except.ok "logit"
  | "gaussian" => Except.ok "identity"
  | "Gamma" => Except.ok "inverse"
  | "inverse.gaussian" => Except.ok "1/mu^2"
  | "poisson" => Except.ok "log"
  | "quasi" => Except.ok "identity"
  | "quasibinomial" => Except.ok "logit"
  | "quasipoisson" => Except.ok "log"
  | _ => Res.raise "could not find function"

/-- R/utility.R:96-99 `is_canonical`. -/
def isCanonical (family link : String) : Res Bool := do
  let canonical_link ← defaultLink family
  return link = canonical_link

open Classical in
/-- R/laplace.R:1-9 `check_if_order_implemented`. (`&` evaluates both sides.) -/
noncomputable def checkIfOrderImplemented (family link : String) (order : ℝ) : Res Unit := do
  if order > 2 then Res.raise "Laplace approximation not yet implemented"
  else
    let canonical ← isCanonical family link
    if order > 1 ∧ ¬ canonical then
      Res.raise "Laplace approximation not yet implemented for non-canonical link functions"
    else return ()

/-- R/laplace.R:14 and R/loglikelihood.R:35: half the negative deviance. -/
noncomputable def halfDeviance (devfun : List ℝ → Res (ℝ × PP q)) (x : List ℝ) : Res ℝ := do
  let r ← devfun x
  return -r.1 / 2

/-- R/hol.R:7-8: `find_epsilon_1` with the normal approximation at the parameters. -/
noncomputable def epsilonAt (F : Frame q n p) (devfun : List ℝ → Res (ℝ × PP q)) (x : List ℝ) :
    Res ℝ := do
  let r ← devfun x
  Hol.findEpsilon1 F.family F.link x F.M F.nTheta (computeNormalApprox r).2

open Classical in
/-- R/laplace.R:11-25 `find_lfun_Laplace`. -/
noncomputable def findLfunLaplace (F : Frame q n p) (devfun_laplace_1 : List ℝ → Res (ℝ × PP q))
    (order : ℝ) : Res LFun :=
  if order = 1 then Except.ok fun x => call (halfDeviance devfun_laplace_1 x)
  else do
    let _ ← checkIfOrderImplemented F.family F.link order
    if order = 2 then
      return fun x => call (do
        let epsilon_1 ← epsilonAt F devfun_laplace_1 x
        let l ← halfDeviance devfun_laplace_1 x
        return l + epsilon_1)
    else Res.raise "object 'lfun' not found"

/-! ## `R/loglikelihood.R` -/

/-- R/loglikelihood.R:33-36 `find_lfun_AGQ`. -/
noncomputable def findLfunAGQ (X : Ext q) (nAGQ : ℝ) : Res LFun := do
  let devfun_AGQ ← X.devfun nAGQ
  return fun x => call (halfDeviance devfun_AGQ x)

/-- R/loglikelihood.R:38-78 `find_lfun_SR`: the object and the function. -/
noncomputable def findLfunSR (X : Ext q) (F : Frame q n p)
    (devfun_lme4 : List ℝ → Res (ℝ × PP q)) (nSL nAGQ : ℝ) : Res (Parameters × LFun) := do
  let r ← Lfun.findLfunSR X.lib X.env F.M F.family F.link nSL nAGQ
  return (r.1, Lfun.lfun X.lib p F.nTheta r.2 devfun_lme4)

open Classical in
/-- R/IS.R:76-77 `matrix(rnorm(n * nIS), nrow = n)`: the number of random numbers is rounded down, the
number of columns up, and the matrix is filled by columns, from the start again if there are not enough
numbers. -/
noncomputable def samples (X : Ext q) (nIS : ℝ) : Res (Σ r : ℕ, Matrix (Fin q) (Fin r) ℝ) :=
  if q * nIS < 0 then Res.raise "invalid arguments"
  else
    let m := ⌊q * nIS⌋₊
    let z := X.rnorm m
    return ⟨(m + q - 1) / q, Matrix.of fun i s => z.getD ((i + q * s) % m) 0⟩

/-- R/IS.R:75-88 `find_lfun_IS`. Without samples the mean is missing, here an error. -/
noncomputable def findLfunIS (X : Ext q) (F : Frame q n p)
    (devfun_laplace : List ℝ → Res (ℝ × PP q)) (nIS : ℝ) : Res LFun := do
  let z ← samples X nIS
  return fun x => call (do
    let r ← devfun_laplace x
    if z.1 = 0 then Res.raise "NaN"
    else IS.lfun X.chol F.fam F.M F.nTheta (computeNormalApprox r).2 z.2 x)

/-- `control$name` where a number is needed. Used for R/loglikelihood.R:20-31. -/
def number (control : Control.RList) (name : String) : Res ℝ :=
  match Control.get control name with
  | some (.num x) => Except.ok x
  | _ => Res.raise "not a number"

/-- R/loglikelihood.R:20-31 `find_lfun_glmm_internal`. The object is only used by SR. -/
noncomputable def findLfunGlmmInternal (X : Ext q) (F : Frame q n p) (method : String)
    (control : Control.RList) (devfun_laplace_1 : List ℝ → Res (ℝ × PP q)) :
    Res (Parameters × LFun) :=
  if method = "Laplace" then do
    let order ← number control "order"
    let f ← findLfunLaplace F devfun_laplace_1 order
    return (Parameters.empty, f)
  else if method = "AGQ" then do
    let nAGQ ← number control "nAGQ"
    let f ← findLfunAGQ X nAGQ
    return (Parameters.empty, f)
  else if method = "SR" then do
    let nSL ← number control "nSL"
    let nAGQ ← number control "nAGQ"
    findLfunSR X F devfun_laplace_1 nSL nAGQ
  else if method = "IS" then do
    let nIS ← number control "nIS"
    let f ← findLfunIS X F devfun_laplace_1 nIS
    return (Parameters.empty, f)
  else Res.raise ""

/-- R/loglikelihood.R:5-11 `find_lfun_glmm` with 13-18 `find_devfun_laplace_1`. (The warnings of
R/control.R are left out.) -/
noncomputable def findLfunGlmm (X : Ext q) (F : Frame q n p) (method : List String)
    (control : Control.Arg) : Res (Parameters × LFun) := do
  let devfun_laplace_1 ← X.devfun 1
  let con ← Control.findControlWithDefaults X.ops control method
  let m ← match method with
    | [m] => (Except.ok m : Res String)
    | _ => Res.raise "EXPR must be a length 1 vector"
  findLfunGlmmInternal X F m con.1 devfun_laplace_1

/-- A sequence of calls of a likelihood function; errors are caught by R and the session goes on with
the object as it is. The results, in order. Used for R/optimization.R:24-30. -/
noncomputable def calls (f : LFun) : List (List ℝ) → Parameters → List (Res ℝ)
  | [], _ => []
  | x :: xs, s =>
    let r := (f x).exec s
    r.1 :: calls f xs r.2

/-! ## `R/fit.R` -/

/-- The result of `find_modfr_glmm` (R/fit.R:53-54): a model frame with or without random effects
(`has_reTrms`, R/model_frames.R:91-93). -/
inductive Modfr (q n p : ℕ) where
  | fixed
  | random (F : Frame q n p)

/-- The text of a warning of R/control.R:59-65. -/
def message : Control.Warning → String
  | .unknown names => "unknown names in control: " ++ String.intercalate ", " names
  | .ignored method names =>
    "For method = " ++ method ++ "parts of control were ignored: " ++ String.intercalate ", " names

/-- `warning(.)` for each of the warnings. Used for R/fit.R:46-91. -/
def warn (ws : List Control.Warning) : Run Unit := ⟨[], ws.map message, Except.ok ()⟩

/-- R/fit.R:65 and 67: the threshold if `con$check_Laplace` is true. -/
noncomputable def threshold (con : Control.RList) : Res (Option ℝ) :=
  match Control.get con "check_Laplace" with
  | some (.bool true) => do
    let t ← number con "divergence_threshold"
    return some t
  | some (.bool false) => Except.ok none
  | _ => Res.raise "argument is not interpretable as logical"

/-- R/fit.R:66 `find_laplace_divergence(opt, modfr, devfun_laplace_1)`, R/hol.R:44-65. -/
noncomputable def divergence (X : Ext q) (F : Frame q n p)
    (devfun_laplace_1 : List ℝ → Res (ℝ × PP q)) (opt : Opt) : Res ℝ :=
  Hol.findLaplaceDivergence (X.grad opt.estim.length) (X.hessian opt.estim.length)
    (fun x => epsilonAt F devfun_laplace_1 (List.ofFn x))
    ⟨fun i => opt.estim[i], Matrix.of fun i j => ((opt.Sigma.getD i []).getD j none).getD 0⟩ false

/-- The optimiser and the routines of R/optimization.R, apart from the likelihood. -/
structure Routines where
  optim : List ℝ → Trace
  solve : List (List ℝ) → Res (List (List ℝ))
  smallEigenvalue : List (List ℝ) → Bool

/-- The arguments of `optimize_glmm`. The likelihood function is called many times with the same
object; it is taken here as a function, the result of a call on the original object. This makes no
difference by `c85_history`. Used for R/fit.R:46-91. -/
noncomputable def boxOf (R : Routines) (lf : Parameters × LFun) : Box :=
  ⟨fun x => ((lf.2 x).exec lf.1).1, R.optim, R.solve, R.smallEigenvalue⟩

/-- R/fit.R:46-91 `glmm`. The model frame is an argument; with it come the numbers of random effects,
observations and fixed effects. -/
noncomputable def glmm (X : Ext q) (R : Routines) (modfr : Res (Modfr q n p)) (method : List String)
    (control : Control.Arg) (weights : List ℝ) (prev_fit : Option (List ℝ)) : Run Result := do
  Run.lift (checkWeights weights)
  let con ← Run.lift (Control.findControlWithDefaults X.ops control method)
  warn con.2
  let modfr ← Run.lift modfr
  match modfr with
  | .fixed => Run.lift (Res.raise "haven't yet implemented no random effects case")
  | .random F => do
    let devfun_laplace_1 ← Run.lift (X.devfun 1)
    let lfun ← Run.lift (findLfunGlmmInternal X F (method.getD 0 "") con.1 devfun_laplace_1)
    let opt ← optimizeGlmm (boxOf R lfun) p F.nTheta prev_fit
    let t ← Run.lift (threshold con.1)
    checkLaplace t (divergence X F devfun_laplace_1) opt
    finish F.lower F.nTheta opt

end Verif.Whole
