import Verif.Model.IS
import Mathlib.Order.WithBot
import Mathlib.Algebra.Order.Monoid.Unbundled.WithTop

/-!
# Model of the fitting of a model: `R/optimization.R`, `R/fit.R`, `R/glmmFit.R`

Numbers are real numbers; `Inf` is `⊤`; a missing value in a result is `none`, a missing value in a
condition is an error. The optimiser, the likelihood function, `solve` and `eigen` are arbitrary. What
is printed, and the time it takes, is not modelled.
-/
namespace Verif.Fit

open Verif.IS

/-! ## Computations that call the likelihood and give warnings -/

/-- The outcome of a computation: the parameters at which the likelihood function was called, in order,
the warnings, and the value or error. Used for R/optimization.R:24-30. -/
structure Run (α : Type) where
  calls : List (List ℝ)
  warnings : List String
  res : Res α

namespace Run

/-- Sequencing: an error ends the computation. Used for R/optimization.R:11-92. -/
def bind {α β : Type} (x : Run α) (f : α → Run β) : Run β := match x.res with
  | Except.error e => ⟨x.calls, x.warnings, Except.error e⟩
  | Except.ok a => ⟨x.calls ++ (f a).calls, x.warnings ++ (f a).warnings, (f a).res⟩

instance : Monad Run where
  pure a := ⟨[], [], Except.ok a⟩
  bind := bind

/-- A computation without calls and warnings. Used for R/optimization.R:20-44. -/
def lift {α : Type} (r : Res α) : Run α := ⟨[], [], r⟩

/-- `warning(.)` if a condition holds. Used for R/optimization.R:11-92. -/
def warnIf (c : Prop) [Decidable c] (msg : String) : Run Unit :=
  ⟨[], if c then [msg] else [], Except.ok ()⟩

end Run

/-! ## Base R -/

open Classical in
/-- `any(x > b)`: a missing value counts only if nothing is true. Used for R/optimization.R:20-44. -/
noncomputable def anyGt (x : List (Option ℝ)) (b : ℝ) : Res Bool :=
  if ∃ v, some v ∈ x ∧ v > b then Except.ok true
  else if none ∈ x then Res.raise "missing value where TRUE/FALSE needed"
  else Except.ok false

/-- `x + y` for vectors, with recycling. Used for R/optimization.R:45-48. -/
noncomputable def radd (x y : List ℝ) : List ℝ :=
  if x = [] ∨ y = [] then []
  else (List.range (max x.length y.length)).map fun i =>
    x.getD (i % x.length) 0 + y.getD (i % y.length) 0

/-! ## `R/optimization.R` -/

/-- What an optimiser does with the function it is given: it returns parameters, a Hessian matrix and a
convergence code, stops, or asks for the value at a point and goes on depending on the answer.
Used for R/optimization.R:11-92. -/
inductive Trace where
  | done (par : List ℝ) (hessian : List (List ℝ)) (convergence : ℤ)
  | stop (msg : String)
  | ask (x : List ℝ) (next : WithTop ℝ → Trace)

/-- Running an optimiser with a function. Used for R/optimization.R:11-92. -/
def Trace.run (fn : List ℝ → Run (WithTop ℝ)) : Trace → Run (List ℝ × List (List ℝ) × ℤ)
  | done par hessian convergence => pure (par, hessian, convergence)
  | stop msg => Run.lift (Res.raise msg)
  | ask x next => Run.bind (fn x) fun v => (next v).run fn

/-- The black boxes: the likelihood function, `optim` (for given starting parameters), `solve`,
and whether `eigen` finds an eigenvalue below 1e-6 in absolute value.
Used for R/optimization.R:24-30. -/
structure Box where
  lfun : List ℝ → Res ℝ
  optim : List ℝ → Trace
  solve : List (List ℝ) → Res (List (List ℝ))
  smallEigenvalue : List (List ℝ) → Bool

/-- R/optimization.R:24-30: the call of the likelihood function. An undefined behaviour cannot be
caught. -/
noncomputable def callLfun (B : Box) (param : List ℝ) (stop_on_error : Bool) : Run (WithTop ℝ) :=
  ⟨[param], [], match B.lfun param with
    | Except.ok v => Except.ok ((-2 * v : ℝ) : WithTop ℝ)
    | Except.error (.throw msg) =>
      if stop_on_error then Except.error (.throw msg) else Except.ok ⊤
    | Except.error .ub => Except.error .ub⟩

/-- R/optimization.R:20-44 `devfun_ext`. -/
noncomputable def devfunExt (B : Box) (p_theta : ℕ) (param : List ℝ) (stop_on_error : Bool)
    (big : WithTop ℝ) : Run (WithTop ℝ) := do
  let out ← Run.lift (anyGt ((index param (colon 1 p_theta)).map fun x => x.map fun v => |v|) 5)
  if out then pure big else callLfun B param stop_on_error

/-- R/optimization.R:45-48 `devfun_std`. -/
noncomputable def devfunStd (B : Box) (p_theta : ℕ) (mu param_std : List ℝ) (stop_on_error : Bool)
    (big : WithTop ℝ) : Run (WithTop ℝ) :=
  devfunExt B p_theta (radd param_std mu) stop_on_error big

/-- The list returned by `optimize_glmm`. Used for R/optimization.R:11-92. -/
structure Opt where
  estim : List ℝ
  Sigma : List (List (Option ℝ))

/-- R/optimization.R:57-61: the value at the starting parameters; an error is given another
message. -/
noncomputable def startValue (B : Box) (p_theta : ℕ) (mu par0 : List ℝ) : Run (WithTop ℝ) :=
  let x := devfunStd B p_theta mu par0 true ⊤
  { x with res := match x.res with
    | Except.error (.throw _) => Res.raise "Could not approximate the likelihood at the starting parameters"
    | r => r }

/-- R/optimization.R:14-18. -/
noncomputable def startPars (p_beta p_theta : ℕ) (prev_fit : Option (List ℝ)) : List ℝ :=
  match prev_fit with
  | some estim => estim
  | none => List.replicate p_theta 0.5 ++ List.replicate p_beta 0

/-- R/optimization.R:11-92 `optimize_glmm`; `prev_fit` is the vector `estim` of a previous fit. -/
noncomputable def optimizeGlmm (B : Box) (p_beta p_theta : ℕ) (prev_fit : Option (List ℝ)) :
    Run Opt := do
  let mu := startPars p_beta p_theta prev_fit
  let par0 := List.replicate (p_theta + p_beta) 0
  let d0 ← startValue B p_theta mu par0
  let _ ← devfunStd B p_theta mu par0 false ⊤
  let out_std ← (B.optim par0).run fun x => devfunStd B p_theta mu x false (d0 + 100)
  Run.warnIf (out_std.2.2 ≠ 0) "optim did not converge"
  let estim := radd out_std.1 mu
  let inv ← Run.lift (B.solve out_std.2.1)
  let Sigma := inv.map fun row => row.map fun x => 2 * x
  Run.warnIf (B.smallEigenvalue Sigma = true) "May have problem in convergence"
  return ⟨estim, Sigma.map fun row => row.map some⟩

/-! ## `R/fit.R` -/

/-- What `glmm` returns: an object of class `glmmFit`, or (for correlated random effects) the list of
`optimize_glmm`. Used for R/fit.R:71-86. -/
inductive Result where
  | glmmFit (opt : Opt)
  | opt (opt : Opt)

/-- R/fit.R:72 `opt$estim[1:p_theta] <- abs(opt$estim[1:p_theta])`; a vector that is too short would
be extended by missing values, which is not modelled. -/
noncomputable def absTheta (estim : List ℝ) (p_theta : ℕ) : Res (List ℝ) :=
  if estim.length < p_theta then Res.raise "NA"
  else Except.ok (estim.mapIdx fun i x => if i + 1 ∈ colon 1 p_theta then |x| else x)

/-- R/fit.R:71-86: the sign convention and the check that the estimates are finite. -/
noncomputable def finish (lower : List ℝ) (p_theta : ℕ) (opt : Opt) : Run Result :=
  if lower.all (fun x => x = 0) then do
    let estim ← Run.lift (absTheta opt.estim p_theta)
    let large ← Run.lift (anyGt (index estim (colon 1 p_theta)) 4.9)
    Run.warnIf (large = true) "The approximate MLE might not be finite"
    return .glmmFit ⟨estim, if large = true then
      List.replicate estim.length (List.replicate estim.length none) else opt.Sigma⟩
  else do
    Run.warnIf True "proper print and summary method not yet implemented for correlated random effects"
    return .opt opt

/-- R/fit.R:65-70: the check of the first-order Laplace approximation; `threshold` is
`con$divergence_threshold` if `con$check_Laplace` is true. -/
noncomputable def checkLaplace (threshold : Option ℝ) (divergence : Opt → Res ℝ) (opt : Opt) :
    Run Unit := match threshold with
  | none => pure ()
  | some t => do
    let d ← Run.lift (divergence opt)
    Run.warnIf (d > t) "Inference using the first-order Laplace approximation may be unreliable"

/-- R/fit.R:61-86, the part of `glmm` after the likelihood function is made; `lower` is
`modfr$reTrms$lower`. -/
noncomputable def glmm (B : Box) (lower : List ℝ) (p_beta p_theta : ℕ)
    (prev_fit : Option (List ℝ)) (threshold : Option ℝ) (divergence : Opt → Res ℝ) : Run Result := do
  let opt ← optimizeGlmm B p_beta p_theta prev_fit
  checkLaplace threshold divergence opt
  finish lower p_theta opt

/-! ## `R/glmmFit.R` -/

/-- R/glmmFit.R:166-174 `coef_random.glmmFit`, without names. -/
def coefRandom (estim : List ℝ) (p_theta : ℕ) : List (Option ℝ) := index estim (colon 1 p_theta)

/-- R/glmmFit.R:176-187 `coef_fixed.glmmFit`, without names. -/
def coefFixed (estim : List ℝ) (p_theta p_beta : ℕ) : List (Option ℝ) :=
  index estim (colon (p_theta + 1) (p_beta + p_theta))

/-- R/glmmFit.R:197-199 `coef.glmmFit`, without names. -/
def coef (estim : List ℝ) (p_theta p_beta : ℕ) : List (Option ℝ) :=
  coefRandom estim p_theta ++ coefFixed estim p_theta p_beta

/-- R/glmmFit.R:209-215 `vcov.glmmFit`: the names of the coefficients must be as many as the rows and
columns (the vector of names has the length of the vector of coefficients, as the random effects have
names). -/
def vcov (opt : Opt) (p_theta p_beta : ℕ) : Res (List (List (Option ℝ))) :=
  let par_names := (coef opt.estim p_theta p_beta).length
  if par_names ≠ opt.Sigma.length ∨ ∃ row ∈ opt.Sigma, par_names ≠ row.length then
    Res.raise "length of 'dimnames' not equal to array extent"
  else Except.ok opt.Sigma

end Verif.Fit
