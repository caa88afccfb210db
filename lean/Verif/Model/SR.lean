import Verif.Model.NormalApprox
import Verif.Model.Integrated
import Verif.Model.SparseStore
import Verif.Model.GLMM
import Verif.Model.Split

/-!
# The sequential reduction approximation put together

Concrete factors (`src/ContinuousBelief.cpp`), the stored integral of `MixedContinuousBelief`, and
the likelihood function of `R/loglikelihood.R`. Vectors cross the boundary between `Belief`
(lists) and the other models (functions on `Fin n`) by `NB.vec`, `mat` and `List.ofFn`; a vector of
the wrong size is undefined behaviour, since Eigen does not check sizes.
-/
namespace Verif.SR

open Verif.Gauss Verif.Belief Verif.ClusterGraph Verif.Store Verif.Pars Verif.Integrated

/-- Library functions and contents of uninitialised memory: integer arithmetic of the cluster
graph, integer conversions of the basis, linear solver, eigen-solver, junk, and the outcome of
out-of-range reads in the constructor of `GLMMBelief`. Used for src/ContinuousBelief.cpp:66-70. -/
structure Lib where
  ar : Arith
  aru : Arith
  solve : (n : ℕ) → Solver n
  eig : (n : ℕ) → EigenSolver n
  junk : (m : ℕ) → Junk m
  rd : List ℝ → ℤ → Res ℝ

/-- src/ContinuousBelief.cpp:5-58: a pointer to one of `GLMMBelief`, `NormalBelief`,
`SparseBelief`, each with the items of `BeliefBase`. A copy of the pointer shares the
`GLMMBelief`, whose evaluations change its cached parameters; by `GLMM.c35_history` no result
depends on them, so the state reached is not passed on here. -/
inductive Factor : Type
  | glmm (items : List ℤ) (d n p : ℕ) (b : GLMM.Belief d n p)
  | normal (nb : NB)
  | sparse (items : List ℤ) (d : ℕ) (s : SparseStore d)

/-- A matrix given by its rows, seen as a matrix of size `n`.
Used for src/MixedContinuousBelief.cpp:62-102. -/
def mat (n : ℕ) (rows : List (List ℝ)) : Res (Matrix (Fin n) (Fin n) ℝ) := do
  let rs ← rows.mapM (NB.vec n)
  if h : rs.length = n then return Matrix.of fun i j => rs.get (i.cast h.symm) j else Res.ub

/-- The rows of a matrix. Used for src/MixedContinuousBelief.cpp:62-102. -/
def rows {n : ℕ} (A : Matrix (Fin n) (Fin n) ℝ) : List (List ℝ) :=
  List.ofFn fun i => List.ofFn fun j => A i j

/-- A value that may not be finite. The model has no infinities and NaN: these are an error.
Used for src/ContinuousBelief.cpp:66-70. -/
def finite : Option ℝ → Res ℝ
  | some v => Except.ok v
  | none => Res.raise "not finite"

/-- inst/include/Parameters.h `sparseBasis` with src/Basis.cpp:13-31, as used by the grid code. -/
noncomputable def gridEnv (lib : Lib) (pars : Parameters) : GridEnv :=
  ⟨lib.ar, BasisLevel.basis lib.aru pars.sparseBasis.basisLevels, pars.sparseBasis.levelMax.toNat⟩

/-- inst/include/Parameters.h `quadratureRule`. (Nodes and weights always have the same number of
elements.) -/
noncomputable def ruleOf (r : QuadratureRule) : Quad.Rule r.nodes.length :=
  ⟨r.nodes.get, fun k => r.weights.getD k 0⟩

namespace Factor

/-- src/ContinuousBelief.cpp:61-64 and src/BeliefBase.cpp:14-17 `getItems`. -/
def items : Factor → List ℤ
  | .glmm items _ _ _ _ => items
  | .normal nb => nb.items
  | .sparse items _ _ => items

/-- src/ContinuousBelief.cpp:66-70 `evaluate`: src/GLMMBelief.cpp:25-33,
src/NormalBelief.cpp:99-102, src/SparseBelief.cpp:19-23. -/
noncomputable def eval (lib : Lib) (pars : Parameters) : Factor → List ℝ → Res ℝ
  | .glmm _ d _ _ b, x => do
    let v ← NB.vec d x
    let r ← GLMM.evaluate b v pars
    return r.1
  | .normal nb, x => do
    let v ← nb.evaluate x
    finite v
  | .sparse _ d s, x => do
    let v ← NB.vec d x
    s.evaluate (gridEnv lib pars) v

/-- src/ContinuousBelief.cpp:72-77 `evaluateDerivative`: src/GLMMBelief.cpp:35-43,
src/NormalBelief.cpp:104-107, src/SparseBelief.cpp:25-29. -/
noncomputable def deriv (lib : Lib) (pars : Parameters) : Factor → List ℝ → Res (List ℝ)
  | .glmm _ d _ _ b, x => do
    let v ← NB.vec d x
    let r ← GLMM.evaluateDerivative b v pars
    return List.ofFn r.1
  | .normal nb, x => do
    let v ← NB.vec nb.items.length x
    return List.ofFn (nb.normal.evaluateDerivative v)
  | .sparse _ d s, x => do
    let v ← NB.vec d x
    let r ← s.evaluateDerivative (gridEnv lib pars) v
    return List.ofFn r

/-- src/ContinuousBelief.cpp:79-84 `evaluateSecondDerivative`: src/GLMMBelief.cpp:45-53,
src/NormalBelief.cpp:109-112, src/SparseBelief.cpp:31-35. -/
noncomputable def hess (lib : Lib) (pars : Parameters) : Factor → List ℝ → Res (List (List ℝ))
  | .glmm _ d _ _ b, x => do
    let v ← NB.vec d x
    let r ← GLMM.evaluateSecondDerivative b v pars
    return rows r.1
  | .normal nb, x => do
    let _ ← NB.vec nb.items.length x
    return rows nb.normal.evaluateSecondDerivative
  | .sparse _ d s, x => do
    let v ← NB.vec d x
    let r ← s.evaluateSecondDerivative (gridEnv lib pars) v
    return rows r

/-- The virtual functions of a factor for fixed parameters.
Used for src/MixedContinuousBeliefVector.cpp:9-32. -/
noncomputable def ops (lib : Lib) (pars : Parameters) : FactorOps Factor where
  items := items
  eval := eval lib pars
  deriv := deriv lib pars
  hess := hess lib pars

end Factor

/-- src/MixedContinuousBelief.cpp:62-102 with the `normalApprox` of one more dimension than there
are remaining items. -/
noncomputable def storeWith (lib : Lib) (pars : Parameters) (relativeItem : ℕ)
    (f : List ℝ → Res ℝ) (d : List ℝ → Res (List ℝ)) (h : List ℝ → Res (List (List ℝ)))
    (remaining : List ℤ) (normalApprox : MN (remaining.length + 1)) : Res Factor := do
  let m := remaining.length
  let junk := lib.junk m
  let integrated ← Integrated.create junk relativeItem (fun x => f (List.ofFn x))
    (fun x => do
      let r ← d (List.ofFn x)
      NB.vec (m + 1) r)
    (fun x => do
      let r ← h (List.ofFn x)
      mat (m + 1) r) normalApprox
  let rule := ruleOf pars.quadratureRule
  let normalMargin ← normalApprox.integrate relativeItem junk.vec junk.mat
  let s ← SparseStore.create (gridEnv lib pars) (lib.solve m) (lib.eig m)
    (fun x => integrated.evaluate junk x rule)
    (fun x => integrated.evaluateDerivative junk x rule)
    (fun x => integrated.evaluateSecondDerivative junk x rule) normalMargin
  return Factor.sparse remaining m s

/-- src/MixedContinuousBelief.cpp:62-102: the stored factor of `integrate`. The dimension of the
normal approximation is the number of items of the belief, one more than the number of remaining
items. -/
noncomputable def store (lib : Lib) (pars : Parameters) : Store Factor NB :=
  fun relativeItem f d h nb remaining =>
    if e : nb.items.length = remaining.length + 1 then
      storeWith lib pars relativeItem f d h remaining (e ▸ nb.normal)
    else Res.ub

/-- The belief operations of the cluster graph, for fixed parameters.
Used for src/MixedContinuousBeliefVector.cpp:9-32. -/
noncomputable def ops (lib : Lib) (pars : Parameters) : ClusterGraph.Ops (Mixed Factor NB) :=
  Mixed.ops (Factor.ops lib pars) NB.ops (store lib pars)

/-- src/MixedContinuousBeliefVector.cpp:9-22 `appendGLMMBelief` (src/ContinuousBelief.cpp:15-26, src/GLMMBelief.cpp:10-23) and
24-32 `appendNormalBelief` (src/ContinuousBelief.cpp:28-33, src/NormalBelief.cpp:34-41): the factor
made of a term. -/
noncomputable def factorOf {q p : ℕ} (lib : Lib) : Split.Term q p → Res Factor
  | .glmm C m D => do
    let b ← GLMM.createWith lib.rd D
    return Factor.glmm (C.map fun i : Fin q => (i : ℤ)) C.length m p b
  | .normal i mean precision =>
    return Factor.normal { items := [(i : ℤ)],
                           normal := MN.ofMeanPrecision (fun _ => mean)
                             (Matrix.of fun _ _ => precision),
                           logNC := 0 }

/-- src/MixedContinuousBeliefVector.cpp:9-32: the belief made of a term. -/
noncomputable def beliefOf {q p : ℕ} (lib : Lib) (pars : Parameters) (t : Split.Term q p) :
    Res (Mixed Factor NB) := do
  let g ← factorOf lib t
  return Mixed.ofFactor (Factor.ops lib pars) NB.ops g

/-- R/loglikelihood.R:44 and 50: the factorization terms of the model as beliefs, and the cluster
graph made of them (src/ClusterGraph.cpp:23-29). (`pars` is not used at this stage, it only occurs in
operations that are not called.) -/
noncomputable def clusterGraph {q n p : ℕ} (lib : Lib) (pars : Parameters) (M : Split.ModFr q n p) :
    Res (CG (Mixed Factor NB)) := do
  let terms ← Split.findFactorizationTerms M
  let beliefs ← terms.mapM (beliefOf lib pars)
  ofBeliefs lib.ar (ops lib pars) beliefs

/-- src/ClusterGraph.cpp:327-338 `computeLogNormalizingConstant`: works on a copy with the given
parameters. -/
noncomputable def computeLogNormalizingConstant {N : ℕ} (lib : Lib) (pars : Parameters)
    (initialBeliefs : CG (Mixed Factor NB)) (mean : Fin N → ℝ)
    (precision : Matrix (Fin N) (Fin N) ℝ) : Res ℝ := do
  let c1 ← setNormalApprox (Factor.ops lib pars) (store lib pars) mean precision initialBeliefs
  let c2 ← calibrateForward (ops lib pars) c1
  logNormalizingConstant (ops lib pars) c2

end Verif.SR
