# Machine-checked model of glmmsr

This directory holds a Lean 4 model of the numerical core (C++) and of the model-building and
fitting logic (R) of `glmmsr`, with proofs of the properties listed in `properties.jsonl`. The source
in `/repo` was only read as text; nothing in it was built, run or changed.

## Layout

* `lean/Verif/Base/`   - outcome monad (`ok` / `throw` / `ub`), machine integers.
* `lean/Verif/Model/`  - function-by-function models. Every definition cites file and lines.
* `lean/Verif/Spec/`   - small specifications, written without reference to the model's helpers.
  Specifications used by one property only stand at the top of its file in `Props/`.
* `lean/Verif/Proofs/` - helper lemmas.
* `lean/Verif/Props/`  - the property theorems (`c17_…` belongs to C17) and, next to each, an
  `example` (or a named concrete case) that meets the hypotheses in a non-trivial way.
* `MANIFEST.json`      - property -> theorem names and status.
* `seeded/LOG.jsonl`   - mutation log: edits of the model, and which theorems fail.

Build: `cd lean && lake build`. Mathlib modules are imported one by one.

## Trusted base

1. **Lean's kernel** (4.33.0) and the statements of the Mathlib definitions that occur in theorem
   statements (integrals, derivatives, matrices, Gaussian measure, ...).
2. **Axioms**: every theorem of the manifest depends on a subset of `propext`, `Classical.choice`,
   `Quot.sound` (checked with `#print axioms`). There are no axioms of our own, no `sorry`, no
   `native_decide`, no `bv_decide`.
3. **That the model says what the code does**: the definitions under `Model/`, read against the cited
   lines. The conventions and simplifications are listed below. This is the part to review.
   `Props/RepoTests` replays expected values of the package's own tests on the model.
4. **Laws of libraries**, which are parameters of the theorems that need them, never axioms:
   * `IsEigen`: the symmetric eigen-solver returns an orthonormal eigen-decomposition
     (`Quad.c25_exists`: one exists);
   * `IsSolver`: the linear solver solves a system that has a solution (`Store.exists_solver`);
   * Cholesky of R: returns the upper factor of a positive definite matrix (`IS.exists_chol`);
   * `IsNormalQuantile`: Boost's quantile is the inverse of the distribution function;
   * lme4's deviance function: `Lfun.Laplace` says what its state holds after an evaluation (mode,
     Cholesky factor of the Hessian); its value is arbitrary;
   * optimisers (`optim`, `nloptwrap`) are arbitrary: an interaction tree that may ask for any values
     and may depend on all answers (`Fit`);
   * `numDeriv` is arbitrary; sampling (`rnorm`) is an arbitrary matrix, or the Gaussian measure where a
     property speaks of expectations;
   * R's own evaluation of expressions, `terms()`, `drop.terms()`, `reformulate()` and
     `expand.grid()`: semantics written out in `Model/SubExpr`, `Model/ModFr`, `Model/Indices`.

## Conventions

* `double` and R's numbers are real numbers: arithmetic is exact, without rounding, NaN or infinities,
  except where a property is about exactly those. There the special cases are distinct outcomes:
  float-to-int conversion (C10), `isnormal` (C54), non-finite log densities (`Option`).
* Literals of the code are kept as written. Where they approximate a constant (`log √(2π)`, `√π`), the
  theorems carry the exact difference and bound it (`literalError`, at most 2e-12; 1e-10).
* `int` is a parameter `Arith`: unbounded (`exactZ`) or 32-bit with overflow as undefined behaviour
  (`i32`). Structural results hold for both, with the limits of `int` stated (46341 items, 25 levels).
* Undefined behaviour (out-of-range `operator[]`, signed overflow, bad conversion, Eigen operands of
  different sizes) is the outcome `ub`. Exceptions and R's `stop` are `throw` with the message.
* Eigen vectors and matrices are functions on `Fin n`, Mathlib matrices, or lists where the code
  indexes them with computed positions. Sparse matrices of R are matrices with a pattern.
* C++ containers are lists; iterators are positions; shared pointers are copied values, with a history
  theorem (`GLMM.c35_history`, `c35_shared`) showing that sharing makes no difference.
* R reference objects (`calibration_pars`) are the state of programs `Prog σ α`. An exception keeps the
  changes made before it.

## Simplifications to know about

* Inverse of a singular matrix, square root or logarithm of a non-positive number: Lean's total
  functions (0 or junk). Theorems assume positive definite matrices where it matters.
* `1 << level` is `2 ^ level`; counters of the dependence graph other than the one of `isComplete` have
  no overflow.
* `initializeInternal` is a loop with fuel; the fuel is the number of vertices and is shown to suffice.
* Dimensions of the matrices of a model frame are consistent by type (lme4 makes them so).
* Rows and columns are numbered from 0 in the model of `splitframe.R`.
* A missing value (`NA`) is an error outcome where it cannot be meant.
* A lower bound of a parameter is 0 or "not 0" (for `-Inf`).
* Names of parameters and formatting of printed numbers are not modelled; printed tables are lists of
  rows.
* R's clamping inside `linkinv` is part of importance sampling only in `Props/ISVarianceR` (C93): thresholds as in R's family.c and `binomial()`.
* Local integrals are exact in C18, C70 and C79 (`exactOps`), which say that the algorithm around
  them adds no error. C80 and C81 are about the code as a whole, with quadrature and storage. C82
  bounds its error by the errors of the single messages, for any approximation of them. For two-level
  models these errors exist (`c82_two_level`); in general a message stored on a sparse grid need not
  be within a constant factor of the integral in the tails, and then C82 says nothing.
* C83 (`nSL = 0`) starts from a basis object of level 0 with the knot zero. The code has undefined
  behaviour when it makes this object (C10); the object is what results if the undefined conversion
  gives any number.

## What is modelled

| source | model | left out |
|---|---|---|
| src/counting.cpp, Point.cpp, SparseGrid.cpp | Counting, Point, SparseGrid | |
| src/Basis.cpp, BasisLevel.cpp | Basis | |
| src/Quadratic.cpp, SparseGridTransform.cpp, SparseStore.cpp, SparseBelief.cpp | SparseStore, SR | |
| src/QuadratureRule.cpp | Quadrature, Parameters | |
| src/IntegratedFunction.cpp | Integrated | |
| src/MultiNormal.cpp, NormalBelief.cpp | MultiNormal | |
| src/subsetEigen.cpp, matrixHelper.cpp | Eigen, Belief | |
| src/itemsHelper.cpp, BeliefBase.cpp | Items | |
| src/Graph.cpp, dependenceGraph.h | Graph | |
| src/ClusterGraph.cpp | ClusterGraph, Calibrate, NormalApprox, SR, Unused | accessors |
| src/MixedContinuousBelief.cpp, ContinuousBelief.cpp, MixedContinuousBeliefVector.cpp | Belief, SR | |
| src/GLMMBelief.cpp | GLMM | |
| src/Link.cpp, LogitLink.cpp, ProbitLink.cpp, Binomial.cpp, FamilyGivenMean.cpp, Family.cpp | Family, Range | getters |
| src/Parameters.cpp, accessParameters.cpp | Parameters | |
| R/control.R | Control, Options | what lme4 does with its options |
| R/splitframe.R | Split, SaveFile | the rounding of the numbers that `cat` writes; `file = ""` (the console) |
| R/model_frames.R | Frames, SubExpr, ParseFormula | the terms of a formula (`model.matrix`, lme4), `parse_subformula` beyond its result |
| R/modify_subexpr.R | SubExpr | |
| R/subformula.R | SubExpr, SubMatch, ModFr | |
| R/indexing.R, utility.R | Indexing, Indices, ModFr, Flatten, Lfun, SubsetDim, Unused | |
| R/IS.R | IS | |
| R/hol.R, laplace.R | Hol, Divergence | |
| R/loglikelihood.R | Lfun, IS, Hol, Whole | |
| R/optimization.R, fit.R | Fit, Divergence, Whole | |
| R/glmmFit.R | Fit, Summary, Print | text of printed lines |
| RcppExports, RcppR6 | | conversions between R and C++ |

In `Whole` the functions of other packages are parameters: lme4's deviance function for a number of
quadrature points, `rnorm`, `chol`, the derivatives of numDeriv, `optim`, `solve`. The canonical links
are those of R's `stats` families, by name.

Not modelled at all: lme4, storage formats of the Matrix package, random number generators,
floating-point rounding, time and memory. The range of double precision numbers (overflow to infinity
and what follows) is modelled for the logit link, the binomial log-likelihood and the last two lines of
importance sampling only, in `Model/Range`.

## Properties: how they are proved

| id | model | proof idea |
|----|-------|-----------|
| C01 | `choose` as checked loop | loop invariant c = C(i,k); exact division; overflow condition exact |
| C02 | `findNumGridPoints` | bijection/count of compositions with 2^level positions each |
| C03 | `Point` advance / setIndex | invariant over traversal: setIndex(state i) = i, strict order, counting |
| C04 | same with `ub` outcomes | invariant: reachable states well-formed, so no `ub` |
| C05 | firstParent / advanceInDirection loop | induction on (level, position) |
| C06 | initialize / hierarchize / interpolate | direction-by-direction inversion of triangular tensor operator |
| C07 | initializeStorage bound + min | fold-max lemma |
| C08 | computeBasisDerivative(s) | `HasFDerivAt` of finite products |
| C09 | BasisLevel knots, grid ids, evaluate | interpolation rows of the spline system; lookup lemma |
| C10 | float-to-int conversion outcome | evaluation: `ub` for level 0 and remote arguments; exact domains: levels 1-25, arguments up to 2^32 bandwidths (Chernoff bound and mass bounds for the quantile) |
| C11 | SparseGridTransform, SparseStore | C06 + algebra of transform |
| C12 | Quadratic.initializeFromDerivatives, level-0 store | algebra with symmetric matrices; exact condition |
| C13 | Graph | refinement to an abstract graph over operations |
| C14 | initializeInternal | induction on number of active vertices, invariant on hanging edges |
| C15 | same | invariant: remaining-graph cliques |
| C16 | populateBelief | family preservation from clique invariant; fold over clusters |
| C17 | passMessage | invariant under arbitrary schedules |
| C18 | forward sweep with exact margin | `lmarginal` (Fubini) + running intersection |
| C19 | width | fold-max, C16 |
| C20 | itemsHelper | list lemmas on insertion into sorted lists, merge |
| C21 | findRelativeItem | position of a present item; negation witness for absent ones |
| C22 | setNormalApprox | subtree counting for the sum; mean invariant |
| C23 | multiplySubsetInternal | exact condition + negation witness |
| C24 | MixedContinuousBelief | invariant over operation histories |
| C25 | Golub-Welsch | infinite Jacobi operator vs. moments, truncation lemma |
| C26 | integrate1D | change of variables + C25 |
| C27 | IntegratedFunction | chain rule, `HasFDerivAt` |
| C28 | conditional terms | scale right; centre reflected: exact condition + witness |
| C29 | MultiNormal | linear algebra, Gaussian integral |
| C30 | subsetEigen | list/function lemmas |
| C31-C34 | Link, Binomial, Family | `HasDerivAt` calculus; exact condition in the clamped region |
| C35-C37 | GLMMBelief | cache invariant over histories; chain rule; exact condition for `ub` |
| C38 | accessParameters | state machine induction |
| C39 | find_control_with_defaults | case analysis on association lists |
| C40-C41 | splitframe.R | partition induction; support argument on sparse patterns |
| C42-C44, C56 | modify_subexpr.R, frame algebra | structural induction on expressions |
| C45, C53, C64 | concatenate_frames | block matrices |
| C46 | multi_to_flat | mixed radix |
| C47-C48 | IS.R | algebra, change of variables, covariance of a linear map |
| C49-C50, C65-C67, C73-C74 | glmmFit.R, fit.R, optimization.R | R range semantics; interaction tree; reflection symmetry |
| C51, C68-C69 | match_subform_subexpr, find_vars | R `any` semantics; induction on expressions |
| C52, C72 | hol.R | finite-sum rearrangement; third and fourth derivatives |
| C54 | isProper | `isnormal` semantics |
| C55 | find_lfun_SR guard + counting | bounds |
| C57 | isComplete | overflow of a product at 46342 items |
| C58 | choice of the next vertex | greedy minimum over candidates |
| C59 | derivatives of MixedContinuousBelief | sums of scattered derivatives |
| C60-C61 | normal messages | marginals on trees; totality |
| C62 | derivatives of SparseStore | chain rule through the transform |
| C63 | find_local_term | offset never read |
| C70-C71 | splitframe.R + ClusterGraph | C40 + C18; tame functions give finiteness |
| C75-C78 | subformulas | labels and rows of `expand.grid`; splitting of formulas |
| C79 | calibrate, margin | two sweeps on a tree, marginal of each cluster and edge |
| C80 | everything from model frame to value | clusters of one item, zero-dimensional stores |
| C81 | find_lfun_SR, lfun | state invariant over calls; C80; C38 |
| C82 | sweep with inexact messages | two-sided bounds carried along the sweep; C71 |
| C83 | everything, one quadrature point and grids of level 0 | values at the mean only; determinants of the marginals telescope to that of the precision |
| C84 | two-level models, `QuadratureRule::initialize`, quadrature sizes `2^(nSL + 1) - 1` | moments of the rules from powers of the Jacobi matrix, Lévy's theorem, uniform bound for the tails, then C80 |
| C85 | `findLfunGlmm`: dispatch on method and control (`Whole`) | case by case from C39 (control); no state is kept except by SR, whose store is written before it is read (C81) |
| C86 | `glmm` (`Whole`), model frame given, optimiser a tree of questions | sequence of the parts of `glmm`; induction over the questions of the optimiser |
| C87 | `matrix_indexing`, `flatten_formula` and R's `[`, `cbind` on vectors and arrays (`Flatten`); other functions a parameter | induction over the expression; value in a row as a relation of its own |
| C88 | no new code: `Lfun`, `SR`, `Split`, `GLMM`, `Family`, `IS`, `Hol`; relation between model frames in `Spec/Grouped` | parametricity of the cluster graph and the mixed beliefs in the factors (`Proofs/Param`); linearity of the family in weights and weighted responses; induction over `add_obs` |
| C89 | tables and names shown by `print`, `coef`, `vcov` (`Print`) | triangular numbers and divisibility for R's recycling; order of first use of the factors |
| C90 | responses with two columns: `find_local_term`, `find_epsilon_1`, `log_integrand` (`Counts`) | equality with the frame of the first column, then C41; for the logit link the second derivative does not depend on the response |
| C91 | no new code: `BasisLevel`, `SparseGrid`; monomials in `Spec/SparsePoly` | the spline system, with its end conditions, is solved by a cubic's coefficients (kernel of the system); one direction level by level, product over directions by induction, hierarchical coefficients unique; converse by polynomial identity on a box |
| C92 | no new code: `IS`, `Whole`; independent standard normal numbers in `Spec/Stream` | strong law of large numbers, Markov's inequality, the run of method "IS" (C85) |
| C93 | no new code: `IS`; second moment of the estimate in `Props/ISVariance` | Gaussian integrals: the exponent of the squared weight is bounded by, or above a cone bounded below by, a quadratic; for the clamped links a tube around an eigenvector gives the exact threshold |
| C94 | `parse_formula` (model_frames.R:3-70), the variables, weights and offset of the frame; `Model/ParseFormula` | case analysis on the symbols found by `model.frame` |
| C95 | LogitLink.cpp, Binomial.cpp, Family.cpp 49-56 with the range of double; `Model/Range` | bounds on `exp` by powers of two, case analysis on special values |
| C96 | IS.R 79-85 with the range of double; `Model/Range` | the average of `exp` of differences from the average is at least 1 |
| C97 | no new code: `Lfun`, `SR`, `Split`, `ClusterGraph`, `DependenceGraph`, `Gauss`, `IS`, `Hol`; relation between model frames in `Spec/Reorder` | the coded graphs represent the same abstract graph, so that the elimination chooses the same items; products and marginals of normal and mixed beliefs are symmetric; simulation of calibration with the separators in another order |
| C98 | no new code; relation between model frames in `Spec/Reparam` | two-sided parametricity (`Proofs/Param2`): cluster graphs whose factors have the same value, gradient and Hessian functions run alike, also with different parameter objects; the local terms are functions of the linear predictor |
| C99 | no new code | distance from the mean in the metric of the normal approximation: projections onto fewer variables do not increase it, a quadrature point of an integrated function is within a bound made of the variance inflation and the size of the grid, and the basis answers up to about two million; invariant `Near` of all factors through the forward sweep |
| C100 | no new code | relation `Bel` between beliefs whose factors differ by signs of the items, kept by every operation of the cluster graph; sparse grids, quadrature rules and basis functions are symmetric about zero; integrated functions evaluate at mirrored points in another order; nothing but the tests for improper beliefs can fail (C99), and these agree; the same for the correction of the second-order Laplace approximation (R/hol.R) |
| C101 | no new code | the relation of C100 with a factor ±1 for the linear predictor; the mean, its bounds and the first two derivatives of both links are symmetric about 1/2; the Cholesky factor is unique, so samples with changed signs give mirrored points; the same for the correction of the second-order Laplace approximation (R/hol.R) |
| C102 | splitframe.R 88-134 | a reader of the lines that only uses the sizes in them; take/drop of appended lists; a record describes one term only |
| C103 | no new code | the log-likelihood and its derivatives up to order four are 0 for the weight 0; then the relation of C98 with equal predictors only where the weight is not 0 (C98 is now a special case) |
| C104 | SubsetDim (R/utility.R:17-39): the text written by `subset_dim` as tokens, and the subset operator for it | the arguments between the commas are empty but for position i; not called elsewhere in the package |
| C105 | no new code | matrices of two blocks: the matrix of the correction has no entries between the parts; the integral over both is a product (Fubini) |
| C106 | no new code | an item with the fewest neighbours in a nested graph has neighbours that are joined already, so elimination adds no edges and every cluster is a clique of the factors; a clique lies in one factor |
| C107 | no new code | from the invariant of the construction (each cluster has one item that no later cluster has); at the end an item is left because a graph with one item is complete |
| C108 | no new code | change of variables by an orthogonal matrix; the design matrix is turned, so the matrix of the second-order correction is unchanged; matrices with the same products of columns differ by an orthogonal matrix (extension of an isometry) |
| C109 | no new code | a grid of level k in d dimensions has at most (2d+1)^k points, and 2d+1 is at most (d+1)^2; C107 for the number of integrals |
| C110 | no new code | Mills' inequality x Phi(x) + phi(x) > 0 (increasing, Chernoff bound at minus infinity) gives concavity for the probit link; the normal density makes the integrand coercive |
| C111 | `findPairs`, `nMessages`, `nClusters`, `complexity` (Unused) | induction on the list; C107 |
| C112 | `Split.Spec.logIntegrand`, `Hol.findEpsilon1`, `IS.lfun`, `computeNormalApprox` | Λ = 0; dominated convergence (bound from C110); C80 for sequential reduction |
| C113 | `findLogIntegrand`, `transformNormal`, `findLogWeights`, `logMeanExp`, `IS.lfun` | each column has its own weight; C47 |
| C114 | `Split.Spec.logIntegrand` (the likelihood of the model frame) | differentiation under the integral; scores bounded by concavity (C110) |
| C115 | `Split.Spec.logIntegrand` | C114 and the symmetry of C66 |
| C116 | `Split.Spec.logIntegrand` | theorem of Prékopa (Proofs/Prekopa: level sets, induction on the number of random effects); concavity of C110 |
| C117 | `Options.Spec.fixedTo` (lme4 run with the same options throughout) | unfolding of the path of the options; `levelsOnly` for the violation |
| C118 | `Separation.Spec.Overlap` | monotone terms; dominated convergence along sequences, compactness of the unit ball |
| C119 | `Separation.Spec.Overlap`, warnings of `Fit.finish` | C118 and the specification of `finish` (C50) |
| C120 | `Separation.Spec.FullRank`, `Separates` | strict theorem of Prékopa (Proofs/PrekopaStrict: the middle function is cut off at the product of the maxima); C118 |
| C121 | `Separation.Spec.Overlap`, `searched` | C118 with variance parameters in a compact set |
| C122 | `ObsLevel.Spec` | convolution of normal distributions (Proofs/ProbitNormal); product over the groups |
| C123 | `Repeats`, `Keeps`, `Checks` in `PrevFit` | induction on what the optimiser asks; recycling |
| C124 | `Descends`, `SignFree`, `NotLess`, `Sequence` in `Refit` | what the optimiser is told at start and end; induction on the number of fits |
| C125 | `Counts`, `coefficients`, `Deviance` in `Bounded` | binomial theorem; determinant of the precision at least one, by comparing normal integrals |
| C126 | `Null`, `Flat`, `ReturnsHessian`, `StopsSingular` in `Collinear` | the likelihood functions of all methods by C98; second derivatives along a line on which a function is constant; inversion of the run of `optimize_glmm`. The exact Hessian matrix is assumed, `optim` uses finite differences |

## What the code does differently from what it says

Found while proving; each is a theorem (negation or exact characterisation).

* `choose(n, k)` is 1 for `n < k`; 0 sparse grid levels (said by the vignette to give the Laplace
  approximation) is undefined behaviour (C10, `c81_zero`), as is a non-positive number of quadrature
  points (C38).
* `isComplete` overflows `int` from 46342 active vertices on (C57).
* Remote arguments of stored functions are converted out of the range of `int` (C10).
* `findRelativeItem` constructs an exception for an absent item, but does not throw it (C21).
* The product of normal beliefs on different items has the wrong mean (C23).
* The centre of the conditional normal in `IntegratedFunction` has the wrong sign (C28).
* Clamping of means makes derivatives wrong (C33) and creates spurious stationary points (C34).
* The constructor of `GLMMBelief` reads `theta` out of range for correlated random effects (C36).
* Log values of exactly 0 are reported as improper (C54).
* An observation without active random effects is put into some clique (C40, C41); an offset is
  ignored by sequential reduction (C63).
* `Sub()`: a third argument is not checked, pasted names may clash, a logical index is misread,
  parentheses, unary minus and literals are refused (C42, C43, C56); multiplication by a covariate
  recycles down the wrong dimension (C44); several substituted variables in one term pass the check
  meant to refuse them (C51); an index with the name of a data column stops or uses the previous index
  (C76); numeric indices with gaps share rows (C75); the intercept is dropped and bar terms are merged
  by `split_formula` (C78); a subformula without matching `Sub()` stops.
* A variable named `off` or `weights` in the formula clashes with the offset or the weights given, and a
  short offset is recycled without random effects (C94).
* Lower bounds of variance parameters are lost on concatenation of frames (C53, C64).
* Importance sampling draws from the wrong covariance unless the precision is diagonal (C48); its
  value differs from that of sequential reduction by the saturated likelihood for proportions. The
  estimate has an infinite variance when the data carry more information about some combination of the
  random effects than the prior does (C93).
* The logit link is NaN from a linear predictor of 710 on, its second to fourth derivatives from 356,
  238 and 178 on (C95). Importance sampling subtracts the average log-weight, not the largest, and is
  infinite if one is 710 above the average (C96).
* If one observation depends on a strict subset of the random effects of another one, it is put in the
  first factor containing its random effects, so that the factors depend on the order of the
  observations (C97).
* `coef()`, `vcov()` and `summary()` are wrong without fixed effects (C49, C65, C74); reflected variance
  parameters keep the signs of their covariances (C67).
* `print()` and `print(summary())` stop for a term with two variables and repeat the names for three;
  the levels of a factor used twice are `NA` (C89).
* Of a response `cbind(successes, failures)` only the successes are used by sequential reduction and the
  second order correction, and importance sampling stops (C90). This rests on two facts outside the
  repository: RcppEigen converts a matrix to an array of all its elements, and Eigen compiled with
  `-DNDEBUG` (R's default) gives an expression the length of its right operand without a check.
* `find_laplace_divergence` uses `find_epsilon_1` for non-canonical links and can be negative (C72).
* The instability check compares the log-likelihood with half of the Laplace value (C81).
* Negative weights pass `check_weights` (`c81_weights`).
* `setParameters` on a calibrated `ClusterGraph` does not reset its flag (C79, model comment).
