{"id": "C01", "title": "Grid combinatorics: choose() is the binomial coefficient", "statement": "For every 0 <= k <= n the counting routine used to size and index sparse grids returns exactly n-choose-k (every truncating integer division in its loop is exact), and it does so without signed overflow exactly when each intermediate product fits in a 32-bit int; when one does not fit the outcome is undefined behaviour, never a silently wrong value in the model.", "quantifier": "all n, k with 0 <= k <= n (unbounded integers; 32-bit fit stated as a condition on the values)", "why_tests_cant": "Division-exactness has to hold for every loop iteration of every (n,k); sampled values cannot exclude one truncation or one overflow.", "anchors": ["src/counting.cpp:choose"]}
{"id": "C02", "title": "Grid size equals the number of sparse-grid points", "statement": "The number of coefficients allocated for a d-dimensional level-k sparse grid equals the number of points of that grid: pairs (levels, positions) with non-negative levels summing to at most k and 0 <= position_t < 2^level_t in each direction. For d = 0 it is 1.", "quantifier": "all dimensions d and all levels k", "why_tests_cant": "A combinatorial identity over unbounded d and k; an off-by-one appears only for particular (d,k).", "anchors": ["src/counting.cpp:findNumGridPoints", "src/SparseGrid.cpp:SparseGrid"]}
{"id": "C03", "title": "Grid traversal and closed-form index agree (bijection)", "statement": "Starting at the centre point and advancing i times, the visited point has running counter i, and recomputing its index from its levels and positions alone gives i again; consequently traversal visits every point of level sum at most k exactly once during the first findNumGridPoints(d,k) steps and the index is a bijection between grid points and storage slots.", "quantifier": "all dimensions d >= 1, all i (unbounded traversal length), all level bounds k", "why_tests_cant": "Needs induction over the traversal and a closed-form count for every prefix; a wrong slot for one far-away point corrupts coefficients silently.", "anchors": ["src/Point.cpp:advance", "src/Point.cpp:setIndex", "src/Point.cpp:advanceLevels", "src/Point.cpp:advancePositions", "src/SparseGrid.cpp:hierarchize"]}
{"id": "C04", "title": "Grid traversal never leaves its arrays", "statement": "In every state reachable from the centre point by advancing, and in every parent traversal, no vector access is out of range and no loop runs past the end; for d >= 1. (For d = 0 advancing would read back() of an empty vector; no caller does it.)", "quantifier": "all dimensions d >= 1, every reachable traversal state, every direction", "why_tests_cant": "Out-of-range operator[] access is undefined behaviour and does not fail a test reliably; the invariant has to be shown for all reachable states.", "anchors": ["src/Point.cpp:advance", "src/Point.cpp:advanceLevels", "src/Point.cpp:firstParent", "src/Point.cpp:advanceInDirection"]}
{"id": "C05", "title": "Parent traversal visits exactly the coarser points of a direction", "statement": "For a grid point and a direction t, the loop 'first parent; advance in direction t; while its level in t is smaller' visits exactly once every point that agrees with the given point in all other directions and has a smaller level in direction t, in order of level then position, and nothing else.", "quantifier": "all points of all dimensions, all directions, all levels", "why_tests_cant": "The set of visited points grows like 2^level; omission of a single parent only perturbs the interpolant.", "anchors": ["src/Point.cpp:firstParent", "src/Point.cpp:advanceInDirection", "src/SparseGrid.cpp:hierarchize"]}
{"id": "C06", "title": "Sparse-grid storage reproduces the function at every grid point", "statement": "After storing any function f on the d-dimensional level-k sparse grid, evaluating the stored interpolant at any grid point returns exactly f at that point (in exact arithmetic), whatever f is, for every hierarchical basis (value 1 at own knot, 0 at all other knots of the same or lower level).", "quantifier": "all functions f, all dimensions d, all levels k, all grid points, all hierarchical bases", "why_tests_cant": "Ranges over all functions and all grids; requires the correctness of in-place hierarchization over the whole index space.", "anchors": ["src/SparseGrid.cpp:initialize", "src/SparseGrid.cpp:hierarchize", "src/SparseGrid.cpp:interpolate", "src/SparseGrid.cpp:initializeStorage"]}
{"id": "C07", "title": "The stored interpolant never exceeds the largest stored value", "statement": "For every function and every evaluation point (inside or outside the grid range) the value returned by the sparse-grid interpolant is at most the maximum of f over the grid points, and that maximum is attained at some grid point.", "quantifier": "all functions f, all grids, all evaluation points", "why_tests_cant": "The set of evaluation points is a continuum.", "anchors": ["src/SparseGrid.cpp:interpolate", "src/SparseGrid.cpp:initializeStorage"]}
{"id": "C08", "title": "Interpolant derivatives are the derivatives of the interpolant", "statement": "At every point where the interpolant is strictly below its bound, the reported gradient and Hessian are the gradient and Hessian of the (unclamped) interpolant: the tensor-product rule is applied correctly in every coordinate for every grid point; the Hessian is symmetric.", "quantifier": "all coefficient vectors, all dimensions, all points, all differentiable bases", "why_tests_cant": "Finite differences at samples cannot separate an error in one mixed partial from noise, nor cover all dimensions.", "anchors": ["src/Point.cpp:computeBasisDerivative", "src/Point.cpp:computeBasisSecondDerivative", "src/SparseGrid.cpp:interpolateDerivative", "src/SparseGrid.cpp:interpolateSecondDerivative"]}
{"id": "C09", "title": "The piecewise-polynomial basis is hierarchical", "statement": "Each basis function takes value 1 at its own knot and 0 at every other knot of the same or a lower level, for every level up to the maximum; the interval lookup returns, for every x, the interval between consecutive knots that contains x.", "quantifier": "all maximum levels, all levels, all positions, all real x", "why_tests_cant": "Ranges over all levels and a continuum of x; an off-by-one in interval lookup only shows near a knot.", "anchors": ["src/BasisLevel.cpp:evaluate", "src/BasisLevel.cpp:findIntervalId", "src/BasisLevel.cpp:initializeGridIds", "src/BasisLevel.cpp:initializeSplineCoefficients", "src/BasisLevel.cpp:findKnotsTotal", "src/Basis.cpp:evaluate"]}
{"id": "C10", "title": "Basis construction is well defined for every requested level", "statement": "Creating the basis for any non-negative number of sparse levels and evaluating it performs no undefined conversion. (The code violates this for level 0: 0/0 is converted to int.)", "quantifier": "all levels nSL >= 0 accepted by the interface", "why_tests_cant": "Undefined behaviour does not make a test fail; on common hardware the value happens to be harmless.", "anchors": ["src/BasisLevel.cpp:initializeBandwidth", "src/BasisLevel.cpp:initializeKnots", "src/BasisLevel.cpp:findIntervalId"]}
{"id": "C11", "title": "Stored factors match the integrated factor at all transformed grid points", "statement": "After an integrated factor is stored relative to a normal approximation with symmetric positive-definite precision, reading it back at any transformed grid point (mean + scale * knot vector) returns the exact factor value.", "quantifier": "all functions, all normal approximations, all grids and grid points", "why_tests_cant": "Ranges over all functions and all positive-definite matrices.", "anchors": ["src/SparseStore.cpp:initializeFromNormal", "src/SparseStore.cpp:evaluate", "src/SparseGridTransform.cpp:interpolate", "src/SparseGridTransform.cpp:initializeTransformedFunction"]}
{"id": "C12", "title": "With zero sparse levels a stored factor is its second-order expansion at the mean", "statement": "With nSL = 0 the stored factor is the quadratic that has the value, gradient and Hessian of the original factor at the mean of the normal approximation (so sequential reduction at level 0 agrees with Laplace); more generally the quadratic modifier makes factor + modifier have the gradient and Hessian of the normal approximation at its mean.", "quantifier": "all twice differentiable factors, all dimensions, all positive-definite precisions", "why_tests_cant": "An identity between functions on a continuum for all factors.", "anchors": ["src/SparseStore.cpp:initializeFromNormal", "src/Quadratic.cpp:initializeFromDerivatives", "src/SparseGridTransform.cpp:interpolate"]}
{"id": "C13", "title": "Dependence-graph bookkeeping: completeness test is exact", "statement": "Under every sequence of graph operations that occurs while building a cluster graph (create, connect cliques of active nodes, remove nodes), the vertex and edge counters equal the number of active vertices and of edges between active vertices, so the completeness test answers yes exactly when every two active items are adjacent; neighbour lists are duplicate-free and symmetric.", "quantifier": "all item sets, all finite operation sequences", "why_tests_cant": "Counter drift needs particular interleavings of connect and remove; the state space is unbounded.", "anchors": ["src/Graph.cpp:addEdge", "src/Graph.cpp:removeNode", "src/Graph.cpp:connect", "src/Graph.cpp:isComplete", "inst/include/dependenceGraph.h:makeDependenceGraph"]}
{"id": "C14", "title": "Cluster-graph construction terminates with a tree", "statement": "For every collection of factors the recursive elimination terminates and yields n clusters and exactly n-1 edges; the k-th edge leaves the k-th cluster and enters a later cluster, every edge end is filled in (no -1 left), hence the edges form a tree directed to the last cluster and a forward sweep in edge order sends each message after all messages it depends on.", "quantifier": "all finite collections of factors (all dependence graphs)", "why_tests_cant": "Ranges over all graphs; a dangling edge would only appear for particular graph shapes.", "anchors": ["src/ClusterGraph.cpp:initializeInternal", "src/ClusterGraph.cpp:initialize"]}
{"id": "C15", "title": "Separators and running intersection", "statement": "Every edge's item set is contained in both clusters it joins and equals the intersection of its source cluster with the union of all later clusters; hence for every item the clusters containing it form a connected subtree (running intersection property).", "quantifier": "all finite collections of factors, all items, all pairs of clusters", "why_tests_cant": "Graph property over all graphs.", "anchors": ["src/ClusterGraph.cpp:initializeInternal"]}
{"id": "C16", "title": "No factor lost or used twice", "statement": "Every input factor is multiplied into exactly one cluster, one whose items contain the factor's items; hence the sum over clusters of their log values equals the sum over all input factors, at every assignment.", "quantifier": "all finite collections of factors, all assignments", "why_tests_cant": "Loss of a factor needs a factor contained in no cluster; must be excluded for all graphs.", "anchors": ["src/ClusterGraph.cpp:populateBelief", "src/ClusterGraph.cpp:populateClusters", "inst/include/dependenceGraph.h:makeDependenceGraph"]}
{"id": "C17", "title": "Message passing preserves the joint function", "statement": "For any sequence of messages in any order and direction, and any result of the (approximate) local integration, the sum of cluster log values minus the sum of edge log values is unchanged; in particular extractBeliefs always returns factors whose product is the original joint function.", "quantifier": "all finite message schedules, all approximate marginalisation results, all assignments", "why_tests_cant": "Ranges over all schedules and all outcomes of approximation.", "anchors": ["src/ClusterGraph.cpp:passMessage", "src/ClusterGraph.cpp:calibrateInternal", "src/ClusterGraph.cpp:extractBeliefs", "src/MixedContinuousBelief.cpp:operator*=", "src/MixedContinuousBelief.cpp:operator/="]}
{"id": "C18", "title": "Sequential reduction is exact when local integrals are exact", "statement": "If each local marginalisation is the exact integral, then after the forward sweep the value read off the last cluster is the logarithm of the integral of the product of all factors over all items: the only error sources of the method are quadrature and storage.", "quantifier": "all finite collections of non-negative measurable factors, all dependence graphs", "why_tests_cant": "Needs Fubini plus running intersection for every graph; numeric comparison covers single models only.", "anchors": ["src/ClusterGraph.cpp:calibrateForward", "src/ClusterGraph.cpp:computeLogNormalizingConstant", "src/MixedContinuousBelief.cpp:margin"]}
{"id": "C19", "title": "Reported width is the largest cluster, and bounds every factor", "statement": "cluster_graph()$width equals the size of the largest cluster, and every factor involves at most width items.", "quantifier": "all finite collections of factors", "why_tests_cant": "Ranges over all graphs.", "anchors": ["src/ClusterGraph.cpp:width", "R/loglikelihood.R:find_lfun_SR"]}
{"id": "C20", "title": "Item-list operations have set semantics", "statement": "For duplicate-free item lists: the subset test is set inclusion, the union is sorted, duplicate-free and contains exactly the items of either list, the difference keeps exactly the items not in the second list in their original order.", "quantifier": "all item lists", "why_tests_cant": "Ranges over all lists and orders.", "anchors": ["inst/include/itemsHelper.h:isSubset", "src/itemsHelper.cpp:findItemsUnion", "src/itemsHelper.cpp:findItemsDifference"]}
{"id": "C21", "title": "Looking up an absent item is reported", "statement": "Looking up the position of an item returns its (first) position when present and raises an error when it is absent. (The code violates the second half: the exception object is built but not thrown and position 0 is returned.)", "quantifier": "all item lists and items", "why_tests_cant": "Universally quantified; the missing throw is only visible when an absent item is looked up.", "anchors": ["src/itemsHelper.cpp:findRelativeItem", "src/itemsHelper.cpp:findRelativeItems"]}
{"id": "C22", "title": "Normal approximation of the cluster graph is consistent", "statement": "When the clusters and edges of a cluster graph are initialised from the mean and precision of a global Gaussian whose precision is zero between items that share no cluster, the sum of the cluster precisions minus the sum of the edge precisions (padded with zeros) is the global precision; normal-only message passing preserves this and keeps every cluster and edge mean equal to the global mean restricted to its items.", "quantifier": "all cluster graphs, all means, all compatible precisions, all message schedules", "why_tests_cant": "Matrix identity over all graphs and matrices.", "anchors": ["src/ClusterGraph.cpp:setNormalApprox", "src/ClusterGraph.cpp:passMessage", "src/MultiNormal.cpp:multiplySubsetInternal"]}
{"id": "C23", "title": "Product of Gaussians on a subset of coordinates", "statement": "Multiplying (dividing) a Gaussian by a Gaussian on a subset of its coordinates gives the Gaussian proportional to the product (quotient) of the densities. (The code's mean update is wrong in general when the subset is correlated with the other coordinates; it is right when the means agree on the subset or the cross-precision block vanishes.)", "quantifier": "all means, all precisions, all subsets", "why_tests_cant": "Ranges over all matrices; the tests only use cases where the means agree.", "anchors": ["src/MultiNormal.cpp:multiplySubsetInternal", "src/NormalBelief.cpp:operator*="]}
{"id": "C24", "title": "Mixed beliefs: evaluation is the signed sum of their factors under every history", "statement": "After any sequence of multiplications and divisions, evaluating a mixed belief gives the sum of the multiplied factors minus the sum of the divided ones, each evaluated at the coordinates of its own items; the cached coordinate positions are never stale; multiplying and then dividing by the same belief restores the value everywhere.", "quantifier": "all finite operation histories, all assignments", "why_tests_cant": "Cache staleness depends on operation history.", "anchors": ["src/MixedContinuousBelief.cpp:operator*=", "src/MixedContinuousBelief.cpp:operator/=", "src/MixedContinuousBelief.cpp:recomputeRelativeItems", "src/MixedContinuousBelief.cpp:evaluate"]}
{"id": "C25", "title": "Gauss-Hermite rule is exact to degree 2n-1", "statement": "For every n >= 1 the nodes and weights built from an exact eigen-decomposition of the n x n Jacobi matrix integrate every polynomial of degree at most 2n-1 against exp(-x^2) exactly (up to the ratio of the hard-coded constant to sqrt(pi)); the weights are non-negative.", "quantifier": "all n, all polynomials of degree <= 2n-1, all exact eigen-decompositions", "why_tests_cant": "Infinite family of polynomials and rules.", "anchors": ["src/QuadratureRule.cpp:initialize", "src/QuadratureRule.cpp:findHermiteJacobi"]}
{"id": "C26", "title": "Adaptive quadrature is exact on Gaussian-times-polynomial integrands and equals Laplace for one point", "statement": "integrate1D with location m and scale s is exact for every integrand that is a N(m,s^2) kernel times a polynomial of degree at most 2n-1; with a single quadrature point it returns f(m)*s*sqrt(2*pi), the Laplace value; it is linear and monotone in the integrand.", "quantifier": "all locations, scales, n, polynomials, integrands", "why_tests_cant": "Ranges over all integrands and parameters.", "anchors": ["src/QuadratureRule.cpp:integrate1D"]}
{"id": "C27", "title": "Reported derivatives of an integrated factor are exact", "statement": "The gradient and Hessian reported for a factor with one item integrated out by quadrature are the exact gradient and Hessian of the reported value (the log of the quadrature sum), for every twice differentiable factor and every rule.", "quantifier": "all twice differentiable factors, all rules, all points, all normal approximations", "why_tests_cant": "Derivative identity for all functions; includes the term due to the moving quadrature centre.", "anchors": ["src/IntegratedFunction.cpp:evaluate", "src/IntegratedFunction.cpp:evaluateDerivative", "src/IntegratedFunction.cpp:evaluateSecondDerivative"]}
{"id": "C28", "title": "Quadrature is centred at the conditional mean", "statement": "The quadrature for an integrated item is centred at the conditional mean of that item given the others under the normal approximation, and scaled by the conditional standard deviation. (The code violates the first half: the regression term enters with the wrong sign; the scale is right.)", "quantifier": "all positive-definite variances, all means, all evaluation points", "why_tests_cant": "At the mean, the only point usually tested, the sign error vanishes.", "anchors": ["src/IntegratedFunction.cpp:findConditionalMean", "src/IntegratedFunction.cpp:initializeConditionalTerms"]}
{"id": "C29", "title": "Gaussian built from derivatives matches them", "statement": "A normal built from a location, a gradient and a negative-definite Hessian has exactly that gradient and Hessian at the location; its log density has the reported derivatives everywhere; its density integrates to one for every positive-definite precision.", "quantifier": "all dimensions, all locations, gradients, symmetric invertible Hessians", "why_tests_cant": "Ranges over all vectors and matrices.", "anchors": ["src/MultiNormal.cpp:initializeFromDerivatives", "src/MultiNormal.cpp:evaluate", "src/MultiNormal.cpp:evaluateDerivative", "src/MultiNormal.cpp:initializeNormalizer"]}
{"id": "C30", "title": "Vector and matrix restriction helpers", "statement": "Removing coordinate i keeps the other entries in order; extending and then setting coordinate i inverts it; getting a subset after setting it returns what was set (for duplicate-free subsets) and other entries are untouched; matrix versions likewise.", "quantifier": "all sizes, all indices, all duplicate-free subsets, all entries", "why_tests_cant": "Ranges over all sizes and index lists; boundary indices matter.", "anchors": ["src/subsetEigen.cpp:getVectorWithout", "src/subsetEigen.cpp:setVectorWithout", "src/subsetEigen.cpp:getMatrixWithout", "src/subsetEigen.cpp:setMatrixSubset", "src/subsetEigen.cpp:getMatrixSubset", "src/IntegratedFunction.cpp:extendArgument"]}
{"id": "C31", "title": "Binomial/logit log-likelihood derivatives of orders 1-4", "statement": "extended_family('binomial','logit')$evaluate_d1..d4 are the first to fourth derivatives, per observation, of the log-likelihood with respect to the linear predictor wherever the mean is inside (1e-8, 1-1e-8).", "quantifier": "all linear predictors with unclamped mean, all responses, all weights", "why_tests_cant": "Derivative identities on a continuum.", "anchors": ["src/LogitLink.cpp:computeMeanFourthDerivative", "src/Family.cpp:evaluateFourthDerivative", "src/Binomial.cpp:evaluateFourthDerivative", "src/Family.cpp:evaluateThirdDerivative"]}
{"id": "C32", "title": "Binomial/probit log-likelihood derivatives of orders 1-4", "statement": "extended_family('binomial','probit')$evaluate_d1..d4 are the first to fourth derivatives of the log-likelihood with respect to the linear predictor wherever the mean is inside (1e-8, 1-1e-8).", "quantifier": "all linear predictors with unclamped mean, all responses, all weights", "why_tests_cant": "Derivative identities on a continuum.", "anchors": ["src/ProbitLink.cpp:computeMeanFourthDerivative", "src/Family.cpp:evaluateFourthDerivative", "src/Binomial.cpp:evaluateFourthDerivative"]}
{"id": "C33", "title": "Value and derivative agree also where the mean is clamped", "statement": "evaluate_d1 is the derivative of evaluate for every finite linear predictor. (The code violates this where the fitted mean is clamped: the value is locally constant but the reported derivative is not zero.) The value itself is bounded below by weight*log(1e-8) for responses in [0,1].", "quantifier": "all linear predictors, responses, weights", "why_tests_cant": "The clamped region is far out in the tails.", "anchors": ["src/Binomial.cpp:checkMean", "src/Family.cpp:evaluate", "src/Family.cpp:evaluateDerivative"]}
{"id": "C34", "title": "Log-concavity in the linear predictor for the logit link", "statement": "For non-negative weights and responses in [0,1], evaluate_d2 is non-positive at every linear predictor with unclamped mean, so the log-integrand of a logit GLMM is strictly concave in the random effects and has at most one mode.", "quantifier": "all linear predictors, responses, weights", "why_tests_cant": "Inequality on a continuum.", "anchors": ["src/Family.cpp:evaluateSecondDerivative", "src/LogitLink.cpp:computeMeanSecondDerivative"]}
{"id": "C35", "title": "GLMM factor evaluation does not depend on call history", "statement": "Although each GLMM factor caches quantities depending on the last theta and beta and is shared between copies of a cluster graph, the value, gradient and Hessian returned for given parameters and point are the same after every history of earlier evaluations with any other parameters.", "quantifier": "all finite histories of evaluation calls with arbitrary parameters, all data", "why_tests_cant": "History-dependent bug would need a particular sequence of calls.", "anchors": ["src/GLMMBelief.cpp:setTheta", "src/GLMMBelief.cpp:setBeta", "src/GLMMBelief.cpp:evaluate", "src/ContinuousBelief.cpp:evaluate", "src/ClusterGraph.cpp:computeLogNormalizingConstant"]}
{"id": "C36", "title": "Creating a GLMM factor reads no memory out of range", "statement": "Constructing the GLMM factor of any model term accesses only existing entries of the parameter vector. (The code violates this: it reads theta at positions up to the number of variance parameters from a zero vector whose length is the number of items, e.g. correlated intercept and slope: 2 items, 3 parameters.)", "quantifier": "all model terms", "why_tests_cant": "An out-of-range read of a heap vector is not detected by an ordinary test.", "anchors": ["src/GLMMBelief.cpp:initializeParameterDependents", "src/GLMMBelief.cpp:setLambdatThetaZt"]}
{"id": "C37", "title": "Gradient and Hessian of a GLMM factor are exact", "statement": "The gradient and Hessian of a GLMM factor with respect to the random effects equal the derivatives of its value, for all data, parameters and points whose fitted means are unclamped.", "quantifier": "all data, parameters and points", "why_tests_cant": "Ranges over all matrices and a continuum of points.", "anchors": ["src/GLMMBelief.cpp:evaluateDerivative", "src/GLMMBelief.cpp:evaluateSecondDerivative", "src/GLMMBelief.cpp:computeLinearPredictor"]}
{"id": "C38", "title": "Calibration parameters: last valid write wins", "statement": "After any sequence of assignments to family, link, number of sparse levels and number of quadrature points, each getter returns the last successfully assigned value (or the default), assignments to one field never affect another, and an unsupported family or link name raises an error and leaves the object unchanged.", "quantifier": "all finite sequences of assignments, all names", "why_tests_cant": "Ranges over all histories.", "anchors": ["src/accessParameters.cpp:makeParametersR", "src/accessParameters.cpp:setParametersFamily", "src/accessParameters.cpp:setParametersLink", "src/accessParameters.cpp:getParametersNQuadraturePoints"]}
{"id": "C39", "title": "Control defaults and overrides", "statement": "For every method and control list: no method or an unknown method is an error; otherwise each option needed by the method has the user's value if given and the default otherwise, for SR the quadrature size is always 2^(nSL+1)-1, check_Laplace is off unless method is Laplace of order at most 1, and a warning is issued exactly for names that are unknown or not needed.", "quantifier": "all methods (strings), all control lists", "why_tests_cant": "Ranges over all lists of names and values.", "anchors": ["R/control.R:find_control_with_defaults"]}
{"id": "C40", "title": "Observations are partitioned among the factors", "statement": "Splitting a model into local terms assigns every observation to exactly one clique, one that contains all its active random effects, or stops with an error; with cliques taken from the observations themselves it never stops. (Requires that every observation has an active random effect; otherwise the positional lookup of active sets goes wrong.)", "quantifier": "all model frames", "why_tests_cant": "Ranges over all incidence patterns.", "anchors": ["R/splitframe.R:add_obs", "R/splitframe.R:add_obs_C", "R/splitframe.R:find_active", "R/splitframe.R:find_factorization_terms"]}
{"id": "C41", "title": "The factorization reproduces the model's integrand", "statement": "For every model frame, every theta, beta and random-effects vector u, the sum of the logs of the factors passed to the cluster graph (local GLMM terms and standard normal terms) equals the full log-integrand: the log-likelihood of all observations with linear predictor X beta + (Lambda_theta' Z')' u plus the standard normal log-density of u.", "quantifier": "all model frames, theta, beta, u", "why_tests_cant": "Ranges over all designs and parameter values; an index error only shows for particular sparsity patterns.", "anchors": ["R/splitframe.R:find_local_term", "R/splitframe.R:find_factorization_terms", "src/GLMMBelief.cpp:setLambdatThetaZt"]}
{"id": "C42", "title": "Sub() expressions: the rewritten model frame computes the written expression", "statement": "Whenever a Sub(.) expression in a substituted variable is accepted, the linear predictor of the resulting model frame equals, for every coefficient vector and random effects, the value of the written expression with the substituted variable replaced by its own linear predictor (indexing, sums, differences, scalar multiples and quotients).", "quantifier": "all accepted expressions (unbounded depth), all data, coefficients, random effects", "why_tests_cant": "Infinite grammar; structural induction is needed.", "anchors": ["R/modify_subexpr.R:modify_subexpr", "R/model_frames.R:[fr", "R/model_frames.R:+fr", "R/model_frames.R:-fr", "R/model_frames.R:*fr", "R/model_frames.R:/fr"]}
{"id": "C43", "title": "Sub() expressions: non-linear uses are rejected", "statement": "Every Sub(.) expression that is not linear in the substituted variable (product of two terms involving it, division by it, any other function applied to it, or mixing with a constant term) is rejected with an error rather than silently producing a model frame.", "quantifier": "all expressions", "why_tests_cant": "Infinite grammar.", "anchors": ["R/modify_subexpr.R:modify_subexpr", "R/modify_subexpr.R:find_sub_status", "R/model_frames.R:*fr"]}
{"id": "C44", "title": "Observation-level covariates inside Sub()", "statement": "Multiplying a substituted variable by an observation-level numeric covariate scales the whole linear predictor of each observation by that observation's covariate. (The code violates this for the random-effects part unless the covariate is constant: rows instead of columns of Z' are scaled.)", "quantifier": "all covariate vectors and model frames", "why_tests_cant": "Holds for scalars, the only case tested.", "anchors": ["R/model_frames.R:*fr"]}
{"id": "C45", "title": "Concatenating model frames adds linear predictors", "statement": "The concatenation of model frames (fixed-effect columns bound, random-effect rows stacked, variance parameters renumbered, relative covariance factors put on the diagonal) has, for every parameter and random-effects vector, a linear predictor equal to the sum of those of the parts; concatenation is associative in this sense.", "quantifier": "all model frames, parameters, random effects", "why_tests_cant": "Ranges over all sizes and sparsity patterns.", "anchors": ["R/model_frames.R:concatenate_frames", "R/model_frames.R:concatenate_Matrix", "R/model_frames.R:attach_subframes"]}
{"id": "C46", "title": "Multi-index flattening matches the expanded grid", "statement": "The flat row number computed from a tuple of index values is the row of the expanded index grid holding exactly that tuple; it is a bijection between index tuples and 1..prod(lengths).", "quantifier": "all numbers and lengths of indices, all tuples", "why_tests_cant": "Ranges over all shapes.", "anchors": ["R/indexing.R:multi_to_flat", "R/indexing.R:flatten_vars", "R/subformula.R:parse_sub"]}
{"id": "C47", "title": "Importance sampling: log-mean-exp and sample weights", "statement": "The importance-sampling value equals the log of the average of exp(log weight) for every set of log weights (the shift cancels), each sample's log weight depends only on that sample, and each weight is integrand density divided by the true density of the transformed sample, so the estimator is unbiased for the integral.", "quantifier": "all samples, all weights, all positive-definite precisions, all integrands", "why_tests_cant": "Ranges over all samples; unbiasedness is a statement about an integral.", "anchors": ["R/IS.R:find_lfun_IS", "R/IS.R:find_log_weights", "R/IS.R:transform_normal", "R/IS.R:find_eta", "R/IS.R:find_log_integrand"]}
{"id": "C48", "title": "Importance sampling draws from the Laplace normal approximation", "statement": "The transformed samples have the covariance of the normal approximation, i.e. the inverse of its precision. (The code violates this for non-diagonal precisions: the transposed inverse Cholesky factor is applied.)", "quantifier": "all positive-definite precisions", "why_tests_cant": "For diagonal precisions the two coincide.", "anchors": ["R/IS.R:transform_normal"]}
{"id": "C49", "title": "Coefficients returned by coef() are the estimates in order", "statement": "coef() returns the variance-parameter estimates followed by the fixed-effect estimates: as a vector it equals the estimate vector. (The code violates this when there are no fixed effects: a descending index range adds a missing value and repeats a variance parameter.)", "quantifier": "all numbers of variance parameters >= 1 and of fixed effects", "why_tests_cant": "The edge case of no fixed effects changes the meaning of a:b.", "anchors": ["R/glmmFit.R:coef_fixed.glmmFit", "R/glmmFit.R:coef_random.glmmFit", "R/glmmFit.R:coef.glmmFit"]}
{"id": "C50", "title": "Variance parameters: sign convention and bound", "statement": "For models with uncorrelated random effects the returned variance-parameter estimates are non-negative, the objective is never evaluated by the likelihood code beyond the bound 5 in absolute value, and when an estimate exceeds 4.9 the covariance matrix is all missing and a warning is raised.", "quantifier": "all optimiser outcomes (any trajectory of the black-box optimiser), all likelihood functions", "why_tests_cant": "Ranges over arbitrary optimiser behaviour.", "anchors": ["R/optimization.R:optimize_glmm", "R/fit.R:glmm"]}
{"id": "C51", "title": "Sub() terms with several substituted variables are rejected", "statement": "A Sub(.) term involving more than one substituted variable, or none, is rejected. (The code violates this: any(n) > 1 is never true, and any(n) == 0 only if all counts are zero.)", "quantifier": "all lists of counts of substituted variables", "why_tests_cant": "Requires an input with two substituted variables; the condition's constancy is a universal fact.", "anchors": ["R/subformula.R:match_subform_subexpr"]}
{"id": "C52", "title": "Second-order Laplace correction is the tensor contraction of the cumulant expansion", "statement": "The correction computed from per-observation third and fourth derivatives and the matrix M equals the index contraction -1/8 g_ijkl h^ij h^kl + 1/8 g_ijk g_lmn h^ij h^kl h^mn + 1/12 g_ijk g_lmn h^il h^jm h^kn of the derivatives of the negative log-integrand with the inverse Hessian.", "quantifier": "all designs, derivatives and symmetric inverse Hessians", "why_tests_cant": "Multilinear identity in all dimensions.", "anchors": ["R/hol.R:find_epsilon_1", "R/hol.R:find_M"]}
{"id": "C53", "title": "Concatenation keeps the lower bounds of all variance parameters", "statement": "After combining model frames the lower-bound vector lists the bounds of all parts (used to decide whether random effects are correlated). (The code violates this: the second part's bounds are dropped.)", "quantifier": "all model frames", "why_tests_cant": "Needs a second part with correlated effects.", "anchors": ["R/model_frames.R:concatenate_frames", "R/fit.R:glmm"]}
{"id": "C54", "title": "A cluster with finite log value is accepted as proper", "statement": "Message passing stops with 'improper cluster belief' only when a value is infinite or not a number. (The code violates this: a log value of exactly zero, or a normal approximation with normaliser zero, is also treated as improper.)", "quantifier": "all finite values", "why_tests_cant": "Only the exact value zero (or a subnormal) triggers it.", "anchors": ["src/MixedContinuousBelief.cpp:isProper", "src/MultiNormal.cpp:isProper"]}
{"id": "C55", "title": "The complexity limit keeps grid arithmetic inside 32-bit integers", "statement": "Whenever the complexity check of the SR method passes (width^(2 nSL) <= 5e5) and width >= 2, every grid created (dimension <= width, level nSL) is sized, traversed and indexed without signed overflow.", "quantifier": "all widths >= 2, all levels nSL, all dimensions up to the width, all traversal states", "why_tests_cant": "Needs a bound on all intermediate products for all admissible sizes.", "anchors": ["R/loglikelihood.R:find_lfun_SR", "src/counting.cpp:choose", "src/Point.cpp:setIndex", "src/counting.cpp:findNumGridPoints"]}
{"id": "C56", "title": "Numeric literals in Sub() expressions", "statement": "A substituted variable may be multiplied by a numeric literal in a Sub(.) expression. (The code violates this: the status check stops on numeric literals.)", "quantifier": "all numeric literals", "why_tests_cant": "The rejection applies to every literal, although multiplication by a variable is accepted.", "anchors": ["R/modify_subexpr.R:find_sub_status"]}
{"id": "C57", "title": "Completeness test does not overflow", "statement": "The completeness test of the dependence graph, which forms numVertices*(numVertices-1) in int, gives the right answer for every number of items. (The code violates this from 46342 active items on: the product overflows, which is undefined behaviour; up to 46341 items it is right.)", "quantifier": "all numbers of active items", "why_tests_cant": "Needs models with more than 46341 random effects.", "anchors": ["src/Graph.cpp:isComplete"]}
{"id": "C58", "title": "Elimination order is greedy minimum degree", "statement": "At every stage of the construction the item eliminated is an active item with the fewest active neighbours.", "quantifier": "all reachable dependence-graph states", "why_tests_cant": "Ranges over all graph states; a wrong comparison would only worsen the width for particular graphs.", "anchors": ["src/ClusterGraph.cpp:initializeInternal"]}
{"id": "C59", "title": "Mixed beliefs: reported derivatives are the derivatives of the value under every history", "statement": "After any sequence of multiplications, divisions, changes of items and of the normal approximation, the gradient and Hessian reported by a mixed belief are, entry by entry, the partial derivatives of the signed sum of its factors with respect to the belief's items.", "quantifier": "all finite operation histories, all twice differentiable factors, all points", "why_tests_cant": "Scatter-add of factor derivatives into the belief's coordinates must be right for every arrangement of items.", "anchors": ["src/MixedContinuousBelief.cpp:evaluateDerivative", "src/MixedContinuousBelief.cpp:evaluateSecondDerivative", "src/matrixHelper.cpp:addVectorSubset", "src/matrixHelper.cpp:addMatrixSubset"]}
{"id": "C60", "title": "After setNormalApprox every normal approximation is the exact marginal", "statement": "When the global Gaussian's precision is positive definite and zero between items sharing no cluster, and every coordinate occurs in the graph, then after setNormalApprox returns, the normal approximation of every cluster and every edge belief has as mean and covariance exactly those of the marginal of the global Gaussian on its items.", "quantifier": "all junction trees, all compatible Gaussians", "why_tests_cant": "The two normal-only sweeps must be exact for every tree shape and every precision; a sweep in the wrong order is right on small trees.", "anchors": ["src/ClusterGraph.cpp:setNormalApprox", "src/ClusterGraph.cpp:calibrateInternal", "src/MixedContinuousBelief.cpp:margin", "src/NormalBelief.cpp:margin"]}
{"id": "C61", "title": "setNormalApprox runs without undefined behaviour", "statement": "On a cluster graph built from the factors, with a positive definite Gaussian over the items whose precision is zero between items sharing no cluster, setNormalApprox either returns or throws the exception for an improper cluster belief; no out-of-range access happens on the way, in either sweep.", "quantifier": "all junction trees, all compatible Gaussians, all factors", "why_tests_cant": "Index arithmetic of subsets and trees must be right for every shape; sanitizer runs see only the shapes tried.", "anchors": ["src/ClusterGraph.cpp:setNormalApprox", "src/ClusterGraph.cpp:passMessage", "src/MultiNormal.cpp:multiplySubsetInternal", "src/MultiNormal.cpp:computeMarginal"]}
{"id": "C62", "title": "Derivatives of a stored factor are the derivatives of its value", "statement": "Wherever the sparse-grid interpolant is strictly below its bound and the basis answers, the gradient reported by a stored factor is the gradient of the value it reports, the Hessian is the derivative of the reported gradient, and the Hessian is symmetric: change of variables, quadratic term and modifier are all differentiated correctly.", "quantifier": "all stored coefficients, all factors, all normals, all dimensions and all points", "why_tests_cant": "A missing transpose of the scale is invisible for symmetric scales of size one or diagonal ones; the identity concerns all points and coefficients.", "anchors": ["src/SparseGridTransform.cpp:interpolateDerivative", "src/SparseGridTransform.cpp:interpolateSecondDerivative", "src/SparseStore.cpp:evaluateDerivative", "src/SparseStore.cpp:evaluateSecondDerivative", "src/Quadratic.cpp:derivative"]}
{"id": "C63", "title": "An offset enters the linear predictor", "statement": "An offset given to glmm() is added to the linear predictor of every observation, whatever the approximation method. (The code violates this for sequential reduction: the local terms are built without the offset, while lme4 uses it for the normal approximation; the same holds for importance sampling and the second-order Laplace correction.)", "quantifier": "all model frames with an offset, all parameters and random effects", "why_tests_cant": "The only test of an offset uses the first-order Laplace method, where lme4 handles it.", "anchors": ["R/splitframe.R:find_local_term", "R/IS.R:find_XBeta", "R/model_frames.R:parse_formula"]}
{"id": "C64", "title": "Estimates of models with correlated random effects are not altered", "statement": "If some variance parameter of the combined model is not a standard deviation (its lower bound is not zero), glmm() returns the estimates found by the optimiser: it does not take absolute values. (The code violates this when two combined frames have random effects, because the lower bounds of the second are lost.)", "quantifier": "all model frames, all optimiser outcomes", "why_tests_cant": "The alteration needs a second frame with correlated random effects and a negative estimate.", "anchors": ["R/fit.R:glmm", "R/model_frames.R:concatenate_frames"]}
{"id": "C65", "title": "vcov() returns the covariance matrix", "statement": "vcov() returns the covariance matrix of the fit with one name for each row and column. (The code violates this without fixed effects: there are two names too many and it stops.)", "quantifier": "all numbers of variance parameters >= 1 and of fixed effects, all matrices", "why_tests_cant": "The tests always have fixed effects; the claim concerns all sizes.", "anchors": ["R/glmmFit.R:vcov.glmmFit"]}
{"id": "C66", "title": "The likelihood does not depend on the signs of standard deviations", "statement": "For models with uncorrelated random effects the likelihood (the integral over the random effects) is the same for variance parameters that agree up to signs; hence replacing the estimates by their absolute values does not change the likelihood.", "quantifier": "all model frames with diagonal Lambda, all families, all parameters", "why_tests_cant": "It is an identity of integrals over all parameter values.", "anchors": ["R/fit.R:glmm"]}
{"id": "C67", "title": "The covariance matrix of the fit belongs to the estimates of the fit", "statement": "The covariance matrix of a fit is twice the inverse Hessian of the deviance at the estimates of the fit. (The code violates this when an estimate is replaced by its absolute value: the covariances of that parameter keep the wrong sign; the variances are right.)", "quantifier": "all deviances that do not depend on the signs of the variance parameters, all optimiser outcomes", "why_tests_cant": "It needs an optimiser that ends at a negative standard deviation, and a comparison of covariances.", "anchors": ["R/fit.R:glmm", "R/glmmFit.R:vcov.glmmFit"]}
{"id": "C68", "title": "Substituted variables are indexed consistently", "statement": "If a Sub() term is accepted, its substituted variable is indexed somewhere in the term, and at every place where it is indexed, in the term and on the left-hand side of its subformula, the number of indices is the same.", "quantifier": "all expressions of any depth, all subformulas, all data", "why_tests_cant": "An inconsistent index can be nested anywhere in an expression.", "anchors": ["R/indexing.R:find_dim_sub", "R/indexing.R:find_indices_subform"]}
{"id": "C69", "title": "Each subformula is matched to exactly one Sub() term", "statement": "When matching succeeds, a subformula is given a Sub() term if and only if that term is the only one whose first substituted variable is the variable of the subformula; two terms with the same first variable are always rejected.", "quantifier": "all lists of subformulas and of Sub() expressions", "why_tests_cant": "The number and order of terms and subformulas are unbounded.", "anchors": ["R/subformula.R:add_subexpr", "R/subformula.R:match_subform_subexpr"]}
{"id": "C70", "title": "Sequential reduction of a model gives its likelihood", "statement": "For every well-formed binomial model with logit or probit link, sequential reduction of the factors of the model, with exact local integrals, runs through without error, and the value returned is the log of the integral over all random effects of the likelihood (with means moved into [1e-8, 1 - 1e-8]) times the standard normal density, up to the error of the literal for log sqrt(2 pi), at most 2e-12 for each random effect.", "quantifier": "all model frames with any number of random effects and observations, all parameters, both links, all elimination orders the code can choose; 32-bit integers for up to 46341 random effects", "why_tests_cant": "It composes splitting, the cluster graph and message passing, and compares with a multivariate integral of any dimension.", "anchors": ["R/splitframe.R:find_factorization_terms", "src/ClusterGraph.cpp", "R/loglikelihood.R:find_lfun_SR"]}
{"id": "C71", "title": "Moving the means changes the likelihood little", "statement": "Moving the means into [1e-8, 1 - 1e-8] lowers the log-likelihood of a model by at most 1.01e-8 for each trial (proportions, non-negative weights), and raises the likelihood by at most 1e-8 for each observation (0-1 responses without weights).", "quantifier": "all model frames, all parameters, both links", "why_tests_cant": "It compares integrals over all random effects, for all parameters.", "anchors": ["src/Binomial.cpp:checkMean"]}
{"id": "C72", "title": "The reported Laplace divergence is a Kullback-Leibler divergence", "statement": "The number find_laplace_divergence returns is the Kullback-Leibler divergence from the normal distribution centred at the maximum of the quadratic expansion corrected by the derivatives of the second-order term, to the normal distribution with the estimates and covariance of the fit; it is not negative, and without second derivatives it is 0 only if the gradient of the correction is 0.", "quantifier": "all dimensions, estimates, positive definite covariances, gradients; with second derivatives, all for which the corrected information is positive definite", "why_tests_cant": "It identifies a matrix formula with a multivariate integral; tests can only compare with numbers from the same formula.", "anchors": ["R/hol.R:find_laplace_divergence", "R/fit.R:glmm"]}
{"id": "C73", "title": "Standard errors and p-values of summary", "statement": "For every parameter the standard error is the square root of its variance, the z value the distance of the estimate from 0 in standard errors, and the p-value the probability that a normal variable with mean 0 and this variance is at least as far from 0; the test that rejects for p at most alpha has level alpha. If the variance is missing or negative, all three are missing.", "quantifier": "all estimates, all covariance matrices (also with missing or negative entries), all levels", "why_tests_cant": "Probabilities for all levels and all estimates.", "anchors": ["R/glmmFit.R:summary.glmmFit"]}
{"id": "C74", "title": "The printed table of the fixed effects", "statement": "The matrix of the fixed effects that is printed has one row for each fixed effect, with the estimate, standard error, z value and p-value of that parameter.", "quantifier": "all numbers of variance parameters and of fixed effects, also none", "why_tests_cant": "All sizes, including models without fixed effects.", "anchors": ["R/glmmFit.R:print.summaryGlmmFit"]}
{"id": "C75", "title": "Rows of a subformula are found by the labels of the indices", "statement": "For a Sub(.) term, y[a, b] is, at each observation, the value of y in the row of the subformula whose indices have the labels (levels or numbers) of a and b at that observation; and every observation has such a row.", "quantifier": "all expressions, all numbers of indices, all factors and numeric index variables, all frames of the subformula", "why_tests_cant": "The numbers of rows come from codes of factors, orders of levels and products of lengths; a test sees only some tables.", "anchors": ["R/indexing.R:find_indices_subform", "R/indexing.R:find_index_i", "R/indexing.R:flatten_vars", "R/subformula.R:parse_sub"]}
{"id": "C76", "title": "An index name that is a variable of the data gives the levels", "statement": "If the name of an index in the subformula is a variable of the data, the values of that variable are the levels of the index, and the index variables of the Sub(.) term become factors with these levels.", "quantifier": "all data and subformulas", "why_tests_cant": "Which branch sets which local variable in which turn of the loop matters only for rare combinations.", "anchors": ["R/indexing.R:find_indices_subform"]}
{"id": "C77", "title": "The model of a formula with subformulas", "statement": "The linear predictor of the model frame is that of the formula without Sub(.) terms plus the value of each Sub(.) expression, each subformula with its own coefficients, random effects and variance parameters; every expression is used once.", "quantifier": "all formulas, numbers of subformulas, data and frames", "why_tests_cant": "All numbers of subformulas and sizes of frames; the order of the parameters matters.", "anchors": ["R/subformula.R:find_modfr_glmm", "R/subformula.R:find_subvar", "R/subformula.R:drop_index"]}
{"id": "C78", "title": "Splitting a formula with Sub(.) terms", "statement": "The Sub(.) expressions of a formula are found in order and the other terms and the intercept stay as they are.", "quantifier": "all formulas", "why_tests_cant": "Which combinations of terms are kept depends on how text is joined and parsed again.", "anchors": ["R/subformula.R:split_formula", "R/utility.R:fixFormulaObject"]}
{"id": "C79", "title": "Margins of a calibrated cluster graph", "statement": "After calibration in both directions, with exact local integrals, every cluster and every edge holds the marginal of the product of all factors, and margin() returns the marginal for the items asked for, in any sequence of calls; items in no cluster are reported.", "quantifier": "all factor graphs, all message histories before, all sequences of queries", "why_tests_cant": "Exactness on trees depends on the order of messages; no test covers all factor graphs.", "anchors": ["src/ClusterGraph.cpp:ClusterGraph::calibrate", "src/ClusterGraph.cpp:ClusterGraph::margin"]}
{"id": "C80", "title": "Two-level models: sequential reduction is adaptive Gaussian quadrature", "statement": "For a two-level model (each observation depends on one random effect) the sequential reduction approximation is the product over the groups of adaptive Gaussian quadrature approximations with the same rule, centre and scale, whatever the number of sparse grid levels.", "quantifier": "all two-level model frames, parameters, quadrature rules, normal approximations with independent random effects", "why_tests_cant": "The vignette claims the equivalence; tests compare a few numbers to a tolerance, for few groups.", "anchors": ["R/loglikelihood.R:find_lfun_SR", "src/ClusterGraph.cpp:computeLogNormalizingConstant", "src/MixedContinuousBelief.cpp:MixedContinuousBelief::integrate", "src/QuadratureRule.cpp:QuadratureRule::integrate1D"]}
{"id": "C81", "title": "The log-likelihood function of sequential reduction", "statement": "glmm with method SR and nSL = k uses for a two-level model the log-likelihood of adaptive Gaussian quadrature with 2^(k+1) - 1 points, centred and scaled by the Laplace approximation; its values do not depend on earlier calls; other families and links, parameters of wrong length and weights that are not integers are refused.", "quantifier": "all two-level models, parameters, numbers of levels, sequences of calls", "why_tests_cant": "The calibration object is shared between calls and changed by them; tests call the function a few times.", "anchors": ["R/loglikelihood.R:find_lfun_SR", "R/loglikelihood.R:compute_normal_approx", "R/utility.R:check_modfr_SR", "R/utility.R:check_weights", "vignettes/glmmsr-vignette.Rmd"]}
{"id": "C82", "title": "Error of sequential reduction from the errors of the messages", "statement": "If each stored message of the forward sweep is the integral of its cluster up to a factor between exp(lo k) and exp(hi k), and so is the final value, then the value returned by compute_log_normalizing_constant differs from the log-likelihood of the model by an amount between the sums of lo and hi: the errors of the stages add up and are not amplified.", "quantifier": "all models, cluster graphs, normal approximations, approximations used for the messages and error bounds", "why_tests_cant": "The exact integrals of the intermediate clusters cannot be computed by a test; the claim is about every approximation.", "anchors": ["src/ClusterGraph.cpp:ClusterGraph::passMessage", "src/ClusterGraph.cpp:ClusterGraph::calibrateForward", "src/ClusterGraph.cpp:ClusterGraph::computeLogNormalizingConstant", "src/MixedContinuousBelief.cpp:MixedContinuousBelief::margin"]}
{"id": "C83", "title": "With zero sparse grid levels sequential reduction is the Laplace approximation", "statement": "With nSL = 0 (grids of level 0, one quadrature point) the value of compute_log_normalizing_constant is the Laplace approximation to the log-likelihood made from the mean and the precision of the normal approximation: the log joint density at the mean plus (q/2) log(2 pi) minus half the log determinant of the precision, for every model and every order of elimination. (The code does not reach this: creating the basis of level 0 converts 0/0 to an integer.)", "quantifier": "all models in which every observation has a random effect, all means, all positive definite precisions that are zero between random effects sharing no observation", "why_tests_cant": "The claim compares two algorithms for every dependence structure, elimination order, mean and precision; with nSL = 0 the behaviour of the compiled code is undefined.", "anchors": ["src/ClusterGraph.cpp:ClusterGraph::computeLogNormalizingConstant", "src/MixedContinuousBelief.cpp:MixedContinuousBelief::integrate", "src/IntegratedFunction.cpp:IntegratedFunction::evaluate", "src/SparseStore.cpp:SparseStore::SparseStore", "R/control.R:find_control_with_defaults"]}
{"id": "C84", "title": "Sequential reduction converges to the log-likelihood for two-level models", "statement": "For a two-level model, with the mean and precision of the normal approximation fixed, the value of compute_log_normalizing_constant with the Gauss-Hermite rule of 2^(nSL+1)-1 points tends to the exact log-likelihood as nSL grows (up to the error of the literals for log sqrt(2 pi) and sqrt(pi), at most 1e-9 per group). For proportions as responses, weights that are not negative and groups of total weight at least 1 no exception is raised once nSL is large enough.", "quantifier": "all two-level binomial models with logit or probit link, all parameters, all means, all diagonal positive definite precisions, all correct eigen-solvers, all tolerances", "why_tests_cant": "Convergence is a statement about the limit of infinitely many rules, and the exact likelihood has no closed form to compare with.", "anchors": ["src/QuadratureRule.cpp:QuadratureRule::initialize", "src/IntegratedFunction.cpp:IntegratedFunction::evaluate", "src/ClusterGraph.cpp:ClusterGraph::computeLogNormalizingConstant", "R/control.R:find_control_with_defaults"]}
{"id": "C85", "title": "The likelihood function is the one of the method and options asked for", "statement": "find_lfun_glmm gives: for Laplace of order 1 minus half of lme4's deviance; for order 2 and a canonical link this plus the correction find_epsilon_1 at lme4's normal approximation; for AGQ minus half of the deviance with the number of points given; for SR sequential reduction with nSL levels and 2^(nSL+1)-1 quadrature points; for IS importance sampling with the first q * nIS normal draws arranged by columns. Other orders, order 2 with a link that is not canonical and other methods are refused. Values do not depend on earlier calls of the same likelihood function.", "quantifier": "all models, methods, control lists, sequences of calls, deviance functions, random draws", "why_tests_cant": "Wrong options give plausible likelihoods; the arrangement of draws and the dependence on earlier calls need all sequences of calls to be compared.", "anchors": ["R/loglikelihood.R:find_lfun_glmm", "R/loglikelihood.R:find_lfun_glmm_internal", "R/loglikelihood.R:find_lfun_AGQ", "R/loglikelihood.R:find_lfun_SR", "R/laplace.R:find_lfun_Laplace", "R/laplace.R:check_if_order_implemented", "R/IS.R:find_lfun_IS", "R/control.R:find_control_with_defaults"]}
{"id": "C86", "title": "What a fit returned by glmm is", "statement": "If glmm returns, all weights are close to integers, the method is one of the four, the model has random effects, and the optimiser has been told only values of minus twice the likelihood of the method (infinity where it stops, the starting value plus 100 where a variance parameter is beyond 5); the estimates are where it ended, with the signs of the variance parameters removed, and the covariance matrix is twice the inverse of its Hessian, or missing with a warning if an estimate is large. The warnings are those about unknown or ignored options, failed convergence, a small eigenvalue of the covariance matrix, an unreliable Laplace approximation (only for order 1 with the check asked for, when the divergence is above the threshold) and large estimates or correlated random effects, each exactly when its condition holds. The likelihood is never evaluated with a variance parameter beyond 5, and not at all when the call is refused.", "quantifier": "all models, methods, control lists, weights, previous fits and optimisers", "why_tests_cant": "It is a statement about every point at which any optimiser may ask for the likelihood.", "anchors": ["R/fit.R:glmm", "R/optimization.R:optimize_glmm", "R/optimization.R:devfun_std", "R/loglikelihood.R:find_lfun_glmm_internal"]}
{"id": "C87", "title": "Covariates of a subformula with several indices are read at the combinations of the indices", "statement": "For a subformula v[i, j, ...] ~ rhs, flatten_formula gives v ~ rhs', where each covariate of rhs is replaced by one that, in the data frame expand.grid of the indices, has in the row of each combination T the value of the covariate for the indices T (x[i, j] the element x[T]). This is for covariates made of variables, numbers, elements of variables and functions that work row by row, without a '[' of several indices inside the brackets of several indices; a covariate x[i, y[i, j]] gets the wrong length, and with only one index x[i, i] becomes a matrix.", "quantifier": "all subformulas, numbers and lengths of indices, data and functions that work row by row", "why_tests_cant": "A wrong order of the combinations, or of the columns of the index matrix, goes unnoticed for symmetric or square arrays; the depth of the expressions is unbounded.", "anchors": ["R/indexing.R:matrix_indexing", "R/indexing.R:flatten_formula", "R/subformula.R:parse_sub", "R/subformula.R:find_subvar"]}
{"id": "C88", "title": "Grouped observations have the likelihood of single ones; weights count repetitions", "statement": "If the observations of a model frame are collected into groups with the same covariates and random effects, a group having the sum of the weights and the weighted mean of the responses of its members (in particular a weight k instead of k copies), and the groups are in the order of their first members and every observation has a random effect, then: the log-integrand of the model is the same function; sequential reduction refuses both with the same error or gives the same results in any sequence of calls, for the same modes and precisions from lme4 (up to its comparison with lme4's deviance, which contains the saturated model, and exactly for the same deviances); the correction of the Laplace approximation of second order is the same; the importance sampling approximations differ by the difference of the saturated log-likelihoods, for all parameters and samples.", "quantifier": "all model frames, groupings, weights, families and links, parameters, sequences of calls, samples", "why_tests_cant": "tests/testthat/test_weights.R compares one data set; an error in the use of weights or responses in a factor or a derivative, or in the assignment of observations to factors, shows only for some groupings.", "anchors": ["R/splitframe.R:find_local_term", "R/splitframe.R:add_obs", "R/loglikelihood.R:find_lfun_SR", "R/hol.R:find_epsilon_1", "R/IS.R:find_log_integrand", "src/GLMMBelief.cpp", "src/Family.cpp", "src/Binomial.cpp"]}
{"id": "C89", "title": "The printed table of the random effects and the names of the parameters belong to the right parameters", "statement": "A fit can be printed; the table has one row for each variance parameter with its estimate and standard error, and the row of the parameter of a single variable has the name of that variable and of its group; for each term the group and its number of levels are shown; the parameters given by coef and vcov have the names of the variables. Holds when every term has one variable. In general the table exists exactly when the numbers of terms and of variables both divide the number of parameters, so it is an error for (1 + x | g) (violated); for a term with three or another odd number of variables the names are repeated and are wrong (violated); the numbers of levels are right exactly when no two terms have the same grouping factor (violated for (x || g)); all parameters have names exactly when every term has one variable.", "quantifier": "all random effect terms, grouping factors, estimates and standard errors", "why_tests_cant": "The tests print models with random intercepts; the sizes agree for these whatever is shown beside them.", "anchors": ["R/glmmFit.R:print.glmmFit", "R/glmmFit.R:print.summaryGlmmFit", "R/glmmFit.R:coef_random.glmmFit", "R/glmmFit.R:coef_fixed.glmmFit", "R/glmmFit.R:vcov.glmmFit"]}
{"id": "C90", "title": "A response given by successes and failures is fitted as counts", "statement": "For a response cbind(successes, failures) every method uses the likelihood of the counts, (successes) log(mean) + (failures) log(1 - mean) for each observation. Violated by every method except lme4's own: sequential reduction sees only the column of successes; the sum of the logarithms of its factors exceeds the log-integrand of the model by the sum of (trials - 1) * -log(1 - mean), so it is right exactly if every observation is a single trial; if every observation has a success it increases with the linear predictors whatever the failures. With the logit link the correction of the Laplace approximation of second order is the same for all counts. Importance sampling stops with an error whenever there are two observations or samples.", "quantifier": "all model frames with two response columns, weights, links, parameters, random effects with unclamped means", "why_tests_cant": "No test has a response with two columns; the sequential reduction approximation runs without a message and gives a plausible number.", "anchors": ["R/splitframe.R:find_local_term", "R/hol.R:find_epsilon_1", "R/IS.R:find_log_integrand", "src/Binomial.cpp"]}
{"id": "C91", "title": "The sparse grid reproduces polynomials", "statement": "The interpolant of a polynomial is the polynomial itself, capped at its greatest value on the grid, if no variable has a power above 3 and the levels needed by the powers of each monomial (0 for constants, 1 for powers 1 and 2, 2 for power 3) sum to at most the level of the grid. In particular a grid of level 3 or more reproduces every cubic polynomial in any number of variables. For a polynomial that takes two different values on the grid the converse holds too. Where the polynomial is below the cap the gradient and the second derivatives returned are those of the polynomial.", "quantifier": "all polynomials, dimensions, levels accepted by the complexity check, points at which the basis can be evaluated", "why_tests_cant": "Tests of the interpolation use a few functions and points with a tolerance. A wrong condition at the ends of the splines still gives a smooth function through all the knots.", "anchors": ["src/BasisLevel.cpp", "src/Basis.cpp", "src/SparseGrid.cpp"]}
{"id": "C92", "title": "Importance sampling converges to the likelihood", "statement": "With independent standard normal random numbers, the importance sampling approximation converges with probability one, as the number of samples grows, to the logarithm of the integral of the integrand, and for binomial models to the log-likelihood minus the saturated term that does not depend on the parameters. Whatever the number of samples, the probability that the approximation exceeds this value by t or more is at most exp(-t). The same holds for the function that method IS of glmm maximises, with nIS as the number of samples.", "quantifier": "all models, parameters, normal approximations with positive definite precision, numbers of samples, streams of random numbers", "why_tests_cant": "A test runs finitely many samples and can not separate a small bias from noise.", "anchors": ["R/IS.R", "R/loglikelihood.R", "R/fit.R"]}
{"id": "C93", "title": "The importance sampling estimate has a finite variance", "statement": "For every number of samples the importance sampling estimate of the likelihood has a finite second moment, so that its error decreases as the square root of the number of samples.", "quantifier": "all models, parameters, normal approximations, numbers of samples", "why_tests_cant": "Any finite sample has a finite variance; an infinite one shows only as rare huge weights.", "anchors": ["R/IS.R", "R/loglikelihood.R"]}
{"id": "C94", "title": "The model frame has the variables, weights and offset given", "statement": "The frame made from a formula has the variables of the formula with the values they have in the data, the weights and the offset that were given as arguments, and weights or offsets of a wrong length are refused.", "quantifier": "all data frames, formulas with or without random effects, families, weights, offsets, environments of the formula", "why_tests_cant": "Whether a name in the formula captures an argument depends on the names in the data; tests use few.", "anchors": ["R/model_frames.R"]}
{"id": "C95", "title": "The logit link and the binomial log-likelihood stay in range", "statement": "For every linear predictor in double precision range the mean, its derivatives up to the fourth and the log-likelihood of a binomial model with logit link are finite numbers, those of the exact formulas up to rounding.", "quantifier": "all linear predictors, responses in [0, 1], nonnegative weights", "why_tests_cant": "Tests evaluate the link at moderate linear predictors; the overflow starts at 710, and for the derivatives at 178.", "anchors": ["src/LogitLink.cpp", "src/Binomial.cpp", "src/Family.cpp"]}
{"id": "C96", "title": "Importance sampling stays in range", "statement": "The log-likelihood approximated by importance sampling is a finite number whenever all log-weights are, namely the logarithm of the average weight.", "quantifier": "all log-weights of magnitude at most 2^1000, any number of samples; all models, samples, normal approximations", "why_tests_cant": "Overflow needs a sample whose log-weight is 710 above the average; tests with few observations never draw one.", "anchors": ["R/IS.R"]}
{"id": "C97", "title": "The order of the observations does not matter", "statement": "Putting the observations of a model in another order changes neither the model (log-integrand), nor the clusters, nor any sequence of values of the log-likelihood approximated by sequential reduction, nor importance sampling with the same samples, nor the second-order correction. For sequential reduction this is for models in which no observation depends on a strict subset of the random effects of another one; otherwise the factors of the model depend on the order.", "quantifier": "all model frames, all permutations of the observations, all parameters and sequences of calls, all deviance functions and arithmetic libraries", "why_tests_cant": "A test can try one permutation of one data set. The order of factors decides the order of the edges of the graph, which of two items tied in the elimination is met first and in which order separators are listed.", "anchors": ["R/splitframe.R", "R/loglikelihood.R", "src/ClusterGraph.cpp", "src/Graph.cpp"]}
{"id": "C98", "title": "The approximations depend on the parameters through the linear predictor only", "statement": "Two model frames with the same responses, weights and active random effects, whose parameters give the same linear predictor for all random effects (for example a covariate centred or scaled, a factor coded with other contrasts, random effects in another unit) have the same integrand, are refused by sequential reduction with the same error or have the same clusters and the same approximate log-likelihood at all such parameters in any sequence of calls, and have the same importance sampling estimates and second-order corrections.", "quantifier": "all pairs of model frames, also with different numbers of fixed effects and variance parameters, all parameters with the same linear predictor, all sequences of calls", "why_tests_cant": "A test can try one recoding of one data set at one parameter. The factors, their caches and all messages are computed from other matrices.", "anchors": ["R/splitframe.R", "R/loglikelihood.R", "src/GLMMBelief.cpp", "src/ClusterGraph.cpp", "R/IS.R", "R/hol.R"]}
{"id": "C99", "title": "Sequential reduction has no undefined behaviour unless random effects are nearly collinear", "statement": "For every binomial model with logit or probit link all whose observations have a random effect, with 32-bit integers, 1 to 25 sparse grid levels and any number of quadrature points, the sequential reduction function is refused as too difficult (only with many random effects), or can be made; then every call returns a value or raises an error, so no integer overflows, no conversion is out of range and no element is read outside its array, as long as the variance inflation factors of the normal approximation are at most ten million.", "quantifier": "all model frames with at most 46341 random effects, all parameters of any length, all results of lme4 that are Laplace approximations, all numbers of levels 1-25 and of quadrature points up to 2^31-1", "why_tests_cant": "Undefined behaviour shows only at far points of grids in clusters with particular normal approximations; a bound on all points reached in all recursive integrals needs an argument about distances in the normal approximation, not samples.", "anchors": ["src/SparseStore.cpp", "src/SparseGrid.cpp", "src/BasisLevel.cpp", "src/IntegratedFunction.cpp", "src/ClusterGraph.cpp", "R/loglikelihood.R"]}
{"id": "C100", "title": "The sequential reduction log-likelihood does not depend on the signs of random effects", "statement": "The signs of random effects are arbitrary: changing the sign of a standard deviation, or of the columns that multiply a random effect, gives the same model. For every binomial model with logit or probit link all whose observations have a random effect, two model frames with the same data whose linear predictors differ by the signs of random effects are refused with the same error, or both log-likelihood functions can be made and matching calls return the same value or raise the same error. The correction of the second-order Laplace approximation does not depend on the signs either.", "quantifier": "all pairs of model frames with at most 46341 random effects, all patterns of signs, all sequences of calls with matching parameters, 1-25 sparse grid levels, all numbers of quadrature points up to 2^31-1, all Laplace approximations with variance inflation factors at most ten million", "why_tests_cant": "The invariance needs the symmetry of the sparse grid, of its basis functions and of the quadrature rule together with every step of the elimination; a sample of models checks a few signs and a few grids, not all.", "anchors": ["src/SparseGrid.cpp", "src/BasisLevel.cpp", "src/QuadratureRule.cpp", "src/IntegratedFunction.cpp", "src/SparseStore.cpp", "src/ClusterGraph.cpp", "R/loglikelihood.R", "R/hol.R"]}
{"id": "C101", "title": "Exchanging successes and failures does not change the approximate log-likelihood", "statement": "With logit and probit links it does not matter which of the two outcomes is called success: the model for the failures has the fixed effects with the other sign. For every binomial model with logit or probit link all whose observations have a random effect, two model frames with successes and failures exchanged whose linear predictors differ by the sign are refused with the same error by sequential reduction, or both log-likelihood functions can be made and matching calls return the same value or raise the same error. The importance sampling approximations are the same for samples with changed signs, which have the same distribution. The correction of the second-order Laplace approximation is the same.", "quantifier": "all pairs of model frames with at most 46341 random effects, all responses and weights, all sequences of calls with matching parameters, 1-25 sparse grid levels, all numbers of quadrature points up to 2^31-1, all Laplace approximations with variance inflation factors at most ten million; all samples", "why_tests_cant": "The invariance needs the symmetry of the bounds on the mean, of both links with their derivatives, of the sparse grid, basis functions and quadrature rule at every step of the elimination; tests compare a few data sets.", "anchors": ["src/Family.cpp", "src/Binomial.cpp", "src/LogitLink.cpp", "src/ProbitLink.cpp", "src/SparseGrid.cpp", "src/ClusterGraph.cpp", "R/IS.R", "R/loglikelihood.R", "R/hol.R"]}
{"id": "C102", "title": "A saved factorization can be read back", "statement": "Saving the factorization of a model to a file raises the error that making the factorization for sequential reduction raises, and then leaves no lines in the file; otherwise the file has one line for each factor, in order, and nothing of what it contained before. Each line can be read with only the sizes written in it, and gives the random effects of the factor (from 0), the rows of the fixed and random effects design matrices by columns, the row, column, value and parameter number of each stored entry of the relative covariance factor, the responses and the weights. Two models with the same file have the same factorization. A factor or logical response is written as TRUE and FALSE, not as numbers. A saved normal approximation gives back its mean and the stored entries of its precision matrix.", "quantifier": "all model frames, responses and weights, all values of the relative covariance factor, all previous contents of the file", "why_tests_cant": "Whether a line can be read without knowing the model depends on all sizes at once (no observations, no random effects, empty sparse matrices); tests compare a few files.", "anchors": ["R/splitframe.R"]}
{"id": "C103", "title": "Observations of weight zero do not matter", "statement": "The response and the covariates (of fixed and random effects) of an observation whose weight is 0 are irrelevant, as long as the observation keeps its random effects. Two model frames that agree in the weights, in the active random effects and, for the observations whose weight is not 0, in responses and linear predictors are refused with the same error by sequential reduction, or both log-likelihood functions can be made, their cluster graphs have the same clusters, and matching calls return the same value or raise the same error. The correction of the second-order Laplace approximation is the same, and importance sampling with the same samples gives the same value if the deviance residuals are 0 for the weight 0.", "quantifier": "all pairs of model frames, all responses, covariates, weights, families, links, sparse grid levels and numbers of quadrature points, all sequences of calls", "why_tests_cant": "A weight that is left out at one of the many places where derivatives are formed shows only for particular data; tests hardly ever use the weight 0.", "anchors": ["src/Binomial.cpp", "src/Family.cpp", "src/GLMMBelief.cpp", "src/ClusterGraph.cpp", "R/splitframe.R", "R/IS.R", "R/hol.R", "R/loglikelihood.R"]}
{"id": "C104", "title": "Taking a part of an array in one direction", "statement": "subset_dim(x, i, indices) for an array with direction i and positive indices returns an array with as many entries as indices in direction i and the extents of x in all others, never dropping a direction, and the element at a position is the element of x at the same position with the index in direction i. An index beyond the extent, and a direction the array does not have, are errors. For a vector and i = 1 the result are the elements at the indices, missing beyond the end.", "quantifier": "all arrays with any number of directions and any extents, all directions, all lists of positive indices", "why_tests_cant": "The expression evaluated is written as text with a number of commas that depends on direction and number of directions; tests cover few arrays.", "anchors": ["R/utility.R"]}
{"id": "C105", "title": "Independent parts of a model", "statement": "If the observations and random effects of a model fall into two parts, such that the linear predictor of an observation depends on the random effects of its own part only (in particular if two model frames with the same parameters are put one after the other), then the log-integrand is the sum of those of the parts, the likelihood is their product, and the correction of the second-order Laplace approximation is the sum of those of the parts, or the correction of a part stops with the same error, when the normal approximation has independent parts too. Random effects without observations have likelihood 1 and correction 0.", "quantifier": "all pairs of model frames of any size, parameters, families and links (the likelihood: all mean functions), normal approximations", "why_tests_cant": "The correction is a sum over all pairs of observations; an error in the use of the matrix between observations of different parts shows only for models with several parts, and tests compare few models with known values.", "anchors": ["R/hol.R", "R/IS.R", "R/splitframe.R"]}
{"id": "C106", "title": "Nested random effects need no larger clusters than the observations", "statement": "If of every two random effects one is present in all observations in which the other is, or no observation has both (groups within groups, with any number of effects per group), then the cluster graph has no cluster that is not contained in the random effects of an observation or a single one, its width is the largest number of random effects of an observation, and sequential reduction is refused as too difficult exactly if this number to the power 2 nSL exceeds 500000, whatever the number of groups and observations.", "quantifier": "all collections of nested factors of any size; all well-formed model frames all whose observations have a random effect, binomial models with logit or probit link, all numbers of levels for which the parameters can be made", "why_tests_cant": "The order of elimination and its ties, and the edges added, matter only for larger models; tests look at the width of a few graphs.", "anchors": ["src/ClusterGraph.cpp", "src/Graph.cpp", "R/loglikelihood.R", "R/splitframe.R"]}
{"id": "C107", "title": "Every random effect is integrated out exactly once", "statement": "In the cluster graph of any collection of factors the message along each edge integrates out exactly one item, the one that is in the cluster and not in the separator; these items and the items of the last cluster, which is integrated at the end, are all different and are all items of the factors. So the number of clusters plus the number of items of the last one is the number of items plus one, and if there are any items there are at most as many clusters as items. For a model for which the log-likelihood function of sequential reduction can be made, each random effect is integrated out exactly once.", "quantifier": "all collections of factors of any size; all well-formed model frames all whose observations have a random effect, binomial models with logit or probit link, any options", "why_tests_cant": "An item integrated twice or left out changes the result only for graphs with certain separators; tests compare the result for a few models.", "anchors": ["src/ClusterGraph.cpp", "src/Graph.cpp", "R/loglikelihood.R"]}
{"id": "C108", "title": "Rotating the random effects changes nothing", "statement": "If the linear predictors of two models with the same responses and weights agree when the random effects of one are those of the other turned by an orthogonal matrix, then the likelihoods are equal, the mode is turned by the matrix, the precision matrices of the normal approximations are turned by it, and the second-order correction computed from them is the same (or stops with the same error). Two models with the same number of random effects and the same expected linear predictors and the same covariance matrix of the linear predictor always are rotations of each other, so the likelihood depends on the variance parameters only through the covariance matrix of the random effects.", "quantifier": "all model frames, of any size, all orthogonal matrices, all parameters; for the second-order correction well-formed model frames, all families and links, all normal approximations", "why_tests_cant": "Equality for all rotations and all models is a statement about integrals over spaces of any dimension; tests can compare only rounded values for a few models.", "anchors": ["R/hol.R", "R/splitframe.R", "R/loglikelihood.R"]}
{"id": "C109", "title": "The complexity limit bounds the number of grid points", "statement": "If the log-likelihood function of sequential reduction can be made, every message is stored on a sparse grid with at most 500000 points, whose size the code finds without overflow, and all integrals of one evaluation together, those of the messages and those of the last cluster, are computed at no more than 500000 grid points per random effect; more exactly at no more than (2w-1)^nSL per random effect if no cluster has more than w items. So with nested random effects the number of grid points grows only in proportion to the number of random effects.", "quantifier": "all well-formed model frames all whose observations have a random effect, binomial models with logit or probit link, all non-negative numbers of sparse grid levels, any other options", "why_tests_cant": "The limit is a heuristic on the width of the cluster graph; tests can count grid points only for a few models.", "anchors": ["R/loglikelihood.R", "src/counting.cpp", "src/ClusterGraph.cpp", "src/MixedContinuousBelief.cpp"]}
{"id": "C110", "title": "The integrand of a binomial model has exactly one mode", "statement": "For non-negative weights and responses in [0,1], and for the logit and the probit link, the log-integrand is strictly concave in the random effects, it attains its maximum at exactly one point and has no other local maximum, so the mode sought by the Laplace approximation exists and is unique; the integrand is integrable and the likelihood is positive and at most 1. For the probit link the second derivative computed by the code is not positive at every linear predictor with unclamped mean, and negative where the weight is positive (C34 for the logit link).", "quantifier": "all model frames with non-negative weights and responses in [0,1], both links, all parameters", "why_tests_cant": "Inequalities on a continuum and existence of a maximum over a space of any dimension.", "anchors": ["src/ProbitLink.cpp", "src/LogitLink.cpp", "src/Family.cpp", "R/loglikelihood.R"]}
{"id": "C111", "title": "Helpers that are not called: pairs and numbers of messages", "statement": "find_pairs returns the pairs of elements at different positions of a vector, in order and each once, n(n-1)/2 in number, and nothing for fewer than two elements. The cluster graph has one message fewer than clusters, and the number of messages plus the number of items of the last cluster is the number of items; complexity() is always 0.", "quantifier": "all vectors; all collections of factors of any size", "why_tests_cant": "No test of the package calls these functions.", "anchors": ["R/utility.R:find_pairs", "src/ClusterGraph.cpp"]}
{"id": "C112", "title": "No variance, and continuity", "statement": "When every variance parameter is zero, the likelihood is that of the generalized linear model with the fixed effects only; zero is the only mode of the integrand; the precision of the normal approximation is the identity matrix; the second-order correction is zero; and importance sampling returns the log-likelihood of the model without random effects (less that of the saturated model), whatever the samples. Sequential reduction of a two-level model gives that log-likelihood up to 1e-9 for each random effect, whatever the number of quadrature points. The likelihood is a continuous function of all parameters, so it tends to that value as the variances tend to zero.", "quantifier": "all binomial models with logit or probit link, all designs, data, fixed effects and samples", "why_tests_cant": "The tests evaluate a few models at positive variances and compare numbers.", "anchors": ["R/IS.R:find_lfun_IS", "R/hol.R:find_epsilon_1", "R/loglikelihood.R:compute_normal_approx"]}
{"id": "C113", "title": "The importance sampling estimate is an average over the samples", "statement": "The estimate does not depend on the order of the samples; the estimated likelihood of two runs put together is the average of the two estimated likelihoods in proportion to the numbers of samples; and the estimated log-likelihood lies between the least and the largest one that a single sample gives.", "quantifier": "all families, models, parameters, normal approximations and samples, and any Cholesky routine", "why_tests_cant": "The tests use one set of samples, and compare numbers.", "anchors": ["R/IS.R:find_lfun_IS", "R/IS.R:find_log_weights"]}
{"id": "C114", "title": "The log-likelihood is differentiable in the parameters", "statement": "The log-likelihood that the methods approximate is differentiable at every value of the variance parameters and the fixed effects, also at zero variances, and its derivative in a direction is the mean, over the conditional distribution of the random effects given the data, of the scores of the observations times the change of their linear predictors.", "quantifier": "all binomial models with logit or probit link, responses between 0 and 1, weights that are not negative; all parameters", "why_tests_cant": "A test can compare difference quotients at a few parameters only.", "anchors": ["R/optimization.R", "src/Binomial.cpp"]}
{"id": "C115", "title": "No slope at a standard deviation of zero", "statement": "With independent random effects, the log-likelihood has derivative zero in a standard deviation at the value zero, whatever the other parameters; with any random effects, it has derivative zero in every direction of the variance parameters where all of them are zero. So a search for a maximum by gradients that is started at such values (prev_fit) sees a stationary point in these directions whether or not it is a maximum.", "quantifier": "all binomial models with logit or probit link, responses between 0 and 1, weights that are not negative; all other parameters", "why_tests_cant": "A test can compare difference quotients at a few parameters only.", "anchors": ["R/optimization.R:optimize_glmm"]}
{"id": "C116", "title": "Given the variance parameters, the log-likelihood is concave in the fixed effects", "statement": "For given variance parameters the log-likelihood of a binomial model is a concave function of the fixed effects; so fixed effects at which it has a local maximum, or where its derivative is zero, maximize it.", "quantifier": "all binomial models with logit or probit link, responses between 0 and 1, weights that are not negative; all variance parameters and fixed effects", "why_tests_cant": "A test can look at a few values only.", "anchors": ["R/optimization.R:optimize_glmm", "src/Binomial.cpp"]}
{"id": "C117", "title": "The options for lme4 reach lme4", "statement": "The options for lme4 that are given (lme4_control, from set_lme4_control) are those with which lme4 is run, both where the model frame is made and where the deviance function is made.", "quantifier": "all formulas, subformulas and options; any behaviour of lme4", "why_tests_cant": "A test can try a few options only; the test in the package tries one, on find_modfr_glmm and not on glmm.", "anchors": ["R/fit.R:glmm", "R/control.R:set_lme4_control", "R/subformula.R:find_modfr_glmm", "R/model_frames.R:parse_formula", "R/loglikelihood.R:find_lfun_glmm"]}
{"id": "C118", "title": "Maximum likelihood estimates of the fixed effects exist just if successes and failures are not separated", "statement": "For given variance parameters, the likelihood of a binomial model has a maximum over the fixed effects if and only if there is no direction of the fixed effects in which some observation moves, no success gets less likely and no failure does; in such a direction the likelihood always increases, so with separation there are no maximum likelihood estimates of all the parameters; if all observations move, the likelihood tends to 1.", "quantifier": "all binomial models with logit or probit link, responses between 0 and 1, weights that are not negative; all variance parameters, all fixed effects, any rank of the design matrix", "why_tests_cant": "Existence of a maximum is not observable by running an optimizer, which always stops somewhere.", "anchors": ["R/optimization.R:optimize_glmm", "src/Binomial.cpp"]}
{"id": "C119", "title": "There is a warning where there are no finite maximum likelihood estimates", "statement": "If the likelihood has no maximum, glmm gives the warning that the approximate MLE might not be finite.", "quantifier": "all binomial models with independent random effects; all results of the optimizer", "why_tests_cant": "A test can try a few data sets only, and the result depends on where the optimizer stops.", "anchors": ["R/fit.R:glmm"]}
{"id": "C120", "title": "Maximum likelihood estimates of the fixed effects are unique", "statement": "For given variance parameters, if different fixed effects give different linear predictors, the log-likelihood of a binomial model is strictly concave in the fixed effects; there is exactly one maximum likelihood estimate of them if and only if no direction other than zero separates successes and failures.", "quantifier": "all binomial models with logit or probit link, responses between 0 and 1, weights that are not negative; all variance parameters", "why_tests_cant": "Uniqueness over all fixed effects cannot be observed at finitely many of them.", "anchors": ["R/optimization.R:optimize_glmm", "src/Binomial.cpp"]}
{"id": "C121", "title": "In the region that is searched the likelihood has a maximum just if successes and failures are not separated", "statement": "For variance parameters of size at most 5 (the others are excluded by optimize_glmm) and any fixed effects, the likelihood of a binomial model has a maximum if and only if no direction of the fixed effects separates successes and failures; the same for any compact set of variance parameters.", "quantifier": "all binomial models with logit or probit link, responses between 0 and 1, weights that are not negative; any rank of the design matrix", "why_tests_cant": "Existence of a maximum is not observable by running an optimizer, which always stops somewhere.", "anchors": ["R/optimization.R:optimize_glmm"]}
{"id": "C122", "title": "Random effects for single binary observations: the standard deviation cannot be estimated (probit link)", "statement": "If each group has one observation, which is a success or a failure, the likelihood with the probit link depends on the fixed effects divided by the square root of one plus the variance only; so every standard deviation gives the same likelihood with suitable fixed effects, and if there is a maximum, every standard deviation is part of one. The checks of lme4 that would refuse such a model are turned off by set_lme4_control.", "quantifier": "all binomial models with probit link, one random effect for each observation, binary responses; all parameters", "why_tests_cant": "A test can compare a few parameters only, and approximations are not exactly equal.", "anchors": ["R/control.R:set_lme4_control", "R/optimization.R:optimize_glmm", "src/ProbitLink.cpp"]}
{"id": "C123", "title": "A previous fit of a model with another number of parameters is refused", "statement": "If the estimates of prev_fit are not as many as the parameters of the model, glmm stops rather than starting the optimization from them.", "quantifier": "all numbers of parameters, all likelihood functions that stop for another number of parameters (as that of the sequential reduction does), all optimizers that keep to the number of parameters, all previous estimates", "why_tests_cant": "A test tries a few numbers of parameters; whether shorter vectors are recycled depends on R's rules for vectors.", "anchors": ["R/optimization.R:optimize_glmm", "R/loglikelihood.R:find_lfun_SR", "R/fit.R:glmm"]}
{"id": "C124", "title": "A fit started from a previous fit is not less likely", "statement": "If the optimizer returns parameters at which the function it is given is not larger than at the start, the estimates of glmm have at least the (approximate) log-likelihood of the estimates of prev_fit, or of the usual start; their variance parameters are at most 5, so they can serve as prev_fit again; along a sequence of fits, each started from the one before, the log-likelihood does not go down.", "quantifier": "all log-likelihood functions that do not depend on the signs of the standard deviations, all such optimizers, sequences of fits of any length", "why_tests_cant": "A test runs one optimizer on a few likelihoods; the penalty outside the bound and caught errors make a case distinction that has to hold at every point.", "anchors": ["R/optimization.R:optimize_glmm", "R/fit.R:glmm"]}
{"id": "C125", "title": "Log-likelihoods are not positive, and the stability check agrees with that", "statement": "For counts, the likelihood with binomial coefficients is at most one and the Laplace approximation of lme4 to its logarithm is not positive; so the log-likelihood function of the sequential reduction, which stops if its value is above half of the Laplace approximation, never returns a positive log-likelihood, and never calls a value unstable that is at most the Laplace approximation.", "quantifier": "all binomial models with logit or probit link for counts, all parameters, all cluster graphs and options", "why_tests_cant": "A test evaluates a few models at a few parameters; the sign needs the determinant of the precision to be at least one for every model.", "anchors": ["R/loglikelihood.R:find_lfun_SR", "R/loglikelihood.R:compute_normal_approx"]}
{"id": "C126", "title": "No fit is returned for a model with collinear covariates", "statement": "The covariates of a formula and of its subformulas are put side by side without a check of their rank. If some combination of them is zero for all observations, the log-likelihood function of each method is the same along the corresponding line of fixed effects, the function given to the optimiser is so too, and its exact Hessian matrix is singular; so glmm stops at the inversion of the Hessian matrix instead of returning one of the infinitely many estimates with the same likelihood.", "quantifier": "all model frames with collinear covariates, methods, control lists, previous fits of the right length, and all optimisers that return the exact Hessian matrix at their result; solve stops for singular matrices; lme4's deviance functions depend on the fixed effects through the linear predictor; exact arithmetic", "why_tests_cant": "The fixed effects that are not identified can be combined in infinitely many ways, across all frames and methods; rounding in a test hides what follows from the program itself.", "anchors": ["R/model_frames.R:190-219", "R/optimization.R:45-48", "R/optimization.R:74-86", "R/loglikelihood.R:20-31"]}
