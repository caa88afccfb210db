{"claims": [
  {"property": "C01", "status": "proved", "theorems": ["Verif.Counting.c01_choose_binomial_or_ub", "Verif.Counting.c01_choose_exact"], "note": "exact condition for 32-bit fit; ub otherwise"},
  {"property": "C02", "status": "proved", "theorems": ["Verif.Counting.c02_findNumGridPoints_card", "Verif.Counting.c02_findNumGridPoints32_card"], "note": "set of points counted with Set.ncard"},
  {"property": "C03", "status": "proved", "theorems": ["Verif.Point.c03_traversal_index", "Verif.Point.c03_traversal_bijection", "Verif.Point.c03_index_bijection"], "note": "unbounded arithmetic; 32-bit agreement is C55"},
  {"property": "C04", "status": "proved", "theorems": ["Verif.Point.c04_traversal_safe", "Verif.Point.c04_advance_zero_dim_ub"], "note": "dimension at least 1; dimension 0 is undefined behaviour"},
  {"property": "C05", "status": "proved", "theorems": ["Verif.Point.c05_parent_traversal", "Verif.Point.c05_parents_exactly"], "note": ""},
  {"property": "C06", "status": "proved", "theorems": ["Verif.SparseGrid.c06_interpolate_exact", "Verif.BasisLevel.c06_coded_basis"], "note": "any hierarchical basis, and the coded basis with machine integers under the complexity check"},
  {"property": "C07", "status": "proved", "theorems": ["Verif.SparseGrid.c07_interpolate_le_max"], "note": ""},
  {"property": "C08", "status": "proved", "theorems": ["Verif.SparseGrid.c08_gradient", "Verif.SparseGrid.c08_hessian", "Verif.SparseGrid.c08_clamped_zero"], "note": ""},
  {"property": "C09", "status": "proved", "theorems": ["Verif.BasisLevel.c09_hierarchical", "Verif.BasisLevel.c09_hierarchical32", "Verif.BasisLevel.c09_interval", "Verif.BasisLevel.c09_derivatives"], "note": "maximum level at least 1 (level 0 is undefined behaviour, C10); the lookup statement is for unbounded conversions (32-bit limits are in C10)"},
  {"property": "C10", "status": "partial", "theorems": ["Verif.BasisLevel.c10_create_iff", "Verif.BasisLevel.c10_evaluate_iff", "Verif.BasisLevel.c10_levels_partial", "Verif.BasisLevel.c10_level0_ub", "Verif.BasisLevel.c10_many_levels_ub", "Verif.BasisLevel.c10_far_argument_ub"], "note": "Violated by the code. Exact domain with 32-bit conversions: creation succeeds for 1 to 25 levels and is undefined behaviour otherwise (c10_create_iff); evaluation at level l succeeds below the first knot of the level plus 2^32 bandwidths and is undefined behaviour from there on (c10_evaluate_iff). Memory is not modelled."},
  {"property": "C100", "status": "proved", "theorems": ["Verif.Sign.c100", "Verif.Sign.c100_theta", "Verif.Sign.graph_sign", "Verif.Sign.value_exact", "Verif.Sign.mirror_theta", "Verif.Sign.mirror_laplace", "Verif.Sign.ofEigen_sym", "Verif.Sign.symEnv", "Verif.Sign.store_rel", "Verif.Sign.signSolver_inv", "Verif.Sign.c100_IS", "Verif.Sign.c100_hol", "Verif.Sign.samples_flip"], "note": "32-bit integers, exact reals. The deviance functions of lme4 have to give the same deviance and modes that differ by the signs (lme4 is not modelled); the precision matrices then differ by the signs because they are Laplace approximations. The linear solver is assumed to commute with changes of sign, as the exact solution does. An improper cluster belief is found in both calls or in none (value_exact)."},
  {"property": "C101", "status": "proved", "theorems": ["Verif.Sign.c101", "Verif.Sign.c101_beta", "Verif.Sign.value_exact", "Verif.Sign.c101_family", "Verif.Sign.c101_integrand", "Verif.Sign.c101_IS", "Verif.Sign.c101_IS_binomial", "Verif.Sign.c101_hol", "Verif.Sign.c101_family_high", "Verif.Sign.swap_laplace", "Verif.Sign.samples_flip"], "note": "32-bit integers, exact reals. The linear solver is assumed to commute with changes of sign, as the exact solution does. The deviance functions of lme4 have to give mirrored normal approximations at the two parameters (lme4 is not modelled; swap_laplace shows that Laplace approximations do). An improper cluster belief is found in both calls or in none (value_exact)."},
  {"property": "C102", "status": "proved", "theorems": ["Verif.SaveFile.c102", "Verif.SaveFile.c102_determines", "Verif.SaveFile.c102_logical", "Verif.SaveFile.c102_normal"], "note": "Numbers are written exactly in the model; R writes 15 (7 in save_normal) significant digits."},
  {"property": "C103", "status": "proved", "theorems": ["Verif.Reparam.c103", "Verif.Reparam.c103_replace", "Verif.Reparam.c103_integrand", "Verif.Reparam.c103_IS", "Verif.Reparam.c103_hol"], "note": "For sequential reduction the deviance functions of lme4 have to give the same result (lme4 is not modelled)."},
  {"property": "C104", "status": "proved", "theorems": ["Verif.SubsetDim.c104", "Verif.SubsetDim.c104_vector", "Verif.SubsetDim.c104_vector_error"], "note": "The text written by the function is modelled as tokens; reading it is the subset operator of R, modelled for these texts. No other function of the package calls subset_dim."},
  {"property": "C105", "status": "proved", "theorems": ["Verif.Parts.c105_integrand", "Verif.Parts.c105_likelihood", "Verif.Parts.c105_hol", "Verif.Parts.c105_stack", "Verif.Parts.c105_unused", "Verif.Parts.c105_unused_hol"], "note": "Relation between model frames in Spec/Parts. The normal approximation comes from lme4 (not modelled): that it has independent parts is a hypothesis. Sequential reduction of independent parts is not part of the claim; for two-level models it follows from C80."},
  {"property": "C106", "status": "proved", "theorems": ["Verif.ClusterGraph.c106", "Verif.Lfun.c106_model", "Verif.Lfun.c106_accepted"], "note": "Nestedness in Spec/Nested, for item lists and for the active random effects of a model frame. 32-bit integers with at most 46341 random effects (C57), or unbounded integers."},
  {"property": "C107", "status": "proved", "theorems": ["Verif.ClusterGraph.c107", "Verif.ClusterGraph.c107_beliefs", "Verif.Lfun.c107_model"], "note": "Stated on plain lists of clusters and edges in Spec/Eliminate. 32-bit integers with at most 46341 items (C57), or unbounded integers."},
  {"property": "C108", "status": "proved", "theorems": ["Verif.Rotate.c108_likelihood", "Verif.Rotate.c108_integrand", "Verif.Rotate.c108_mode", "Verif.Rotate.c108_precision", "Verif.Rotate.c108_hol", "Verif.Rotate.c108_covariance", "Verif.Rotate.c108_parameters"], "note": "The likelihood is the integral of Spec/Split. For the precision matrices lme4's part is described by Lfun.Laplace, with the same working weights in both models. Not claimed for sequential reduction, which depends on the coordinates of the random effects, nor for importance sampling, whose samples do not have the covariance matrix of the approximation (C48)."},
  {"property": "C109", "status": "proved", "theorems": ["Verif.Lfun.c109", "Verif.Lfun.c109_nested", "Verif.Counting.ncard_le", "Verif.ClusterGraph.Built.gridTotal_le"], "note": "The number of grid points is defined in Spec/Cost on the clusters and separators and the points of Spec/Grid; that the messages are stored on these grids is C02, C16 and C107. At each grid point nAGQ values are computed."},
  {"property": "C11", "status": "proved", "theorems": ["Verif.Store.c11_exact", "Verif.Store.c11_coded"], "note": "Any factor, any positive-definite precision, any hierarchical basis; c11_coded for the basis as coded with machine integers. The eigen-solver is a parameter with law IsEigen."},
  {"property": "C110", "status": "proved", "theorems": ["Verif.Mode.c110", "Verif.Mode.c110_concave", "Verif.Mode.c110_likelihood", "Verif.Family.c110_d2", "Verif.Family.mills"], "note": "The integrand is that of Spec/Split, with exact means. As computed, with clamped means, uniqueness can fail (C34, c34_clamped)."},
  {"property": "C111", "status": "proved", "theorems": ["Verif.Unused.c111_pairs", "Verif.Unused.c111_counts"], "note": "combn of R's utils package is modelled by its documented result for pairs."},
  {"property": "C112", "status": "proved", "theorems": ["Verif.NoVariance.c112_likelihood", "Verif.NoVariance.c112_mode", "Verif.NoVariance.c112_precision", "Verif.NoVariance.c112_hol", "Verif.NoVariance.c112_IS", "Verif.NoVariance.c112_continuous", "Verif.NoVariance.c112_SR"], "note": "The mode used by the importance sampler is computed by lme4, which is not modelled: c112_IS takes the exact mode (zero, c112_mode) and the precision of c112_precision. The likelihood itself is for any inverse link. c112_SR is for two-level models, any number of quadrature points, with a mean of zero and the identity as precision, and an error of at most 1e-9 for each random effect (literals)."},
  {"property": "C113", "status": "proved", "theorems": ["Verif.IS.c113_order", "Verif.IS.c113_pool", "Verif.IS.c113_between"], "note": "Exact real arithmetic; overflow of the weights is C96."},
  {"property": "C114", "status": "proved", "theorems": ["Verif.Gradient.c114", "Verif.Gradient.hasFDerivAt_likelihood"], "note": "About the likelihood defined by the model frame, which the optimizer of R (not modelled) maximizes through its approximations; the scores are the derivatives of C31 and C32."},
  {"property": "C115", "status": "proved", "theorems": ["Verif.Gradient.c115", "Verif.Gradient.c115_all"], "note": "About the likelihood; optim of R is not modelled."},
  {"property": "C116", "status": "proved", "theorems": ["Verif.Gradient.c116", "Verif.Gradient.c116_max", "Verif.Prekopa.marginal", "Verif.Prekopa.prekopa_leindler"], "note": "About the likelihood that the methods approximate; the theorem of Prekopa is proved here, from the inequality of Brunn and Minkowski on the line."},
  {"property": "C117", "status": "partial", "theorems": ["Verif.Options.c117_separate", "Verif.Options.c117_frame", "Verif.Options.c117_partial", "Verif.Options.c117_iff", "Verif.Options.c117_levels", "Verif.Options.c117_stop", "Verif.Options.c117_set"], "note": "Violated by glmm: it calls find_modfr_glmm without lme4_control (R/fit.R:53-54), so the model frame is made with the default options whatever the options given; no option makes glmm stop for a grouping factor with one level, though find_modfr_glmm does. Holds exactly if the options make no difference to the frame; holds for find_modfr_glmm with find_lfun_glmm."},
  {"property": "C118", "status": "proved", "theorems": ["Verif.Separation.c118", "Verif.Separation.c118_increase", "Verif.Separation.c118_joint", "Verif.Separation.c118_limit"], "note": "About the likelihood that the methods approximate. Uniqueness is C120; the variance parameters as well, in the region searched, C121."},
  {"property": "C119", "status": "partial", "theorems": ["Verif.Separation.c119_partial", "Verif.Separation.c119_silent"], "note": "Violated: the check (R/fit.R:73-76) looks at the standard deviations only. With separated successes and failures there are no maximum likelihood estimates (C118), but no warning if the estimates of the standard deviations are at most 4.9, whatever the fixed effects. The warning is given just if one of them is larger than 4.9. About the last part of glmm (finish); other warnings can come from the optimizer."},
  {"property": "C12", "status": "partial", "theorems": ["Verif.Store.c12_modifier_partial", "Verif.Store.c12_iff", "Verif.Store.c12_violated", "Verif.Store.c12_level0_partial", "Verif.BasisLevel.c10_level0_ub"], "note": "False as stated: the gradients agree exactly when (Hessian + precision) y = gradient has a solution (c12_iff); c12_violated gives a factor for which they do not. With a solution both halves hold. The coded basis of level 0 is undefined behaviour, so the level-0 half is about the constant basis it was meant to be."},
  {"property": "C120", "status": "proved", "theorems": ["Verif.Separation.c120", "Verif.Separation.c120_unique", "Verif.Prekopa.marginal_strict"], "note": "About the likelihood that the methods approximate; a strict form of the theorem of Prekopa is proved here. Not claimed: uniqueness of the estimates of the variance parameters."},
  {"property": "C121", "status": "proved", "theorems": ["Verif.Separation.c121", "Verif.Separation.c121_searched"], "note": "About the likelihood that the methods approximate, not about the approximations."},
  {"property": "C122", "status": "proved", "theorems": ["Verif.ObsLevel.c122_product", "Verif.ObsLevel.c122", "Verif.ObsLevel.c122_all", "Verif.ObsLevel.c122_ridge", "Verif.Options.c117_set"], "note": "About the likelihood that the methods approximate. c117_set: the default options turn the checks of the numbers of levels off. Not claimed: anything about the logit link, where the likelihood has no such form."},
  {"property": "C123", "status": "partial", "theorems": ["Verif.PrevFit.c123_partial", "Verif.PrevFit.c123_long", "Verif.PrevFit.c123_short", "Verif.PrevFit.repeats_exists", "Verif.PrevFit.lfun_checks"], "note": "Violated for fewer parameters: c123_short shows that the estimates are repeated up to the number of parameters and the fit goes on from there, with the same calls, warnings and result (R's own warning for lengths that are not multiples is not modelled). c123_partial: more parameters are refused at the starting parameters, unless a variance parameter is beyond 5; c123_long: then too, if the optimiser refuses an infinite starting value. lfun_checks: the likelihood function of the sequential reduction stops for another number of parameters."},
  {"property": "C124", "status": "proved", "theorems": ["Verif.Refit.c124_optimize", "Verif.Refit.c124", "Verif.Refit.c124_sequence", "Verif.Refit.c124_glmm"], "note": "The optimiser is arbitrary, with the hypothesis that it does not return something worse than its start, for every function. That the log-likelihood does not depend on the signs is C66 (the likelihood itself) and C100 (sequential reduction). The previous estimates are as many as the parameters (otherwise see C123) and their variance parameters at most 5, as those of every fit are. The sequence is of fits by one method; c124 itself compares both estimates by the likelihood function of the new fit, so the previous fit may be by another method."},
  {"property": "C125", "status": "proved", "theorems": ["Verif.Bounded.c125_laplace", "Verif.Bounded.c125_likelihood", "Verif.Bounded.c125"], "note": "What lme4 returns is a hypothesis (Laplace: a factorization of the precision for weights that are not negative; Deviance: minus twice the Laplace approximation with the binomial coefficients). Counts: weights are numbers of trials, responses proportions."},
  {"property": "C126", "status": "proved", "theorems": ["Verif.Collinear.c126_likelihood", "Verif.Collinear.c126_flat", "Verif.Collinear.c126_optimize", "Verif.Collinear.c126_fit", "Verif.Collinear.c126_concat", "Verif.Collinear.c126_independent", "Verif.Collinear.c126"], "note": "Hypotheses on what is not modelled: lme4's deviance functions are the same along the line (FlatDevfun), the optimiser returns the exact Hessian matrix of the function it was given (ReturnsHessian), solve stops for singular matrices (StopsSingular). Finite differences and rounding, by which optim may return a matrix that is only nearly singular, are not modelled."},
  {"property": "C13", "status": "proved", "theorems": ["Verif.DepGraph.c13_bookkeeping", "Verif.DepGraph.c13_dependence_graph"], "note": "refinement of the coded graph to an abstract one for every valid operation sequence; int version up to 46341 active items (see C57)"},
  {"property": "C14", "status": "proved", "theorems": ["Verif.ClusterGraph.c14_construction"], "note": "unbounded integers for all factor collections, 32-bit integers up to 46341 items (limit shown necessary in C57)"},
  {"property": "C15", "status": "proved", "theorems": ["Verif.ClusterGraph.c15_separators"], "note": ""},
  {"property": "C16", "status": "proved", "theorems": ["Verif.ClusterGraph.c16_populate", "Verif.Belief.c16_mixed"], "note": "generic in the belief type and for mixed beliefs"},
  {"property": "C17", "status": "proved", "theorems": ["Verif.ClusterGraph.c17_messages", "Verif.ClusterGraph.calibrate_is_passAll", "Verif.Belief.c17_mixed"], "note": "all schedules; calibration is one of them; also for mixed beliefs"},
  {"property": "C18", "status": "proved", "theorems": ["Verif.ClusterGraph.c18_exact", "Verif.Belief.c18_mixed", "Verif.Belief.exactStore_exact"], "note": "for any belief type with exact local operations, and for the mixed beliefs of the code with an exact one-dimensional store; conclusion is an equation between extended non-negative reals, so it also says the integral is finite"},
  {"property": "C19", "status": "proved", "theorems": ["Verif.ClusterGraph.c19_width"], "note": ""},
  {"property": "C20", "status": "proved", "theorems": ["Verif.Items.c20_isSubset", "Verif.Items.c20_union", "Verif.Items.c20_difference"], "note": ""},
  {"property": "C21", "status": "partial", "theorems": ["Verif.Items.c21_present_partial", "Verif.Items.c21_list_partial", "Verif.Items.c21_absent_violated"], "note": "position of a present item proved; the error for an absent item is refuted: the exception is built but not thrown and 0 is returned"},
  {"property": "C22", "status": "proved", "theorems": ["Verif.Gauss.c22_normal_approx", "Verif.Gauss.c22_of_beliefs", "Verif.Gauss.c22_set_normal_approx"], "note": "For every built cluster graph and every positive definite precision that is zero between items sharing no cluster, after the initialisation and after every schedule of normal-only messages; also for the whole of setNormalApprox. exGraph_run is a concrete run with correlated items that passes both sweeps."},
  {"property": "C23", "status": "partial", "theorems": ["Verif.Gauss.c23_iff", "Verif.Gauss.c23_precision", "Verif.Gauss.c23_partial", "Verif.Gauss.c23_violated"], "note": "Holds for the precision always and for the whole log kernel exactly under the condition of c23_iff (for example when the second operand has the restricted mean of the first); c23_violated gives a concrete product whose mean is not the mean of the product, since the code leaves the entries outside the subset unchanged."},
  {"property": "C24", "status": "proved", "theorems": ["Verif.Belief.c24_history", "Verif.Belief.c24_restore"], "note": "over all finite operation histories"},
  {"property": "C25", "status": "proved", "theorems": ["Verif.Quad.c25_exact", "Verif.Quad.c25_weights", "Verif.Quad.c25_constant", "Verif.Quad.c25_exists"], "note": "For every number of points and every exact orthonormal eigen-decomposition of the symmetric completion of the lower triangle (the solver is a parameter; c25_exists: the spectral theorem gives one). The literal 1.772453851 is kept; its ratio to sqrt(pi) is within 1e-10 of 1."},
  {"property": "C26", "status": "proved", "theorems": ["Verif.Quad.c26_exact", "Verif.Quad.c26_laplace", "Verif.Quad.c26_linear", "Verif.Quad.c26_monotone"], "note": "Exact up to the ratio of the literal to sqrt(pi), as in C25; real arithmetic."},
  {"property": "C27", "status": "proved", "theorems": ["Verif.Integrated.c27_derivatives", "Verif.Integrated.c27_positive"], "note": "Every twice differentiable factor, every normal, every rule, every point where the quadrature sum is positive; c27_positive: it is positive everywhere for Gauss-Hermite rules and normals that are positive definite or improper."},
  {"property": "C28", "status": "partial", "theorems": ["Verif.Integrated.c28_partial", "Verif.Integrated.c28_iff", "Verif.Integrated.c28_violated"], "note": "The code violates the first half: scale is the conditional standard deviation (proved), the centre is the reflection of the conditional mean at the mean (c28_partial), right exactly when the two coincide (c28_iff); concrete counterexample in c28_violated."},
  {"property": "C29", "status": "proved", "theorems": ["Verif.Gauss.c29_at_location", "Verif.Gauss.c29_derivatives", "Verif.Gauss.c29_density", "Verif.Gauss.literal_close"], "note": "Reals replace doubles; the literal 0.91893853320467266954 is kept exactly as written and shown within 1e-12 of log sqrt(2 pi), so the integral of the density is exp(-n(literal - log sqrt(2 pi)))."},
  {"property": "C30", "status": "proved", "theorems": ["Verif.Eigen.c30_vector_without", "Verif.Eigen.c30_matrix_without", "Verif.Eigen.c30_extend", "Verif.Eigen.c30_extend_without", "Verif.Eigen.c30_without_extend", "Verif.Eigen.c30_vector_subset", "Verif.Eigen.c30_matrix_subset", "Verif.Eigen.c30_get", "Verif.Eigen.without_ub", "Verif.Eigen.subset_ub", "Verif.Eigen.c30_set_iff", "Verif.Eigen.c30_set_matrix_iff"], "note": "Removal, extension, gathering and scattering of vectors and matrices: results stated entry by entry; out-of-range indices are undefined behaviour in the model."},
  {"property": "C31", "status": "proved", "theorems": ["Verif.Family.c31_logit"], "note": "All sizes, linear predictors with means in [1e-8, 1-1e-8], responses and weights; derivatives of the log-likelihood with mean 1/(1+exp(-x))."},
  {"property": "C32", "status": "proved", "theorems": ["Verif.Family.c32_probit"], "note": "As C31, with the probability of a standard normal below x as mean."},
  {"property": "C33", "status": "partial", "theorems": ["Verif.Family.c33_iff_logit", "Verif.Family.c33_iff_probit", "Verif.Family.c33_violated", "Verif.Family.c33_bounded"], "note": "False as stated: decided exactly by c33_iff_* (true exactly when each observation is unclamped, or has weight 0, or a response equal to the clamped mean); counterexample c33_violated. The lower bound of the value is proved."},
  {"property": "C34", "status": "proved", "theorems": ["Verif.Family.c34_d2_nonpos", "Verif.GLMM.c34_concave", "Verif.GLMM.c34_mode", "Verif.GLMM.c34_coded", "Verif.GLMM.c34_clamped"], "note": "Second derivatives are non-positive at unclamped means; the exact log-integrand of a logit GLMM is strictly concave everywhere, so two local maxima coincide; the log-integrand as computed is strictly concave on the convex set of unclamped points. c34_clamped: outside that set clamping creates a spurious local maximum (shown for one observation)."},
  {"property": "C35", "status": "proved", "theorems": ["Verif.GLMM.c35_history", "Verif.GLMM.c35_shared"], "note": "For every state reachable by construction and any finite history of evaluations, and for any interleaving of evaluations of any number of shared factors, results are those computed from data, parameters and point. Parameters must fit the factor (indices in range), otherwise the code has undefined behaviour. The constructor may have read junk (C36)."},
  {"property": "C36", "status": "partial", "theorems": ["Verif.GLMM.c36_iff", "Verif.GLMM.c36_violated", "Verif.GLMM.c36_partial"], "note": "Violated by the code as the property says: c36_iff decides for all data when construction is free of out-of-range reads (parameter numbers below the number of items); c36_violated: every correlated intercept and slope for one group."},
  {"property": "C37", "status": "proved", "theorems": ["Verif.GLMM.c37_derivatives", "Verif.GLMM.c37_coded"], "note": "Both links, all data, fitting parameters and histories."},
  {"property": "C38", "status": "proved", "theorems": ["Verif.Pars.c38_last", "Verif.Pars.c38_invalid", "Verif.Pars.c38_runs", "Verif.Pars.c38_ub", "Verif.Family.c38_link_null", "Verif.Family.c38_family_null", "Verif.Family.c38_empty"], "note": "State machine over all finite sequences of assignments with exceptions keeping the state of the object. c38_runs: no undefined behaviour for up to 25 levels (or negative) and at least one quadrature point; c38_ub: fewer points are undefined behaviour."},
  {"property": "C39", "status": "proved", "theorems": ["Verif.Control.c39_values", "Verif.Control.c39_sr", "Verif.Control.c39_warnings", "Verif.Control.c39_error", "Verif.Control.c39_runs"], "note": "Effective control values equal the supplied ones or the documented defaults for every supplied list and every method; SR forces odd quadrature size from nSL; unknown/unneeded names warn; unknown method errors. Duplicated names: the last one wins; an unnamed list has no effect and gives no warning. Arithmetic on non-numeric values is a parameter (Ops). Finding: documentation of glmm() says check_Laplace defaults to TRUE, the code uses FALSE."},
  {"property": "C40", "status": "proved", "theorems": ["Verif.Split.c40_partition", "Verif.Split.c40_own", "Verif.Split.c40_violated"], "note": "For models in which every observation has an active random effect, as the statement requires; c40_violated shows what happens otherwise (observations are silently assigned to cliques without their random effects)."},
  {"property": "C41", "status": "partial", "theorems": ["Verif.Split.c41_coded", "Verif.Split.c41_integrand", "Verif.Split.literalError_small", "Verif.Split.c41_violated"], "note": "For models in which every observation has an active random effect; the sum then equals the log-integrand up to q times the error of the literal for log sqrt(2 pi), at most 2e-12 (literalError_small), and up to the clamping of fitted means (c41_integrand for unclamped, c41_coded for all). Missing, because false: observations without active random effects (c41_violated)."},
  {"property": "C42", "status": "partial", "theorems": ["Verif.SubExpr.c42_partial", "Verif.SubExpr.c42_accepted", "Verif.SubExpr.value_linear", "Verif.SubExpr.c42_clash", "Verif.SubExpr.c42_logical"], "note": "Accepted expressions evaluate to a frame whose linear predictor is the mathematical value (c42_partial), every such expression is accepted (c42_accepted). Missing: expressions in which two multi-indices paste to the same name (c42_clash: the code then gives a different predictor) and a logical vector used as outer index of nested indexing (c42_logical)."},
  {"property": "C43", "status": "partial", "theorems": ["Verif.SubExpr.c43_partial", "Verif.SubExpr.value_linear", "Verif.SubExpr.value_linearIn", "Verif.SubExpr.c43_violated"], "note": "Accepted expressions with the variable only in the first two arguments are linear. Violated otherwise: a variable in a third argument is not seen (c43_violated)."},
  {"property": "C44", "status": "partial", "theorems": ["Verif.Frames.c44_partial", "Verif.Frames.c44_fixed", "Verif.Frames.c44_iff", "Verif.Frames.c44_violated"], "note": "Proved without random effects (c44_fixed) and for constant covariates (c44_partial). c44_iff decides the general case: it holds exactly when the covariate recycled down the rows of Zt agrees with the covariate of the observation wherever Zt is not zero. c44_violated: for any two different values there is a frame where it fails."},
  {"property": "C45", "status": "proved", "theorems": ["Verif.Frames.c45_concat", "Verif.Frames.c45_attach", "Verif.Frames.c45_assoc", "Verif.Frames.c45_runs", "Verif.Frames.c45_attach_runs"], "note": "Linear predictor of a concatenation is the sum of the linear predictors on consecutive parts of theta, beta and u; folding over any list of subframes, any bracketing; and concatenation succeeds on well-formed frames."},
  {"property": "C46", "status": "proved", "theorems": ["Verif.Indexing.c46_row", "Verif.Indexing.c46_bijection", "Verif.Indexing.c46_vars", "Verif.Indexing.c46_runs"], "note": "Flattened index is the row of expand.grid holding the tuple, a bijection on in-range tuples; c46_outside shows out-of-range tuples collide with others."},
  {"property": "C47", "status": "proved", "theorems": ["Verif.IS.c47", "Verif.IS.c47_average", "Verif.IS.c47_weight", "Verif.IS.c47_binomial", "Verif.IS.binomial_logIntegrand", "Verif.IS.exists_chol"], "note": "For every well-formed model frame (with or without fixed effects), parameters, family functions that are measurable and element by element, normal approximation whose precision the Cholesky routine factors, and number of samples >= 1: the value computed by lfun is the log of the average of integrand over density of the transformed sample, each term depends on its own sample, and the expectation of its exponential over independent standard normal samples (an integral in [0, infinity], no integrability assumed) is the integral of the integrand. c47_binomial identifies the integrand for 0/1 responses with the one of C41. The shift identity is for all log weights. Cholesky factors exist for every positive definite precision (exists_chol). Real arithmetic."},
  {"property": "C48", "status": "partial", "theorems": ["Verif.IS.c48_partial", "Verif.IS.c48_iff", "Verif.IS.c48_covariance", "Verif.IS.c48_mean", "Verif.IS.c48_violated"], "note": "The covariance of the transformed samples is (R R')^-1 with R the upper Cholesky factor; it equals the inverse precision if and only if the precision is diagonal (c48_iff), so the property fails for every non-diagonal precision; c48_violated gives a 2 x 2 case. The mean is right."},
  {"property": "C49", "status": "partial", "theorems": ["Verif.Fit.c49_partial", "Verif.Fit.c49_iff", "Verif.Fit.c49_none", "Verif.Fit.c49_violated"], "note": "Exact domain: coef() is the vector of estimates if and only if there are fixed effects; without them it has two more elements, a missing one and the last variance parameter again. Names are not modelled."},
  {"property": "C50", "status": "proved", "theorems": ["Verif.Fit.c50", "Verif.Fit.c50_bound"], "note": "For every optimiser (an interaction tree that may ask for any values and depend on the answers), likelihood function, inversion and previous fit, also if they fail."},
  {"property": "C51", "status": "partial", "theorems": ["Verif.SubExpr.c51_partial", "Verif.SubExpr.c51_check", "Verif.SubExpr.c51_violated", "Verif.SubExpr.c51_iff"], "note": "A term without a substituted variable is rejected. Terms with several are not: the check any(n) > 1 never fires (c51_check) and such a term is accepted (c51_violated). c51_iff says exactly which lists of terms are accepted: each involves a substituted variable and no two have the same first one."},
  {"property": "C52", "status": "proved", "theorems": ["Verif.Hol.c52", "Verif.Hol.correction_eq", "Verif.Hol.c52_lfun", "Verif.Hol.c52_rejected"], "note": "correction_eq is the contraction for all designs, derivatives and inverse Hessians, without symmetry; c52 connects it to the third and fourth derivatives of the negative log-integrand of binomial models (logit, probit) at points where the means are not clamped."},
  {"property": "C53", "status": "partial", "theorems": ["Verif.Frames.c53_partial", "Verif.Frames.c53_iff", "Verif.Frames.c53_violated"], "note": "Bounds are kept when at most one frame has random effects (c53_partial). With two, they are kept exactly when the second list has a component upper equal to lower (c53_iff); lme4 makes no such component, so they are always dropped (c53_violated)."},
  {"property": "C54", "status": "partial", "theorems": ["Verif.Belief.c54_only_zero_partial", "Verif.Belief.c54_violated"], "note": "violated by the code: a finite log value of exactly zero raises the error (proved); over the reals zero is the only cause"},
  {"property": "C55", "status": "proved", "theorems": ["Verif.Point.c55_no_overflow"], "note": ""},
  {"property": "C56", "status": "partial", "theorems": ["Verif.SubExpr.c56_partial", "Verif.SubExpr.c56_violated"], "note": "Violated for every literal: multiplication by a numeric literal is never accepted (c56_violated). What holds: multiplication by a data variable holding the number is accepted and scales the linear predictor (c56_partial)."},
  {"property": "C57", "status": "partial", "theorems": ["Verif.DepGraph.c57_overflow", "Verif.DepGraph.c57_reachable", "Verif.DepGraph.c57_exact_partial"], "note": "refuted from 46342 active items on (undefined behaviour, reachable); right up to 46341 "},
  {"property": "C58", "status": "proved", "theorems": ["Verif.ClusterGraph.c58_greedy"], "note": ""},
  {"property": "C59", "status": "proved", "theorems": ["Verif.Belief.c59_derivatives"], "note": "over all finite operation histories and all factors with derivatives"},
  {"property": "C60", "status": "proved", "theorems": ["Verif.Gauss.c60_marginals", "Verif.Gauss.exGraph_run"], "note": "Matrix inverses on invertible matrices; exact real arithmetic."},
  {"property": "C61", "status": "proved", "theorems": ["Verif.Gauss.c61_set_total"], "note": "Undefined behaviour as modelled: out-of-range indices and sizes that do not match."},
  {"property": "C62", "status": "proved", "theorems": ["Verif.Store.c62_derivatives", "Verif.Store.c62_coded", "Verif.Store.quadratic_derivatives"], "note": "Any coefficients; c62_coded for the basis as coded with machine integers."},
  {"property": "C63", "status": "partial", "theorems": ["Verif.Split.c63_partial", "Verif.Split.c63_violated"], "note": "Violated by sequential reduction for every non-zero offset (c63_violated); holds without offset (c63_partial)."},
  {"property": "C64", "status": "partial", "theorems": ["Verif.Fit.c64_partial", "Verif.Fit.c64_violated", "Verif.Fit.c64_case"], "note": "Holds when at most one of the combined frames has random effects; otherwise violated, with a case in which the variance of the linear predictor changes from 2 to 6."},
  {"property": "C65", "status": "partial", "theorems": ["Verif.Fit.c65_partial", "Verif.Fit.c65_iff", "Verif.Fit.c65_violated"], "note": "Exact domain: right if and only if there are fixed effects, otherwise an error."},
  {"property": "C66", "status": "proved", "theorems": ["Verif.Fit.c66", "Verif.Fit.c66_finish"], "note": "Equality of the integrals over the random effects."},
  {"property": "C67", "status": "partial", "theorems": ["Verif.Fit.c67_partial", "Verif.Fit.c67_iff", "Verif.Fit.c67_violated"], "note": "Variances are right; exact condition for the covariances; violated for a deviance with one variance parameter and one fixed effect."},
  {"property": "C68", "status": "proved", "theorems": ["Verif.SubExpr.c68"], "note": ""},
  {"property": "C69", "status": "proved", "theorems": ["Verif.SubExpr.c69", "Verif.SubExpr.c69_repeated", "Verif.SubExpr.c69_frames"], "note": ""},
  {"property": "C70", "status": "proved", "theorems": ["Verif.Split.c70"], "note": "For exact local integrals (exactOps); the approximation of local integrals by the code is the subject of C18, C20-C30."},
  {"property": "C71", "status": "proved", "theorems": ["Verif.Split.c71_lower", "Verif.Split.c71_upper"], "note": ""},
  {"property": "C72", "status": "proved", "theorems": ["Verif.Hol.c72", "Verif.Hol.c72_second", "Verif.Hol.c72_indefinite"], "note": "The derivatives numDeriv returns are arbitrary. c72_indefinite: that the corrected information is positive definite is not checked, and the value can then be negative."},
  {"property": "C73", "status": "proved", "theorems": ["Verif.Fit.c73", "Verif.Fit.c73_zero", "Verif.Fit.c73_missing", "Verif.Fit.c73_level", "Verif.Fit.c73_range"], "note": ""},
  {"property": "C74", "status": "partial", "theorems": ["Verif.Fit.c74_partial", "Verif.Fit.c74_none"], "note": "Holds with fixed effects; without, two wrong rows are printed (c74_none)."},
  {"property": "C75", "status": "partial", "theorems": ["Verif.SubExpr.c75_partial", "Verif.SubExpr.c75_accepted", "Verif.SubExpr.c75_row", "Verif.SubExpr.c75_violated"], "note": "Substitution by labels holds for all accepted terms (c75_partial) and conversely values by labels are accepted (c75_accepted); every observation with factor indices has a row (c75_row). False for numeric indices with gaps in two dimensions: the term is accepted and an observation silently shares the row of another (c75_violated). Index names that are variables of the data are excluded, see C76."},
  {"property": "C76", "status": "partial", "theorems": ["Verif.SubExpr.c76_stops", "Verif.SubExpr.c76_stale"], "note": "The claim fails in the code: with one index such a name always stops (c76_stops, proved for all inputs), with two the index of the previous dimension is used again (c76_stale). What holds is only that the code stops in one dimension."},
  {"property": "C77", "status": "partial", "theorems": ["Verif.SubExpr.c77_partial"], "note": "Holds for every accepted formula under the conditions of c75_partial (fresh index names, no name clash, factors with distinct levels); what is missing is what is missing there, and the splitting of the formula, see C78."},
  {"property": "C78", "status": "partial", "theorems": ["Verif.SubExpr.c78_partial", "Verif.SubExpr.c78_violated"], "note": "Expressions are found in order; the other terms are kept exactly if none has a bar or there is only one (iff in c78_partial). The claim is false: the intercept is always dropped and x + (1 | g) becomes (x + 1 | g) (c78_violated). Semantics of terms(), drop.terms() and reformulate() of base R are assumed as stated in the model."},
  {"property": "C79", "status": "proved", "theorems": ["Verif.ClusterGraph.c79_calibrate", "Verif.ClusterGraph.c79_margins", "Verif.ClusterGraph.c79_stops", "Verif.ClusterGraph.c79_runs"], "note": "For any belief type whose margins, when returned, are exact integrals; c79_runs shows that exact calibration and margins of items of one factor run through for functions bounded by normal densities."},
  {"property": "C80", "status": "proved", "theorems": ["Verif.SR.c80", "Verif.SR.c80_runs", "Verif.SR.c80_likelihood", "Verif.SR.ruleOk_create"], "note": "End to end: terms of the model frame, cluster graph, normal approximation, forward sweep, stored integrals. Normal approximation with independent random effects (diagonal precision, as the Laplace approximation of a two-level model has); c80 leaves the exception for improper beliefs, excluded by c80_runs. Diagonal entries exactly 2 pi (as the literal gives it) are excluded, since then a normal belief has log value 0, which the code takes to be improper."},
  {"property": "C81", "status": "partial", "theorems": ["Verif.Lfun.c81", "Verif.Lfun.c81_history", "Verif.Lfun.c81_refused", "Verif.Lfun.c81_control", "Verif.Lfun.c81_weights", "Verif.Lfun.c81_zero", "Verif.Lfun.c81_many", "Verif.Lfun.c81_complexity"], "note": "Proved for 1 to 25 levels, for the function find_lfun_SR makes with the options of find_control_with_defaults; lme4's deviance function and its Laplace approximation are a parameter. Violated for nSL = 0, said by the vignette to be the Laplace approximation: undefined behaviour (c81_zero), as for 26 levels and more (c81_many). The function may stop instead of returning a value: c81 says exactly when for the stability check, and when not for improper beliefs."},
  {"property": "C82", "status": "proved", "theorems": ["Verif.ClusterGraph.c82", "Verif.ClusterGraph.c82_uniform", "Verif.ClusterGraph.c82_rule", "Verif.ClusterGraph.c82_attained", "Verif.SR.c82_model", "Verif.SR.c82_two_level"], "note": "c82: any beliefs and any approximation of the marginals; c82_attained: the bound cannot be improved; c82_model: the beliefs of the package, value of the model with means moved into [1e-8, 1-1e-8] and the error of the literal for log sqrt(2 pi); c82_two_level: the local errors exist for two-level models. The errors of the single messages (quadrature, sparse grid interpolation) are hypotheses, not estimated."},
  {"property": "C83", "status": "partial", "theorems": ["Verif.SR.c83_partial", "Verif.SR.c83_lme4_partial", "Verif.SR.precision_shared", "Verif.SR.laplace_eq", "Verif.SR.rule_one", "Verif.BasisLevel.c10_level0_ub"], "note": "c83_partial: any model, mean and precision with the sparsity of the model, up to 1e-9 for each random effect (literals), or the exception for a belief whose log value is exactly zero; the Laplace approximation is specified as the log of the integral of the exponential of the quadratic. c83_lme4_partial: the precision lme4 returns. rule_one: the one-point rule the package makes. Missing: creating the basis of level 0 is undefined behaviour (c10_level0_ub); the theorem takes the basis object that results if the undefined conversion of 0/0 gives any integer. Normalizing constants that are exactly zero are excluded (NoZeroNormalizer)."},
  {"property": "C84", "status": "proved", "theorems": ["Verif.SR.c84", "Verif.SR.c84_runs", "Verif.SR.c84_levels", "Verif.SR.agq_tendsto", "Verif.Quad.rule_tendsto", "Verif.Quad.rule_exp_sq"], "note": "rule_tendsto: the Gauss-Hermite rules made from the Jacobi matrix converge for every continuous function growing more slowly than exp(x^2) (moments from the powers of the Jacobi matrix, Levy's theorem, tails from rule_exp_sq). agq_tendsto: adaptive quadrature of a function with Gaussian tails converges for every centre and scale. c84: the value returned, or the exception for improper beliefs; c84_runs: no exception with enough points; c84_levels: 2^(nSL+1)-1 points. The likelihood is that of the clamped means the code uses. Exact real arithmetic; normalizing constants exactly zero are excluded as in C80."},
  {"property": "C85", "status": "proved", "theorems": ["Verif.Whole.c85_laplace", "Verif.Whole.c85_laplace2", "Verif.Whole.c85_laplace_refused", "Verif.Whole.c85_agq", "Verif.Whole.c85_sr", "Verif.Whole.c85_is", "Verif.Whole.c85_only", "Verif.Whole.c85_history", "Verif.Whole.isCanonical_iff"], "note": "One theorem per method and order, refusals of the other orders and links, c85_only: nothing else gives a likelihood function. c85_history: on the object shared by the calls, a call gives what it would give first. lme4's deviance function, rnorm and chol are parameters; exact real arithmetic."},
  {"property": "C86", "status": "proved", "theorems": ["Verif.Whole.c86", "Verif.Whole.c86_bound", "Verif.Whole.c86_refused", "Verif.Whole.c86_sr"], "note": "glmm as a whole, the model frame being given. The optimiser (optim) is any process that asks for values and ends with a result; solve and the eigenvalues are parameters. c86_sr puts C81 and C85 together for two-level models: what is evaluated is the sum of logarithms of adaptive quadrature values, or one of two exceptions. Assumes at least one variance parameter and a previous fit of the right length."},
  {"property": "C87", "status": "proved", "theorems": ["Verif.Flatten.c87_formula", "Verif.Flatten.c87_grid", "Verif.Flatten.c87", "Verif.Flatten.c87_nested", "Verif.Flatten.c87_one"], "note": "R's evaluation of `[`, cbind and variables is modelled; the other functions are a parameter that works row by row. terms() and formula() are taken to leave the right-hand side as it is. c87_nested, c87_one: what is not covered goes wrong."},
  {"property": "C88", "status": "proved", "theorems": ["Verif.Grouped.c88", "Verif.Grouped.c88_same", "Verif.Grouped.c88_integrand", "Verif.Grouped.c88_IS", "Verif.Grouped.c88_hol"], "note": "Relation between model frames in Spec/Grouped. c88 compares the model's find_lfun_SR and all sequences of calls of lfun; lme4's deviance function is a parameter, with the same modes for both. c88_same: also the same deviances. c88_IS and c88_hol are for well-formed frames, at least one variance parameter and the right number of coefficients; c88_hol for all family and link names, also where means are clamped. Offsets are not used by the approximations (C41) and are required equal. Groups in the order of their first members: otherwise the factors come in another order."},
  {"property": "C89", "status": "partial", "theorems": ["Verif.Print.c89_partial", "Verif.Print.c89_iff", "Verif.Print.c89_one", "Verif.Print.c89_two", "Verif.Print.c89_odd", "Verif.Print.c89_groups", "Verif.Print.c89_names", "Verif.Print.c89_coef", "Verif.Print.c89_method"], "note": "c89_partial: the table is right if every term has one variable. Violated otherwise: c89_iff says exactly when the table exists; (1 + x | g) is an error (c89_two), an odd number of at least three different variables gives a table with wrong names (c89_odd). c89_groups: numbers of levels right exactly when no grouping factor is used by two terms. c89_names, c89_coef: names of parameters. c89_method: the name of the approximation exists exactly for the four methods. The data of lme4 (cnms, theta, flist) for given terms are Spec.reNames. The text of the lines is not modelled."},
  {"property": "C90", "status": "partial", "theorems": ["Verif.Counts.c90_terms", "Verif.Counts.c90_iff", "Verif.Counts.c90_increasing", "Verif.Counts.c90_hol", "Verif.Counts.c90_IS"], "note": "Violated by the code (FIXME in R/splitframe.R:54). c90_iff is the exact characterisation for sequential reduction (right exactly for single trials, too large otherwise); c90_increasing is a consequence for the fit; c90_hol: second order correction ignores the counts (logit link); c90_IS: importance sampling stops. Rests on the conversion of matrices by RcppEigen and on Eigen without assertions, as described in Model/Counts.lean."},
  {"property": "C91", "status": "proved", "theorems": ["Verif.Reproduce.c91_reproduces", "Verif.Reproduce.c91_iff", "Verif.Reproduce.c91_cubic", "Verif.Reproduce.c91_derivatives"], "note": "32-bit arithmetic with the checks made by the SR method; the points are those whose interval number fits (Dom). c91_iff is the exact characterisation for polynomials not constant on the grid; without that hypothesis the converse is false, since the cap hides the difference."},
  {"property": "C92", "status": "proved", "theorems": ["Verif.IS.c92", "Verif.IS.c92_tail", "Verif.IS.c92_binomial", "Verif.Whole.c92_glmm"], "note": "the random number generator is an assumed stream of independent standard normal numbers (one exists: exists_stream); chol is any function that is right at the precision in question; real arithmetic. c92 and c92_tail assume that the integral is finite, which is proved for binomial responses in [0,1]."},
  {"property": "C93", "status": "partial", "theorems": ["Verif.IS.c93_partial", "Verif.IS.c93_infinite", "Verif.IS.c93_binomial_partial", "Verif.IS.c93_logit", "Verif.IS.c93_laplace", "Verif.Whole.c93_violated", "Verif.IS.c93_bounded_iff", "Verif.IS.c93_clamped_iff", "Verif.IS.c93_rLogit_iff", "Verif.IS.c93_rProbit_iff"], "note": "violated by the code: c93_violated has two observations in one group (standard deviation 2, intercept 0, lme4 at the mode) and an infinite variance for every number of samples. Proved: finite if all eigenvalues of the precision are below 2 and the likelihood is bounded; infinite if one is above 2 and the log-likelihood decreases at most linearly (logit link). c93_laplace says when this is so in terms of the data. With R's own linkinv, which clamps the probability away from 0 and 1, the answer is exact, for logit and probit: finite if and only if all eigenvalues of the precision are below 2 (c93_rLogit_iff, c93_rProbit_iff). Missing: for links that are not clamped, an eigenvalue of exactly 2 and the infinite case for probit."},
  {"property": "C94", "status": "partial", "theorems": ["Verif.ParseFormula.c94_fixed_partial", "Verif.ParseFormula.c94_random_partial", "Verif.ParseFormula.c94_recycled", "Verif.ParseFormula.c94_refused_frame", "Verif.ParseFormula.c94_refused_list", "Verif.ParseFormula.c94_refused_random", "Verif.ParseFormula.c94_gaussian", "Verif.ParseFormula.c94_violated_fixed", "Verif.ParseFormula.c94_violated_random"], "note": "violated by the code: a variable named off or weights in the formula is replaced by the argument (no random effects) or replaces it (random effects), and for a data frame without random effects a shorter offset is recycled. c94_fixed_partial and c94_random_partial say exactly when the frame is right for arguments of the right length. stats::model.frame is modelled as documented (symbols are searched in the data, then in the environment of the formula); what lme4 leaves in that environment is a parameter. Missing: factors, terms of the formula."},
  {"property": "C95", "status": "partial", "theorems": ["Verif.Range.c95_partial", "Verif.Range.c95_iff", "Verif.Range.c95_exact", "Verif.Range.c95_mean_iff", "Verif.Range.c95_derivative_iff", "Verif.Range.c95_second_iff", "Verif.Range.c95_third_iff", "Verif.Range.c95_fourth_iff", "Verif.Range.c95_violated"], "note": "violated by the code: exp(x)/(1+exp(x)) and its derivatives are NaN (inf/inf) from a linear predictor of 710 on (second, third, fourth derivative: 356, 238, 178), and so is the log-likelihood of the model. The exact set of linear predictors is given for each function (c95_*_iff) and for Family::evaluate (c95_iff); below the bounds of c95_exact and c95_partial the values are those of the real model. Rounding and underflow are not modelled."},
  {"property": "C96", "status": "partial", "theorems": ["Verif.Range.c96_partial", "Verif.Range.c96_iff", "Verif.Range.c96_spread", "Verif.Range.c96_lfun_partial", "Verif.Range.c96_two", "Verif.Range.c96_violated"], "note": "violated by the code: the average log-weight is subtracted before exponentiating, not the largest, so that a log-weight 710 above the average makes the log-likelihood infinite (c96_violated for a model with two observations). c96_iff says exactly when; c96_partial, c96_spread and c96_lfun_partial give the exact value otherwise. Rounding and underflow are not modelled."},
  {"property": "C97", "status": "proved", "theorems": ["Verif.Reorder.c97", "Verif.Reorder.c97_groups", "Verif.Reorder.c97_integrand", "Verif.Reorder.c97_IS", "Verif.Reorder.c97_hol", "Verif.Reorder.c97_nested"], "note": "Relation between model frames and NoNested in Spec/Reorder. c97: model's find_lfun_SR and all sequences of calls of lfun, with the same deviance function, for well-formed frames whose observations all have a random effect, and at most 46341 random effects with int32. c97_groups: also with observations grouped, in any order (C88 without its condition on the order). c97_nested: for observations depending on nested sets of random effects the factors do depend on the order. c97_IS and c97_hol as in C88."},
  {"property": "C98", "status": "proved", "theorems": ["Verif.Reparam.c98", "Verif.Reparam.c98_recode", "Verif.Reparam.c98_integrand", "Verif.Reparam.c98_IS", "Verif.Reparam.c98_hol", "Verif.Reparam.recode_predictor", "Verif.Reparam.rescale_predictor"], "note": "For sequential reduction the deviance functions of lme4 have to give the same result at the two parameters (lme4 is not modelled). Cases: covariates replaced by linear combinations of them, random effects in another unit."},
  {"property": "C99", "status": "proved", "theorems": ["Verif.Lfun.c99", "Verif.SR.range_run", "Verif.SR.rangeGrid_of", "Verif.SR.inflation_of", "Verif.SR.node_sq_le", "Verif.Store.pt_dist"], "note": "32-bit integers, exact reals. The bound on the variance inflation factors is needed for the proof because the regression term of the conditional mean has the wrong sign (C28), so quadrature points move away from the mean as the random effects become collinear. NoZeroNormalizer excludes a normalizing constant of exactly zero, which the code takes for an improper distribution. Quadrature and grid eigen-solvers are trusted to return eigenvalues and eigenvectors."}
]}
