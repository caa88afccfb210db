import Verif.Base.Res
import Verif.Model.Counting
import Verif.Model.Point
import Verif.Model.SparseGrid
import Verif.Model.Basis
import Verif.Spec.Grid
import Verif.Spec.Basis
import Verif.Spec.Quantile
import Verif.Proofs.Counting
import Verif.Proofs.GridCard
import Verif.Proofs.PointRank
import Verif.Proofs.PointRun
import Verif.Proofs.PointParents
import Verif.Proofs.GridTraverse
import Verif.Proofs.GridHier
import Verif.Proofs.GridDeriv
import Verif.Proofs.Spline
import Verif.Proofs.BasisKnots
import Verif.Props.Counting
import Verif.Props.Point
import Verif.Props.PointParents
import Verif.Props.Overflow
import Verif.Props.SparseGrid
import Verif.Props.GridDeriv
import Verif.Spec.Normal
import Verif.Proofs.NormalQuantile
import Verif.Proofs.QuantileTail
import Verif.Proofs.BasisEval
import Verif.Proofs.BasisFits
import Verif.Props.Basis
import Verif.Model.Items
import Verif.Model.Graph
import Verif.Model.ClusterGraph
import Verif.Spec.Graph
import Verif.Spec.Tree
import Verif.Proofs.Items
import Verif.Proofs.Graph
import Verif.Proofs.ClusterInit
import Verif.Proofs.ClusterTree
import Verif.Proofs.ClusterMsg
import Verif.Props.Items
import Verif.Props.Graph
import Verif.Props.ClusterGraph
import Verif.Model.Belief
import Verif.Proofs.Belief
import Verif.Proofs.BeliefDeriv
import Verif.Proofs.ClusterExact
import Verif.Proofs.BeliefExact
import Verif.Props.ClusterExact
import Verif.Props.Belief
import Verif.Model.Eigen
import Verif.Model.MultiNormal
import Verif.Model.NormalApprox
import Verif.Proofs.Eigen
import Verif.Proofs.Gauss
import Verif.Proofs.GaussInt
import Verif.Proofs.NormalBelief
import Verif.Proofs.TreeForms
import Verif.Proofs.NormalApprox
import Verif.Proofs.NormalInit
import Verif.Props.Eigen
import Verif.Props.Gauss
import Verif.Props.NormalApprox
import Verif.Model.Quadrature
import Verif.Proofs.Hermite
import Verif.Proofs.Jacobi
import Verif.Props.Quadrature
import Verif.Model.Integrated
import Verif.Proofs.Integrated
import Verif.Props.Integrated
import Verif.Model.SparseStore
import Verif.Proofs.SparseStore
import Verif.Props.SparseStore
import Verif.Model.Family
import Verif.Proofs.Family
import Verif.Props.Family
import Verif.Model.Parameters
import Verif.Props.Parameters
import Verif.Model.GLMM
import Verif.Spec.GLMM
import Verif.Proofs.GLMM
import Verif.Props.GLMM
import Verif.Model.Control
import Verif.Props.Control
import Verif.Model.Frames
import Verif.Spec.Frames
import Verif.Props.Frames
import Verif.Model.Indexing
import Verif.Props.Indexing
import Verif.Model.SubExpr
import Verif.Spec.SubExpr
import Verif.Proofs.SubExpr
import Verif.Props.SubExpr
import Verif.Props.SubWitness
import Verif.Model.SubMatch
import Verif.Props.SubMatch
import Verif.Model.Split
import Verif.Spec.Split
import Verif.Props.Split
import Verif.Props.Factorization
import Verif.Model.IS
import Verif.Spec.IS
import Verif.Proofs.IS
import Verif.Proofs.ISMeasure
import Verif.Props.IS
import Verif.Model.Hol
import Verif.Spec.Hol
import Verif.Proofs.Hol
import Verif.Props.Hol
import Verif.Model.Fit
import Verif.Props.Fit
import Verif.Props.Signs
import Verif.Props.SubUnique
import Verif.Proofs.ClusterTame
import Verif.Proofs.ClusterRuns
import Verif.Props.Reduction
import Verif.Model.Divergence
import Verif.Spec.Divergence
import Verif.Proofs.Divergence
import Verif.Props.Divergence
import Verif.Model.Summary
import Verif.Props.Summary
import Verif.Model.Indices
import Verif.Spec.Indices
import Verif.Proofs.Indices
import Verif.Props.Indices
import Verif.Model.ModFr
import Verif.Model.Calibrate
import Verif.Proofs.Calibrate
import Verif.Props.Calibrate
import Verif.Props.ModFr
import Verif.Proofs.SingleInit
import Verif.Model.SR
import Verif.Proofs.Forward
import Verif.Proofs.StoreZero
import Verif.Proofs.BeliefTotal
import Verif.Spec.AGQ
import Verif.Proofs.SRSingle
import Verif.Proofs.StoreFree
import Verif.Proofs.SRRun
import Verif.Proofs.SRFactors
import Verif.Props.SR
import Verif.Model.Lfun
import Verif.Props.Lfun
import Verif.Proofs.ClusterApprox
import Verif.Proofs.SRApprox
import Verif.Props.Approx
import Verif.Props.SRApprox
import Verif.Proofs.LaplaceDet
import Verif.Proofs.StoreCentre
import Verif.Proofs.IntegratedCentre
import Verif.Proofs.SRCentre
import Verif.Proofs.BeliefAt
import Verif.Proofs.ForwardAt
import Verif.Proofs.SafeRun
import Verif.Proofs.SRLaplaceStep
import Verif.Proofs.SRLaplaceDet
import Verif.Proofs.SRLaplace
import Verif.Props.SRLaplace
import Verif.Proofs.IntegratedAt
import Verif.Proofs.StoreAt
import Verif.Proofs.SRRange
import Verif.Props.SRRange
import Verif.Proofs.HermiteConv
import Verif.Props.SRConverge
import Verif.Model.Whole
import Verif.Props.Dispatch
import Verif.Props.Whole
import Verif.Model.Flatten
import Verif.Props.Flatten
import Verif.Proofs.Param
import Verif.Spec.Grouped
import Verif.Proofs.Grouped
import Verif.Props.Grouped
import Verif.Spec.Reorder
import Verif.Proofs.ReorderInit
import Verif.Proofs.ReorderNormal
import Verif.Proofs.ReorderBelief
import Verif.Proofs.ReorderGraph
import Verif.Proofs.ReorderRun
import Verif.Proofs.ReorderTerms
import Verif.Props.Reorder
import Verif.Proofs.Param2
import Verif.Spec.Reparam
import Verif.Proofs.Reparam
import Verif.Props.Reparam
import Verif.Model.Print
import Verif.Props.Print
import Verif.Model.Counts
import Verif.Props.Counts
import Verif.Spec.SparsePoly
import Verif.Proofs.SplinePoly
import Verif.Proofs.Reproduce
import Verif.Props.Reproduce
import Verif.Spec.Stream
import Verif.Proofs.ISLimit
import Verif.Proofs.ISVariance
import Verif.Props.ISLimit
import Verif.Props.ISVariance
import Verif.Props.ISVarianceR
import Verif.Model.ParseFormula
import Verif.Spec.ParseFormula
import Verif.Props.ParseFormula
import Verif.Props.RepoTests
import Verif.Model.Range
import Verif.Props.Range
import Verif.Props.RangeIS
import Verif.Proofs.SignBasis
import Verif.Proofs.SignGrid
import Verif.Proofs.SignNormal
import Verif.Proofs.SignIntegrated
import Verif.Proofs.SignStore
import Verif.Proofs.SignList
import Verif.Proofs.SignBelief
import Verif.Proofs.SignGraph
import Verif.Proofs.SignExact
import Verif.Proofs.SignFactors
import Verif.Proofs.SignQuad
import Verif.Proofs.SignEnv
import Verif.Spec.SignChange
import Verif.Proofs.SignModel
import Verif.Props.SignChange
import Verif.Proofs.SignFamily
import Verif.Props.Swap
import Verif.Props.SwapIS
import Verif.Model.SaveFile
import Verif.Spec.SaveFile
import Verif.Props.SaveFile
import Verif.Proofs.ZeroWeight
import Verif.Props.ZeroWeight
import Verif.Props.SwapHol
import Verif.Model.SubsetDim
import Verif.Props.SubsetDim
import Verif.Spec.Parts
import Verif.Props.Parts
import Verif.Spec.Nested
import Verif.Proofs.Nested
import Verif.Props.Nested
import Verif.Spec.Eliminate
import Verif.Props.Eliminate
import Verif.Spec.Rotate
import Verif.Props.Rotate
import Verif.Spec.Cost
import Verif.Props.Cost
import Verif.Props.Mode
import Verif.Model.Unused
import Verif.Props.Unused
import Verif.Spec.NoVariance
import Verif.Props.NoVariance
import Verif.Props.NoVarianceSR
import Verif.Props.Pool
import Verif.Props.Gradient
import Verif.Props.GradientZero
import Verif.Proofs.Prekopa
import Verif.Props.FixedConcave
import Verif.Props.Options
import Verif.Props.Separation
import Verif.Proofs.PrekopaStrict
import Verif.Props.FixedUnique
import Verif.Props.JointMax
import Verif.Proofs.ProbitNormal
import Verif.Props.ObsLevel
import Verif.Props.PrevFit
import Verif.Props.Refit
import Verif.Props.Bounded
import Verif.Props.Collinear
