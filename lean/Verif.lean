import Verif.Lemmas.AscentConverges
import Verif.Lemmas.BatchedBTD
import Verif.Lemmas.BatchedBTD2
import Verif.Lemmas.BatchedCombos
import Verif.Lemmas.BatchedEinsum
import Verif.Lemmas.BatchedKalman
import Verif.Lemmas.BatchedKernels
import Verif.Lemmas.BatchedMean
import Verif.Lemmas.BatchedMean2
import Verif.Lemmas.BatchedNatGrad
import Verif.Lemmas.BatchedOps
import Verif.Lemmas.BatchedPiecewise
import Verif.Lemmas.BatchedPiecewise2
import Verif.Lemmas.BatchedPiecewise3
import Verif.Lemmas.BatchedPiecewise4
import Verif.Lemmas.BatchedPosterior
import Verif.Lemmas.BatchedSSM
import Verif.Lemmas.BatchedSampling
import Verif.Lemmas.BatchedStack
import Verif.Lemmas.BatchedStack2
import Verif.Lemmas.BatchedStack3
import Verif.Lemmas.BatchedTransform
import Verif.Lemmas.BatchedVariational
import Verif.Lemmas.Bayes
import Verif.Lemmas.BayesPSD
import Verif.Lemmas.Block
import Verif.Lemmas.BlockChol
import Verif.Lemmas.BlockTriDiag
import Verif.Lemmas.Bridge
import Verif.Lemmas.CVI
import Verif.Lemmas.CVINatGrad
import Verif.Lemmas.Cholesky
import Verif.Lemmas.Conditionals
import Verif.Lemmas.Decay
import Verif.Lemmas.Descent
import Verif.Lemmas.Elbo
import Verif.Lemmas.ElboConcave
import Verif.Lemmas.Envelope
import Verif.Lemmas.Euler
import Verif.Lemmas.Expm
import Verif.Lemmas.Extrapolate
import Verif.Lemmas.FullGaussian
import Verif.Lemmas.GPBridge
import Verif.Lemmas.GPR
import Verif.Lemmas.Gauss
import Verif.Lemmas.GaussKL
import Verif.Lemmas.GlobalOptimum
import Verif.Lemmas.HullBound
import Verif.Lemmas.HyperGrad
import Verif.Lemmas.IWVI
import Verif.Lemmas.Jitter
import Verif.Lemmas.KLProd
import Verif.Lemmas.Kalman
import Verif.Lemmas.KernelLaw
import Verif.Lemmas.KernelTree
import Verif.Lemmas.LeafKernels
import Verif.Lemmas.LinPredict
import Verif.Lemmas.ListMat
import Verif.Lemmas.LogConcave
import Verif.Lemmas.LogConcavePEP
import Verif.Lemmas.MarkovBridge
import Verif.Lemmas.MarkovProjection
import Verif.Lemmas.MeanFunction
import Verif.Lemmas.Minibatch
import Verif.Lemmas.MomentMatch
import Verif.Lemmas.NatDynamics
import Verif.Lemmas.NatDynamics2
import Verif.Lemmas.NatGrad
import Verif.Lemmas.NatGradPath
import Verif.Lemmas.Naturals
import Verif.Lemmas.Obs
import Verif.Lemmas.OptimumExists
import Verif.Lemmas.PEP
import Verif.Lemmas.Piecewise
import Verif.Lemmas.PiecewiseModels
import Verif.Lemmas.PiecewiseOutputs
import Verif.Lemmas.PiecewiseProcess
import Verif.Lemmas.PiecewiseVariational
import Verif.Lemmas.Predict
import Verif.Lemmas.PredictSmooth
import Verif.Lemmas.Refine
import Verif.Lemmas.Refinement
import Verif.Lemmas.SDE
import Verif.Lemmas.SSM
import Verif.Lemmas.SSM2
import Verif.Lemmas.SSMFrom
import Verif.Lemmas.SSMLaw
import Verif.Lemmas.SVGP
import Verif.Lemmas.SVGPNatGrad
import Verif.Lemmas.SampleLaw
import Verif.Lemmas.Schur
import Verif.Lemmas.Shapes
import Verif.Lemmas.SiteDynamics
import Verif.Lemmas.SiteDynamics2
import Verif.Lemmas.SiteEquiv
import Verif.Lemmas.Sites
import Verif.Lemmas.SparseCVI
import Verif.Lemmas.SparseCVIGrad
import Verif.Lemmas.SparsePEP
import Verif.Lemmas.SpatioTemporal
import Verif.Lemmas.Stack
import Verif.Lemmas.StackSampling
import Verif.Lemmas.StochasticTraining
import Verif.Lemmas.Tensor
import Verif.Lemmas.Transformations
import Verif.Lemmas.UDL
import Verif.Lemmas.VGP
import Verif.Model.Batched
import Verif.Model.BatchedKernels
import Verif.Model.BatchedMean
import Verif.Model.BatchedNatGrad
import Verif.Model.BatchedPiecewise
import Verif.Model.BatchedPosterior
import Verif.Model.BatchedSampling
import Verif.Model.BatchedStack
import Verif.Model.BatchedVariational
import Verif.Model.BlockTriDiag
import Verif.Model.CVI
import Verif.Model.Conditionals
import Verif.Model.Emission
import Verif.Model.GPR
import Verif.Model.IWVI
import Verif.Model.KalmanFilter
import Verif.Model.Kernels
import Verif.Model.Likelihood
import Verif.Model.LikelihoodObjects
import Verif.Model.MeanFunction
import Verif.Model.NatGrad
import Verif.Model.PEP
import Verif.Model.Parameters
import Verif.Model.Piecewise
import Verif.Model.PiecewiseModels
import Verif.Model.PiecewiseVariational
import Verif.Model.Posterior
import Verif.Model.PredictDensity
import Verif.Model.SDE
import Verif.Model.SVGP
import Verif.Model.Shapes
import Verif.Model.SparseCVI
import Verif.Model.SparsePEP
import Verif.Model.SpatioTemporal
import Verif.Model.Stack
import Verif.Model.StateSpaceModel
import Verif.Model.TF
import Verif.Model.Tensor
import Verif.Model.Transformations
import Verif.Model.Utils
import Verif.Model.VGP
import Verif.Props.Batched
import Verif.Props.BatchedKernels
import Verif.Props.BatchedMean
import Verif.Props.BatchedNatGrad
import Verif.Props.BatchedPiecewise
import Verif.Props.BatchedSampling
import Verif.Props.BatchedStack
import Verif.Props.BatchedStackSampling
import Verif.Props.BatchedVariational
import Verif.Props.BlockTriDiag
import Verif.Props.CVI
import Verif.Props.CVINatGrad
import Verif.Props.Conditionals
import Verif.Props.CyclicReduction
import Verif.Props.Descent
import Verif.Props.Emission
import Verif.Props.EmissionMarginals
import Verif.Props.Envelope
import Verif.Props.EnvelopeUse
import Verif.Props.Extrapolation
import Verif.Props.FullGaussian
import Verif.Props.FullGaussianUse
import Verif.Props.GPR
import Verif.Props.GlobalOptimum
import Verif.Props.HistoryInvariance
import Verif.Props.HistoryInvarianceExamples
import Verif.Props.HistoryInvarianceUse
import Verif.Props.HyperGrad
import Verif.Props.IWVI
import Verif.Props.Invariance
import Verif.Props.Jitter
import Verif.Props.KalmanFilter
import Verif.Props.KernelStack
import Verif.Props.Kernels
import Verif.Props.LikelihoodObjects
import Verif.Props.LogConcave
import Verif.Props.LogConcavePEP
import Verif.Props.MeanFunction
import Verif.Props.Minibatch
import Verif.Props.MoreData
import Verif.Props.MoreInducing
import Verif.Props.NatGrad
import Verif.Props.NatGradConvergence
import Verif.Props.NoiseLimits
import Verif.Props.PEP
import Verif.Props.PEPInvariance
import Verif.Props.PEPObjective
import Verif.Props.Parameters
import Verif.Props.Piecewise
import Verif.Props.PiecewiseModels
import Verif.Props.PiecewiseSparseTraining
import Verif.Props.PiecewiseStatistics
import Verif.Props.PiecewiseTraining
import Verif.Props.PiecewiseVariational
import Verif.Props.PredictDensity
import Verif.Props.PredictSmooth
import Verif.Props.Refinement
import Verif.Props.SDE
import Verif.Props.SVGP
import Verif.Props.SVGPNatGrad
import Verif.Props.Shapes
import Verif.Props.SiteConvergence
import Verif.Props.SparseCVI
import Verif.Props.SparseCVINatGrad
import Verif.Props.SparsePEP
import Verif.Props.SpatioTemporal
import Verif.Props.SpatioTemporalCVI
import Verif.Props.SpatioTemporalElbo
import Verif.Props.SpatioTemporalPredict
import Verif.Props.Stack
import Verif.Props.StackSampling
import Verif.Props.StateSpaceModel
import Verif.Props.StochasticNatGrad
import Verif.Props.Transformations
import Verif.Props.Utils
import Verif.Props.VGP
import Verif.Spec.Batched
import Verif.Spec.BatchedKernels
import Verif.Spec.BatchedMean
import Verif.Spec.BatchedNatGrad
import Verif.Spec.BatchedPiecewise
import Verif.Spec.BatchedSampling
import Verif.Spec.BatchedStack
import Verif.Spec.BatchedVariational
import Verif.Spec.BlockTriDiag
import Verif.Spec.Bridge
import Verif.Spec.CyclicReduction
import Verif.Spec.FullGaussian
import Verif.Spec.GPR
import Verif.Spec.Gauss
import Verif.Spec.GaussMarkov
import Verif.Spec.Jitter
import Verif.Spec.Kernel
import Verif.Spec.KernelTree
import Verif.Spec.Likelihood
import Verif.Spec.LikelihoodObjects
import Verif.Spec.LinearGaussian
import Verif.Spec.LogConcave
import Verif.Spec.MeanFunction
import Verif.Spec.Minibatch
import Verif.Spec.NatGrad
import Verif.Spec.Piecewise
import Verif.Spec.PiecewiseProcess
import Verif.Spec.PredictDensity
import Verif.Spec.PredictSmooth
import Verif.Spec.Refinement
import Verif.Spec.SDE
import Verif.Spec.Shapes
import Verif.Spec.SiteNaturals
import Verif.Spec.Sites
import Verif.Spec.SmoothLikelihood
import Verif.Spec.SpatioTemporal
import Verif.Spec.Stack
import Verif.Spec.StochasticTraining
