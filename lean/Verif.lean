import Verif.Lemmas.Averages
import Verif.Lemmas.BinaryFloat
import Verif.Lemmas.BlockDiag
import Verif.Lemmas.Calculus
import Verif.Lemmas.Columns
import Verif.Lemmas.Curvature
import Verif.Lemmas.EigenOrder
import Verif.Lemmas.FourthMoments
import Verif.Lemmas.Jacobian
import Verif.Lemmas.KfacInverse
import Verif.Lemmas.KfacInverseLoop
import Verif.Lemmas.Kron
import Verif.Lemmas.Lanczos
import Verif.Lemmas.LinAlg
import Verif.Lemmas.Losses
import Verif.Lemmas.Moments
import Verif.Lemmas.RandomDirection
import Verif.Lemmas.Selection
import Verif.Lemmas.Spectral
import Verif.Lemmas.Subsampling
import Verif.Lemmas.Tensor
import Verif.Model.ActivationHessian
import Verif.Model.ActivationHook
import Verif.Model.Adjoint
import Verif.Model.AverageRounding
import Verif.Model.Blocks
import Verif.Model.Columns
import Verif.Model.Constructor
import Verif.Model.Curvature
import Verif.Model.CurvatureInit
import Verif.Model.DataSource
import Verif.Model.Deflation
import Verif.Model.Determinism
import Verif.Model.EstimatorRounding
import Verif.Model.Estimators
import Verif.Model.Examples
import Verif.Model.Export
import Verif.Model.ExportRounding
import Verif.Model.Functorch
import Verif.Model.HutchPPRounding
import Verif.Model.Inverse
import Verif.Model.KfacDevice
import Verif.Model.KfacFactors
import Verif.Model.KfacHooks
import Verif.Model.KfacInit
import Verif.Model.KfacInverse
import Verif.Model.KfacInverseSystem
import Verif.Model.KfacLabels
import Verif.Model.KfacLayout
import Verif.Model.KfacMapping
import Verif.Model.KfacProduct
import Verif.Model.KfacProductRounding
import Verif.Model.KfacRounding
import Verif.Model.KfacScalars
import Verif.Model.KfacScalarsRounding
import Verif.Model.KfacState
import Verif.Model.KfacStateDict
import Verif.Model.KfacUpdates
import Verif.Model.LossCurvature
import Verif.Model.LossOptions
import Verif.Model.LossSqrt
import Verif.Model.Losses
import Verif.Model.MixedPrecision
import Verif.Model.Net
import Verif.Model.NetGradient
import Verif.Model.Numpy
import Verif.Model.Patches
import Verif.Model.PowerMethod
import Verif.Model.Programs
import Verif.Model.Py
import Verif.Model.Rearrange
import Verif.Model.Rounding
import Verif.Model.ScipyTypes
import Verif.Model.Selection
import Verif.Model.SeqNet
import Verif.Model.Sharing
import Verif.Model.Spectrum
import Verif.Model.SpectrumObjects
import Verif.Model.Submatrix
import Verif.Model.Tensor
import Verif.Model.TorchBase
import Verif.Model.Tour
import Verif.Model.UtilityRounding
import Verif.Model.Utils
import Verif.Props.ActivationHessian
import Verif.Props.ActivationHook
import Verif.Props.AddedData
import Verif.Props.AverageRounding
import Verif.Props.BlockSpectrum
import Verif.Props.Blocks
import Verif.Props.Budget
import Verif.Props.CachedParameters
import Verif.Props.Constructor
import Verif.Props.Curvature
import Verif.Props.DataSource
import Verif.Props.Deflation
import Verif.Props.DeflationInexact
import Verif.Props.Descent
import Verif.Props.Determinism
import Verif.Props.DeterminismRounding
import Verif.Props.EigenOrder
import Verif.Props.EstimatorAverages
import Verif.Props.EstimatorRounding
import Verif.Props.EstimatorVariance
import Verif.Props.Estimators
import Verif.Props.Examples
import Verif.Props.Expansion
import Verif.Props.Export
import Verif.Props.ExportRounding
import Verif.Props.FisherMC
import Verif.Props.FisherMCResidual
import Verif.Props.FisherMCSpectrum
import Verif.Props.FisherMCUnbiased
import Verif.Props.FisherMCVariance
import Verif.Props.Functorch
import Verif.Props.GaussNewton
import Verif.Props.HutchPPRounding
import Verif.Props.Inverse
import Verif.Props.Jacobian
import Verif.Props.JacobianForm
import Verif.Props.JacobianSizes
import Verif.Props.KfacDampingOrder
import Verif.Props.KfacDevice
import Verif.Props.KfacDistance
import Verif.Props.KfacError
import Verif.Props.KfacExact
import Verif.Props.KfacFactors
import Verif.Props.KfacForwardScale
import Verif.Props.KfacHooks
import Verif.Props.KfacInit
import Verif.Props.KfacInvariance
import Verif.Props.KfacInverse
import Verif.Props.KfacInverseBound
import Verif.Props.KfacInverseFollow
import Verif.Props.KfacInverseFresh
import Verif.Props.KfacInverseRounding
import Verif.Props.KfacInverseState
import Verif.Props.KfacLayout
import Verif.Props.KfacLinear
import Verif.Props.KfacMC
import Verif.Props.KfacMCVariance
import Verif.Props.KfacMajorization
import Verif.Props.KfacMapping
import Verif.Props.KfacMappingLayers
import Verif.Props.KfacOptions
import Verif.Props.KfacProduct
import Verif.Props.KfacProductRounding
import Verif.Props.KfacPsd
import Verif.Props.KfacReads
import Verif.Props.KfacRounding
import Verif.Props.KfacRoundingPsd
import Verif.Props.KfacScalars
import Verif.Props.KfacScalarsRounding
import Verif.Props.KfacScaling
import Verif.Props.KfacSelection
import Verif.Props.KfacSpectrum
import Verif.Props.KfacState
import Verif.Props.KfacStateDict
import Verif.Props.Lanczos
import Verif.Props.LossCurvature
import Verif.Props.LossOptions
import Verif.Props.LossSqrt
import Verif.Props.LossSymmetry
import Verif.Props.Matmul
import Verif.Props.Minibatch
import Verif.Props.MinibatchSpectrum
import Verif.Props.MixedPrecision
import Verif.Props.NaturalGradient
import Verif.Props.NaturalGradientStep
import Verif.Props.Net
import Verif.Props.NeumannRate
import Verif.Props.NeumannRounding
import Verif.Props.Patches
import Verif.Props.PowerMethod
import Verif.Props.Programs
import Verif.Props.Range
import Verif.Props.Rearrange
import Verif.Props.Reparam
import Verif.Props.Rounding
import Verif.Props.Scaling
import Verif.Props.ScipyTypes
import Verif.Props.Selection
import Verif.Props.SeqNet
import Verif.Props.SeqNetMC
import Verif.Props.Sharing
import Verif.Props.SpectrumAverages
import Verif.Props.SpectrumConsistency
import Verif.Props.SpectrumDensity
import Verif.Props.SpectrumObjects
import Verif.Props.Submatrix
import Verif.Props.SubmatrixBool
import Verif.Props.Tour
import Verif.Props.UtilityRounding
import Verif.Props.Utils
import Verif.Props.WrongSizes
import Verif.Spec.ActivationHook
import Verif.Spec.Calculus
import Verif.Spec.Conv
import Verif.Spec.Dense
import Verif.Spec.Entries
import Verif.Spec.KfacFactors
import Verif.Spec.KfacLayers
import Verif.Spec.Kron
import Verif.Spec.LinAlg
import Verif.Spec.MatScalars
import Verif.Spec.Risk
import Verif.Spec.Rows
import Verif.Spec.SciRep
import Verif.Spec.Selection
import Verif.Spec.Spectrum
