import Verif.Lemmas.Axis
import Verif.Lemmas.BoseApprox
import Verif.Lemmas.BoseGrid
import Verif.Lemmas.DefaultGrid
import Verif.Lemmas.Discretise
import Verif.Lemmas.FindAll
import Verif.Lemmas.FiniteTemp
import Verif.Lemmas.Float
import Verif.Lemmas.Fourier
import Verif.Lemmas.GaussQuad
import Verif.Lemmas.Jacobi
import Verif.Lemmas.LeastSquares
import Verif.Lemmas.Legendre
import Verif.Lemmas.LegendreBound
import Verif.Lemmas.LogisticApprox
import Verif.Lemmas.LogisticGrid
import Verif.Lemmas.LogisticWide
import Verif.Lemmas.MinSegment
import Verif.Lemmas.MinSegmentBose
import Verif.Lemmas.NdArray
import Verif.Lemmas.NpLegendre
import Verif.Lemmas.NpUnique
import Verif.Lemmas.Overlap
import Verif.Lemmas.Piecewise
import Verif.Lemmas.Pointwise
import Verif.Lemmas.Poly
import Verif.Lemmas.Quadrature
import Verif.Lemmas.RefineGrid
import Verif.Lemmas.RelError
import Verif.Lemmas.Roots
import Verif.Lemmas.RootsFl
import Verif.Lemmas.Rounding
import Verif.Lemmas.RoundingBose
import Verif.Lemmas.RoundingFit
import Verif.Lemmas.RoundingGauss
import Verif.Lemmas.RoundingMatrix
import Verif.Lemmas.RoundingOdd
import Verif.Lemmas.RoundingPoly
import Verif.Lemmas.Sampling
import Verif.Lemmas.SegPoly
import Verif.Lemmas.SvdExists
import Verif.Lemmas.SveCompute
import Verif.Lemmas.VecNorm
import Verif.Lemmas.Wedin
import Verif.Lemmas.Weyl
import Verif.Model.Adapter
import Verif.Model.AdapterBasis
import Verif.Model.Augment
import Verif.Model.BasisPoints
import Verif.Model.BasisSet
import Verif.Model.Dlr
import Verif.Model.Domain
import Verif.Model.FTExtrema
import Verif.Model.FiniteTemp
import Verif.Model.Gauss
import Verif.Model.GaussFl
import Verif.Model.Kernel
import Verif.Model.KernelFl
import Verif.Model.Overlap
import Verif.Model.Poly
import Verif.Model.PolyFT
import Verif.Model.PolyFl
import Verif.Model.Ravel
import Verif.Model.Roots
import Verif.Model.RootsFl
import Verif.Model.SampledBases
import Verif.Model.Sampling
import Verif.Model.SamplingFl
import Verif.Model.Svd
import Verif.Model.Sve
import Verif.Model.SveCompute
import Verif.Model.SveComputeFl
import Verif.Model.Util
import Verif.Np.Axis
import Verif.Np.Basic
import Verif.Np.FVal
import Verif.Np.Ieee
import Verif.Np.Legendre
import Verif.Np.NdArray
import Verif.Props.C01_Matsubara
import Verif.Props.C02_Domain
import Verif.Props.C02_Range
import Verif.Props.C03_Ravel
import Verif.Props.C04_Descriptor
import Verif.Props.C05_DiscreteRoots
import Verif.Props.C06_ContinuousRoots
import Verif.Props.C07_DiscreteExtremum
import Verif.Props.C08_ExtremaOrder
import Verif.Props.C09_Segment
import Verif.Props.C10_Selection
import Verif.Props.C11_Deriv
import Verif.Props.C12_SymmetricRoots
import Verif.Props.C13_RefineGrid
import Verif.Props.C14_FourierTransform
import Verif.Props.C15_Phase
import Verif.Props.C16_PowerModel
import Verif.Props.C17_SelectOrder
import Verif.Props.C18_Conjugation
import Verif.Props.C19_Symmetrize
import Verif.Props.C20_MatsubaraPoints
import Verif.Props.C21_Fence
import Verif.Props.C22_TauPoints
import Verif.Props.C23_RuleAlgebra
import Verif.Props.C25_GaussLegendre
import Verif.Props.C26_Recurrence
import Verif.Props.C28_Collocation
import Verif.Props.C29_Kronrod
import Verif.Props.C30_Kernels
import Verif.Props.C32_Symmetrized
import Verif.Props.C33_Grids
import Verif.Props.C34_Truncate
import Verif.Props.C36_Sampling
import Verif.Props.C37_Parity
import Verif.Props.C39_PhysicalUnits
import Verif.Props.C41_Truncation
import Verif.Props.C43_LeastSquares
import Verif.Props.C44_PositiveOnly
import Verif.Props.C45_Axis
import Verif.Props.C46_PointOrder
import Verif.Props.C47_AugmentedIndex
import Verif.Props.C48_Augmentations
import Verif.Props.C49_AugmentedMetadata
import Verif.Props.C50_DlrFunctions
import Verif.Props.C51_DlrConversion
import Verif.Props.C52_SvdStrategies
import Verif.Props.C53_Precision
import Verif.Props.C54_Parameters
import Verif.Props.C56_Overlap
import Verif.Props.C57_AdapterMatsubara
import Verif.Props.C58_AdapterRoots
import Verif.Props.C60_WhoWarns
import Verif.Props.C61_SuppliedSvd
import Verif.Props.C62_WeightFunction
import Verif.Props.C63_SamplingInit
import Verif.Props.C64_DefaultPoints
import Verif.Props.C65_SveCompute
import Verif.Props.C66_FromScratch
import Verif.Props.C67_AdapterBasis
import Verif.Props.C68_SparseSampling
import Verif.Props.C69_NoiseAmplification
import Verif.Props.C70_BasisSet
import Verif.Props.C71_OtherBases
import Verif.Props.C72_DeterminingPoints
import Verif.Props.C73_DlrPoints
import Verif.Props.C74_HighFrequency
import Verif.Props.C75_Rounding
import Verif.Props.C76_MatrixRounding
import Verif.Props.C77_SingularValues
import Verif.Props.C78_SingularVectors
import Verif.Props.C79_EvalRounding
import Verif.Props.C80_FitRounding
import Verif.Props.C81_RootRounding
import Verif.Props.C82_SamplingRounding
import Verif.Props.C83_Discretisation
import Verif.Props.C84_GreensFunction
import Verif.Props.C85_InexactSvd
import Verif.Props.C86_BoseDiscretisation
import Verif.Props.C87_Pointwise
import Verif.Props.C88_LargeCutoffs
import Verif.Props.C89_RoundedKernel
import Verif.Props.C90_RoundedBose
import Verif.Props.C91_RoundedPointwise
import Verif.Props.C92_BosePointwise
import Verif.Props.C93_SampledGreens
import Verif.Props.C94_DlrComplete
import Verif.Py
import Verif.Spec.Axis
import Verif.Spec.BoseLimit
import Verif.Spec.Discretise
import Verif.Spec.Float
import Verif.Spec.Fourier
import Verif.Spec.Kernel
import Verif.Spec.LeastSquares
import Verif.Spec.Legendre
import Verif.Spec.Partition
import Verif.Spec.Quadrature
import Verif.Spec.Recurrence
import Verif.Spec.Roots
import Verif.Spec.SvdError
import Verif.Spec.Tridiagonal
import Verif.Spec.VecNorm
