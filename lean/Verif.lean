import Verif.Theorems.Layout
import Verif.Theorems.CovSync
import Verif.Theorems.Collections
import Verif.Theorems.Descriptors
import Verif.Theorems.Pattern
import Verif.Theorems.PatternColl
import Verif.Theorems.Kalman
import Verif.Theorems.KalmanBayes
import Verif.Theorems.KalmanTransforms
import Verif.Theorems.SigmaPoints
import Verif.Theorems.MonteCarlo
import Verif.Theorems.ValuesReal
import Verif.Theorems.ValuesComplex
import Verif.Theorems.LinAlg
import Verif.Theorems.Slices
import Verif.Theorems.ConcatStruct
import Verif.Theorems.Solve
import Verif.Theorems.Factor
import Verif.Theorems.CovArith
import Verif.Theorems.CovBlocks
import Verif.Theorems.Gaussian
import Verif.Theorems.FiniteDiff
import Verif.Theorems.StoredForm
import Verif.Theorems.EigenTraits
import Verif.Theorems.Shape
import Verif.Theorems.PatternDims
import Verif.Theorems.StatSpace
import Verif.Theorems.Angular
import Verif.Theorems.Adapters
import Verif.Theorems.InPlace
import Verif.Theorems.EigenAccess
import Verif.Theorems.NAry
import Verif.Theorems.Scalars
import Verif.Theorems.PatTypes
import Verif.Theorems.Compat
import Verif.Theorems.Gets
import Verif.Theorems.Contraction
import Verif.Theorems.Evaluators
import Verif.Theorems.Mdspan
import Verif.Theorems.MonteAngle
import Verif.Theorems.TypedConv
import Verif.Theorems.EigenShapes
import Verif.Theorems.Blas1
import Verif.Theorems.Blas2
import Verif.Theorems.Blas3
import Verif.Theorems.RankUpdate
import Verif.Theorems.Givens
import Verif.Theorems.LinalgViews
import Verif.Theorems.Randomize
import Verif.Theorems.LinSys
import Verif.Theorems.Moments
import Verif.Theorems.SecondOrder
import Verif.Theorems.Robust
import Verif.Theorems.EigenHooks
import Verif.Theorems.Transformation
import Verif.Theorems.Comma
import Verif.Theorems.TypedOps
import Verif.Theorems.SigmaFilter
import Verif.Theorems.Containers
import Verif.Theorems.Steady
import Verif.Theorems.Stages
import Verif.Theorems.ToContainer
import Verif.Theorems.FixedSize
import Verif.Theorems.Frames
import Verif.Theorems.SigmaFrames
import Verif.Theorems.Evidence
import Verif.Theorems.Limits
import Verif.Theorems.Makers
import Verif.Theorems.TypeMatch
import Verif.Theorems.Innovation
import Verif.Theorems.Joint
import Verif.Theorems.Lifetimes
import Verif.Theorems.SmallNoise
import Verif.Theorems.Signs
import Verif.Theorems.SignsAtan
import Verif.Theorems.Forgetting
import Verif.Theorems.MonteLimit
import Verif.Theorems.MonteRank
