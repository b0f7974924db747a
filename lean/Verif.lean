import Verif.Props.Legendre
import Verif.Props.Lagrange
import Verif.Props.B0101
import Verif.Props.Tools
import Verif.Props.Basis
import Verif.Props.ContB0101
import Verif.Props.GSpline
import Verif.Props.FnOps
import Verif.Props.FnDeriv
import Verif.Props.Interp
import Verif.Props.GLL
import Verif.Props.Sobolev
import Verif.Props.Integral
import Verif.Props.Colloc
import Verif.Props.CollocOps
import Verif.Props.CollocAssign
import Verif.Props.Functionals
import Verif.Props.SobDist
import Verif.Props.Wrappers
import Verif.Props.PathIntegral
import Verif.Props.Options
import Verif.Props.Optim
import Verif.Props.Optimisers
import Verif.Props.Minimal
import Verif.Props.GLLNodes
import Verif.Props.CollocQuad
import Verif.Props.Threads
import Verif.Props.BestTimes
import Verif.Props.Rounding
import Verif.Props.Serial
import Verif.Props.Random
import Verif.Props.ThreadsCache
import Verif.Props.Refs
import Verif.Props.Symmetry
import Verif.Props.CostLaws
import Verif.Props.Special
import Verif.Props.Failure
import Verif.Props.Uninit
import Verif.Props.FnIter
import Verif.Props.Own
import Verif.Props.Views
import Verif.Props.Bindings
import Verif.Props.CollocGrid
import Verif.Props.Approx
import Verif.Props.SplineError
import Verif.Props.Residual
import Verif.Props.RoundingInterp
import Verif.Props.RoundingGLL
import Verif.Props.RoundingSpline
import Verif.Props.RoundingSobolev
import Verif.Props.SplineObj
import Verif.Props.LinFun
import Verif.Props.WellPosed
import Verif.Props.EndToEnd
import Verif.Props.RoundingFn
import Verif.Props.RoundingIntegral
import Verif.Props.Rate
import Verif.Props.RateInterp
import Verif.Props.RateOps
import Verif.Props.RateSobolev
import Verif.Props.RateFn
import Verif.Props.RateIntegral
import Verif.Props.RateColloc
import Verif.Props.RateCollocValue
import Verif.Props.RatePerturb
import Verif.Props.RateMaxVel
import Verif.Props.RateProducts
import Verif.Props.RoundingFunctionals
