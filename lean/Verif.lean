import Verif.Base.Props
import Verif.Base.LinOpProps
import Verif.Bisect.Props
import Verif.Proj.Props
import Verif.Proj.Sparse
import Verif.Proj.BoxSection
import Verif.Prox.Props
import Verif.Isotonic.Props
import Verif.LineSearch.BacktrackingProps
import Verif.LineSearch.ZoomProps
import Verif.LineSearch.Setup
import Verif.LineSearch.SetupProps
import Verif.LineSearch.ZoomLiveProps
import Verif.LineSearch.HagerZhangProps
import Verif.LineSearch.HagerZhangInterval
import Verif.LineSearch.HagerZhangLiveProps
import Verif.SGD.ArmijoProps
import Verif.SGD.PolyakProps
import Verif.SGD.InterpProps
import Verif.QuasiNewton.LbfgsProps
import Verif.QuasiNewton.BfgsProps
import Verif.QuasiNewton.BroydenProps
import Verif.QuasiNewton.LbfgsbProps
import Verif.QuasiNewton.RunProps
import Verif.QuasiNewton.NcgQuadProps
import Verif.QuasiNewton.ZoutendijkProps
import Verif.QuasiNewton.LbfgsRateProps
import Verif.QuasiNewton.CompactProps
import Verif.QuasiNewton.DescentProps
import Verif.FixedPoint.IterationProps
import Verif.FixedPoint.AndersonProps
import Verif.FixedPoint.AndersonRateProps
import Verif.ProxGrad.Props
import Verif.ProxGrad.RealProps
import Verif.QuasiNewton.NonlinearCGProps
import Verif.QP.BoxCDProps
import Verif.QP.BoxCDConvProps
import Verif.BlockCD.Props
import Verif.BlockCD.ConvProps
import Verif.BlockCD.Logreg
import Verif.BlockCD.LogregProps
import Verif.BlockCD.Optimality
import Verif.QP.KktProps
import Verif.OSQP.BoxProps
import Verif.OSQP.TransformProps
import Verif.Implicit.RootProps
import Verif.Implicit.SignatureProps
import Verif.LeastSquares.GaussNewtonProps
import Verif.LeastSquares.LMProps
import Verif.LeastSquares.LMSolve
import Verif.Tree.Props
import Verif.Scipy.FlattenProps
import Verif.Scipy.JacProps
import Verif.Scipy.Bridge
import Verif.Scipy.BridgeProps
import Verif.Scipy.WrappersProps
import Verif.Loss.Model
import Verif.Loss.Props
import Verif.Perturb.Model
import Verif.Perturb.Props
import Verif.Perturb.Estimator
import Verif.Perturb.EstimatorProps
import Verif.Mirror.Model
import Verif.Mirror.Props
import Verif.Mirror.RateProps
import Verif.Transport.Model
import Verif.Transport.Props
import Verif.Transport.Entropic
import Verif.Transport.ZeroMarginal
import Verif.LineSearch.Interp
import Verif.LineSearch.InterpProps
import Verif.LinSolve.Model
import Verif.LinSolve.Props
import Verif.Proj.Jvp
import Verif.Proj.JvpProps
import Verif.Isotonic.Jvp
import Verif.Isotonic.JvpProps
import Verif.QP.Cvxpy
import Verif.QP.CvxpyProps
import Verif.QP.Fun
import Verif.QP.FunProps
import Verif.SGD.Optax
import Verif.SGD.OptaxProps
import Verif.QP.PolyProj
import Verif.QP.PolyProjProps
import Verif.ProxGrad.RateProps
import Verif.ProxGrad.LineSearchProps
import Verif.ProxGrad.LineSearchDivProps
import Verif.OSQP.CertifProps
import Verif.Implicit.DefaultsProps
import Verif.OSQP.AdmmProps
import Verif.LeastSquares.LMSetup
import Verif.LeastSquares.LMGeoProps
import Verif.LeastSquares.LMConvProps
import Verif.LeastSquares.GaussNewtonConvProps
import Verif.QuasiNewton.BfgsRateProps
import Verif.QuasiNewton.ArmijoRateProps
import Verif.QuasiNewton.ZoomRateProps
import Verif.QuasiNewton.ZoomCycleProps
import Verif.OSQP.LinSolverProps
import Verif.OSQP.AdaptiveProps
import Verif.OSQP.CycleProps
import Verif.Implicit.RefSig
import Verif.Implicit.RefSigProps
import Verif.ProxGrad.RampProps
import Verif.ProxGrad.AccelDivProps
import Verif.ProxGrad.PlainCycleProps
import Verif.Implicit.ApproxProps
import Verif.QuasiNewton.BroydenRateProps
import Verif.QuasiNewton.BroydenSearch
import Verif.QuasiNewton.BroydenRunProps
import Verif.LineSearch.Counters
import Verif.LineSearch.CountersProps
import Verif.LineSearch.Equivariance
import Verif.QuasiNewton.Complex
import Verif.QuasiNewton.ComplexProps
import Verif.QuasiNewton.RotationProps
import Verif.LineSearch.ZoomMessages
import Verif.LineSearch.ZoomMessagesProps
import Verif.Base.Diff
import Verif.Base.DiffProps
import Verif.Num.Format
import Verif.Bisect.Float
import Verif.Bisect.FloatProps
import Verif.Base.Batch
import Verif.Base.BatchProps
import Verif.FixedPoint.InexactProps
import Verif.ProxGrad.RegressionProps
import Verif.SGD.GoldsteinProps
import Verif.Num.Binary
import Verif.QuasiNewton.BoundsFloat
import Verif.QuasiNewton.BoundsFloatProps
import Verif.Isotonic.Float
import Verif.Isotonic.FloatLemmas
import Verif.Isotonic.FloatAccuracy
import Verif.Isotonic.FloatProps
import Verif.Prox.Reverse
import Verif.Prox.ReverseProps
import Verif.LineSearch.Shift
import Verif.QuasiNewton.ShiftProps
import Verif.Num.Displacement
import Verif.Num.Elimination
import Verif.OSQP.Detect
import Verif.OSQP.DetectProps
import Verif.Proj.Float
import Verif.Proj.FloatProps
import Verif.LeastSquares.LMLocalProps
import Verif.QuasiNewton.LbfgsbFreeProps
import Verif.QuasiNewton.LbfgsbFreeRateProps
import Verif.QuasiNewton.BfgsDennisMoreProps
import Verif.QuasiNewton.BfgsSuperProps
import Verif.QuasiNewton.BfgsSuperExamples
import Verif.ProxGrad.IdentifyLemmas
import Verif.ProxGrad.IdentifyProps
import Verif.ProxGrad.StationaryProps
import Verif.FixedPoint.AndersonLocalProps
import Verif.Implicit.KktRoot
import Verif.Implicit.KktProps
import Verif.Implicit.BoxRoot
import Verif.Implicit.BoxProps
import Verif.Implicit.ProxRoot
import Verif.Implicit.ProxProps
import Verif.Implicit.RegressionRoot
import Verif.Implicit.RegressionProps
import Verif.Implicit.SimplexRoot
import Verif.Implicit.SimplexProps
import Verif.Loss.Float
import Verif.Loss.FloatProps
import Verif.Loss.Masked
import Verif.Loss.MaskedProps
import Verif.Loss.Autodiff
import Verif.Loss.AutodiffProps
import Verif.Prox.Autodiff
import Verif.Prox.AutodiffProps
import Verif.Prox.BoxSectionAD
import Verif.Prox.BoxSectionADProps
import Verif.Prox.Float
import Verif.Prox.FloatProps
import Verif.Transport.Autodiff
import Verif.Transport.AutodiffProps
import Verif.Transport.Accuracy
import Verif.Transport.Existence
import Verif.Proj.HalfspaceFloat
import Verif.Proj.HalfspaceFloatProps
import Verif.Transport.ZeroMarginal
import Verif.Transport.ZeroMarginalProps
import Verif.Proj.BoxSectionInf
import Verif.Proj.BoxSectionInfProps
import Verif.Tree.Stacked
import Verif.Tree.StackedProps
import Verif.Tree.LbfgsTree
import Verif.Tree.LbfgsTreeProps
import Verif.Tree.FlatConcat
import Verif.Tree.FlatConcatProps
import Verif.Tree.DType
import Verif.Tree.DTypeProps
import Verif.LineSearch.ConditionProps
