import Verif.Base
import Verif.Tdl.Model
import Verif.Tdl.Spec
import Verif.Tdl.Lemmas
import Verif.Tdl.Props
import Verif.Crc.Model
import Verif.Crc.Spec
import Verif.Crc.Lemmas
import Verif.Crc.Lemmas2
import Verif.Crc.Props
import Verif.Bitfield.Model
import Verif.Bitfield.Spec
import Verif.Bitfield.Lemmas
import Verif.Bitfield.Props
import Verif.Algorithm.Model
import Verif.Algorithm.Spec
import Verif.Algorithm.Sort
import Verif.Algorithm.Lemmas
import Verif.Algorithm.Props
import Verif.Fp16.Model
import Verif.Fp16.Spec
import Verif.Fp16.Lemmas
import Verif.Fp16.Div
import Verif.Fp16.Sqrt
import Verif.Fp16.Text
import Verif.Fp16.Props
import Verif.Fp16.Trig
import Verif.Fp16.TrigProps
import Verif.Fp16.Exp
import Verif.Fp16.ExpReal
import Verif.Fp16.ExpProps
import Verif.Fp16.Hyper
import Verif.Fp16.Atan
import Verif.Fp16.Log
import Verif.Fp16.Log2
import Verif.Fp16.Pow
import Verif.Fp16.Angle
import Verif.F32.Basic
import Verif.Ffmath.Model
import Verif.Ffmath.Lemmas
import Verif.Ffmath.Props
import Verif.Arith
import Verif.Numa.Model
import Verif.Numa.Props
import Verif.Numa.Converge
import Verif.Numa.Float
import Verif.Pid.Model
import Verif.Pid.Props
import Verif.Pid.Windup
import Verif.Pid.Identify
import Verif.Pid.Idle
import Verif.Pid.Transfer
import Verif.Pid.Integral
import Verif.Pid.Config
import Verif.Pid.Tuning
import Verif.Pid.FloatStep
import Verif.Ltisys.Fir
import Verif.Ltisys.Model
import Verif.Ltisys.Lifecycle
import Verif.Ltisys.Discrete
import Verif.Ltisys.Saturation
import Verif.Ltisys.Continuous
import Verif.Smoother.Model
import Verif.Smoother.Lemmas
import Verif.Smoother.Props
import Verif.Smoother.Const
import Verif.Smoother.Config
import Verif.Smoother.Recursive
import Verif.Smoother.Settle
import Verif.Smoother.Adaptive
import Verif.F32.Hull
import Verif.Smoother.Float
import Verif.Smoother.FloatWindow
import Verif.Smoother.FloatGauss
import Verif.Smoother.FloatTrack
import Verif.Smoother.FloatDrift
import Verif.Smoother.FloatKalman
import Verif.Interp1.Model
import Verif.Interp1.Step
import Verif.Interp1.Linear
import Verif.Interp1.Smooth
import Verif.Interp1.Shape
import Verif.Interp1.Float
import Verif.Interp1.FloatSine
import Verif.Interp1.FloatSpline
import Verif.Mat.Model
import Verif.Mat.Lemmas
import Verif.Mat.Props
import Verif.F32.Dot
import Verif.Mat.Float
import Verif.Ltisys.FirFloat
import Verif.Ltisys.IirFloat
import Verif.Ltisys.Settle
import Verif.Ltisys.Converge
import Verif.Fis.Core
import Verif.Fis.Shapes
import Verif.Fis.Model
import Verif.Fis.Spec
import Verif.Fis.Inference
import Verif.Fis.Aggregate
import Verif.Fis.Range
import Verif.Fis.Config
import Verif.Fis.Defuzz
import Verif.Fis.Outputs
import Verif.Fis.Float
import Verif.Fis.Bisector
import Verif.Fis.ShapesProps
import Verif.Fis.ShapesFloat
import Verif.Fis.ShapesExp
import Verif.Fis.ShapesFloat2
import Verif.Fis.Sets
import Verif.Fis.Pipeline
import Verif.Fis.Calls
import Verif.F32.Round
import Verif.F32.Ops
import Verif.Ffmath.FloatModel
import Verif.Ffmath.FloatLemmas
import Verif.Ffmath.Interpolate
import Verif.Ffmath.Mod
import Verif.F32.Error
import Verif.F32.Poly
import Verif.Ffmath.Sqrt
import Verif.Ffmath.Recip
import Verif.Ffmath.Cbrt
import Verif.Ffmath.Exp2
import Verif.Ffmath.Exp
import Verif.F32.PolyPos
import Verif.Ffmath.LogReal
import Verif.Ffmath.Log2
import Verif.Ffmath.Log
import Verif.Rms.Model
import Verif.Rms.Props
import Verif.Rms.Float
import Verif.Ffmath.TrigReal
import Verif.Ffmath.Sin
import Verif.Ffmath.IsEqual
import Verif.Ffmath.Cos
import Verif.Ffmath.Asin
import Verif.Ffmath.Atan
import Verif.Ffmath.Hyper
import Verif.Ffmath.Ahyper
import Verif.Ffmath.Hypot
import Verif.Ffmath.Rem
import Verif.Ffmath.Erf
import Verif.Ffmath.Range
import Verif.Ffmath.Circle
import Verif.Ffmath.Polygon
import Verif.Ffmath.GammaModel
import Verif.Ffmath.Factorial
import Verif.Ffmath.Gamma
import Verif.Ffmath.StirlingReal
import Verif.Ffmath.GammaReal
import Verif.Ffmath.GammaCore
import Verif.Ffmath.GammaAcc
import Verif.F32.PolyInt
import Verif.Ffmath.LgammaReal
import Verif.Ffmath.LgammaCore
import Verif.Ffmath.LgammaAcc
import Verif.Ffmath.BetaAcc
import Verif.Ffmath.PolyModel
import Verif.Ffmath.Legendre
import Verif.Ffmath.AssocLegendre
import Verif.Ffmath.Laguerre
import Verif.Ffmath.ExpintModel
import Verif.Ffmath.ExpintReal
import Verif.Ffmath.ExpintSeries
import Verif.Ffmath.Expint
import Verif.Ffmath.ExpintSign
import Verif.Ffmath.EllipticModel
import Verif.Ffmath.EllipticReal
import Verif.Ffmath.EllipticStep
import Verif.Ffmath.EllipticRf
import Verif.Ffmath.Elliptic
import Verif.Ffmath.EllipticFacts
import Verif.Ffmath.EllipticRdReal
import Verif.Ffmath.EllipticRd
import Verif.Ffmath.EllipticRdLoop
import Verif.Ffmath.EllipticSecond
import Verif.Ffmath.EllipticComp2
import Verif.Ffmath.ZetaModel
import Verif.Ffmath.Zeta
import Verif.Ffmath.BesselModel
import Verif.Ffmath.BesselSeries
import Verif.Ffmath.Bessel
import Verif.Ffmath.SphModel
import Verif.Ffmath.SphLegendre
import Verif.Smoother.FloatLpf2
import Verif.Smoother.FloatLpf2Fast
import Verif.Smoother.FloatSettle
