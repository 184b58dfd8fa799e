import Verif.Conformance
import Verif.Cpp
import Verif.Lemmas.Approx
import Verif.Lemmas.Arctan
import Verif.Lemmas.Arith
import Verif.Lemmas.Bits
import Verif.Lemmas.Cordic
import Verif.Lemmas.CordicReal
import Verif.Lemmas.Core
import Verif.Lemmas.Float
import Verif.Lemmas.Format
import Verif.Lemmas.Lay
import Verif.Lemmas.Log2
import Verif.Lemmas.Log2Gen
import Verif.Lemmas.Log2Real
import Verif.Lemmas.Mixed
import Verif.Lemmas.Newton
import Verif.Lemmas.Parse
import Verif.Lemmas.ParseCore
import Verif.Lemmas.Poly
import Verif.Lemmas.Print
import Verif.Lemmas.Quiet
import Verif.Lemmas.RealConst
import Verif.Lemmas.Round
import Verif.Lemmas.Signed
import Verif.Lemmas.Simd
import Verif.Lemmas.Sin
import Verif.Lemmas.SinGen
import Verif.Lemmas.Sqrt
import Verif.Lemmas.Trig
import Verif.Model.Cordic
import Verif.Model.Fixed
import Verif.Model.Float
import Verif.Model.Format
import Verif.Model.FormatUnits
import Verif.Model.Int128
import Verif.Model.Istream
import Verif.Model.Literals
import Verif.Model.Math
import Verif.Model.NamedLimits
import Verif.Model.Numbers
import Verif.Model.Ostream
import Verif.Model.Parse
import Verif.Model.ParseWide
import Verif.Model.Perf
import Verif.Model.Platform
import Verif.Model.Print
import Verif.Model.Random
import Verif.Model.SeedSeq
import Verif.Model.Simd
import Verif.Model.Threads
import Verif.Model.Util
import Verif.Props.Area
import Verif.Props.Arith
import Verif.Props.AsinAll
import Verif.Props.AsinNarrow
import Verif.Props.AsinSym
import Verif.Props.Atan
import Verif.Props.AtanAll
import Verif.Props.AtanBeyond
import Verif.Props.AtanUnsigned
import Verif.Props.AtanWide
import Verif.Props.Bezier
import Verif.Props.Bilinear
import Verif.Props.Bisect
import Verif.Props.Bounds
import Verif.Props.Cbrt
import Verif.Props.CbrtAcross
import Verif.Props.CbrtAll
import Verif.Props.CbrtCoarse
import Verif.Props.CbrtMid
import Verif.Props.CbrtNeg
import Verif.Props.CbrtUnsigned
import Verif.Props.Clock
import Verif.Props.Constants
import Verif.Props.ConstantsAll
import Verif.Props.Convert
import Verif.Props.ConvertArith
import Verif.Props.ConvertLaws
import Verif.Props.Convex
import Verif.Props.Cordic
import Verif.Props.CordicAccuracy
import Verif.Props.CordicCount
import Verif.Props.CountLoop
import Verif.Props.Damp
import Verif.Props.DegAll
import Verif.Props.DegUnsigned
import Verif.Props.Dist
import Verif.Props.Dot
import Verif.Props.Ends
import Verif.Props.EngineText
import Verif.Props.EvalAll
import Verif.Props.Exp
import Verif.Props.ExpAdd
import Verif.Props.ExpAll
import Verif.Props.ExpLog
import Verif.Props.ExpMono
import Verif.Props.ExpRange
import Verif.Props.ExpUnsigned
import Verif.Props.Filter
import Verif.Props.Float
import Verif.Props.FloatOut
import Verif.Props.Fmod
import Verif.Props.FmodAll
import Verif.Props.Format
import Verif.Props.FormatAll
import Verif.Props.FormatBack
import Verif.Props.FormatNarrow
import Verif.Props.FormatSpec
import Verif.Props.FormatUnits
import Verif.Props.Growth
import Verif.Props.Hypot
import Verif.Props.HypotAll
import Verif.Props.HypotSym
import Verif.Props.Int128
import Verif.Props.InvTrig
import Verif.Props.Istream
import Verif.Props.Laws
import Verif.Props.LayoutFree
import Verif.Props.Leapfrog
import Verif.Props.Lerp
import Verif.Props.Limits
import Verif.Props.LimitsFallback
import Verif.Props.Literals
import Verif.Props.LnUnsigned
import Verif.Props.Log
import Verif.Props.LogAll
import Verif.Props.LogDiv
import Verif.Props.LogLaws
import Verif.Props.LogLawsAll
import Verif.Props.LogNarrow
import Verif.Props.LogUnsigned
import Verif.Props.Lut
import Verif.Props.LutNeg
import Verif.Props.LutSin
import Verif.Props.Mean
import Verif.Props.Mixed
import Verif.Props.MixedAll
import Verif.Props.Mixing
import Verif.Props.NearlyAll
import Verif.Props.NoOverflow
import Verif.Props.Normalize
import Verif.Props.Order
import Verif.Props.Orient
import Verif.Props.Ostream
import Verif.Props.OutEnds
import Verif.Props.Parse
import Verif.Props.ParseAll
import Verif.Props.ParseNarrow
import Verif.Props.ParseTotal
import Verif.Props.ParseUnsigned
import Verif.Props.ParseView
import Verif.Props.ParseWide
import Verif.Props.Perf
import Verif.Props.Pick
import Verif.Props.Platform
import Verif.Props.Pow
import Verif.Props.PowAll
import Verif.Props.PowFixed
import Verif.Props.PowFixedAll
import Verif.Props.PowLaws
import Verif.Props.PowMono
import Verif.Props.PowNarrow
import Verif.Props.PowNeg
import Verif.Props.PowUnsigned
import Verif.Props.PowWhole
import Verif.Props.Print
import Verif.Props.PrintAll
import Verif.Props.PrintConst
import Verif.Props.PrintInj
import Verif.Props.ProductLaws
import Verif.Props.Programs
import Verif.Props.Random
import Verif.Props.Ranking
import Verif.Props.Rotate
import Verif.Props.RoundAll
import Verif.Props.RoundArc
import Verif.Props.RoundArea
import Verif.Props.RoundAtan
import Verif.Props.RoundCbrt
import Verif.Props.RoundCos
import Verif.Props.RoundDamp
import Verif.Props.RoundDot
import Verif.Props.RoundExp
import Verif.Props.RoundFmod
import Verif.Props.RoundGrowth
import Verif.Props.RoundHypot
import Verif.Props.RoundLaws
import Verif.Props.RoundLawsAll
import Verif.Props.RoundLerp
import Verif.Props.RoundLog
import Verif.Props.RoundOrient
import Verif.Props.RoundPowNeg
import Verif.Props.RoundSqrt
import Verif.Props.RoundTrip
import Verif.Props.RoundWeights
import Verif.Props.Rounding
import Verif.Props.RoundingFlag
import Verif.Props.SeedSeq
import Verif.Props.Seeds
import Verif.Props.Simd
import Verif.Props.SinAll
import Verif.Props.SinUnsigned
import Verif.Props.SineAgree
import Verif.Props.Smooth
import Verif.Props.Smoothstep
import Verif.Props.Sphere
import Verif.Props.Sqrt
import Verif.Props.SqrtAll
import Verif.Props.SqrtNarrow
import Verif.Props.SqrtSquare
import Verif.Props.SqrtUnsigned
import Verif.Props.Stream
import Verif.Props.StreamAll
import Verif.Props.StreamNarrow
import Verif.Props.StreamTotal
import Verif.Props.Sums
import Verif.Props.Tan
import Verif.Props.TextBack
import Verif.Props.Threads
import Verif.Props.TimeStep
import Verif.Props.Trig
import Verif.Props.TrigAll
import Verif.Props.TrigIdAll
import Verif.Props.TrigSym
import Verif.Props.TrigSymAll
import Verif.Props.UbKinds
import Verif.Props.Undo
import Verif.Props.Util
import Verif.Props.Weights
import Verif.Spec
import Verif.SpecFormat
import Verif.SpecText
