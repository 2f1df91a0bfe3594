import Verif.Model.Generate
import Verif.Tests.Unit
import Verif.Props.Basis
import Verif.Props.Eval
import Verif.Props.Smooth
import Verif.Props.Construct
import Verif.Props.Insert
import Verif.Props.Reverse
import Verif.Props.Unique
import Verif.Props.InsertExact
import Verif.Props.Split
import Verif.Props.History
import Verif.Props.Predicates
import Verif.Props.KnotGen
import Verif.Props.Params
import Verif.Props.Knots
import Verif.Props.Fit
import Verif.Props.Interpolate
import Verif.Props.Merge
import Verif.Props.MergeValue
import Verif.Props.NaN
import Verif.Props.Generation
import Verif.Props.Reproduce
import Verif.Props.Polygon
import Verif.Props.Laws
import Verif.Props.Access
import Verif.Spec.Rounding
import Verif.Theory.Rounding
import Verif.Refine.Float
import Verif.Props.Float
import Verif.Props.FloatInsert
import Verif.Props.FloatParams
import Verif.Props.PolygonEdit
import Verif.Props.Equivariant
import Verif.Props.Smoothing
import Verif.Props.Similar
import Verif.Props.MergeMap
import Verif.Props.MergeReverse
import Verif.Props.Session
import Verif.Props.Careful
import Verif.Props.MergeSharp
import Verif.Props.InsertSharp
import Verif.Props.MergeExact
import Verif.Props.SplitSharp
import Verif.Model.Svd
import Verif.Spec.Svd
import Verif.Theory.Svd
import Verif.Theory.SvdExists
import Verif.Refine.Svd
import Verif.Props.Svd
import Verif.Spec.Ieee
import Verif.Theory.Ieee
import Verif.Refine.Ieee
import Verif.Refine.IeeeEval
import Verif.Props.Ieee
import Verif.Props.HullSharp
import Verif.Props.IeeeInsert
import Verif.Props.JumpSharp
import Verif.Props.InsertTimes
import Verif.Props.KnotsSharp
import Verif.Props.NaNSharp
import Verif.Props.MergeReverseSharp
import Verif.Props.NormalizeSharp
import Verif.Props.IeeeReverse
import Verif.Props.IeeeSplit
import Verif.Props.IeeeGenerate
import Verif.Props.Regular
import Verif.Props.FitUnique
import Verif.Props.FitZero
import Verif.Theory.Stable
import Verif.Props.Stable
import Verif.Props.IeeeIdeal
import Verif.Props.Slope
import Verif.Props.IeeeWhole
import Verif.Props.IeeeInterpolate
import Verif.Props.Inexact
import Verif.Props.Reported
import Verif.Props.CacheEdit
import Verif.Props.Refined
import Verif.Props.Coincide
import Verif.Props.Methods
import Verif.Spec.Turning
import Verif.Props.Convex
import Verif.Props.MergeExplicit
import Verif.Props.Converge
import Verif.Props.ConstructSharp
import Verif.Props.ConvergeFast
import Verif.Props.Support
import Verif.Props.Touch
import Verif.Props.Integral
import Verif.Props.Limits
import Verif.Props.LimitsFixed
import Verif.Props.MergeInexact
import Verif.Theory.Condition
import Verif.Props.Condition
import Verif.Props.Sampled
import Verif.Props.FloatKnots
import Verif.Props.Bezier
import Verif.Props.Cost
import Verif.Props.Release
import Verif.Props.Ending
import Verif.Props.Outcome
import Verif.Props.OutcomeNaN
import Verif.Props.Domain
import Verif.Props.Reparam
import Verif.Props.Memory
import Verif.Props.IeeeDerivative
import Verif.Props.IeeeFit
import Verif.Props.Word
import Verif.Props.IeeeLocal
import Verif.Props.IeeeMerge
import Verif.Props.IeeeSession
import Verif.Refine.Twin
import Verif.Props.IeeeClamped
import Verif.Refine.Ends
import Verif.Props.IeeeEnds
import Verif.Props.IeeeTangent
import Verif.Props.IeeeTouch
import Verif.Props.Coordinates
import Verif.Props.CoordinatesFit
import Verif.Refine.PointRel
import Verif.Refine.PointRelMerge
import Verif.Props.Mirror
import Verif.Props.Scaling
import Verif.Model.CostDerive
import Verif.Props.CostDerive
import Verif.Props.EverySpline
import Verif.Props.Contained
import Verif.Props.Extract
import Verif.Props.AnyInsertOrder
import Verif.Props.Pieces
import Verif.Props.Around
import Verif.Props.JoinMany
import Verif.Props.JoinBack
import Verif.Props.StableGenerate
import Verif.Spec.Superpose
import Verif.Props.Superpose
import Verif.Spec.FitNoise
import Verif.Props.FitNoise
import Verif.Spec.IeeeOrder
import Verif.Props.IeeeOrder
import Verif.Spec.NotFinite
import Verif.Props.NotFinite
import Verif.Spec.Plane
import Verif.Props.Plane
import Verif.Spec.Backward
import Verif.Props.Backward
import Verif.Props.TotalPositive
import Verif.Props.Minors
import Verif.Spec.Forward
import Verif.Props.Forward
import Verif.Props.Sampling
import Verif.Model.Equal
import Verif.Props.Equal
import Verif.Props.SamplingIeee
import Verif.Spec.Turns
import Verif.Props.Turns
import Verif.Theory.CauchyBinet
import Verif.Props.PenaltyUnique
import Verif.Props.FitLines
import Verif.Props.LimitMean
import Verif.Props.LimitPoly
import Verif.Props.LimitBest
import Verif.Props.FitInfluence
