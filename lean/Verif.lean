import Verif.Props.Rational
import Verif.Props.Interval
import Verif.Props.Numeric
import Verif.Props.Convolution
import Verif.Props.OverlapAdd
import Verif.Props.FFT
import Verif.Props.FirFilter
import Verif.Props.IirFilter
import Verif.Props.Systems
import Verif.Props.RootTransforms
import Verif.Props.IirDesign
import Verif.Props.Polyphase
import Verif.Props.Resample
import Verif.Props.Resample2
import Verif.Props.FirRounded
import Verif.Props.ResampleRounded
import Verif.Props.Signal
import Verif.Props.Statistics
import Verif.Props.Spaces
import Verif.Props.Windowing
import Verif.Props.Waveforms
import Verif.Props.FirDesign
import Verif.Props.FirHilbert
import Verif.Props.Descs
import Verif.Props.LeastSquares
import Verif.Props.LsResponse
import Verif.Props.Chebyshev
import Verif.Props.Solvers
import Verif.Props.Measure
import Verif.Props.MeasureEdges
import Verif.Props.FirArbitrary
import Verif.Props.FrequencyResponse
import Verif.Props.DolphChebyshev
import Verif.Props.Elliptic
import Verif.Props.EllipticIntegrals
import Verif.Props.EllipticFunctions
import Verif.Props.EllipticComplex
import Verif.Props.EllipticArcs
import Verif.Props.EllipticFilter
import Verif.Props.EllipticDesign
import Verif.Props.EllipticPrototype
import Verif.Props.EllipticRipples
import Verif.Props.RoundedStatistics
import Verif.Props.RoundedConvolution
import Verif.Model.PocketFFT
import Verif.Model.PocketBlue
import Verif.Lemmas.PocketMem
import Verif.Lemmas.PocketPasses
import Verif.Lemmas.PocketGeneric
import Verif.Lemmas.PocketTwiddle
import Verif.Lemmas.PocketFactor
import Verif.Lemmas.PocketPlan
import Verif.Lemmas.PocketGood
import Verif.Lemmas.PocketBlue
import Verif.Props.PocketFFT
import Verif.Model.PocketReal
import Verif.Lemmas.PocketRows
import Verif.Lemmas.PocketRadix
import Verif.Lemmas.PocketRadixG
import Verif.Lemmas.PocketRadixF
import Verif.Lemmas.PocketRadixB
import Verif.Lemmas.PocketRFactor
import Verif.Lemmas.PocketRPlan
import Verif.Lemmas.PocketRExec
import Verif.Props.PocketReal
import Verif.Model.PocketConst
import Verif.Lemmas.PocketConst
import Verif.Model.PlanCache
import Verif.Lemmas.PlanCache
import Verif.Lemmas.PlanLru
import Verif.Lemmas.PlanProgress
import Verif.Props.PlanCache
import Verif.Spec.Fit
import Verif.Model.FitLoss
import Verif.Lemmas.FitLoss
import Verif.Props.FitLoss
import Verif.Props.SolversRounded
import Verif.Lemmas.BinaryMono
import Verif.Props.RationalFloat
import Verif.Lemmas.Stability
import Verif.Lemmas.Unstable
import Verif.Props.Stability
import Verif.Lemmas.IirRounded
import Verif.Lemmas.CascadeRounded
import Verif.Props.IirRounded
import Verif.Props.Sensitivity
import Verif.Spec.IirBands
import Verif.Props.IirBands
import Verif.Spec.RateChange
import Verif.Lemmas.RateChange
import Verif.Props.RateChange
import Verif.Props.Witnesses
import Verif.Props.Ownership
import Verif.Model.PocketFloat
import Verif.Spec.FloatFFT
import Verif.Lemmas.PocketNear
import Verif.Lemmas.PocketCores
import Verif.Lemmas.PocketCoreG
import Verif.Lemmas.PocketFExec
import Verif.Lemmas.PocketFTwiddle
import Verif.Props.PocketRounded
import Verif.Model.PocketBlueFloat
import Verif.Lemmas.PocketFBlue
import Verif.Props.PocketRoundedBlue
import Verif.Spec.RoundedSum
import Verif.Model.OverlapAddFloat
import Verif.Spec.FloatTransform
import Verif.Lemmas.OverlapAddFold
import Verif.Lemmas.OverlapAddRounded
import Verif.Lemmas.OverlapAddFloat
import Verif.Props.OverlapAddRounded
import Verif.Model.Cutoff
import Verif.Props.Cutoff
import Verif.Model.SpacesFloat
import Verif.Spec.FloatWindows
import Verif.Props.FloatWindows
import Verif.Model.PocketRealFloat
import Verif.Spec.FloatRealFFT
import Verif.Lemmas.PocketRFNear
import Verif.Lemmas.PocketRFRadix
import Verif.Lemmas.PocketRFExec
import Verif.Props.PocketRealRounded
import Verif.Model.OverlapAddRealFloat
import Verif.Spec.FloatRealTransform
import Verif.Lemmas.OverlapAddRealFloat
import Verif.Props.OverlapAddRealRounded
import Verif.Props.FirOlaRounded
import Verif.Props.PolynomialsRounded
import Verif.Props.ExpansionRounded
import Verif.Props.WindowedRounded
import Verif.Props.HighpassRounded
import Verif.Props.BandRounded
