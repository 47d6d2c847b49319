import Verif.Props.Numeric
import Verif.Props.Poly
import Verif.Props.Stats
import Verif.Props.Cov
import Verif.Props.Range
import Verif.Props.Equal
import Verif.Props.Histogram
import Verif.Props.Manips
import Verif.Props.Fft
import Verif.Props.Arith
import Verif.Props.Quantity
import Verif.Props.Units
import Verif.Props.Windows
import Verif.Props.Threads
import Verif.Props.Spectral
import Verif.Props.Io
import Verif.Props.Print
import Verif.Props.Waveforms
import Verif.Props.Random
import Verif.Props.Interp
import Verif.Props.Ops
import Verif.Props.Gmean
import Verif.Props.BinWidth
import Verif.Props.Plots
import Verif.Props.Tuple
import Verif.Props.QMaths
import Verif.Props.UnitTable
import Verif.Props.Constants
import Verif.Props.Vectorize
import Verif.Props.TrimStats
import Verif.Props.Rounding
import Verif.Props.RoundCov
import Verif.Props.FloatSign
import Verif.Props.Special
import Verif.Props.Ieee
import Verif.Props.IntRed
import Verif.Props.Extrema
import Verif.Props.Winvis
import Verif.Props.Plots2
import Verif.Props.FloatText
import Verif.Props.MathConst
import Verif.Props.PrintNum
import Verif.Props.CtRoot
import Verif.Props.Prime64
import Verif.Props.QFloat
import Verif.Props.QCast
import Verif.Props.QSum
import Verif.Props.QAlmost
import Verif.Props.QHist
import Verif.Props.CmpCat
import Verif.Props.Fluent
import Verif.Props.Traits
import Verif.Props.Limits
import Verif.Props.ConcatExpr
import Verif.Props.Sqrt
import Verif.Props.QuantF
import Verif.Props.IntPoly
import Verif.Model.HistF
import Verif.Props.HistF
import Verif.Model.RangeQ
import Verif.Props.RangeF
import Verif.Model.Filters
import Verif.Props.Filters
import Verif.Proofs.Exactly
import Verif.Props.ExactF
import Verif.Model.WindowsF
import Verif.Props.WindowsF
import Verif.Model.WindowsF2
import Verif.Proofs.Rel
import Verif.Props.WindowsF2
import Verif.Model.SpectralF
import Verif.Props.SpectralF
import Verif.Props.FreqF
import Verif.Props.EqualI
import Verif.Model.QExpr
import Verif.Props.QExpr
import Verif.Model.Arith64
import Verif.Props.Arith64
import Verif.Props.PolyF
import Verif.Model.InterpF
import Verif.Props.InterpF
import Verif.Model.Overload
import Verif.Spec.Overload
import Verif.Proofs.Overload
import Verif.Props.Overload
import Verif.Model.ArrExpr
import Verif.Spec.ArrExpr
import Verif.Proofs.ArrExpr
import Verif.Props.ArrExpr
import Verif.Props.MomentsF
import Verif.Props.Offset
import Verif.Model.QStats
import Verif.Props.QStats
import Verif.Model.QSpectral
import Verif.Props.QSpectral
import Verif.Model.QNumeric
import Verif.Props.QNumeric
import Verif.Model.WaveformsF
import Verif.Props.WaveformsF
import Verif.Model.OverloadAdd
import Verif.Spec.OverloadAdd
import Verif.Proofs.OverloadAdd
import Verif.Props.OverloadAdd
import Verif.Model.FftF
import Verif.Proofs.FftF
import Verif.Props.FftF
import Verif.Model.HistTy
import Verif.Props.HistTy
import Verif.Model.IntVar
import Verif.Props.IntVar
import Verif.Model.IntStats
import Verif.Props.IntStats
import Verif.Model.UInt
import Verif.Props.UInt
import Verif.Model.IntQuant
import Verif.Props.IntQuant
import Verif.Model.ComplexF
import Verif.Proofs.ComplexF
import Verif.Props.ComplexF
import Verif.Props.ComplexSpec
import Verif.Props.ComplexCov
import Verif.Props.ComplexPoly
import Verif.Props.ComplexDiv
import Verif.Model.EigenView
import Verif.Props.EigenView
import Verif.Model.PolyObj
import Verif.Spec.PolyObj
import Verif.Props.PolyObj
import Verif.Props.FftRound
import Verif.Model.Roots
import Verif.Spec.Roots
import Verif.Proofs.Roots
import Verif.Props.Roots
import Verif.Props.Laws
import Verif.Props.SpecLaws
import Verif.Props.Calculus
import Verif.Props.Delay
import Verif.Props.HistLaws
import Verif.Props.LerpArr
import Verif.Props.InterpLin
import Verif.Props.PolyfitLaws
import Verif.Props.RootLaws
import Verif.Props.DftLaws
import Verif.Props.SelectLaws
