import Verif.Lib.Apx
import Verif.Lib.BitRev
import Verif.Lib.IApx
import Verif.Lib.IeeeFlt
import Verif.Lib.L2
import Verif.Lib.Lawful
import Verif.Lib.Loop
import Verif.Lib.Loop2
import Verif.Lib.OPost
import Verif.Lib.ORel
import Verif.Lib.Pow2
import Verif.Lib.RndFlt
import Verif.Lib.Root
import Verif.Lib.TrigSum
import Verif.Model.AllocCount
import Verif.Model.Api
import Verif.Model.Base
import Verif.Model.BenchFile
import Verif.Model.Borrow
import Verif.Model.Crash
import Verif.Model.Examples
import Verif.Model.Exclusive
import Verif.Model.Fft
import Verif.Model.Kernels
import Verif.Model.Machine
import Verif.Model.NdFft
import Verif.Model.Num
import Verif.Model.ParWord
import Verif.Model.Parallel
import Verif.Model.Plan
import Verif.Model.Readme
import Verif.Model.Rfft
import Verif.Model.Sanity
import Verif.Model.SanityIo
import Verif.Model.Settings
import Verif.Model.SongIndex
import Verif.Model.SpecExample
import Verif.Model.Spectral
import Verif.Model.Stack
import Verif.Model.Stft
import Verif.Model.Trig
import Verif.Model.Visual
import Verif.Model.Wavelet
import Verif.Model.Web
import Verif.Model.WebApp
import Verif.Model.Window
import Verif.Model.Xtask
import Verif.Proof.Api
import Verif.Proof.Borrow
import Verif.Proof.BorrowBad
import Verif.Proof.BorrowProg
import Verif.Proof.BorrowRun
import Verif.Proof.ChirpSum
import Verif.Proof.Conv24
import Verif.Proof.Cost
import Verif.Proof.CostFft
import Verif.Proof.CostKernels
import Verif.Proof.CostLower
import Verif.Proof.Crash
import Verif.Proof.DctPlan
import Verif.Proof.Dft
import Verif.Proof.Exact
import Verif.Proof.Exclusive
import Verif.Proof.ExclusiveFree
import Verif.Proof.F64Ker
import Verif.Proof.Factor
import Verif.Proof.HistBlu
import Verif.Proof.IeeeBlu
import Verif.Proof.IeeeFft
import Verif.Proof.IeeeKer
import Verif.Proof.IeeePow
import Verif.Proof.IeeeRfft
import Verif.Proof.IeeeTab
import Verif.Proof.IstftStream
import Verif.Proof.Later
import Verif.Proof.LinRel
import Verif.Proof.LinRelApi
import Verif.Proof.LinRelReal
import Verif.Proof.LinRelStft
import Verif.Proof.LinRelTrig
import Verif.Proof.Machine
import Verif.Proof.NdFft
import Verif.Proof.NdLeft
import Verif.Proof.Overflow
import Verif.Proof.PlanReach
import Verif.Proof.Radix4
import Verif.Proof.Radix4Exact
import Verif.Proof.Radix4Run
import Verif.Proof.Radix4Wrong
import Verif.Proof.RangeTrig
import Verif.Proof.Reach
import Verif.Proof.Retain
import Verif.Proof.RetainR
import Verif.Proof.Rfft
import Verif.Proof.RfftExact
import Verif.Proof.RfftStack
import Verif.Proof.RoundBlu
import Verif.Proof.RoundCzt
import Verif.Proof.RoundFft
import Verif.Proof.RoundKer
import Verif.Proof.RoundL2
import Verif.Proof.RoundPow
import Verif.Proof.RoundRfft
import Verif.Proof.RoundStack
import Verif.Proof.RoundStft
import Verif.Proof.RoundTab
import Verif.Proof.RoundTrig
import Verif.Proof.Run
import Verif.Proof.RunFft
import Verif.Proof.Split
import Verif.Proof.Stack
import Verif.Proof.Stage
import Verif.Proof.Stft
import Verif.Proof.Sticky
import Verif.Proof.Strategy
import Verif.Proof.Strided
import Verif.Proof.Trig
import Verif.Proof.Wavelet
import Verif.Proof.Word
import Verif.Props.AllocCount
import Verif.Props.Api
import Verif.Props.Backend
import Verif.Props.BenchFile
import Verif.Props.Borrow
import Verif.Props.BorrowBounds
import Verif.Props.ColorErr
import Verif.Props.Core
import Verif.Props.Cost
import Verif.Props.CostBank
import Verif.Props.CostIstft
import Verif.Props.CostMore
import Verif.Props.CostNd
import Verif.Props.CostReal
import Verif.Props.Crash
import Verif.Props.Cycles
import Verif.Props.Czt
import Verif.Props.CztRange
import Verif.Props.Db2Edge
import Verif.Props.Db2Flt
import Verif.Props.DbErr
import Verif.Props.DctPlan
import Verif.Props.ExactBins
import Verif.Props.ExactNd
import Verif.Props.ExactSpectra
import Verif.Props.Examples
import Verif.Props.Exclusive
import Verif.Props.Flatten
import Verif.Props.GoertzelFlt
import Verif.Props.HaarFlt
import Verif.Props.Hilbert
import Verif.Props.History
import Verif.Props.History2d
import Verif.Props.History3d
import Verif.Props.HistoryBatch
import Verif.Props.HistoryBlu
import Verif.Props.Ieee
import Verif.Props.IeeeNd
import Verif.Props.IeeeRfft
import Verif.Props.ImageErr
import Verif.Props.IntegerAudio
import Verif.Props.IntegerTrip
import Verif.Props.Istft
import Verif.Props.IstftSched
import Verif.Props.IstftStream
import Verif.Props.Kaiser
import Verif.Props.Laws
import Verif.Props.Linear
import Verif.Props.Local
import Verif.Props.Machine
import Verif.Props.Mel
import Verif.Props.MelEdge
import Verif.Props.MelErr
import Verif.Props.NdFft
import Verif.Props.Num
import Verif.Props.Overflow
import Verif.Props.ParWord
import Verif.Props.PixelFlt
import Verif.Props.Plan
import Verif.Props.Radix4
import Verif.Props.RangeCepstrum
import Verif.Props.RangeTrig
import Verif.Props.Readme
import Verif.Props.ReadmeExample
import Verif.Props.Retain
import Verif.Props.Rfft
import Verif.Props.Rounding
import Verif.Props.RoundingF64
import Verif.Props.RoundingF64b
import Verif.Props.RoundingF64c
import Verif.Props.RoundingL2
import Verif.Props.RoundingLaws
import Verif.Props.RoundingNd
import Verif.Props.RoundingRfft
import Verif.Props.RoundingSpectral
import Verif.Props.RoundingStack
import Verif.Props.RoundingStft
import Verif.Props.RoundingTrig
import Verif.Props.Routes
import Verif.Props.Sanity
import Verif.Props.SanityIo
import Verif.Props.Settings
import Verif.Props.SongIndex
import Verif.Props.SpecExample
import Verif.Props.Stack
import Verif.Props.Stft
import Verif.Props.StftFrame
import Verif.Props.StftMag
import Verif.Props.StftMagErr
import Verif.Props.Sticky
import Verif.Props.StickyNd
import Verif.Props.Strategy
import Verif.Props.Trig
import Verif.Props.TrigStack
import Verif.Props.TrigTrip
import Verif.Props.Uninit
import Verif.Props.Visual
import Verif.Props.Wavelet
import Verif.Props.WaveletRange
import Verif.Props.Web
import Verif.Props.WebApp
import Verif.Props.Window
import Verif.Props.WindowErr
import Verif.Props.WindowFlt
import Verif.Props.Word
import Verif.Props.Xtask
import Verif.Props.XtaskRun
import Verif.Spec.AllocCount
import Verif.Spec.Borrow
import Verif.Spec.Cost
import Verif.Spec.Crash
import Verif.Spec.DctReach
import Verif.Spec.Dft
import Verif.Spec.Display
import Verif.Spec.ExactSpectra
import Verif.Spec.Example
import Verif.Spec.Exclusive
import Verif.Spec.GoertzelErr
import Verif.Spec.History
import Verif.Spec.Ieee
import Verif.Spec.IeeeReal
import Verif.Spec.Image
import Verif.Spec.Kaiser
import Verif.Spec.Later
import Verif.Spec.Linear
import Verif.Spec.Mel
import Verif.Spec.MelErr
import Verif.Spec.Nd
import Verif.Spec.Nearest
import Verif.Spec.Norm
import Verif.Spec.Overflow
import Verif.Spec.Pcm
import Verif.Spec.PixelLog
import Verif.Spec.Plan
import Verif.Spec.Range
import Verif.Spec.Reach
import Verif.Spec.Real
import Verif.Spec.Retain
import Verif.Spec.Rfft
import Verif.Spec.Rounding
import Verif.Spec.Session
import Verif.Spec.Signal
import Verif.Spec.SongIndex
import Verif.Spec.Stft
import Verif.Spec.StftMagErr
import Verif.Spec.Sticky
import Verif.Spec.Svg
import Verif.Spec.Trig
import Verif.Spec.Wavelet
import Verif.Spec.Web
import Verif.Spec.WindowErr
