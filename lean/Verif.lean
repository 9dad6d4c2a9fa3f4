import Verif.Lemmas.Buffer
import Verif.Lemmas.Configs
import Verif.Lemmas.Covariance
import Verif.Lemmas.Cwt
import Verif.Lemmas.Dft
import Verif.Lemmas.Gmw
import Verif.Lemmas.GmwOrtho
import Verif.Lemmas.Grid
import Verif.Lemmas.Hump
import Verif.Lemmas.HumpTrap
import Verif.Lemmas.Icwt
import Verif.Lemmas.Integrate
import Verif.Lemmas.L2
import Verif.Lemmas.Near
import Verif.Lemmas.P2up
import Verif.Lemmas.Padding
import Verif.Lemmas.PyM
import Verif.Lemmas.Ridge
import Verif.Lemmas.RidgeTrack
import Verif.Lemmas.Round
import Verif.Lemmas.ScaleBounds
import Verif.Lemmas.Scales
import Verif.Lemmas.Share
import Verif.Lemmas.Slice
import Verif.Lemmas.Squeeze
import Verif.Lemmas.Stft
import Verif.Lemmas.StftTone
import Verif.Lemmas.Superpose
import Verif.Lemmas.Units
import Verif.Lemmas.WindowRes
import Verif.Lemmas.Xifn
import Verif.Model.Anim
import Verif.Model.Batch
import Verif.Model.Cache
import Verif.Model.Chirps
import Verif.Model.Common
import Verif.Model.ComplexSignal
import Verif.Model.Components
import Verif.Model.Configs
import Verif.Model.Cwt
import Verif.Model.CwtLoop
import Verif.Model.CwtThreads
import Verif.Model.Desc
import Verif.Model.Dft
import Verif.Model.Downsampling
import Verif.Model.Dtype
import Verif.Model.Experimental
import Verif.Model.FftShape
import Verif.Model.FftState
import Verif.Model.FindClosest
import Verif.Model.Gmw
import Verif.Model.Gpu
import Verif.Model.GpuSwitch
import Verif.Model.Harea
import Verif.Model.HigherOrder
import Verif.Model.Hist
import Verif.Model.Icwt2
import Verif.Model.Integrate
import Verif.Model.MakeSignals
import Verif.Model.Parallel
import Verif.Model.PatThreads
import Verif.Model.PhaseNum
import Verif.Model.PhaseSsq
import Verif.Model.Plots
import Verif.Model.Psifn
import Verif.Model.Py
import Verif.Model.Replace
import Verif.Model.Resolution
import Verif.Model.Ridge
import Verif.Model.RidgeFloat
import Verif.Model.Rounding
import Verif.Model.RoundingL2
import Verif.Model.RoundingStft
import Verif.Model.SavePath
import Verif.Model.ScaleBounds
import Verif.Model.ScaleBoundsArgs
import Verif.Model.Scales
import Verif.Model.Search
import Verif.Model.Share
import Verif.Model.Shift
import Verif.Model.Signals2
import Verif.Model.Squeeze
import Verif.Model.SsqCwt
import Verif.Model.SsqCwtFull
import Verif.Model.SsqStft
import Verif.Model.Ssqueezing
import Verif.Model.Stft
import Verif.Model.Sweep
import Verif.Model.TimeRes
import Verif.Model.Title
import Verif.Model.Toolkit
import Verif.Model.Trigdiff
import Verif.Model.TsAssemble
import Verif.Model.TsCompare
import Verif.Model.TsDefaults
import Verif.Model.TsGenerate
import Verif.Model.Viz
import Verif.Model.WaveletArg
import Verif.Model.WaveletInit
import Verif.Model.WaveletXi
import Verif.Model.Wavelets
import Verif.Model.WindowRes
import Verif.Model.Wisdom
import Verif.Model.Xifn
import Verif.Props.AmFm
import Verif.Props.AmFmLog
import Verif.Props.Analytic
import Verif.Props.Anim
import Verif.Props.BandRes
import Verif.Props.Batch
import Verif.Props.Buffer
import Verif.Props.Cache
import Verif.Props.Chirps
import Verif.Props.ComplexSignal
import Verif.Props.Components
import Verif.Props.Configs
import Verif.Props.Contract
import Verif.Props.Conv
import Verif.Props.Covariance
import Verif.Props.Cumulants
import Verif.Props.Cwt
import Verif.Props.CwtBatch
import Verif.Props.CwtLoop
import Verif.Props.CwtRounding
import Verif.Props.CwtRoundingL2
import Verif.Props.CwtState
import Verif.Props.CwtThreads
import Verif.Props.CwtTone
import Verif.Props.Defaults
import Verif.Props.Desc
import Verif.Props.Downsampling
import Verif.Props.Dtype
import Verif.Props.Edges
import Verif.Props.Energy
import Verif.Props.Experimental
import Verif.Props.FeedBack
import Verif.Props.FftCache
import Verif.Props.FftShape
import Verif.Props.Filter
import Verif.Props.FindClosest
import Verif.Props.FreqAxes
import Verif.Props.FreqCount
import Verif.Props.FreqGrid
import Verif.Props.Gamma
import Verif.Props.Gmw
import Verif.Props.GmwArgs
import Verif.Props.GmwMoments
import Verif.Props.Gpu
import Verif.Props.GpuSwitch
import Verif.Props.Harea
import Verif.Props.HigherOrder
import Verif.Props.Hist
import Verif.Props.Hop
import Verif.Props.Icwt
import Verif.Props.Icwt2
import Verif.Props.IcwtAny
import Verif.Props.IcwtName
import Verif.Props.InferScaletype
import Verif.Props.Injective
import Verif.Props.IntegHump
import Verif.Props.Integrate
import Verif.Props.InvErr
import Verif.Props.InvErr2
import Verif.Props.IssqCwt
import Verif.Props.Istft
import Verif.Props.Jumps
import Verif.Props.LeastSq
import Verif.Props.LinInv
import Verif.Props.LinInv2
import Verif.Props.LocalStft
import Verif.Props.LocalTone
import Verif.Props.MakeScales
import Verif.Props.MakeSignals
import Verif.Props.MaxScale
import Verif.Props.MaxScaleAlt
import Verif.Props.MaximalBounds
import Verif.Props.MaximalBounds2
import Verif.Props.MaximalCover
import Verif.Props.Mean
import Verif.Props.MoreExamples
import Verif.Props.Nonalias
import Verif.Props.OrderKeep
import Verif.Props.Padding
import Verif.Props.ParChirps
import Verif.Props.Parallel
import Verif.Props.Passed
import Verif.Props.PatThreads
import Verif.Props.PeakBins
import Verif.Props.PeakFreq
import Verif.Props.Peaks
import Verif.Props.PeaksGmw
import Verif.Props.Penalty
import Verif.Props.Phase
import Verif.Props.PhaseNum
import Verif.Props.PhaseSsq
import Verif.Props.PhaseUnwrap
import Verif.Props.Plots
import Verif.Props.PolySignals
import Verif.Props.Psifn
import Verif.Props.Rate
import Verif.Props.Refine
import Verif.Props.Refuse
import Verif.Props.RefuseStft
import Verif.Props.Replace
import Verif.Props.Resolution
import Verif.Props.Ridge
import Verif.Props.RidgeFloat
import Verif.Props.RidgeFollow
import Verif.Props.RidgeIf
import Verif.Props.RidgePrefix
import Verif.Props.RidgeStft
import Verif.Props.RidgeSym
import Verif.Props.RidgeTones
import Verif.Props.Rounding
import Verif.Props.Rows
import Verif.Props.SavePath
import Verif.Props.ScaleBounds
import Verif.Props.ScaleBoundsArgs
import Verif.Props.ScaleOrder
import Verif.Props.Scales
import Verif.Props.ScalesArg
import Verif.Props.Search
import Verif.Props.Share
import Verif.Props.Squeeze
import Verif.Props.SqueezeEx
import Verif.Props.SqueezeGrid
import Verif.Props.SsqAlign
import Verif.Props.SsqCwt
import Verif.Props.SsqCwtEx
import Verif.Props.SsqCwtFull
import Verif.Props.SsqCwtSame
import Verif.Props.SsqFreqs
import Verif.Props.SsqFreqsEx
import Verif.Props.SsqRounding
import Verif.Props.SsqStft
import Verif.Props.SsqStftRounding
import Verif.Props.Ssqueeze
import Verif.Props.Stability
import Verif.Props.Stft
import Verif.Props.StftMod
import Verif.Props.StftRev
import Verif.Props.StftRounding
import Verif.Props.StftSym
import Verif.Props.StftSymEx
import Verif.Props.StftTile
import Verif.Props.StftTone
import Verif.Props.StftUnits
import Verif.Props.Superpose
import Verif.Props.SuperposeStft
import Verif.Props.SuperposeTones
import Verif.Props.Sweep
import Verif.Props.Tile
import Verif.Props.TimeRes
import Verif.Props.TimeVec
import Verif.Props.Title
import Verif.Props.ToneAmp
import Verif.Props.Toolkit
import Verif.Props.Toolkit2
import Verif.Props.Toolkit3
import Verif.Props.TorchPad
import Verif.Props.Trigdiff
import Verif.Props.TsAssemble
import Verif.Props.TsCompare
import Verif.Props.TsDefaults
import Verif.Props.TsGenerate
import Verif.Props.Units
import Verif.Props.Viz
import Verif.Props.Voices
import Verif.Props.WavLin
import Verif.Props.WavNorm
import Verif.Props.WaveletArg
import Verif.Props.WaveletCall
import Verif.Props.WaveletDtype
import Verif.Props.WaveletEnergy
import Verif.Props.WaveletInit
import Verif.Props.WaveletXi
import Verif.Props.WinLin
import Verif.Props.Window
import Verif.Props.WindowRes
import Verif.Props.Wisdom
import Verif.Props.ZeroRow
import Verif.Spec.Cwt
import Verif.Spec.Gmw
import Verif.Spec.Padding
import Verif.Spec.Ridge
import Verif.Spec.Share
import Verif.Spec.Squeeze
import Verif.Spec.Stft
