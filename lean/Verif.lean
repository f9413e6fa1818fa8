import Verif.Model.Coord
import Verif.Lemmas.Coord
import Verif.Props.Coord
import Verif.Model.Layout
import Verif.Lemmas.MixedRadix
import Verif.Lemmas.Layout
import Verif.Props.Layout
import Verif.Model.Gather
import Verif.Lemmas.GatherPass
import Verif.Lemmas.Gather
import Verif.Lemmas.GatherLink
import Verif.Props.Gather
import Verif.Model.HaloState
import Verif.Lemmas.HaloState
import Verif.Props.HaloState
import Verif.Model.Shift
import Verif.Lemmas.Shift
import Verif.Lemmas.ShiftBuf
import Verif.Props.Shift
import Verif.Model.Elements
import Verif.Lemmas.Elements
import Verif.Lemmas.FieldIO
import Verif.Props.Elements
import Verif.Model.Config
import Verif.Props.FieldIO
import Verif.Model.Reduction
import Verif.Lemmas.Reduction
import Verif.Props.Reduction
import Verif.Props.MinMax
import Verif.Model.SiteSelect
import Verif.Lemmas.SiteSelect
import Verif.Props.SiteSelect
import Verif.Model.MemPool
import Verif.Lemmas.MemPool
import Verif.Props.MemPool
import Verif.Model.Clusters
import Verif.Lemmas.Clusters
import Verif.Lemmas.Classify
import Verif.Props.Clusters
import Verif.Model.FFT
import Verif.Lemmas.Pencil
import Verif.Lemmas.FFT
import Verif.Props.FFT
import Verif.Model.FFTReal
import Verif.Props.FFTReal
import Verif.Model.CmdLine
import Verif.Lemmas.CmdLine
import Verif.Props.CmdLine
import Verif.Model.Input
import Verif.Lemmas.Input
import Verif.Props.Input
import Verif.Props.Shuffle
import Verif.Props.Seed
import Verif.Props.Checkpoint
import Verif.Props.Muca
import Verif.Props.HMC
import Verif.Props.CG
import Verif.Props.MRE
import Verif.Props.SU2
import Verif.Props.LinkUpdate
import Verif.Props.Blocking
import Verif.Props.LayoutSearch
import Verif.Props.Remap
import Verif.Props.Gauge
import Verif.Model.KBinning
import Verif.Props.KBinning
import Verif.Model.Extended
import Verif.Lemmas.Float
import Verif.Props.Extended
import Verif.Model.SUN
import Verif.Lemmas.SUN
import Verif.Props.SUN
import Verif.Model.LinAlg
import Verif.Lemmas.LinAlg
import Verif.Props.LinAlg
import Verif.Model.Jacobi
import Verif.Lemmas.Jacobi
import Verif.Props.Jacobi
import Verif.Model.Reunit
import Verif.Props.Reunit
import Verif.Model.Force
import Verif.Lemmas.Force
import Verif.Props.Force
import Verif.Model.Clover
import Verif.Props.Clover
import Verif.Model.Degauss
import Verif.Lemmas.Degauss
import Verif.Props.Degauss
import Verif.Model.GradFlow
import Verif.Lemmas.GradFlow
import Verif.Props.GradFlow
import Verif.Lemmas.GradFlowInt
import Verif.Props.GradFlowInt
import Verif.Model.ChExp
import Verif.Lemmas.NewtonTrace
import Verif.Lemmas.ChExp
import Verif.Lemmas.ChExpErr
import Verif.Lemmas.ChExpD
import Verif.Lemmas.ChExpUse
import Verif.Lemmas.ChExpRes
import Verif.Props.ChExp
import Verif.Model.Stout
import Verif.Lemmas.Stout
import Verif.Lemmas.StoutExp
import Verif.Lemmas.StoutPull
import Verif.Lemmas.StoutList
import Verif.Props.Stout
import Verif.Model.BulkPrev
import Verif.Lemmas.BulkPrev
import Verif.Props.BulkPrev
import Verif.Model.LogSU
import Verif.Props.LogSU
import Verif.Model.LogAct
import Verif.Lemmas.LogDeriv
import Verif.Props.LogAct
import Verif.Props.LogActNeg
import Verif.Model.Stagg
import Verif.Model.Fermion
import Verif.Lemmas.Stagg
import Verif.Props.Stagg
import Verif.Lemmas.Fermion
import Verif.Props.Fermion
import Verif.Model.Antiper
import Verif.Lemmas.Antiper
import Verif.Props.Antiper
import Verif.Model.VecLayout
import Verif.Lemmas.VecIndex
import Verif.Lemmas.VecStep
import Verif.Lemmas.VecHalo
import Verif.Lemmas.VecFace
import Verif.Lemmas.VecGather
import Verif.Props.VecLayout
import Verif.Model.SrcBuf
import Verif.Model.SourceDoc
import Verif.Model.SourceTokens
import Verif.Lemmas.SrcBuf
import Verif.Lemmas.SrcBufEdit
import Verif.Lemmas.SrcBufTools
import Verif.Lemmas.SrcTokens
import Verif.Lemmas.SrcReplace
import Verif.Props.SrcBuf
import Verif.Props.SrcTokens
import Verif.Model.StringOps
import Verif.Model.StringSpec
import Verif.Lemmas.StrOps
import Verif.Lemmas.StrType
import Verif.Props.StrOps
import Verif.Model.GpuReduce
import Verif.Model.GpuSpec
import Verif.Lemmas.GpuRace
import Verif.Lemmas.GpuReduce
import Verif.Lemmas.GpuAtomic
import Verif.Props.GpuReduce
import Verif.Model.OverlapLayout
import Verif.Lemmas.OverlapLayout
import Verif.Props.OverlapLayout
import Verif.Model.GpuSelect
import Verif.Lemmas.GpuSelect
import Verif.Props.GpuSelect
import Verif.Model.LoopBody
import Verif.Model.LoopBodySpec
import Verif.Lemmas.LoopBody
import Verif.Lemmas.LoopBodyRun
import Verif.Props.LoopBody
import Verif.Model.CpuLoop
import Verif.Model.CpuLoopSpec
import Verif.Lemmas.CpuLoop
import Verif.Props.CpuLoop
import Verif.Model.OmpReduce
import Verif.Props.OmpReduce
import Verif.Model.SiteDep
import Verif.Lemmas.SiteDep
import Verif.Props.SiteDep
import Verif.Model.RealTime
import Verif.Lemmas.RealTime
import Verif.Lemmas.RealTimeEnergy
import Verif.Props.RealTime
import Verif.Model.Cmplx
import Verif.Model.MatClass
import Verif.Model.MatSpec
import Verif.Lemmas.Cmplx
import Verif.Lemmas.MatClass
import Verif.Props.Cmplx
import Verif.Props.MatClass
import Verif.Model.DiagMat
import Verif.Model.DiagSpec
import Verif.Lemmas.DiagMat
import Verif.Props.DiagMat
import Verif.Lemmas.Metropolis
import Verif.Lemmas.HmcSample
import Verif.Lemmas.PiDensity
import Verif.Lemmas.SUMeasure
import Verif.Model.HmcSample
import Verif.Model.SampleSpec
import Verif.Lemmas.HmcChain
import Verif.Props.HmcSample
import Verif.Props.HmcWidth
import Verif.Lemmas.BoxMuller
import Verif.Lemmas.NormalSeq
import Verif.Model.GaussRand
import Verif.Model.GaussSpec
import Verif.Lemmas.GaussRand
import Verif.Lemmas.GaussFill
import Verif.Props.GaussRand
import Verif.Props.GaussHaar
import Verif.Model.HeatSpec
import Verif.Lemmas.HaarCoords
import Verif.Lemmas.StreamLaw
import Verif.Lemmas.HeatTrial
import Verif.Lemmas.HeatLoop
import Verif.Lemmas.HeatPoint
import Verif.Lemmas.HeatHit
import Verif.Lemmas.HeatFail
import Verif.Props.HeatBath
import Verif.Props.Kennedy
import Verif.Props.HeatFail
import Verif.Lemmas.SiteChain
import Verif.Lemmas.SpinSim
import Verif.Model.SpinSim
import Verif.Model.SpinSpec
import Verif.Props.SpinSim
import Verif.Lemmas.DomStep
import Verif.Lemmas.OverHit
import Verif.Lemmas.HeatParam
import Verif.Lemmas.PlaqSplit
import Verif.Model.GaugeUpdate
import Verif.Model.GaugeUpdSpec
import Verif.Lemmas.GaugeChain
import Verif.Props.GaugeUpdate
import Verif.Model.Wilson
import Verif.Lemmas.Wilson
import Verif.Props.Wilson
import Verif.Model.Reps
import Verif.Model.RepsSpec
import Verif.Lemmas.Reps
import Verif.Props.Reps
import Verif.Model.Surface
import Verif.Model.SurfaceSpec
import Verif.Lemmas.SurfPlaq
import Verif.Lemmas.SurfChain
import Verif.Props.Surface
import Verif.Props.SurfaceFind
import Verif.Model.GpuPool
import Verif.Model.GpuPoolSpec
import Verif.Lemmas.GpuList
import Verif.Lemmas.GpuRep
import Verif.Lemmas.GpuInv
import Verif.Lemmas.GpuFree
import Verif.Lemmas.GpuHist
import Verif.Lemmas.GpuCalls
import Verif.Lemmas.GpuMax
import Verif.Props.GpuPool
import Verif.Props.GpuPoolFind
import Verif.Model.ZLink
import Verif.Model.ZLinkSpec
import Verif.Lemmas.ZLink
import Verif.Lemmas.ZLinkStep
import Verif.Lemmas.ZLinkChain
import Verif.Lemmas.ZLinkMove
import Verif.Lemmas.ZLinkTurn
import Verif.Props.ZLink
import Verif.Model.MucaExample
import Verif.Model.MucaExSpec
import Verif.Lemmas.MucaEx
import Verif.Lemmas.MucaExStep
import Verif.Props.MucaEx
import Verif.Model.Timing
import Verif.Model.TimingSpec
import Verif.Props.Timing
import Verif.Model.FFTGpu
import Verif.Lemmas.FFTGpu
import Verif.Lemmas.FFTGpuFail
import Verif.Props.FFTGpu
import Verif.Model.MaxStaple
import Verif.Lemmas.MaxStaple
import Verif.Lemmas.MaxKeeps
import Verif.Props.MaxStaple
import Verif.Model.GatherTest
import Verif.Lemmas.GatherTest
import Verif.Lemmas.GatherWrap
import Verif.Props.GatherTest
import Verif.Model.Partitions
import Verif.Props.Partitions
import Verif.Model.GpuStore
import Verif.Lemmas.GpuStore
import Verif.Props.GpuStore
import Verif.Model.CsFlow
import Verif.Lemmas.CsFlow
import Verif.Props.CsFlow
import Verif.Model.GpuMinmax
import Verif.Props.GpuMinmax
import Verif.Model.SrcScan
import Verif.Props.SrcScan
import Verif.Model.RngSearch
import Verif.Props.RngSearch
import Verif.Model.TaylorExp
import Verif.Model.HmcDriver
import Verif.Props.TaylorExp
import Verif.Props.HmcDriver
import Verif.Model.HmcSmear
import Verif.Lemmas.HmcSmear
import Verif.Props.HmcSmear
import Verif.Model.GpuRng
import Verif.Props.GpuRng
import Verif.Model.GlobalVar
import Verif.Props.GlobalVar
import Verif.Model.U1
import Verif.Props.U1
import Verif.Model.Broadcast
import Verif.Props.Broadcast
import Verif.Model.ArrayCls
import Verif.Props.ArrayCls
import Verif.Model.VecDecide
import Verif.Props.VecDecide
import Verif.Model.AddrRef
import Verif.Props.AddrRef
import Verif.Model.BracketRef
import Verif.Props.BracketRef
import Verif.Model.VarRule
import Verif.Props.VarRule
