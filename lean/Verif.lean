import Verif.Props.Sync
import Verif.Props.Correlate
import Verif.Props.Prbs
import Verif.Props.Constellation
import Verif.Props.Quality
import Verif.Props.Pilots
import Verif.Props.Segment
import Verif.Props.Equaliser
import Verif.Props.Training
import Verif.Props.Descent
import Verif.Props.Phase
import Verif.Props.Carrier
import Verif.Props.Partition
import Verif.Props.Filters2
import Verif.Props.Waveform2
import Verif.Props.Receiver
import Verif.Props.Modes
import Verif.Props.Signal
import Verif.Props.Resample
import Verif.Props.Transmission
import Verif.Props.PulseShape
import Verif.Props.Lut
import Verif.Props.Driver
import Verif.Props.Theory
import Verif.Props.Theory2
import Verif.Props.Theory3
import Verif.Props.Info
import Verif.Props.Stats
import Verif.Props.PulseTime
import Verif.Props.ResampleTime
import Verif.Props.Foe
import Verif.Props.CpeOld
import Verif.Props.Metrics
import Verif.Props.PilotMetrics
import Verif.Props.Frontend
import Verif.Props.Hybrid
import Verif.Props.Bert
import Verif.Props.TxChain
import Verif.Props.Normalise
import Verif.Props.PilotTrain
import Verif.Props.SymbolOnly
import Verif.Props.PilotObject
import Verif.Props.FrameSync
import Verif.Props.Evm
import Verif.Props.Matlab
import Verif.Props.FreqGrid
import Verif.Props.GrayRate
import Verif.Props.TheoryShape
import Verif.Props.TrainPhase
import Verif.Props.TrainDecide
import Verif.Props.Converge
import Verif.Props.SearchAccuracy
import Verif.Props.CycleSlips
import Verif.Props.TwoStage
import Verif.Props.ViterbiTrack
import Verif.Props.FreqNoise
import Verif.Props.CarrierChain
import Verif.Props.Pmd
import Verif.Props.Dealer
import Verif.Props.ConvergeNoise
import Verif.Props.CalMi
import Verif.Props.DacComp
import Verif.Props.SyncGain
import Verif.Props.Omp
import Verif.Props.OmpMap
import Verif.Props.Gain
import Verif.Props.GainMcma
import Verif.Props.FrameCover
import Verif.Props.DacResp
import Verif.Props.Rounded
import Verif.Props.RoundedEq
import Verif.Props.RoundedInt
import Verif.Props.SimTx
import Verif.Props.MidPoint
import Verif.Props.Decisions
import Verif.Props.PilotRx
import Verif.Props.BpsAf
import Verif.Props.GainRde
import Verif.Props.SearchQam
import Verif.Props.BlindChain
import Verif.Props.RoundedTrain
import Verif.Props.ObjCarrier
import Verif.Props.Shaped
import Verif.Props.Names
import Verif.Props.GmiRx
import Verif.Props.PartitionPhase
import Verif.Props.PilotSnr
import Verif.Props.RoundedBps
import Verif.Props.ResampleObj
import Verif.Props.PilotCpeFrames
import Verif.Props.PilotMask
import Verif.Props.PilotCpeNoise
import Verif.Props.TrainAlt
import Verif.Props.RoundedCarrier
import Verif.Props.SpecialFcts
import Verif.Props.IqStream
import Verif.Props.Locked
import Verif.Props.DecideMethod
import Verif.Props.Sampling
import Verif.Props.LinkNoise
import Verif.Props.PilotLink
import Verif.Props.CarrierLink
import Verif.Props.TrainLink
import Verif.Props.SyncLink
import Verif.Props.PilotApply
import Verif.Props.MeasuredLink
import Verif.Props.MeasuredSnr
import Verif.Props.MeasuredMi
import Verif.Props.Decided
import Verif.Props.Gradient
import Verif.Props.SquareContour
import Verif.Props.MethodKinds
import Verif.Props.HybridSplit
import Verif.Props.FrameFit
import Verif.Props.CoreTransmission
import Verif.Props.RandomSignal
import Verif.Props.ExpFilter
import Verif.Props.PrbsGalois
import Verif.Props.UnwrapDiscont
import Verif.Props.DspCython
import Verif.Props.OversampledSnr
import Verif.Props.ResampledQam
import Verif.Props.NoiseInvariance
import Verif.Props.UnitOfTime
import Verif.Props.RandomData
import Verif.Props.FrontEndRecovery
import Verif.Props.RandomBits
import Verif.Props.PilotDelegate
import Verif.Props.ObjPhase
import Verif.Props.Double
import Verif.Props.IQModulator
import Verif.Props.Capacity
import Verif.Props.MoreNoise
import Verif.Props.InPlace
import Verif.Props.StageOrder
import Verif.Props.Tracking
import Verif.Props.Quantise
import Verif.Props.Waveform
import Verif.Props.Filters
import Verif.Props.Impairments
