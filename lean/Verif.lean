import Verif.Model.Word
import Verif.Spec.Field
import Verif.Lemmas.Word
import Verif.Lemmas.WordVec
import Verif.Props.FpArith
import Verif.Model.Clmul
import Verif.Model.GfMul
import Verif.Spec.BlockField
import Verif.Lemmas.Clmul
import Verif.Lemmas.GFIrred
import Verif.Lemmas.GF128
import Verif.Lemmas.GfMul
import Verif.Props.GfMul
import Verif.Model.Chi
import Verif.Model.BoolGate
import Verif.Spec.BoolCircuit
import Verif.Model.BoolSession
import Verif.Spec.BoolCommit
import Verif.Lemmas.Chi
import Verif.Lemmas.Count
import Verif.Lemmas.BoolAlg
import Verif.Lemmas.BoolSession
import Verif.Lemmas.BoolHonest
import Verif.Lemmas.BoolProgress
import Verif.Lemmas.BoolSound
import Verif.Lemmas.BoolExtract
import Verif.Props.BoolProtocol
import Verif.Model.BlockWords
import Verif.Props.BlockWords
import Verif.Model.BoolIO
import Verif.Lemmas.BoolIO
import Verif.Props.BoolIO
import Verif.Lemmas.BoolHide
import Verif.Props.BoolHide
import Verif.Spec.BoolSim
import Verif.Lemmas.ArithAlg
import Verif.Lemmas.ArithAuth
import Verif.Lemmas.ArithBatches
import Verif.Lemmas.ArithSession
import Verif.Lemmas.ArithSound
import Verif.Lemmas.ArithWord
import Verif.Model.ArithGate
import Verif.Model.ArithSession
import Verif.Props.ArithProtocol
import Verif.Spec.ArithCircuit
import Verif.Spec.ArithCommit
import Verif.Lemmas.ArithHide
import Verif.Props.ArithHide
import Verif.Spec.ArithSim
import Verif.Lemmas.Cope
import Verif.Model.Cope
import Verif.Props.Cope
import Verif.Lemmas.Ggm
import Verif.Lemmas.Mpfss
import Verif.Lemmas.Spfss
import Verif.Model.Mpfss
import Verif.Model.PreOT
import Verif.Model.Spfss
import Verif.Props.Mpfss
import Verif.Props.PreOT
import Verif.Spec.Ggm
import Verif.Lemmas.Lpn
import Verif.Model.Lpn
import Verif.Props.Lpn
import Verif.Lemmas.VoleTriple
import Verif.Model.VoleTriple
import Verif.Props.VoleTriple
import Verif.Spec.VoleStream
import Verif.Lemmas.Extend
import Verif.Lemmas.F2kVole
import Verif.Model.ChoiceBits
import Verif.Model.F2kVole
import Verif.Props.ChoiceBits
import Verif.Props.Extend
import Verif.Props.F2kVole
import Verif.Lemmas.EdaBits
import Verif.Lemmas.EdaShift
import Verif.Model.EdaBits
import Verif.Props.EdaBits
import Verif.Lemmas.F2kChain
import Verif.Lemmas.F2kCheck
import Verif.Lemmas.F2kGate
import Verif.Model.F2kGate
import Verif.Props.F2kGate
import Verif.Props.F2kProduct
import Verif.Spec.F2kCommit
import Verif.Lemmas.ZkRam
import Verif.Lemmas.ZkRamHonest
import Verif.Model.ZkRam
import Verif.Props.ZkRam
import Verif.Spec.Memory
import Verif.Lemmas.RoRam
import Verif.Model.RoRam
import Verif.Props.RoRam
import Verif.Lemmas.Compress
import Verif.Lemmas.RamExt
import Verif.Lemmas.RamExtRun
import Verif.Model.RamExt
import Verif.Props.RamExt
import Verif.Lemmas.LowMC
import Verif.Lemmas.LowMCRun
import Verif.Model.LowMC
import Verif.Props.LowMC
import Verif.Spec.LowMC
import Verif.Lemmas.Lifetime
import Verif.Lemmas.LifetimeInv
import Verif.Model.Lifetime
import Verif.Props.Lifetime
import Verif.Spec.Lifetime
import Verif.Props.LpnWords
import Verif.Props.Challenge
import Verif.Spec.Challenge
import Verif.Lemmas.Floats
import Verif.Model.Floats
import Verif.Props.Floats
import Verif.Spec.Floats
import Verif.Lemmas.BoolNet
import Verif.Lemmas.BoolNetRun
import Verif.Lemmas.BoolNetSession
import Verif.Model.BoolNet
import Verif.Props.BoolNet
import Verif.Spec.BoolNet
import Verif.Lemmas.NetMsgs
import Verif.Lemmas.NetRecv
import Verif.Model.BoolNetAdv
import Verif.Props.NetSound
import Verif.Props.DeltaHint
import Verif.Model.ArithTriple
import Verif.Props.AnyWord
import Verif.Props.ArithTriple
import Verif.Model.Convert
import Verif.Props.Convert
import Verif.Lemmas.ArithLike
import Verif.Lemmas.ArithNet
import Verif.Lemmas.ArithWire
import Verif.Lemmas.Proc
import Verif.Lemmas.ProcSame
import Verif.Model.ArithNet
import Verif.Model.Bytes
import Verif.Model.Proc
import Verif.Props.ArithNet
import Verif.Spec.ArithWire
import Verif.Lemmas.ArithGame
import Verif.Props.ArithGame
import Verif.Spec.ArithGame
import Verif.Lemmas.ArithBatch
import Verif.Lemmas.ArithBatchNet
import Verif.Model.ArithBatch
import Verif.Props.ArithBatch
import Verif.Spec.ArithBatch
import Verif.Lemmas.ArithFamily
import Verif.Lemmas.ArithFamilyError
import Verif.Lemmas.ArithProcGame
import Verif.Lemmas.ArithProcUpto
import Verif.Lemmas.ProcLog
import Verif.Props.ArithProcGame
import Verif.Spec.ArithProcGame
import Verif.Lemmas.ExtendNet
import Verif.Lemmas.ExtendNetRun
import Verif.Lemmas.Par
import Verif.Lemmas.SetupNet
import Verif.Model.ExtendNet
import Verif.Model.Par
import Verif.Model.SetupNet
import Verif.Props.ExtendNet
import Verif.Lemmas.ArithFull
import Verif.Lemmas.VoleBuild
import Verif.Lemmas.VoleNet
import Verif.Model.ArithFull
import Verif.Props.ArithFull
import Verif.Lemmas.ArithView
import Verif.Lemmas.View
import Verif.Props.ArithView
import Verif.Spec.ArithView
import Verif.Lemmas.BoolSame
import Verif.Lemmas.BoolView
import Verif.Lemmas.CView
import Verif.Model.BoolProc
import Verif.Props.BoolView
import Verif.Spec.BoolView
import Verif.Lemmas.DigestBind
import Verif.Lemmas.LateInput
import Verif.Lemmas.LateNet
import Verif.Lemmas.MsgNet
import Verif.Props.LateInput
import Verif.Spec.LateInput
import Verif.Lemmas.Rom
import Verif.Lemmas.RomBind
import Verif.Lemmas.RomGame
import Verif.Props.Rom
import Verif.Spec.Rom
import Verif.Lemmas.RamChal
import Verif.Lemmas.RowNet
import Verif.Model.RamChal
import Verif.Props.RamChal
import Verif.Spec.RamChal
import Verif.Lemmas.TreeCheat
import Verif.Props.TreeCheat
import Verif.Spec.TreeCheat
import Verif.Lemmas.Calls
import Verif.Lemmas.MixBool
import Verif.Lemmas.MixMem
import Verif.Lemmas.MixNet
import Verif.Model.Calls
import Verif.Model.MixNet
import Verif.Props.MixNet
import Verif.Spec.MixNet
import Verif.Lemmas.EmpLib
import Verif.Lemmas.RamCheckNet
import Verif.Lemmas.RamNet
import Verif.Model.RamNet
import Verif.Props.RamNet
import Verif.Spec.RamNet
import Verif.Lemmas.ConvArith
import Verif.Lemmas.ConvEda
import Verif.Lemmas.ConvGen
import Verif.Lemmas.ConvNet
import Verif.Lemmas.ConvProg
import Verif.Lemmas.IntCircuit
import Verif.Model.ConvNet
import Verif.Model.IntCircuit
import Verif.Props.ConvNet
import Verif.Spec.ConvNet
import Verif.Lemmas.RoNet
import Verif.Lemmas.RoProg
import Verif.Model.RoNet
import Verif.Props.RoNet
import Verif.Spec.RoNet
import Verif.Lemmas.ExtCheckNet
import Verif.Lemmas.ExtNet
import Verif.Lemmas.RamExtCheck
import Verif.Model.ExtNet
import Verif.Props.ExtNet
import Verif.Spec.ExtNet
import Verif.Lemmas.ExtendNetF
import Verif.Model.ExtendNetF
import Verif.Props.ExtendNetF
import Verif.Lemmas.Branch
import Verif.Model.Branch
import Verif.Props.Branch
import Verif.Spec.Branch
import Verif.Lemmas.Follow
import Verif.Lemmas.MixAll
import Verif.Lemmas.MixFollow
import Verif.Lemmas.MixSize
import Verif.Props.MixSound
import Verif.Spec.MixCommit
import Verif.Lemmas.RamSound
import Verif.Lemmas.RamTrace
import Verif.Lemmas.RamTraceCheck
import Verif.Lemmas.SameVerifier
import Verif.Props.RamSound
import Verif.Spec.RamTrace
import Verif.Lemmas.BranchPublic
import Verif.Lemmas.BranchRam
import Verif.Lemmas.BranchSound
import Verif.Props.BranchSound
import Verif.Spec.BranchCommit
import Verif.Props.LowMCNet
import Verif.Lemmas.RoTrace
import Verif.Lemmas.RoTraceBack
import Verif.Lemmas.RoTraceFwd
import Verif.Lemmas.RoTraceRun
import Verif.Lemmas.RoTraceSim
import Verif.Props.RoSound
import Verif.Spec.RoTrace
import Verif.Lemmas.ExtSound
import Verif.Lemmas.ExtTrace
import Verif.Lemmas.ExtTraceCheck
import Verif.Props.ExtSound
import Verif.Spec.ExtTrace
import Verif.Lemmas.ConvAll
import Verif.Lemmas.ConvCheat
import Verif.Lemmas.ConvFollow
import Verif.Props.ConvSound
import Verif.Spec.ConvCheat
import Verif.Spec.ConvCommit
import Verif.Lemmas.MixTraffic
import Verif.Lemmas.RamTraffic
import Verif.Lemmas.Traffic
import Verif.Props.Traffic
import Verif.Spec.MixTraffic
import Verif.Spec.Traffic
import Verif.Lemmas.ConvTraffic
import Verif.Spec.ConvTraffic
import Verif.Lemmas.ConvSilent
import Verif.Lemmas.VerSilent
import Verif.Props.VerSilent
import Verif.Spec.VerSilent
import Verif.Lemmas.BranchTraffic
import Verif.Props.BranchTraffic
import Verif.Spec.BranchTraffic
import Verif.Lemmas.BranchRamTraffic
import Verif.Lemmas.Robust
import Verif.Props.Robust
import Verif.Lemmas.RobustBranch
import Verif.Spec.Route
import Verif.Lemmas.Opened
import Verif.Props.RobustMem
import Verif.Lemmas.Sched
import Verif.Props.Sched
import Verif.Spec.Sched
import Verif.Lemmas.Stream
import Verif.Props.Stream
import Verif.Spec.Stream
import Verif.Model.BoolProg
import Verif.Props.RobustBool
