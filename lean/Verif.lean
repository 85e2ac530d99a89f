import Verif.Float
import Verif.Binned
import Verif.Spec
import Verif.Conv
import Verif.PropsSum
import Verif.PropsTight
import Verif.PropsInf
import Verif.PropsUnroll
import Verif.PropsKernel
import Verif.PropsAmax
import Verif.PropsVec
import Verif.Round
import Verif.PropsVecInf
import Verif.PropsConv
import Verif.PropsRound
import Verif.PropsMem
import Verif.PropsMpi
import Verif.PropsScale
import Verif.PropsGemm3
import Verif.PropsZDot
import Verif.PropsZGemm2
import Verif.PropsTune
import Verif.PropsMix
import Verif.ConvErr
import Verif.Bound
import Verif.PropsBound
import Verif.PropsConvErr
import Verif.Ssq
import Verif.PropsSsq
import Verif.PropsSsqInf
import Verif.PropsMpiSq
import Verif.PropsZSsq
import Verif.PropsZInf2
import Verif.ZVecInf
import Verif.PropsZVecInf
import Verif.PropsShipped
import Verif.PropsBoundVec
import Verif.NormLemmas
import Verif.NormCore
import Verif.PropsNorm
import Verif.NormSmall
import Verif.Ftz
import Verif.FtzLemmas
import Verif.PropsFtz
import Verif.PropsAccuracy
import Verif.PropsAccuracy2
import Verif.Packed
import Verif.PropsPacked
import Verif.PropsConsist
import Verif.Complex
import Verif.ConvEq
import Verif.ConvEqS
import Verif.ConvLemmas
import Verif.Deposit
import Verif.Deposit2
import Verif.Deposit3
import Verif.FloatLemmas
import Verif.Gemm
import Verif.GemmLemmas
import Verif.Gen
import Verif.GenAmax
import Verif.GenAmaxBody
import Verif.GenAmaxPre
import Verif.GenBody
import Verif.GenCons
import Verif.GenConsol
import Verif.GenGroup
import Verif.GenLemmas
import Verif.GenLoad
import Verif.GenPre
import Verif.GenProcess
import Verif.Hist
import Verif.Kernel
import Verif.KernelLemmas
import Verif.MemLemmas
import Verif.Memory
import Verif.Mix
import Verif.Mpi
import Verif.Params
import Verif.ParamsLemmas
import Verif.PropsGemm
import Verif.PropsGemm2
import Verif.PropsGen
import Verif.PropsGenAmax
import Verif.PropsParams
import Verif.PropsParams2
import Verif.PropsZ
import Verif.PropsZGemm
import Verif.PropsZInf
import Verif.Refine
import Verif.Rnd
import Verif.Scale
import Verif.ScaleMem
import Verif.SsqLemmas
import Verif.SsqNear
import Verif.SsqRescale
import Verif.SsqState
import Verif.State
import Verif.TuneParams
import Verif.Unroll
import Verif.Value
import Verif.Vec
import Verif.ZGemm
import Verif.ZGemmLemmas
import Verif.ZInfLemmas
import Verif.ZLemmas
import Verif.ZRescale
import Verif.ZSsq
import Verif.ZSsqMerge
import Verif.ZSsqState
import Verif.ZVec
import Verif.GenRun
import Verif.PropsGenRun
import Verif.PropsGenRunZ
import Verif.PropsRoutine
import Verif.GenRunSq
import Verif.PropsGenRunSq
import Verif.PropsGenRunAz
import Verif.ZRescaleMem
import Verif.PropsGenRunZq
import Verif.PropsRoutineSq
import Verif.Simd
import Verif.PropsSimd
import Verif.PropsSimdRun
import Verif.PropsSimdCode
import Verif.PropsSimdLoad
import Verif.PropsSimdKernel
import Verif.MatMem
import Verif.MatMemLemmas
import Verif.MatMemGemv
import Verif.MatMemGemm
import Verif.MatMemWrap
import Verif.MatMemLaws
import Verif.MatMemProd
import Verif.PropsMatMem
import Verif.PropsMatMemZ
import Verif.Threads
import Verif.ThreadsLemmas
import Verif.ThreadsProgs
import Verif.ThreadsOk
import Verif.PropsThreads
import Verif.Tso
import Verif.PropsTso
import Verif.PropsGemmInf
import Verif.WordRun
import Verif.WordRunLemmas
import Verif.PropsWordRun
import Verif.Fma
import Verif.FmaLemmas
import Verif.FmaEq
import Verif.FmaConv
import Verif.PropsFma
import Verif.PropsFmaPlain
import Verif.ThreadsVec
import Verif.ThreadsVecZ
import Verif.PropsThreadsVec
import Verif.Int32
import Verif.Int32Lemmas
import Verif.Int32Vec
import Verif.Int32Mat
import Verif.PropsInt32
import Verif.PropsInt32Binned
import Verif.PropsAccuracy3
import Verif.PropsAccuracy4
import Verif.PropsDistrib
import Verif.Tuner
import Verif.PropsTuner
import Verif.BlasLetters
import Verif.PropsBlas
import Verif.PropsTuner2
import Verif.PropsDistribZ
import Verif.ThreadsMat
import Verif.ThreadsMatOk
import Verif.PropsThreadsMat
import Verif.PropsThreadsMat2
import Verif.PropsThreadsMat3
import Verif.ZBlocks
import Verif.PropsZGemmInf
import Verif.CodeBlock
import Verif.PropsCodeBlock
import Verif.FtzConv
import Verif.PropsFtzConv
import Verif.PropsNativeZ
