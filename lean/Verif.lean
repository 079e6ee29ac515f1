import Verif.AnsProps
import Verif.NumProps
import Verif.CdfProps
import Verif.WeightsProps
import Verif.AdaptiveProps
import Verif.CrcProps
import Verif.MuxProps
import Verif.RecodeProps
import Verif.CodecProps
import Verif.CodecRobustProps
import Verif.RxProps
import Verif.LitProps
import Verif.PipeProps
import Verif.Frame
import Verif.FrameProps
import Verif.File
import Verif.FileProps
import Verif.EndToEndProps
import Verif.GrowProps
import Verif.RegProps
import Verif.RawCmdProps
import Verif.IoProps
import Verif.HandProps
import Verif.ThreadsProps
import Verif.AllocProps
import Verif.OptProps
import Verif.TextLineProps
import Verif.LitContextProps
import Verif.EngRun
import Verif.CompLemmas
import Verif.CompRun
import Verif.CompProps
import Verif.FastProps
import Verif.DamageProps
import Verif.OnceLemmas
import Verif.OnceProps
import Verif.Call
import Verif.MuxTidy
import Verif.CallLemmas
import Verif.CallInput
import Verif.CallStep
import Verif.CallRun
import Verif.FrameTidy
import Verif.CallDec
import Verif.CallProps
import Verif.RoundTripProps
import Verif.IoCodec
import Verif.IoRun
import Verif.IoDec
import Verif.IoTrail
import Verif.IoWrite
import Verif.IoComp
import Verif.IoFullProps
import Verif.Simd
import Verif.SimdCrc
import Verif.SimdLemmas
import Verif.SimdProps
import Verif.CallFile
import Verif.CallFileRun
import Verif.CallAnyProps
import Verif.RecodeAny
import Verif.CallEnd
import Verif.CallEndRun
import Verif.CallEndProps
import Verif.CallLeft
import Verif.IoAnyProps
import Verif.Ffi
import Verif.FfiRun
import Verif.FfiProps
import Verif.RecodeCrash
import Verif.CallCrash
import Verif.CallCrashProps
import Verif.Cli
import Verif.CliRun
import Verif.CliProps
import Verif.RecodeOwed
import Verif.CallOwed
import Verif.CallOwedProps
import Verif.IoEndProps
import Verif.Hybrid
import Verif.HybridRun
import Verif.HybridProps
import Verif.HybridIo
import Verif.HybridIoProps
import Verif.HybridCliProps
import Verif.Ir
import Verif.IrRun
import Verif.IrText
import Verif.IrProps
import Verif.Blend
import Verif.BlendProps
import Verif.Args
import Verif.ArgsProps
import Verif.Main
import Verif.MainProps
import Verif.Bits
import Verif.BitsProps
import Verif.MainIrProps
import Verif.Par
import Verif.ParStep
import Verif.ParMain
import Verif.ParRun
import Verif.ParProps
import Verif.ParSim
import Verif.ParAnyProps
import Verif.ParEnd
import Verif.ParEndProps
import Verif.ParIo
import Verif.ParServe
import Verif.ParIoProps
import Verif.ParFree
import Verif.ParFreeProps
import Verif.MainPar
import Verif.MainParProps
import Verif.Prior
import Verif.PriorProps
import Verif.Meter
import Verif.MeterProps
import Verif.CAlloc
import Verif.CAllocProps
import Verif.FfiBrotli
import Verif.FfiBrotliProps
import Verif.RawLen
import Verif.CompClean
import Verif.CompLen
import Verif.CompLenProps
import Verif.CVec
import Verif.CVecProps
import Verif.ExMain
import Verif.ExMainProps
import Verif.CMem
import Verif.CMemProps
import Verif.Filters
import Verif.FiltersProps
import Verif.Estimate
import Verif.EstimateProps
import Verif.External
import Verif.ExternalProps
import Verif.Tally
import Verif.TallyProps
import Verif.AnsSizeProps
import Verif.AdaptiveSizeProps
import Verif.ExternalSizeProps
import Verif.MuxSizeProps
import Verif.FrameSizeProps
