import Verif.Base
import Verif.Varint
import Verif.Prim
import Verif.SpecPrim
import Verif.PrimLemmas
import Verif.PrimLemmas2
import Verif.PropsPrim
import Verif.Types
import Verif.BinEncode
import Verif.BinDecode
import Verif.AminoApi
import Verif.DecSafe
import Verif.SpecTypes
import Verif.TypedLemmas
import Verif.DecTyped
import Verif.DecFuel
import Verif.FuelMono
import Verif.ValEq
import Verif.Demo
import Verif.IntWire
import Verif.PropsDec
import Verif.PropsApi
import Verif.SpecNorm
import Verif.SpecUniv
import Verif.RTEnc
import Verif.RTDec
import Verif.RTFields
import Verif.RTMain
import Verif.NormLemmas
import Verif.Reenc
import Verif.DemoUniv
import Verif.PropsRT
import Verif.SpecWire
import Verif.WireLemmas
import Verif.PropsWire
import Verif.SpecProto
import Verif.ProtoLemmas
import Verif.PropsProto
import Verif.SpecEnd
import Verif.PropsEnd
import Verif.SpecStale
import Verif.PropsStale
import Verif.SpecOrder
import Verif.ExactDec
import Verif.OrderLemmas
import Verif.PropsOrder
import Verif.PropsKey
import Verif.Reader
import Verif.SpecReader
import Verif.PropsReader
import Verif.PropsTop
import Verif.PropsNested
import Verif.SpecMarsh
import Verif.PropsMarsh
import Verif.Registry
import Verif.SpecRegistry
import Verif.RegLemmas
import Verif.CodecExt
import Verif.RegLookup
import Verif.RegComplete
import Verif.PropsReg
import Verif.PropsFail
import Verif.Lock
import Verif.PropsLock
import Verif.StructInfo
import Verif.PropsStruct
import Verif.Scan
import Verif.PropsScan
import Verif.DeepCopy
import Verif.SpecCopy
import Verif.PropsCopy
import Verif.JsonText
import Verif.JsonEncode
import Verif.JsonDecode
import Verif.SpecJson
import Verif.JsonScan
import Verif.JsonStr
import Verif.JsonRT
import Verif.JsonSafe
import Verif.JsonExact
import Verif.JDemo
import Verif.PropsJson
import Verif.SpecJson2
import Verif.PropsJson2
import Verif.SpecJson3
import Verif.PropsJson3
import Verif.Sha256
import Verif.Vectors
import Verif.SpecSize
import Verif.SizeLemmas
import Verif.PropsSize
import Verif.SpecSpace
import Verif.SpaceLemmas
import Verif.JsonIndent
import Verif.IndentLemmas
import Verif.PropsSpace
import Verif.JsonFix
import Verif.PropsJson4
import Verif.GoTime
import Verif.SpecTime
import Verif.TimeLemmas
import Verif.PropsTime
import Verif.PropsEvolve
import Verif.PropsEvolve2
import Verif.SpecEvolve
import Verif.EvolveLemmas
import Verif.EvolveExists
import Verif.EvolveDemo
import Verif.PropsEvolve3
import Verif.SpecWrite
import Verif.WriteLemmas
import Verif.ReadWrite
import Verif.PropsWrite
import Verif.SpecDoc
import Verif.DocLemmas
import Verif.DocEnc
import Verif.DocUnique
import Verif.PropsDoc
import Verif.SpecJWrite
import Verif.JWriteLemmas
import Verif.JReadWrite
import Verif.PropsJWrite
import Verif.BinAddr
import Verif.PropsAddr
import Verif.LockPref
import Verif.PropsProgress
import Verif.SpecSafe
import Verif.PropsSafe
import Verif.SpecTranscode
import Verif.PropsTranscode
import Verif.PropsStrict
import Verif.PropsJReg
import Verif.PropsCut
import Verif.Together
import Verif.TogLemmas
import Verif.TogLin
import Verif.TogEnc
import Verif.TogJson
import Verif.PropsTogether
import Verif.PrintTypes
import Verif.PropsPrint
import Verif.Leftover
import Verif.LeftLemmas
import Verif.PropsLeftover
import Verif.JLeftover
import Verif.PropsJLeft
import Verif.TagText
import Verif.PropsTag
import Verif.Retag
import Verif.PropsRetag
import Verif.ScanText
import Verif.PropsScanText
import Verif.StructUse
import Verif.PropsStructUse
import Verif.MemDecode
import Verif.SpecMem
import Verif.MemLemmas
import Verif.MemInv
import Verif.MemEq
import Verif.PropsMem
import Verif.SpecMemRep
import Verif.MemRep
import Verif.MemSim
import Verif.MemSim2
import Verif.MemSim3
import Verif.PropsMemSim
import Verif.SpecJsonOnly
import Verif.JsonInv
import Verif.PropsJsonOnly
import Verif.JNull
import Verif.PropsJStale
import Verif.SpecByteText
import Verif.B64Inv
import Verif.PropsByteText
import Verif.SpecReads
import Verif.StrMeaning
import Verif.JReadText
import Verif.JReadAs
import Verif.PropsReadAs
import Verif.SpecBReads
import Verif.BReadPrim
import Verif.BReadAs
import Verif.BReadMain
import Verif.PropsBRead
import Verif.MemEncode
import Verif.SpecMemHolds
import Verif.MemEncSim
import Verif.MemEncLoop
import Verif.MemJson
import Verif.SpecMemJson
import Verif.MemJsonSim
import Verif.MemJsonLoop
import Verif.PropsMemEnc
import Verif.SpecMemJ
import Verif.MemJDecode
import Verif.MemJInv
import Verif.PropsMemJDec
import Verif.SpecMemJNew
import Verif.MemJSim
import Verif.MemJSim2
import Verif.MemJSim3
import Verif.PropsMemJNew
import Verif.SpecTrunc
import Verif.TruncLemmas
import Verif.PropsTrunc
import Verif.SpecJSize
import Verif.JSizeLemmas
import Verif.PropsJSize
import Verif.SpecJOrder
import Verif.JOrderLemmas
import Verif.PropsJOrder
import Verif.Methods
import Verif.SpecMethods
import Verif.PropsMethods
import Verif.SpecJMeth
import Verif.PropsJMeth
import Verif.JsonExt
import Verif.SpecJExt
import Verif.PropsJExt
import Verif.CopyMeth
import Verif.SpecCopyMeth
import Verif.PropsCopyMeth
import Verif.PropsJExt2
import Verif.SpecOut
import Verif.OutLemmas
import Verif.OutJson
import Verif.PropsOut
import Verif.Args
import Verif.SpecArgs
import Verif.PropsArgs
import Verif.SpecSent
import Verif.SentLemmas
import Verif.PropsSent
import Verif.Work
import Verif.SpecWork
import Verif.WorkLemmas
import Verif.PropsWork
import Verif.WorkLow
import Verif.SpecEncWork
import Verif.EncWork
import Verif.EncWorkLemmas
import Verif.PropsEncWork
import Verif.SpecCmd
import Verif.ScanMain
import Verif.PropsCmd
import Verif.SpecScan
import Verif.PropsScanExact
import Verif.PropsDisfix
import Verif.PrefixApi
import Verif.PropsPrefix
import Verif.PropsScanMsg
