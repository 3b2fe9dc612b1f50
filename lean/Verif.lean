import Verif.Model.Basic
import Verif.Model.Value
import Verif.Model.ParseBuf
import Verif.Model.LeftBuf
import Verif.Model.Parse
import Verif.Model.Api
import Verif.Model.Access
import Verif.Model.Modify
import Verif.Model.Option
import Verif.Model.Marshal
import Verif.Spec.Json
import Verif.Spec.Lenient
import Verif.Spec.InPlace
import Verif.Spec.Denote
import Verif.Spec.Path
import Verif.Spec.History
import Verif.Spec.Typed
import Verif.Spec.Marshal
import Verif.Proofs.RefineStr
import Verif.Proofs.RefineVal
import Verif.Proofs.Total
import Verif.Proofs.LexStr
import Verif.Proofs.Grammar
import Verif.Proofs.GrammarComplete
import Verif.Proofs.LexNum
import Verif.Proofs.InPlace
import Verif.Proofs.LeftBuf
import Verif.Proofs.Maps
import Verif.Proofs.Strict
import Verif.Proofs.Denote
import Verif.Proofs.Api
import Verif.Proofs.NumText
import Verif.Proofs.DecEq
import Verif.Proofs.Get
import Verif.Proofs.Set
import Verif.Proofs.Modify
import Verif.Proofs.SetMore
import Verif.Proofs.Hered
import Verif.Proofs.Caseless
import Verif.Proofs.History
import Verif.Proofs.ObjRun
import Verif.Proofs.Typed
import Verif.Proofs.Escape
import Verif.Proofs.Sort
import Verif.Proofs.Doc
import Verif.Proofs.Marshal
import Verif.Proofs.MarshalApi
import Verif.Proofs.StrictScan
import Verif.Proofs.Options
import Verif.Proofs.EscBytes
import Verif.Props.Parsing
import Verif.Props.Modify
import Verif.Props.History
import Verif.Props.Typed
import Verif.Proofs.Layout
import Verif.Props.Marshal
import Verif.Model.Iterate
import Verif.Proofs.SetSeq
import Verif.Props.Order
import Verif.Model.Compare
import Verif.Spec.Compare
import Verif.Proofs.Compare
import Verif.Proofs.Decimal
import Verif.Proofs.RoundTrip
import Verif.Props.Compare
import Verif.Model.Pool
import Verif.Model.Predict
import Verif.Model.Channel
import Verif.Spec.Pool
import Verif.Spec.Predict
import Verif.Spec.Channel
import Verif.Proofs.Pool
import Verif.Proofs.Predict
import Verif.Proofs.PredictBad
import Verif.Proofs.Channel
import Verif.Props.Concurrency
import Verif.Model.Heap
import Verif.Spec.Heap
import Verif.Proofs.Heap
import Verif.Proofs.HeapRefine
import Verif.Proofs.HeapSet
import Verif.Proofs.HeapMore
import Verif.Proofs.HeapRead
import Verif.Proofs.HeapRegion
import Verif.Proofs.HeapFrame
import Verif.Proofs.HeapLow
import Verif.Proofs.HeapCopy
import Verif.Proofs.HeapEdges
import Verif.Spec.Forest
import Verif.Proofs.Forest
import Verif.Proofs.MarshalReturns
import Verif.Props.Heap
import Verif.Model.Base64
import Verif.Spec.Base64
import Verif.Proofs.Base64
import Verif.Props.Bytes
import Verif.Model.Import
import Verif.Spec.GoJson
import Verif.Spec.GoPlain
import Verif.Spec.GoSane
import Verif.Proofs.ImportTag
import Verif.Proofs.ImportObj
import Verif.Proofs.Import
import Verif.Proofs.ImportTotal
import Verif.Props.Import
import Verif.Model.KeyPathSlice
import Verif.Proofs.KeyPathSlice
import Verif.Props.KeyPathSlice
import Verif.Model.Threads
import Verif.Spec.Threads
import Verif.Proofs.Threads
import Verif.Props.Threads
import Verif.Model.GoApi
import Verif.Spec.GoApi
import Verif.Proofs.GoApi
import Verif.Props.GoApi
import Verif.Model.FloatFmt
import Verif.Spec.FloatFmt
import Verif.Proofs.FloatFmt
import Verif.Props.FloatFmt
import Verif.Model.Describe
import Verif.Spec.Describe
import Verif.Proofs.Describe
import Verif.Props.Describe
import Verif.Proofs.Unambiguous
import Verif.Model.Export
import Verif.Spec.Export
import Verif.Proofs.Export
import Verif.Props.Export
import Verif.Model.RangeMut
import Verif.Spec.RangeMut
import Verif.Proofs.RangeMut
import Verif.Props.RangeMut
import Verif.Model.Buffers
import Verif.Spec.Buffers
import Verif.Proofs.Buffers
import Verif.Props.Buffers
import Verif.Proofs.Compose
import Verif.Props.Compose
import Verif.Spec.Reformat
import Verif.Proofs.Reformat
import Verif.Props.Reformat
import Verif.Model.Calls
import Verif.Spec.Calls
import Verif.Proofs.Calls
import Verif.Props.Calls
import Verif.Spec.Imported
import Verif.Proofs.Imported
import Verif.Props.Imported
import Verif.Spec.Laws
import Verif.Proofs.Laws
import Verif.Props.Laws
import Verif.Spec.StdJson
import Verif.Model.StdJson
import Verif.Proofs.StdJson
import Verif.Props.StdJson
import Verif.Spec.Errors
import Verif.Proofs.Errors
import Verif.Props.Errors
import Verif.Model.Work
import Verif.Spec.Work
import Verif.Proofs.Work
import Verif.Props.Work
import Verif.Spec.Nondet
import Verif.Proofs.Nondet
import Verif.Props.Nondet
import Verif.Spec.Alike
import Verif.Proofs.Alike
import Verif.Props.Alike
import Verif.Spec.Size
import Verif.Proofs.Size
import Verif.Props.Size
import Verif.Spec.PathErr
import Verif.Proofs.PathErr
import Verif.Props.PathErr
import Verif.Proofs.LUnique
import Verif.Proofs.Exact
import Verif.Proofs.DocExact
import Verif.Spec.Exact
import Verif.Proofs.JsonOK
import Verif.Proofs.ExactMore
import Verif.Props.Exact
import Verif.Props.ExactOrder
import Verif.Model.Message
import Verif.Spec.Message
import Verif.Proofs.Message
import Verif.Proofs.MessageLoc
import Verif.Proofs.MessageNum
import Verif.Proofs.MessageErr
import Verif.Proofs.MessageLoop
import Verif.Proofs.MessageSays
import Verif.Proofs.MessageViable
import Verif.Proofs.MessageDoc
import Verif.Props.Message
import Verif.Spec.Ieee
import Verif.Proofs.Ieee
import Verif.Proofs.IeeeDigits
import Verif.Proofs.IeeeShort
import Verif.Proofs.IeeeRead
import Verif.Proofs.IeeeEnv
import Verif.Proofs.IeeeText
import Verif.Proofs.IeeeRange
import Verif.Proofs.IeeeNum
import Verif.Props.Ieee
import Verif.Spec.Stable
import Verif.Proofs.Stable
import Verif.Props.Stable
import Verif.Proofs.RoundExact
import Verif.Props.RoundExact
import Verif.Proofs.FewDigits
import Verif.Spec.FewDigits
import Verif.Props.FewDigits
import Verif.Spec.ExportImport
import Verif.Proofs.ExportImport
import Verif.Props.ExportImport
import Verif.Proofs.SixDigits
import Verif.Props.SixDigits
import Verif.Spec.StdGrammar
import Verif.Proofs.StdGrammar
import Verif.Proofs.StdExact
import Verif.Props.StdExact
import Verif.Model.MarshalWork
import Verif.Spec.MarshalWork
import Verif.Proofs.MarshalWork
import Verif.Props.MarshalWork
import Verif.Spec.Kind
import Verif.Props.Kind
import Verif.Spec.PathCells
import Verif.Proofs.PathCells
import Verif.Props.PathCells
import Verif.Model.CompareWork
import Verif.Spec.CompareWork
import Verif.Proofs.CompareWork
import Verif.Props.CompareWork
import Verif.Model.ImportGraph
import Verif.Spec.ImportGraph
import Verif.Proofs.ImportGraph
import Verif.Props.ImportGraph
import Verif.Model.HeapCompare
import Verif.Spec.HeapCompare
import Verif.Proofs.HeapCompare
import Verif.Props.HeapCompare
import Verif.Spec.GoFate
import Verif.Proofs.ImportFate
import Verif.Props.ImportFate
import Verif.Props.Parent
import Verif.Props.Sharing
import Verif.Props.Holder
import Verif.Props.Copies
import Verif.Spec.Retain
import Verif.Proofs.Retain
import Verif.Props.Retain
import Verif.Model.ChanMut
import Verif.Spec.ChanMut
import Verif.Proofs.ChanMut
import Verif.Props.ChanMut
import Verif.Model.OptionAlias
import Verif.Spec.OptionAlias
import Verif.Proofs.OptionAlias
import Verif.Props.OptionAlias
import Verif.Model.PoolKeep
import Verif.Spec.PoolKeep
import Verif.Proofs.PoolKeep
import Verif.Props.PoolKeep
import Verif.Model.CaselessWork
import Verif.Spec.CaselessWork
import Verif.Proofs.CaselessWork
import Verif.Props.CaselessWork
import Verif.Model.ArrayWork
import Verif.Spec.ArrayWork
import Verif.Proofs.ArrayWork
import Verif.Props.ArrayWork
import Verif.Model.ThreadsWrite
import Verif.Spec.ThreadsWrite
import Verif.Proofs.ThreadsWrite
import Verif.Props.ThreadsWrite
import Verif.Model.ThreadsMake
import Verif.Model.ThreadsPath
import Verif.Proofs.ThreadsMake
import Verif.Proofs.ThreadsPath
import Verif.Props.ThreadsMake
import Verif.Spec.ThreadsSame
import Verif.Proofs.ThreadsSame
import Verif.Proofs.ThreadsGet
import Verif.Spec.ThreadsEdit
import Verif.Proofs.ThreadsEdit
import Verif.Proofs.ThreadsSole
import Verif.Proofs.ThreadsFocus
import Verif.Proofs.ThreadsAppend
import Verif.Props.ThreadsSame
