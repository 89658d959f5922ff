import Verif.Props.Text
import Verif.Props.Util
import Verif.Props.Lznt1
import Verif.Props.Header
import Verif.Props.Replay
import Verif.Props.TxLog
import Verif.Props.Cells
import Verif.Props.ValueData
import Verif.Props.Content
import Verif.Props.Lists
import Verif.Props.KeyReading
import Verif.Props.StateMaps
import Verif.Props.Termination
import Verif.Props.Order
import Verif.Props.Filter
import Verif.Props.Lookup
import Verif.Props.SubKey
import Verif.Props.Attach
import Verif.Props.Recover
import Verif.Props.Analyzer
import Verif.Props.AnalyzerFile
import Verif.Props.Compare
import Verif.Props.CompareFile
import Verif.Props.Diff
import Verif.Props.Writers
import Verif.Props.Cli
import Verif.Props.TsvText
import Verif.Props.Xlsx
import Verif.Props.XlsxFile
import Verif.Props.XlsxEnds
import Verif.Props.Json
import Verif.Props.Fields
import Verif.Props.Common
import Verif.Props.Time
import Verif.Props.Texts
import Verif.Props.Rows
import Verif.Props.Open
import Verif.Props.Parent
import Verif.Props.Python
import Verif.Props.Values
import Verif.Props.Dump
import Verif.Props.Files
import Verif.Props.CompareText
import Verif.Props.CompareTells
import Verif.Props.LookupNames
import Verif.Props.History
import Verif.Props.Overwritten
import Verif.Props.Recovered
import Verif.Props.RecoveredOnly
import Verif.Props.DumpPast
import Verif.Props.JsonPast
import Verif.Props.DumpFree
import Verif.Props.CompareFilter
import Verif.Props.SameTables
import Verif.Props.OpenTold
import Verif.Props.DumpTold
import Verif.Props.Safe
import Verif.Props.SafeLookup
import Verif.Props.Count
import Verif.Props.CountPast
import Verif.Props.SafeRecover
import Verif.Props.SafeCommon
import Verif.Props.FreedLogs
import Verif.Props.Returned
import Verif.Props.PathBack
import Verif.Props.SafeLogs
import Verif.Props.LookupLogs
import Verif.Props.Ways
import Verif.Props.Reach
import Verif.Props.SafePost
import Verif.Props.ListsFar
import Verif.Props.Repeat
import Verif.Props.InUse
import Verif.Props.AnyPath
import Verif.Props.LogTwice
import Verif.Audit
