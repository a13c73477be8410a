import Verif.Props.AnyReader
import Verif.Props.Buffer
import Verif.Props.BufferClient
import Verif.Props.Conflict
import Verif.Props.DeepCopy
import Verif.Props.Dfa
import Verif.Props.EndToEnd
import Verif.Props.EndToEndReader
import Verif.Props.ErrorReport
import Verif.Props.EventContext
import Verif.Props.ExampleSchema
import Verif.Props.FileReader
import Verif.Props.InputStream
import Verif.Props.IntervalTree
import Verif.Props.JoinLogs
import Verif.Props.Lalr
import Verif.Props.LalrComplete
import Verif.Props.LalrGenerate
import Verif.Props.LalrTotal
import Verif.Props.LexerRules
import Verif.Props.Lexing
import Verif.Props.LineEvents
import Verif.Props.LineReader
import Verif.Props.LineVars
import Verif.Props.LogEvent
import Verif.Props.NfaText
import Verif.Props.NfaTextInj
import Verif.Props.Offset
import Verif.Props.Order
import Verif.Props.PrefixTree
import Verif.Props.Query
import Verif.Props.Reader
import Verif.Props.ReaderClient
import Verif.Props.ReaderLines
import Verif.Props.Reading
import Verif.Props.Rebuild
import Verif.Props.Regex
import Verif.Props.RegexText
import Verif.Props.RuleError
import Verif.Props.RuleLines
import Verif.Props.Schema
import Verif.Props.SchemaChange
import Verif.Props.SchemaChangeReader
import Verif.Props.SchemaDelimiter
import Verif.Props.SchemaFile
import Verif.Props.SchemaMachine
import Verif.Props.SchemaReader
import Verif.Props.SchemaReject
import Verif.Props.SchemaRename
import Verif.Props.SchemaText
import Verif.Props.Search
import Verif.Props.SharedRegs
import Verif.Props.SplitLog
import Verif.Props.Tags
import Verif.Props.Wide
import Verif.Props.WildScan
