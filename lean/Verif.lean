import Verif.Dag.GoMap
import Verif.Dag.Spec
import Verif.Dag.Model
import Verif.Dag.MapLemmas
import Verif.Dag.Inv
import Verif.Dag.Ops
import Verif.Dag.Queries
import Verif.Dag.Reduce
import Verif.Dag.Bfs
import Verif.Dag.Run
import Verif.Props.Obs
import Verif.Props.DagCore
import Verif.Props.DagMeta
import Verif.Dag.Walker
import Verif.Props.DagWalker
import Verif.Dag.SetModel
import Verif.Props.DagSet
import Verif.Etx.Str
import Verif.Etx.Ast
import Verif.Etx.Tree
import Verif.Etx.Clone
import Verif.Etx.CloneLemmas
import Verif.Etx.Sharing
import Verif.Etx.SharingLemmas
import Verif.Etx.Children
import Verif.Etx.Walk
import Verif.Etx.Reparent
import Verif.Etx.Samples
import Verif.Props.AstClone
import Verif.Props.AstParents
import Verif.Etx.Format
import Verif.Etx.FormatLemmas
import Verif.Etx.IndentLemmas
import Verif.Props.Indent
import Verif.Props.Format
import Verif.Etx.Regex
import Verif.Etx.Lexer
import Verif.Etx.RegexLemmas
import Verif.Etx.LexerLemmas
import Verif.Etx.Number
import Verif.Etx.NumberLemmas
import Verif.Etx.BlankLemmas
import Verif.Etx.TokenLemmas
import Verif.Props.Number
import Verif.Props.LexCore
import Verif.Props.LexBlank
import Verif.Props.LexTokens
import Verif.Props.LexStrings
import Verif.Etx.Grammar
import Verif.Etx.Place
import Verif.Etx.Parser
import Verif.Etx.ParserLemmas
import Verif.KernelRfl
import Verif.Etx.Derive
import Verif.Etx.Shape
import Verif.Etx.ParseDoc
import Verif.Etx.FormatTotal
import Verif.Etx.Relocate
import Verif.Etx.Reader
import Verif.Etx.ReaderLemmas
import Verif.Props.ParseDoc
import Verif.Etx.RunLemmas
import Verif.Etx.Yield
import Verif.Etx.Takes
import Verif.Etx.Reads
import Verif.Etx.ReadsTypes
import Verif.Etx.ReadsExpr
import Verif.Etx.ReadsOps
import Verif.Etx.ReadsValue
import Verif.Etx.ReadsLists
import Verif.Etx.ReadsItems
import Verif.Etx.ReadsFunc
import Verif.Etx.Canon
import Verif.Props.ParseBack
import Verif.Etx.Local
import Verif.Etx.Operators
import Verif.Props.Operators
import Verif.Etx.Layout
import Verif.Etx.StopLemmas
import Verif.Etx.Steps
import Verif.Etx.LayoutTokens
import Verif.Etx.Written
import Verif.Etx.WrittenText
import Verif.Etx.Tidy
import Verif.Etx.Formats
import Verif.Etx.FormatsExpr
import Verif.Etx.FormatsValue
import Verif.Etx.FormatsDoc
import Verif.Etx.Formatted
import Verif.Etx.Respaced
import Verif.Props.RoundTrip
import Verif.Props.ParseDepth
import Verif.Etx.LexRun
import Verif.Etx.Strict
import Verif.Etx.Faithful
import Verif.Etx.FaithfulKinds
import Verif.Etx.FaithfulToks
import Verif.Etx.FaithfulRest
import Verif.Etx.FaithfulParse
import Verif.Props.Faithful
import Verif.Etx.Located
import Verif.Etx.Order
import Verif.Props.Positions
import Verif.Etx.Peg
import Verif.Props.Lookahead
import Verif.Etx.FormatExact
import Verif.Props.FormatPanic
import Verif.Dag.Heap
import Verif.Dag.HeapSim
import Verif.Dag.HeapOps
import Verif.Props.Sharing
import Verif.Dag.Conc
import Verif.Dag.ConcSim
import Verif.Dag.ConcOps
import Verif.Props.Concurrent
import Verif.Props.ConcurrentExact
import Verif.Dag.Remember
import Verif.Props.Remembered
import Verif.Dag.Guarded
import Verif.Props.Guarded
import Verif.Etx.Float
import Verif.Etx.FloatLemmas
import Verif.Props.Decimal
import Verif.Props.DecimalTokens
import Verif.Props.Stable
import Verif.Props.Steps
import Verif.Props.BuildOrder
import Verif.Dag.Cost
import Verif.Props.Cost
import Verif.Etx.Limit
import Verif.Props.Limit
import Verif.Etx.FloatJson
import Verif.Etx.FloatJsonLemmas
import Verif.Etx.Json
import Verif.Etx.JsonRead
import Verif.Etx.JsonText
import Verif.Etx.JsonParsed
import Verif.Props.Json
import Verif.Etx.Nest
import Verif.Etx.LexJoin
import Verif.Etx.Joined
import Verif.Etx.Seam
import Verif.Props.Join
import Verif.Props.Change
import Verif.Props.Peel
import Verif.Etx.Still
import Verif.Etx.Spread
import Verif.Etx.Crlf
import Verif.Etx.PegTotal
import Verif.Props.LineEnds
import Verif.Etx.NameAfter
import Verif.Etx.NameRules
import Verif.Etx.Rename
import Verif.Props.Names
import Verif.Etx.Enclosed
import Verif.Etx.Embed
import Verif.Etx.Template
import Verif.Props.Interpolation
import Verif.Props.UnicodeEscape
import Verif.Etx.Compose
import Verif.Props.Compose
import Verif.Props.HeredocParts
import Verif.Etx.Lines
import Verif.Props.Lines
import Verif.Props.Last
import Verif.Props.Words
import Verif.Etx.Multi
import Verif.Props.Multi
import Verif.Props.LiteralTokens
import Verif.Props.Terms
import Verif.Props.Classes
import Verif.Props.HexDigits
import Verif.Props.Symmetry
import Verif.Props.Apart
import Verif.Etx.Contents
import Verif.Props.Contents
import Verif.Props.Refs
import Verif.Props.NormalForm
import Verif.Props.Restore
import Verif.Props.Deletions
import Verif.Props.JsonFormat
import Verif.Props.Monotone
import Verif.Props.Retry
import Verif.Props.Counts
import Verif.Props.Levels
import Verif.Props.Replace
import Verif.Props.Splice
import Verif.Props.Together
import Verif.Props.Ranks
import Verif.Props.Merge
