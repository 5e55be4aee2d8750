import Verif.Spec.Unicode
import Verif.Model.Basic
import Verif.Model.Reader
import Verif.Model.Prog
import Verif.Model.Containers
import Verif.Model.Writer
import Verif.Proofs.Bits
import Verif.Proofs.Decode
import Verif.Proofs.Reader
import Verif.Proofs.Stream
import Verif.Proofs.Prog
import Verif.Proofs.Containers
import Verif.Proofs.Writer
import Verif.Props.Reader
import Verif.Props.Writer
import Verif.Props.Containers
import Verif.Model.Types
import Verif.Model.Document
import Verif.Props.Document
import Verif.Spec.Events
import Verif.Spec.Tags
import Verif.Model.Parser
import Verif.Proofs.Wp
import Verif.Proofs.Grammar
import Verif.Proofs.Parser
import Verif.Proofs.ParserTags
import Verif.Props.Parser
import Verif.Model.Loader
import Verif.Spec.Compose
import Verif.Spec.ReadBack
import Verif.Proofs.Loader
import Verif.Proofs.LoaderSpec
import Verif.Proofs.ParserEnd
import Verif.Proofs.LoaderRun
import Verif.Props.Loader
import Verif.Spec.Graph
import Verif.Model.Dumper
import Verif.Proofs.Dumper
import Verif.Proofs.DumperRun
import Verif.Props.Dumper
import Verif.Model.Lexer
import Verif.Model.Scanner
import Verif.Spec.Marks
import Verif.Spec.Tokens
import Verif.Proofs.Lexer
import Verif.Proofs.LexSafe
import Verif.Proofs.LexScalar
import Verif.Proofs.Dispatch
import Verif.Proofs.Tokens
import Verif.Proofs.Scanner
import Verif.Proofs.ScannerRun
import Verif.Proofs.ScannerCalls
import Verif.Proofs.ScannerKeys
import Verif.Props.Scanner
import Verif.Model.Emitter
import Verif.Model.Chars
import Verif.Spec.EmitEvents
import Verif.Proofs.Emitter
import Verif.Proofs.EmitterRun
import Verif.Proofs.EmitterQueue
import Verif.Proofs.EmitterLine
import Verif.Proofs.EmitterSettings
import Verif.Props.Emitter
import Verif.Props.DumperLife
import Verif.Proofs.Go
import Verif.Proofs.QuotedScan
import Verif.Proofs.QuotedWrite
import Verif.Proofs.Analysis
import Verif.Proofs.SingleWrite
import Verif.Proofs.PlainScan
import Verif.Proofs.PlainWrite
import Verif.Proofs.BlockScan
import Verif.Proofs.BlockWrite
import Verif.Props.RoundTrip
import Verif.Props.BlockRoundTrip
import Verif.Model.Heap
import Verif.Model.EventApi
import Verif.Proofs.Heap
import Verif.Proofs.HeapQueue
import Verif.Proofs.HeapDirs
import Verif.Proofs.EventApi
import Verif.Props.EventApi
import Verif.Model.DocumentHeap
import Verif.Proofs.DocumentHeap
import Verif.Props.DocumentHeap
import Verif.Model.LoaderHeap
import Verif.Spec.LoaderHeap
import Verif.Spec.Octets
import Verif.Proofs.LoaderHeap
import Verif.Proofs.Octets
import Verif.Props.LoaderHeap
import Verif.Model.DumperHeap
import Verif.Proofs.DumperHeap
import Verif.Props.DumperHeap
import Verif.Proofs.TagScan
import Verif.Proofs.TagWrite
import Verif.Props.TagRoundTrip
import Verif.Spec.TokenGrammar
import Verif.Proofs.PushDown
import Verif.Proofs.PushDownRef
import Verif.Proofs.GrammarComplete
import Verif.Proofs.GrammarDocs
import Verif.Proofs.GrammarSound
import Verif.Proofs.GrammarRun
import Verif.Props.ParserGrammar
import Verif.Props.Chars
import Verif.Proofs.ScannerEnd
import Verif.Proofs.Eager
import Verif.Proofs.Boundary
import Verif.Proofs.BoundaryTok
import Verif.Proofs.LeafScan
import Verif.Proofs.FlowScan
import Verif.Proofs.BlockNodes
import Verif.Proofs.EmitGo
import Verif.Proofs.LeafWrite
import Verif.Proofs.PropWrite
import Verif.Proofs.NodeWrite
import Verif.Proofs.ScalarWrite
import Verif.Proofs.ScalarNode
import Verif.Spec.EmitParse
import Verif.Proofs.InlineNode
import Verif.Proofs.FlowWrite
import Verif.Proofs.TreeWrite
import Verif.Proofs.DocScan
import Verif.Proofs.DocWrite
import Verif.Proofs.StreamWrite
import Verif.Proofs.EmitClean
import Verif.Proofs.EmitBack
import Verif.Props.EmitParse
import Verif.Props.EmitOutput
import Verif.Proofs.SrcSim
import Verif.Proofs.Pipeline
import Verif.Proofs.ParserFuel
import Verif.Proofs.ParserPaid
import Verif.Proofs.LoaderSim
import Verif.Props.Pipeline
import Verif.Spec.Lexemes
import Verif.Proofs.Yields
import Verif.Proofs.LexQuoted
import Verif.Proofs.LexPlain
import Verif.Proofs.LexBlock
import Verif.Proofs.LexTags
import Verif.Props.Lexemes
import Verif.Spec.Layout
import Verif.Spec.Language
import Verif.Proofs.Layout
import Verif.Proofs.LayoutFit
import Verif.Proofs.LexKinds
import Verif.Proofs.Tracks
import Verif.Proofs.Suffix
import Verif.Proofs.PlainStop
import Verif.Proofs.LexStep
import Verif.Proofs.LexRun
import Verif.Proofs.LexUnique
import Verif.Proofs.NulKept
import Verif.Proofs.LexDet
import Verif.Proofs.LexComplete
import Verif.Props.Layout
import Verif.Proofs.LexDepth
import Verif.Props.Language
import Verif.Proofs.LookAhead
import Verif.Proofs.NestCount
import Verif.Proofs.NestRun
import Verif.Props.Nesting
import Verif.Spec.TextDocs
import Verif.Spec.RoundTrip
import Verif.Proofs.LoadText
import Verif.Proofs.DumpLoad
import Verif.Props.LoadText
import Verif.Props.DumpLoad
import Verif.Model.ParserHeap
import Verif.Spec.ParserHeap
import Verif.Proofs.ParserHeap
import Verif.Proofs.ParserHeapDirs
import Verif.Proofs.ParserHeapDocs
import Verif.Proofs.ParserHeapNodes
import Verif.Proofs.ParserHeapStates
import Verif.Proofs.ParserHeapRun
import Verif.Proofs.ParserHeapMem
import Verif.Props.ParserHeap
import Verif.Proofs.CleanTokens
import Verif.Model.LoadParse
import Verif.Proofs.LoadParse
import Verif.Props.LoadParse
import Verif.Model.EmitterHeap
import Verif.Spec.EmitterHeap
import Verif.Proofs.EmitterFrame
import Verif.Proofs.EmitterHeap
import Verif.Proofs.EmitterHeapStacks
import Verif.Proofs.EmitterHeapTags
import Verif.Proofs.EmitterHeapNodes
import Verif.Proofs.EmitterHeapStates
import Verif.Proofs.EmitterHeapCalls
import Verif.Proofs.EmitterHeapRun
import Verif.Props.EmitterHeap
import Verif.Model.DumpSession
import Verif.Proofs.DumpSession
import Verif.Props.DumpSession
import Verif.Model.Reformat
import Verif.Spec.Reformat
import Verif.Spec.Reread
import Verif.Proofs.Reformat
import Verif.Proofs.Reread
import Verif.Props.Reformat
import Verif.Props.Reread
import Verif.Model.Convert
import Verif.Spec.Convert
import Verif.Proofs.Convert
import Verif.Proofs.ConvertBack
import Verif.Props.Convert
import Verif.Model.ScannerHeap
import Verif.Proofs.ScannerHeap
import Verif.Proofs.ScannerHeapText
import Verif.Proofs.ScannerHeapTags
import Verif.Proofs.ScannerHeapScalars
import Verif.Props.ScannerHeap
import Verif.Model.ScannerHeapFetch
import Verif.Proofs.ScannerHeapFetch
import Verif.Proofs.ScannerHeapNext
import Verif.Proofs.ScannerHeapSession
import Verif.Props.ScannerHeapFetch
import Verif.Props.WholeHeap
import Verif.Spec.Positions
import Verif.Proofs.Positions
import Verif.Proofs.PositionsRun
import Verif.Props.Positions
import Verif.Spec.NodePositions
import Verif.Proofs.NodePositions
import Verif.Props.NodePositions
import Verif.Model.Handlers
import Verif.Spec.Handlers
import Verif.Proofs.Handlers
import Verif.Props.Handlers
import Verif.Spec.ErrorMarks
import Verif.Proofs.ErrorMarks
import Verif.Proofs.ErrorOrder
import Verif.Proofs.ErrorOrderRun
import Verif.Props.ErrorMarks
import Verif.Model.Suite
import Verif.Spec.Suite
import Verif.Proofs.Suite
import Verif.Proofs.SuiteEvents
import Verif.Props.Suite
import Verif.Proofs.Requests
import Verif.Proofs.Local
import Verif.Props.Local
