import Verif.Model.AstSymbol
import Verif.Model.CharsFile
import Verif.Model.Compare
import Verif.Model.Debug
import Verif.Model.Dfa
import Verif.Model.First
import Verif.Model.FrontEnd
import Verif.Model.Grammar
import Verif.Model.GrammarFile
import Verif.Model.Hash
import Verif.Model.Item
import Verif.Model.Lex
import Verif.Model.LexGen
import Verif.Model.LexText
import Verif.Model.LexTrace
import Verif.Model.MiniTs
import Verif.Model.Nfa
import Verif.Model.OptionUsize
import Verif.Model.Parse
import Verif.Model.ParseGen
import Verif.Model.ParseText
import Verif.Model.Prelude
import Verif.Model.Program
import Verif.Model.Report
import Verif.Model.Show
import Verif.Model.Support
import Verif.Model.Table
import Verif.Model.TableOps
import Verif.Model.Trace
import Verif.Model.TsFiles
import Verif.Model.TsLex
import Verif.Model.TsParse
import Verif.Model.TsProg
import Verif.Model.TsUtil
import Verif.Spec.Apart
import Verif.Spec.Cfg
import Verif.Spec.CharsFile
import Verif.Spec.Checks
import Verif.Spec.Convert
import Verif.Spec.Eval
import Verif.Spec.Hash
import Verif.Spec.Idle
import Verif.Spec.LL1
import Verif.Spec.LexStep
import Verif.Spec.Lexer
import Verif.Spec.Lisp
import Verif.Spec.Lr
import Verif.Spec.Order
import Verif.Spec.Pieces
import Verif.Spec.Program
import Verif.Spec.Ranges
import Verif.Spec.Regex
import Verif.Spec.Rename
import Verif.Spec.Run
import Verif.Spec.Scan
import Verif.Spec.Show
import Verif.Spec.Simple
import Verif.Spec.SipHash
import Verif.Spec.Sizes
import Verif.Spec.Source
import Verif.Spec.Syntax
import Verif.Spec.TableMap
import Verif.Spec.Tail
import Verif.Spec.Tokens
import Verif.Spec.Trace
import Verif.Spec.TsDecl
import Verif.Spec.TsGenFile
import Verif.Spec.TsProject
import Verif.Spec.TsSyntax
import Verif.Spec.TsTables
import Verif.Spec.TsText
import Verif.Spec.TsType
import Verif.Spec.TsUser
import Verif.Spec.TsWritten
import Verif.Spec.Uniform
import Verif.Spec.Usable
import Verif.Proofs.ApartOk
import Verif.Proofs.BarOk
import Verif.Proofs.BuildOk
import Verif.Proofs.CharsFileOk
import Verif.Proofs.CharsTextOk
import Verif.Proofs.ChecksOk
import Verif.Proofs.Combine
import Verif.Proofs.Compare
import Verif.Proofs.DebugOk
import Verif.Proofs.DfaBuild
import Verif.Proofs.DfaEps
import Verif.Proofs.DfaTest
import Verif.Proofs.DfaWalk
import Verif.Proofs.EvalTotal
import Verif.Proofs.FirstDepth
import Verif.Proofs.FirstEps
import Verif.Proofs.FirstExact
import Verif.Proofs.FirstSpec
import Verif.Proofs.FrontCut
import Verif.Proofs.FrontLex
import Verif.Proofs.FrontParse
import Verif.Proofs.FrontSpell
import Verif.Proofs.GenFileOk
import Verif.Proofs.GeneratedOk
import Verif.Proofs.GrammarOk
import Verif.Proofs.HashOk
import Verif.Proofs.IdleOk
import Verif.Proofs.ItemSetOk
import Verif.Proofs.ItemsOk
import Verif.Proofs.KeptOk
import Verif.Proofs.LL1Ok
import Verif.Proofs.LL1Size
import Verif.Proofs.LexBytes
import Verif.Proofs.LexGenOk
import Verif.Proofs.LexReadOk
import Verif.Proofs.LexRun
import Verif.Proofs.LexSpec
import Verif.Proofs.LexTablesOk
import Verif.Proofs.LexTextOk
import Verif.Proofs.LexTraceOk
import Verif.Proofs.LexUnique
import Verif.Proofs.LispRust
import Verif.Proofs.LispScan
import Verif.Proofs.LispTrees
import Verif.Proofs.LispUser
import Verif.Proofs.LoopOk
import Verif.Proofs.MergeAny
import Verif.Proofs.MergeOk
import Verif.Proofs.MiniTs
import Verif.Proofs.MoreRules
import Verif.Proofs.MunchEnds
import Verif.Proofs.MunchUnique
import Verif.Proofs.NfaCompile
import Verif.Proofs.NfaLabels
import Verif.Proofs.NfaPath
import Verif.Proofs.NfaSim
import Verif.Proofs.Order
import Verif.Proofs.Overlap
import Verif.Proofs.OverlapLaminar
import Verif.Proofs.OverlapSize
import Verif.Proofs.OverlapTame
import Verif.Proofs.ParseGenOk
import Verif.Proofs.ParseOk
import Verif.Proofs.ParseReadOk
import Verif.Proofs.ParseTablesOk
import Verif.Proofs.ParseTextOk
import Verif.Proofs.PieceCompile
import Verif.Proofs.PiecePath
import Verif.Proofs.PieceScan
import Verif.Proofs.PieceSim
import Verif.Proofs.PieceWalk
import Verif.Proofs.ProgramOk
import Verif.Proofs.Progress
import Verif.Proofs.ReadOk
import Verif.Proofs.RenameOk
import Verif.Proofs.RenameText
import Verif.Proofs.ReportOk
import Verif.Proofs.ScanLits
import Verif.Proofs.ScanOk
import Verif.Proofs.ShowOk
import Verif.Proofs.SimpleOk
import Verif.Proofs.SipOk
import Verif.Proofs.SizesOk
import Verif.Proofs.SourceOk
import Verif.Proofs.TableOk
import Verif.Proofs.TableRows
import Verif.Proofs.TablesMore
import Verif.Proofs.TablesOk
import Verif.Proofs.TailLen
import Verif.Proofs.TailLex
import Verif.Proofs.TailOk
import Verif.Proofs.TailParse
import Verif.Proofs.TailQuad
import Verif.Proofs.TailRank
import Verif.Proofs.TokensOk
import Verif.Proofs.TraceOk
import Verif.Proofs.Trees
import Verif.Proofs.TsFilesLex
import Verif.Proofs.TsFilesParse
import Verif.Proofs.TsFilesUtil
import Verif.Proofs.TsFuel
import Verif.Proofs.TsGenActs
import Verif.Proofs.TsGenDefs
import Verif.Proofs.TsGenFileOk
import Verif.Proofs.TsInline
import Verif.Proofs.TsItemRules
import Verif.Proofs.TsLexAll
import Verif.Proofs.TsLexFile
import Verif.Proofs.TsLexOk
import Verif.Proofs.TsLexRun
import Verif.Proofs.TsParseOk
import Verif.Proofs.TsProjectOk
import Verif.Proofs.TsReadOk
import Verif.Proofs.TsReadRules
import Verif.Proofs.TsScanLits
import Verif.Proofs.TsScanOk
import Verif.Proofs.TsUserOk
import Verif.Proofs.TsUtilOk
import Verif.Proofs.TwiceOk
import Verif.Proofs.UniformOk
import Verif.Proofs.UsableOk
import Verif.Proofs.UsedOk
import Verif.Proofs.WrittenOk
import Verif.Props.Apart
import Verif.Props.AstSymbol
import Verif.Props.Bar
import Verif.Props.Basic
import Verif.Props.CharsFile
import Verif.Props.Checks
import Verif.Props.Collisions
import Verif.Props.Combine
import Verif.Props.Compare
import Verif.Props.Convert
import Verif.Props.Determinism
import Verif.Props.Dfa
import Verif.Props.EndToEnd
import Verif.Props.Ends
import Verif.Props.Expected
import Verif.Props.Fifty
import Verif.Props.FirstEps
import Verif.Props.FrontEnd
import Verif.Props.Generated
import Verif.Props.Grammar
import Verif.Props.Hash
import Verif.Props.Idle
import Verif.Props.Items
import Verif.Props.LL1
import Verif.Props.LL1Size
import Verif.Props.LexChain
import Verif.Props.LexExact
import Verif.Props.LexStep
import Verif.Props.LexTrace
import Verif.Props.Lexer
import Verif.Props.Lisp
import Verif.Props.LispRust
import Verif.Props.MoreRules
import Verif.Props.Parse
import Verif.Props.ParseExact
import Verif.Props.Program
import Verif.Props.Project
import Verif.Props.Quoting
import Verif.Props.Ranges
import Verif.Props.Regex
import Verif.Props.Rename
import Verif.Props.Samples
import Verif.Props.Show
import Verif.Props.Simple
import Verif.Props.Sizes
import Verif.Props.Source
import Verif.Props.TableMap
import Verif.Props.Tables
import Verif.Props.TailCalls
import Verif.Props.Trace
import Verif.Props.TsExact
import Verif.Props.TsFiles
import Verif.Props.TsLex
import Verif.Props.TsParse
import Verif.Props.TsPipeline
import Verif.Props.TsUtil
import Verif.Props.Twice
import Verif.Props.Uniform
import Verif.Props.Usable
import Verif.Props.Used
import Verif.Props.Writable
import Verif.Props.Written
import Verif.Props.WrittenValue
import Verif.Tests.Lisp
import Verif.Tests.RepoChars
import Verif.Tests.RepoFiles
import Verif.Tests.RepoRead
import Verif.Tests.TsFiles
import Verif.Tests.Unit
import Verif.Axioms
