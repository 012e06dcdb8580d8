import Verif.Formula
import Verif.Semantics
import Verif.Subst
import Verif.SubstProps
import Verif.Iterators
import Verif.IteratorProps
import Verif.Unifier
import Verif.UnifierProps
import Verif.Protocol
import Verif.Trace
import Verif.OrderProps
import Verif.StdRun
import Verif.ExecProps
import Verif.CellProps
import Verif.ProtocolProps
import Verif.OrderAdequacy
import Verif.Runner
import Verif.RunnerProps
import Verif.RoundConc
import Verif.Smt
import Verif.SmtSpec
import Verif.SmtProps
import Verif.SmtFileProps
import Verif.Utils
import Verif.UtilsProps
import Verif.Sanitize
import Verif.SanitizeProps
import Verif.Ast
import Verif.AllOrOne
import Verif.AllOrOneProps
import Verif.Squirrel
import Verif.SquirrelProps
import Verif.SqOrder
import Verif.SqOrderProps
import Verif.Parser
import Verif.ParserSpec
import Verif.ParserLemmas
import Verif.ParserMain
import Verif.ParserMain2
import Verif.ParserProps
import Verif.ParserInv
import Verif.SigUnify
import Verif.ParserTotal
import Verif.Load
import Verif.LoadProps
import Verif.LoadSteps
import Verif.LoadAll
import Verif.LoadMain
import Verif.Container
import Verif.ContainerProps
import Verif.NameProps
import Verif.Cli
import Verif.CliProps
import Verif.Piles
import Verif.Deps
import Verif.DepsProps
import Verif.DepsLoad
import Verif.UnifierOn
import Verif.Search
import Verif.SearchSpec
import Verif.SearchProps
import Verif.FreeModel
import Verif.UnfoldProps
import Verif.SearchParts
import Verif.SearchMain
import Verif.SearchEx
import Verif.SearchCounter
import Verif.ExistProps
import Verif.Evaluate
import Verif.EvaluateProps
import Verif.EvalPush
import Verif.EvalEx
import Verif.Crypto
import Verif.CryptoProps
import Verif.CryptoEx
import Verif.Subterm
import Verif.SubtermProps
import Verif.SubtermEx
import Verif.IntCtxt
import Verif.IntCtxtProps
import Verif.IntCtxtEx
import Verif.SearchExact
import Verif.SubtermDef
import Verif.SubtermDefEx
import Verif.Expander
import Verif.Discover
import Verif.DiscoverProps
import Verif.DiscoverEx
import Verif.Ind
import Verif.IndRules
import Verif.IndSearch
import Verif.IndTotal
import Verif.IndEx
import Verif.NonceEvProps
import Verif.NonceEvEx
import Verif.Generate
import Verif.GenerateDecls
import Verif.GenerateProps
import Verif.GenerateEx
import Verif.GenerateEx2
import Verif.GenerateEnough
import Verif.Grammar
import Verif.GrammarLemmas
import Verif.GrammarSpec
import Verif.GrammarTerms
import Verif.GrammarStm
import Verif.GrammarTotal
import Verif.GrammarSafe
import Verif.GrammarBugs
import Verif.GrammarBack
import Verif.GrammarPrint
import Verif.SqDump
import Verif.SqTop
import Verif.SqTopProps
import Verif.FileLoad
import Verif.SqMean
import Verif.SqProblem
import Verif.SqJson
import Verif.SqJsonSpec
import Verif.SqJsonProps
import Verif.SqJsonDump
import Verif.SqJsonFile
import Verif.ElabWs
import Verif.ElabAccept
import Verif.ElabLoad
import Verif.SortSpec
import Verif.ElabTyped
import Verif.ElabSorted
import Verif.Build
import Verif.BuildProps
import Verif.BuildFile
import Verif.BuildMain
import Verif.BuildEx
import Verif.Loc
import Verif.Keys
import Verif.SqTrace
import Verif.Scope
import Verif.ScopeSq
import Verif.BuildDecls
import Verif.BuildDeclsSyms
import Verif.BuildDeclsMain
import Verif.OutFiles
import Verif.SmtCongr
import Verif.BuildText
import Verif.BuildTextProps
import Verif.BuildTextEx
import Verif.BuildTextEx2
import Verif.SolverCall
import Verif.SolverCallProps
import Verif.GenSyms
import Verif.GenSyms2
import Verif.GenSyms3
import Verif.BuildSyms
import Verif.BuildSigs
import Verif.BuildDeclOk
import Verif.BuildUsed
import Verif.BuildCli
