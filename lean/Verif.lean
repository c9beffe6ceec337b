import Verif.Cursor
import Verif.ColumnVector
import Verif.BinarySearch
import Verif.ColumnRle
import Verif.ColumnBuild
import Verif.PropColumns
import Verif.ColumnJoin
import Verif.ColumnUnion
import Verif.ColumnSubtract
import Verif.ColumnFilter
import Verif.PropColumnOps
import Verif.IntervalColumn
import Verif.Trie
import Verif.TrieRep
import Verif.TrieBuild
import Verif.RowScan
import Verif.RowScanProofs
import Verif.TreeRows
import Verif.TrieScanBuild
import Verif.TrieLookup
import Verif.TypedLookup
import Verif.TupleBuffer
import Verif.PropTries
import Verif.Subtables
import Verif.RuleModel
import Verif.Planning
import Verif.RelAlgebra
import Verif.BodyEval
import Verif.HeadEval
import Verif.Engine
import Verif.Strategies
import Verif.PhaseEval
import Verif.Stratify
import Verif.EngineRun
import Verif.PropEngine
import Verif.EngineSafety
import Verif.EngineExamples
import Verif.Permutation
import Verif.ProjectReorder
import Verif.OrderManager
import Verif.BitSets
import Verif.DataValue
import Verif.StackProgram
import Verif.IntArith
import Verif.Builtins
import Verif.TypeProp
import Verif.StringFns
import Verif.Prune
import Verif.AggregateScan
import Verif.Aggregates
import Verif.BytesBuffer
import Verif.BytesDict
import Verif.RankedPair
import Verif.MetaDict
import Verif.MetaDictProofs
import Verif.PropDict
import Verif.ColumnParam
import Verif.TrieOpCommon
import Verif.TrieTable
import Verif.TrieJoin
import Verif.TrieUnion
import Verif.TrieSubtract
import Verif.UnaryColumn
import Verif.TrieUnary
import Verif.TrieFilter
import Verif.TrieFunction
import Verif.TrieFunctionGen
import Verif.TriePlan
import Verif.PlanBuiltins
import Verif.TrieDependents
import Verif.RestrictedHead
import Verif.ChaseStep
import Verif.ChaseRun
import Verif.ChaseUniversal
import Verif.ChaseRestricted
import Verif.ChaseExamples
import Verif.Pipeline
import Verif.Source
import Verif.NormalizeProofs
import Verif.NormalizeBody
import Verif.NormalizeRule
import Verif.NormalizeProg
import Verif.VariableOrder
import Verif.Validate
import Verif.NormalizeTerm
import Verif.NormalizeExamples
import Verif.ChaseSource
import Verif.ChaseSourceExamples
import Verif.ImportFilter
import Verif.ImportPattern
import Verif.FilterImports
import Verif.PushRules
import Verif.PropImports
import Verif.ImportsExamples
import Verif.Literals
import Verif.LiteralProofs
import Verif.PropLiterals
import Verif.DataText
import Verif.CellFormat
import Verif.PropCells
import Verif.TableFiles
import Verif.PropFiles
import Verif.PropRdf
import Verif.PropFilesMore
import Verif.FileExamples
import Verif.Tracing
import Verif.TraceHistory
import Verif.TraceQuery
import Verif.TraceRun
import Verif.PropTrace
import Verif.TraceExamples
import Verif.ExecPlan
import Verif.ExecOrders
import Verif.ExecInv
import Verif.ExecOps
import Verif.ExecTrees
import Verif.ExecBody
import Verif.ExecRun
import Verif.PropExec
import Verif.ExecExamples
import Verif.ParseAst
import Verif.ParseCore
import Verif.ParseExpr
import Verif.ParseGrammar
import Verif.ParseLex
import Verif.ParseBasic
import Verif.ParseSimple
import Verif.ParseComplex
import Verif.ParseInduct
import Verif.ParseProofs
import Verif.ParseStatement
import Verif.ParseProgramText
import Verif.ParseGuards
import Verif.ParseStmtProofs
import Verif.ParseProgramProofs
import Verif.ParseTotal
import Verif.ParseRecover
import Verif.ParseFuel
import Verif.PropParse
import Verif.ParseExamples
import Verif.ExInduction
import Verif.ExDecide
import Verif.Translate
import Verif.TextMeaning
import Verif.TextSource
import Verif.TextRules
import Verif.TextDerive
import Verif.TextRun
import Verif.PropText
import Verif.PropTranslate
import Verif.TextExamples
import Verif.TextChase
import Verif.TextChaseExamples
import Verif.DataDomain
import Verif.DataDomainProofs
import Verif.DataTrees
import Verif.PropData
import Verif.DataExamples
import Verif.PropFunctions
import Verif.TrieNull
import Verif.PropNull
import Verif.ImportPaging
import Verif.PropPaging
import Verif.PagingExamples
import Verif.ImportRule
import Verif.PropImportRule
import Verif.ImportRuleExamples
import Verif.Flatten
import Verif.PropFlatten
import Verif.PropFlattenMore
import Verif.FlattenExamples
import Verif.Incremental
import Verif.PropIncremental
import Verif.PropIncrementalMore
import Verif.IncrementalExamples
import Verif.MergeSparql
import Verif.PropMergeSparql
import Verif.PropSparql
import Verif.PropSparqlMerge
import Verif.Sparql
import Verif.PropMergeRule
import Verif.SparqlExamples
import Verif.PropMergeImport
import Verif.PropMergeProgram
import Verif.SparqlImportExamples
import Verif.PropSparqlProgram
import Verif.SparqlProgramExamples
import Verif.Revision
import Verif.PropRevision
import Verif.RevisionExamples
import Verif.Global
import Verif.PropGlobal
import Verif.GlobalExamples
import Verif.Arity
import Verif.PropArity
import Verif.ArityExamples
import Verif.Json
import Verif.PropJson
import Verif.JsonExamples
import Verif.TreeQuery
import Verif.PropTreeQuery
import Verif.TreeQueryExamples
import Verif.NodeQuery
import Verif.PropNodeQuery
import Verif.NodeQueryExamples
import Verif.SingleOp
import Verif.NodeQueryOperator
import Verif.ExportFiles
import Verif.ExportFilesExamples
import Verif.ExportResource
