import Verif.Py
import Verif.Util
import Verif.Dict
import Verif.Scope
import Verif.DF
import Verif.IntConst
import Verif.Optimizer
import Verif.Bits
import Verif.Sem
import Verif.Props.ScopeProps
import Verif.Props.IntConstProps
import Verif.Props.OperatorProps
import Verif.Props.ConstFoldProps
import Verif.Props.ConstFoldSound
import Verif.Props.OptTermsProps
import Verif.Props.CondProps
import Verif.Props.CondSound
import Verif.BitSem
import Verif.Props.ConcatProps
import Verif.Props.TakePartProps
import Verif.Props.ResolveProps
import Verif.Reorder
import Verif.Props.ReorderProps
import Verif.Props.ReplaceProps
import Verif.Props.ReorderTotal
import Verif.Splitter
import Verif.Props.SplitterProps
import Verif.Transition
import Verif.Props.RangeProps
import Verif.Props.TransitionProps
import Verif.Fsm
import Verif.Controlflow
import Verif.FsmGraph
import Verif.Props.FsmLoops
import Verif.Props.ActiveProps
import Verif.Props.DelayProps
import Verif.Props.FsmBuild
import Verif.Props.FsmView
import Verif.NodeEq
import Verif.Props.NodeEqProps
import Verif.Props.FsmReset
import Verif.Merge
import Verif.Props.MergeSources
import Verif.Props.MergeTree
import Verif.Props.MergeSplit
import Verif.Props.MergePositions
import Verif.Props.MergedTree
import Verif.Props.ElementTree
import Verif.Walker
import Verif.Props.WalkTotal
import Verif.Props.OptTotal
import Verif.Props.MergeTotal
import Verif.Props.ReorderTerms
import Verif.Props.TreeTerms
import Verif.Props.WalkLeaves
import Verif.Props.WalkValue
import Verif.Stores
import Verif.Props.StoresProps
import Verif.Active
import Verif.Ast
import Verif.Binder
import Verif.Props.BindTreeProps
import Verif.Props.ExprProps
import Verif.Props.NbSpec
import Verif.Props.NbTree
import Verif.Props.NbRight
import Verif.Props.NbNorm
import Verif.Props.NbFlat
import Verif.Props.NbFrames
import Verif.Props.NbSim
import Verif.Props.NbVisit
import Verif.Props.NbTop
import Verif.Props.NbModule
import Verif.Props.BinderLookup
import Verif.Props.SubsetProps
import Verif.Props.IdentProps
import Verif.Codegen
import Verif.Lexer
import Verif.LexSpec
import Verif.ExprParser
import Verif.CodegenSpec
import Verif.Props.LexProps
import Verif.Props.LexLit
import Verif.Props.LexPun
import Verif.Props.CodeLex
import Verif.Props.ParseProps
import Verif.Props.CodegenProps
import Verif.Props.DFCode
import Verif.Props.DeclProps
import Verif.Props.IndexedSelect
import Verif.StmtCodegen
import Verif.StmtParser
import Verif.StmtSpec
import Verif.Props.Reindent
import Verif.Props.StmtLex
import Verif.Props.StmtPrint
import Verif.Props.StmtParse
import Verif.Props.StmtRound
import Verif.Props.StmtProps
import Verif.DstSpec
import Verif.Props.DstProps
import Verif.Props.DstAssign
import Verif.Module
import Verif.ModuleParser
import Verif.ModuleSpec
import Verif.Props.ModulePrint
import Verif.Props.ModuleParse
import Verif.Props.ModuleRound
import Verif.Props.ModuleProps
import Verif.Props.ModuleDecls
import Verif.Elab
import Verif.Props.BaSpec
import Verif.Props.ElabSpec
import Verif.Props.ElabInv
import Verif.Props.ElabStep
import Verif.Props.ElabAlways
import Verif.Props.ElabTable
import Verif.Props.ElabInst
import Verif.Props.ElabGate
import Verif.Props.ElabTop
import Verif.Props.ElabDesign
import Verif.Props.ElabProps
import Verif.Props.BaProps
import Verif.Props.BaParts
import Verif.Props.BaConv
import Verif.Props.BaFrames
import Verif.Props.BaStep
import Verif.Props.BaAssign
import Verif.Props.BaSides
import Verif.Props.BaOpen
import Verif.Props.BaSem
import Verif.Props.BaGood
import Verif.Props.BaTop
import Verif.Props.BaExample
import Verif.BindCode
import Verif.Props.BindText
import Verif.Props.BindTextValue
import Verif.LexPos
import Verif.Props.LexPosProps
import Verif.GrammarSpec
import Verif.Props.GrammarProps
import Verif.Props.GrammarSound
import Verif.StmtGrammar
import Verif.Props.StmtGrammarProps
import Verif.Props.StmtGrammarSound
import Verif.Graphgen
import Verif.Props.GraphProps
import Verif.Props.GraphShared
import Verif.DataflowCodegen
import Verif.Props.GenTextTerm
import Verif.Props.GenTextProps
import Verif.Props.GenTextMore
import Verif.SignalVisitor
import Verif.Props.GenSpec
import Verif.Props.GenEval
import Verif.Props.GenInv
import Verif.Props.GenStep
import Verif.Props.GenDecl
import Verif.Props.GenItem
import Verif.Props.GenTable
import Verif.Props.GenInst
import Verif.Props.GenMain
import Verif.Props.GenTop
import Verif.Props.GenProps
import Verif.HierName
import Verif.Props.FrameTree
import Verif.Props.HierProps
import Verif.Dump
import Verif.Props.DumpProps
import Verif.Props.DumpSignal
import Verif.Props.ResetProps
import Verif.Props.LexLongest
import Verif.Show
import Verif.Props.ShowProps
import Verif.Calls
import Verif.Props.CallSpec
import Verif.Props.CallQuiet
import Verif.Props.CallBody
import Verif.Props.CallSteps
import Verif.Props.CallProps
import Verif.Props.CallTop
import Verif.Props.CallEx
import Verif.ActiveRange
import Verif.Props.ARangeSpec
import Verif.Props.ARangeProps
import Verif.Props.ARangeOps
import Verif.Props.ARangeWalk
import Verif.Props.ARangeLists
import Verif.Props.C92
import Verif.Props.C93
import Verif.Props.C94
import Verif.Props.C95
import Verif.Props.C96
import Verif.Props.LoopFrames
import Verif.Props.C97
import Verif.Props.LoopVar
import Verif.Props.C97Var
import Verif.Props.LoopWhile
import Verif.Props.LoopNest
import Verif.Props.C98
