import Verif.Numck
import Verif.PropNumck
import Verif.Lsp
import Verif.LspLemmas
import Verif.PropLsp
import Verif.PropTokens
import Verif.Matchck
import Verif.PropMatchck
import Verif.Names
import Verif.PropNames
import Verif.Heap
import Verif.HeapLemmas
import Verif.HeapCompact
import Verif.HeapAlloc
import Verif.VmAlloc
import Verif.PropHeap
import Verif.PropVmAlloc
import Verif.Ir
import Verif.Treewalk
import Verif.EvalLemmas
import Verif.PropEval
import Verif.Interp
import Verif.PropMain
import Verif.Cost
import Verif.Logrel
import Verif.Logrel2
import Verif.Walk
import Verif.Scope
import Verif.Passes
import Verif.OptSpec
import Verif.Reduce
import Verif.ReduceLemmas
import Verif.ReduceOK
import Verif.WnCheck
import Verif.PropReduce
import Verif.LeJ
import Verif.InlineSimple
import Verif.InlineSimpleOK
import Verif.PropInlineSimple
import Verif.Dce
import Verif.DceOK
import Verif.PropDce
import Verif.WalkO
import Verif.MergeMatch
import Verif.MergeLemmas
import Verif.MergeOK
import Verif.PropMerge
import Verif.MoveMatch
import Verif.PropMove
import Verif.Unify
import Verif.UnifyLemmas
import Verif.PropUnify
import Verif.PropKinds
import Verif.Parser
import Verif.ParserEvents
import Verif.ParserSpec
import Verif.ParserGrammar
import Verif.ParserReorder
import Verif.ParserTree
import Verif.Driver
import Verif.PropParser
import Verif.Imports
import Verif.PropImports
import Verif.Resolve
import Verif.ResolveSpec
import Verif.ResolveProof
import Verif.PropResolve
import Verif.Lambda
import Verif.LambdaOK
import Verif.LambdaSim
import Verif.PropLambda
import Verif.PropTail
import Verif.ArgsFirst
import Verif.Bytecode
import Verif.BytecodeFn
import Verif.BytecodeLink
import Verif.BytecodeMachine
import Verif.BytecodeOK
import Verif.BytecodeProg
import Verif.BytecodeRun
import Verif.BytecodeSim
import Verif.BytecodeSimAll
import Verif.BytecodeStep
import Verif.BytecodeTail
import Verif.PropBytecode
import Verif.Inline
import Verif.Rename
import Verif.RenameCopy
import Verif.Rebuild
import Verif.InlineOK
import Verif.InlineGo
import Verif.InlineTerm
import Verif.PropInline
import Verif.Saturate
import Verif.SatRel
import Verif.SatSem
import Verif.SatPass
import Verif.SatWalk
import Verif.SatColl
import Verif.SatDefs
import Verif.PropSaturate
import Verif.Optimize
import Verif.PropOptimize
import Verif.Verify
import Verif.TySem
import Verif.TyCompat
import Verif.VerifyScope
import Verif.VerifyTypes
import Verif.PropVerify
import Verif.Source
import Verif.Typeck
import Verif.Typing
import Verif.TypeckInv
import Verif.TypeckSol
import Verif.TypeckSound
import Verif.TypeckItem
import Verif.Scoped
import Verif.PropTypeck
import Verif.TypeckTotal
import Verif.TypeckEscape
import Verif.TypeckExamples
import Verif.Generate
import Verif.ProgramOK
import Verif.Logic
import Verif.GenExt
import Verif.GenTotal
import Verif.GenSound
import Verif.GenRun
import Verif.GenFns
import Verif.GenTypes
import Verif.Meaning
import Verif.MeaningDet
import Verif.MeaningRel
import Verif.MeaningSim
import Verif.MeaningApply
import Verif.MeaningDefs
import Verif.GenItems
import Verif.PropGenerate
import Verif.GenChecked
import Verif.GenExamples
import Verif.GenFindings
import Verif.PropMeaning
import Verif.MeaningExamples
import Verif.VerTy
import Verif.VerScope
import Verif.VerInst
import Verif.VerSteps
import Verif.VerExpr
import Verif.VerGen
import Verif.VerTypes
import Verif.VerDefs
import Verif.VerCtors
import Verif.VerItems
import Verif.VerValue
import Verif.VerType
import Verif.PropVerified
import Verif.GenShape
import Verif.VerifyShape
import Verif.EmitCore
import Verif.PropEmit
import Verif.EmitExamples
import Verif.HeapVm
import Verif.HeapVmRep
import Verif.HeapVmOK
import Verif.HeapVmStart
import Verif.HeapVmEval
import Verif.HeapVmFits
import Verif.PropHeapVm
import Verif.PropFormat
import Verif.PropPretty
import Verif.Api
import Verif.ApiNodes
import Verif.ApiProof
import Verif.ApiNav
import Verif.PropApi
import Verif.PropUnused
import Verif.Complete
import Verif.CompleteSpec
import Verif.CompleteProof
import Verif.CompleteItem
import Verif.PropComplete
import Verif.GrammarSpec
import Verif.GrammarEvents
import Verif.GrammarErase
import Verif.GrammarEmit
import Verif.GrammarFwd
import Verif.GrammarFwdExpr
import Verif.GrammarFwdItem
import Verif.GrammarMono
import Verif.GrammarBack
import Verif.GrammarBackItem
import Verif.GrammarErrors
import Verif.PropGrammar
import Verif.Lower
import Verif.LowerSpec
import Verif.LowerLabel
import Verif.LowerShow
import Verif.LowerShows
import Verif.LowerItems
import Verif.LowerBack
import Verif.PropLower
import Verif.LowerUniq
import Verif.LeafEvents
import Verif.LeafParse
import Verif.LeafReorder
import Verif.LeafTree
import Verif.PropLeaf
import Verif.LowerExample
import Verif.Lexer
import Verif.LexerSpec
import Verif.LexerProof
import Verif.LexerWrite
import Verif.PropLexer
import Verif.LexerExample
import Verif.PrintTy
import Verif.PrintTyProof
import Verif.PropPrint
import Verif.PrintExample
import Verif.Hover
import Verif.HoverFind
import Verif.HoverChecked
import Verif.PropHover
import Verif.HoverExample
import Verif.UnitOf
import Verif.UnitCount
import Verif.UnitSpan
import Verif.PropUnit
import Verif.UnitExample
import Verif.Spell
import Verif.SpellNames
import Verif.PropSpell
import Verif.SpellExample
import Verif.SpellCount
import Verif.SpellShow
import Verif.SpellWhole
import Verif.SpellFound
import Verif.PropEvery
import Verif.EveryExample
import Verif.Server
import Verif.ServerProof
import Verif.PropServer
import Verif.ServerTotal
import Verif.ServerExample
import Verif.Jit
import Verif.JitProof
import Verif.JitCalls
import Verif.JitGc
import Verif.JitRun
import Verif.JitExample
import Verif.JitMean
import Verif.JitHeap
import Verif.PropJitMean
import Verif.JitFits
import Verif.NameInfo
import Verif.PropNameInfo
import Verif.Messages
import Verif.PropMessages
