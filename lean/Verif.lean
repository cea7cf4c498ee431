import Verif.Model.Engine
import Verif.Model.SnapshotMap
import Verif.Model.Convert
import Verif.Model.StandardSpec
import Verif.Model.Cli
import Verif.Props.Syntax
import Verif.Props.SpecQuery
import Verif.Props.Cli
import Verif.Props.SnapshotMap
import Verif.Props.ArgMatch
import Verif.Model.ArgCounter
import Verif.Props.ArgCounter
import Verif.Props.Glob
import Verif.Props.Lexer
import Verif.Props.Rules
import Verif.Props.Consume
import Verif.Props.Stream
import Verif.Props.Engine
import Verif.Props.Calls
import Verif.Props.EngineGlobal
import Verif.Props.Terminate
import Verif.Props.Parser
import Verif.Props.ParserTree
import Verif.Props.Convert
import Verif.Props.ConvParts
import Verif.Props.Table
import Verif.Props.NoPanic
import Verif.Props.Plain
import Verif.Props.Template
import Verif.Spec.Grammar
import Verif.Proof.GrammarFun
import Verif.Proof.GrammarAgree
import Verif.Proof.GrammarArgs
import Verif.Proof.GrammarItems
import Verif.Proof.GrammarMono
import Verif.Proof.GrammarRel
import Verif.Proof.GrammarFull
import Verif.Props.Grammar
import Verif.Model.Compile
import Verif.Props.Compile
import Verif.Spec.Glob
import Verif.Proof.GlobExact
import Verif.Props.GlobExact
import Verif.Props.GlobStars
import Verif.Model.GlobCapture
import Verif.Proof.GlobCapture
import Verif.Proof.GlobBounds
import Verif.Spec.GlobCapture
import Verif.Proof.GlobWalk
import Verif.Props.GlobCapture
import Verif.Spec.Nesting
import Verif.Proof.Nesting
import Verif.Proof.NestingTemplate
import Verif.Proof.NestingAll
import Verif.Proof.NestingGrammar
import Verif.Props.Nesting
import Verif.Spec.Expansion
import Verif.Proof.Expansion
import Verif.Proof.ExpansionStep
import Verif.Props.StreamPanic
import Verif.Props.Expansion
import Verif.Spec.Clause
import Verif.Proof.Clause
import Verif.Props.Exact
import Verif.Spec.Path
import Verif.Spec.EndToEnd
import Verif.Props.EndToEnd
import Verif.Spec.Formula
import Verif.Proof.FormulaLex
import Verif.Proof.FormulaMacro
import Verif.Proof.FormulaTree
import Verif.Proof.FormulaParse
import Verif.Proof.FormulaPrint
import Verif.Proof.FormulaCheck
import Verif.Props.Formula
import Verif.Spec.Document
import Verif.Proof.DocLex
import Verif.Proof.DocPrint
import Verif.Proof.DocParse
import Verif.Proof.DocImage
import Verif.Proof.DocTable
import Verif.Proof.DocFigure
import Verif.Proof.DocWhole
import Verif.Proof.DocCheck
import Verif.Props.Document
import Verif.Spec.Program
import Verif.Proof.Program
import Verif.Proof.ProgramCheck
import Verif.Props.Program
import Verif.Model.Lazy
import Verif.Proof.LazySim
import Verif.Proof.LazyKeep
import Verif.Proof.LazyLex
import Verif.Props.Lazy
import Verif.Spec.Size
import Verif.Proof.SizeTree
import Verif.Proof.SizeTemplate
import Verif.Proof.SizeAll
import Verif.Props.Size
import Verif.Spec.Local
import Verif.Proof.Local
import Verif.Proof.LocalJoin
import Verif.Proof.LocalClosed
import Verif.Props.Local
import Verif.Spec.Agree
import Verif.Proof.AgreeLex
import Verif.Proof.AgreeParse
import Verif.Proof.TemplateParts
import Verif.Proof.AgreeConvert
import Verif.Props.Agree
import Verif.Spec.FormulaAlone
import Verif.Proof.LocalFormula
import Verif.Props.FormulaAlone
import Verif.Model.SpecJson
import Verif.Spec.SpecJson
import Verif.Proof.SpecJson
import Verif.Proof.SpecJsonAlike
import Verif.Props.SpecJson
import Verif.Props.SpecScope
import Verif.Proof.StandardNames
import Verif.Model.Ast
import Verif.Spec.Ast
import Verif.Proof.Ast
import Verif.Props.Ast
import Verif.Spec.OneFormula
import Verif.Props.OneFormula
import Verif.Spec.Words
import Verif.Spec.Within
import Verif.Proof.Words
import Verif.Proof.WordsAll
import Verif.Props.Words
import Verif.Spec.Shown
import Verif.Proof.Shown
import Verif.Proof.ShownAll
import Verif.Props.Shown
import Verif.Spec.Blank
import Verif.Proof.Blank
import Verif.Proof.BlankTree
import Verif.Proof.BlankMacro
import Verif.Props.Blank
import Verif.Spec.Respaced
import Verif.Proof.Respaced
import Verif.Proof.RespacedCmd
import Verif.Proof.RespacedAll
import Verif.Props.Respaced
import Verif.Spec.Layout
import Verif.Proof.Layout
import Verif.Proof.LayoutLex
import Verif.Props.Layout
import Verif.Spec.Renamed
import Verif.Proof.Renamed
import Verif.Props.Renamed
import Verif.Spec.Unused
import Verif.Proof.Unused
import Verif.Props.Unused
import Verif.Props.Idempotent
import Verif.Model.Utf8
import Verif.Proof.Utf8
import Verif.Props.Utf8
import Verif.Props.Verbatim
import Verif.Props.Braces
