import Verif.Base.StableSort
import Verif.Base.Bytes
import Verif.TextEdit.Model
import Verif.TextEdit.Spec
import Verif.TextEdit.Lemmas
import Verif.TextEdit.UnionLemmas
import Verif.TextEdit.Props
import Verif.LineEndings.Model
import Verif.LineEndings.Props
import Verif.OpQueue.Model
import Verif.OpQueue.Props
import Verif.SemTokens.Model
import Verif.SemTokens.Props
import Verif.Completion.Model
import Verif.Completion.Props
import Verif.Base.Lsp
import Verif.Documents.LineIndex
import Verif.Documents.Model
import Verif.Documents.Spec
import Verif.Documents.Lemmas
import Verif.Documents.Props
import Verif.Workspace.Model
import Verif.Workspace.Spec
import Verif.Workspace.Props
import Verif.Workspace.PackageProps
import Verif.ClientEdits.Model
import Verif.ClientEdits.Props
import Verif.SpecFiles.Model
import Verif.SpecFiles.Props
import Verif.Server.Requests
import Verif.Server.RequestProps
import Verif.Server.Loop
import Verif.Server.LoopProps
import Verif.Server.Outgoing
import Verif.Packages.Model
import Verif.Packages.Spec
import Verif.Packages.Lemmas
import Verif.Packages.Props
import Verif.Packages.LoadProps
import Verif.Syntax.Kind
import Verif.Lexer.Model
import Verif.Lexer.Lemmas
import Verif.Lexer.Props
import Verif.Lexer.Kinds
import Verif.TokenSet.Model
import Verif.TokenSet.Props
import Verif.Comments.Model
import Verif.Comments.Props
import Verif.Parser.Event
import Verif.Parser.EventLemmas
import Verif.Parser.Sink
import Verif.Parser.SinkLemmas
import Verif.Parser.Source
import Verif.Parser.Api
import Verif.Parser.Grammar.Base
import Verif.Parser.Grammar.Exprs
import Verif.Parser.Grammar.Specs
import Verif.Parser.Grammar.Top
import Verif.Parser.Logic
import Verif.Parser.Hoare
import Verif.Parser.Auto
import Verif.Parser.Proofs.Base
import Verif.Parser.Proofs.Exprs
import Verif.Parser.Proofs.Specs
import Verif.Parser.Proofs.Top
import Verif.Parser.Proofs.Run
import Verif.Parser.Text
import Verif.Parser.Props
import Verif.Parser.Failures
import Verif.Types.Ty
import Verif.Types.Table
import Verif.Types.TableProps
import Verif.Types.Subst
import Verif.Types.Tree
import Verif.Types.SubstProps
import Verif.Types.Combine
import Verif.Types.Props
import Verif.Types.CombineProps
import Verif.Types.Termination
import Verif.Types.Compat
import Verif.Types.Bounds
import Verif.Nameres.Address
import Verif.Syntax.Tree
import Verif.Syntax.Tokens
import Verif.Nameres.ItemScope
import Verif.Nameres.Labels
import Verif.Nameres.Scopes
import Verif.Ide.ActiveParam
import Verif.Ide.Highlights
import Verif.Nameres.Visible
import Verif.TextEdit.TreeDiff
import Verif.Ide.Assists
import Verif.Ide.Extend
import Verif.Ide.ExtendProps
import Verif.Ide.Signature
import Verif.Ide.Usages
import Verif.Ide.UsagesProps
import Verif.Ide.UsageScope
import Verif.Parser.Words
import Verif.Parser.Relabel
import Verif.Lexer.Relex
import Verif.Parser.Relex
import Verif.Parser.Ascii
import Verif.Syntax.Relabel
import Verif.Nameres.Renamed
import Verif.Ide.Rename
import Verif.Ide.RenameProps
import Verif.Ide.RenameLocal
import Verif.Ide.RenameExamples
import Verif.Parser.Exact
import Verif.Parser.Emits
import Verif.Parser.Precedence
import Verif.Parser.PrecLemmas
import Verif.Parser.PrecMain
import Verif.Parser.PrecFile
import Verif.Parser.Shape
import Verif.Parser.PrecProps
import Verif.Ide.RenameMore
import Verif.Parser.PrecBodyProps
import Verif.Ide.QuickFix
import Verif.Ide.QuickFixProps
import Verif.Ide.QuickFixFactory
import Verif.Nameres.Path
import Verif.Ide.Imports
import Verif.Ide.ImportsProps
import Verif.Ide.ImportsReport
import Verif.Ide.ImportsExamples
import Verif.Nameres.Resolve
import Verif.Nameres.ResolveProps
import Verif.Nameres.ResolvePaths
import Verif.Ide.ResolveExamples
import Verif.Nameres.ResolveScope
import Verif.Ide.ScopeExamples
import Verif.Ide.ImportsNames
import Verif.Editor.Model
import Verif.Editor.Lemmas
import Verif.Editor.Props
import Verif.Ide.Organize
import Verif.Ide.OrganizeProps
import Verif.Ide.OrganizeFile
import Verif.Ide.OrganizeExamples
import Verif.Ide.AutoImport
import Verif.Ide.AutoImportText
import Verif.Ide.AutoImportOffers
import Verif.Ide.AutoImportPlace
import Verif.Ide.AutoImportProps
import Verif.Ide.AutoImportExamples
import Verif.Ide.OrganizeOne
import Verif.Ide.Outline
import Verif.Ide.OutlineProps
import Verif.Parser.Content
import Verif.Parser.Full
import Verif.Parser.Neat
import Verif.Syntax.Required
import Verif.Syntax.RequiredProps
import Verif.Ide.UsagesOnce
import Verif.Syntax.RequiredExamples
import Verif.Ide.Symbols
import Verif.Ide.SymbolsProps
import Verif.Ide.SymbolsCollect
import Verif.Ide.SymbolsExamples
import Verif.Ide.Unused
import Verif.Ide.UnusedFix
import Verif.Ide.UnusedExamples
import Verif.Ide.Counts
import Verif.Ide.CountsProps
import Verif.Ide.CountsArgs
import Verif.Ide.CountsExamples
import Verif.Ide.TypeErrors
import Verif.Ide.Simplify
import Verif.Ide.SimplifyExamples
import Verif.Types.Render
import Verif.Types.RenderProps
import Verif.Nameres.Loc
import Verif.Ide.Unresolved
import Verif.Ide.UnresolvedProps
import Verif.Ide.UnresolvedExamples
import Verif.Ide.FieldTypes
import Verif.Ide.FieldTypesExamples
import Verif.Ide.Inlay
import Verif.Ide.InlayProps
import Verif.Ide.InlayExamples
import Verif.Ide.Complete
import Verif.Ide.CompleteProps
import Verif.Ide.CompleteExamples
import Verif.Ide.Runnables
import Verif.Ide.RunnablesProps
import Verif.Ide.RunnablesExamples
import Verif.Ide.CompleteFields
import Verif.Ide.CompleteFieldsExamples
import Verif.Ide.Specs
import Verif.Ide.SpecsExamples
import Verif.Ide.ProverRuns
import Verif.Ide.VisFix
import Verif.Ide.HighlightRelated
import Verif.Ide.Docs
import Verif.Ide.Unneeded
import Verif.Ide.Shorthand
