import Verif.DbSync.Invariant
import Verif.DbSync.Lemmas
import Verif.DbSync.Model
import Verif.DbSync.Spec
import Verif.Flycheck.Model
import Verif.Flycheck.SpComp
import Verif.Graph.Dot
import Verif.Graph.Graphviz
import Verif.Graph.MainPath
import Verif.Graph.Model
import Verif.Graph.Spec
import Verif.Hir.Arity
import Verif.Hir.BodyOf
import Verif.Hir.EnumStruct
import Verif.Hir.FindDef
import Verif.Hir.Globals
import Verif.Hir.Infer
import Verif.Hir.InferScope
import Verif.Hir.ItemTree
import Verif.Hir.Lower
import Verif.Hir.Methodmap
import Verif.Hir.NameDef
import Verif.Hir.Outside
import Verif.Hir.Pretty
import Verif.Hir.Scope
import Verif.Hir.Tree
import Verif.Hir.Written
import Verif.Ide.Columns
import Verif.Ide.Docs
import Verif.Ide.FileDiag
import Verif.Ide.Goto
import Verif.Ide.GotoInclude
import Verif.Ide.Highlight
import Verif.Ide.Hover
import Verif.Ide.HoverDef
import Verif.Ide.MacroDef
import Verif.Ide.Markdown
import Verif.Ide.Prime
import Verif.Ide.Status
import Verif.Include.File
import Verif.Include.Preprocess
import Verif.Include.Project
import Verif.Include.Resolve
import Verif.Lsp.Announced
import Verif.Lsp.Compile
import Verif.Lsp.Config
import Verif.Lsp.Diagnostics
import Verif.Lsp.Dispatch
import Verif.Lsp.Editor
import Verif.Lsp.Indexing
import Verif.Lsp.Lifecycle
import Verif.Lsp.Loading
import Verif.Lsp.Logging
import Verif.Lsp.Lookup
import Verif.Lsp.Offered
import Verif.Lsp.OpQueue
import Verif.Lsp.Reply
import Verif.Lsp.SemTokens
import Verif.Lsp.Settings
import Verif.Lsp.Snapshot
import Verif.Lsp.Startup
import Verif.Lsp.Url
import Verif.Lsp.Versions
import Verif.Lsp.Workers
import Verif.Paths.Model
import Verif.Paths.Spec
import Verif.Pre.ChoiceSpec
import Verif.Pre.CondSpec
import Verif.Pre.DefineSpec
import Verif.Pre.DepthSpec
import Verif.Pre.Eval
import Verif.Pre.EvalSpec
import Verif.Pre.Expand
import Verif.Pre.LinesSpec
import Verif.Pre.MacroSpec
import Verif.Pre.Main
import Verif.Pre.MainSpec
import Verif.Pre.OffsetsSpec
import Verif.Pre.Position
import Verif.Pre.Reports
import Verif.Pre.ReportsSpec
import Verif.Pre.RewriteSpec
import Verif.Pre.TermSpec
import Verif.Pre.Token
import Verif.Profile.Model
import Verif.Props.Announced
import Verif.Props.Arity
import Verif.Props.Body
import Verif.Props.BodyOf
import Verif.Props.Choice
import Verif.Props.Columns
import Verif.Props.Compile
import Verif.Props.Conditional
import Verif.Props.Config
import Verif.Props.DbSync
import Verif.Props.Define
import Verif.Props.Diagnostics
import Verif.Props.Dispatch
import Verif.Props.Docs
import Verif.Props.Dot
import Verif.Props.Editor
import Verif.Props.EnumStruct
import Verif.Props.EvalLoop
import Verif.Props.EvalParen
import Verif.Props.EvalTerm
import Verif.Props.EvalUse
import Verif.Props.Evaluator
import Verif.Props.FileDiag
import Verif.Props.FindDef
import Verif.Props.Flycheck
import Verif.Props.Globals
import Verif.Props.Goto
import Verif.Props.GotoInclude
import Verif.Props.Graph
import Verif.Props.Graphviz
import Verif.Props.HashMap
import Verif.Props.Highlight
import Verif.Props.Hover
import Verif.Props.HoverDef
import Verif.Props.IncludeFile
import Verif.Props.IncludeRun
import Verif.Props.Indexing
import Verif.Props.Infer
import Verif.Props.InferScope
import Verif.Props.Inline
import Verif.Props.ItemTree
import Verif.Props.Lifecycle
import Verif.Props.LineEndings
import Verif.Props.Lines
import Verif.Props.LinesCall
import Verif.Props.Links
import Verif.Props.Literals
import Verif.Props.Loader
import Verif.Props.Loading
import Verif.Props.Logging
import Verif.Props.Lookup
import Verif.Props.Lower
import Verif.Props.MacroArgs
import Verif.Props.MacroCall
import Verif.Props.MacroDeep
import Verif.Props.MacroDef
import Verif.Props.MacroLeft
import Verif.Props.MacroTerm
import Verif.Props.Macros
import Verif.Props.MainLoop
import Verif.Props.MainPath
import Verif.Props.Markdown
import Verif.Props.Methodmap
import Verif.Props.NameDef
import Verif.Props.Offered
import Verif.Props.Offsets
import Verif.Props.OffsetsExpand
import Verif.Props.OffsetsFile
import Verif.Props.OffsetsLine
import Verif.Props.OffsetsText
import Verif.Props.OpQueue
import Verif.Props.Outside
import Verif.Props.Params
import Verif.Props.Paths
import Verif.Props.Picked
import Verif.Props.Pool
import Verif.Props.Position
import Verif.Props.PreFuel
import Verif.Props.Pretty
import Verif.Props.Prime
import Verif.Props.Process
import Verif.Props.Profile
import Verif.Props.ProjectText
import Verif.Props.Provenance
import Verif.Props.Reply
import Verif.Props.Reports
import Verif.Props.Resolve
import Verif.Props.Rewrite
import Verif.Props.Scope
import Verif.Props.Selection
import Verif.Props.SemTokens
import Verif.Props.Settings
import Verif.Props.Snapshot
import Verif.Props.SpComp
import Verif.Props.Startup
import Verif.Props.Status
import Verif.Props.TextSync
import Verif.Props.Tree
import Verif.Props.Turn
import Verif.Props.Url
import Verif.Props.Usage
import Verif.Props.Versions
import Verif.Props.Vfs
import Verif.Props.Workers
import Verif.Props.Written
import Verif.Stdx.HashMap
import Verif.Stdx.Pool
import Verif.Stdx.Process
import Verif.Text.LineEndings
import Verif.Text.Space
import Verif.TextSync.Lemmas
import Verif.TextSync.Model
import Verif.TextSync.Spec
import Verif.Vfs.FileSet
import Verif.Vfs.Lemmas
import Verif.Vfs.Links
import Verif.Vfs.Loader
import Verif.Vfs.Model
import Verif.Vfs.Spec
import Verif.Vfs.Usage
import Verif.Audit
