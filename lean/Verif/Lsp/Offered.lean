import Verif.Lsp.Startup
import Verif.Lsp.Lifecycle
import Verif.Ide.Highlight
/-!
# Model of what the server says it can do

`server_capabilities` (`crates/sourcepawn_lsp/src/capabilities.rs:14-40`), the legend of tokens (`lsp/semantic_tokens.rs:38-175, 268-270`), and
`semantic_token_type_and_modifiers` with the loop around it (`lsp/to_proto.rs:74-93, 104-124`), `HlMods` (`crates/ide/src/syntax_highlighting.rs:50-99`).
The capabilities left out of the record are absent (`..Default::default()`).
-/

namespace Verif.Lsp.Offered
open Verif.Lsp.Startup (EncKind PosEnc negotiatedEncoding)
open Verif.Lsp.SemTokens (Abs Tok encode)
open Verif.Pre (Rng)

/-- `SUPPORTED_TYPES` (semantic_tokens.rs:24-27, 38-96): the standard ones, then the server's own. -/
def supportedTypes : List String := Verif.Ide.Highlight.standardTypes ++
  ["angle", "arithmetic", "attribute", "attributeBracket", "bitwise", "boolean", "brace", "bracket", "builtinAttribute", "builtinType", "character",
   "colon", "comma", "comparison", "constParameter", "derive", "deriveHelper", "dot", "escapeSequence", "invalidEscapeSequence", "formatSpecifier",
   "generic", "label", "lifetime", "logical", "macroBang", "parenthesis", "punctuation", "selfKeyword", "selfTypeKeyword", "semicolon", "typeAlias",
   "toolModule", "union", "unresolvedReference"]

/-- `SUPPORTED_MODIFIERS` (semantic_tokens.rs:116-119, 125-150). -/
def supportedModifiers : List String :=
  ["documentation", "declaration", "static", "defaultLibrary", "async", "attribute", "callable", "constant", "consuming", "controlFlow", "crateRoot",
   "injected", "intraDocLink", "library", "macro", "mutable", "public", "reference", "trait", "unsafe"]

/-- `TextDocumentSyncKind`. -/
inductive Sync where
  | nothing | full | incremental
deriving DecidableEq

/-- `SemanticTokensOptions`. -/
structure TokenOptions where
  types : List String
  modifiers : List String
  /-- `full`; inside: `delta` -/
  full : Option Bool
  range : Bool

/-- `ServerCapabilities`, as far as the server fills it in. -/
structure Server where
  encoding : Option EncKind
  sync : Sync
  hover : Bool
  definition : Bool
  tokens : Option TokenOptions

/-- The `position_encoding` (capabilities.rs:16-23). The branch `_ => None` is for encodings that `PosEnc` does not have. -/
def announcedEncoding : PosEnc → Option EncKind
  | .utf8 => some .utf8
  | .wide16 => some .utf16
  | .wide32 => some .utf32

/-- `server_capabilities` (capabilities.rs:14-40). `general`: the encodings of the client (config.rs: `caps`). -/
def serverCapabilities (general : Option (Option (List EncKind))) : Server where
  encoding := announcedEncoding (negotiatedEncoding general)
  sync := .incremental
  hover := true
  definition := true
  tokens := some { types := supportedTypes, modifiers := supportedModifiers, full := some true, range := true }

/-! ### Tokens -/

/-- `HlTag` with `SymbolKind`. -/
inductive Tag where
  | macro | nothing
deriving DecidableEq

/-- `HlMod`; the numbers are those of the enum. -/
inductive Mod where
  | macro
deriving DecidableEq

/-- `HlMod as u32`. -/
def Mod.number : Mod → Nat
  | .macro => 0

/-- `HlMod::ALL`. -/
def Mod.all : List Mod := [.macro]

/-- `HlMod::mask` (syntax_highlighting.rs:79-81). -/
def Mod.mask (m : Mod) : Nat := 1 <<< m.number

/-- `HlMods::iter` (syntax_highlighting.rs:93-98) on the bits of a `u32`. -/
def iter (mods : Nat) : List Mod := Mod.all.filter fun m => mods &&& m.mask == m.mask

/-- `type_index` (semantic_tokens.rs:268-270); `none`: the `unwrap` panics. -/
def typeIndex (t : String) : Option Nat := supportedTypes.findIdx? (· == t)

/-- `bitor_assign` of `ModifierSet` (semantic_tokens.rs:167-175); `none`: the `unwrap` panics. -/
def bitorAssign (bits : Nat) (m : String) : Option Nat := (supportedModifiers.findIdx? (· == m)).map fun i => bits ||| 1 <<< i

/-- The type (to_proto.rs:108-113). -/
def Tag.type : Tag → String
  | .macro => "macro"
  | .nothing => "generic"

/-- The modifier (to_proto.rs:116-118). -/
def Mod.modifier : Mod → String
  | .macro => "macro"

/-- `semantic_token_type_and_modifiers` (to_proto.rs:104-124). -/
def typeAndModifiers (tag : Tag) (mods : Nat) : Option (String × Nat) :=
  ((iter mods).foldlM (fun bits m => bitorAssign bits m.modifier) 0).map fun bits => (tag.type, bits)

/-- `HlRange`. -/
structure Highlight where
  range : Rng
  tag : Tag
  mods : Nat

/-- One turn of the loop of `semantic_tokens` (to_proto.rs:80-90): what is pushed, if anything. Outer `none`: panic. -/
def pushed (h : Highlight) : Option (Option Abs) :=
  if h.tag = .nothing ∧ h.mods = 0 then some none
  else (typeAndModifiers h.tag h.mods).bind fun tm => (typeIndex tm.1).map fun i =>
    some ⟨h.range.s.line, h.range.s.char, h.range.e.char, i, tm.2⟩

/-- `semantic_tokens` (to_proto.rs:74-93), without the number of the answer. -/
def semanticTokens (hs : List Highlight) : Option (List Tok) := (hs.mapM pushed).bind fun l => encode (l.filterMap id)

/-! ## Specification: what a client may conclude (LSP 3.17) -/
namespace Spec

/-- The requests a client may send to a server with these capabilities. -/
inductive Request (c : Server) : String → Prop
  | hover : c.hover = true → Request c "textDocument/hover"
  | definition : c.definition = true → Request c "textDocument/definition"
  | full {o b} : c.tokens = some o → o.full = some b → Request c "textDocument/semanticTokens/full"
  | delta {o} : c.tokens = some o → o.full = some true → Request c "textDocument/semanticTokens/full/delta"
  | range {o} : c.tokens = some o → o.range = true → Request c "textDocument/semanticTokens/range"

/-- The notifications about documents a client sends to a server with these capabilities. -/
inductive Notification (c : Server) : String → Prop
  | opened : c.sync ≠ .nothing → Notification c "textDocument/didOpen"
  | changed : c.sync ≠ .nothing → Notification c "textDocument/didChange"
  | closed : c.sync ≠ .nothing → Notification c "textDocument/didClose"

/-- The requests of the server's own that the extension sends. -/
def Own (m : String) : Prop := "sourcepawn-lsp/".toList <+: m.toList

/-- What the client shows for a token: the name of the type and those of the modifiers. -/
def typeName (o : TokenOptions) (t : Abs) : Option String := o.types[t.type]?

def HasModifier (o : TokenOptions) (t : Abs) (m : String) : Prop := ∃ i, o.modifiers[i]? = some m ∧ t.mods.testBit i = true

end Spec

end Verif.Lsp.Offered
