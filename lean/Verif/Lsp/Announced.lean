import Verif.Lsp.Startup
import Verif.Lsp.Reply
import Verif.Ide.Markdown
/-!
# Model of what the server sends to a client, depending on what the client says it can do

`server_capabilities`, `ClientCapabilitiesExt` (`crates/sourcepawn_lsp/src/capabilities.rs:14-40, 115-120`), `Config::semantic_tokens_refresh`, `Config::hover`
(`config.rs:195-204, 236-262`), `markup_content`, `goto_definition_response` (`lsp/to_proto.rs:17-43, 55-66`), `report_progress` (`progress.rs:18-69`),
the request for settings (`main_loop.rs:183, 209-230`, `handlers/notification.rs:165-200`) and for fresh tokens (`main_loop.rs:673-679`).
Only the part of a message that a client must be able to understand is kept. When the occasions arise is in `Lsp/Loading`, `Lsp/Settings` and `Lsp/Indexing`.
-/

namespace Verif.Lsp.Announced
open Verif.Lsp.Startup (EncKind PosEnc negotiatedEncoding)
open Verif.Lsp.Reply (Link)
open Verif.Pre (Str)

/-- `MarkupKind`. -/
inductive Markup where
  | plaintext | markdown
deriving DecidableEq

/-- `ClientCapabilities`, as far as the server looks at them or should. Every level may be missing. -/
structure Caps where
  /-- `workspace.configuration` -/
  configuration : Option (Option Bool)
  /-- `workspace.semanticTokens.refreshSupport` -/
  refresh : Option (Option (Option Bool))
  /-- `window.workDoneProgress` -/
  progress : Option (Option Bool)
  /-- `textDocument.hover.contentFormat` -/
  hover : Option (Option (Option (List Markup)))
  /-- `textDocument.definition.linkSupport` -/
  links : Option (Option (Option Bool))
  /-- `general.positionEncodings` -/
  encodings : Option (Option (List EncKind))

/-- What the server sends. -/
inductive Msg where
  /-- in the answer to `initialize` -/
  | encoding (e : PosEnc)
  | askSettings | refreshTokens
  /-- `window/workDoneProgress/create` -/
  | createProgress
  /-- `$/progress` -/
  | progress
  | hover (kind : Markup) (text : Str)
  /-- a definition, as `LocationLink[]` -/
  | links (ls : List Link)

/-- Why it sends something. -/
inductive Occasion where
  /-- `asked`: the request `initialize` -/
  | asked | started | settingsChanged | tokensOutdated
  /-- `Progress::Begin`, or another one -/
  | report (begin : Bool)
  | hover (text : Str)
  | definition (ls : List Link)

/-- `has_pull_configuration_support` (capabilities.rs:118-120). -/
def Caps.pull (c : Caps) : Bool := c.configuration.join == some true

/-- `semantic_tokens_refresh` (config.rs:195-204). -/
def Caps.canRefresh (c : Caps) : Bool := (c.refresh.join.join).getD false

/-- The format of `Config::hover` (config.rs:243-258). -/
def Caps.format (c : Caps) : Markup := if ((c.hover.join.join).getD []).contains .markdown then .markdown else .plaintext

/-- What is sent on an occasion. `hover.rs` has made `text` before, without asking for the format. -/
def send (c : Caps) : Occasion → List Msg
  | .asked => [.encoding (negotiatedEncoding c.encodings)]
  | .started => if c.pull then [.askSettings] else []
  | .settingsChanged => if c.pull then [.askSettings] else []
  | .tokensOutdated => if c.canRefresh then [.refreshTokens] else []
  | .report true => [.createProgress, .progress]
  | .report false => [.progress]
  | .hover text => [.hover c.format text]
  | .definition ls => [.links ls]

/-! ## Specification: what the protocol asks of a client -/
namespace Spec

/-- The client said that it can do this. -/
def Said : Option (Option Bool) → Prop := fun x => x = some (some true)

/-- The client can deal with the message (LSP 3.17). UTF-16 and plain text need not be announced. -/
def Understands (c : Caps) : Msg → Prop
  | .encoding .utf8 => ∃ l, c.encodings = some (some l) ∧ .utf8 ∈ l
  | .encoding .wide32 => ∃ l, c.encodings = some (some l) ∧ .utf32 ∈ l
  | .encoding .wide16 => True
  | .askSettings => Said c.configuration
  | .refreshTokens => ∃ x, c.refresh = some x ∧ Said x
  | .createProgress => Said c.progress
  /- of a token the client knows -/
  | .progress => Said c.progress
  | .hover .markdown _ => ∃ l, c.hover = some (some (some l)) ∧ .markdown ∈ l
  | .hover .plaintext _ => True
  | .links _ => ∃ x, c.links = some x ∧ Said x

end Spec

end Verif.Lsp.Announced
