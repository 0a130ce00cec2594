import Verif.Lsp.Url
import Verif.Pre.Token
/-!
# Model of the answer to a request for a definition

`file_position` (`crates/sourcepawn_lsp/src/lsp/from_proto.rs:66-79`), `handle_goto_definition` (`handlers/request.rs:18-39`), `goto_definition_response`,
`location_link`, `location_info` (`lsp/to_proto.rs:17-53`). The analysis works on a snapshot, but the names of the files are those of the live
file system: `GlobalStateSnapshot::vfs` is shared with the main loop (`global_state.rs:348-357, 377-391`), which may change it between any two look-ups.
So every look-up has its own state. What the analysis finds is a function (C62, C80, C87, C100 and C105 say which).
-/

namespace Verif.Lsp.Reply
open Verif.Vfs (FileId Vfs)
open Verif.Lsp.Url (Url Path urlToFileId fileIdToUrl)
open Verif.Pre (Rng Pos)

/-- `NavigationTarget` (`ide/src/goto_definition.rs:14-18`). -/
structure Nav where
  file  : FileId
  full  : Rng
  focus : Option Rng

/-- `lsp_types::LocationLink`. -/
structure Link where
  origin    : Option Rng
  uri       : Url
  target    : Rng
  selection : Rng
deriving DecidableEq

/-- How a handler ends. -/
inductive Outcome (α : Type) where
  | panic | error | cancelled
  | ok (a : α)
deriving DecidableEq

/-- `file_position` (from_proto.rs:70-79) without the position, which is passed on. -/
def ask (v : Vfs Path) (u : Url) : Outcome FileId :=
  match urlToFileId v u with
  | none => .panic
  | some none => .error
  | some (some f) => .ok f

/-- `location_link` and `location_info` (to_proto.rs:29-53); `none` is a panic. -/
def locationLink (v : Vfs Path) (src : Option Rng) (nav : Nav) : Option Link :=
  (fileIdToUrl v nav.file).map fun u => ⟨src, u, nav.full, nav.focus.getD nav.full⟩

/-- `goto_definition_response` (to_proto.rs:17-27); the link `i` is made when the file system is `vs i`. -/
def links (vs : Nat → Vfs Path) (src : Option Rng) : Nat → List Nav → Option (List Link)
  | _, [] => some []
  | i, nav :: navs =>
    match locationLink (vs i) src nav, links vs src (i + 1) navs with
    | some l, some ls => some (l :: ls)
    | _, _ => none

/-- `handle_goto_definition` (request.rs:18-39): asked when the file system is `v`, answered when it is `vs 0`, `vs 1` and so on. -/
def handleGoto (v : Vfs Path) (vs : Nat → Vfs Path) (analysis : FileId → Pos → Outcome (Option (Rng × List Nav))) (u : Url) (p : Pos) :
    Outcome (Option (List Link)) :=
  match ask v u with
  | .panic => .panic
  | .error => .error
  | .cancelled => .cancelled
  | .ok f =>
    match analysis f p with
    | .panic => .panic
    | .error => .error
    | .cancelled => .cancelled
    | .ok none => .ok none
    | .ok (some (r, navs)) =>
      match links vs (some r) 0 navs with
      | none => .panic
      | some ls => .ok (some ls)

end Verif.Lsp.Reply
