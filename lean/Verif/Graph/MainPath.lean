import Verif.Graph.Spec
/-!
# Model of the question for the main file of a document

`handle_project_main_path` (`crates/sourcepawn_lsp/src/handlers/request.rs:250-266`). Between URL and file there is a one-to-one correspondence (`Vfs`), which is
left out.
-/

namespace Verif.Graph

/-- The answer to `sourcepawn-lsp/projectMainPath` (request.rs:259-265) on the graph of the documents `docs` with their includes, the roots being visited in the
order `order`; `none`: the error "No project found for file". -/
def mainPath (docs : List Nat) (includes : Nat → List Nat) (ext : Nat → Ext) (order : List Nat) (file : Nat) : Option Nat :=
  ((graphQuery docs includes ext).projectsForFile order file).head?

end Verif.Graph

/-! ## Specification -/
namespace Verif.Graph.Spec

/-- `a` is a document that includes `b`. -/
def Includes (docs : List Nat) (includes : Nat → List Nat) (a b : Nat) : Prop := a ∈ docs ∧ b ∈ includes a

/-- A document no document includes. -/
def IsMain (docs : List Nat) (includes : Nat → List Nat) (a : Nat) : Prop := a ∈ docs ∧ ∀ b, ¬ Includes docs includes b a

end Verif.Graph.Spec
