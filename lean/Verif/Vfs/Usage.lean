import Verif.Vfs.Model
import Verif.Vfs.Spec
/-!
# Model of the memory usage in the status report

`Vfs::memory_usage` (`crates/vfs/src/lib.rs`), `Bytes` (`crates/profile/src/memory_usage.rs`) and the line of `handle_analyzer_status`
(`crates/sourcepawn_lsp/src/handlers/request.rs`) that shows them.

Simplifications: the capacity of a vector after `shrink_to_fit` (lib.rs:138-140) is its length, while the allocator may keep more;
`isize` is an integer without overflow; the text is kept as its number and its suffix, not as characters.
-/

namespace Verif.Vfs

/-- `Vfs::memory_usage` (crates/vfs/src/lib.rs:105-108). -/
def Vfs.memoryUsage {P : Type} (v : Vfs P) : Nat := ((v.data.filterMap id).map List.length).sum

/-- The suffixes (crates/profile/src/memory_usage.rs:116-125). -/
inductive Suffix where
  | b | kb | mb
  deriving DecidableEq, Repr

/-- `Display` of `Bytes` (crates/profile/src/memory_usage.rs:112-128); `/` of Rust rounds towards zero. -/
def showBytes (bytes : Int) : Int × Suffix :=
  if bytes.natAbs > 4096 then
    let value := bytes.tdiv 1024
    if value.natAbs > 4096 then (value.tdiv 1024, .mb) else (value, .kb)
  else (bytes, .b)

/-- The line "Vfs memory usage" of the status report (crates/sourcepawn_lsp/src/handlers/request.rs:235-239,
crates/sourcepawn_lsp/src/global_state.rs:399-401). -/
def Vfs.usageLine {P : Type} (v : Vfs P) : Int × Suffix := showBytes v.memoryUsage

namespace Spec

/-- How many bytes a suffix stands for. -/
def unit : Suffix → Nat
  | .b => 1
  | .kb => 1024
  | .mb => 1024 * 1024

/-- What the files of `ps` hold after a history: the sizes of their last contents, nothing for those that are deleted. -/
def held {P : Type} [DecidableEq P] (ops : List (Op P)) : List P → Nat
  | [] => 0
  | p :: ps => (match lastContents p ops with | some c => c.length | none => 0) + held ops ps

end Spec
end Verif.Vfs
