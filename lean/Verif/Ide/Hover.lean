import Verif.Ide.MacroDef
import Verif.Pre.OffsetsSpec

/-!
# Model of hovering over a macro

`find_macro_hover` (`crates/ide/src/hover.rs:118-179`). Simplifications: columns count characters (the code slices bytes), and the definition is
shown as its item instead of its source text. The lines of the text are those between line breaks; `str::lines` in the code also drops a carriage
return before a line break and an empty last line.
-/

namespace Verif.Ide.Hover

open Verif.Pre Verif.Ide.MacroDef

/-- One end of the slice: the changes of the uses that start before the one hovered over (hover.rs:131-148). -/
def shifted (prev : List Offset) (c : Nat) : Nat := prev.foldl (fun c o => addSigned c o.shift) c

/-- `str::get` with a range (hover.rs:157). -/
def slice (t : Str) (s e : Nat) : Option Str := if s ≤ e ∧ e ≤ t.length then some ((t.drop s).take (e - s)) else none

/-- The text shown as the expansion (hover.rs:131-158, 164), `none` if there is none. -/
def hoverText (out : List Str) (offsets : List (Nat × Offset)) (pos : Pos) (o : Offset) : Option Str :=
  let prev := (onLine offsets pos.line).filter fun p => p.range.s.char < o.range.s.char
  let s := shifted prev o.range.s.char
  let e := addSigned (shifted prev o.range.e.char) o.diff
  ((textLines out)[pos.line]?.bind fun line => slice line s e).map trim

/-- `find_macro_hover`: the range, the definition and the expansion shown. -/
def macroHover (out : List Str) (trees : Nat → Hir.Items.Tree) (offsets : List (Nat × Offset)) (pos : Pos) : Option (Rng × Hir.Items.Macro × Option Str) :=
  (gotoMacro trees offsets pos).map fun (o, m) => (o.range, m, hoverText out offsets pos o)

end Verif.Ide.Hover
