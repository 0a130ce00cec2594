import Verif.Pre.Position
import Verif.Pre.OffsetsSpec
import Verif.Hir.Tree

/-!
# Model of go-to-definition

`goto_definition` and `find_inner_name_range` (`crates/ide/src/goto_definition.rs:20-97`). What a name stands for (`find_def`) and where a definition is
(`source`) are parameters, see C41, C44, C58, C60, C62. Trees are those of the preprocessed text, with rows and columns. Of tree-sitter, the search for
the node at a position is modelled. Simplification: columns count characters (those of tree-sitter count bytes, those of the client UTF-16 units).
-/

namespace Verif.Ide.Goto

open Verif.Pre

/-- A node: kind, range, whether it is the field `name` of its parent, children. -/
inductive Node where
  | mk (kind : Hir.Kind) (range : Rng) (isName : Bool) (children : List Node)

def Node.kind : Node → Hir.Kind
  | .mk k _ _ _ => k

def Node.range : Node → Rng
  | .mk _ r _ _ => r

def Node.isName : Node → Bool
  | .mk _ _ b _ => b

def Node.children : Node → List Node
  | .mk _ _ _ cs => cs

/-- Is the position before the other one? -/
def before (a b : Pos) : Bool := a.line < b.line ∨ (a.line = b.line ∧ a.char < b.char)

mutual
/-- `descendant_for_point_range(p, p)` of tree-sitter. -/
def nodeAt (p : Pos) : Node → Node
  | .mk k r f cs => (nodeIn p cs).getD (.mk k r f cs)

/-- The first child that does not end before the position, unless it starts after it. -/
def nodeIn (p : Pos) : List Node → Option Node
  | [] => none
  | c :: cs => if before p c.range.e = false then nodeIn p cs else if before p c.range.s then none else some (nodeAt p c)
end

/-- `child_by_field_name("name")`. -/
def Node.name (n : Node) : Option Rng := (n.children.find? (·.isName)).map (·.range)

/-- The name of the accessor of a property. -/
def accessorName (c : Node) : Option Rng :=
  if c.kind = .methodmap_property_getter ∨ c.kind = .methodmap_property_setter then c.name else none

/-- `find_inner_name_range` (goto_definition.rs:76-97). -/
def innerName (n : Node) : Rng :=
  (if n.kind = .methodmap_property_native ∨ n.kind = .methodmap_property_method then n.children.findSome? accessorName else n.name).getD n.range

/-- What go-to-definition uses: trees and results of preprocessing of the files, and the answers about names. -/
structure Sema (Def : Type) where
  trees    : Nat → Node
  results  : Nat → PSt
  macroDef : Nat → Nat → Option Def
  findDef  : Nat → Node → Option Def
  fileOf   : Def → Nat
  source   : Def → Node → Option Node

/-- `NavigationTarget` (goto_definition.rs:14-18). -/
structure Target where
  file  : Nat
  full  : Rng
  focus : Rng
  deriving DecidableEq

/-- `find_macro_def` (goto_definition.rs:100-115). -/
def macroAt {Def : Type} (S : Sema Def) (offsets : List (Nat × Offset)) (pos : Pos) : Option (Offset × Def) := do
  let o ← (onLine offsets pos.line).find? (·.contains pos)
  let d ← S.macroDef o.fileId o.idx
  some (o, d)

/-- The answer for a macro (goto_definition.rs:29-41): the ranges of the definition are not mapped back. -/
def toMacro {Def : Type} (S : Sema Def) (o : Offset) (d : Def) : Option (Rng × Target) := do
  let n ← S.source d (S.trees (S.fileOf d))
  some (o.range, ⟨S.fileOf d, n.range, innerName n⟩)

/-- The answer for anything else (goto_definition.rs:43-73). -/
def toOther {Def : Type} (S : Sema Def) (file : Nat) (pos : Pos) : Option (Rng × Target) := do
  let r := S.results file
  let m := uToS r.argsMap r.offsets pos
  let node := nodeAt m.1 (S.trees file)
  let d ← S.findDef file node
  let n ← S.source d (S.trees (S.fileOf d))
  let back := sToU (S.results (S.fileOf d)).offsets
  some (m.2.getD (sToU r.offsets node.range), ⟨S.fileOf d, back n.range, back (innerName n)⟩)

/-- `goto_definition` (goto_definition.rs:20-74): the range that is underlined, and the target. -/
def goto {Def : Type} (S : Sema Def) (file : Nat) (pos : Pos) : Option (Rng × Target) :=
  match macroAt S (S.results file).offsets pos with
  | some (o, d) => toMacro S o d
  | none => toOther S file pos

/-! ## Specification -/

namespace Spec

open Verif.Pre.Spec

mutual
/-- The children of a node are one after the other, inside of it. -/
def Ordered : Node → Prop
  | .mk _ r _ cs => OrderedIn r.s cs r.e

def OrderedIn (lo : Pos) : List Node → Pos → Prop
  | [], hi => Pos.le lo hi
  | c :: cs, hi => Pos.le lo c.range.s ∧ Ordered c ∧ OrderedIn c.range.e cs hi
end

mutual
/-- The tokens of a tree. -/
def leaves : Node → List Node
  | .mk k r f [] => [.mk k r f []]
  | .mk _ _ _ (c :: cs) => leaves c ++ leavesIn cs

def leavesIn : List Node → List Node
  | [] => []
  | c :: cs => leaves c ++ leavesIn cs
end

/-- The definition has one name, at `r`. -/
def Named (n : Node) (r : Rng) : Prop := ∃ g, n.children.filter (·.isName) = [g] ∧ g.range = r

/-- `r` is the place of the name of the definition `n`: of its only name; that of the only accessor for a property of a methodmap; everything if there is
no name. -/
def NameOf (n : Node) (r : Rng) : Prop :=
  if n.kind = .methodmap_property_native ∨ n.kind = .methodmap_property_method then
    (∃ c, n.children.filter (fun c => c.kind = .methodmap_property_getter ∨ c.kind = .methodmap_property_setter) = [c] ∧ Named c r) ∨
    ((∀ c ∈ n.children, c.kind ≠ .methodmap_property_getter ∧ c.kind ≠ .methodmap_property_setter) ∧ r = n.range)
  else Named n r ∨ ((∀ c ∈ n.children, c.isName = false) ∧ r = n.range)

/-- From column `a` to `b` of line `n` there is text that is kept, outside of the macro uses. -/
def Word (lines : List Line) (n a b : Nat) : Prop :=
  ∃ line, lines[n]? = some line ∧ line.kept ∧ a < b ∧ b ≤ line.src.length ∧ ∀ w ∈ line.uses, w.stop ≤ a ∨ b ≤ w.name.range.s.char

/-- No name of a macro ends at column `a` of line `n`. A name does not directly follow another one. -/
def Apart (lines : List Line) (n a : Nat) : Prop := ∀ line, lines[n]? = some line → ∀ w ∈ line.uses, w.name.range.e.char ≠ a

/-- A line of the source and what was written for it, in stretches: text that was copied (a tab becomes a space), and expansions for the macro uses. -/
def Split (n : Nat) (line : Line) (txt : Str) (segs : List Seg) : Prop :=
  userLen segs = line.src.length ∧ serverLen segs = txt.length ∧
  (∀ pre k post i, segs = pre ++ .text k :: post → i < k → (line.src[userLen pre + i]?).map shown = (txt[serverLen pre + i]?).map shown) ∧
  (∀ pre k a o post, segs = pre ++ .use k a o :: post →
    ∃ w ∈ line.uses, w.name.range = ⟨⟨n, userLen pre⟩, ⟨n, userLen pre + k⟩⟩ ∧ w.stop = userLen pre + k + a)

/-- The word at column `a` of line `n` was written at column `place n a`. -/
def SameText (lines : List Line) (out : List Str) (place : Nat → Nat → Nat) : Prop :=
  ∀ n line, lines[n]? = some line → line.kept → ∃ txt segs, out[n]? = some txt ∧ Split n line txt segs ∧
    ∀ a b, Word lines n a b → ∀ i ≤ b - a, SamePlace segs (a + i) (place n a + i)

/-- The range of a word of a line. -/
def wordRange (n a b : Nat) : Rng := ⟨⟨n, a⟩, ⟨n, b⟩⟩

end Spec

end Verif.Ide.Goto
