import Verif.Pre.Main
/-!
# Positions in the source and in the preprocessed text

Model of `crates/ide/src/lib.rs:213-295` and of the two range functions of `crates/syntax`. "User" positions are in the source,
"server" positions in the preprocessed text. Simplification: columns are natural numbers and differences integers (the code uses
`u32` and `i32`; saturation at zero is modelled, at the upper ends not).
-/

namespace Verif.Pre

/-- `range_contains_pos` (syntax/src/lib.rs:65-77). -/
def rangeContains (r : Rng) (p : Pos) : Bool :=
  if r.s.line > p.line ∨ r.e.line < p.line then false
  else if r.s.line = p.line ∧ r.s.char > p.char then false
  else if r.e.line = p.line ∧ r.e.char < p.char then false
  else true

/-- `intersect` (syntax/src/utils.rs:40-63). -/
def intersect (a b : Rng) : Option Rng :=
  let s := if a.s.line > b.s.line ∨ (a.s.line = b.s.line ∧ a.s.char > b.s.char) then a.s else b.s
  let e := if a.e.line < b.e.line ∨ (a.e.line = b.e.line ∧ a.e.char < b.e.char) then a.e else b.e
  if s.line > e.line ∨ (s.line = e.line ∧ s.char > e.char) then none else some ⟨s, e⟩

/-- `Offset::contains` (offset.rs:30-43). -/
def Offset.contains (o : Offset) (p : Pos) : Bool :=
  if o.range.s.line > p.line ∨ o.range.e.line < p.line then false
  else if (o.range.s.line = p.line ∧ o.range.s.char > p.char) ∨ (o.range.e.line = p.line ∧ o.range.e.char < p.char) then false
  else true

/-- The entries of a map from lines to lists, given as a list in the order of insertion. -/
def onLine {α : Type} (l : List (Nat × α)) (line : Nat) : List α := (l.filter (fun e => e.1 = line)).map (·.2)

/-- `saturating_add_signed`. -/
def addSigned (c : Nat) (d : Int) : Nat := (Int.ofNat c + d).toNat

/-- Change of the length of a line by an expansion. -/
def Offset.shift (o : Offset) : Int := o.diff - Int.ofNat o.argsDiff

/-- `u_pos_to_s_pos` (ide/src/lib.rs:236-268): the new position, and the range of the argument that contains it if there is one. -/
def uToS (argsMap : List (Nat × Rng × Rng)) (offsets : List (Nat × Offset)) (pos : Pos) : Pos × Option Rng :=
  match (onLine argsMap pos.line).find? (fun a => rangeContains a.1 pos) with
  | some (u, s) => (s.s, some u)
  | none =>
    (⟨pos.line, addSigned pos.char (((onLine offsets pos.line).filter (fun o => o.range.e.char ≤ pos.char)).map Offset.shift).sum⟩, none)

/-- The loop of `s_range_to_u_range` (ide/src/lib.rs:276-291) for one end of the range. -/
def backCol : List Offset → Nat → Nat
  | [], c => c
  | o :: os, c => backCol os (if o.range.s.char < c then addSigned c (-o.shift) else c)

/-- `s_range_to_u_range` (ide/src/lib.rs:271-295). Both ends use the offsets of the first line. -/
def sToU (offsets : List (Nat × Offset)) (r : Rng) : Rng :=
  let os := onLine offsets r.s.line
  ⟨⟨r.s.line, backCol os r.s.char⟩, ⟨r.e.line, backCol os r.e.char⟩⟩

end Verif.Pre

namespace Verif.Pre.Spec
open Verif.Pre

/-- A line as the user and the server see it: stretches of text that both see, and uses of macros with the length of the name, the
length of the arguments (with parentheses), and the length of the expansion. -/
inductive Seg where
  | text (n : Nat)
  | use (name args out : Nat)

def Seg.user : Seg → Nat
  | .text n => n
  | .use n a _ => n + a

def Seg.server : Seg → Nat
  | .text n => n
  | .use _ _ o => o

/-- Length of a stretch of a line for the user. -/
def userLen (l : List Seg) : Nat := (l.map Seg.user).sum

/-- Length of a stretch of a line for the server. -/
def serverLen (l : List Seg) : Nat := (l.map Seg.server).sum

/-- Offsets that describe the uses of a line: the range of the name in the source, the difference of the lengths of expansion and
name, and the length of the arguments. -/
def Describes (line : Nat) : Nat → List Seg → List Offset → Prop
  | _, [], os => os = []
  | c, .text n :: l, os => Describes line (c + n) l os
  | c, .use n a o :: l, os => ∃ x os', os = x :: os' ∧ x.range = ⟨⟨line, c⟩, ⟨line, c + n⟩⟩ ∧ x.diff = Int.ofNat o - Int.ofNat n ∧ x.argsDiff = a ∧
      Describes line (c + n + a) l os'

/-- Every use has a name. -/
def Named (l : List Seg) : Prop := ∀ n a o, Seg.use n a o ∈ l → 0 < n

/-- No use expands to nothing. -/
def NonEmpty (l : List Seg) : Prop := ∀ n a o, Seg.use n a o ∈ l → 0 < o

/-- `u` and `s` are the columns of the same place in text that both see. -/
def SamePlace (l : List Seg) (u s : Nat) : Prop :=
  ∃ pre n post k, l = pre ++ .text n :: post ∧ k ≤ n ∧ u = userLen pre + k ∧ s = serverLen pre + k

/-- Order of positions. -/
def Pos.le (a b : Pos) : Prop := a.line < b.line ∨ (a.line = b.line ∧ a.char ≤ b.char)

/-- A position is in a range, ends included. -/
def In (p : Pos) (r : Rng) : Prop := Pos.le r.s p ∧ Pos.le p r.e

end Verif.Pre.Spec
