import Verif.Paths.Model
/-! # Specification of paths -/

namespace Verif.Paths.Spec
open Verif.Paths

/-- A proper file name. -/
def IsName (s : Str) : Prop := s ≠ [] ∧ '/' ∉ s ∧ s ≠ ['.'] ∧ s ≠ ['.', '.']

/-- Where one piece of a path leads in a tree (without symbolic links): the empty piece and `.` stay, `..` goes to the
parent (the root is its own parent), a name goes down. A place is the list of names from the root. -/
def walk1 (place : List Str) (piece : Str) : List Str :=
  if piece = [] ∨ piece = ['.'] then place
  else if piece = ['.', '.'] then place.dropLast
  else place ++ [piece]

/-- Where a path leads, starting at the root. -/
def walk (p : Str) : List Str := (splitSlash p).foldl walk1 []

/-- `/a/b/c`; the root is `/`. -/
def absPath (names : List Str) : Str := if names = [] then ['/'] else names.flatMap (fun s => '/' :: s)

/-- The extension of a file name: what follows its last dot, if something precedes that dot; otherwise empty. -/
def IsExtension (name ext : Str) : Prop :=
  (∃ stem, stem ≠ [] ∧ name ≠ ['.', '.'] ∧ name = stem ++ '.' :: ext ∧ '.' ∉ ext) ∨
  ((∀ stem e, stem ≠ [] → name ≠ ['.', '.'] → name = stem ++ '.' :: e → '.' ∈ e) ∧ ext = [])

/-- Virtual path with these components (the empty list is the empty string). -/
def virtual (names : List Str) : Str := names.flatMap (fun s => '/' :: s)

end Verif.Paths.Spec
