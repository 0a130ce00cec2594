import Verif.DbSync.Model
/-!
# Specification of the synchronisation between the file system and the analysis database

Only paths, contents and the events appear here.
-/

namespace Verif.DbSync.Spec
open Verif.Vfs Verif.DbSync
variable {P T R : Type} [DecidableEq P] [DecidableEq R]

/-- Contents of a path after a history: those of its last update. -/
def lastContents (p : P) (evs : List (Ev P)) : Option Bytes :=
  evs.foldl (fun acc e =>
    match e with
    | .set q c => if q = p then c else acc
    | .process => acc) none

/-- What the analyses must see for a file: its decoded text, or the empty text if it does not exist or is not
decodable. -/
def expectedText (cfg : Config P T R) (c : Option Bytes) : T :=
  match c with
  | none => cfg.noText
  | some b => (cfg.decode b).getD cfg.noText

/-- Every updated path lies under some source root. -/
def Covered (cfg : Config P T R) (evs : List (Ev P)) : Prop :=
  ∀ p c, Ev.set p c ∈ evs → ∃ r ∈ cfg.roots, cfg.under r p = true

/-- Between two consecutive processings the existence of `p` changes at most twice.
(`ex`: does `p` exist now; `n`: changes since the last processing.) -/
def Calm (p : P) : Bool → Nat → List (Ev P) → Prop
  | _, _, [] => True
  | ex, n, .set q c :: r =>
    if q = p ∧ c.isSome ≠ ex then n + 1 ≤ 2 ∧ Calm p c.isSome (n + 1) r else Calm p ex n r
  | ex, _, .process :: r => Calm p ex 0 r

/-- The database agrees with the file system for path `p` with contents `c`: an existing file has an id, its expected
text, and a source root that contains it; a missing file is unknown or has the empty text. -/
def Agrees (cfg : Config P T R) (s : Server P T R) (p : P) : Option Bytes → Prop
  | some b => ∃ id, s.vfs.fileId p = some (some id) ∧ s.db.text id = some (expectedText cfg (some b)) ∧
      ∃ i fs r, s.db.sourceRootOf id = some i ∧ s.db.root i = some (fs, r) ∧ cfg.under r p = true ∧
        fs.fileForPath p = some id ∧ fs.pathForFile id = some p
  | none => s.vfs.fileId p = some none ∧
      ∀ id, internGet s.vfs.interner p = some id →
        s.db.text id = none ∨ s.db.text id = some (expectedText cfg none)

end Verif.DbSync.Spec
