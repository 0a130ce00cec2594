import Verif.Include.Preprocess
/-!
# Model of the text of a file of a project

`preprocess_file_query` (`crates/preprocessor/src/db.rs:50-70`). The main file of the project of a file (`projet_subgraph`, see `Verif.Graph`) is a parameter.
What the preprocessor does inside one file is a `Run`, as in `Verif.Include.Preprocess`.
-/

namespace Verif.Include

variable {K V : Type}

/-- What the text of a file is made from. -/
inductive Made (K V : Type) where
  /-- the text as it is written (`PreprocessingResult::default`, db.rs:56, 66) -/
  | written
  /-- the preprocessor run with these parameters (db.rs:69) -/
  | run (p : Params K V)

/-- `preprocess_file_query` (db.rs:50-70). `main` is the main file of the project of a file, if there is one. `none` as in `paramsQuery`. -/
def preprocessFile (files : Nat → Macros K V → Run K V) (fuel : Nat) (main : Nat → Option Nat) (f : Nat) : Option (Made K V) :=
  match main f with
  | none => some .written
  | some root =>
    match paramsQuery files fuel root (fun _ => none) [] with
    | none => none
    | some res =>
      match find res f with
      | none => some .written
      | some p => some (.run p)

namespace Spec

/-- Inclusion. `Inlined back files r seen out seen' vs`: the rest `r` of a file is read when the files in `seen` were included already; an included file is read in place,
starting with the definitions at this point, unless it was included before, and the file that includes it goes on with `back before after`, where `before` and `after`
are the definitions before and at the end of the included file. At the end the definitions are `out` and the files in `seen'` were included;
`vs` are the files that were read on the way, with the definitions they were read with. Code that is not compiled includes nothing: it is not in the run. -/
inductive Inlined (back : Macros K V → Macros K V → Macros K V) (files : Nat → Macros K V → Run K V) :
    Run K V → List Nat → Macros K V → List Nat → List (Nat × Macros K V) → Prop where
  | done {m : Macros K V} {seen : List Nat} : Inlined back files (.done m) seen m seen []
  | missing {m : Macros K V} {k : Macros K V → Run K V} {seen seen' : List Nat} {out : Macros K V} {vs : List (Nat × Macros K V)} :
      Inlined back files (k m) seen out seen' vs → Inlined back files (.incl m none k) seen out seen' vs
  | again {m : Macros K V} {g : Nat} {k : Macros K V → Run K V} {seen seen' : List Nat} {out : Macros K V} {vs : List (Nat × Macros K V)} :
      g ∈ seen → Inlined back files (k m) seen out seen' vs → Inlined back files (.incl m (some g) k) seen out seen' vs
  | first {m m' : Macros K V} {g : Nat} {k : Macros K V → Run K V} {seen seen' seen'' : List Nat} {out : Macros K V} {vs vs' : List (Nat × Macros K V)} :
      g ∉ seen → Inlined back files (files g m) (g :: seen) m' seen' vs → Inlined back files (k (back m m')) seen' out seen'' vs' →
      Inlined back files (.incl m (some g) k) seen out seen'' ((g, m) :: (vs ++ vs'))

/-- Textual inclusion: after an included file its definitions are in force. -/
def textual (_before after : Macros K V) : Macros K V := after

/-- Inclusion that loses `#undef`: what was defined before the included file and is not defined at its end is defined as before. -/
def keeping (before after : Macros K V) : Macros K V := fun x => match after x with | some v => some v | none => before x

/-- The files that are read for the main file `root`, with the definitions they are read with: the main file with none, and those it includes. -/
def ReadFor (back : Macros K V → Macros K V → Macros K V) (files : Nat → Macros K V → Run K V) (root : Nat) (vs : List (Nat × Macros K V)) : Prop :=
  ∃ out seen vs', Inlined back files (files root fun _ => none) [root] out seen vs' ∧ vs = (root, fun _ => none) :: vs'

end Spec

end Verif.Include
