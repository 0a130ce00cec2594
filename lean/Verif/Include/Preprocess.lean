/-!
# Model of preprocessing across includes (`crates/preprocessor/src/db.rs:78-179`)

What the preprocessor does inside one file is abstracted to a `Run`: it ends with a macro table, or it reaches an include
directive with the current table, is given a table back by the callback, and goes on. Everything else about the text of the
file is hidden in that tree; in particular a run is finite (termination inside one file is the subject of C21 and C23).
-/

namespace Verif.Include

variable {K V : Type}

/-- `MacrosMap` (preprocessor/src/lib.rs). -/
abbrev Macros (K V : Type) := K → Option V

/-- `HashMap::extend`: entries of the argument win. -/
def Macros.extend (m o : Macros K V) : Macros K V := fun k =>
  match o k with
  | some v => some v
  | none => m k

/-- One execution of `preprocess_input` on a file. `target` is the file an include resolves to, `none` if unresolved. -/
inductive Run (K V : Type) where
  | done (m : Macros K V)
  | incl (m : Macros K V) (target : Option Nat) (k : Macros K V → Run K V)

/-- `PreprocessingParams` (db.rs:12-16). -/
structure Params (K V : Type) where
  inp   : Macros K V
  outs  : List (Nat × Macros K V)
  being : List Nat

/-- Map lookup; maps are association lists in which later insertions are in front. -/
def find {β : Type} (l : List (Nat × β)) (k : Nat) : Option β := (l.find? (fun e => decide (e.1 = k))).map (·.2)

/-- Local variables of `_preprocess_file_params_query` (db.rs:86-89). -/
structure St (K V : Type) where
  results : List (Nat × Params K V)
  being   : List Nat
  outs    : List (Nat × Macros K V)

/-- The run of the file with the callback `extend_macros` (db.rs:91-127, 129-131). `query` is the recursive query. `none` is
the panic of `res[&inc_file_id]` (or the query not returning). -/
def go (query : Nat → Macros K V → List Nat → Option (List (Nat × Params K V))) : Run K V → St K V → Option (Macros K V × St K V)
  | .done m, st => some (m, st)
  | .incl m none k, st => go query (k m) st
  | .incl m (some g) k, st =>
    if g ∈ st.being then go query (k m) st
    else
      match query g m st.being with
      | none => none
      | some res =>
        match find res g with
        | none => none
        | some p =>
          go query (k (m.extend ((find p.outs g).getD (fun _ => none))))
            { results := res ++ st.results, being := p.being ++ st.being, outs := p.outs ++ st.outs }

/-- `_preprocess_file_params_query` (db.rs:78-144). The fuel bounds the recursion depth; that enough fuel exists is proved.
Each invocation adds exactly one entry, for its file, to the list it returns, so the list also records which files were
preprocessed. -/
def paramsQuery (files : Nat → Macros K V → Run K V) : Nat → Nat → Macros K V → List Nat → Option (List (Nat × Params K V))
  | 0, _, _, _ => none
  | fuel + 1, f, m, being =>
    match go (paramsQuery files fuel) (files f m) ⟨[], f :: being, []⟩ with
    | none => none
    | some (out, st) => some ((f, ⟨m, (f, out) :: st.outs, st.being⟩) :: st.results)

/-- The run of the file with the callback of `_preprocess_file_data_query` (db.rs:152-178). -/
def goData (outs : List (Nat × Macros K V)) : Run K V → Macros K V
  | .done m => m
  | .incl m none k => goData outs (k m)
  | .incl m (some g) k => goData outs (k (m.extend ((find outs g).getD (fun _ => none))))

/-- `_preprocess_file_data_query` (db.rs:146-179): the macros at the end of the pass that produces the text. -/
def dataQuery (files : Nat → Macros K V → Run K V) (f : Nat) (p : Params K V) : Macros K V := goData p.outs (files f p.inp)

end Verif.Include

namespace Verif.Include.Spec
open Verif.Include
variable {K V : Type}

/-- Every include in the run resolves into `u`. -/
def Within (u : List Nat) : Run K V → Prop
  | .done _ => True
  | .incl _ t k => (∀ g, t = some g → g ∈ u) ∧ ∀ m, Within u (k m)

/-- Textual inclusion: an included file is run in place, starting with the current macros and leaving its own; a file is
included once. -/
def inlineRun (query : Nat → Macros K V → List Nat → Option (Macros K V × List Nat)) :
    Run K V → List Nat → Option (Macros K V × List Nat)
  | .done m, seen => some (m, seen)
  | .incl m none k, seen => inlineRun query (k m) seen
  | .incl m (some g) k, seen =>
    if g ∈ seen then inlineRun query (k m) seen
    else
      match query g m seen with
      | none => none
      | some (m', seen') => inlineRun query (k m') seen'

/-- Textual inclusion of a whole file. -/
def inlineFile (files : Nat → Macros K V → Run K V) : Nat → Nat → Macros K V → List Nat → Option (Macros K V × List Nat)
  | 0, _, _, _ => none
  | fuel + 1, f, m, seen => inlineRun (inlineFile files fuel) (files f m) (f :: seen)

/-- The run never removes a macro (no effective `#undef`). -/
def NoUndef : Macros K V → Run K V → Prop
  | base, .done m => ∀ k, (base k).isSome → (m k).isSome
  | base, .incl m _ k => (∀ x, (base x).isSome → (m x).isSome) ∧ ∀ m' : Macros K V, (∀ x, (m x).isSome → (m' x).isSome) → NoUndef m' (k m')

/-- During the run (with the callback of the first pass), no include names a file again that was brought in by an earlier
include of this run, nor the file itself. -/
def NoRepeat (query : Nat → Macros K V → List Nat → Option (List (Nat × Params K V))) (f : Nat) : Run K V → St K V → Prop
  | .done _, _ => True
  | .incl m none k, st => NoRepeat query f (k m) st
  | .incl m (some g) k, st =>
    if g ∈ st.being then g ≠ f ∧ g ∉ st.outs.map (·.1) ∧ NoRepeat query f (k m) st
    else
      ∀ res p, query g m st.being = some res → find res g = some p →
        NoRepeat query f (k (m.extend ((find p.outs g).getD (fun _ => none))))
          { results := res ++ st.results, being := p.being ++ st.being, outs := p.outs ++ st.outs }

end Verif.Include.Spec
