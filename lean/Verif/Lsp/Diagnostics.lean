/-!
# Model of `DiagnosticCollection` and of the publication at the end of a loop turn

`crates/sourcepawn_lsp/src/diagnostics.rs:24-142`, `main_loop.rs:702-748`.
Diagnostics are abstract: `same` is `are_diagnostics_equal`, `patch` is the replacement of empty messages.
Hash maps are association lists with one entry per key; since their iteration order is unspecified in Rust, the
publication may list the diagnostics of a file in any order.
-/

namespace Verif.Lsp.Diagnostics

abbrev FileId := Nat

/-- `HashMap::entry(k).or_default()` followed by an update of the value. -/
def upsert {α : Type} (m : List (Nat × α)) (k : Nat) (dflt : α) (f : α → α) : List (Nat × α) :=
  match m with
  | [] => [(k, f dflt)]
  | (k', v) :: r => if k' = k then (k', f v) :: r else (k', v) :: upsert r k dflt f

/-- `DiagnosticCollection` (diagnostics.rs:23-30). -/
structure Coll (D : Type) where
  native : List (FileId × List D)
  check : List (Nat × List (FileId × List D))
  changes : List FileId

variable {D : Type}

def Coll.init : Coll D := ⟨[], [], []⟩

/-- Emptying the entry of one flycheck; returns the drained file ids. -/
def drain (m : List (Nat × List (FileId × List D))) (fc : Nat) : List (Nat × List (FileId × List D)) × List FileId :=
  match m with
  | [] => ([], [])
  | (k, v) :: r => if k = fc then ((k, []) :: r, v.map (·.1)) else let (r', ks) := drain r fc; ((k, v) :: r', ks)

/-- `clear_check` (diagnostics.rs:41-48). -/
def Coll.clearCheck (c : Coll D) (fc : Nat) : Coll D :=
  let (m, ks) := drain c.check fc
  { c with check := m, changes := c.changes ++ ks }

/-- `clear_check_all` (diagnostics.rs:51-58). -/
def Coll.clearCheckAll (c : Coll D) : Coll D :=
  { c with check := c.check.map (fun e => (e.1, [])), changes := c.changes ++ c.check.flatMap (fun e => e.2.map (·.1)) }

/-- `clear_native_for` (diagnostics.rs:60-63). -/
def Coll.clearNativeFor (c : Coll D) (f : FileId) : Coll D :=
  { c with native := c.native.filter (fun e => e.1 ≠ f), changes := c.changes ++ [f] }

/-- `entry(flycheck_id).or_default().entry(file_id).or_default()` read. -/
def Coll.checkFor (c : Coll D) (fc : Nat) (f : FileId) : List D :=
  (((c.check.lookup fc).getD []).lookup f).getD []

/-- `add_check_diagnostic` (diagnostics.rs:66-94). The `or_default` entries are created also when the diagnostic is a
duplicate. -/
def Coll.addCheck (same : D → D → Bool) (c : Coll D) (fc : Nat) (f : FileId) (d : D) : Coll D :=
  if (c.checkFor fc f).any (fun e => same e d) then
    { c with check := upsert c.check fc [] (fun m => upsert m f [] id) }
  else
    { c with check := upsert c.check fc [] (fun m => upsert m f [] (fun ds => ds ++ [d])), changes := c.changes ++ [f] }

/-- `set_native_diagnostics` (diagnostics.rs:96-114). -/
def Coll.setNative (same : D → D → Bool) (c : Coll D) (f : FileId) (ds : List D) : Coll D :=
  match c.native.lookup f with
  | some old =>
    if old.length = ds.length && (ds.zip old).all (fun p => same p.1 p.2) then c
    else { c with native := upsert c.native f [] (fun _ => ds), changes := c.changes ++ [f] }
  | none => { c with native := upsert c.native f [] (fun _ => ds), changes := c.changes ++ [f] }

/-- `diagnostics_for` (diagnostics.rs:116-127), in one iteration order of the maps. -/
def Coll.diagnosticsFor (c : Coll D) (f : FileId) : List D :=
  (c.native.lookup f).getD [] ++ c.check.flatMap (fun e => (e.2.lookup f).getD [])

/-- What changes the collection, and the publication at the end of a turn. `order f` is the order in which the maps
happen to be iterated. -/
inductive Ev (D : Type) where
  | clearCheck (fc : Nat)
  | clearCheckAll
  | clearNativeFor (f : FileId)
  | addCheck (fc : Nat) (f : FileId) (d : D)
  | setNative (f : FileId) (ds : List D)
  | publish (order : FileId → List D → List D)

/-- The collection and what the client was last told per file. -/
structure Sys (D : Type) where
  coll : Coll D
  client : FileId → List D

def Sys.init : Sys D := ⟨Coll.init, fun _ => []⟩

/-- `take_changes` (diagnostics.rs:129-134) and the publication loop (main_loop.rs:702-748). -/
def Sys.publish (patch : D → D) (order : FileId → List D → List D) (s : Sys D) : Sys D :=
  ⟨{ s.coll with changes := [] },
   fun f => if f ∈ s.coll.changes then (order f (s.coll.diagnosticsFor f)).map patch else s.client f⟩

def Sys.step (same : D → D → Bool) (patch : D → D) (s : Sys D) : Ev D → Sys D
  | .clearCheck fc => { s with coll := s.coll.clearCheck fc }
  | .clearCheckAll => { s with coll := s.coll.clearCheckAll }
  | .clearNativeFor f => { s with coll := s.coll.clearNativeFor f }
  | .addCheck fc f d => { s with coll := s.coll.addCheck same fc f d }
  | .setNative f ds => { s with coll := s.coll.setNative same f ds }
  | .publish order => s.publish patch order

def Sys.run (same : D → D → Bool) (patch : D → D) (s : Sys D) (es : List (Ev D)) : Sys D := es.foldl (Sys.step same patch) s

end Verif.Lsp.Diagnostics

/-! ## Specification: the collection as plain sets of facts, from the history -/
namespace Verif.Lsp.Diagnostics.Spec
open Verif.Lsp.Diagnostics
variable {D : Type}

/-- The native diagnostics last computed for `f`, none after a clear. -/
def lastNative (f : FileId) (es : List (Ev D)) : List D :=
  es.foldl (fun acc e =>
    match e with
    | .setNative g ds => if g = f then ds else acc
    | .clearNativeFor g => if g = f then [] else acc
    | _ => acc) []

/-- The compiler diagnostics received for `f` from flycheck `fc` since its last clear, without repetitions
(in the sense of `same`). -/
def checkDiags (same : D → D → Bool) (fc : Nat) (f : FileId) (es : List (Ev D)) : List D :=
  es.foldl (fun acc e =>
    match e with
    | .addCheck fc' g d => if fc' = fc ∧ g = f then (if acc.any (fun x => same x d) then acc else acc ++ [d]) else acc
    | .clearCheck fc' => if fc' = fc then [] else acc
    | .clearCheckAll => []
    | _ => acc) []

end Verif.Lsp.Diagnostics.Spec
