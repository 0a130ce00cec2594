import Verif.Vfs.Model
import Verif.TextSync.Spec
import Verif.Lsp.Diagnostics
/-!
# Model of open documents: editor notifications against loader messages and diagnostics jobs

`crates/sourcepawn_lsp/src/mem_docs.rs`, `handlers/notification.rs:20-117`, `main_loop.rs:423-460,556-566`,
`diagnostics.rs:144-178`.

Paths are abstract. UTF-8 encoding and decoding are a pair of functions (`Utf8`). URLs that do not denote a file path are
ignored by the handlers and not modelled. Notifications, loader messages and the completion of background diagnostics
jobs interleave arbitrarily. `none` is a panic.
-/

namespace Verif.Lsp.Editor
open Verif.Vfs Verif.TextSync
open Verif.Lsp.Diagnostics (Coll)

/-- `String::into_bytes` and `str::from_utf8`. -/
structure Utf8 where
  enc : Text → Bytes
  dec : Bytes → Option Text
  dec_enc : ∀ t, dec (enc t) = some t

/-- The state touched by these handlers. `inflight` holds the subscriptions of each running diagnostics job. -/
structure St (P D : Type) where
  memDocs : List (P × Int)
  vfs : Vfs P
  diags : Coll D
  inflight : List (List Verif.Vfs.FileId)

variable {P D : Type} [DecidableEq P]

def St.init : St P D := ⟨[], Vfs.empty, Coll.init, []⟩

inductive Act (P D : Type) where
  | didOpen (p : P) (version : Int) (text : Text)
  | didChange (p : P) (version : Int) (changes : List Change)
  | didClose (p : P)
  /-- The loader or watcher reports files with their contents on disk (`none`: not there). -/
  | loaded (files : List (P × Option Bytes))
  /-- The end of a loop turn that refreshes diagnostics. -/
  | refresh
  /-- A diagnostics job finishes and its result is handled; `none` for a file whose computation was cancelled. -/
  | diagsDone (i : Nat) (result : Verif.Vfs.FileId → Option (List D))

/-- `MemDocs::contains` (mem_docs.rs:19-21). -/
def St.isOpen (s : St P D) (p : P) : Bool := s.memDocs.any (fun d => decide (d.1 = p))

/-- `MemDocs::insert` (mem_docs.rs:23-29); also used for the version update of `get_mut`. -/
def insertDoc (m : List (P × Int)) (p : P) (v : Int) : List (P × Int) := (p, v) :: m.filter (fun d => decide (d.1 ≠ p))

/-- `handle_did_open_text_document` (notification.rs:60-87). -/
def St.didOpen (u : Utf8) (s : St P D) (p : P) (v : Int) (t : Text) : Option (St P D) :=
  (s.vfs.setFileContents p (some (u.enc t))).map (fun r => { s with memDocs := insertDoc s.memDocs p v, vfs := r.1 })

/-- `handle_did_change_text_document` (notification.rs:20-58). The closure reading the old text is always evaluated here;
the code evaluates it unless the batch has a full replacement, so the model panics at least as often. -/
def St.didChange (u : Utf8) (enc : Encoding) (s : St P D) (p : P) (v : Int) (cs : List Change) : Option (St P D) :=
  if s.isOpen p then
    (s.vfs.fileId p).join.bind fun id =>
    (s.vfs.fileContents id).bind fun b =>
    (u.dec b).bind fun old =>
    (applyDocumentChanges enc old cs).bind fun t =>
    (s.vfs.setFileContents p (some (u.enc t))).map (fun r => { s with memDocs := insertDoc s.memDocs p v, vfs := r.1 })
  else some s

/-- `handle_did_close_text_document` (notification.rs:89-117). The invalidation sent to the loader comes back as a `loaded`
message. -/
def St.didClose (s : St P D) (p : P) : Option (St P D) :=
  (s.vfs.fileId p).map fun oid =>
    let diags := match oid with
      | some id => s.diags.clearNativeFor id
      | none => s.diags
    { s with memDocs := s.memDocs.filter (fun d => decide (d.1 ≠ p)), diags := diags }

/-- `handle_vfs_msg` for `Loaded` (main_loop.rs:453-461). -/
def St.loaded (s : St P D) : List (P × Option Bytes) → Option (St P D)
  | [] => some s
  | (p, c) :: fs =>
    if s.isOpen p then s.loaded fs
    else (s.vfs.setFileContents p c).bind (fun r => ({ s with vfs := r.1 } : St P D).loaded fs)

/-- The subscriptions of `update_diagnostics` (main_loop.rs:423-438): `file_id(path).unwrap()` per open document. -/
def subscriptions (v : Vfs P) : List (P × Int) → Option (List Verif.Vfs.FileId)
  | [] => some []
  | d :: ds => (v.fileId d.1).join.bind fun id => (subscriptions v ds).map (id :: ·)

/-- `update_diagnostics` (main_loop.rs:423-449). -/
def St.refresh (s : St P D) : Option (St P D) :=
  (subscriptions s.vfs s.memDocs).map fun subs => { s with inflight := s.inflight ++ [subs] }

/-- The loop of `handle_task` over the computed diagnostics (main_loop.rs:561-566). -/
def setAllNative (same : D → D → Bool) (result : Verif.Vfs.FileId → Option (List D)) (c : Coll D) :
    List Verif.Vfs.FileId → Coll D
  | [] => c
  | f :: fs =>
    setAllNative same result (match result f with
      | some ds => c.setNative same f ds
      | none => c) fs

/-- `fetch_native_diagnostics` (diagnostics.rs:144-178) delivered to `handle_task` (main_loop.rs:561-566). -/
def St.diagsDone (same : D → D → Bool) (s : St P D) (i : Nat) (result : Verif.Vfs.FileId → Option (List D)) : St P D :=
  match s.inflight[i]? with
  | none => s
  | some subs =>
    { s with
      inflight := s.inflight.eraseIdx i
      diags := setAllNative same result s.diags subs }

def St.step (u : Utf8) (enc : Encoding) (same : D → D → Bool) (s : St P D) : Act P D → Option (St P D)
  | .didOpen p v t => s.didOpen u p v t
  | .didChange p v cs => s.didChange u enc p v cs
  | .didClose p => s.didClose p
  | .loaded fs => s.loaded fs
  | .refresh => s.refresh
  | .diagsDone i r => some (s.diagsDone same i r)

def St.run (u : Utf8) (enc : Encoding) (same : D → D → Bool) (s : St P D) : List (Act P D) → Option (St P D)
  | [] => some s
  | a :: as => (s.step u enc same a).bind (fun s' => s'.run u enc same as)

end Verif.Lsp.Editor

/-! ## Specification: the client's view of its documents -/
namespace Verif.Lsp.Editor.Spec
open Verif.Lsp.Editor Verif.TextSync
variable {P D : Type} [DecidableEq P]

/-- One document in the client: its version and text while open. Loader messages do not concern it. -/
def clientStep (enc : Encoding) (p : P) (doc : Option (Int × Text)) : Act P D → Option (Int × Text)
  | .didOpen q v t => if q = p then some (v, t) else doc
  | .didChange q v cs => if q = p then doc.map (fun d => (v, TextSync.Spec.applyAll enc d.2 cs)) else doc
  | .didClose q => if q = p then none else doc
  | _ => doc

/-- The document as the client has it after its notifications. -/
def clientDoc (enc : Encoding) (p : P) (as : List (Act P D)) : Option (Int × Text) := as.foldl (clientStep enc p) none

/-- Every change batch sent for an open document is one for which document synchronisation works (property C01 says
which). -/
def SyncOk (enc : Encoding) (as : List (Act P D)) : Prop :=
  ∀ pre p v cs post d, as = pre ++ Act.didChange p v cs :: post → clientDoc enc p pre = some d →
    applyDocumentChanges enc d.2 cs = some (TextSync.Spec.applyAll enc d.2 cs)

/-- The diagnostics of its own analysis that the server holds for a path. -/
def nativeFor (s : St P D) (p : P) : List D :=
  match s.vfs.fileId p with
  | some (some id) => (s.diags.native.lookup id).getD []
  | _ => []

end Verif.Lsp.Editor.Spec
