import Verif.Flycheck.Model
/-!
# Model of what the client is shown of the compiler runs: progress, status and the button to cancel

`crates/sourcepawn_lsp/src/main_loop.rs:492-554, 646-652`, `progress.rs:17-69`, `reload.rs:77-114`, `handlers/notification.rs:149-169`,
`crates/vfs/src/file_id.rs`. The workers are those of `Verif.Flycheck.Model`; they, the main loop and the client interleave arbitrarily.
What the messages do to the diagnostics is in `Verif.Flycheck.Model.onMsg`.
-/

namespace Verif.Lsp.Compile

open Verif.Flycheck

abbrev Str := List Char

/-- `Progress` (progress.rs:3-8). -/
inductive Kind where
  | begin_ | report | end_
deriving DecidableEq

/-- Messages to the client: `SpcompStatusNotification`, `window/workDoneProgress/create` and `$/progress` (with the token, the title of
a beginning, and whether the client may cancel; the end has neither). Texts and percentages of the progress are always `None` here. -/
inductive Out where
  | compiling (quiescent : Bool)
  | create (token : Str)
  | begins (token title : Str) (cancellable : Bool)
  | reports (token : Str) (cancellable : Bool)
  | ends (token : Str)
deriving DecidableEq

/-- `report_progress` (progress.rs:18-68). -/
def reportProgress (title : Str) (state : Kind) (cancelToken : Option Str) : List Out :=
  let token := cancelToken.getD ("rustAnalyzer/".toList ++ title)
  match state with
  | .begin_ => [.create token, .begins token title cancelToken.isSome]
  | .report => [.reports token cancelToken.isSome]
  | .end_ => [.ends token]

/-- `format!("{id}")` for the number of a file (file_id.rs:24-28). -/
def shown (id : Nat) : Str := Nat.toDigits 10 id

def tokenPrefix : Str := "sourcepawn-lsp/flycheck/".toList

/-- The token of the worker of root `id` (main_loop.rs:549). -/
def tokenOf (id : Nat) : Str := tokenPrefix ++ shown id

/-- The title of the progress (main_loop.rs:537-543); `n` is the number of workers. -/
def titleOf (n id : Nat) : Str :=
  if n = 1 then "spcomp check".toList else "spcomp check (#".toList ++ shown (id + 1) ++ ")".toList

variable {D : Type}

/-- `handle_flycheck_msg` (main_loop.rs:492-554) for a message of the worker of root `id`: what is sent to the client. -/
def handleMsg (n id : Nat) : Msg D → List Out
  | .add _ => []
  | .didStart => .compiling false :: reportProgress (titleOf n id) .begin_ (some (tokenOf id))
  | .didCancel => .compiling true :: reportProgress (titleOf n id) .end_ (some (tokenOf id))
  | .didFailToRestart => []
  | .didFinish => .compiling true :: reportProgress (titleOf n id) .end_ (some (tokenOf id))

/-- `parse::<u32>` (file_id.rs:16-22): an optional `+`, at least one digit, and the number fits. -/
def parseDigits (l : Str) : Option Nat :=
  if l ≠ [] ∧ l.all Char.isDigit ∧ Nat.ofDigitChars 10 l 0 < 2 ^ 32 then some (Nat.ofDigitChars 10 l 0) else none

def parseId : Str → Option Nat
  | '+' :: l => parseDigits l
  | l => parseDigits l

/-- `strip_prefix`. -/
def stripPrefix : Str → Str → Option Str
  | [], l => some l
  | _ :: _, [] => none
  | p :: ps, c :: l => if p = c then stripPrefix ps l else none

/-- The root whose worker a token names (notification.rs:153-158). -/
def idOf (token : Str) : Option Nat := (stripPrefix tokenPrefix token).bind parseId

/-- The server. `ids` are the keys of `self.flycheck` and `worker` its values. `retired` are replaced workers that a task still holds.
`reloading`: the main loop drops the old workers and waits for their threads (`reload.rs:113`; the handle of a thread joins it). -/
structure Sys (D : Type) where
  ids : List Nat := []
  worker : Nat → St D := fun _ => {}
  retired : List (Nat × St D) := []
  reloading : Bool := false
  /-- `flycheck_receiver` -/
  chan : List (Nat × Msg D) := []
  out : List Out := []

inductive Act (D : Type) where
  /-- the worker of a root, its compiler, or a task that restarts it -/
  | worker (id : Nat) (a : Flycheck.Act D)
  /-- a replaced worker -/
  | old (i : Nat) (a : Flycheck.Act D)
  /-- a turn of the main loop that handles the next `k + 1` messages of the workers -/
  | turn (k : Nat)
  /-- the client cancels the progress with a token -/
  | cancel (token : Str)
  /-- `reload_flycheck` starts to replace the workers -/
  | release
  /-- the old workers have ended and the new ones are there -/
  | reload (ids : List Nat)
  /-- `reload_flycheck` while a task holds the old workers: nothing is waited for -/
  | reloadHeld (ids : List Nat)

/-- Messages a worker has sent in a step. -/
def news (s s' : St D) : List (Msg D) := s'.log.drop s.log.length

/-- Keys of a hash map of `FileId`s. -/
def keysOk (ids : List Nat) : Bool := decide ids.Nodup && ids.all fun i => decide (i < 2 ^ 32)

def setAt (f : Nat → St D) (id : Nat) (w : St D) : Nat → St D := fun i => if i = id then w else f i

/-- `handle_work_done_progress_cancel` (notification.rs:149-169). -/
def Sys.onCancel (s : Sys D) (token : Str) : Sys D :=
  match idOf token with
  | none => s
  | some id =>
    if id ∈ s.ids then { s with worker := setAt s.worker id { s.worker id with inbox := (s.worker id).inbox ++ [.cancel] } } else s

/-- One action; `none` if it cannot happen now. Only `reload_flycheck` drops workers. -/
def Sys.step (s : Sys D) : Act D → Option (Sys D)
  | .worker id a =>
    if id ∈ s.ids then
      match a with
      | .drop => none
      | a => ((s.worker id).step a).map fun w =>
        { s with worker := setAt s.worker id w, chan := s.chan ++ (news (s.worker id) w).map (Prod.mk id) }
    else none
  | .old i a =>
    match s.retired[i]? with
    | none => none
    | some (id, w) => (w.step a).map fun w' =>
      { s with retired := s.retired.set i (id, w'), chan := s.chan ++ (news w w').map (Prod.mk id) }
  | .turn k =>
    if s.reloading then none
    else some { s with chan := s.chan.drop (k + 1), out := s.out ++ (s.chan.take (k + 1)).flatMap fun m => handleMsg s.ids.length m.1 m.2 }
  | .cancel token => if s.reloading then none else some (s.onCancel token)
  | .release =>
    if s.reloading then none else some { s with reloading := true, worker := fun i => { s.worker i with dropped := true } }
  | .reload ids =>
    if s.reloading && s.ids.all (fun i => decide ((s.worker i).mode = .ended)) && keysOk ids then
      some { s with reloading := false, ids := ids, worker := fun _ => {} }
    else none
  | .reloadHeld ids =>
    if !s.reloading && keysOk ids then
      some { s with retired := s.retired ++ s.ids.map (fun i => (i, s.worker i)), ids := ids, worker := fun _ => {} }
    else none

def Sys.run (s : Sys D) : List (Act D) → Option (Sys D)
  | [] => some s
  | a :: as => (s.step a).bind fun s' => s'.run as

/-! ## Specification -/

namespace Spec

/-- Does a message to the client concern the progress with this token? -/
def about (token : Str) : Out → Bool
  | .compiling _ => false
  | .create t | .begins t _ _ | .reports t _ | .ends t => decide (t = token)

/-- What a client accepts for one progress: the server creates it, begins it and ends it, and only then again. The flag tells whether it
is shown in the end; while it is, the user can cancel it. -/
inductive Shown (token : Str) : Bool → List Out → Prop where
  | nothing : Shown token false []
  | start {l : List Out} {title : Str} : Shown token false l → Shown token true (l ++ [.create token, .begins token title true])
  | stop {l : List Out} : Shown token true l → Shown token false (l ++ [.ends token])

/-- A compiler started for root `id` is running. -/
def Running (s : Sys D) (id : Nat) : Prop := id ∈ s.ids ∧ (s.worker id).handle.isSome = true

instance (s : Sys D) (id : Nat) : Decidable (Running s id) := inferInstanceAs (Decidable (_ ∧ _))

def toldOf : Out → Option Bool
  | .compiling q => some q
  | _ => none

/-- The last status of the compiler sent to the client. -/
def told (out : List Out) : Option Bool := (out.filterMap toldOf).getLast?

/-- No workers are replaced while a task still holds them. -/
def Calm : Act D → Bool
  | .reloadHeld _ => false
  | _ => true

/-- Never more than one project. -/
def OneProject : Act D → Bool
  | .reload ids | .reloadHeld ids => decide (ids.length ≤ 1)
  | _ => true

/-- Is worker `id` asked to start the compiler? -/
def asksFor (id : Nat) : Act D → Bool
  | .worker i (.send .restart) => decide (i = id)
  | .reload _ | .reloadHeld _ | .release => true
  | _ => false

end Spec

end Verif.Lsp.Compile
