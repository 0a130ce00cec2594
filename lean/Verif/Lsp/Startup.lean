/-!
# Model of the synchronous configuration pull at start-up, and of the encoding negotiation

`crates/sourcepawn_lsp/src/main_loop.rs:60-88,211-258`, `lsp/ext.rs:6-22`.
-/

namespace Verif.Lsp.Startup

/-- Messages from the client. `pullResponse r` is a response to the request `initial_config_pull`: `none` if it has no
result (an error) or its result is not an array, otherwise the array. `other n` is any other message. -/
inductive Msg (C : Type) where
  | pullResponse (r : Option (List C))
  | exit
  | other (n : Nat)
  deriving DecidableEq, Repr

variable {C : Type}

/-- The loop of `pull_config_sync` (main_loop.rs:233-245): the configuration array, the ignored messages in the order they
were pushed, and the messages still in the channel. `none`: the channel ran out (the server waits, or panics when the
client hangs up). -/
def pullLoop (ignored : List (Msg C)) : List (Msg C) → Option (List C × List (Msg C) × List (Msg C))
  | [] => none
  | .pullResponse (some cfg) :: rest => some (cfg, ignored, rest)
  | .pullResponse none :: rest => pullLoop ignored rest
  | m :: rest => pullLoop (ignored ++ [m]) rest

/-- `pull_config_sync` (main_loop.rs:211-258): the first configuration and the reversed stack; `none` also for the panic on
an empty array. -/
def pullConfigSync (inbox : List (Msg C)) : Option (C × List (Msg C) × List (Msg C)) :=
  match pullLoop [] inbox with
  | none => none
  | some (cfg, ignored, rest) => (cfg.head?).map (fun c => (c, ignored.reverse, rest))

/-- `while let Some(event) = ignored.pop()` (main_loop.rs:62-72): handled messages and whether `exit` was met. Popping
takes from the end of the vector. -/
def drain (stack : List (Msg C)) : List (Msg C) × Bool :=
  match h : stack.getLast? with
  | none => ([], false)
  | some .exit => ([], true)
  | some m => let (hs, e) := drain stack.dropLast; (m :: hs, e)
termination_by stack.length
decreasing_by
  have : stack ≠ [] := by rintro rfl; simp at h
  have := List.length_pos_iff.2 this
  simp; omega

/-- The main loop on the remaining messages (main_loop.rs:78-87), as far as client messages are concerned. -/
def mainLoop : List (Msg C) → List (Msg C)
  | [] => []
  | .exit :: _ => []
  | m :: ms => m :: mainLoop ms

/-- `run` (main_loop.rs:60-88): the configuration and the client messages handled, in order. -/
def run (inbox : List (Msg C)) : Option (C × List (Msg C)) :=
  (pullConfigSync inbox).map fun (c, stack, rest) =>
    let (hs, e) := drain stack
    (c, if e then hs else hs ++ mainLoop rest)

/-- `PositionEncodingKind` values known to the server; `other` for anything else. -/
inductive EncKind where
  | utf8 | utf16 | utf32 | other (n : Nat)
  deriving DecidableEq, Repr

inductive PosEnc where
  | utf8 | wide16 | wide32
  deriving DecidableEq, Repr

/-- The loop of `negotiated_encoding` (lsp/ext.rs:12-21). -/
def negotiateLoop : List EncKind → PosEnc
  | [] => .wide16
  | e :: es => if e = .utf8 then .utf8 else if e = .utf32 then .wide32 else negotiateLoop es

/-- `negotiated_encoding` (lsp/ext.rs:6-22): `general` capabilities and the offered encodings may be absent. -/
def negotiatedEncoding (general : Option (Option (List EncKind))) : PosEnc :=
  negotiateLoop (match general with
    | some offered => offered.getD []
    | none => [])

end Verif.Lsp.Startup

namespace Verif.Lsp.Startup.Spec
open Verif.Lsp.Startup
variable {C : Type}

/-- A response to the configuration request. -/
def isPull : Msg C → Bool
  | .pullResponse _ => true
  | _ => false

/-- A usable one. -/
def isUsable : Msg C → Bool
  | .pullResponse (some _) => true
  | _ => false

/-- Everything before the first `exit`. -/
def untilExit [DecidableEq C] (ms : List (Msg C)) : List (Msg C) := ms.takeWhile (fun m => decide (m ≠ .exit))

end Verif.Lsp.Startup.Spec
