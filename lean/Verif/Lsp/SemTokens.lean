/-!
# Model of semantic tokens

`crates/sourcepawn_lsp/src/lsp/semantic_tokens.rs:177-266`, `handlers/request.rs:63-120`,
`handlers/notification.rs:107-110`, `lsp/to_proto.rs:74-102`.
`u32` values are natural numbers; a subtraction below zero is a panic (`none`).
-/

namespace Verif.Lsp.SemTokens

/-- `lsp_types::SemanticToken`: the relative encoding. -/
structure Tok where
  deltaLine : Nat
  deltaStart : Nat
  length : Nat
  type : Nat
  mods : Nat
  deriving DecidableEq, Repr

/-- Serialisation of a token in the LSP `data` array. -/
def Tok.flat (t : Tok) : List Nat := [t.deltaLine, t.deltaStart, t.length, t.type, t.mods]

def flat (l : List Tok) : List Nat := l.flatMap Tok.flat

/-- `lsp_types::SemanticTokensEdit`. -/
structure Edit where
  start : Nat
  deleteCount : Nat
  data : List Tok
  deriving DecidableEq, Repr

/-- `a.iter().zip(b.iter()).take_while(|(n, p)| n == p).count()`. -/
def commonPrefix : List Tok → List Tok → Nat
  | a :: as, b :: bs => if a = b then commonPrefix as bs + 1 else 0
  | _, _ => 0

/-- `diff_tokens` (semantic_tokens.rs:234-266). `split_at(n)` is `(take n, drop n)`; its bounds hold by
`commonPrefix_le`. The cast `5 * offset as u32` is not truncated here. -/
def diffTokens (old new : List Tok) : List Edit :=
  let offset := commonPrefix new old
  let old := old.drop offset
  let new := new.drop offset
  let offsetFromEnd := commonPrefix new.reverse old.reverse
  let old := old.take (old.length - offsetFromEnd)
  let new := new.take (new.length - offsetFromEnd)
  if old.isEmpty && new.isEmpty then []
  else [⟨5 * offset, 5 * old.length, new⟩]

/-- A token with its absolute range on one line: what `push` receives (`range`, `token_index`, `modifier_bitset`). -/
structure Abs where
  line : Nat
  start : Nat
  stop : Nat
  type : Nat
  mods : Nat
  deriving DecidableEq, Repr

/-- `SemanticTokensBuilder` (semantic_tokens.rs:180-185). -/
structure Builder where
  prevLine : Nat
  prevChar : Nat
  data : List Tok

def Builder.new : Builder := ⟨0, 0, []⟩

/-- Checked subtraction. -/
def sub? (a b : Nat) : Option Nat := if b ≤ a then some (a - b) else none

/-- `push_line` and `push_char` (semantic_tokens.rs:199-207). -/
def Builder.pos (b : Builder) (t : Abs) : Option (Nat × Nat) :=
  if b.data.isEmpty then some (t.line, t.start)
  else
    (sub? t.line b.prevLine).bind (fun l =>
      if l = 0 then (sub? t.start b.prevChar).map (fun c => (l, c))
      else some (l, t.start))

/-- `SemanticTokensBuilder::push` (semantic_tokens.rs:198-224); `range.start = (line, start)`,
`range.end.character = stop`. `none` = arithmetic panic. -/
def Builder.push (b : Builder) (t : Abs) : Option Builder :=
  (b.pos t).bind (fun pos =>
    (sub? t.stop t.start).map (fun len =>
      ⟨t.line, t.start, b.data ++ [⟨pos.1, pos.2, len, t.type, t.mods⟩]⟩))

def Builder.pushAll : Builder → List Abs → Option Builder
  | b, [] => some b
  | b, t :: ts =>
    match b.push t with
    | none => none
    | some b' => b'.pushAll ts

/-- `to_proto::semantic_tokens` (to_proto.rs:74-93) after the highlights have been mapped to types and modifiers. -/
def encode (l : List Abs) : Option (List Tok) := (Builder.new.pushAll l).map (·.data)

/-! ### The delta protocol -/

/-- A running request handler for one document. `taken` is what the delta handler removed from the cache. -/
inductive Handler where
  | full
  | fullComputed (id : Nat) (data : List Tok)
  | delta (prev : Nat)
  | deltaComputed (prev : Nat) (id : Nat) (data : List Tok)
  | deltaTaken (prev : Nat) (id : Nat) (data : List Tok) (taken : Option (Nat × List Tok))
  | done
  deriving DecidableEq

inductive Response where
  | full (id : Nat) (data : List Tok)
  | delta (id base : Nat) (edits : List Edit)
  deriving DecidableEq

/-- Server state for one document: `TOKEN_RESULT_COUNTER`, the entry of `semantic_tokens_cache`, the running handlers
(on worker threads) and the responses in the order they were produced. `issued` is a ghost: all computed token arrays
with the id they were given. -/
structure St where
  counter : Nat
  cache : Option (Nat × List Tok)
  handlers : List Handler
  responses : List Response
  issued : List (Nat × List Tok)

def St.init : St := ⟨1, none, [], [], []⟩

/-- Atomic actions. The cache lock is held for one map operation at a time, so any handler may interleave. -/
inductive Act where
  /-- the client sends a full request -/
  | reqFull
  /-- the client sends a delta request with a previous result id -/
  | reqDelta (prev : Nat)
  /-- handler `i` computes its tokens and gets the next id (request.rs:70-71, 88-90; to_proto.rs:75-77) -/
  | compute (i : Nat) (data : List Tok)
  /-- handler `i` makes its next cache access (request.rs:74-78, 92-95, 97-119) -/
  | cacheStep (i : Nat)
  /-- another request (another document or a range request) takes an id -/
  | otherId
  /-- the document is closed (notification.rs:107-110), or the cache is cleared (main_loop.rs:677) -/
  | drop

def St.step (s : St) : Act → St
  | .reqFull => { s with handlers := s.handlers ++ [.full] }
  | .reqDelta p => { s with handlers := s.handlers ++ [.delta p] }
  | .compute i d =>
    match s.handlers[i]? with
    | some .full => { s with counter := s.counter + 1, issued := s.issued ++ [(s.counter, d)],
                             handlers := s.handlers.set i (.fullComputed s.counter d) }
    | some (.delta p) => { s with counter := s.counter + 1, issued := s.issued ++ [(s.counter, d)],
                                  handlers := s.handlers.set i (.deltaComputed p s.counter d) }
    | _ => s
  | .cacheStep i =>
    match s.handlers[i]? with
    | some (.fullComputed id d) =>
      { s with cache := some (id, d), handlers := s.handlers.set i .done, responses := s.responses ++ [.full id d] }
    | some (.deltaComputed p id d) =>
      { s with cache := none, handlers := s.handlers.set i (.deltaTaken p id d s.cache) }
    | some (.deltaTaken p id d taken) =>
      let s' := { s with cache := some (id, d), handlers := s.handlers.set i .done }
      match taken with
      | some (pid, pd) =>
        if pid = p then { s' with responses := s.responses ++ [.delta id p (diffTokens pd d)] }
        else { s' with responses := s.responses ++ [.full id d] }
      | none => { s' with responses := s.responses ++ [.full id d] }
    | _ => s
  | .otherId => { s with counter := s.counter + 1 }
  | .drop => { s with cache := none }

def St.run (s : St) (acts : List Act) : St := acts.foldl St.step s

end Verif.Lsp.SemTokens

/-! ## Specification: the client side of the protocol -/
namespace Verif.Lsp.SemTokens.Spec
open Verif.Lsp.SemTokens

/-- LSP: an edit replaces `deleteCount` integers at `start` of the data array. -/
def applyEdit (arr : List Nat) (e : Edit) : List Nat :=
  arr.take e.start ++ flat e.data ++ arr.drop (e.start + e.deleteCount)

/-- Several edits refer to the original array; applied from the back. -/
def applyEdits (arr : List Nat) (es : List Edit) : List Nat := es.foldr (fun e a => applyEdit a e) arr

/-- LSP: decoding the relative encoding, from the previous token's position. -/
def decodeFrom (line char : Nat) : List Tok → List Abs
  | [] => []
  | t :: ts =>
    let l := line + t.deltaLine
    let c := if t.deltaLine = 0 then char + t.deltaStart else t.deltaStart
    ⟨l, c, c + t.length, t.type, t.mods⟩ :: decodeFrom l c ts

def decode (l : List Tok) : List Abs := decodeFrom 0 0 l

/-- Document order of two tokens. -/
def Le (a b : Abs) : Prop := a.line < b.line ∨ (a.line = b.line ∧ a.start ≤ b.start)

instance (a b : Abs) : Decidable (Le a b) := inferInstanceAs (Decidable (_ ∨ _))

/-- Consecutive tokens are in document order and no token ends before it starts. -/
def Ordered : List Abs → Prop
  | [] => True
  | [a] => a.start ≤ a.stop
  | a :: b :: r => a.start ≤ a.stop ∧ Le a b ∧ Ordered (b :: r)

/-- What the client has stored per result id after a sequence of responses: a full response is stored, a delta is
applied to the array stored for the base id it asked for. -/
def clientView (rs : List Response) (id : Nat) : Option (List Nat) :=
  rs.foldl (fun (view : Nat → Option (List Nat)) r =>
    match r with
    | .full i d => fun j => if j = i then some (flat d) else view j
    | .delta i b es => fun j => if j = i then (view b).map (fun a => applyEdits a es) else view j) (fun _ => none) id

end Verif.Lsp.SemTokens.Spec
