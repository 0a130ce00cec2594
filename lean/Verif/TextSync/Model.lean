/-!
# Model of incremental document synchronisation

`crates/sourcepawn_lsp/src/lsp/utils.rs` (`apply_document_changes`), `crates/sourcepawn_lsp/src/lsp/from_proto.rs`
(`offset`, `text_range`) and the part of the external crate `line-index` 0.1.1 they use.

Texts are lists of characters; offsets are byte offsets in the UTF-8 encoding, as in Rust. `none` is a panic of
`String::replace_range` (an offset out of bounds or not on a character boundary).
-/

namespace Verif.TextSync

abbrev Text := List Char

/-- `PositionEncoding` (crates/sourcepawn_lsp/src/line_index.rs:12-16). -/
inductive Encoding where
  | utf8 | utf16 | utf32
  deriving DecidableEq, Repr

/-- LSP position (line, character). -/
structure Pos where
  line : Nat
  col : Nat
  deriving DecidableEq, Repr

structure Range where
  start : Pos
  stop : Pos
  deriving DecidableEq, Repr

/-- `lsp_types::TextDocumentContentChangeEvent` (only the fields used by the server). -/
structure Change where
  range : Option Range
  text : Text
  deriving DecidableEq

/-- Number of bytes of a text in UTF-8. -/
def bytes (t : Text) : Nat := (t.map Char.utf8Size).sum

/-- `WideChar` of the `line-index` crate: byte column and UTF-8 length of a non-ASCII character of a line. -/
structure WideChar where
  start : Nat
  len : Nat
  deriving DecidableEq

/-- `WideChar::wide_len` of the `line-index` crate. -/
def WideChar.wideLen (w : WideChar) : Encoding → Nat
  | .utf16 => if w.len = 4 then 2 else 1
  | _ => 1

/-- `LineIndex` of the `line-index` crate: for every line its start offset and its non-ASCII characters. (The crate
stores the two tables separately; a line exists iff the start table has it.) -/
abbrev LineIndex := List (Nat × List WideChar)

/-- `LineIndex::new` of the `line-index` crate, a single pass over the text. -/
def buildIndex (start col : Nat) (wide : List WideChar) : Text → LineIndex
  | [] => [(start, wide)]
  | c :: cs =>
    if c = '\n' then (start, wide) :: buildIndex (start + col + 1) 0 [] cs
    else buildIndex start (col + c.utf8Size)
      (if 1 < c.utf8Size then wide ++ [⟨col, c.utf8Size⟩] else wide) cs

def LineIndex.new (t : Text) : LineIndex := buildIndex 0 0 [] t

/-- `LineIndex::to_utf8` of the `line-index` crate: the loop correcting a wide column. -/
def toUtf8 (enc : Encoding) : List WideChar → Nat → Nat
  | [], col => col
  | w :: ws, col => if w.start < col then toUtf8 enc ws (col + (w.len - w.wideLen enc)) else col

/-- `from_proto::offset` (crates/sourcepawn_lsp/src/lsp/from_proto.rs:25-50); `none` is its `Err`. -/
def offset (enc : Encoding) (idx : LineIndex) (p : Pos) : Option Nat :=
  match idx[p.line]? with
  | none => none
  | some (start, wide) =>
    some (start + match enc with
      | .utf8 => p.col
      | _ => toUtf8 enc wide p.col)

/-- `from_proto::text_range` (crates/sourcepawn_lsp/src/lsp/from_proto.rs:52-63); `none` is its `Err`. -/
def textRange (enc : Encoding) (idx : LineIndex) (r : Range) : Option (Nat × Nat) :=
  match offset enc idx r.start with
  | none => none
  | some s =>
    match offset enc idx r.stop with
    | none => none
    | some e => if e < s then none else some (s, e)

/-- Split a text at a byte offset; `none` if the offset is out of bounds or inside a character. -/
def splitAtByte : Nat → Text → Option (Text × Text)
  | 0, t => some ([], t)
  | _ + 1, [] => none
  | n + 1, c :: cs =>
    if c.utf8Size ≤ n + 1 then (splitAtByte (n + 1 - c.utf8Size) cs).map (fun r => (c :: r.1, r.2)) else none

/-- `String::replace_range`; `none` is its panic. -/
def replaceRange (t : Text) (s e : Nat) (new : Text) : Option Text :=
  match splitAtByte s t, splitAtByte e t with
  | some (a, _), some (_, b) => some (a ++ new ++ b)
  | _, _ => none

/-- State of the loop in `apply_document_changes`: text, line index (maybe stale), `index_valid`. -/
structure LoopState where
  text : Text
  idx : LineIndex
  indexValid : Nat

/-- Body of the loop (crates/sourcepawn_lsp/src/lsp/utils.rs:102-113); `none` = panic. -/
def loopStep (enc : Encoding) (s : LoopState) (c : Change) : Option LoopState :=
  match c.range with
  | none => some s
  | some range =>
    let idx := if s.indexValid ≤ range.stop.line then LineIndex.new s.text else s.idx
    match textRange enc idx range with
    | some (a, b) =>
      (replaceRange s.text a b c.text).map (fun t => ⟨t, idx, range.start.line⟩)
    | none => some ⟨s.text, idx, range.start.line⟩

def loop (enc : Encoding) : LoopState → List Change → Option LoopState
  | s, [] => some s
  | s, c :: cs =>
    match loopStep enc s c with
    | none => none
    | some s' => loop enc s' cs

/-- Position of the last full change, or 0 (crates/sourcepawn_lsp/src/lsp/utils.rs:62-67). -/
def startIdx (cs : List Change) : Nat :=
  match cs.reverse.findIdx? (fun c => c.range.isNone) with
  | some i => cs.length - i - 1
  | none => 0

/-- `apply_document_changes` (crates/sourcepawn_lsp/src/lsp/utils.rs:56-115). `!0u32` is `2^32-1`. The loop runs over
*all* changes of the batch (the variable `start` is not used any more after line 78). `mem::take` of the text of the
full change is not visible because changes without range are skipped by the loop. -/
def applyDocumentChanges (enc : Encoding) (file : Text) (cs : List Change) : Option Text :=
  let start := startIdx cs
  match cs[start]? with
  | none => some file
  | some c =>
    match c.range with
    | none =>
      if start + 1 = cs.length then some c.text
      else (loop enc ⟨c.text, LineIndex.new c.text, 2 ^ 32 - 1⟩ cs).map (·.text)
    | some _ => (loop enc ⟨file, LineIndex.new file, 2 ^ 32 - 1⟩ cs).map (·.text)

end Verif.TextSync
