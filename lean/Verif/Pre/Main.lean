import Verif.Pre.Eval
import Verif.Text.Space
/-!
# Model of the preprocessor's main loop (`crates/preprocessor/src/lib.rs`)

A file is the list of its tokens. Parameters standing for code outside this crate: `inc`, the effect of an include directive with a
given text on the macro table (the regular expressions of lib.rs:30 and the callback of `preprocess_file_inner`). Lengths of texts
are in characters (the code counts bytes). Errors that are only reported as diagnostics are in `Pre/Reports`.
-/

namespace Verif.Pre

/-- `ConditionState` (lib.rs:37-47). -/
inductive Cond where
  | notActivated | activated | active
  deriving DecidableEq, Repr

/-- `IntrinsicsParseStatus` (lib.rs:113-119). -/
inductive Intr where
  | using_ | dot | intrinsics | handle
  deriving DecidableEq

/-- `Offset` (offset.rs:5-27). -/
structure Offset where
  range    : Rng
  diff     : Int
  argsDiff : Nat
  idx      : Nat
  fileId   : Nat
  deriving DecidableEq

/-- `SourcepawnPreprocessor` (lib.rs:53-78) and the local variables of `preprocess_input` (lib.rs:273-276). `conds` has its top
first; the hash maps of offsets and argument maps are lists of entries in the order in which they are pushed. -/
structure PSt where
  lexer     : List Sym
  macros    : Macros
  idx       : Nat := 0
  stack     : List Tok := []
  skipCol   : Nat := 0
  skipped   : List Rng := []
  line      : Str := []
  conds     : List Cond := []
  out       : List Str := []
  disabled  : List Macro := []
  pos       : Pos := ⟨0, 0⟩
  offsets   : List (Nat × Offset) := []
  argsMap   : List (Nat × Rng × Rng) := []
  intr      : Option Intr := none
  colOffset : Option Int := none
  expanded  : Option (Sym × Nat × Nat) := none
  argsDiff  : Nat := 0

/-- What the model takes as given. -/
structure Env where
  profile : Profile
  fileId  : Nat
  inc     : Str → Macros → Macros

/-- Outcome of a step of the main loop. -/
inductive Step where
  | next (st : PSt)
  | stop (st : PSt)
  | fail (st : PSt)
  | panic
  | noFuel

def blanks (n : Int) : Str := List.replicate n.natAbs ' '

/-- `push_ws` (lib.rs:734-738). -/
def pushWs (s : Sym) (st : PSt) : PSt :=
  { st with pos := ⟨st.pos.line, st.pos.char + s.delta.col.natAbs⟩, line := st.line ++ blanks s.delta.col }

/-- `push_current_line` (lib.rs:740-744). -/
def pushLine (st : PSt) : PSt := { st with pos := ⟨st.pos.line + 1, 0⟩, out := st.out ++ [st.line] }

/-- `reset_current_line` (lib.rs:756-758). -/
def resetLine (st : PSt) : PSt := { st with line := [] }

/-- `push_symbol` (lib.rs:746-754). -/
def pushSym (s : Sym) (st : PSt) : PSt :=
  if s.kind = .eof then pushLine st
  else
    let st := pushWs s st
    { st with pos := ⟨st.pos.line, st.pos.char + s.text.length⟩, line := st.line ++ s.text }

/-- `current_range` (lib.rs:760-780). -/
def currentRange (t : Tok) (st : PSt) : Rng :=
  let c := (Int.ofNat st.pos.char + t.sym.delta.col).toNat
  ⟨⟨st.pos.line, c⟩, ⟨st.pos.line, c + (t.sym.range.e.char - t.sym.range.s.char)⟩⟩

/-- `while lexer.in_preprocessor() { lexer.next() }` (lib.rs:430-436). -/
def takeDirective : List Sym → List Sym × List Sym
  | [] => ([], [])
  | s :: ss => if s.inPre then let (a, b) := takeDirective ss; (s :: a, b) else ([], s :: ss)

/-- The offset pushed by one turn of `evaluate` (evaluator.rs:185-192, 214-224). -/
def eOffset (macros : Macros) (fuel : Nat) (s : Sym) (st : ESt) : List (Nat × Offset) :=
  match s.kind with
  | .lparen | .rparen | .defined | .op _ | .true_ | .false_ | .intLit | .numLit | .charLit | .strLit | .otherLit | .blockComment
  | .lineComment | .newline | .eof | .dir _ => []
  | _ =>
    match macros s.text with
    | none => []
    | some m =>
      if st.lfd then [(s.range.s.line, ⟨s.range, 0, 0, m.idx, m.fileId⟩)]
      else if m ∈ st.disabled then []
      else
        match expandIdentifier macros false fuel s.tok st.iter st.stack st.disabled with
        | some o => match o.value with | .ok d => [(s.range.s.line, ⟨s.range, 0, d, m.idx, m.fileId⟩)] | .error _ => []
        | none => []

/-- The disabled macros after a turn of `evaluate` that ends in an error (the set is shared with the caller). -/
def eDisabled (macros : Macros) (fuel : Nat) (s : Sym) (st : ESt) : List Macro :=
  match s.kind with
  | .lparen | .rparen | .defined | .op _ | .true_ | .false_ | .intLit | .numLit | .charLit | .strLit | .otherLit | .blockComment
  | .lineComment | .newline | .eof | .dir _ => st.disabled
  | _ =>
    match expandIdentifier macros false fuel s.tok st.iter st.stack st.disabled with
    | some o => o.disabled
    | none => st.disabled

/-- What `evaluate` leaves in the fields it shares with the preprocessor: the disabled macros and the offsets it pushes. It follows
the loop `eLoop`. -/
def eEffects (p : Profile) (macros : Macros) : Nat → ESt → List Macro × List (Nat × Offset)
  | 0, st => (st.disabled, [])
  | fuel + 1, st =>
    match eNext st with
    | none => (st.disabled, [])
    | some (s, st') =>
      match eStep p macros fuel s st' with
      | some (.ok st'') => let (d, os) := eEffects p macros fuel st''; (d, eOffset macros fuel s st' ++ os)
      | _ => (eDisabled macros fuel s st', [])

/-- `process_if_directive` (lib.rs:422-461). An evaluation error counts as false. -/
def processIf (env : Env) (fuel : Nat) (s : Sym) (st : PSt) : Step :=
  let (tokens, rest) := takeDirective st.lexer
  match evaluate env.profile st.macros st.disabled tokens fuel with
  | none => .noFuel
  | some .panic => .panic
  | some r =>
    let c := match r with | .ok b => b | _ => false
    let e := eEffects env.profile st.macros fuel ⟨tokens, [], [], [], true, false, st.disabled⟩
    let st := { st with lexer := rest, disabled := e.1, offsets := st.offsets ++ e.2 }
    let st := if c then { st with conds := .active :: st.conds }
      else { st with skipCol := s.range.e.char, conds := .notActivated :: st.conds }
    let n := match tokens.getLast? with | some t => t.range.e.line - s.range.s.line | none => 0
    .next { st with out := st.out ++ List.replicate n [] }

/-- `process_else_directive` (lib.rs:463-479). -/
def processElse (s : Sym) (st : PSt) : Step :=
  match st.conds with
  | [] => .fail st
  | .notActivated :: cs => .next { st with conds := .active :: cs }
  | _ :: cs => .next { st with skipCol := s.range.e.char, conds := .activated :: cs }

/-- `process_endif_directive` (lib.rs:481-496). -/
def processEndif (s : Sym) (st : PSt) : Step :=
  match st.conds with
  | [] => .fail st
  | _ :: cs =>
    let st := { st with conds := cs }
    match cs.head? with
    | some c =>
      if c ≠ .active then
        .next { st with skipped := st.skipped ++ [⟨⟨s.range.s.line, st.skipCol⟩, ⟨s.range.s.line, s.range.e.char⟩⟩] }
      else .next st
    | none => .next st

/-- `#elseif` (lib.rs:501-512, 704-715). -/
def processElseif (env : Env) (fuel : Nat) (s : Sym) (st : PSt) : Step :=
  match st.conds with
  | [] => .fail st
  | .notActivated :: cs => processIf env fuel s { st with conds := cs }
  | _ :: cs => .next { st with conds := .activated :: cs }

/-! ### `#define` (lib.rs:513-597) -/

inductive DPhase where
  | start | params | body
  deriving DecidableEq

structure DSt where
  phase : DPhase := .start
  name  : Str := []
  args  : List Int := List.replicate 10 (-1)
  idx   : Int := 0
  found : Bool := false
  body  : List RSym := []

/-- One token of a definition (lib.rs:535-587); `none` is an error. -/
def dStep (s : Sym) (d : DSt) : Option DSt :=
  match d.phase with
  | .start =>
    if d.name = [] ∧ s.kind = .ident then some { d with name := s.text }
    else if s.delta.col = 0 ∧ s.kind = .lparen then some { d with phase := .params }
    else some { d with body := d.body ++ [s.rangeLess], phase := .body }
  | .params =>
    if s.delta.col > 0 then some { d with body := d.body ++ [s.rangeLess], phase := .body }
    else
      match s.kind with
      | .rparen => some { d with phase := .body }
      | .intLit =>
        match s.val with
        | none => none
        | some v => if v < 0 ∨ 10 ≤ v then none else some { d with found := true, args := d.args.set v.toNat d.idx }
      | .comma => some { d with idx := d.idx + 1 }
      | .op .percent => some d
      | _ => none
  | .body => some { d with body := d.body ++ [s.rangeLess] }

/-- The loop (lib.rs:526-589): the tokens of the directive, up to an `Eof`. The text is copied to the output. `none` as first
component is an error. -/
def defineLoop : List Sym → DSt → PSt → Option DSt × PSt
  | [], d, st => (some d, { st with lexer := [] })
  | s :: ss, d, st =>
    if s.inPre then
      if s.kind = .eof then (some d, { st with lexer := ss })
      else
        let st := pushWs s { st with lexer := ss }
        let st := if s.kind = .newline then st else { st with line := st.line ++ s.text }
        match dStep s d with
        | none => (none, st)
        | some d' => defineLoop ss d' st
    else (some d, { st with lexer := s :: ss })

/-- The macro (lib.rs:590-593). -/
def DSt.macro (d : DSt) (fileId idx : Nat) : Macro :=
  if d.found then ⟨fileId, idx, some d.args, (d.args.filter (· ≠ -1)).length, d.body⟩ else ⟨fileId, idx, none, 0, d.body⟩

def updateMacros (ms : Macros) (x : Str) (m : Option Macro) : Macros := fun y => if y = x then m else ms y

def processDefine (env : Env) (s : Sym) (st : PSt) : Step :=
  match defineLoop st.lexer {} (pushSym s st) with
  | (none, st) => .fail st
  | (some d, st) =>
    let st := resetLine (pushLine st)
    .next { st with macros := updateMacros st.macros d.name (some (d.macro env.fileId st.idx)), idx := st.idx + 1 }

/-- `#undef` (lib.rs:598-612): tokens of the directive up to the first identifier. -/
def undefLoop : List Sym → PSt → PSt
  | [], st => { st with lexer := [] }
  | s :: ss, st =>
    if s.inPre then
      let st := pushWs s { st with lexer := ss }
      let st := if s.kind = .newline ∨ s.kind = .eof then st else { st with line := st.line ++ s.text }
      if s.kind = .ident then { st with macros := updateMacros st.macros s.text none } else undefLoop ss st
    else { st with lexer := s :: ss }

/-- `str::trim`. -/
def trim (t : Str) : Str := ((t.dropWhile Text.whiteSpace).reverse.dropWhile Text.whiteSpace).reverse

/-- `process_include_directive` (lib.rs:623-693). -/
def processInclude (env : Env) (s : Sym) (st : PSt) : PSt :=
  let text := trim s.text
  let delta := s.range.e.line - s.range.s.line
  let st := pushSym { s with text } { st with macros := env.inc text st.macros }
  if delta > 0 then
    let st := resetLine (pushLine st)
    { st with out := st.out ++ List.replicate (delta - 1) [] }
  else st

/-- `process_directive` (lib.rs:498-621). -/
def processDirective (env : Env) (fuel : Nat) (d : Dir) (s : Sym) (st : PSt) : Step :=
  match d with
  | .if_ => processIf env fuel s st
  | .elseif => processElseif env fuel s st
  | .define => processDefine env s st
  | .undef => .next (undefLoop st.lexer (pushSym s st))
  | .endif => processEndif s st
  | .else_ => processElse s st
  | .include_ | .tryinclude => .next (processInclude env s st)
  | .other _ => .next (pushSym s st)

/-- `process_negative_condition` (lib.rs:695-732). -/
def processNegative (env : Env) (fuel : Nat) (s : Sym) (st : PSt) : Step :=
  match s.kind with
  | .dir .if_ => .next { st with conds := .activated :: st.conds }
  | .dir .endif => processEndif s st
  | .dir .else_ => processElse s st
  | .dir .elseif => processElseif env fuel s st
  | .newline =>
    let st := pushLine st
    .next (resetLine { st with skipped := st.skipped ++ [⟨⟨s.range.s.line, st.skipCol⟩, s.range.s⟩] })
  | _ => .next st

/-- The text inserted for `using __intrinsics__.Handle;` (lib.rs:344). -/
def handleText : Str := "methodmap Handle __nullable__ {public native ~Handle();public native void Close();};".toList

/-- An identifier in active code (lib.rs:338-388). -/
def processIdent (fuel : Nat) (t : Tok) (st : PSt) : Step :=
  if st.intr = some .dot then
    .next { st with line := if t.text = "Handle".toList then st.line ++ handleText else st.line, intr := some .handle }
  else
    match st.macros t.text with
    | none => .next (pushSym t.sym st)
    | some m =>
      if m ∈ st.disabled then .next (pushSym t.sym { st with disabled := st.disabled.filter (· ≠ m) })
      else
        match expandIdentifier st.macros true fuel t st.lexer st.stack st.disabled with
        | none => .noFuel
        | some o =>
          match o.value with
          | .ok d =>
            .next { st with lexer := o.lexer, stack := o.stack, disabled := o.disabled, expanded := some (t.sym, m.idx, m.fileId), argsDiff := d }
          | .error _ => .fail { st with lexer := o.lexer, disabled := o.disabled }

/-- A token in active code (lib.rs:326-416). -/
def processActive (env : Env) (fuel : Nat) (t : Tok) (st : PSt) : Step :=
  match t.kind with
  | .unknown => .fail st
  | .dir d => processDirective env fuel d t.sym st
  | .newline => .next (resetLine (pushLine (pushWs t.sym st)))
  | .ident => processIdent fuel t st
  | .using_ => .next { st with intr := if st.intr = none then some .using_ else none }
  | .intrinsics => .next { st with intr := if st.intr = some .using_ then some .intrinsics else none }
  | .semicolon => .next (if st.intr = some .handle then { st with intr := none } else pushSym t.sym { st with intr := none })
  | .dot => .next (if st.intr = some .intrinsics then { st with intr := some .dot } else pushSym t.sym st)
  | .eof => .stop (pushLine (pushWs t.sym st))
  | _ => .next (pushSym t.sym st)

/-- The next token: the expansion stack first, else the lexer, at which point the offset of the last expansion is recorded
(lib.rs:277-307). -/
def pNext (st : PSt) : Option (Tok × PSt) :=
  match st.stack with
  | t :: ts =>
    some (t, { st with
      stack := ts
      colOffset := some (match st.colOffset with
        | none => Int.ofNat t.text.length
        | some o => o + t.sym.delta.col + Int.ofNat t.text.length) })
  | [] =>
    match st.lexer with
    | [] => none
    | s :: ss =>
      match st.expanded with
      | none => some (s.tok, { st with lexer := ss })
      | some (x, idx, fileId) =>
        some (s.tok, { st with
          lexer := ss
          expanded := none
          offsets := st.offsets ++ [(s.range.s.line,
            ⟨x.range, st.colOffset.getD 0 - Int.ofNat (x.range.e.char - x.range.s.char), st.argsDiff, idx, fileId⟩)]
          colOffset := none
          argsDiff := 0 })

/-- Does the current state of the conditions mean that tokens are skipped? (lib.rs:315-320) -/
def skipping (conds : List Cond) : Bool :=
  match conds with
  | .notActivated :: _ | .activated :: _ => true
  | _ => false

/-- Record where an argument of a macro call goes (lib.rs:308-314). -/
def noteArg (t : Tok) (st : PSt) : PSt :=
  match t.orig with
  | some r => { st with argsMap := st.argsMap ++ [(r.s.line, r, currentRange t st)] }
  | none => st

/-- Loop body (lib.rs:308-416). -/
def pStep (env : Env) (fuel : Nat) (t : Tok) (st : PSt) : Step :=
  let st := noteArg t st
  if skipping st.conds then processNegative env fuel t.sym st else processActive env fuel t st

/-- Final state of the loop. -/
inductive Final where
  | result (st : PSt)
  | errorResult (st : PSt)
  | panic

/-- The main loop (lib.rs:277-417), at most `fuel` turns. -/
def pLoop (env : Env) : Nat → PSt → Option Final
  | 0, _ => none
  | fuel + 1, st =>
    match pNext st with
    | none => some (.result st)
    | some (t, st') =>
      match pStep env fuel t st' with
      | .next st'' => pLoop env fuel st''
      | .stop st'' => some (.result st'')
      | .fail st'' => some (.errorResult st'')
      | .panic => some .panic
      | .noFuel => none

/-- `out.join("\n")` (lib.rs:176). -/
def joinLines : List Str → Str
  | [] => []
  | [l] => l
  | l :: ls => l ++ '\n' :: joinLines ls

/-- The lines of a text: what is between line breaks. -/
def splitLines : Str → List Str
  | [] => [[]]
  | c :: cs => if c = '\n' then [] :: splitLines cs else
    match splitLines cs with
    | [] => [[c]]
    | l :: ls => (c :: l) :: ls

/-- The lines of `preprocessed_text` (lib.rs:176), which the rows of the syntax tree and of positions count. An element of `out` has several lines if it
has a token of several lines. -/
def textLines (out : List Str) : List Str := splitLines (joinLines out)

/-- `get_inactive_ranges` (lib.rs:207-227): consecutive ranges are merged; `ranges` is kept with the last one first. -/
def mergeRanges : List Rng → List Rng → List Rng
  | ranges, [] => ranges
  | [], r :: rs => mergeRanges [r] rs
  | old :: ranges, r :: rs =>
    if old.e.line + 1 = r.s.line then mergeRanges (⟨old.s, r.e⟩ :: ranges) rs else mergeRanges (r :: old :: ranges) rs

def inactiveRanges (skipped : List Rng) : List Rng :=
  ((mergeRanges [] skipped).reverse).map fun r => ⟨⟨r.s.line, 0⟩, r.e⟩

/-- `preprocess_input` (lib.rs:266-420) on the tokens of a file, starting from the macros of the implicit include. -/
def preprocess (env : Env) (fuel : Nat) (macros : Macros) (tokens : List Sym) : Option Final :=
  pLoop env fuel { lexer := tokens, macros := macros }

end Verif.Pre
