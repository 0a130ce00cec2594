import Verif.Pre.Token
/-!
# Model of macro expansion (`crates/preprocessor/src/macros.rs`)

Stacks are lists with the top first.
-/

namespace Verif.Pre

/-! ### `collect_arguments` (macros.rs:71-162) -/

/-- Result of looking for the opening parenthesis. -/
inductive Opening where
  /-- no parenthesis: `temp_expanded_stack` in order, number of tokens consumed -/
  | absent (temp : List Tok)
  /-- found: number of tokens consumed including it, its start column -/
  | found (consumed : Nat) (col : Nat)
  /-- no more tokens -/
  | exhausted (consumed : Nat)

/-- The part of the loop before the first parenthesis (macros.rs:94-116): block comments are skipped, the parenthesis must be on
the line on which the macro name ends. -/
def scanOpen (line : Nat) : List Tok → List Tok → Opening
  | temp, [] => .exhausted temp.length
  | temp, t :: ts =>
    if t.kind = .lparen then
      if t.sym.range.s.line ≠ line then .absent (temp ++ [t])
      else .found (temp.length + 1) t.sym.range.s.char
    else if t.kind = .blockComment then scanOpen line (temp ++ [t]) ts
    else .absent (temp ++ [t])

/-- `args[idx].push(t)`; the array of ten vectors is a function. -/
def addArg (args : Nat → List Tok) (idx : Nat) (t : Tok) : Nat → List Tok := fun i => if i = idx then args i ++ [t] else args i

/-- The rest of the loop (macros.rs:117-155), after the opening parenthesis: `depth ≥ 1`. Returns the arguments, the number of
tokens consumed and the end column of the closing parenthesis if it was found. -/
def scanArgs (nbParams : Nat) : Nat → Nat → (Nat → List Tok) → Nat → List Tok → (Nat → List Tok) × Nat × Option Nat
  | _, _, args, n, [] => (args, n, none)
  | depth, idx, args, n, t :: ts =>
    match t.kind with
    | .lparen => scanArgs nbParams (depth + 1) idx (addArg args idx t) (n + 1) ts
    | .rparen =>
      if depth > 1 then scanArgs nbParams (depth - 1) idx (addArg args idx t) (n + 1) ts
      else (args, n + 1, some t.sym.range.e.char)
    | .comma =>
      if depth = 1 then
        if idx + 1 < nbParams then scanArgs nbParams depth (idx + 1) args (n + 1) ts
        else scanArgs nbParams depth idx (addArg args idx t) (n + 1) ts
      else scanArgs nbParams depth idx (addArg args idx t) (n + 1) ts
    | _ => scanArgs nbParams depth idx (addArg args idx t) (n + 1) ts

/-- The three sources of tokens of `collect_arguments`: the current context, the collector's stack, the lexer. -/
structure Src where
  ctx    : List QTok
  popped : List Tok
  lexer  : List Sym

/-- Tokens in the order in which they would be taken (macros.rs:87-93). -/
def Src.avail (s : Src) : List Tok := s.ctx.map (·.tok) ++ s.popped ++ s.lexer.map Sym.tok

/-- After taking `k` tokens. -/
def Src.take (s : Src) (k : Nat) : Src :=
  ⟨s.ctx.drop k, s.popped.drop (k - s.ctx.length), s.lexer.drop (k - s.ctx.length - s.popped.length)⟩

/-- `collect_arguments` (macros.rs:71-162). `none` means no argument list: the tokens looked at go to the collector's stack. -/
def collectArguments (s : Src) (line nbParams : Nat) : Src × Option ((Nat → List Tok) × Nat) :=
  match scanOpen line [] s.avail with
  | .absent temp =>
    let s' := s.take temp.length
    ({ s' with popped := temp ++ s'.popped }, none)
  | .exhausted k => (s.take k, some (fun _ => [], 0))
  | .found k col =>
    let (args, n, last) := scanArgs nbParams 1 0 (fun _ => []) 0 (s.avail.drop k)
    (s.take (k + n), some (args, match last with | some e => e - col | none => 0))

/-! ### Bodies -/

/-- The ranges given to body tokens, each after the previous one (macros.rs:315-326, 362-371). -/
def bodySyms (prev : Rng) : List RSym → List Sym
  | [] => []
  | r :: rs => r.toSym prev :: bodySyms (r.toSym prev).range rs

/-- First token of an expansion gets the delta of the expanded token. -/
def bodyQueue (delta : Delta) : List Sym → List QTok
  | [] => []
  | s :: ss => ⟨s.tok, delta⟩ :: ss.map (fun s => ⟨s.tok, s.delta⟩)

/-- Drop a final line break (macros.rs:329-336). -/
def dropLastNewline (q : List QTok) : List QTok :=
  match q.getLast? with
  | some b => if b.tok.kind = .newline then q.dropLast else q
  | none => q

/-- `expand_non_macro_define` (macros.rs:310-339). -/
def expandNonMacro (m : Macro) (delta : Delta) (prev : Rng) : List QTok :=
  dropLastNewline (bodyQueue delta (bodySyms prev m.body))

/-- Text of `#%n` (macros.rs:406-413). -/
def stringizeText (args : List Tok) : Str :=
  '"' :: ((args.mapIdx (fun j t => (if j > 0 ∧ t.sym.delta.col > 0 then List.replicate t.sym.delta.col.toNat ' ' else []) ++ t.text)).flatten ++ ['"'])

/-- Loop state of `expand_macro` (macros.rs:359-362); `ctx` is `new_context`, front first. -/
structure MSt where
  ctx       : List QTok
  percents  : Nat
  stringize : Option Delta

/-- Substitution of a parameter (macros.rs:390-447); `none` is a `ParseIntError`. -/
def substParam (args : Nat → List Tok) (m : Macro) (symbol : Sym) (depth i : Nat) (child : Sym) (st : MSt) : Option MSt :=
  match st.ctx.getLast? with
  | none => none
  | some percent =>
    match child.val with
    | none => none
    | some v =>
      if v < 0 ∨ 10 ≤ v then none
      else
        match ((m.params.getD [])[v.toNat]?) with
        | none => none
        | some a =>
          if a < 0 ∨ 10 ≤ a then none
          else
            let ctx := st.ctx.dropLast
            match st.stringize with
            | some d =>
              let text := stringizeText (args a.toNat)
              let delta := if i = 2 then symbol.delta else d
              let sym : Sym := ⟨.strLit, text, ⟨symbol.range.s, ⟨symbol.range.s.line, symbol.range.s.char + text.length⟩⟩, delta, none, false⟩
              some { ctx := ctx.dropLast ++ [⟨sym.tok, delta⟩], percents := 0, stringize := none }
            | none =>
              some { ctx := ctx ++ (args a.toNat).mapIdx (fun j t =>
                        ⟨if t.orig = none ∧ depth = 0 then { t with orig := some t.sym.range } else t,
                          if i = 1 then symbol.delta else if j = 0 then percent.delta else t.sym.delta⟩)
                     percents := 0
                     stringize := none }

/-- Loop body of `expand_macro` (macros.rs:373-467). -/
def bodyStep (args : Nat → List Tok) (m : Macro) (symbol : Sym) (delta : Delta) (depth i : Nat) (child : Sym) (st : MSt) : Option MSt :=
  match child.kind with
  | .op .percent =>
    some { st with
      percents := st.percents + 1
      ctx := if (st.percents + 1) % 2 = 1 then st.ctx ++ [⟨child.tok, child.delta⟩] else st.ctx }
  | .op .stringize => some { st with stringize := some child.delta, ctx := st.ctx ++ [⟨child.tok, child.delta⟩] }
  | .intLit =>
    if st.percents = 1 then substParam args m symbol depth i child st
    else some { st with ctx := st.ctx ++ [⟨child.tok, child.delta⟩], percents := 0 }
  | k =>
    if k = .newline ∧ i + 1 = m.body.length then some st
    else some { ctx := st.ctx ++ [⟨child.tok, if i = 0 then delta else child.delta⟩], percents := 0, stringize := none }

def bodyLoop (args : Nat → List Tok) (m : Macro) (symbol : Sym) (delta : Delta) (depth : Nat) : Nat → List Sym → MSt → Option MSt
  | _, [], st => some st
  | i, c :: cs, st =>
    match bodyStep args m symbol delta depth i c st with
    | none => none
    | some st' => bodyLoop args m symbol delta depth (i + 1) cs st'

/-- `expand_macro` (macros.rs:352-471). Simplification: `to_int` of an integer literal is non-negative, so the cast to `usize` is
the identity; a negative value is treated as out of range. -/
def expandMacro (args : Nat → List Tok) (m : Macro) (symbol : Sym) (delta : Delta) (depth : Nat) : Option (List QTok) :=
  (bodyLoop args m symbol delta depth 0 (bodySyms symbol.range m.body) ⟨[], 0, none⟩).map (·.ctx)

/-! ### `expand_identifier` (macros.rs:185-300) -/

/-- Local variables of `expand_identifier`. `ctxs` is `context_stack`; `out` is `reversed_expansion_stack` in order. -/
structure XSt where
  ctxs     : List (List QTok)
  popped   : List Tok
  lexer    : List Sym
  out      : List Tok
  disabled : List Macro
  diff     : Nat

/-- `ExpansionError` (errors.rs:10-14): a name that is no macro, with its place, or a number that is no parameter. -/
inductive XErr where
  | notFound (name : Str) (range : Rng)
  | parse
  deriving DecidableEq

/-- What one turn of the loop does. -/
inductive XRes where
  | continue_ (st : XSt)
  | error (e : XErr) (st : XSt)

def insertMacro (m : Macro) (l : List Macro) : List Macro := if m ∈ l then l else m :: l

/-- Loop body (macros.rs:204-290), for a non-empty `context_stack` with top `top`. -/
def xStep (macros : Macros) (allow : Bool) (token : Tok) (top : List QTok) (rest : List (List QTok)) (st : XSt) : XRes :=
  match top with
  | [] => .continue_ { st with ctxs := rest }
  | q :: cur =>
    match q.tok.kind with
    | .ident =>
      match macros q.tok.text with
      | none =>
        if allow then .continue_ { st with ctxs := cur :: rest, out := st.out ++ [q.tok.setDelta q.delta] }
        else .error (.notFound q.tok.text q.tok.sym.range) { st with ctxs := cur :: rest }
      | some m =>
        match m.params with
        | none =>
          .continue_ { st with ctxs := expandNonMacro m token.sym.delta q.tok.sym.range :: cur :: rest }
        | some _ =>
          match collectArguments ⟨cur, st.popped, st.lexer⟩ q.tok.sym.range.e.line m.nbParams with
          | (s, none) =>
            .continue_ { st with
              ctxs := s.ctx :: rest, popped := s.popped, lexer := s.lexer, out := st.out ++ [q.tok],
              disabled := insertMacro m st.disabled }
          | (s, some (args, d)) =>
            match expandMacro args m q.tok.sym token.sym.delta rest.length with
            | none => .error .parse { st with ctxs := s.ctx :: rest, popped := s.popped, lexer := s.lexer }
            | some q' =>
              .continue_ { st with
                ctxs := q' :: s.ctx :: rest, popped := s.popped, lexer := s.lexer,
                diff := if rest = [] then st.diff + d else st.diff }
    | .strLit | .charLit =>
      .continue_ { st with
        ctxs := cur :: rest
        out := st.out ++ [(⟨q.tok.kind, q.tok.text, ⟨q.tok.sym.range.s, ⟨q.tok.sym.range.s.line, q.tok.sym.range.s.char + q.tok.text.length⟩⟩,
          token.sym.delta, q.tok.sym.val, false⟩ : Sym).tok] }
    | .newline | .lineContinuation | .blockComment | .lineComment => .continue_ { st with ctxs := cur :: rest }
    | _ => .continue_ { st with ctxs := cur :: rest, out := st.out ++ [q.tok.setDelta q.delta] }

/-- The loop (macros.rs:203-291): until the context stack is empty or has six entries. The fuel bounds the number of turns; that
enough fuel always exists is proved. -/
def xLoop (macros : Macros) (allow : Bool) (token : Tok) : Nat → XSt → Option XRes
  | 0, _ => none
  | fuel + 1, st =>
    match st.ctxs with
    | [] => some (.continue_ st)
    | top :: rest =>
      if rest.length + 1 < 6 then
        match xStep macros allow token top rest st with
        | .continue_ st' => xLoop macros allow token fuel st'
        | .error e st' => some (.error e st')
      else some (.continue_ st)

/-- Result of `expand_identifier`: what is left of the lexer, the expansion stack, the disabled macros, and the value. -/
structure XOut where
  lexer    : List Sym
  stack    : List Tok
  disabled : List Macro
  value    : Except XErr Nat

/-- `expand_identifier` (macros.rs:185-300); `none` is running out of fuel. The collector's stack is pushed in the wrong order
(`rev` of a stack), as in the code (macros.rs:58-60). -/
def expandIdentifier (macros : Macros) (allow : Bool) (fuel : Nat) (token : Tok) (lexer : List Sym) (stack : List Tok) (disabled : List Macro) : Option XOut :=
  match xLoop macros allow token fuel ⟨[[⟨token, token.sym.delta⟩]], [], lexer, [], disabled, 0⟩ with
  | none => none
  | some (.error e st) => some ⟨st.lexer, stack, st.disabled, .error e⟩
  | some (.continue_ st) => some ⟨st.lexer, st.out ++ st.popped.reverse ++ stack, st.disabled, .ok st.diff⟩

end Verif.Pre
