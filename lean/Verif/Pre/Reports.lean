import Verif.Pre.Main
import Verif.Include.Resolve
/-!
# Model of the errors the preprocessor reports (`crates/preprocessor/src/{lib,evaluator,errors}.rs`)

The three lists of `PreprocessorErrors` are kept as one list of reports, in the order in which they are pushed. The reports follow
the runs of `pLoop` and `eLoop`; nothing that these compute depends on them. Columns are in characters (the code counts bytes).
`found` stands for the callback: does a path name a file?
-/

namespace Verif.Pre

/-- An error (errors.rs:41-45, 69-73, 127-131), without the text of an evaluation error. -/
inductive Report where
  /-- a condition has no value -/
  | condition (range : Rng)
  /-- an included file is not found -/
  | unresolved (path : Str) (range : Rng)
  /-- a name is no macro -/
  | name (name : Str) (range : Rng)
  deriving DecidableEq

/-! ### Conditions -/

/-- The range of the operator that fails at a closing parenthesis (evaluator.rs:85-104, preprocessor_operator.rs:155-180). `ranges` are
the ranges kept with the operators. -/
def closeFail (p : Profile) : List PreOp → List Rng → List I32 → Option Rng
  | op :: ops, r :: ranges, out =>
    if op = .lparen then none
    else
      match processOp p op out with
      | .ok out' => closeFail p ops ranges out'
      | .err => some r
      | .panic => none
  | _, _, _ => none

/-- The range of the operator that fails before another one is pushed (evaluator.rs:124-142). -/
def popFail (p : Profile) (cur : PreOp) : List PreOp → List Rng → List I32 → Option Rng
  | op :: ops, r :: ranges, out =>
    if goesFirst op cur then
      match processOp p op out with
      | .ok out' => popFail p cur ops ranges out'
      | .err => some r
      | .panic => none
    else none
  | _, _, _ => none

/-- The range of the operator that fails at the end (evaluator.rs:245-247). -/
def finishFail (p : Profile) : List PreOp → List Rng → List I32 → Option Rng
  | op :: ops, r :: ranges, out =>
    match processOp p op out with
    | .ok out' => finishFail p ops ranges out'
    | .err => some r
    | .panic => none
  | _, _, _ => none

/-- An error of a condition: where it is reported, and the name that is no macro, if that is the reason. -/
structure CondErr where
  range : Rng
  name  : Option (Str × Rng)

/-- The error of a turn of `evaluate` that fails (evaluator.rs:85-104, 109-115, 163-171, 175-181, 226-239). `cur` is
`current_symbol_range`. -/
def failure (p : Profile) (macros : Macros) (fuel : Nat) (s : Sym) (st : ESt) (cur : Rng) (ranges : List Rng) : CondErr :=
  match s.kind with
  | .rparen => ⟨(closeFail p st.ops ranges st.out).getD cur, none⟩
  | .op o =>
    match preOp st.mbu o with
    | none => ⟨cur, none⟩
    | some c => ⟨(popFail p c st.ops ranges st.out).getD cur, none⟩
  | .strLit | .otherLit | .dir _ => ⟨cur, none⟩
  | _ =>
    match expandIdentifier macros false fuel s.tok st.iter st.stack st.disabled with
    | some o =>
      match o.value with
      | .error (.notFound x r) => ⟨cur, some (x, r)⟩
      | _ => ⟨cur, none⟩
    | none => ⟨cur, none⟩

/-- The ranges kept with the operators after a turn (evaluator.rs:80, 88, 132, 144); `ops` are the operators after it. -/
def keepRanges (s : Sym) (ops : List PreOp) (ranges : List Rng) : List Rng :=
  match s.kind with
  | .lparen => s.range :: ranges
  | .rparen => ranges.drop (ranges.length - ops.length)
  | .op _ => s.range :: ranges.drop (ranges.length + 1 - ops.length)
  | _ => ranges

/-- The error of `evaluate`, if there is one (evaluator.rs:52-257). It follows the loop `eLoop`. -/
def eError (p : Profile) (macros : Macros) : Nat → Rng → List Rng → ESt → Option CondErr
  | 0, _, _, _ => none
  | fuel + 1, cur, ranges, st =>
    match eNext st with
    | none =>
      match finish p st.ops st.out with
      | .ok [] => some ⟨cur, none⟩
      | .ok _ => none
      | .err => some ⟨(finishFail p st.ops ranges st.out).getD cur, none⟩
      | .panic => none
    | some (s, st') =>
      let cur' := if st.stack = [] then s.range else cur
      match eStep p macros fuel s st' with
      | some (.ok st'') => eError p macros fuel cur' (keepRanges s st''.ops ranges) st''
      | some .err => some (failure p macros fuel s st' cur' ranges)
      | some .panic => none
      | none => none

/-- The error of a condition on the line `line` (evaluator.rs:57-60). -/
def conditionError (p : Profile) (macros : Macros) (disabled : List Macro) (tokens : List Sym) (line fuel : Nat) : Option CondErr :=
  eError p macros fuel ⟨⟨line, 0⟩, ⟨line, 1000⟩⟩ [] ⟨tokens, [], [], [], true, false, disabled⟩

/-- What `process_if_directive` reports (lib.rs:437-454). -/
def ifReports (env : Env) (fuel : Nat) (s : Sym) (st : PSt) : List Report :=
  match conditionError env.profile st.macros st.disabled (takeDirective st.lexer).1 s.range.s.line fuel with
  | none => []
  | some e => .condition e.range :: (match e.name with | some (x, r) => [.name x r] | none => [])

/-! ### Includes -/

/-- First capture of `<([^>]+)>` and the place where it starts (lib.rs:30, 636). -/
def chevronAt : Nat → Str → Option (Nat × Str)
  | _, [] => none
  | i, c :: cs =>
    if c = '<' then
      match cs.takeWhile (fun x => decide (x ≠ '>')), cs.dropWhile (fun x => decide (x ≠ '>')) with
      | x :: xs, _ :: _ => some (i + 1, x :: xs)
      | _, _ => chevronAt (i + 1) cs
    else chevronAt (i + 1) cs

/-- First capture of `"([^>]+)"` and the place where it starts (lib.rs:31, 660). -/
def quoteAt : Nat → Str → Option (Nat × Str)
  | _, [] => none
  | i, c :: cs =>
    if c = '"' then
      match Verif.Paths.splitLast '"' (cs.takeWhile (fun x => decide (x ≠ '>'))) with
      | some (x :: xs, _) => some (i + 1, x :: xs)
      | _ => quoteAt (i + 1) cs
    else quoteAt (i + 1) cs

/-- The report for a path (lib.rs:643-656, 668-681): the columns are those of the capture in the text of the directive. -/
def missing (found : Str → Bool → Bool) (quoted : Bool) (line : Nat) : Option (Nat × Str) → List Report
  | none => []
  | some (i, path) => if found path quoted then [] else [.unresolved path ⟨⟨line, i⟩, ⟨line, i + path.length⟩⟩]

/-- What `process_include_directive` reports for `#include` (lib.rs:623-684); `#tryinclude` reports nothing. -/
def includeReports (found : Str → Bool → Bool) (s : Sym) : List Report :=
  missing found false s.range.s.line (chevronAt 0 (trim s.text)) ++ missing found true s.range.s.line (quoteAt 0 (trim s.text))

/-! ### The main loop -/

/-- What an identifier reports (lib.rs:371-374). -/
def identReports (fuel : Nat) (t : Tok) (st : PSt) : List Report :=
  if st.intr = some .dot then []
  else
    match st.macros t.text with
    | none => []
    | some m =>
      if m ∈ st.disabled then []
      else
        match expandIdentifier st.macros true fuel t st.lexer st.stack st.disabled with
        | some ⟨_, _, _, .error (.notFound x r)⟩ => [.name x r]
        | _ => []

/-- What a turn of the main loop reports (lib.rs:308-416, 498-512, 615-616, 704-715). -/
def stepReports (found : Str → Bool → Bool) (env : Env) (fuel : Nat) (t : Tok) (st : PSt) : List Report :=
  if skipping st.conds then
    match t.sym.kind, st.conds with
    | .dir .elseif, .notActivated :: cs => ifReports env fuel t.sym { st with conds := cs }
    | _, _ => []
  else
    match t.kind with
    | .dir .if_ => ifReports env fuel t.sym st
    | .dir .include_ => includeReports found t.sym
    | .ident => identReports fuel t st
    | _ => []

/-- The errors of a run of the main loop (lib.rs:277-417). It follows `pLoop`. -/
def reports (found : Str → Bool → Bool) (env : Env) : Nat → PSt → List Report
  | 0, _ => []
  | fuel + 1, st =>
    match pNext st with
    | none => []
    | some (t, st') =>
      stepReports found env fuel t st' ++
        match pStep env fuel t st' with
        | .next st'' => reports found env fuel st''
        | _ => []

/-- The errors of preprocessing a file (lib.rs:265-276). -/
def fileReports (found : Str → Bool → Bool) (env : Env) (fuel : Nat) (macros : Macros) (tokens : List Sym) : List Report :=
  reports found env fuel { lexer := tokens, macros }

/-- `evaluation_errors`, `unresolved_include_errors`, `macro_not_found_errors` (errors.rs:174-180). -/
def conditionsOf (l : List Report) : List Rng := l.filterMap fun | .condition r => some r | _ => none
def unresolvedOf (l : List Report) : List (Str × Rng) := l.filterMap fun | .unresolved p r => some (p, r) | _ => none
def namesOf (l : List Report) : List (Str × Rng) := l.filterMap fun | .name x r => some (x, r) | _ => none

end Verif.Pre
