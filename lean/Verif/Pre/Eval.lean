import Verif.Pre.Expand
/-!
# Model of condition evaluation (`crates/preprocessor/src/{evaluator,preprocessor_operator}.rs`)

Values are `i32`, modelled as `BitVec 32`. The `profile` parameter says whether the program was built with overflow checks (debug
profile, arithmetic overflow panics) or without (release profile, it wraps).
-/

namespace Verif.Pre

/-- `PreOperator` (preprocessor_operator.rs:9-90), without the variants that are never constructed. -/
inductive PreOp where
  | not | tilde | negate | confirm
  | star | slash | percent | minus | plus | shl | shr | ushr | ampersand | bitxor | bitor
  | lt | le | gt | ge | equals | notEquals | and | or
  | lparen
  deriving DecidableEq, Repr

/-- `convert` (preprocessor_operator.rs:93-120). -/
def convert : Op → Option PreOp
  | .not => some .not | .tilde => some .tilde | .star => some .star | .slash => some .slash | .percent => some .percent
  | .minus => some .minus | .plus => some .plus | .shl => some .shl | .shr => some .shr | .ushr => some .ushr
  | .ampersand => some .ampersand | .bitxor => some .bitxor | .bitor => some .bitor
  | .lt => some .lt | .le => some .le | .gt => some .gt | .ge => some .ge
  | .equals => some .equals | .notEquals => some .notEquals | .and => some .and | .or => some .or
  | .stringize | .other _ => none

/-- `is_unary` (preprocessor_operator.rs:122-131). -/
def PreOp.isUnary : PreOp → Bool
  | .not | .tilde | .negate | .confirm => true
  | _ => false

/-- `priority` (preprocessor_operator.rs:133-153); it panics on `LParen`, where it is never called. -/
def PreOp.priority : PreOp → Nat
  | .not | .tilde | .negate | .confirm => 2
  | .star | .slash | .percent => 3
  | .minus | .plus => 4
  | .shl | .shr | .ushr => 5
  | .ampersand => 6
  | .bitxor => 7
  | .bitor => 8
  | .lt | .le | .gt | .ge => 9
  | .equals | .notEquals => 10
  | .and => 11
  | .or => 12
  | .lparen => 0

/-- Build profile: are arithmetic overflows checked? -/
inductive Profile where
  | debug | release
  deriving DecidableEq

abbrev I32 := BitVec 32

/-- Outcome of a fallible step: a value, an `Err`, or a panic. -/
inductive Res (α : Type) where
  | ok (a : α)
  | err
  | panic
  deriving DecidableEq

def ofBool (b : Bool) : I32 := if b then 1 else 0

/-- Unary part of `process_op` (preprocessor_operator.rs:160-173). -/
def unaryOp (p : Profile) : PreOp → I32 → Res I32
  | .not, r => .ok (ofBool (r == 0))
  | .tilde, r => .ok (~~~ r)
  | .negate, r => if p = .debug ∧ r = BitVec.intMin 32 then .panic else .ok (-r)
  | .confirm, r => .ok r
  | _, _ => .panic

/-- Binary part of `process_op` (preprocessor_operator.rs:180-208), Rust semantics of `i32`: overflow panics in the debug profile
and wraps in the release profile; division by zero and `MIN / -1` panic in both; a shift amount outside 0..31 panics in the debug
profile and is reduced modulo 32 in the release profile. -/
def binaryOp (p : Profile) (op : PreOp) (l r : I32) : Res I32 :=
  match op with
  | .equals => .ok (ofBool (l == r))
  | .notEquals => .ok (ofBool (l != r))
  | .lt => .ok (ofBool (l.slt r))
  | .gt => .ok (ofBool (r.slt l))
  | .le => .ok (ofBool (l.sle r))
  | .ge => .ok (ofBool (r.sle l))
  | .plus => if p = .debug ∧ BitVec.saddOverflow l r then .panic else .ok (l + r)
  | .minus => if p = .debug ∧ BitVec.ssubOverflow l r then .panic else .ok (l - r)
  | .slash => if r = 0 ∨ (l = BitVec.intMin 32 ∧ r = -1) then .panic else .ok (l.sdiv r)
  | .star => if p = .debug ∧ BitVec.smulOverflow l r then .panic else .ok (l * r)
  | .and => .ok (ofBool (l != 0 && r != 0))
  | .or => .ok (ofBool (l != 0 || r != 0))
  | .bitor => .ok (l ||| r)
  | .bitxor => .ok (l ^^^ r)
  | .ampersand => .ok (l &&& r)
  | .shl => if p = .debug ∧ 32 ≤ r.toNat then .panic else .ok (l <<< (r.toNat % 32))
  | .shr => if p = .debug ∧ 32 ≤ r.toNat then .panic else .ok (l.sshiftRight (r.toNat % 32))
  | .ushr => if p = .debug ∧ 32 ≤ r.toNat then .panic else .ok (l >>> (r.toNat % 32))
  | .percent => if r = 0 ∨ (l = BitVec.intMin 32 ∧ r = -1) then .panic else .ok (l.srem r)
  | .not | .tilde | .negate | .confirm | .lparen => .panic

/-- `process_op` (preprocessor_operator.rs:155-212); the stack has its top first. A left parenthesis is handled as a binary operator,
reaching `unreachable!()` when there are two values. -/
def processOp (p : Profile) (op : PreOp) (stack : List I32) : Res (List I32) :=
  if op.isUnary then
    match stack with
    | [] => .err
    | r :: st =>
      match unaryOp p op r with
      | .ok v => .ok (v :: st)
      | .err => .err
      | .panic => .panic
  else
    match stack with
    | r :: l :: st =>
      match binaryOp p op l r with
      | .ok v => .ok (v :: st)
      | .err => .err
      | .panic => .panic
    | _ => .err

/-- Closing parenthesis (evaluator.rs:85-104): operators are processed down to the matching parenthesis; the flag says whether it
was found. -/
def closeParen (p : Profile) : List PreOp → List I32 → Res (List PreOp × List I32 × Bool)
  | [], out => .ok ([], out, false)
  | op :: ops, out =>
    if op = .lparen then .ok (ops, out, true)
    else
      match processOp p op out with
      | .ok out' => closeParen p ops out'
      | .err => .err
      | .panic => .panic

/-- Does the operator on top of the stack go before the incoming one? (evaluator.rs:125-131) -/
def goesFirst (top cur : PreOp) : Bool :=
  top != .lparen && ((!cur.isUnary && decide (top.priority ≤ cur.priority)) || (cur.isUnary && decide (top.priority < cur.priority)))

/-- Operators processed before the incoming one is pushed (evaluator.rs:124-142). -/
def popOps (p : Profile) (cur : PreOp) : List PreOp → List I32 → Res (List PreOp × List I32)
  | [], out => .ok ([], out)
  | op :: ops, out =>
    if goesFirst op cur then
      match processOp p op out with
      | .ok out' => popOps p cur ops out'
      | .err => .err
      | .panic => .panic
    else .ok (op :: ops, out)

/-- The operator an operator token stands for (evaluator.rs:109-123, 260-266). -/
def preOp (mayBeUnary : Bool) (o : Op) : Option PreOp :=
  match convert o with
  | none => none
  | some c =>
    if mayBeUnary then
      match o with
      | .not => some .not
      | .tilde => some .tilde
      | .minus => some .negate
      | .plus => some .confirm
      | _ => some c
    else some c

/-- End of input (evaluator.rs:245-247). -/
def finish (p : Profile) : List PreOp → List I32 → Res (List I32)
  | [], out => .ok out
  | op :: ops, out =>
    match processOp p op out with
    | .ok out' => finish p ops out'
    | .err => .err
    | .panic => .panic

/-- Local variables of `evaluate` and the fields of `IfCondition` it uses. -/
structure ESt where
  iter     : List Sym
  stack    : List Tok
  out      : List I32
  ops      : List PreOp
  mbu      : Bool
  lfd      : Bool
  disabled : List Macro

/-- The value a literal token pushes (evaluator.rs:160): `to_int().unwrap_or(0) as i32`. -/
def litValue (s : Sym) : I32 := BitVec.ofInt 32 (s.val.getD 0)

/-- Loop body of `evaluate` (evaluator.rs:78-243) on the token `s`. `fuel` is for the expansion of a macro. Offsets are not
modelled here. -/
def eStep (p : Profile) (macros : Macros) (fuel : Nat) (s : Sym) (st : ESt) : Option (Res ESt) :=
  match s.kind with
  | .lparen => some (.ok { st with ops := .lparen :: st.ops, mbu := if st.lfd then st.mbu else true })
  | .rparen =>
    some (match closeParen p st.ops st.out with
      | .ok (ops, out, found) => .ok { st with ops, out, mbu := if found then false else st.mbu }
      | .err => .err
      | .panic => .panic)
  | .defined => some (.ok { st with lfd := true })
  | .op o =>
    some (match preOp st.mbu o with
      | none => .err
      | some c =>
        match popOps p c st.ops st.out with
        | .ok (ops, out) => .ok { st with ops := c :: ops, out, mbu := true }
        | .err => .err
        | .panic => .panic)
  | .true_ => some (.ok { st with out := 1 :: st.out, mbu := false })
  | .false_ => some (.ok { st with out := 0 :: st.out, mbu := false })
  | .intLit | .numLit | .charLit => some (.ok { st with out := litValue s :: st.out, mbu := false })
  | .strLit | .otherLit => some .err
  | .blockComment | .lineComment | .newline | .eof => some (.ok st)
  | .dir _ => some .err
  | _ =>
    if st.lfd then some (.ok { st with out := (if (macros s.text).isSome then 1 else 0) :: st.out, lfd := false, mbu := false })
    else
      match macros s.text with
      | some m =>
        if m ∈ st.disabled then some (.ok { st with disabled := st.disabled.filter (· ≠ m) })
        else expandHere macros fuel s st
      | none => expandHere macros fuel s st
where
  /-- evaluator.rs:207-240. -/
  expandHere (macros : Macros) (fuel : Nat) (s : Sym) (st : ESt) : Option (Res ESt) :=
    match expandIdentifier macros false fuel s.tok st.iter st.stack st.disabled with
    | none => none
    | some o =>
      match o.value with
      | .ok _ => some (.ok { st with iter := o.lexer, stack := o.stack, disabled := o.disabled })
      | .error _ => some .err

/-- The next token: the expansion stack first (evaluator.rs:67-77). -/
def eNext (st : ESt) : Option (Sym × ESt) :=
  match st.stack with
  | t :: ts => some (t.sym, { st with stack := ts })
  | [] =>
    match st.iter with
    | s :: ss => some (s, { st with iter := ss })
    | [] => none

/-- The loop of `evaluate` (evaluator.rs:67-244), at most `fuel` turns. -/
def eLoop (p : Profile) (macros : Macros) : Nat → ESt → Option (Res ESt)
  | 0, _ => none
  | fuel + 1, st =>
    match eNext st with
    | none => some (.ok st)
    | some (s, st') =>
      match eStep p macros fuel s st' with
      | none => none
      | some (.ok st'') => eLoop p macros fuel st''
      | some .err => some .err
      | some .panic => some .panic

/-- `evaluate` (evaluator.rs:52-257): the value on top of the output, compared with zero by the caller's `bool`. -/
def evaluateValue (p : Profile) (macros : Macros) (disabled : List Macro) (tokens : List Sym) (fuel : Nat) : Option (Res I32) :=
  match eLoop p macros fuel ⟨tokens, [], [], [], true, false, disabled⟩ with
  | none => none
  | some (.ok st) =>
    some (match finish p st.ops st.out with
      | .ok (v :: _) => .ok v
      | .ok [] => .err
      | .err => .err
      | .panic => .panic)
  | some .err => some .err
  | some .panic => some .panic

def Res.map {α β : Type} (f : α → β) : Res α → Res β
  | .ok a => .ok (f a)
  | .err => .err
  | .panic => .panic

/-- The result of the condition (evaluator.rs:256). -/
def evaluate (p : Profile) (macros : Macros) (disabled : List Macro) (tokens : List Sym) (fuel : Nat) : Option (Res Bool) :=
  (evaluateValue p macros disabled tokens fuel).map (Res.map (· != 0))

end Verif.Pre
