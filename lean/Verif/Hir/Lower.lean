import Verif.Hir.Infer
/-!
# Model of the lowering of bodies

`crates/hir-def/src/body/lower.rs` and the source map of `crates/hir-def/src/body.rs:29-60`: from the syntax tree of a function to the
expressions that `Verif.Hir.Infer` models.

The tree-sitter tree is a `Node`. `NodePtr`s are numbers (`Verif.Hir.Tree` models them). An `ExprId` is the length of the arena when the
expression is allocated; in place of the arena, the expressions themselves contain their parts, in the order in which
`infer_expr` visits them, see `Verif.Hir.Infer.Expr`. `log::warn!` is left out.
-/

namespace Verif.Hir.Lower

open Infer (Name TypeRef Expr)

/-- Kinds of nodes, as far as lower.rs tells them apart (lower.rs:150-478). -/
inductive Kind where
  | namedArg | block | varDeclStmt | oldVarDeclStmt | varDecl | oldVarDecl | for_
  /-- `while_statement`, `do_while_statement` -/
  | while_
  /-- `break_statement`, `continue_statement` -/
  | jump
  | condition | switch | switchCase | return_ | delete | exprStmt
  /-- `assignment_expression`, `binary_expression` -/
  | binary
  | call | index | ternary | fieldAccess
  /-- `array_scope_access`, `scope_access` -/
  | scopeAccess
  /-- `unary_expression`, `update_expression` -/
  | unary
  | sizeof
  /-- `view_as`, `old_type_cast` -/
  | viewAs
  /-- `identifier`, `this` -/
  | ident
  | int | float | char | string | bool | null | paren | new | arrayLit | comma
  /-- curly braces -/
  | brace
  /-- comments, other brackets and commas (lower.rs:467-474) -/
  | punct
  | paramDecls | paramDecl
  /-- `call_arguments` -/
  | callArgs
  /-- any other kind, `ignore_argument` among them -/
  | other
deriving DecidableEq

/-- Fields asked for by name. -/
inductive Field where
  | argName | value | initialization | condition | iteration | body | truePath | falsePath | expression | free | left | right
  | function | arguments | array | index | consequence | alternative | target | field | scope | argument | type | cls | name
  | initialValue
deriving DecidableEq

/-- A node: the field its parent has it under, its `NodePtr`, its kind, its text, what `TypeRef::from_returntype_node(node, "type")`
makes of it (type_ref.rs:65-86) and its children, the anonymous ones included. -/
inductive Node where
  | mk (field : Option Field) (ptr : Nat) (kind : Kind) (text : Name) (ty : Option TypeRef) (children : List Node)

namespace Node
def field : Node → Option Field | .mk f _ _ _ _ _ => f
def ptr : Node → Nat | .mk _ p _ _ _ _ => p
def kind : Node → Kind | .mk _ _ k _ _ _ => k
def text : Node → Name | .mk _ _ _ t _ _ => t
def ty : Node → Option TypeRef | .mk _ _ _ _ t _ => t
def children : Node → List Node | .mk _ _ _ _ _ cs => cs
end Node

/-- The collector: the length of the arena of expressions and the source map. `BodySourceMap` has a map from expressions to nodes and one from
nodes to expressions (body.rs:31-33); both are filled in the same place (lower.rs:488-494), so one list of the insertions is kept, the
latest first. -/
structure State where
  next : Nat := 0
  log : List (Nat × Nat) := []

/-- `expr_source` (body.rs:40-42). -/
def State.exprSource (s : State) (expr : Nat) : Option Nat := (s.log.find? (·.1 == expr)).map (·.2)

/-- `node_expr` (body.rs:44-51): the latest insertion counts. -/
def State.nodeExpr (s : State) (ptr : Nat) : Option Nat := (s.log.find? (·.2 == ptr)).map (·.1)

/-- A part of the collector's work; `none` is a panic. -/
abbrev M (α : Type) := State → Option (α × State)

def M.pure {α : Type} (a : α) : M α := fun s => some (a, s)

def M.bind {α β : Type} (m : M α) (f : α → M β) : M β := fun s =>
  match m s with
  | none => none
  | some (a, s') => f a s'

instance : Monad M where
  pure := M.pure
  bind := M.bind

def M.panic {α : Type} : M α := fun _ => none

/-- `alloc_expr` (lower.rs:488-494), and the `Some` its callers put around it. -/
def alloc (mk : Nat → Expr) (ptr : Nat) : M (Option Expr) := fun s =>
  some (some (mk s.next), ⟨s.next + 1, (s.next, ptr) :: s.log⟩)

/-- `missing_expr` (lower.rs:480-486). -/
def missing : M Expr := fun s => some (.seq s.next [], ⟨s.next + 1, s.log⟩)

/-- A node with what `maybe_collect_expr` does for it. -/
inductive Low where
  | mk (field : Option Field) (ptr : Nat) (kind : Kind) (text : Name) (ty : Option TypeRef) (run : M (Option Expr)) (sub : List Low)

namespace Low
def field : Low → Option Field | .mk f _ _ _ _ _ _ => f
def ptr : Low → Nat | .mk _ p _ _ _ _ _ => p
def kind : Low → Kind | .mk _ _ k _ _ _ _ => k
def text : Low → Name | .mk _ _ _ t _ _ _ => t
def ty : Low → Option TypeRef | .mk _ _ _ _ t _ _ => t
def run : Low → M (Option Expr) | .mk _ _ _ _ _ r _ => r
def sub : Low → List Low | .mk _ _ _ _ _ _ s => s
end Low

/-- `child_by_field_name`: the first one. -/
def child (f : Field) (cs : List Low) : Option Low := cs.find? (·.field == some f)

/-- `collect_expr` (lower.rs:145-148). -/
def collect (l : Low) : M Expr := M.bind l.run fun r =>
  match r with
  | some e => M.pure e
  | none => missing

/-- `collect_expr` for each of several nodes. -/
def collectAll : List Low → M (List Expr)
  | [] => M.pure []
  | l :: ls => M.bind (collect l) fun e => M.bind (collectAll ls) fun es => M.pure (e :: es)

/-- `filter_map` with `maybe_collect_expr`, as for arguments (lower.rs:299-302, 316-319, 439-443, 449-453). -/
def collectSome : List Low → M (List Expr)
  | [] => M.pure []
  | l :: ls => M.bind l.run fun r => M.bind (collectSome ls) fun es => M.pure (r.toList ++ es)

/-- `collect_expr` for a node that may not be there. -/
def collectOpt : Option Low → M (Option Expr)
  | none => M.pure none
  | some l => M.bind (collect l) fun e => M.pure (some e)

/-- `maybe_collect_expr` for a node that may not be there. -/
def runOpt : Option Low → M (Option Expr)
  | none => M.pure none
  | some l => l.run

def isDigit (c : Char) : Bool := '0' ≤ c && c ≤ '9'

def digits (t : Name) : Nat := t.foldl (fun n c => n * 10 + (c.toNat - '0'.toNat)) 0

/-- `str::parse::<i64>` (lower.rs:397) accepts: digits in base ten. A sign, which it also accepts, is no part of a literal. -/
def parsesInt (t : Name) : Bool := !t.isEmpty && t.all isDigit && digits t < 2 ^ 63

/-- The exponent of a number: nothing, or `e` and digits that may have a sign. -/
def parsesExp : Name → Bool
  | [] => true
  | c :: t =>
    (c == 'e' || c == 'E') &&
      let u := match t with
        | '+' :: u => u
        | '-' :: u => u
        | u => u
      !u.isEmpty && u.all isDigit

/-- `str::parse::<f32>` (lower.rs:402) accepts: digits with at most one point and an exponent. Signs, `inf` and `nan`, which it also accepts,
are no part of a literal. -/
def parsesFloat (t : Name) : Bool :=
  let whole := t.takeWhile isDigit
  let rest := t.dropWhile isDigit
  let frac := match rest with
    | '.' :: u => u.takeWhile isDigit
    | _ => []
  let exp := match rest with
    | '.' :: u => u.dropWhile isDigit
    | u => u
  !(whole.isEmpty && frac.isEmpty) && parsesExp exp

/-- Literals (lower.rs:395-431) with the types `infer_expr` gives them (infer.rs:296-304); `none` if the text cannot be read. -/
def literalType : Kind → Name → Option TypeRef
  | .int, t => if parsesInt t then some .int else none
  | .float, t => if parsesFloat t then some .float else none
  | .char, t => if 2 ≤ t.length then some .char else none
  | .string, _ => some .oldString
  | .bool, t => if t == ['t', 'r', 'u', 'e'] || t == ['f', 'a', 'l', 's', 'e'] then some .bool else none
  | .null, _ => some .void
  | _, _ => none

/-- The name of an expression that is an identifier (infer.rs:249-251). -/
def identName : Expr → Option Name
  | .ident _ x => some x
  | _ => none

/-- `collect_variable_declaration` and `collect_old_variable_declaration` for one declared variable (lower.rs:98-111, 126-139). -/
def declare (ty : Option TypeRef) (d : Low) : M (Option Expr) :=
  match child .name d.sub with
  | none => M.pure none
  | some _ => M.bind (collectOpt (child .initialValue d.sub)) fun init => alloc (fun id => .binding id init ty) d.ptr

/-- All variables of a declaration; those without a name are left out. -/
def declareAll (ty : Low → Option TypeRef) : List Low → M (List Expr)
  | [] => M.pure []
  | d :: ds => M.bind (declare (ty d) d) fun r => M.bind (declareAll ty ds) fun es => M.pure (r.toList ++ es)

/-- One case of a `switch` (lower.rs:251-258), the values before the body. -/
def case_ (c : Low) : M (List Expr) :=
  M.bind (collectAll (c.sub.filter (·.field == some .value))) fun values =>
    match child .body c.sub with
    | none => M.pure []
    | some b => M.bind (collect b) fun body => M.pure (values ++ [body])

def cases_ : List Low → M (List Expr)
  | [] => M.pure []
  | c :: cs => M.bind (case_ c) fun es => M.bind (cases_ cs) fun fs => M.pure (es ++ fs)

/-- `maybe_collect_expr` (lower.rs:150-478) for a node with the children `cs`. -/
def step (ptr : Nat) (kind : Kind) (text : Name) (ty : Option TypeRef) (cs : List Low) : M (Option Expr) :=
  match kind with
  | .namedArg =>
    match child .argName cs, child .value cs with
    | some n, some v => M.bind (collect n) fun a => M.bind (collect v) fun b =>
        alloc (fun id => .namedArg id a.id (identName a) b) ptr
    | _, _ => M.pure none
  | .block => M.bind (collectAll (cs.filter fun c => c.kind != .brace)) fun es => alloc (fun id => .block id es) ptr
  | .varDeclStmt => M.bind (declareAll (fun _ => ty) (cs.filter fun c => c.kind == .varDecl)) fun es => alloc (fun id => .seq id es) ptr
  | .oldVarDeclStmt => M.bind (declareAll Low.ty (cs.filter fun c => c.kind == .oldVarDecl)) fun es => alloc (fun id => .seq id es) ptr
  | .for_ => M.bind (collectAll (cs.filter fun c => c.field == some .initialization)) fun init =>
    match child .condition cs, child .iteration cs, child .body cs with
    | some c, some i, some b => M.bind (collect c) fun c => M.bind i.run fun i => M.bind (collect b) fun b =>
        alloc (fun id => .seq id (init ++ [c] ++ i.toList ++ [b])) ptr
    | _, _, _ => M.pure none
  | .while_ =>
    match child .condition cs, child .body cs with
    | some c, some b => M.bind (collect c) fun c => M.bind (collect b) fun b => alloc (fun id => .seq id [c, b]) ptr
    | _, _ => M.pure none
  | .jump => alloc (fun id => .seq id []) ptr
  | .condition =>
    match child .condition cs, child .truePath cs with
    | some c, some t => M.bind (collectOpt (child .falsePath cs)) fun e => M.bind (collect c) fun c => M.bind (collect t) fun t =>
        alloc (fun id => .seq id ([c, t] ++ e.toList)) ptr
    | _, _ => M.pure none
  | .switch =>
    match child .condition cs with
    | some c => M.bind (cases_ (cs.filter fun c => c.kind == .switchCase)) fun es => M.bind (collect c) fun c =>
        alloc (fun id => .seq id (c :: es)) ptr
    | none => M.pure none
  | .return_ =>
    match child .expression cs with
    | some x => M.bind x.run fun e => alloc (fun id => .seq id e.toList) x.ptr
    | none => M.pure none
  | .delete =>
    match child .free cs with
    | some x => M.bind x.run fun e => alloc (fun id => .seq id e.toList) x.ptr
    | none => M.pure none
  | .exprStmt =>
    match cs with
    | [] => M.pure none
    | c :: _ => collectOpt (some c)
  | .binary =>
    match child .left cs with
    | none => M.pure none
    | some l => M.bind (collect l) fun a =>
      match child .right cs with
      | none => M.pure none
      | some r => M.bind (collect r) fun b => alloc (fun id => .last id [a, b]) ptr
  | .call =>
    match child .function cs, child .arguments cs with
    | some f, some args =>
      match f.kind with
      | .ident => M.bind (collect f) fun callee => M.bind (collectSome args.sub) fun as => alloc (fun id => .call id callee as) ptr
      | .fieldAccess =>
        match child .target f.sub, child .field f.sub with
        | some t, some m => M.bind (collectSome args.sub) fun as => M.bind (collect t) fun target =>
            alloc (fun id => .methodCall id target m.text as) m.ptr
        | _, _ => M.pure none
      | _ => M.panic
    | _, _ => M.pure none
  | .index =>
    match child .array cs, child .index cs with
    | some a, some i => M.bind (collect a) fun a => M.bind (collect i) fun i => alloc (fun id => .index id a i) ptr
    | _, _ => M.pure none
  | .ternary =>
    match child .condition cs with
    | none => M.pure none
    | some c => M.bind (collect c) fun c =>
      match child .consequence cs with
      | none => M.pure none
      | some t => M.bind (collect t) fun t =>
        match child .alternative cs with
        | none => M.pure none
        | some e => M.bind (collect e) fun e => alloc (fun id => .last id [c, t, e]) ptr
  | .fieldAccess =>
    match child .field cs, child .target cs with
    | some f, some t => M.bind (collect t) fun t => alloc (fun id => .field id t f.text) f.ptr
    | _, _ => M.pure none
  | .scopeAccess =>
    match child .field cs, child .scope cs with
    | some f, some t => M.bind (collect t) fun t => alloc (fun id => .field id t f.text) ptr
    | _, _ => M.pure none
  | .unary =>
    match child .argument cs with
    | some x => M.bind (collect x) fun e => alloc (fun id => .last id [e]) x.ptr
    | none => M.pure none
  | .sizeof =>
    match child .type cs with
    | some x => M.bind (collect x) fun e => alloc (fun id => .last id [e]) ptr
    | none => M.pure none
  | .viewAs =>
    match child .value cs, ty with
    | some v, some t => M.bind (collect v) fun v => alloc (fun id => .viewAs id v t) ptr
    | _, _ => M.pure none
  | .ident => alloc (fun id => .ident id text) ptr
  | .int | .float | .char | .string | .bool | .null =>
    match literalType kind text with
    | some t => alloc (fun id => .literal id t) ptr
    | none => M.pure none
  | .paren => runOpt (child .expression cs)
  | .new =>
    match child .cls cs, child .arguments cs with
    | some k, some args => M.bind (collectSome args.sub) fun as => alloc (fun id => .new id k.text as) k.ptr
    | _, _ => M.pure none
  | .arrayLit => M.bind (collectSome cs) fun es => alloc (fun id => .last id es) ptr
  | .comma => M.bind (collectAll cs) fun es => alloc (fun id => .last id es) ptr
  | .varDecl | .oldVarDecl | .switchCase | .brace | .punct | .paramDecls | .paramDecl | .callArgs | .other => M.pure none

mutual
/-- The recursion of `maybe_collect_expr`. -/
def toLow : Node → Low
  | .mk f p k t ty cs => .mk f p k t ty (step p k t ty (toLows cs)) (toLows cs)
def toLows : List Node → List Low
  | [] => []
  | n :: ns => toLow n :: toLows ns
end

/-- `maybe_collect_expr` (lower.rs:150-478). -/
def lower (n : Node) : M (Option Expr) := (toLow n).run

/-- `collect_parameter_declaration` (lower.rs:74-91). -/
def parameter (d : Low) : M (Option (Name × Nat)) :=
  match child .name d.sub with
  | none => M.pure none
  | some x => M.bind (collectOpt (child .initialValue d.sub)) fun init =>
      M.bind (alloc (fun id => .binding id init d.ty) d.ptr) fun e => M.pure (e.map fun e => (x.text, e.id))

def parameters : List Low → M (List (Name × Nat))
  | [] => M.pure []
  | d :: ds => M.bind (parameter d) fun r => M.bind (parameters ds) fun ps => M.pure (r.toList ++ ps)

/-- What is known about a body (body.rs:18-34). -/
structure Lowered where
  params : List (Name × Nat)
  body : Option Expr
  map : State

/-- The parameters in `ExprCollector::collect` (lower.rs:51-66). -/
def paramsPart (params : Option Node) : M (List (Name × Nat)) :=
  match params with
  | none => M.pure []
  | some p =>
    match p.kind with
    | .paramDecls => parameters ((toLows p.children).filter fun c => c.kind == .paramDecl)
    | .paramDecl => parameters [toLow p]
    | _ => M.panic

/-- `ExprCollector::collect` (lower.rs:51-72); `none` is a panic. -/
def collectBody (params : Option Node) (body : Option Node) : Option Lowered :=
  let m : M (List (Name × Nat) × Option Expr) :=
    M.bind (paramsPart params) fun ps => M.bind (collectOpt (body.map toLow)) fun b => M.pure (ps, b)
  (m {}).map fun r => ⟨r.1.1, r.1.2, r.2⟩

/-- The diagnostics of a body with their places (hir/src/lib.rs:302-385); `none` is the panic of `expect("no matching source")`. -/
def places (s : State) : List Infer.Event → Option (List (Infer.Event × Nat))
  | [] => some []
  | ev :: evs =>
    let here : Option (List (Infer.Event × Nat)) := match ev with
      | .attribute .. | .method .. | .named .. => some []
      | .unresolvedField i .. | .unresolvedMethod i .. | .unresolvedConstructor i .. | .unresolvedNamed i .. =>
        (s.exprSource i).map fun p => [(ev, p)]
      | .arguments d => (s.exprSource d.expr).map fun p => [(ev, p)]
    match here, places s evs with
    | some a, some b => some (a ++ b)
    | _, _ => none

/-! ## Specification -/

namespace Spec

/-- The first child under a field. -/
def _root_.Verif.Hir.Lower.Node.child (n : Node) (f : Field) : Option Node := n.children.find? fun c => c.field == some f

/-- `Within n d`: the node `d` is `n` or below it. -/
inductive Within : Node → Node → Prop where
  | here (n : Node) : Within n n
  | child {n c d : Node} : c ∈ n.children → Within c d → Within n d

/-- Calls, accesses to members, constructions and named arguments: what is analysed. -/
def isCode : Kind → Bool
  | .call | .fieldAccess | .scopeAccess | .new | .namedArg => true
  | _ => false

mutual
/-- There is nothing to analyse in a node. -/
def inert : Node → Bool
  | .mk _ _ k _ _ cs => !isCode k && inertAll cs
def inertAll : List Node → Bool
  | [] => true
  | n :: ns => inert n && inertAll ns
end

/-- Nodes that stand for no expression: punctuation, comments, `return` without a value. -/
def blank (n : Node) : Bool :=
  n.kind == .punct || n.kind == .brace || (n.kind == .return_ && (n.child .expression).isNone)

/-- The arguments written between the parentheses of a call, or the elements of an array literal. -/
def written (n : Node) : List Node := n.children.filter fun c => !blank c

/-- The types of literals. -/
def literal : Kind → Option TypeRef
  | .int => some .int
  | .float => some .float
  | .char => some .char
  | .string => some .oldString
  | .bool => some .bool
  | .null => some .void
  | _ => none

/-- The parts of a statement, in the order in which they are analysed. -/
def stmtParts (n : Node) : List Node :=
  match n.kind with
  | .varDeclStmt => n.children.filter fun c => c.kind == .varDecl
  | .oldVarDeclStmt => n.children.filter fun c => c.kind == .oldVarDecl
  | .for_ => (n.children.filter fun c => c.field == some .initialization) ++ (n.child .condition).toList ++
      (n.child .iteration).toList ++ (n.child .body).toList
  | .while_ => (n.child .condition).toList ++ (n.child .body).toList
  | .condition => (n.child .condition).toList ++ (n.child .truePath).toList ++ (n.child .falsePath).toList
  | .switch => (n.child .condition).toList ++ (n.children.filter fun c => c.kind == .switchCase).flatMap fun c =>
      (c.children.filter fun v => v.field == some .value) ++ (c.child .body).toList
  | .return_ => (n.child .expression).toList
  | .delete => (n.child .free).toList
  | _ => []

def isStmt : Kind → Bool
  | .varDeclStmt | .oldVarDeclStmt | .for_ | .while_ | .condition | .switch | .return_ | .delete | .jump => true
  | _ => false

/-- The operands of an operator, the last of which decides about the type. -/
def operands (n : Node) : List Node :=
  match n.kind with
  | .binary => (n.child .left).toList ++ (n.child .right).toList
  | .ternary => (n.child .condition).toList ++ (n.child .consequence).toList ++ (n.child .alternative).toList
  | .unary => (n.child .argument).toList
  | .sizeof => (n.child .type).toList
  | .comma => n.children
  | .arrayLit => written n
  | _ => []

def isOperator : Kind → Bool
  | .binary | .ternary | .unary | .sizeof | .comma | .arrayLit => true
  | _ => false

/-- `strict`: each node of `ys` in turn; otherwise some of them, in order. -/
def Covers (strict : Bool) (xs ys : List Node) : Prop := if strict then xs = ys else xs.Sublist ys

def bindingType : Expr → Option TypeRef
  | .binding _ _ t => t
  | _ => none

/-- `Reads strict place n e`: the expression `e` says what the node `n` says, where `place id ptr` tells that the expression with number
`id` is recorded for the node `ptr`. Accesses to members, calls of methods and constructions are recorded for the name of the member or the
class, other expressions for the whole node, with no claim about statements and operators. If not `strict`, parts may be missing. -/
inductive Reads (strict : Bool) (place : Nat → Nat → Prop) : Node → Expr → Prop where
  | missing {n : Node} {id : Nat} : (strict = false ∨ blank n = true) → Reads strict place n (.seq id [])
  | ident {n : Node} {id : Nat} : n.kind = .ident → place id n.ptr → Reads strict place n (.ident id n.text)
  | literal {n : Node} {id : Nat} {t : TypeRef} : literal n.kind = some t → place id n.ptr → Reads strict place n (.literal id t)
  | paren {n x : Node} {e : Expr} : n.kind = .paren → n.child .expression = some x → Reads strict place x e → Reads strict place n e
  | exprStmt {n c : Node} {cs : List Node} {e : Expr} : n.kind = .exprStmt → n.children = c :: cs → Reads strict place c e →
      Reads strict place n e
  | block {n : Node} {id : Nat} (l : List (Node × Expr)) : n.kind = .block → place id n.ptr →
      l.map Prod.fst = (n.children.filter fun c => c.kind != .brace) → (∀ q ∈ l, Reads strict place q.1 q.2) →
      Reads strict place n (.block id (l.map Prod.snd))
  | stmt {n : Node} {id : Nat} (l : List (Node × Expr)) : isStmt n.kind = true → Covers strict (l.map Prod.fst) (stmtParts n) →
      (∀ q ∈ l, Reads strict place q.1 q.2) →
      (n.kind = .varDeclStmt → ∀ q ∈ l, bindingType q.2 = n.ty) →
      (n.kind = .oldVarDeclStmt → ∀ q ∈ l, bindingType q.2 = q.1.ty) → Reads strict place n (.seq id (l.map Prod.snd))
  | declared {n : Node} {id : Nat} {t : Option TypeRef} : n.kind = .varDecl ∨ n.kind = .oldVarDecl → n.child .initialValue = none →
      place id n.ptr → Reads strict place n (.binding id none t)
  | initialised {n v : Node} {id : Nat} {e : Expr} {t : Option TypeRef} : n.kind = .varDecl ∨ n.kind = .oldVarDecl →
      n.child .initialValue = some v → Reads strict place v e → place id n.ptr → Reads strict place n (.binding id (some e) t)
  | operator {n : Node} {id : Nat} (l : List (Node × Expr)) : isOperator n.kind = true → Covers strict (l.map Prod.fst) (operands n) →
      (∀ q ∈ l, Reads strict place q.1 q.2) → Reads strict place n (.last id (l.map Prod.snd))
  | index {n a i : Node} {id : Nat} {ea ei : Expr} : n.kind = .index → n.child .array = some a → n.child .index = some i →
      Reads strict place a ea → Reads strict place i ei → place id n.ptr → Reads strict place n (.index id ea ei)
  | viewAs {n v : Node} {id : Nat} {e : Expr} {t : TypeRef} : n.kind = .viewAs → n.child .value = some v → n.ty = some t →
      Reads strict place v e → place id n.ptr → Reads strict place n (.viewAs id e t)
  | field {n t f : Node} {id : Nat} {e : Expr} : n.kind = .fieldAccess → n.child .target = some t → n.child .field = some f →
      Reads strict place t e → place id f.ptr → Reads strict place n (.field id e f.text)
  | scope {n t f : Node} {id : Nat} {e : Expr} : n.kind = .scopeAccess → n.child .scope = some t → n.child .field = some f →
      Reads strict place t e → place id n.ptr → Reads strict place n (.field id e f.text)
  | new {n k a : Node} {id : Nat} (l : List (Node × Expr)) : n.kind = .new → n.child .cls = some k → n.child .arguments = some a →
      Covers strict (l.map Prod.fst) (written a) → (∀ q ∈ l, Reads strict place q.1 q.2) → place id k.ptr →
      Reads strict place n (.new id k.text (l.map Prod.snd))
  | call {n f a : Node} {id : Nat} {e : Expr} (l : List (Node × Expr)) : n.kind = .call → n.child .function = some f →
      n.child .arguments = some a → f.kind = .ident → Reads strict place f e → Covers strict (l.map Prod.fst) (written a) →
      (∀ q ∈ l, Reads strict place q.1 q.2) → (∀ q ∈ l, ∃ d, Within q.1 d ∧ place q.2.id d.ptr) → place id n.ptr →
      Reads strict place n (.call id e (l.map Prod.snd))
  | method {n f t m a : Node} {id : Nat} {e : Expr} (l : List (Node × Expr)) : n.kind = .call → n.child .function = some f →
      n.child .arguments = some a → f.kind = .fieldAccess → f.child .target = some t → f.child .field = some m →
      Reads strict place t e → Covers strict (l.map Prod.fst) (written a) → (∀ q ∈ l, Reads strict place q.1 q.2) → place id m.ptr →
      Reads strict place n (.methodCall id e m.text (l.map Prod.snd))
  | namedArg {n x v : Node} {id : Nat} {a b : Expr} : n.kind = .namedArg → n.child .argName = some x → n.child .value = some v →
      Reads strict place x a → Reads strict place v b → place id n.ptr →
      Reads strict place n (.namedArg id a.id (identName a) b)

mutual
/-- Statements are no expressions: they do not occur as arguments or in parentheses. The grammar has no such trees. -/
def proper : Node → Bool
  | .mk _ _ k _ _ cs =>
    (match k with
      | .paren | .callArgs => cs.all fun c => c.kind != .exprStmt
      | .call => cs.all fun c => c.field != some .arguments || c.kind == .callArgs
      | _ => true) && properAll cs
def properAll : List Node → Bool
  | [] => true
  | n :: ns => proper n && properAll ns
end

/-- Exactly one child is under the field, and it has the property. -/
def exactly (n : Node) (f : Field) (P : Node → Bool) : Bool :=
  match n.children.filter fun c => c.field == some f with
  | [c] => P c
  | _ => false

/-- At most one child is under the field, and it has the property. -/
def atMost (n : Node) (f : Field) (P : Node → Bool) : Bool :=
  match n.children.filter fun c => c.field == some f with
  | [] => true
  | [c] => P c
  | _ => false

/-- The children that are not under one of these fields have nothing to analyse. -/
def onlyFields (n : Node) (fs : List Field) : Bool :=
  n.children.all fun c => fs.any (fun f => c.field == some f) || inert c

/-- Expressions and statements. -/
def readable (n : Node) : Bool :=
  match n.kind with
  | .varDecl | .oldVarDecl | .switchCase | .brace | .punct | .paramDecls | .paramDecl | .callArgs | .other => false
  | .return_ => (n.child .expression).isSome
  | _ => true

def readableOrBlank (n : Node) : Bool := readable n || blank n

/-- The shape the grammar gives to a node, without what the code cannot cope with: the three parts of a `for` are all there, literals can
be read as Rust numbers, a function is called by its name, no construct is of kind `other`, and nothing is to be analysed in types and
dimensions of arrays. -/
def shape (n : Node) : Bool :=
  match n.kind with
  | .namedArg => exactly n .argName (fun c => c.kind == .ident) && exactly n .value readable && onlyFields n [.argName, .value]
  | .block => n.children.all readableOrBlank
  | .varDeclStmt => n.children.all fun c => c.kind == .varDecl || inert c
  | .oldVarDeclStmt => n.children.all fun c => c.kind == .oldVarDecl || inert c
  | .varDecl | .oldVarDecl =>
    exactly n .name inert && atMost n .initialValue readable && onlyFields n [.initialValue]
  | .for_ => (n.children.all fun c => c.field != some .initialization || readable c) && exactly n .condition readable &&
      exactly n .iteration readable && exactly n .body readableOrBlank && onlyFields n [.initialization, .condition, .iteration, .body]
  | .while_ => exactly n .condition readable && exactly n .body readableOrBlank && onlyFields n [.condition, .body]
  | .jump => n.children.all inert
  | .condition => exactly n .condition readable && exactly n .truePath readableOrBlank && atMost n .falsePath readableOrBlank &&
      onlyFields n [.condition, .truePath, .falsePath]
  | .switch => exactly n .condition readable && n.children.all fun c => c.field == some .condition || c.kind == .switchCase || inert c
  | .switchCase => (n.children.all fun c => c.field != some .value || readable c) && exactly n .body readableOrBlank &&
      onlyFields n [.value, .body]
  | .return_ => atMost n .expression readable && onlyFields n [.expression]
  | .delete => exactly n .free readable && onlyFields n [.free]
  | .exprStmt =>
    match n.children with
    | [] => false
    | c :: cs => readable c && cs.all inert
  | .binary => exactly n .left readable && exactly n .right readable && onlyFields n [.left, .right]
  | .call => exactly n .function (fun c => c.kind == .ident || c.kind == .fieldAccess) &&
      exactly n .arguments (fun c => c.kind == .callArgs) && onlyFields n [.function, .arguments]
  | .callArgs | .arrayLit | .comma => n.children.all readableOrBlank
  | .index => exactly n .array readable && exactly n .index readable && onlyFields n [.array, .index]
  | .ternary => exactly n .condition readable && exactly n .consequence readable && exactly n .alternative readable &&
      onlyFields n [.condition, .consequence, .alternative]
  | .fieldAccess => exactly n .target readable && exactly n .field inert && onlyFields n [.target]
  | .scopeAccess => exactly n .scope readable && exactly n .field inert && onlyFields n [.scope]
  | .unary => exactly n .argument readable && onlyFields n [.argument]
  | .sizeof => exactly n .type readable && onlyFields n [.type]
  | .viewAs => exactly n .value readable && n.ty.isSome && onlyFields n [.value]
  | .ident | .string | .null => n.children.all inert
  | .int => parsesInt n.text && n.children.all inert
  | .float => parsesFloat n.text && n.children.all inert
  | .char => decide (2 ≤ n.text.length) && n.children.all inert
  | .bool => (n.text == ['t', 'r', 'u', 'e'] || n.text == ['f', 'a', 'l', 's', 'e']) && n.children.all inert
  | .paren => exactly n .expression readable && onlyFields n [.expression]
  | .new => exactly n .cls inert && exactly n .arguments (fun c => c.kind == .callArgs) && onlyFields n [.arguments]
  | .brace | .punct | .paramDecls | .paramDecl | .other => n.children.all inert

mutual
/-- Every node has its shape. -/
def clean : Node → Bool
  | .mk f p k t ty cs => shape (.mk f p k t ty cs) && cleanAll cs
def cleanAll : List Node → Bool
  | [] => true
  | n :: ns => clean n && cleanAll ns
end

mutual
/-- All `NodePtr`s of a tree. -/
def ptrs : Node → List Nat
  | .mk _ p _ _ _ cs => p :: ptrsAll cs
def ptrsAll : List Node → List Nat
  | [] => []
  | n :: ns => ptrs n ++ ptrsAll ns
end

/-- Diagnostics, as opposed to what is found. -/
def isFinding : Infer.Event → Bool
  | .attribute .. | .method .. | .named .. => false
  | _ => true

/-- `Shown root ev p`: the finding `ev` is about the node `p` of the tree `root`: the name of the member that is not there (the whole access
for `A::b`), the name of the class without a constructor, the name of the argument that no parameter has, or the call with too many or too few
arguments, or one of its arguments. -/
inductive Shown (root : Node) : Infer.Event → Nat → Prop where
  | field {d f : Node} {i : Nat} {t : Name} {m : Bool} : Within root d → d.kind = .fieldAccess → d.child .field = some f →
      Shown root (.unresolvedField i t f.text m) f.ptr
  | scope {d f : Node} {i : Nat} {t : Name} {m : Bool} : Within root d → d.kind = .scopeAccess → d.child .field = some f →
      Shown root (.unresolvedField i t f.text m) d.ptr
  | method {d f m : Node} {i : Nat} {t : Name} {b : Bool} : Within root d → d.kind = .call → d.child .function = some f →
      f.kind = .fieldAccess → f.child .field = some m → Shown root (.unresolvedMethod i t m.text b) m.ptr
  | new {d k : Node} {i : Nat} {b : Option Bool} : Within root d → d.kind = .new → d.child .cls = some k →
      Shown root (.unresolvedConstructor i k.text b) k.ptr
  | named {d x w : Node} {i : Nat} {c : Name} : Within root d → d.kind = .namedArg → d.child .argName = some x → Within x w →
      w.kind = .ident → Shown root (.unresolvedNamed i w.text c) w.ptr
  | call {d a : Node} {dg : Arity.Diag} {p : Nat} : Within root d → d.kind = .call → d.child .arguments = some a →
      (p = d.ptr ∨ ∃ g ∈ written a, ∃ w, Within g w ∧ p = w.ptr) → Shown root (.arguments dg) p

/-- `Analysed nodeExpr b e d`: the node `d` of the tree that `e` is made from is one of the expressions that occur in `e`, with the name that is written there
and as many arguments as are written there. `nodeExpr` leads from the name to the expression. -/
inductive Analysed (nodeExpr : Nat → Option Nat) (reads : Node → Expr → Prop) (b : Nat) (e : Expr) : Node → Prop where
  | field {d f t : Node} {b' id : Nat} {te : Expr} : d.kind = .fieldAccess → d.child .field = some f → d.child .target = some t →
      reads t te → Infer.Spec.Occurs b e b' (.field id te f.text) → nodeExpr f.ptr = some id → Analysed nodeExpr reads b e d
  | scope {d f t : Node} {b' id : Nat} {te : Expr} : d.kind = .scopeAccess → d.child .field = some f → d.child .scope = some t →
      reads t te → Infer.Spec.Occurs b e b' (.field id te f.text) → Analysed nodeExpr reads b e d
  | call {d f a : Node} {b' id i : Nat} {args : List Expr} : d.kind = .call → d.child .function = some f → f.kind = .ident →
      d.child .arguments = some a → Infer.Spec.Occurs b e b' (.call id (.ident i f.text) args) → args.length = (written a).length →
      nodeExpr f.ptr = some i → Analysed nodeExpr reads b e d
  | method {d f t m a : Node} {b' id : Nat} {te : Expr} {args : List Expr} : d.kind = .call → d.child .function = some f →
      f.kind = .fieldAccess → f.child .target = some t → f.child .field = some m → d.child .arguments = some a → reads t te →
      Infer.Spec.Occurs b e b' (.methodCall id te m.text args) → args.length = (written a).length → nodeExpr m.ptr = some id →
      Analysed nodeExpr reads b e d
  | new {d k a : Node} {b' id : Nat} {args : List Expr} : d.kind = .new → d.child .cls = some k → d.child .arguments = some a →
      Infer.Spec.Occurs b e b' (.new id k.text args) → args.length = (written a).length → nodeExpr k.ptr = some id →
      Analysed nodeExpr reads b e d
  | named {d x v : Node} {b' id i : Nat} {ve : Expr} : d.kind = .namedArg → d.child .argName = some x → d.child .value = some v →
      reads v ve → Infer.Spec.Occurs b e b' (.namedArg id i (some x.text) ve) → nodeExpr x.ptr = some i → Analysed nodeExpr reads b e d

/-- The function of a call by way of a member: it is analysed with the call. -/
def isCallee (root d : Node) : Prop := ∃ c, Within root c ∧ c.kind = .call ∧ c.child .function = some d ∧ d.kind = .fieldAccess

mutual
/-- What is called is a name or a member. -/
def callable : Node → Bool
  | .mk _ _ k _ _ cs =>
    (k != .call || cs.all fun c => c.field != some .function || c.kind == .ident || c.kind == .fieldAccess) && callableAll cs
def callableAll : List Node → Bool
  | [] => true
  | n :: ns => callable n && callableAll ns
end

end Spec

end Verif.Hir.Lower
