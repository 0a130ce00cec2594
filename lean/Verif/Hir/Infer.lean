import Verif.Hir.Arity
/-!
# Model of type inference

`crates/hir-def/src/infer.rs` and `crates/hir-def/src/hir/type_ref.rs:82-93`; how the results are used:
`crates/hir/src/semantics.rs:381-455` and `crates/hir/src/source_analyzer.rs:96-157`.

A body is a tree of expressions, each with its number (`ExprId`). What a name stands for inside a block is a parameter
(`Verif.Hir.Scope` and `Verif.Hir.Globals` model it), so are the members of enum structs (`Verif.Hir.EnumStruct`) and
methodmaps (`Verif.Hir.Methodmap`).
-/

namespace Verif.Hir.Infer

abbrev Name := List Char

/-- `TypeRef` (type_ref.rs:7-41). -/
inductive TypeRef where
  | name (n : Name)
  | oldName (n : Name)
  | int | bool | float | char | void | any | oldString | oldFloat
  | array (t : TypeRef) (size : Nat)
deriving DecidableEq

/-- `to_lower_dim` (type_ref.rs:82-93). -/
def TypeRef.lowerDim : TypeRef → TypeRef
  | .array t size => if size > 1 then .array t (size - 1) else .array t size
  | t => t

/-- `ValueNs` (resolver.rs:258-272). Functions, enum structs and methodmaps are numbers. `named` stands for typedefs, typesets,
functags and funcenums with their names, `other` for enums, their entries and macros. -/
inductive Val where
  | local_ (id : Nat)
  | global (g : Nat)
  | functions (fs : List Nat)
  | enumStruct (e : Nat)
  | methodmap (m : Nat)
  | named (n : Option Name)
  | other
deriving DecidableEq

/-- A member of an enum struct (data.rs:421-425): a field with its index and its type, or a method. -/
inductive EItem where
  | field (idx : Nat) (t : TypeRef)
  | method (f : Nat)
deriving DecidableEq

/-- A member of a methodmap (data.rs:115-120): a property with its type; a method, constructor or destructor. -/
inductive MItem where
  | property (p : Nat) (t : TypeRef)
  | method (f : Nat)
deriving DecidableEq

structure EnumStruct where
  name : Name
  /-- `items` and `item` -/
  member : Name → Option EItem

structure Methodmap where
  name : Name
  member : Name → Option MItem
  constructor : Option Nat

/-- A function: what the item tree says about it and the names of its parameters with the expressions that bind them. -/
structure Fn where
  data : Arity.Fn
  ret : Option TypeRef
  params : List (Name × Nat)

/-- What the queries of the database answer. -/
structure Env where
  /-- `resolver.resolve_ident` while in a block (or in the parameters, for a body that is no block) -/
  resolve : Nat → Name → Option Val
  /-- what a name stands for outside of functions (`resolve_global`); only the specification uses it -/
  global : Name → Option Val
  /-- the type of the binding of a local variable, if it has one -/
  localType : Nat → Option TypeRef
  globalType : Nat → Option TypeRef
  fn : Nat → Fn
  enumStruct : Nat → EnumStruct
  methodmap : Nat → Methodmap

/-- `Expr` (hir.rs:27-107) with the number of each expression. -/
inductive Expr where
  | ident (id : Nat) (x : Name)
  | block (id : Nat) (stmts : List Expr)
  /-- `Loop`, `Condition`, `Switch`, `Control`, `Decl`, `Missing`: the parts in the order of inference, without a type
  (infer.rs:193-231, 318-323, 425-430, 441) -/
  | seq (id : Nat) (parts : List Expr)
  /-- `CommaExpr`, `UnaryOp`, `BinaryOp`, `TernaryOp`, array literals: the type is that of the last part
  (infer.rs:186-192, 268-285, 305-311) -/
  | last (id : Nat) (parts : List Expr)
  | literal (id : Nat) (t : TypeRef)
  | index (id : Nat) (array index : Expr)
  | viewAs (id : Nat) (operand : Expr) (t : TypeRef)
  /-- `FieldAccess` and `ScopeAccess` (infer.rs:267, 286) -/
  | field (id : Nat) (target : Expr) (x : Name)
  | new (id : Nat) (x : Name) (args : List Expr)
  | methodCall (id : Nat) (target : Expr) (x : Name) (args : List Expr)
  | call (id : Nat) (callee : Expr) (args : List Expr)
  /-- `.x = value`; the name is an expression of its own, with the number `nameId`; `none` if it could not be read -/
  | namedArg (id nameId : Nat) (x : Option Name) (value : Expr)
  | binding (id : Nat) (init : Option Expr) (t : Option TypeRef)

def Expr.id : Expr → Nat
  | .ident id _ | .block id _ | .seq id _ | .last id _ | .literal id _ | .index id _ _ | .viewAs id _ _ | .field id _ _
  | .new id _ _ | .methodCall id _ _ _ | .call id _ _ | .namedArg id _ _ _ | .binding id _ _ => id

/-- `AttributeId` (infer.rs:67-71). -/
inductive Attr where
  | field (e idx : Nat)
  | property (p : Nat)
deriving DecidableEq

/-- What inference writes down: entries of the maps and diagnostics (infer.rs:30-100), in order. -/
inductive Event where
  | attribute (expr : Nat) (a : Attr)
  | method (expr : Nat) (f : Nat)
  | named (expr : Nat) (f binding : Nat)
  | unresolvedField (expr : Nat) (receiver x : Name) (methodExists : Bool)
  | unresolvedMethod (expr : Nat) (receiver x : Name) (fieldExists : Bool)
  | unresolvedConstructor (expr : Nat) (x : Name) (exists_ : Option Bool)
  | unresolvedNamed (expr : Nat) (x callee : Name)
  | arguments (d : Arity.Diag)
deriving DecidableEq

/-- The last element of `call_stack`, see `Verif.Hir.Arity.Current`. -/
abbrev Current := Option (Option (List Nat))

/-- Setting `id` in `current_call_mut` (infer.rs:347-352, 604-609). -/
def Current.set (c : Current) (fs : List Nat) : Current :=
  match c with
  | some none => some (some fs)
  | c => c

/-- The result of inferring an expression: its type, the current call after it, what was written down. -/
structure Out where
  ty : Option TypeRef
  cur : Current
  evs : List Event

/-- The return type of the last function (infer.rs:353-360). -/
def lastRet (env : Env) : List Nat → Option TypeRef
  | [] => none
  | [f] => (env.fn f).ret
  | _ :: fs => lastRet env fs

/-- The identifier of `infer_expr` (infer.rs:324-384). -/
def inferIdent (env : Env) (b : Nat) (c : Current) (x : Name) : Out :=
  match env.resolve b x with
  | none => ⟨none, c, []⟩
  | some (.global g) => ⟨env.globalType g, c, []⟩
  | some (.local_ i) => ⟨env.localType i, c, []⟩
  | some (.methodmap m) => ⟨some (.name (env.methodmap m).name), c, []⟩
  | some (.enumStruct e) => ⟨some (.name (env.enumStruct e).name), c, []⟩
  | some (.functions fs) => ⟨lastRet env fs, c.set fs, []⟩
  | some (.named n) => ⟨n.map .name, c, []⟩
  | some .other => ⟨none, c, []⟩

/-- `infer_field_access` after the target (infer.rs:499-572). -/
def fieldOf (env : Env) (b id : Nat) (ty : Option TypeRef) (x : Name) : Option TypeRef × List Event :=
  match ty with
  | some (.name t) =>
    match env.resolve b t with
    | none => (none, [])
    | some (.enumStruct e) =>
      match (env.enumStruct e).member x with
      | some (.field idx ty) => (some ty, [.attribute id (.field e idx)])
      | some (.method _) => (none, [.unresolvedField id t x true])
      | none => (none, [.unresolvedField id t x false])
    | some (.methodmap m) =>
      match (env.methodmap m).member x with
      | some (.property p ty) => (some ty, [.attribute id (.property p)])
      | some (.method _) => (none, [.unresolvedField id t x true])
      | none => (none, [.unresolvedField id t x false])
    | some _ => (none, [.unresolvedField id t x false])
  | _ => (none, [])

/-- `infer_method_call` after the target (infer.rs:580-653). -/
def methodOf (env : Env) (b id : Nat) (c : Current) (ty : Option TypeRef) (x : Name) : Out :=
  match ty with
  | some (.name t) =>
    match env.resolve b t with
    | none => ⟨none, c, []⟩
    | some (.enumStruct e) =>
      match (env.enumStruct e).member x with
      | some (.field _ _) => ⟨none, c, [.unresolvedMethod id t x true]⟩
      | some (.method f) => ⟨(env.fn f).ret, c.set [f], [.method id f]⟩
      | none => ⟨none, c, [.unresolvedMethod id t x false]⟩
    | some (.methodmap m) =>
      match (env.methodmap m).member x with
      | some (.property _ _) => ⟨none, c, [.unresolvedMethod id t x true]⟩
      | some (.method f) => ⟨(env.fn f).ret, c, [.method id f]⟩
      | none => ⟨none, c, [.unresolvedMethod id t x false]⟩
    | some _ => ⟨none, c, [.unresolvedMethod id t x false]⟩
  | _ => ⟨none, c, []⟩

/-- `infer_constructor` (infer.rs:449-487). -/
def constructorOf (env : Env) (b id : Nat) (x : Name) : Option TypeRef × List Event :=
  match env.resolve b x with
  | some (.enumStruct _) => (none, [.unresolvedConstructor id x (some false)])
  | some (.methodmap m) =>
    match (env.methodmap m).constructor with
    | some f => (some (.name x), [.method id f])
    | none => (none, [.unresolvedConstructor id x (some true)])
  | _ => (none, [.unresolvedConstructor id x none])

/-- The parameter with a name (infer.rs:241-248; `add_params_bindings`, scope.rs:92-99: the last one of that name). -/
def Fn.param (f : Fn) (x : Name) : Option Nat := f.params.reverse.lookup x

def lastId (id : Nat) : List Expr → Nat
  | [] => id
  | [a] => a.id
  | _ :: as => lastId id as

/-- The check of the number of arguments (infer.rs:404-419), see `Verif.Hir.Arity.check`. -/
def check (env : Env) (c : Current) (id : Nat) (args : List Expr) : List Event :=
  match c with
  | some (some (f :: _)) =>
    let d := (env.fn f).data
    if args.length < d.mandatory then [.arguments ⟨lastId id args, d.name, d.mandatory, args.length⟩]
    else match d.maximum with
      | some max => if args.length > max then [.arguments ⟨lastId id args, d.name, max, args.length⟩] else []
      | none => []
  | _ => []

mutual
/-- `infer_expr` (infer.rs:181-443) in the block `b`, with the current call `c`. -/
def infer (env : Env) (b : Nat) (c : Current) : Expr → Out
  | .ident _ x => inferIdent env b c x
  | .block id stmts =>
    let r := inferAll env id c stmts
    ⟨none, r.cur, r.evs⟩
  | .seq _ parts =>
    let r := inferAll env b c parts
    ⟨none, r.cur, r.evs⟩
  | .last _ parts => inferAll env b c parts
  | .literal _ t => ⟨some t, c, []⟩
  | .index _ array index =>
    let i := infer env b c index
    let a := infer env b i.cur array
    ⟨a.ty.map TypeRef.lowerDim, a.cur, i.evs ++ a.evs⟩
  | .viewAs _ operand t =>
    let r := infer env b c operand
    ⟨some t, r.cur, r.evs⟩
  | .field id target x =>
    let r := infer env b c target
    let f := fieldOf env b id r.ty x
    ⟨f.1, r.cur, r.evs ++ f.2⟩
  | .new id x args =>
    let r := inferAll env b c args
    let k := constructorOf env b id x
    ⟨k.1, r.cur, r.evs ++ k.2⟩
  | .methodCall id target x args =>
    let r := infer env b (some none) target
    let m := methodOf env b id r.cur r.ty x
    let s := inferAll env b m.cur args
    ⟨m.ty, c, r.evs ++ m.evs ++ s.evs⟩
  | .call id callee args =>
    let r := infer env b (some none) callee
    let s := inferAll env b r.cur args
    ⟨r.ty, c, r.evs ++ s.evs ++ check env s.cur id args⟩
  | .namedArg _ nameId x value =>
    match c with
    | some (some (f :: _)) =>
      match x with
      | none => ⟨none, c, []⟩
      | some x =>
        let r := infer env b c value
        match (env.fn f).param x with
        | some i => ⟨r.ty, r.cur, .named nameId f i :: r.evs⟩
        | none => ⟨r.ty, r.cur, .unresolvedNamed nameId x (env.fn f).data.name :: r.evs⟩
    | _ => ⟨none, c, []⟩
  | .binding _ none t => ⟨t, c, []⟩
  | .binding _ (some init) t =>
    let r := infer env b c init
    ⟨t, r.cur, r.evs⟩

/-- Several expressions in order; the type is that of the last one. -/
def inferAll (env : Env) (b : Nat) (c : Current) : List Expr → Out
  | [] => ⟨none, c, []⟩
  | e :: es =>
    let r := infer env b c e
    let s := inferAll env b r.cur es
    ⟨if es.isEmpty then r.ty else s.ty, s.cur, r.evs ++ s.evs⟩
end

/-- `infer_query` (infer.rs:16-28, 445-449). `b` stands for the parameters. -/
def events (env : Env) (b : Nat) (body : Expr) : List Event := (infer env b none body).evs

/-- `attribute_resolution` (infer.rs:88-90): the last entry for the expression. -/
def attributeResolution (evs : List Event) (expr : Nat) : Option Attr :=
  evs.reverse.findSome? fun e => match e with
    | .attribute i a => if i = expr then some a else none
    | _ => none

/-- `method_resolution` (infer.rs:92-94). -/
def methodResolution (evs : List Event) (expr : Nat) : Option Nat :=
  evs.reverse.findSome? fun e => match e with
    | .method i f => if i = expr then some f else none
    | _ => none

/-- `named_arg_resolution` (infer.rs:96-98). -/
def namedResolution (evs : List Event) (expr : Nat) : Option (Nat × Nat) :=
  evs.reverse.findSome? fun e => match e with
    | .named i f p => if i = expr then some (f, p) else none
    | _ => none

/-! ## The part that `Verif.Hir.Arity` models -/

/-- What `Arity` knows about an identifier. -/
def eraseVal (env : Env) : Option Val → Arity.Res
  | some (.functions fs) => .functions (fs.map fun f => (env.fn f).data)
  | _ => .other

/-- What `Arity` knows about a method call. -/
def eraseMethod (env : Env) (b : Nat) (ty : Option TypeRef) (x : Name) : Arity.Method :=
  match ty with
  | some (.name t) =>
    match env.resolve b t with
    | some (.enumStruct e) =>
      match (env.enumStruct e).member x with
      | some (.method f) => .enumStruct (env.fn f).data
      | _ => .unresolved
    | some (.methodmap m) =>
      match (env.methodmap m).member x with
      | some (.method f) => .methodmap (env.fn f).data
      | _ => .unresolved
    | _ => .unresolved
  | _ => .unresolved

mutual
/-- An expression as `Arity` sees it. -/
def erase (env : Env) (b : Nat) : Expr → Arity.Expr
  | .ident id x => .ident id (eraseVal env (env.resolve b x))
  | .block id es => .node id (eraseAll env id es)
  | .seq id es | .last id es | .new id _ es => .node id (eraseAll env b es)
  | .literal id _ => .node id []
  | .index id a i => .node id [erase env b i, erase env b a]
  | .viewAs id e _ | .field id e _ => .node id [erase env b e]
  | .methodCall id e x args =>
    .methodCall id (erase env b e) (eraseMethod env b (infer env b (some none) e).ty x) (eraseAll env b args)
  | .call id e args => .call id (erase env b e) (eraseAll env b args)
  | .namedArg id _ x v => .namedArg id x.isSome (erase env b v)
  | .binding id none _ => .node id []
  | .binding id (some e) _ => .node id [erase env b e]
def eraseAll (env : Env) (b : Nat) : List Expr → List Arity.Expr
  | [] => []
  | e :: es => erase env b e :: eraseAll env b es
end

def argumentsOf : Event → Option Arity.Diag
  | .arguments d => some d
  | _ => none

/-! ## Specification -/

namespace Spec

/-- The type of an element of a value. Dimensions written after the name of a variable are no part of its type, so elements of
such a variable have the type of the variable. -/
def element : TypeRef → TypeRef
  | .array t n => if n ≤ 1 then t else .array t (n - 1)
  | t => t

/-- Types of expressions: a variable has its declared type, a call the return type of what is called, a member its declared
type, `view_as` and `new` the type they name, an element of an array one dimension less, a sequence of
operands the type of the last. -/
inductive Ty (env : Env) (b : Nat) : Expr → TypeRef → Prop where
  | local_ {id : Nat} {x : Name} {i : Nat} {t : TypeRef} : env.resolve b x = some (.local_ i) → env.localType i = some t →
      Ty env b (.ident id x) t
  | global {id : Nat} {x : Name} {g : Nat} {t : TypeRef} : env.resolve b x = some (.global g) → env.globalType g = some t →
      Ty env b (.ident id x) t
  | enumStruct {id : Nat} {x : Name} {e : Nat} : env.resolve b x = some (.enumStruct e) →
      Ty env b (.ident id x) (.name (env.enumStruct e).name)
  | methodmap {id : Nat} {x : Name} {m : Nat} : env.resolve b x = some (.methodmap m) →
      Ty env b (.ident id x) (.name (env.methodmap m).name)
  | named {id : Nat} {x n : Name} : env.resolve b x = some (.named (some n)) → Ty env b (.ident id x) (.name n)
  | function {id : Nat} {x : Name} {fs : List Nat} {f : Nat} {t : TypeRef} : env.resolve b x = some (.functions fs) →
      fs.getLast? = some f → (env.fn f).ret = some t → Ty env b (.ident id x) t
  | last {id : Nat} {parts : List Expr} {e : Expr} {t : TypeRef} : parts.getLast? = some e → Ty env b e t →
      Ty env b (.last id parts) t
  | literal {id : Nat} {t : TypeRef} : Ty env b (.literal id t) t
  | index {id : Nat} {a i : Expr} {t : TypeRef} : Ty env b a t → Ty env b (.index id a i) (element t)
  | viewAs {id : Nat} {e : Expr} {t : TypeRef} : Ty env b (.viewAs id e t) t
  | new {id : Nat} {x : Name} {args : List Expr} {m f : Nat} : env.global x = some (.methodmap m) →
      (env.methodmap m).constructor = some f → Ty env b (.new id x args) (.name x)
  | field {id : Nat} {target : Expr} {x n : Name} {e idx : Nat} {t : TypeRef} : Ty env b target (.name n) →
      env.global n = some (.enumStruct e) → (env.enumStruct e).member x = some (.field idx t) → Ty env b (.field id target x) t
  | property {id : Nat} {target : Expr} {x n : Name} {m p : Nat} {t : TypeRef} : Ty env b target (.name n) →
      env.global n = some (.methodmap m) → (env.methodmap m).member x = some (.property p t) → Ty env b (.field id target x) t
  | method {id : Nat} {target : Expr} {x n : Name} {e f : Nat} {args : List Expr} {t : TypeRef} : Ty env b target (.name n) →
      env.global n = some (.enumStruct e) → (env.enumStruct e).member x = some (.method f) → (env.fn f).ret = some t →
      Ty env b (.methodCall id target x args) t
  | mmMethod {id : Nat} {target : Expr} {x n : Name} {m f : Nat} {args : List Expr} {t : TypeRef} : Ty env b target (.name n) →
      env.global n = some (.methodmap m) → (env.methodmap m).member x = some (.method f) → (env.fn f).ret = some t →
      Ty env b (.methodCall id target x args) t
  | call {id : Nat} {callee : Expr} {args : List Expr} {t : TypeRef} : Ty env b callee t → Ty env b (.call id callee args) t
  | binding {id : Nat} {init : Option Expr} {t : TypeRef} : Ty env b (.binding id init (some t)) t

/-- The direct parts of an expression. -/
def parts : Expr → List Expr
  | .ident _ _ => []
  | .block _ es | .seq _ es | .last _ es => es
  | .literal _ _ => []
  | .index _ a i => [a, i]
  | .viewAs _ e _ => [e]
  | .field _ e _ => [e]
  | .new _ _ es => es
  | .methodCall _ e _ es | .call _ e es => e :: es
  | .namedArg _ _ _ e => [e]
  | .binding _ none _ => []
  | .binding _ (some e) _ => [e]

/-- The block its parts are in, for an expression in block `b`. -/
def inside (b : Nat) : Expr → Nat
  | .block id _ => id
  | _ => b

/-- `Occurs b e b' e'`: the expression `e`, which is in block `b`, contains `e'`, which is in block `b'`. -/
inductive Occurs : Nat → Expr → Nat → Expr → Prop where
  | here (b : Nat) (e : Expr) : Occurs b e b e
  | part {b b' : Nat} {e e' p : Expr} : p ∈ parts e → Occurs (inside b e) p b' e' → Occurs b e b' e'

/-- What a member stands for. -/
inductive Member where
  | attribute (a : Attr)
  | method (f : Nat)
  | nothing
deriving DecidableEq

/-- The member `x` of the type called `n`. There is no relation if there is nothing called `n`. -/
inductive IsMember (env : Env) (n x : Name) : Member → Prop where
  | field {e idx : Nat} {t : TypeRef} : env.global n = some (.enumStruct e) →
      (env.enumStruct e).member x = some (.field idx t) → IsMember env n x (.attribute (.field e idx))
  | esMethod {e f : Nat} : env.global n = some (.enumStruct e) → (env.enumStruct e).member x = some (.method f) →
      IsMember env n x (.method f)
  | esNone {e : Nat} : env.global n = some (.enumStruct e) → (env.enumStruct e).member x = none → IsMember env n x .nothing
  | property {m p : Nat} {t : TypeRef} : env.global n = some (.methodmap m) →
      (env.methodmap m).member x = some (.property p t) → IsMember env n x (.attribute (.property p))
  | mmMethod {m f : Nat} : env.global n = some (.methodmap m) → (env.methodmap m).member x = some (.method f) →
      IsMember env n x (.method f)
  | mmNone {m : Nat} : env.global n = some (.methodmap m) → (env.methodmap m).member x = none → IsMember env n x .nothing
  | noMembers {v : Val} : env.global n = some v → (∀ e, v ≠ .enumStruct e) → (∀ m, v ≠ .methodmap m) →
      IsMember env n x .nothing

/-- What is to be written down about an expression in block `b`. -/
inductive Says (env : Env) (b : Nat) : Expr → Event → Prop where
  | field {id : Nat} {e : Expr} {x n : Name} {a : Attr} : Ty env b e (.name n) → IsMember env n x (.attribute a) →
      Says env b (.field id e x) (.attribute id a)
  | fieldIsMethod {id : Nat} {e : Expr} {x n : Name} {f : Nat} : Ty env b e (.name n) → IsMember env n x (.method f) →
      Says env b (.field id e x) (.unresolvedField id n x true)
  | noField {id : Nat} {e : Expr} {x n : Name} : Ty env b e (.name n) → IsMember env n x .nothing →
      Says env b (.field id e x) (.unresolvedField id n x false)
  | method {id : Nat} {e : Expr} {x n : Name} {f : Nat} {args : List Expr} : Ty env b e (.name n) → IsMember env n x (.method f) →
      Says env b (.methodCall id e x args) (.method id f)
  | methodIsField {id : Nat} {e : Expr} {x n : Name} {a : Attr} {args : List Expr} : Ty env b e (.name n) →
      IsMember env n x (.attribute a) → Says env b (.methodCall id e x args) (.unresolvedMethod id n x true)
  | noMethod {id : Nat} {e : Expr} {x n : Name} {args : List Expr} : Ty env b e (.name n) → IsMember env n x .nothing →
      Says env b (.methodCall id e x args) (.unresolvedMethod id n x false)
  | constructor {id : Nat} {x : Name} {args : List Expr} {m f : Nat} : env.global x = some (.methodmap m) →
      (env.methodmap m).constructor = some f → Says env b (.new id x args) (.method id f)
  | noConstructor {id : Nat} {x : Name} {args : List Expr} {m : Nat} : env.global x = some (.methodmap m) →
      (env.methodmap m).constructor = none → Says env b (.new id x args) (.unresolvedConstructor id x (some true))
  | enumStructConstructor {id : Nat} {x : Name} {args : List Expr} {e : Nat} : env.global x = some (.enumStruct e) →
      Says env b (.new id x args) (.unresolvedConstructor id x (some false))
  | noClass {id : Nat} {x : Name} {args : List Expr} : (∀ m, env.global x ≠ some (.methodmap m)) →
      (∀ e, env.global x ≠ some (.enumStruct e)) → Says env b (.new id x args) (.unresolvedConstructor id x none)

/-- Facts about members and constructors, as opposed to named arguments and numbers of arguments. -/
def aboutMembers : Event → Bool
  | .named .. | .unresolvedNamed .. | .arguments _ => false
  | _ => true

mutual
/-- Named arguments only occur among arguments, as the grammar demands. -/
def Grammar : Expr → Prop
  | .ident _ _ => True
  | .block _ es | .seq _ es | .last _ es => GrammarAll es
  | .literal _ _ => True
  | .index _ a i => Grammar a ∧ Grammar i
  | .viewAs _ e _ => Grammar e
  | .field _ e _ => Grammar e
  | .new _ _ es => GrammarArgs es
  | .methodCall _ e _ es | .call _ e es => Grammar e ∧ GrammarArgs es
  | .namedArg _ _ _ _ => False
  | .binding _ none _ => True
  | .binding _ (some e) _ => Grammar e
def GrammarAll : List Expr → Prop
  | [] => True
  | e :: es => Grammar e ∧ GrammarAll es
def GrammarArgs : List Expr → Prop
  | [] => True
  | .namedArg _ _ _ v :: es => Grammar v ∧ GrammarArgs es
  | e :: es => Grammar e ∧ GrammarArgs es
end

mutual
/-- Every named argument is that of a call of a function or of a method of an enum struct which is found (`known`). -/
def Heard (env : Env) (b : Nat) (known : Bool) : Expr → Prop
  | .ident _ _ => True
  | .block id es => HeardAll env id known es
  | .seq _ es | .last _ es => HeardAll env b known es
  | .literal _ _ => True
  | .index _ a i => Heard env b known a ∧ Heard env b known i
  | .viewAs _ e _ => Heard env b known e
  | .field _ e _ => Heard env b known e
  | .new _ _ es => HeardAll env b known es
  | .methodCall _ e x es => Heard env b false e ∧
      ((∃ n i f, Ty env b e (.name n) ∧ env.global n = some (.enumStruct i) ∧ (env.enumStruct i).member x = some (.method f) ∧
        HeardAll env b true es) ∨ HeardAll env b false es)
  | .call _ e es => Heard env b false e ∧
      ((∃ id x f fs, e = .ident id x ∧ env.resolve b x = some (.functions (f :: fs)) ∧ HeardAll env b true es) ∨
        HeardAll env b false es)
  | .namedArg _ _ x v => known = true ∧ x.isSome = true ∧ Heard env b known v
  | .binding _ none _ => True
  | .binding _ (some e) _ => Heard env b known e
def HeardAll (env : Env) (b : Nat) (known : Bool) : List Expr → Prop
  | [] => True
  | e :: es => Heard env b known e ∧ HeardAll env b known es
end

/-- A call, the function it calls (the first one of its name) and its arguments. -/
inductive CallsFn (env : Env) (b : Nat) : Expr → Nat → List Expr → Prop where
  | function {id cid : Nat} {x : Name} {f : Nat} {fs : List Nat} {args : List Expr} : env.resolve b x = some (.functions (f :: fs)) →
      CallsFn env b (.call id (.ident cid x) args) f args
  | method {id : Nat} {e : Expr} {x n : Name} {f : Nat} {args : List Expr} : Ty env b e (.name n) → IsMember env n x (.method f) →
      CallsFn env b (.methodCall id e x args) f args
  | constructor {id : Nat} {x : Name} {m f : Nat} {args : List Expr} : env.global x = some (.methodmap m) →
      (env.methodmap m).constructor = some f → CallsFn env b (.new id x args) f args

/-- The parameter called `x`, the last one of that name. -/
def IsParam (f : Fn) (x : Name) (i : Nat) : Prop :=
  ∃ pre post, f.params = pre ++ (x, i) :: post ∧ ∀ p ∈ post, p.1 ≠ x

/-- What is to be written down about the named arguments of a call. -/
inductive NamedSays (env : Env) (b : Nat) : Expr → Event → Prop where
  | found {e : Expr} {f : Nat} {args : List Expr} {id nameId : Nat} {x : Name} {v : Expr} {i : Nat} : CallsFn env b e f args →
      .namedArg id nameId (some x) v ∈ args → IsParam (env.fn f) x i → NamedSays env b e (.named nameId f i)
  | missing {e : Expr} {f : Nat} {args : List Expr} {id nameId : Nat} {x : Name} {v : Expr} : CallsFn env b e f args →
      .namedArg id nameId (some x) v ∈ args → (∀ p ∈ (env.fn f).params, p.1 ≠ x) →
      NamedSays env b e (.unresolvedNamed nameId x (env.fn f).data.name)

/-- Facts about named arguments. -/
def aboutNamed : Event → Bool
  | .named .. | .unresolvedNamed .. => true
  | _ => false

mutual
/-- No name of a function is used as a value, except inside of further calls. -/
def Quiet (env : Env) (b : Nat) : Expr → Prop
  | .ident _ x => ∀ fs, env.resolve b x ≠ some (.functions fs)
  | .block id es => QuietAll env id es
  | .seq _ es | .last _ es | .new _ _ es => QuietAll env b es
  | .literal _ _ => True
  | .index _ a i => Quiet env b a ∧ Quiet env b i
  | .viewAs _ e _ | .field _ e _ => Quiet env b e
  | .methodCall .. | .call .. | .namedArg .. | .binding _ none _ => True
  | .binding _ (some e) _ => Quiet env b e
def QuietAll (env : Env) (b : Nat) : List Expr → Prop
  | [] => True
  | e :: es => Quiet env b e ∧ QuietAll env b es
end

/-- Named arguments have names, and are arguments of functions called by name or of methods of enum structs. -/
def NamedOk (env : Env) (b : Nat) (body : Expr) : Prop :=
  ∀ b' e id nameId x v, Occurs b body b' e → .namedArg id nameId x v ∈ parts e → x.isSome = true ∧
    ((∃ i j g f fs args, e = .call i (.ident j g) args ∧ env.resolve b' g = some (.functions (f :: fs))) ∨
     (∃ i t y args n k f, e = .methodCall i t y args ∧ Quiet env b' t ∧ Ty env b' t (.name n) ∧
        env.global n = some (.enumStruct k) ∧ (env.enumStruct k).member y = some (.method f)))

/-- Numbers identify expressions. -/
def Distinct (b : Nat) (body : Expr) : Prop :=
  ∀ b1 e1 b2 e2, Occurs b body b1 e1 → Occurs b body b2 e2 → e1.id = e2.id → b1 = b2 ∧ e1 = e2

/-- The numbers of the names of named arguments identify the call and the argument. -/
def NamesDistinct (b : Nat) (body : Expr) : Prop :=
  ∀ b1 e1 b2 e2 i1 i2 n x1 x2 v1 v2, Occurs b body b1 e1 → Occurs b body b2 e2 → .namedArg i1 n x1 v1 ∈ parts e1 →
    .namedArg i2 n x2 v2 ∈ parts e2 → b1 = b2 ∧ e1 = e2 ∧ x1 = x2

/-- Types with one dimension written before the name are not indexed. -/
def Deep (env : Env) (b : Nat) (e : Expr) : Prop :=
  ∀ b' id a i t n, Occurs b e b' (.index id a i) → Ty env b' a (.array t n) → 1 < n

/-- Names of types mean inside the body what they mean outside. -/
def Unshadowed (env : Env) (b : Nat) (e : Expr) : Prop :=
  (∀ b' e' n, Occurs b e b' e' → Ty env b' e' (.name n) → env.resolve b' n = env.global n) ∧
  (∀ b' id x args, Occurs b e b' (.new id x args) → env.resolve b' x = env.global x)

end Spec

end Verif.Hir.Infer
