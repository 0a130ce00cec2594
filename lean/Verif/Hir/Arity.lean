/-!
# Model of the check of argument counts

`crates/hir-def/src/infer.rs:112-175, 182-430, 573-653` and `crates/hir-def/src/data.rs:73-86`.

The body of a function is a tree of expressions. Names are resolved beforehand (`Verif.Hir.Scope`, `Verif.Hir.Globals`): an identifier
carries what it resolves to, a method call carries the method that is found. The types `infer_expr` returns only serve to find members
and are left out. Of the diagnostics, only `IncorrectNumberOfArguments` is kept.
-/

namespace Verif.Hir.Arity

abbrev Name := List Char

/-- `ParamData` (data.rs:20-25). -/
structure Param where
  hasDefault : Bool
  isRest : Bool
deriving DecidableEq

/-- `FunctionData` (data.rs:39-43). -/
structure Fn where
  name : Name
  params : List Param
deriving DecidableEq

/-- `number_of_mandatory_parameters` (data.rs:73-78). -/
def Fn.mandatory (f : Fn) : Nat := (f.params.filter fun p => !(p.hasDefault || p.isRest)).length

/-- `number_of_parameters` (data.rs:80-86). -/
def Fn.maximum (f : Fn) : Option Nat := if f.params.any (·.isRest) then none else some f.params.length

/-- What an identifier resolves to: functions, or something else or nothing. -/
inductive Res where
  | functions (fs : List Fn)
  | other
deriving DecidableEq

/-- What the method of a method call resolves to (infer.rs:585-643). -/
inductive Method where
  | enumStruct (f : Fn)
  | methodmap (f : Fn)
  | unresolved

/-- Expressions and statements, each with its number (`ExprId`). `node` stands for all those that only infer their parts in order (and for
those without parts); `new` is among them (infer.rs:261-266). -/
inductive Expr where
  | ident (id : Nat) (r : Res)
  | call (id : Nat) (callee : Expr) (args : List Expr)
  | methodCall (id : Nat) (target : Expr) (m : Method) (args : List Expr)
  /-- `.name = value`; `isIdent` is true if the name is an identifier expression (infer.rs:243-245). -/
  | namedArg (id : Nat) (isIdent : Bool) (value : Expr)
  | node (id : Nat) (parts : List Expr)

def Expr.id : Expr → Nat
  | .ident id _ => id
  | .call id _ _ => id
  | .methodCall id _ _ _ => id
  | .namedArg id _ _ => id
  | .node id _ => id

/-- `InferenceDiagnostic::IncorrectNumberOfArguments` (infer.rs:53-58). -/
structure Diag where
  expr : Nat
  name : Name
  expected : Nat
  actual : Nat
deriving DecidableEq

/-- The last element of `call_stack`: `none` if there is no call, `some none` for a call whose `id` is not set. The rest of the stack is kept
by the recursion: `push_call` and `pop_call` are paired (infer.rs:134-140). -/
abbrev Current := Option (Option (List Fn))

/-- Setting `id` in `current_call_mut` (infer.rs:347-352, 604-609). -/
def Current.set (c : Current) (fs : List Fn) : Current :=
  match c with
  | some none => some (some fs)
  | c => c

/-- `args.last().cloned().unwrap_or(*expr)` (infer.rs:408). -/
def lastId (id : Nat) : List Expr → Nat
  | [] => id
  | [a] => a.id
  | _ :: as => lastId id as

/-- Lines 404-419 for the current call (with `current_call_data`, lines 150-158). `usize::MAX`, the bound in place of a missing maximum,
cannot be exceeded. -/
def check (c : Current) (id : Nat) (args : List Expr) : List Diag :=
  match c with
  | some (some (f :: _)) =>
    if args.length < f.mandatory then [⟨lastId id args, f.name, f.mandatory, args.length⟩]
    else match f.maximum with
      | some max => if args.length > max then [⟨lastId id args, f.name, max, args.length⟩] else []
      | none => []
  | _ => []

mutual
/-- `infer_expr` (infer.rs:182-441): the current call after it and the diagnostics. -/
def infer (c : Current) : Expr → Current × List Diag
  | .ident _ (.functions fs) => (c.set fs, [])
  | .ident _ .other => (c, [])
  | .call id callee args =>
    let r := infer (some none) callee
    let s := inferAll r.1 args
    (c, r.2 ++ s.2 ++ check s.1 id args)
  | .methodCall _ target m args =>
    let r := infer (some none) target
    let c' := match m with
      | .enumStruct f => Current.set r.1 [f]
      | _ => r.1
    let s := inferAll c' args
    (c, r.2 ++ s.2)
  | .namedArg _ isIdent value =>
    match c with
    | some (some (_ :: _)) => if isIdent then infer c value else (c, [])
    | _ => (c, [])
  | .node _ parts => inferAll c parts

def inferAll (c : Current) : List Expr → Current × List Diag
  | [] => (c, [])
  | e :: es =>
    let r := infer c e
    let s := inferAll r.1 es
    (s.1, r.2 ++ s.2)
end

/-- `infer_query` (infer.rs:16-28, 443-447). -/
def diagnostics (body : Expr) : List Diag := (infer none body).2

/-! ## Specification -/

namespace Spec

/-- The number of arguments that is violated by `n` arguments, if any: the number of parameters without default (the rest parameter aside)
as a lower bound, the number of parameters as an upper bound for a function without rest parameter. -/
def Violates (f : Fn) (n bound : Nat) : Prop :=
  (bound = (f.params.filter fun p => !(p.hasDefault || p.isRest)).length ∧ n < bound) ∨
  (bound = f.params.length ∧ (∀ p ∈ f.params, p.isRest = false) ∧ bound < n)

mutual
/-- A call that occurs in the expression, with the function it calls: the first one its callee resolves to. -/
inductive Calls : Expr → Expr → Fn → Prop where
  | here (id cid : Nat) (f : Fn) (fs : List Fn) (args : List Expr) :
      Calls (.call id (.ident cid (.functions (f :: fs))) args) (.call id (.ident cid (.functions (f :: fs))) args) f
  | callee (id : Nat) (e : Expr) (args : List Expr) (c : Expr) (f : Fn) : Calls e c f → Calls (.call id e args) c f
  | arg (id : Nat) (e : Expr) (args : List Expr) (c : Expr) (f : Fn) : CallsIn args c f → Calls (.call id e args) c f
  | target (id : Nat) (e : Expr) (m : Method) (args : List Expr) (c : Expr) (f : Fn) : Calls e c f → Calls (.methodCall id e m args) c f
  | marg (id : Nat) (e : Expr) (m : Method) (args : List Expr) (c : Expr) (f : Fn) : CallsIn args c f → Calls (.methodCall id e m args) c f
  | named (id : Nat) (b : Bool) (e : Expr) (c : Expr) (f : Fn) : Calls e c f → Calls (.namedArg id b e) c f
  | part (id : Nat) (es : List Expr) (c : Expr) (f : Fn) : CallsIn es c f → Calls (.node id es) c f

inductive CallsIn : List Expr → Expr → Fn → Prop where
  | head (e : Expr) (es : List Expr) (c : Expr) (f : Fn) : Calls e c f → CallsIn (e :: es) c f
  | tail (e : Expr) (es : List Expr) (c : Expr) (f : Fn) : CallsIn es c f → CallsIn (e :: es) c f
end

/-- The diagnostic for a call: it names the function and the violated bound, and is placed at the last argument or at the call. -/
def Reports (c : Expr) (f : Fn) (d : Diag) : Prop :=
  ∃ id callee args, c = .call id callee args ∧ Violates f args.length d.expected ∧ d.name = f.name ∧ d.actual = args.length ∧
    d.expr = ((args.getLast?).map Expr.id).getD id

mutual
/-- The bodies for which the check is exact. `b` is true inside the arguments of a call of a function or of a method of an enum struct.
Named arguments only occur there (otherwise their values are skipped), and where the callee does not resolve to a function, no argument
is the name of a function (it would be taken for the callee). -/
def Plain : Bool → Expr → Prop
  | _, .ident _ _ => True
  | _, .call _ (.ident _ (.functions (_ :: _))) args => PlainAll true args
  | _, .call _ e args => Plain false e ∧ NoFunction e ∧ PlainAll false args ∧ NoFunctionAll args
  | _, .methodCall _ target (.enumStruct _) args => Plain false target ∧ NoFunction target ∧ PlainAll true args
  | _, .methodCall _ target _ args => Plain false target ∧ PlainAll false args
  | b, .namedArg _ isIdent value => b = true ∧ isIdent = true ∧ Plain b value
  | b, .node _ parts => PlainAll b parts

def PlainAll : Bool → List Expr → Prop
  | _, [] => True
  | b, e :: es => Plain b e ∧ PlainAll b es

/-- No name of a function is used as a value, except inside of further calls. -/
def NoFunction : Expr → Prop
  | .ident _ (.functions _) => False
  | .ident _ .other => True
  | .call _ _ _ => True
  | .methodCall _ _ _ _ => True
  | .namedArg _ _ value => NoFunction value
  | .node _ parts => NoFunctionAll parts

def NoFunctionAll : List Expr → Prop
  | [] => True
  | e :: es => NoFunction e ∧ NoFunctionAll es
end

end Spec

end Verif.Hir.Arity
