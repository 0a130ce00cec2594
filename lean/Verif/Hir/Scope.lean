/-!
# Model of local scopes

`crates/hir-def/src/body/lower.rs`, `crates/hir-def/src/body/scope.rs`, `crates/hir/src/source_analyzer.rs:175-193` and the local part of
`crates/hir-def/src/resolver.rs`.

A function body is a tree of statements with their byte ranges; the expression that is allocated for a statement carries the range of the
node it is made from. Expressions without declarations are not told apart. Positions are byte offsets (the code compares rows and columns,
which has the same order).
-/

namespace Verif.Hir.Scope

abbrev Name := List Char

/-- The bytes of a node: the first and the one after the last. -/
structure Range where
  start : Nat
  stop : Nat
deriving DecidableEq

/-- A declared variable: its name, a number for the expression that is allocated for it and its node. -/
structure Decl where
  name : Name
  id : Nat
  range : Range := ⟨0, 0⟩
deriving DecidableEq

/-- Statements as the parser gives them, with their ranges. -/
inductive Stmt where
  /-- An expression, `return`, `break` and so on. `node` is the range of the node that is recorded for the expression made from it: the
  operand of `return` and `delete` (lower.rs:263-278), the child of an expression statement (lower.rs:279-282), the name of the method in
  a call of a method (lower.rs:322); nothing if no expression is made, as for a `return` without a value. -/
  | simple (r : Range) (node : Option Range)
  /-- `variable_declaration_statement` and `old_variable_declaration_statement`. -/
  | decl (r : Range) (ds : List Decl)
  | block (r : Range) (ss : List Stmt)
  /-- `for_statement`. `full` is true if neither condition nor iteration is left out. -/
  | for_ (r : Range) (init : List Stmt) (full : Bool) (body : Stmt)
  /-- `while_statement` and `do_while_statement`. -/
  | while_ (r : Range) (body : Stmt)
  | if_ (r : Range) (then_ : Stmt) (else_ : Option Stmt)
  | switch (r : Range) (cases : List Stmt)

/-- `Expr` (hir.rs:31-110), as far as scopes are concerned, with the node of `BodySourceMap::expr_source`. `Binding` is the single `Decl`. -/
inductive Expr where
  | missing
  | other (r : Range)
  | decl (r : Range) (ds : List Decl)
  | block (r : Range) (ss : List Expr)
  | loop (r : Range) (init : List Expr) (body : Expr)
  | condition (r : Range) (then_ : Expr) (else_ : Option Expr)
  | switch (r : Range) (cases : List Expr)

mutual
/-- `collect_expr` (lower.rs:145-148) with `maybe_collect_expr` (lower.rs:150-282) for statements. A `for` without condition or iteration
is given up by the `?` of lines 193-194 and becomes `Missing`. -/
def lower : Stmt → Expr
  | .simple _ none => .missing
  | .simple _ (some q) => .other q
  | .decl r ds => .decl r ds
  | .block r ss => .block r (lowerAll ss)
  | .for_ r init full body => if full then .loop r (lowerAll init) (lower body) else .missing
  | .while_ r body => .loop r [] (lower body)
  | .if_ r t none => .condition r (lower t) none
  | .if_ r t (some e) => .condition r (lower t) (some (lower e))
  | .switch r cs => .switch r (lowerAll cs)

def lowerAll : List Stmt → List Expr
  | [] => []
  | s :: ss => lower s :: lowerAll ss
end

/-- `ScopeData` (scope.rs:134-137). The hash map of entries is a list with the latest first; `none` is the file as parent. -/
structure ScopeData where
  parent : Option Nat
  entries : List (Name × Nat)

/-- `ExprScopes` (scope.rs:24-28); the entries hold the id of the binding at once, `byExpr` is `scope_by_expr` with the node of each
expression in place of its id; expressions without a node (`Missing`) are left out, as they are in the lookup (source_analyzer.rs:187). -/
structure Scopes where
  scopes : List ScopeData := []
  byExpr : List (Range × Nat) := []

/-- `scopes[scope].entries.insert` (scope.rs:92-99, 161-166). -/
def Scopes.insert (s : Scopes) (k : Nat) (d : Decl) : Scopes :=
  { s with scopes := s.scopes.modify k fun sc => { sc with entries := (d.name, d.id) :: sc.entries } }

/-- `set_scope` (scope.rs:115-118). -/
def Scopes.record (s : Scopes) (r : Range) (k : Nat) : Scopes := { s with byExpr := (r, k) :: s.byExpr }

/-- `new_block_scope` and `set_scope` for the block, which replaces the entry of line 154 (scope.rs:108-113, 168-171). -/
def Scopes.newBlock (s : Scopes) (r : Range) (parent : Nat) : Scopes :=
  { scopes := s.scopes ++ [⟨some parent, []⟩], byExpr := (r, s.scopes.length) :: s.byExpr }

/-- One `Binding` (scope.rs:154, 161-166). -/
def Scopes.bind (k : Nat) (s : Scopes) (d : Decl) : Scopes := (s.record d.range k).insert k d

mutual
/-- `compute_expr_scopes` (scope.rs:153-219). -/
def compute (k : Nat) (s : Scopes) : Expr → Scopes
  | .missing => s
  | .other r => s.record r k
  | .decl r ds => ds.foldl (Scopes.bind k) (s.record r k)
  | .block r ss => computeAll s.scopes.length (s.newBlock r k) ss
  | .loop r init body => compute k (computeAll k (s.record r k) init) body
  | .condition r t none => compute k (s.record r k) t
  | .condition r t (some e) => compute k (compute k (s.record r k) t) e
  | .switch r cs => computeAll k (s.record r k) cs

def computeAll (k : Nat) (s : Scopes) : List Expr → Scopes
  | [] => s
  | e :: es => computeAll k (compute k s e) es
end

/-- A function: its parameters and its body. -/
structure Func where
  params : List Decl
  body : Stmt

/-- `root_scope` and `add_params_bindings` (scope.rs:92-106). -/
def Func.root (f : Func) : Scopes := f.params.foldl (·.insert 0 ·) { scopes := [⟨none, []⟩] }

/-- `ExprScopes::new` (scope.rs:78-90). -/
def Func.scopes (f : Func) : Scopes := compute 0 f.root (lower f.body)

/-- `scope_chain` (scope.rs:50-53); the fuel is the number of scopes that can still follow. -/
def Scopes.chain (s : Scopes) : Nat → Nat → List Nat
  | 0, _ => []
  | fuel + 1, k =>
    match s.scopes[k]? with
    | none => []
    | some sc =>
      match sc.parent with
      | none => [k]
      | some p => k :: s.chain fuel p

/-- `resolve_name_in_scope` (scope.rs:55-58). -/
def Scopes.resolve (s : Scopes) (k : Nat) (x : Name) : Option Nat :=
  (s.chain s.scopes.length k).findSome? fun j => (s.scopes[j]?).bind fun sc => sc.entries.lookup x

def Range.len (r : Range) : Nat := r.stop - r.start

/-- `min_by_key` with the length in bytes (source_analyzer.rs:191): the first of the shortest. -/
def shortest : List (Range × Nat) → Option (Range × Nat)
  | [] => none
  | a :: l =>
    match shortest l with
    | none => some a
    | some b => if a.1.len ≤ b.1.len then some a else some b

/-- `scope_for_offset` (source_analyzer.rs:175-193). `order` is `scope_by_expr` in the order of its iterator (the order in which the
expressions were allocated); both ends of a node belong to it. -/
def scopeForOffset (order : List (Range × Nat)) (p : Nat) : Option Nat :=
  (shortest (order.filter fun e => decide (e.1.start ≤ p ∧ p ≤ e.1.stop))).map (·.2)

/-- What an identifier stands for, as far as it matters here. -/
inductive Target (G : Type) where
  | local_ (id : Nat)
  | this
  | global (g : G)
deriving DecidableEq

/-- The scopes of a resolver (resolver.rs:52-60). -/
inductive RScope where
  | global
  | this
  | expr (k : Nat)

/-- One turn of the loop of `resolver_for_scope` (resolver.rs:377-385). -/
def Scopes.rscope (s : Scopes) (j : Nat) : RScope :=
  match s.scopes[j]? with
  | some ⟨some _, _⟩ => .expr j
  | _ => .global

/-- `resolver_for_scope` (resolver.rs:367-387), the innermost scope first. The scope of the parameters has the file as parent and is
replaced by the global scope. `method` tells whether the function is inside an enum struct or methodmap. -/
def Scopes.resolver (s : Scopes) (method : Bool) (scope : Option Nat) : List RScope :=
  let chain := match scope with
    | none => []
    | some k => s.chain s.scopes.length k
  chain.map s.rscope ++ (if method then [.this] else []) ++ [.global]

/-- `resolve_ident` (resolver.rs:95-187); `global` is the lookup in the global scope. -/
def Scopes.resolveIdent {G : Type} (s : Scopes) (global : Name → Option G) (x : Name) : List RScope → Option (Target G)
  | [] => none
  | .expr k :: r =>
    match s.resolve k x with
    | some id => some (.local_ id)
    | none => s.resolveIdent global x r
  | .this :: r => if x = "this".toList then some .this else s.resolveIdent global x r
  | .global :: r =>
    match global x with
    | some g => some (.global g)
    | none => s.resolveIdent global x r

/-- An identifier that starts at `p` in the body of a function (`SourceAnalyzer::new_for_body`, source_analyzer.rs:29-70, which is
always called with the start of the node: semantics.rs:398-455). -/
def Func.resolve {G : Type} (f : Func) (order : List (Range × Nat)) (method : Bool) (global : Name → Option G) (p : Nat) (x : Name) : Option (Target G) :=
  f.scopes.resolveIdent global x (f.scopes.resolver method (scopeForOffset order p))

def Stmt.range : Stmt → Range
  | .simple r _ | .decl r _ | .block r _ | .for_ r _ _ _ | .while_ r _ | .if_ r _ _ | .switch r _ => r

namespace Spec

/-- A scope of the language around a use: a block with its statements or the header of a `for`. -/
inductive Layer where
  | block (r : Range) (ss : List Stmt)
  | loop (init : List Stmt)

/-- An identifier that starts at `p` is in the node. -/
def Has (r : Range) (p : Nat) : Prop := r.start ≤ p ∧ p < r.stop

instance (r : Range) (p : Nat) : Decidable (Has r p) := inferInstanceAs (Decidable (_ ∧ _))

/-- `In p s ls`: `p` is a place for an identifier in `s` and `ls` are the scopes around it inside `s`, from the inside to the outside. -/
inductive In (p : Nat) : Stmt → List Layer → Prop where
  | simple {r : Range} {node : Option Range} : Has r p → In p (.simple r node) []
  /-- In an initial value. -/
  | decl {r : Range} {ds : List Decl} : Has r p → In p (.decl r ds) []
  | block {r : Range} {ss : List Stmt} {s : Stmt} {ls : List Layer} : s ∈ ss → In p s ls → In p (.block r ss) (ls ++ [.block r ss])
  /-- In the condition or the iteration. -/
  | forHead {r : Range} {init : List Stmt} {full : Bool} {body : Stmt} : Has r p → (∀ s ∈ init, ¬ Has s.range p) → ¬ Has body.range p →
      In p (.for_ r init full body) [.loop init]
  | forInit {r : Range} {init : List Stmt} {full : Bool} {body s : Stmt} {ls : List Layer} : s ∈ init → In p s ls →
      In p (.for_ r init full body) (ls ++ [.loop init])
  | forBody {r : Range} {init : List Stmt} {full : Bool} {body : Stmt} {ls : List Layer} : In p body ls →
      In p (.for_ r init full body) (ls ++ [.loop init])
  | whileHead {r : Range} {body : Stmt} : Has r p → ¬ Has body.range p → In p (.while_ r body) []
  | whileBody {r : Range} {body : Stmt} {ls : List Layer} : In p body ls → In p (.while_ r body) ls
  | ifHead {r : Range} {t : Stmt} {e : Option Stmt} : Has r p → ¬ Has t.range p → (∀ s, e = some s → ¬ Has s.range p) → In p (.if_ r t e) []
  | ifThen {r : Range} {t : Stmt} {e : Option Stmt} {ls : List Layer} : In p t ls → In p (.if_ r t e) ls
  | ifElse {r : Range} {t e : Stmt} {ls : List Layer} : In p e ls → In p (.if_ r t (some e)) ls
  | switchHead {r : Range} {cs : List Stmt} : Has r p → (∀ s ∈ cs, ¬ Has s.range p) → In p (.switch r cs) []
  | switchCase {r : Range} {cs : List Stmt} {s : Stmt} {ls : List Layer} : s ∈ cs → In p s ls → In p (.switch r cs) ls

/-- What a list of statements declares itself. -/
def direct : List Stmt → List Decl
  | [] => []
  | .decl _ ds :: ss => ds ++ direct ss
  | _ :: ss => direct ss

def Layer.decls : Layer → List Decl
  | .block _ ss => direct ss
  | .loop init => direct init

/-- The language's rule: the innermost scope around the use that declares the name, then the parameters. -/
inductive Declares (x : Name) : List Layer → List Decl → Nat → Prop where
  | here {l : Layer} {ls : List Layer} {ps : List Decl} {d : Decl} : d ∈ l.decls → d.name = x → Declares x (l :: ls) ps d.id
  | outer {l : Layer} {ls : List Layer} {ps : List Decl} {i : Nat} : (∀ d ∈ l.decls, d.name ≠ x) → Declares x ls ps i → Declares x (l :: ls) ps i
  | param {ps : List Decl} {d : Decl} : d ∈ ps → d.name = x → Declares x [] ps d.id

/-- No local declaration of the name is visible. -/
def NoLocal (x : Name) (ls : List Layer) (ps : List Decl) : Prop := (∀ l ∈ ls, ∀ d ∈ l.decls, d.name ≠ x) ∧ ∀ d ∈ ps, d.name ≠ x

mutual
/-- All declarations of a statement outside of inner blocks. -/
def region : Stmt → List Decl
  | .simple _ _ => []
  | .decl _ ds => ds
  | .block _ _ => []
  | .for_ _ init _ body => regionAll init ++ region body
  | .while_ _ body => region body
  | .if_ _ t none => region t
  | .if_ _ t (some e) => region t ++ region e
  | .switch _ cs => regionAll cs

def regionAll : List Stmt → List Decl
  | [] => []
  | s :: ss => region s ++ regionAll ss
end

mutual
/-- No `for` leaves out its condition or iteration. -/
def Full : Stmt → Prop
  | .simple _ _ => True
  | .decl _ _ => True
  | .block _ ss => FullAll ss
  | .for_ _ init full body => full = true ∧ FullAll init ∧ Full body
  | .while_ _ body => Full body
  | .if_ _ t none => Full t
  | .if_ _ t (some e) => Full t ∧ Full e
  | .switch _ cs => FullAll cs

def FullAll : List Stmt → Prop
  | [] => True
  | s :: ss => Full s ∧ FullAll ss
end

mutual
/-- The nodes of the blocks in a statement. -/
def blockRanges : Stmt → List Range
  | .simple _ _ => []
  | .decl _ _ => []
  | .block r ss => r :: blockRangesAll ss
  | .for_ _ init _ body => blockRangesAll init ++ blockRanges body
  | .while_ _ body => blockRanges body
  | .if_ _ t none => blockRanges t
  | .if_ _ t (some e) => blockRanges t ++ blockRanges e
  | .switch _ cs => blockRangesAll cs

def blockRangesAll : List Stmt → List Range
  | [] => []
  | s :: ss => blockRanges s ++ blockRangesAll ss
end

/-- No block ends exactly where the identifier starts, as in `{ int a; }a = 1;`. -/
def NoTouch (p : Nat) (st : Stmt) : Prop := ∀ r ∈ blockRanges st, r.stop ≠ p

def Within (q r : Range) : Prop := r.start ≤ q.start ∧ q.stop ≤ r.stop

/-- The statements are behind a keyword or a brace of the node and one after the other. -/
def Inside (r : Range) (ss : List Stmt) : Prop :=
  (∀ s ∈ ss, r.start < s.range.start ∧ s.range.stop ≤ r.stop) ∧ ss.Pairwise fun a b => a.range.stop ≤ b.range.start

mutual
/-- The ranges are those of a syntax tree: a node is within its parent, statements do not overlap and stand in their order. -/
def Laid : Stmt → Prop
  | .simple r node => ∀ q, node = some q → Within q r
  | .decl r ds => ∀ d ∈ ds, Within d.range r
  | .block r ss => Inside r ss ∧ LaidAll ss
  | .for_ r init _ body => Inside r (init ++ [body]) ∧ LaidAll init ∧ Laid body
  | .while_ r body => Inside r [body] ∧ Laid body
  | .if_ r t none => Inside r [t] ∧ Laid t
  | .if_ r t (some e) => Inside r [t, e] ∧ Laid t ∧ Laid e
  | .switch r cs => Inside r cs ∧ LaidAll cs

def LaidAll : List Stmt → Prop
  | [] => True
  | s :: ss => Laid s ∧ LaidAll ss
end

/-- The name is not affected by the leaking of loop variables, for a use with the layers `ls`; `around` are the declarations of the loops
around the use since the last block. For every block around the use: what the block declares of this name outside of inner blocks is all
in its own statements, or it is one declaration, in the header of a `for` around the use. -/
def NoLeak (x : Name) : List Decl → List Layer → Prop
  | _, [] => True
  | around, .loop init :: ls => NoLeak x (around ++ direct init) ls
  | around, .block _ ss :: ls =>
    ((∀ d ∈ regionAll ss, d.name = x → d ∈ direct ss) ∧ (∀ d ∈ around, d.name ≠ x) ∨
      ∃ d, around.filter (·.name = x) = [d] ∧ (regionAll ss).filter (·.name = x) = [d]) ∧ NoLeak x [] ls

end Spec

end Verif.Hir.Scope
