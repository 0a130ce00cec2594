import Verif.Hir.Scope
/-!
# Model of the names the analysis of a body works with

`crates/hir-def/src/infer.rs:16-28, 181-231` (how `infer_expr` walks through statements) and `crates/hir-def/src/resolver.rs:187-249`
(`update_to_inner_scope`, `reset_to_guard`), over the bodies and scopes of `Verif.Hir.Scope`.
-/

namespace Verif.Hir.Scope

/-- `expr_scopes.scope_for(expr_id)` (scope.rs:60-62). The node of a block stands for its expression. -/
def Scopes.scopeFor (s : Scopes) (r : Range) : Option Nat := s.byExpr.lookup r

/-- `scope_chain` (scope.rs:50-53) of an optional scope. -/
def Scopes.chainFrom (s : Scopes) : Option Nat → List Nat
  | none => []
  | some k => s.chain s.scopes.length k

/-- `update_to_inner_scope` (resolver.rs:190-244) for the block with the node `r`. The scopes of the resolver are listed from the inside to the
outside. -/
def Scopes.enter (s : Scopes) (r : Range) (res : List RScope) : List RScope :=
  match res with
  | .expr k :: rest => ((s.chainFrom (s.scopeFor r)).takeWhile fun j => decide (j ≠ k)).map .expr ++ .expr k :: rest
  | res => (s.chainFrom (s.scopeFor r)).map .expr ++ res

/-- The parts of a statement that are no statements. -/
def own (p : Nat) (r : Range) (res : List RScope) : Option (List RScope) := if r.start ≤ p ∧ p < r.stop then some res else none

mutual
/-- `infer_expr` (infer.rs:181-231): the scopes of the resolver at the time when the expression with an identifier that starts at `p` is
inferred; `none` if it never is. `res` are the scopes before the statement. A block enters its scope and leaves it behind its last
statement; the parts of all other statements are inferred with the scopes of the statement. -/
def inferAt (s : Scopes) (p : Nat) (res : List RScope) : Stmt → Option (List RScope)
  | .simple r _ => own p r res
  | .decl r _ => own p r res
  | .block r ss => inferAtAll s p (s.enter r res) ss
  | .for_ r init full body =>
    if full then ((inferAtAll s p res init).or (inferAt s p res body)).or (own p r res) else none
  | .while_ r body => (inferAt s p res body).or (own p r res)
  | .if_ r t none => (inferAt s p res t).or (own p r res)
  | .if_ r t (some e) => ((inferAt s p res t).or (inferAt s p res e)).or (own p r res)
  | .switch r cs => (inferAtAll s p res cs).or (own p r res)

def inferAtAll (s : Scopes) (p : Nat) (res : List RScope) : List Stmt → Option (List RScope)
  | [] => none
  | st :: ss => (inferAt s p res st).or (inferAtAll s p res ss)
end

/-- The resolver `infer_query` starts with (infer.rs:18; resolver.rs:313-349): the names of the file, and `this` in a member. -/
def baseScopes (method : Bool) : List RScope := (if method then [.this] else []) ++ [.global]

/-- What an identifier `x` that starts at `p` stands for when the body is analysed (infer.rs:323-326). `none` outside if it is not analysed. -/
def Func.inferred {G : Type} (f : Func) (method : Bool) (global : Name → Option G) (p : Nat) (x : Name) : Option (Option (Target G)) :=
  (inferAt f.scopes p (baseScopes method) f.body).map (f.scopes.resolveIdent global x)

end Verif.Hir.Scope
