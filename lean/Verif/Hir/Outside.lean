import Verif.Hir.FindDef
/-!
# Model of the definitions of names that are used outside of bodies

`crates/hir/src/semantics.rs:182-272, 381-395, 481-525` (`find_def`, `source_node_to_def`, `function_node_to_def_` without a body,
`typedef_node_to_def`) and `crates/hir/src/lib.rs:57-78` (`DefResolution::try_from`), on top of `Verif.Hir.FindDef` (which function node the
search ends at) and `Verif.Hir.Globals` (`resolve_ident` in the global scope). `functag_node_to_def` is never reached: the loop of
`find_def` does not stop at a functag.
-/

namespace Verif.Hir.Outside

open Verif.Hir
open Verif.Hir.Globals hiding Name FileId
open Verif.Hir.FindDef

/-- The files and the files of their projects. `this` is the type a member function belongs to. -/
structure World where
  env : FileId → Env
  nodes : FileId → Option (List FileId)
  this : FileId → Fn → Option (FileId × Def)

def World.items (w : World) (f : FileId) : List Item := (w.env f).items

/-- `resolve_ident` of `global_resolver(db, file_id)` (semantics.rs:251-253). -/
def World.ident (w : World) (file : FileId) (x : Name) : Option Value := resolve w.items file (w.nodes file) x

/-- The kinds `source_node_to_def` has an arm for, except functions (semantics.rs:260-269). -/
def listed : Globals.Kind → Bool
  | .macro_ | .global | .enumStruct | .methodmap | .enum_ | .variant => true
  | _ => false

/-- The match of `source_node_to_def` (semantics.rs:253-271). -/
def source (file : FileId) : Value → Option (FileId × Def)
  | .functions fs => fs.find? fun p => p.1 = file
  | .one f d => if listed d.kind then some (f, d) else none

/-- `DefResolution::try_from` (lib.rs:58-77) for values that are not locals. -/
def tryFrom : Value → Option (FileId × Def)
  | .functions fs => fs.head?
  | .one f d => some (f, d)

/-- `typedef_node_to_def` (semantics.rs:481-503). The resolver of a typedef is that of its file (resolver.rs:345-349, 310-321). -/
def World.typedefNode (w : World) (file : FileId) (x : Name) : Option Name → Option (FileId × Def)
  | none => none
  | some n =>
    match (w.env file).first n with
    | some ⟨.typedef, _⟩ => (w.ident file x).bind tryFrom
    | _ => none

/-- `function_node_to_def_` without a body (semantics.rs:390-394): the resolver of the function has the scope of `this` inside the global
one, if it is a member (resolver.rs:343-347, 322-341). -/
def World.member (w : World) (file : FileId) (x : Name) (f : Fn) : Option (FileId × Def) :=
  if x = "this".toList ∧ (w.this file f).isSome then w.this file f else (w.ident file x).bind tryFrom

/-- What `find_def` answers. -/
inductive Result where
  | crash
  | nothing
  | found (file : FileId) (d : Def)
  /-- the file an `#include` names -/
  | included
  /-- a name in a body -/
  | inBody (f : Fn)
deriving DecidableEq

def Result.of : Option (FileId × Def) → Result
  | none => .nothing
  | some (f, d) => .found f d

/-- `find_def` (semantics.rs:182-243) for the name `x` at a node with these ancestors, the parent first, which is not the name of a
declaration. -/
def World.findDef (w : World) (file : FileId) (ancestors : List Node) (x : Name) : Result :=
  match (w.env file).findDef ancestors with
  | .crash => .crash
  | .nothing => .nothing
  | .global => .of ((w.ident file x).bind (source file))
  | .file => .included
  | .typedef name => .of (w.typedefNode file x name)
  | .inside f false => .of (w.member file x f)
  | .inside f true => .inBody f

/-! ## Specification -/

namespace Spec

/-- Nodes around a name that are neither functions, nor enums, nor typedefs: declarations of variables, of natives and forwards, of enum
structs and methodmaps with their fields and properties, functags, funcenums, typesets. -/
def Open (inner : List Node) : Prop := ∀ n ∈ inner, n.stops = false

/-- A name at the top level of a file: a type, a size, an initial value, a default value, the parent of a methodmap, … -/
inductive TopLevel : List Node → Prop where
  | file {inner : List Node} : Open inner → inner.head? ≠ some .include → TopLevel (inner ++ [.sourceFile])
  /-- in an enum: a value of an entry -/
  | enum_ {inner : List Node} : Open inner → inner.head? ≠ some .include → TopLevel (inner ++ [.enum_, .sourceFile])

/-- A name in a typedef `t`. -/
def InTypedef (t : Name) (ancestors : List Node) : Prop :=
  ∃ inner, Open inner ∧ inner.head? ≠ some .include ∧ ancestors = inner ++ [.typedef (some t), .sourceFile]

/-- `x` has this declaration and no other in the file and its project. -/
def Sole (w : World) (file : FileId) (x : Name) (f : FileId) (d : Def) : Prop :=
  Globals.Spec.Declares w.items file (w.nodes file) x f d ∧
  ∀ f' d', Globals.Spec.Declares w.items file (w.nodes file) x f' d' → (f', d') = (f, d)

end Spec

end Verif.Hir.Outside
