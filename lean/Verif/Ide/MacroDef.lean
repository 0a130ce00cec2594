import Verif.Pre.Position
import Verif.Hir.ItemTree

/-!
# Model of go-to-definition on macros

`crates/ide/src/goto_definition.rs:100-115`, `crates/hir/src/semantics.rs:165-175`, and the macros of the global table of a file
(`crates/hir-def/src/db.rs:294-308`).
-/

namespace Verif.Ide.MacroDef

open Verif.Pre

/-- The macros of the global table of a file, in the order of their numbers: one number for each macro item of the top level
(db.rs:294-308). -/
def tableMacros (t : Hir.Items.Tree) : List Hir.Items.Macro :=
  t.top.filterMap fun
    | .macroDef i => t.macros[i]?
    | _ => none

/-- `find_macro_def` (semantics.rs:165-175) with `get_macro`. -/
def getMacro (t : Hir.Items.Tree) (idx : Nat) : Option Hir.Items.Macro := (tableMacros t)[idx]?

/-- `find_macro_def` (goto_definition.rs:100-115): the first recorded use on the line that contains the position. `trees` are the item trees
of the files. -/
def gotoMacro (trees : Nat → Hir.Items.Tree) (offsets : List (Nat × Offset)) (pos : Pos) : Option (Offset × Hir.Items.Macro) := do
  let o ← (onLine offsets pos.line).find? (·.contains pos)
  let m ← getMacro (trees o.fileId) o.idx
  some (o, m)

namespace Spec

open Verif.Pre.Spec

/-- The name a `#define` gives, from the tokens after it: the first one, if it is an identifier of the same directive. -/
def definedName : List Sym → Str
  | [] => []
  | s :: ss => if s.inPre ∧ s.kind = .ident then (if s.text = [] then definedName ss else s.text) else []

/-- What reading `t` in state `s` defines. -/
def defines (t : Tok) (s : PSt) : List Str := if t.kind = .dir .define ∧ skipping s.conds = false then [definedName s.lexer] else []

/-- `Run env s₀ h s`: preprocessing from `s₀` comes through `s`, and `h` are the names it has defined on the way, in order. -/
inductive Run (env : Env) (s₀ : PSt) : List Str → PSt → Prop where
  | start : Run env s₀ [] s₀
  | turn {h : List Str} {s s₁ s₂ : PSt} {t : Tok} {f : Nat} : Run env s₀ h s → pNext s = some (t, s₁) → pStep env f t s₁ = .next s₂ →
      Run env s₀ (h ++ defines t s₁) s₂

/-- Preprocessing from `s₀` ends in `r` and has defined `h`. -/
def Finishes (env : Env) (s₀ : PSt) (h : List Str) (r : PSt) : Prop :=
  ∃ s, Run env s₀ h s ∧ ((pNext s = none ∧ r = s) ∨ ∃ t s₁ f, pNext s = some (t, s₁) ∧ pStep env f t s₁ = .stop r)

/-- Preprocessing these tokens from these macros ends in `r` and has defined `h`. -/
def Ends (env : Env) (ms : Macros) (tokens : List Sym) (h : List Str) (r : PSt) : Prop := Finishes env { lexer := tokens, macros := ms } h r

/-- Definition number `k` of those in `h` is the one in force for the name `x`: it has this name and no later one has. -/
def InForce (h : List Str) (x : Str) (k : Nat) : Prop := h[k]? = some x ∧ ∀ j, k < j → h[j]? ≠ some x

/-- `x` with number `idx` of file `fileId` is a definition in force after `h`, or one of another file. -/
def Defined (env : Env) (others : Nat → List Str) (h : List Str) (x : Str) (fileId idx : Nat) : Prop :=
  (fileId = env.fileId ∧ InForce h x idx) ∨ (fileId ≠ env.fileId ∧ (others fileId)[idx]? = some x)

/-- A table whose macros of this file are definitions in `h` and whose other macros are definitions of other files. -/
def TableOk (env : Env) (others : Nat → List Str) (h : List Str) (ms : Macros) : Prop :=
  ∀ x m, ms x = some m → Defined env others h x m.fileId m.idx

/-- What includes bring in is defined in other files, or was there before. -/
def IncludesOk (env : Env) (others : Nat → List Str) : Prop :=
  ∀ text ms x m, env.inc text ms x = some m → ms x = some m ∨ (m.fileId ≠ env.fileId ∧ (others m.fileId)[m.idx]? = some x)

/-- The states the evaluation of a condition comes through. -/
inductive Evaluation (p : Profile) (ms : Macros) (st₀ : ESt) : ESt → Prop where
  | start : Evaluation p ms st₀ st₀
  | turn {st st' st'' : ESt} {s : Sym} {f : Nat} : Evaluation p ms st₀ st → eNext st = some (s, st') → eStep p ms f s st' = some (.ok st'') →
      Evaluation p ms st₀ st''

/-- In state `s` the preprocessor reads the token `x`: it is the next token, or one of the condition of the directive that comes next.
`own` tells whether `x` was taken from the file and not from what an expansion has left to be read. -/
def Reads (env : Env) (s : PSt) (x : Sym) (own : Bool) : Prop :=
  ∃ t s₁, pNext s = some (t, s₁) ∧ ((t.sym = x ∧ own = s.stack.isEmpty) ∨
    ∃ st st', Evaluation env.profile s₁.macros ⟨(takeDirective s₁.lexer).1, [], [], [], true, false, s₁.disabled⟩ st ∧ eNext st = some (x, st') ∧
      own = st.stack.isEmpty)

/-- A use of a macro: a token the preprocessor read when the definitions `h₁` had been made, and the definition it names then. -/
def Use (env : Env) (others : Nat → List Str) (s₀ : PSt) (h : List Str) (range : Rng) (idx fileId : Nat) : Prop :=
  ∃ h₁ h₂ s x own, h = h₁ ++ h₂ ∧ Run env s₀ h₁ s ∧ Reads env s x own ∧ x.range = range ∧ Defined env others h₁ x.text fileId idx

/-- The definitions of macros in a syntax tree that have a name. -/
def named (syn : Hir.Items.Syn) (root : Hir.Node) : List Hir.Node := (Hir.Items.Spec.macroDefs root).filter fun n => (syn.field .name n).isSome

/-- Their names. -/
def names (syn : Hir.Items.Syn) (root : Hir.Node) : List Str :=
  (Hir.Items.Spec.macroDefs root).filterMap fun n => (syn.field .name n).map fun c => (syn.text c).toList

/-- The project a file belongs to, as far as macros are concerned: its files have item trees, and the names their syntax trees define are
those the preprocessor has seen defined. -/
structure Project (env : Env) (others : Nat → List Str) (h : List Str) (syn : Nat → Hir.Items.Syn) (root : Nat → Hir.Node) (trees : Nat → Hir.Items.Tree) : Prop where
  grammar : ∀ f, Hir.Items.Spec.Grammar (syn f)
  placed : ∀ f, Hir.Items.Spec.MacrosPlaced (syn f) (root f)
  trees : ∀ f, Hir.Items.lower (syn f) (root f) = some (trees f)
  own : names (syn env.fileId) (root env.fileId) = h
  others : ∀ f, f ≠ env.fileId → names (syn f) (root f) = others f

/-- In state `s` the preprocessor meets the token `t` of the file, in active code; `t` names the macro `m`, and it is expanded in place,
which leaves the state `s₂`. -/
structure Expands (env : Env) (s : PSt) (t : Tok) (m : Macro) (s₂ : PSt) : Prop where
  file : s.stack = []
  reads : ∃ s₁ f, pNext s = some (t, s₁) ∧ pStep env f t s₁ = .next s₂
  ident : t.kind = .ident
  active : skipping s.conds = false
  free : s.intr ≠ some .dot
  names : s.macros t.text = some m
  enabled : m ∉ s.disabled

/-- A token that is not a directive, nor the end, nor the name of a macro. -/
def PlainTok (ms : Macros) (u : Tok) : Prop :=
  u.kind ≠ .unknown ∧ u.kind ≠ .eof ∧ (∀ d, u.kind ≠ .dir d) ∧ (u.kind = .ident → ms u.text = none)

end Spec

end Verif.Ide.MacroDef
