import Verif.Pre.MainSpec
import Verif.Pre.Reports
/-!
# Specification of the preprocessor's complaints

`Told` follows a well-nested file as `Sel` does, and lists the include directives of the selected text and the conditions that are
asked for and have no value.
-/

namespace Verif.Pre.Spec

/-- An include directive: its token, the name it writes, whether the name is in quotes, and what comes before the name. -/
structure Inc where
  dir    : Sym
  quoted : Bool
  pre    : Str
  name   : Str

/-- The text of the directive is `pre<name>post` or `pre"name"post`. -/
def Inc.Written (i : Inc) : Prop :=
  (i.dir.kind = .dir .include_ ∨ i.dir.kind = .dir .tryinclude) ∧ i.pre.head? = some '#' ∧ i.name ≠ [] ∧
  ∃ post, (∀ c ∈ i.pre ++ i.name ++ post, c ≠ '<' ∧ c ≠ '>' ∧ c ≠ '"') ∧
    i.dir.text = i.pre ++ (if i.quoted then '"' else '<') :: (i.name ++ (if i.quoted then '"' else '>') :: post)

/-- Where the name is in the file. -/
def Inc.place (i : Inc) : Rng :=
  ⟨⟨i.dir.range.s.line, i.dir.range.s.char + i.pre.length + 1⟩, ⟨i.dir.range.s.line, i.dir.range.s.char + i.pre.length + 1 + i.name.length⟩⟩

/-- The directive must be complained about: it is an `#include`, and no file has the name. -/
def Inc.unresolved (found : Str → Bool → Bool) (i : Inc) : Bool := decide (i.dir.kind = .dir .include_) && !found i.name i.quoted

/-- A condition without a value: its directive, its tokens, and the macros at that point. -/
structure Failed where
  dir    : Sym
  cond   : List Sym
  macros : Macros

/-- The value of a condition in state `s`, `none` if it has none; evaluating it has no effect on which macros are expanded. -/
def CondValue (env : Env) (s : PSt) (cond : List Sym) (v : Option Bool) : Prop :=
  ∃ f₀, ∀ f, f₀ ≤ f → evaluate env.profile s.macros s.disabled cond f = some (match v with | some b => .ok b | none => .err) ∧
    (eEffects env.profile s.macros f ⟨cond, [], [], [], true, false, s.disabled⟩).1 = s.disabled

/-- Neither a conditional nor an include directive. -/
def Quiet (k : Kind) : Prop := Plain k ∧ k ≠ .dir .include_ ∧ k ≠ .dir .tryinclude

/-- No macro is defined as such a directive. -/
def QuietMacros (ms : Macros) : Prop := ∀ x m, ms x = some m → ∀ r ∈ m.body, Quiet r.kind

mutual
/-- `Told env s f is fs s'`: when preprocessing `f` starts in state `s`, `is` are the include directives of the selected text, `fs`
the conditions that have no value, and `s'` is the state after it. -/
inductive Told (env : Env) : PSt → Items → List Inc → List Failed → PSt → Prop where
  | nil {s : PSt} : Told env s .nil [] [] s
  | text {s s₁ s' : PSt} {ts : List Sym} {r : Items} {is : List Inc} {fs : List Failed} :
      Segment env ts s s₁ → (∀ x ∈ ts, x.kind ≠ .dir .include_ ∧ x.kind ≠ .dir .tryinclude) → Told env s₁ r is fs s' →
      Told env s (.text ts r) is fs s'
  | incl {s s₁ s' : PSt} {i : Inc} {r : Items} {is : List Inc} {fs : List Failed} :
      i.Written → Segment env [i.dir] s s₁ → Told env s₁ r is fs s' → Told env s (.text [i.dir] r) (i :: is) fs s'
  | chain {s s₁ s' : PSt} {c : Branches} {r : Items} {is₁ is₂ : List Inc} {fs₁ fs₂ : List Failed} :
      Asked env s c is₁ fs₁ s₁ → Told env s₁ r is₂ fs₂ s' → Told env s (.chain c r) (is₁ ++ is₂) (fs₁ ++ fs₂) s'
/-- The conditions of a chain are asked in order, up to the first one that is true; one without a value is not. -/
inductive Asked (env : Env) : PSt → Branches → List Inc → List Failed → PSt → Prop where
  | none {s : PSt} {e : Sym} : Asked env s (.done e) [] [] s
  | skip {s s' : PSt} {d : Sym} {cond : List Sym} {body : Items} {more : Branches} {is : List Inc} {fs : List Failed} :
      CondValue env s cond (some false) → Asked env s more is fs s' → Asked env s (.branch d (some cond) body more) is fs s'
  | fail {s s' : PSt} {d : Sym} {cond : List Sym} {body : Items} {more : Branches} {is : List Inc} {fs : List Failed} :
      CondValue env s cond .none → Asked env s more is fs s' →
      Asked env s (.branch d (some cond) body more) is (⟨d, cond, s.macros⟩ :: fs) s'
  | take {s s' : PSt} {d : Sym} {cond : List Sym} {body : Items} {more : Branches} {is : List Inc} {fs : List Failed} :
      CondValue env s cond (some true) → Told env s body is fs s' → Asked env s (.branch d (some cond) body more) is fs s'
  | otherwise {s s' : PSt} {d : Sym} {body : Items} {more : Branches} {is : List Inc} {fs : List Failed} :
      Told env s body is fs s' → Asked env s (.branch d none body more) is fs s'
end

/-- The condition and the definitions are written on one line each. -/
def Failed.OneLine (f : Failed) : Prop :=
  (∀ t ∈ f.cond, t.range.s.line = f.dir.range.s.line ∧ (t.kind = .ident → t.range.e.line = f.dir.range.s.line)) ∧
  ∀ x m, f.macros x = some m → ∀ r ∈ m.body, r.delta.line = 0

/-- The condition uses no macro: it is made of what conditions are made of, and none of its names is a macro. -/
def Failed.Bare (f : Failed) : Prop :=
  f.cond ≠ [] ∧ ∀ t ∈ f.cond, t.kind = .ident ∧ f.macros t.text = none ∨
    match t.kind with
    | .lparen | .rparen | .defined | .op _ | .true_ | .false_ | .intLit | .numLit | .charLit | .strLit | .otherLit | .blockComment
    | .lineComment | .newline | .eof | .dir _ => True
    | _ => False

/-- The condition is a calculation: values, operators and parentheses, with at least one value. -/
def Failed.Calculation (f : Failed) : Prop :=
  (∃ t ∈ f.cond, t.kind ∈ [.true_, .false_, .intLit, .numLit, .charLit]) ∧
  ∀ t ∈ f.cond, t.kind ∈ [.true_, .false_, .intLit, .numLit, .charLit, .lparen, .rparen, .blockComment, .lineComment, .newline, .eof] ∨ ∃ o, t.kind = .op o

/-- A complaint about a condition: the range, and the unknown name with its range if that is the reason. The name is no macro, and the
condition is then complained about at one of its tokens; both ranges start on the line of the directive. If the condition uses no macro,
the complaint is always at one of its tokens, which is the unknown name if there is one. If it is a calculation, the complaint is at one of its operators or at an
opening parenthesis. -/
def Failed.Tells (f : Failed) (e : Rng × Option (Str × Rng)) : Prop :=
  (∀ x r, e.2 = some (x, r) → f.macros x = none ∧ ∃ t ∈ f.cond, e.1 = t.range) ∧
  (f.OneLine → e.1.s.line = f.dir.range.s.line ∧ ∀ x r, e.2 = some (x, r) → r.s.line = f.dir.range.s.line) ∧
  (f.Bare → (∃ t ∈ f.cond, e.1 = t.range) ∧ ∀ x r, e.2 = some (x, r) → e.1 = r ∧ ∃ t ∈ f.cond, t.kind = .ident ∧ t.text = x ∧ t.range = r) ∧
  (f.Calculation → ∃ t ∈ f.cond, (t.kind = .lparen ∨ ∃ o, t.kind = .op o) ∧ e.1 = t.range)

end Verif.Pre.Spec
