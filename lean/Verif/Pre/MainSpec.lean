import Verif.Pre.Main
/-!
# Specification of conditional compilation

A well-nested file is a list of pieces of text and chains `#if … #elseif … #else … #endif`. `Sel` says which text is selected and
which lines are not, given how the selected text changes the macros.
-/

namespace Verif.Pre.Spec

/-- Blanks, tabs and ends of lines. -/
def isWs (c : Char) : Bool := c = ' ' ∨ c = '\t' ∨ c = '\n' ∨ c = '\r'

/-- Characters that are not white space. -/
def visible (t : Str) : Str := t.filter fun c => !isWs c

mutual
/-- A well-nested file. -/
inductive Items where
  | nil
  | text (ts : List Sym) (rest : Items)
  | chain (c : Branches) (rest : Items)
/-- A chain: branches with their directive and condition (none for `#else`), ending with `#endif`. -/
inductive Branches where
  | done (endif : Sym)
  | branch (dir : Sym) (cond : Option (List Sym)) (body : Items) (more : Branches)
end

mutual
/-- The tokens of a file. -/
def Items.tokens : Items → List Sym
  | .nil => []
  | .text ts r => ts ++ r.tokens
  | .chain c r => c.tokens ++ r.tokens
def Branches.tokens : Branches → List Sym
  | .done e => [e]
  | .branch d cond body more => d :: (cond.getD [] ++ (body.tokens ++ more.tokens))
end

/-- Not one of the directives `#if`, `#elseif`, `#else`, `#endif`. -/
def Plain (k : Kind) : Prop := k ≠ .dir .if_ ∧ k ≠ .dir .elseif ∧ k ≠ .dir .else_ ∧ k ≠ .dir .endif

/-- The text does not start in the middle of a directive line. -/
def StartsLine (ts : List Sym) : Prop := ∀ s, ts.head? = some s → s.inPre = false

/-- The tokens of a condition: the rest of the directive's line. -/
def ConditionLine (cond : List Sym) : Prop := ∀ s ∈ cond, s.inPre = true ∧ Plain s.kind

mutual
/-- The tokens fit the structure. -/
def Items.WF : Items → Prop
  | .nil => True
  | .text ts r => StartsLine ts ∧ (∀ s ∈ ts, Plain s.kind) ∧ r.WF
  | .chain c r => c.First ∧ r.WF
/-- `#if` comes first. -/
def Branches.First : Branches → Prop
  | .done _ => False
  | .branch d cond body more => d.inPre = false ∧ d.kind = .dir .if_ ∧ (∃ c, cond = some c ∧ ConditionLine c) ∧ body.WF ∧ more.Next
/-- Then `#elseif`, `#else`, `#endif`. -/
def Branches.Next : Branches → Prop
  | .done e => e.inPre = false ∧ e.kind = .dir .endif
  | .branch d cond body more => d.inPre = false ∧ body.WF ∧
      ((d.kind = .dir .elseif ∧ (∃ c, cond = some c ∧ ConditionLine c) ∧ more.Next) ∨ (d.kind = .dir .else_ ∧ cond = none ∧ more.Last))
def Branches.Last : Branches → Prop
  | .done e => e.inPre = false ∧ e.kind = .dir .endif
  | .branch _ _ _ _ => False
end

/-- The lines that end in a list of tokens. -/
def lineEnds (ts : List Sym) : List Nat := (ts.filter fun s => s.kind = .newline).map fun s => s.range.s.line

mutual
/-- The lines of a skipped piece: those that end in it, and those of a nested `#endif`. -/
def Items.lines : Items → List Nat
  | .nil => []
  | .text ts r => lineEnds ts ++ r.lines
  | .chain c r => c.lines true ++ r.lines
/-- `nested`: the chain itself is in a skipped piece. -/
def Branches.lines (nested : Bool) : Branches → List Nat
  | .done e => if nested then [e.range.s.line] else []
  | .branch _ cond body more => lineEnds (cond.getD []) ++ (body.lines ++ more.lines nested)
end

/-- One turn of the preprocessor's loop, with enough fuel. -/
def Turn (env : Env) (s s' : PSt) : Prop :=
  ∃ t s₁ f₀, pNext s = some (t, s₁) ∧ ∀ f, f₀ ≤ f → pStep env f t s₁ = .next s'

/-- Some turns. -/
inductive Turns (env : Env) : PSt → PSt → Prop where
  | refl {s : PSt} : Turns env s s
  | head {s s₁ s' : PSt} : Turn env s s₁ → Turns env s₁ s' → Turns env s s'

/-- Preprocessing `ts` as active text, whatever comes after it, goes from `s` to `s'` and leaves nothing pending. -/
def Segment (env : Env) (ts : List Sym) (s s' : PSt) : Prop :=
  s'.stack = [] ∧ ∀ (rest : List Sym) (conds : List Cond) (skipped : List Rng), skipping conds = false →
    Turns env { s with lexer := ts ++ rest, conds := conds, skipped := skipped }
      { s' with lexer := rest, conds := conds, skipped := skipped }

/-- In state `s` the condition is true or false (a condition in error counts as false), and evaluating it has no effect on which
macros are expanded. -/
def Condition (env : Env) (s : PSt) (cond : List Sym) (b : Bool) : Prop :=
  ∃ r f₀, (∀ f, f₀ ≤ f → evaluate env.profile s.macros s.disabled cond f = some r ∧
      (eEffects env.profile s.macros f ⟨cond, [], [], [], true, false, s.disabled⟩).1 = s.disabled) ∧
    r ≠ .panic ∧ (r = .ok true ↔ b = true)

mutual
/-- `Sel env s f sel grey s'`: `sel` is the text of `f` that is selected when preprocessing starts in state `s`, it leads to `s'`, and
`grey` are the lines that are not selected. -/
inductive Sel (env : Env) : PSt → Items → List Sym → List Nat → PSt → Prop where
  | nil {s : PSt} : Sel env s .nil [] [] s
  | text {s s₁ s' : PSt} {ts sel : List Sym} {r : Items} {g : List Nat} :
      Segment env ts s s₁ → Sel env s₁ r sel g s' → Sel env s (.text ts r) (ts ++ sel) g s'
  | chain {s s₁ s' : PSt} {c : Branches} {r : Items} {sel₁ sel₂ : List Sym} {g₁ g₂ : List Nat} :
      Choose env s c sel₁ g₁ s₁ → Sel env s₁ r sel₂ g₂ s' → Sel env s (.chain c r) (sel₁ ++ sel₂) (g₁ ++ g₂) s'
/-- The first branch whose condition is true, else the `#else` branch, else nothing. -/
inductive Choose (env : Env) : PSt → Branches → List Sym → List Nat → PSt → Prop where
  | none {s : PSt} {e : Sym} : Choose env s (.done e) [] [] s
  | skip {s s' : PSt} {d : Sym} {cond : List Sym} {body : Items} {more : Branches} {sel : List Sym} {g : List Nat} :
      Condition env s cond false → Choose env s more sel g s' →
      Choose env s (.branch d (some cond) body more) sel (body.lines ++ g) s'
  | take {s s' : PSt} {d : Sym} {cond : List Sym} {body : Items} {more : Branches} {sel : List Sym} {g : List Nat} :
      Condition env s cond true → Sel env s body sel g s' →
      Choose env s (.branch d (some cond) body more) sel (g ++ more.lines false) s'
  | otherwise {s s' : PSt} {d : Sym} {body : Items} {more : Branches} {sel : List Sym} {g : List Nat} :
      Sel env s body sel g s' → Choose env s (.branch d none body more) sel (g ++ more.lines false) s'
end

/-- Preprocessing these tokens, from these macros, gives this result. -/
def Gives (env : Env) (macros : Macros) (tokens : List Sym) (r : Final) : Prop :=
  ∃ f₀, ∀ f, f₀ ≤ f → preprocess env f macros tokens = some r

end Verif.Pre.Spec
