import Verif.Pre.Eval
import Verif.Pre.EvalSpec
/-!
# `#if` conditions (C20, C21, C22)
-/

namespace Verif.Props.Evaluator
open Verif.Pre Verif.Pre.Spec

/-! ### Operators on values -/

/-- Specification operator of a model operator. -/
def unOf : PreOp → Option UnOp
  | .not => some .lnot | .tilde => some .bnot | .negate => some .neg | .confirm => some .pos
  | _ => none

def binOf : PreOp → Option BinOp
  | .star => some .mul | .slash => some .div | .percent => some .mod | .minus => some .sub | .plus => some .add
  | .shl => some .shl | .shr => some .shr | .ushr => some .ushr | .ampersand => some .band | .bitxor => some .bxor | .bitor => some .bor
  | .lt => some .lt | .le => some .le | .gt => some .gt | .ge => some .ge | .equals => some .eq | .notEquals => some .ne
  | .and => some .land | .or => some .lor
  | _ => none

theorem toInt_ofBool (b : Bool) : (ofBool b).toInt = if b then 1 else 0 := by
  cases b <;> rfl

theorem toInt_eq_zero (x : I32) : x.toInt = 0 ↔ x = 0 := by
  constructor
  · intro h
    exact BitVec.eq_of_toInt_eq (by rw [h]; rfl)
  · intro h; subst h; rfl

theorem ofBool_truth (b : Bool) (q : Prop) [Decidable q] (h : b = true ↔ q) : (ofBool b).toInt = truth q := by
  rw [toInt_ofBool]
  unfold truth
  by_cases hp : b = true
  · simp [hp, h.1 hp]
  · have : ¬ q := fun hq => hp (h.2 hq)
    simp [hp, this]

theorem unary_sound (op : PreOp) (u : UnOp) (h : unOf op = some u) (r : I32) :
    ∃ v, unaryOp .release op r = .ok v ∧ v.toInt = unVal u r.toInt := by
  cases op <;> simp only [unOf, Option.some.injEq, reduceCtorEq] at h <;> subst h
  · refine ⟨_, rfl, ?_⟩
    exact ofBool_truth _ _ (by rw [toInt_eq_zero]; exact beq_iff_eq)
  · refine ⟨_, rfl, ?_⟩
    simp only [unVal]
    rw [BitVec.toInt_not]
    have := r.isLt
    rw [BitVec.toInt_eq_toNat_bmod, Int.bmod_def, Int.bmod_def]
    omega
  · refine ⟨-r, by simp [unaryOp], ?_⟩
    simp only [unVal, wrap]
    rw [BitVec.toInt_neg]
  · exact ⟨r, rfl, rfl⟩

theorem intMin_toInt : (BitVec.intMin 32).toInt = -2 ^ 31 := by rfl
theorem negOne_toInt : (-1 : I32).toInt = -1 := by rfl

theorem eq_intMin_iff (l : I32) : l = BitVec.intMin 32 ↔ l.toInt = -2 ^ 31 := by
  rw [← intMin_toInt, BitVec.toInt_inj]

theorem eq_negOne_iff (l : I32) : l = -1 ↔ l.toInt = -1 := by
  rw [← negOne_toInt, BitVec.toInt_inj]

theorem toNat_mod32 (r : I32) : (r.toInt % 32).toNat = r.toNat % 32 := by
  rw [BitVec.toInt_eq_toNat_bmod, Int.bmod_def]
  have := r.isLt
  omega

/-- Outcome of a model operation against the specified value. -/
def Agrees : Res I32 → Option Int → Prop
  | .ok v, some x => v.toInt = x
  | .panic, none => True
  | _, _ => False

theorem binary_sound (op : PreOp) (b : BinOp) (h : binOf op = some b) (l r : I32) :
    Agrees (binaryOp .release op l r) (binVal b l.toInt r.toInt) := by
  have hz : (r = 0) ↔ r.toInt = 0 := (toInt_eq_zero r).symm
  have hlz : (l = 0) ↔ l.toInt = 0 := (toInt_eq_zero l).symm
  cases op <;> simp only [binOf, Option.some.injEq, reduceCtorEq] at h <;> subst h
  case star => simp [binaryOp, binVal, Agrees, wrap, BitVec.toInt_mul]
  case plus => simp [binaryOp, binVal, Agrees, wrap, BitVec.toInt_add]
  case minus => simp [binaryOp, binVal, Agrees, wrap, BitVec.toInt_sub]
  case slash =>
    by_cases hc : r = 0 ∨ (l = BitVec.intMin 32 ∧ r = -1)
    · have hc2 : r.toInt = 0 ∨ (l.toInt = -2 ^ 31 ∧ r.toInt = -1) := by rwa [← hz, ← eq_intMin_iff, ← eq_negOne_iff]
      simp only [binaryOp, hc, if_true, binVal, hc2, Agrees]
    · have hc2 : ¬ (r.toInt = 0 ∨ (l.toInt = -2 ^ 31 ∧ r.toInt = -1)) := by rwa [← hz, ← eq_intMin_iff, ← eq_negOne_iff]
      simp only [binaryOp, hc, if_false, binVal, hc2, Agrees]
      apply BitVec.toInt_sdiv_of_ne_or_ne
      by_cases hl : l = BitVec.intMin 32
      · right; intro hr; exact hc (Or.inr ⟨hl, hr⟩)
      · exact Or.inl hl
  case percent =>
    by_cases hc : r = 0 ∨ (l = BitVec.intMin 32 ∧ r = -1)
    · have hc2 : r.toInt = 0 ∨ (l.toInt = -2 ^ 31 ∧ r.toInt = -1) := by rwa [← hz, ← eq_intMin_iff, ← eq_negOne_iff]
      simp only [binaryOp, hc, if_true, binVal, hc2, Agrees]
    · have hc2 : ¬ (r.toInt = 0 ∨ (l.toInt = -2 ^ 31 ∧ r.toInt = -1)) := by rwa [← hz, ← eq_intMin_iff, ← eq_negOne_iff]
      simp only [binaryOp, hc, if_false, binVal, hc2, Agrees]
      exact BitVec.toInt_srem l r
  case shl =>
    simp only [binaryOp, reduceCtorEq, false_and, if_false, binVal, Agrees, wrap, toNat_mod32]
    rw [BitVec.toInt_shiftLeft, BitVec.toInt_eq_toNat_bmod, Nat.shiftLeft_eq]
    rw [Int.bmod_mul_bmod]
    simp
  case shr =>
    simp only [binaryOp, reduceCtorEq, false_and, if_false, binVal, Agrees, toNat_mod32]
    rw [BitVec.toInt_sshiftRight, Int.shiftRight_eq_div_pow]
    simp
  case ushr =>
    simp only [binaryOp, reduceCtorEq, false_and, if_false, binVal, Agrees, wrap, toNat_mod32]
    have hl : l.toInt % 2 ^ 32 = (l.toNat : Int) := by
      rw [BitVec.toInt_eq_toNat_bmod, Int.bmod_def]
      have := l.isLt
      omega
    rw [hl, BitVec.toInt_eq_toNat_bmod, BitVec.toNat_ushiftRight, Nat.shiftRight_eq_div_pow]
    simp
  case ampersand => simp [binaryOp, binVal, Agrees, bits]
  case bitxor => simp [binaryOp, binVal, Agrees, bits]
  case bitor => simp [binaryOp, binVal, Agrees, bits]
  case lt => exact ofBool_truth _ _ (by simp [BitVec.slt])
  case gt => exact ofBool_truth _ _ (by simp [BitVec.slt])
  case le => exact ofBool_truth _ _ (by simp [BitVec.sle])
  case ge => exact ofBool_truth _ _ (by simp [BitVec.sle])
  case equals => exact ofBool_truth _ _ (by rw [BitVec.toInt_inj]; exact beq_iff_eq)
  case notEquals => exact ofBool_truth _ _ (by rw [ne_eq, BitVec.toInt_inj]; exact bne_iff_ne)
  case and =>
    exact ofBool_truth _ _ (by rw [Bool.and_eq_true, bne_iff_ne, bne_iff_ne, ne_eq, ne_eq, hz, hlz])
  case or =>
    exact ofBool_truth _ _ (by rw [Bool.or_eq_true, bne_iff_ne, bne_iff_ne, ne_eq, ne_eq, hz, hlz])

/-! ### Evaluating an expression with the model's operators -/

/-- Model operator of a specification operator. -/
def modUn : UnOp → PreOp
  | .lnot => .not | .bnot => .tilde | .neg => .negate | .pos => .confirm

def modBin : BinOp → PreOp
  | .mul => .star | .div => .slash | .mod => .percent | .sub => .minus | .add => .plus
  | .shl => .shl | .shr => .shr | .ushr => .ushr | .band => .ampersand | .bxor => .bitxor | .bor => .bitor
  | .lt => .lt | .le => .le | .gt => .gt | .ge => .ge | .eq => .equals | .ne => .notEquals
  | .land => .and | .lor => .or

theorem unOf_modUn (u : UnOp) : unOf (modUn u) = some u := by cases u <;> rfl
theorem binOf_modBin (b : BinOp) : binOf (modBin b) = some b := by cases b <;> rfl

def rbind {α β : Type} : Res α → (α → Res β) → Res β
  | .ok a, f => f a
  | .err, _ => .err
  | .panic, _ => .panic

/-- Strict evaluation, left operand first. -/
def evalM (p : Profile) : Expr → Res I32
  | .lit v => .ok (BitVec.ofInt 32 v)
  | .un u e => rbind (evalM p e) fun x => unaryOp p (modUn u) x
  | .bin b l r => rbind (evalM p l) fun x => rbind (evalM p r) fun y => binaryOp p (modBin b) x y

theorem evalM_agrees (e : Expr) : Agrees (evalM .release e) (value e) := by
  induction e with
  | lit v => simp [evalM, value, Agrees, wrap, BitVec.toInt_ofInt]
  | un u e ih =>
    simp only [evalM, value]
    generalize evalM .release e = r at ih
    generalize value e = x at ih
    cases r <;> cases x <;> simp only [Agrees] at ih
    · simp only [rbind, Option.map_some]
      subst ih
      obtain ⟨v, h1, h2⟩ := unary_sound (modUn u) u (unOf_modUn u) ‹_›
      rw [h1]; exact h2
    · trivial
  | bin b l r ihl ihr =>
    simp only [evalM, value]
    generalize evalM .release l = rl at ihl
    generalize value l = xl at ihl
    generalize evalM .release r = rr at ihr
    generalize value r = xr at ihr
    cases rl <;> cases xl <;> simp only [Agrees] at ihl
    · cases rr <;> cases xr <;> simp only [Agrees] at ihr
      · simp only [rbind, Option.bind_some]
        subst ihl ihr
        exact binary_sound _ _ (binOf_modBin b) _ _
      · trivial
    · trivial

/-! ### Runs over tokens that need no expansion -/

/-- Steps over a list of tokens, none of which is expanded. -/
def pureRun (p : Profile) (macros : Macros) : List Sym → ESt → Option (Res ESt)
  | [], st => some (.ok st)
  | s :: ss, st =>
    match eStep p macros 0 s st with
    | none => none
    | some (.ok st') => pureRun p macros ss st'
    | some .err => some .err
    | some .panic => some .panic

def obind {α β : Type} : Option (Res α) → (α → Option (Res β)) → Option (Res β)
  | none, _ => none
  | some (.ok a), f => f a
  | some .err, _ => some .err
  | some .panic, _ => some .panic

theorem pureRun_cons (p : Profile) (macros : Macros) (s : Sym) (ss : List Sym) (st : ESt) :
    pureRun p macros (s :: ss) st = obind (eStep p macros 0 s st) (pureRun p macros ss) := by
  simp only [pureRun]
  generalize eStep p macros 0 s st = r
  rcases r with _ | (a | _ | _) <;> rfl

theorem pureRun_append (p : Profile) (macros : Macros) (a b : List Sym) : ∀ st,
    pureRun p macros (a ++ b) st = obind (pureRun p macros a st) (pureRun p macros b) := by
  induction a with
  | nil => intro st; rfl
  | cons s a ih =>
    intro st
    rw [List.cons_append, pureRun_cons, pureRun_cons]
    generalize eStep p macros 0 s st = r
    rcases r with _ | (x | _ | _)
    · rfl
    · exact ih x
    · rfl
    · rfl

theorem noise_step {s : Sym} (h : Noise s) (p : Profile) (macros : Macros) (st : ESt) : eStep p macros 0 s st = some (.ok st) := by
  unfold Noise at h
  rcases h with h | h | h | h <;> simp only [eStep, h]

/-- Comments and line ends do not matter. -/
theorem pureRun_filter (p : Profile) (macros : Macros) (ts : List Sym) : ∀ st,
    pureRun p macros ts st = pureRun p macros (ts.filter (fun s => ! decide (Noise s))) st := by
  induction ts with
  | nil => intro st; rfl
  | cons s ss ih =>
    intro st
    by_cases h : Noise s
    · rw [pureRun_cons, noise_step h]
      simp only [obind, List.filter_cons, h, decide_true, Bool.not_true, Bool.false_eq_true, if_false]
      exact ih st
    · simp only [List.filter_cons, h, decide_false, Bool.not_false, if_true]
      rw [pureRun_cons, pureRun_cons]
      congr 1
      funext st'
      exact ih st'

theorem xLoop_zero (macros : Macros) (allow : Bool) (token : Tok) (st : XSt) : xLoop macros allow token 0 st = none := rfl

/-- A step that needs no expansion does not depend on the fuel, nor on the rest of the tokens. -/
theorem eStep_fuel (p : Profile) (macros : Macros) (fuel : Nat) (s : Sym) (st : ESt) (r : Res ESt)
    (h : eStep p macros 0 s st = some r) : eStep p macros fuel s st = some r := by
  have hx : ∀ f, eStep.expandHere macros 0 s st = some f → False := by
    intro f hf
    simp only [eStep.expandHere, expandIdentifier, xLoop_zero] at hf
    exact absurd hf (by simp)
  unfold eStep at h ⊢
  split at h <;> try exact h
  by_cases hl : st.lfd = true
  · simp only [hl, if_true] at h ⊢; exact h
  · simp only [hl, Bool.false_eq_true, if_false] at h ⊢
    split at h
    · split at h
      · rename_i hm; simp only [hm, if_true]; exact h
      · exact absurd h (fun h => hx _ h)
    · exact absurd h (fun h => hx _ h)

def withIter (i : List Sym) (st : ESt) : ESt := { st with iter := i }

theorem eStep_iter (p : Profile) (macros : Macros) (s : Sym) (st : ESt) (i : List Sym) :
    eStep p macros 0 s (withIter i st) = (eStep p macros 0 s st).map (Res.map (withIter i)) := by
  have hx : ∀ st, eStep.expandHere macros 0 s st = none := by
    intro st
    simp only [eStep.expandHere, expandIdentifier, xLoop_zero]
  unfold eStep
  split
  all_goals try rfl
  · simp only [withIter]
    generalize closeParen p st.ops st.out = r
    rcases r with ⟨a, b, c⟩ | _ | _ <;> rfl
  · simp only [withIter]
    generalize preOp st.mbu _ = c
    cases c with
    | none => rfl
    | some c =>
      dsimp only
      generalize popOps p c st.ops st.out = r
      rcases r with ⟨a, b⟩ | _ | _ <;> rfl
  · simp only [withIter, hx]
    by_cases hl : st.lfd = true
    · simp only [hl, if_true]; rfl
    · simp only [hl, Bool.false_eq_true, if_false]
      split
      · split <;> rfl
      · rfl

theorem eStep_stack (p : Profile) (macros : Macros) (s : Sym) (st st' : ESt) (h : eStep p macros 0 s st = some (.ok st')) :
    st'.stack = st.stack ∧ st'.iter = st.iter := by
  have hx : ∀ st, eStep.expandHere macros 0 s st = none := by
    intro st
    simp only [eStep.expandHere, expandIdentifier, xLoop_zero]
  unfold eStep at h
  split at h
  all_goals try (simp only [Option.some.injEq, Res.ok.injEq, reduceCtorEq] at h; done)
  all_goals try (simp only [Option.some.injEq, Res.ok.injEq] at h; subst h; exact ⟨rfl, rfl⟩)
  · generalize closeParen p st.ops st.out = r at h
    rcases r with ⟨a, b, c⟩ | _ | _ <;> simp only [Option.some.injEq, Res.ok.injEq, reduceCtorEq] at h
    subst h; exact ⟨rfl, rfl⟩
  · generalize preOp st.mbu _ = c at h
    cases c with
    | none => simp at h
    | some c =>
      dsimp only at h
      generalize popOps p c st.ops st.out = r at h
      rcases r with ⟨a, b⟩ | _ | _ <;> simp only [Option.some.injEq, Res.ok.injEq, reduceCtorEq] at h
      subst h; exact ⟨rfl, rfl⟩
  · simp only [hx] at h
    split at h
    · simp only [Option.some.injEq, Res.ok.injEq] at h; subst h; exact ⟨rfl, rfl⟩
    · split at h
      · split at h
        · simp only [Option.some.injEq, Res.ok.injEq] at h; subst h; exact ⟨rfl, rfl⟩
        · simp at h
      · simp at h

theorem eLoop_pure (p : Profile) (macros : Macros) (ts : List Sym) : ∀ (st : ESt) (r : Res ESt), st.stack = [] → st.iter = [] →
    pureRun p macros ts st = some r → ∀ fuel, ts.length < fuel → eLoop p macros fuel (withIter ts st) = some r := by
  induction ts with
  | nil =>
    intro st r hs hi h fuel hf
    obtain ⟨f, rfl⟩ : ∃ f, fuel = f + 1 := ⟨fuel - 1, by simp only [List.length_nil] at hf; omega⟩
    have : withIter [] st = st := by cases st; simp only at hi; subst hi; rfl
    rw [this]
    simp only [eLoop, eNext, hs, hi]
    exact h
  | cons s ss ih =>
    intro st r hs hi h fuel hf
    obtain ⟨f, rfl⟩ : ∃ f, fuel = f + 1 := ⟨fuel - 1, by simp only [List.length_cons] at hf; omega⟩
    simp only [List.length_cons] at hf
    have he : eNext (withIter (s :: ss) st) = some (s, withIter ss st) := by
      simp only [eNext, withIter, hs]
    simp only [eLoop, he]
    rw [pureRun_cons] at h
    cases h0 : eStep p macros 0 s st with
    | none => rw [h0] at h; simp [obind] at h
    | some r0 =>
      rw [h0] at h
      have h1 : eStep p macros f s (withIter ss st) = some (Res.map (withIter ss) r0) :=
        eStep_fuel p macros f s _ _ (by rw [eStep_iter, h0]; rfl)
      rw [h1]
      cases r0 with
      | ok st0 =>
        obtain ⟨e1, e2⟩ := eStep_stack p macros s st st0 h0
        simp only [Res.map]
        exact ih st0 r (by rw [e1, hs]) (by rw [e2, hi]) h f (by omega)
      | err => simp only [obind] at h; exact h
      | panic => simp only [obind] at h; exact h

/-! ### The stacks while an expression is read -/

/-- No operator on the stack is taken off by an operator of level `n`. -/
def Blocks (n : Nat) (ops : List PreOp) : Prop := n ≤ 2 ∨ ∀ top, ops.head? = some top → top = .lparen ∨ n < top.priority

theorem finish_append (p : Profile) (a b : List PreOp) : ∀ out, finish p (a ++ b) out = rbind (finish p a out) (finish p b) := by
  induction a with
  | nil => intro out; rfl
  | cons o a ih =>
    intro out
    simp only [List.cons_append, finish]
    generalize processOp p o out = r
    cases r with
    | ok x => exact ih x
    | err => rfl
    | panic => rfl

theorem closeParen_finish (p : Profile) (a rest : List PreOp) (ha : ∀ o ∈ a, o ≠ .lparen) : ∀ out,
    closeParen p (a ++ .lparen :: rest) out = rbind (finish p a out) (fun o => .ok (rest, o, true)) := by
  induction a with
  | nil => intro out; simp [closeParen, finish, rbind]
  | cons o a ih =>
    intro out
    have h1 : o ≠ .lparen := ha o (by simp)
    simp only [List.cons_append, closeParen, h1, if_false, finish]
    generalize processOp p o out = r
    cases r with
    | ok x => exact ih (fun o ho => ha o (by simp [ho])) x
    | err => rfl
    | panic => rfl

theorem popOps_finish (p : Profile) (cur : PreOp) (hu : cur.isUnary = false) (a rest : List PreOp)
    (ha : ∀ o ∈ a, o ≠ .lparen ∧ o.priority ≤ cur.priority)
    (hr : ∀ top, rest.head? = some top → top = .lparen ∨ cur.priority < top.priority) : ∀ out,
    popOps p cur (a ++ rest) out = rbind (finish p a out) (fun o => .ok (rest, o)) := by
  induction a with
  | nil =>
    intro out
    simp only [List.nil_append, finish, rbind]
    cases rest with
    | nil => rfl
    | cons o rest =>
      have : goesFirst o cur = false := by
        rcases hr o rfl with h | h
        · subst h; rfl
        · unfold goesFirst
          have h1 : decide (o.priority ≤ cur.priority) = false := by simp; omega
          rw [h1, hu]; simp
      simp only [popOps, this, Bool.false_eq_true, if_false]
  | cons o a ih =>
    intro out
    obtain ⟨h1, h2⟩ := ha o (by simp)
    have hg : goesFirst o cur = true := by
      unfold goesFirst
      have h3 : (o != .lparen) = true := by simpa using h1
      have h4 : decide (o.priority ≤ cur.priority) = true := by simpa using h2
      rw [h3, h4, hu]; rfl
    simp only [List.cons_append, popOps, hg, if_true, finish]
    generalize processOp p o out = r
    cases r with
    | ok x => exact ih (fun o ho => ha o (by simp [ho])) x
    | err => rfl
    | panic => rfl

theorem popOps_unary (p : Profile) (cur : PreOp) (hu : cur.isUnary = true) (ops : List PreOp) (out : List I32) :
    popOps p cur ops out = .ok (ops, out) := by
  cases ops with
  | nil => rfl
  | cons o ops =>
    have hc : cur.priority = 2 := by cases cur <;> simp_all [PreOp.isUnary, PreOp.priority]
    have : goesFirst o cur = false := by
      unfold goesFirst
      rw [hc, hu]
      by_cases ho : o = .lparen
      · subst ho; rfl
      · have : decide (o.priority < 2) = false := by cases o <;> simp_all [PreOp.priority]
        rw [this]; simp
    simp only [popOps, this, Bool.false_eq_true, if_false]

/-- What reading an expression leaves behind: pending operators `a` on top of the stack which, when processed, put the value of
the expression on top of the output — or a panic, if evaluating the expression panics. -/
def Leaves (p : Profile) (e : Expr) (n : Nat) (st : ESt) (r : Option (Res ESt)) : Prop :=
  (r = some .panic ∧ evalM p e = .panic) ∨
  ∃ a out, r = some (.ok { st with ops := a ++ st.ops, out, mbu := false }) ∧
    (∀ o ∈ a, o ≠ .lparen ∧ o.priority ≤ max n 2) ∧
    finish p a out = Res.map (· :: st.out) (evalM p e)

theorem evalM_ne_err (p : Profile) (e : Expr) : evalM p e ≠ .err := by
  have hu : ∀ u x, unaryOp p (modUn u) x ≠ .err := by
    intro u x; cases u <;> simp only [modUn, unaryOp] <;> (try split) <;> simp
  have hb : ∀ b x y, binaryOp p (modBin b) x y ≠ .err := by
    intro b x y; cases b <;> simp only [modBin, binaryOp] <;> (try split) <;> simp
  induction e with
  | lit v => simp [evalM]
  | un u e ih =>
    simp only [evalM]
    cases h : evalM p e with
    | ok x => simp only [rbind]; exact hu u x
    | err => exact absurd h ih
    | panic => simp [rbind]
  | bin b l r ihl ihr =>
    simp only [evalM]
    cases h : evalM p l with
    | ok x =>
      simp only [rbind]
      cases h2 : evalM p r with
      | ok y => exact hb b x y
      | err => exact absurd h2 ihr
      | panic => simp
    | err => exact absurd h ihl
    | panic => simp [rbind]

theorem infix_table (o : Op) (n : Nat) (b : BinOp) (h : infixOp o = some (n, b)) :
    preOp false o = some (modBin b) ∧ (modBin b).isUnary = false ∧ (modBin b).priority = n ∧ (modBin b) ≠ .lparen ∧ 3 ≤ n := by
  cases o <;> simp only [infixOp, Option.some.injEq, Prod.mk.injEq, reduceCtorEq] at h <;> obtain ⟨rfl, rfl⟩ := h <;>
    exact ⟨rfl, rfl, rfl, by decide, by decide⟩

theorem prefix_table (o : Op) (u : UnOp) (h : prefixOp o = some u) :
    preOp true o = some (modUn u) ∧ (modUn u).isUnary = true ∧ (modUn u) ≠ .lparen ∧ (modUn u).priority = 2 := by
  cases o <;> simp only [prefixOp, Option.some.injEq, reduceCtorEq] at h <;> subst h <;>
    exact ⟨rfl, rfl, by decide, rfl⟩

theorem leaves_value {p : Profile} {e : Expr} {n : Nat} {st : ESt} {s : Sym} {macros : Macros} (_hm : st.mbu = true) (v : I32)
    (h : eStep p macros 0 s st = some (.ok { st with out := v :: st.out, mbu := false })) (hv : evalM p e = .ok v) :
    Leaves p e n st (pureRun p macros [s] st) := by
  right
  refine ⟨[], v :: st.out, ?_, by simp, ?_⟩
  · rw [pureRun_cons, h]; rfl
  · rw [hv]; rfl

/-- Reading an expression. -/
theorem parses_run (p : Profile) (macros : Macros) {n : Nat} {ts : List Sym} {e : Expr}
    (h : Parses (fun x => (macros x).isSome) n ts e) : ∀ (st : ESt), st.mbu = true → st.lfd = false → Blocks n st.ops →
    Leaves p e n st (pureRun p macros ts st) := by
  induction h with
  | @num s v hk hv =>
    intro st h1 h2 h3
    refine leaves_value h1 (BitVec.ofInt 32 v) ?_ rfl
    rcases hk with hk | hk | hk <;> simp only [eStep, hk, litValue, hv, Option.getD_some]
  | @tt s hk =>
    intro st h1 h2 h3
    refine leaves_value h1 1 ?_ rfl
    simp only [eStep, hk]
  | @ff s hk =>
    intro st h1 h2 h3
    refine leaves_value h1 0 ?_ rfl
    simp only [eStep, hk]
  | @defined d x hd hx =>
    intro st h1 h2 h3
    right
    refine ⟨[], BitVec.ofInt 32 (if (macros x.text).isSome then 1 else 0) :: st.out, ?_, by simp, ?_⟩
    · rw [pureRun_cons]
      simp only [eStep, hd, obind]
      rw [pureRun_cons]
      simp only [eStep, hx, obind, if_true, pureRun]
      cases st
      simp only at h1 h2
      subst h1 h2
      by_cases hm : (macros x.text).isSome = true
      · simp only [hm, if_true]; rfl
      · simp only [hm, Bool.false_eq_true, if_false]; rfl
    · rfl
  | @definedParen d l x r hd hl hx hr =>
    intro st h1 h2 h3
    right
    refine ⟨[], BitVec.ofInt 32 (if (macros x.text).isSome then 1 else 0) :: st.out, ?_, by simp, ?_⟩
    · rw [pureRun_cons]
      simp only [eStep, hd, obind]
      rw [pureRun_cons]
      simp only [eStep, hl, obind]
      rw [pureRun_cons]
      simp only [eStep, hx, obind, if_true]
      rw [pureRun_cons]
      simp only [eStep, hr, obind, closeParen, if_true, pureRun]
      cases st
      simp only at h1 h2
      subst h1 h2
      by_cases hm : (macros x.text).isSome = true
      · simp only [hm, if_true]; rfl
      · simp only [hm, Bool.false_eq_true, if_false]; rfl
    · rfl
  | @paren l r ts e hl hr _ ih =>
    intro st h1 h2 h3
    rw [List.cons_append, pureRun_cons]
    have hs : eStep p macros 0 l st = some (.ok { st with ops := .lparen :: st.ops, mbu := true }) := by
      simp only [eStep, hl, h2, Bool.false_eq_true, if_false]
    rw [hs]
    simp only [obind]
    rw [pureRun_append]
    rcases ih { st with ops := .lparen :: st.ops, mbu := true } rfl h2 (Or.inr (fun top ht => by simp only [List.head?_cons, Option.some.injEq] at ht; exact Or.inl ht.symm)) with ⟨e1, e2⟩ | ⟨a, out, e1, e2, e3⟩
    · left
      rw [e1]
      exact ⟨rfl, e2⟩
    · rw [e1]
      simp only [obind]
      rw [pureRun_cons]
      simp only [eStep, hr]
      rw [closeParen_finish p a st.ops (fun o ho => (e2 o ho).1), e3]
      cases he : evalM p e with
      | ok v =>
        right
        refine ⟨[], v :: st.out, ?_, by simp, by rw [he]; rfl⟩
        simp only [Res.map, rbind, obind, pureRun, if_true, List.nil_append]
      | err => exact absurd he (evalM_ne_err p e)
      | panic => left; exact ⟨rfl, he⟩
  | @un s o u ts e hs hu _ ih =>
    intro st h1 h2 h3
    obtain ⟨t1, t2, t3, t4⟩ := prefix_table o u hu
    rw [pureRun_cons]
    have hstep : eStep p macros 0 s st = some (.ok { st with ops := modUn u :: st.ops, mbu := true }) := by
      simp only [eStep, hs, h1, t1, popOps_unary p _ t2]
    rw [hstep]
    simp only [obind]
    rcases ih { st with ops := modUn u :: st.ops, mbu := true } rfl h2 (Or.inl (by omega)) with ⟨e1, e2⟩ | ⟨a, out, e1, e2, e3⟩
    · left
      refine ⟨e1, ?_⟩
      simp only [evalM, e2, rbind]
    · right
      refine ⟨a ++ [modUn u], out, ?_, ?_, ?_⟩
      · rw [e1]; simp
      · intro o ho
        rcases List.mem_append.1 ho with ho | ho
        · exact e2 o ho
        · simp only [List.mem_singleton] at ho
          subst ho
          exact ⟨t3, by omega⟩
      · rw [finish_append, e3]
        simp only [evalM]
        cases he : evalM p e with
        | ok v =>
          simp only [Res.map, rbind, finish, processOp, t2, if_true]
          cases unaryOp p (modUn u) v <;> rfl
        | err => exact absurd he (evalM_ne_err p e)
        | panic => rfl
  | @bin s o b n m l r e₁ e₂ hs hb _ _ hmn ih1 ih2 =>
    intro st h1 h2 h3
    obtain ⟨t1, t2, t3, t4, t5⟩ := infix_table o n b hb
    rw [pureRun_append]
    rcases ih1 st h1 h2 h3 with ⟨e1, e2⟩ | ⟨a, out, e1, e2, e3⟩
    · left
      rw [e1]
      exact ⟨rfl, by simp only [evalM, e2, rbind]⟩
    · rw [e1]
      simp only [obind]
      rw [pureRun_cons]
      have hblk : ∀ top, st.ops.head? = some top → top = .lparen ∨ (modBin b).priority < top.priority := by
        rcases h3 with h3 | h3
        · omega
        · rw [t3]; exact h3
      have hstep : eStep p macros 0 s { st with ops := a ++ st.ops, out := out, mbu := false } =
          some (rbind (finish p a out) (fun out' => .ok { st with ops := modBin b :: st.ops, out := out', mbu := true })) := by
        simp only [eStep, hs, t1]
        rw [popOps_finish p _ t2 a st.ops (fun o ho => ⟨(e2 o ho).1, by rw [t3]; have := (e2 o ho).2; omega⟩) hblk]
        cases finish p a out <;> rfl
      rw [hstep, e3]
      cases he1 : evalM p e₁ with
      | err => exact absurd he1 (evalM_ne_err p e₁)
      | panic =>
        left
        exact ⟨rfl, by simp only [evalM, he1, rbind]⟩
      | ok v =>
        simp only [Res.map, rbind, obind]
        rcases ih2 { st with ops := modBin b :: st.ops, out := v :: st.out, mbu := true } rfl h2
          (Or.inr (fun top ht => by
            simp only [List.head?_cons, Option.some.injEq] at ht
            subst ht
            right; rw [t3]; omega)) with ⟨f1, f2⟩ | ⟨a2, out2, f1, f2, f3⟩
        · left
          refine ⟨f1, ?_⟩
          simp only [evalM, he1, f2, rbind]
        · right
          refine ⟨a2 ++ [modBin b], out2, ?_, ?_, ?_⟩
          · rw [f1]; simp
          · intro o ho
            rcases List.mem_append.1 ho with ho | ho
            · exact ⟨(f2 o ho).1, by have := (f2 o ho).2; omega⟩
            · simp only [List.mem_singleton] at ho
              subst ho
              exact ⟨t4, by omega⟩
          · rw [finish_append, f3]
            simp only [evalM, he1, rbind]
            cases he : evalM p e₂ with
            | ok w =>
              simp only [Res.map, finish, processOp, t2, Bool.false_eq_true, if_false]
              cases binaryOp p (modBin b) v w <;> rfl
            | err => exact absurd he (evalM_ne_err p e₂)
            | panic => rfl
  | @weaken n m ts e _ hnm ih =>
    intro st h1 h2 h3
    have h3' : Blocks n st.ops := by
      rcases h3 with h3 | h3
      · exact Or.inl (by omega)
      · refine Or.inr (fun top ht => ?_)
        rcases h3 top ht with h | h
        · exact Or.inl h
        · exact Or.inr (by omega)
    rcases ih st h1 h2 h3' with h | ⟨a, out, e1, e2, e3⟩
    · exact Or.inl h
    · exact Or.inr ⟨a, out, e1, fun o ho => ⟨(e2 o ho).1, by have := (e2 o ho).2; omega⟩, e3⟩

/-! ### C20 -/

def initial (disabled : List Macro) : ESt := ⟨[], [], [], [], true, false, disabled⟩

/-- The evaluator on a condition that denotes an expression gives the outcome of evaluating the expression. -/
theorem evaluateValue_eq (p : Profile) (macros : Macros) (disabled : List Macro) (ts : List Sym) (e : Expr)
    (h : Denotes (fun x => (macros x).isSome) ts e) (fuel : Nat) (hf : ts.length < fuel) :
    evaluateValue p macros disabled ts fuel = some (evalM p e) := by
  have hrun := parses_run p macros h (initial disabled) rfl rfl (Or.inr (fun top ht => by simp [initial] at ht))
  rw [← pureRun_filter] at hrun
  have hl := fun r hr => eLoop_pure p macros ts (initial disabled) r rfl rfl hr fuel hf
  unfold evaluateValue
  have e0 : (⟨ts, [], [], [], true, false, disabled⟩ : ESt) = withIter ts (initial disabled) := rfl
  rw [e0]
  rcases hrun with ⟨h1, h2⟩ | ⟨a, out, h1, h2, h3⟩
  · rw [hl _ h1, h2]
  · rw [hl _ h1]
    simp only [initial, List.append_nil]
    rw [h3]
    cases he : evalM p e with
    | ok v => rfl
    | err => exact absurd he (evalM_ne_err p e)
    | panic => rfl

/-- **C20.** If the tokens of a condition denote an expression with value `v` (32-bit arithmetic, the compiler's precedence), the
evaluator computes exactly `v`, and the condition holds iff `v ≠ 0`. The profile is the one releases are built with; with overflow
checks see `condition_value_checked`. -/
theorem condition_value (macros : Macros) (disabled : List Macro) (ts : List Sym) (e : Expr) (v : Int)
    (h : Denotes (fun x => (macros x).isSome) ts e) (hv : value e = some v) (fuel : Nat) (hf : ts.length < fuel) :
    (∃ w : I32, w.toInt = v ∧ evaluateValue .release macros disabled ts fuel = some (.ok w)) ∧
    evaluate .release macros disabled ts fuel = some (.ok (decide (v ≠ 0))) := by
  have h1 := evaluateValue_eq .release macros disabled ts e h fuel hf
  have h2 := evalM_agrees e
  rw [hv] at h2
  cases he : evalM .release e with
  | ok w =>
    rw [he] at h1 h2
    simp only [Agrees] at h2
    refine ⟨⟨w, h2, h1⟩, ?_⟩
    unfold evaluate
    rw [h1]
    simp only [Option.map_some, Res.map, Option.some.injEq, Res.ok.injEq]
    by_cases hw : w = 0
    · subst hw; subst h2; rfl
    · have : v ≠ 0 := by rw [← h2]; exact fun hc => hw ((toInt_eq_zero w).1 hc)
      simp only [ne_eq, this, not_false_eq_true, decide_true]
      exact bne_iff_ne.2 hw
  | err => rw [he] at h2; exact absurd h2 (by simp [Agrees])
  | panic => rw [he] at h2; exact absurd h2 (by simp [Agrees])

theorem unary_debug (op : PreOp) (r : I32) : unaryOp .debug op r = .panic ∨ unaryOp .debug op r = unaryOp .release op r := by
  cases op <;> simp only [unaryOp, true_and, reduceCtorEq, false_and, if_false] <;> (try exact Or.inr trivial) <;> try exact Or.inl trivial
  split
  · exact Or.inl rfl
  · exact Or.inr rfl

theorem binary_debug (op : PreOp) (l r : I32) : binaryOp .debug op l r = .panic ∨ binaryOp .debug op l r = binaryOp .release op l r := by
  cases op <;> simp only [binaryOp, true_and, reduceCtorEq, false_and, if_false] <;> (try exact Or.inr trivial) <;> (try exact Or.inl trivial) <;>
    (split <;> first | exact Or.inl rfl | exact Or.inr rfl)

theorem evalM_debug (e : Expr) : evalM .debug e = .panic ∨ evalM .debug e = evalM .release e := by
  induction e with
  | lit v => exact Or.inr rfl
  | un u e ih =>
    simp only [evalM]
    rcases ih with h | h
    · rw [h]; exact Or.inl rfl
    · rw [h]
      cases evalM .release e with
      | ok x => exact unary_debug _ x
      | err => exact Or.inr rfl
      | panic => exact Or.inl rfl
  | bin b l r ihl ihr =>
    simp only [evalM]
    rcases ihl with h | h
    · rw [h]; exact Or.inl rfl
    · rw [h]
      cases evalM .release l with
      | ok x =>
        simp only [rbind]
        rcases ihr with h2 | h2
        · rw [h2]; exact Or.inl rfl
        · rw [h2]
          cases evalM .release r with
          | ok y => exact binary_debug _ x y
          | err => exact Or.inr rfl
          | panic => exact Or.inl rfl
      | err => exact Or.inr rfl
      | panic => exact Or.inl rfl

/-- **C20, with overflow checks**: the evaluator never gives a wrong value — it gives the specified one or panics. -/
theorem condition_value_checked (macros : Macros) (disabled : List Macro) (ts : List Sym) (e : Expr) (v : Int)
    (h : Denotes (fun x => (macros x).isSome) ts e) (hv : value e = some v) (fuel : Nat) (hf : ts.length < fuel) :
    evaluate .debug macros disabled ts fuel = some (.ok (decide (v ≠ 0))) ∨ evaluate .debug macros disabled ts fuel = some .panic := by
  have h1 := evaluateValue_eq .debug macros disabled ts e h fuel hf
  have h2 := evaluateValue_eq .release macros disabled ts e h fuel hf
  have h3 := (condition_value macros disabled ts e v h hv fuel hf).2
  rcases evalM_debug e with hd | hd
  · right
    unfold evaluate
    rw [h1, hd]; rfl
  · left
    unfold evaluate at h3 ⊢
    rw [h1, hd, ← h2]; exact h3

/-- A token for examples. -/
def tk (k : Kind) (text : String := "") (v : Option Int := none) : Sym := ⟨k, text.toList, ⟨⟨0, 0⟩, ⟨0, 0⟩⟩, ⟨0, 0⟩, v, true⟩
def num (n : Int) : Sym := tk .intLit "" (some n)

/-- Non-vacuity: `1 + 2 * 3 == 7 && !defined(X)` with a trailing line break. -/
example : ∃ e, Denotes (fun _ => false)
      [num 1, tk (.op .plus), num 2, tk (.op .star), num 3, tk (.op .equals), num 7, tk (.op .and), tk (.op .not), tk .defined, tk .lparen,
        tk .ident "X", tk .rparen, tk .newline] e ∧ value e = some 1 := by
  have n1 : ∀ n, Parses (fun _ => false) 0 [num n] (.lit n) := fun n => .num (Or.inl rfl) rfl
  have mul : Parses (fun _ => false) 3 [num 2, tk (.op .star), num 3] _ := .bin (o := .star) (l := [num 2]) rfl rfl ((n1 2).weaken (by decide)) (n1 3) (by decide)
  have add : Parses (fun _ => false) 4 [num 1, tk (.op .plus), num 2, tk (.op .star), num 3] _ :=
    .bin (o := .plus) (l := [num 1]) rfl rfl ((n1 1).weaken (by decide)) mul (by decide)
  have eq : Parses (fun _ => false) 10 [num 1, tk (.op .plus), num 2, tk (.op .star), num 3, tk (.op .equals), num 7] _ :=
    .bin (o := .equals) (l := [num 1, tk (.op .plus), num 2, tk (.op .star), num 3]) rfl rfl (add.weaken (by decide)) (n1 7) (by decide)
  have def_ : Parses (fun _ => false) 0 [tk .defined, tk .lparen, tk .ident "X", tk .rparen] _ := .definedParen rfl rfl rfl rfl
  have neg : Parses (fun _ => false) 2 (tk (.op .not) :: [tk .defined, tk .lparen, tk .ident "X", tk .rparen]) _ := .un (o := .not) rfl rfl (def_.weaken (by decide))
  have and_ := Parses.bin (s := tk (.op .and)) (o := .and) rfl rfl (eq.weaken (m := 11) (by decide)) neg (by decide)
  exact ⟨_, and_.weaken (by decide), rfl⟩

/-- `10 - 3 - 2` is `5`: left associative. -/
example : ∃ e, Parses (fun _ => false) 12 [num 10, tk (.op .minus), num 3, tk (.op .minus), num 2] e ∧ value e = some 5 := by
  have n1 : ∀ n, Parses (fun _ => false) 0 [num n] (.lit n) := fun n => .num (Or.inl rfl) rfl
  have a := Parses.bin (s := tk (.op .minus)) (o := .minus) rfl rfl ((n1 10).weaken (m := 4) (by decide)) (n1 3) (by decide)
  have b := Parses.bin (s := tk (.op .minus)) (o := .minus) rfl rfl a (n1 2) (by decide)
  exact ⟨_, b.weaken (by decide), rfl⟩

/-! ### C21, C22: what goes wrong -/

/-- **C21 is violated**: a stray `;` in a condition is put back on the stack for ever. -/
theorem evaluation_terminates_refuted (p : Profile) (macros : Macros) (fuel : Nat) :
    evaluate p macros [] [tk .semicolon ";"] fuel = none := by
  have hx : ∀ f it, expandIdentifier macros false f (tk .semicolon ";").tok it [] [] = none ∨
      ∃ d, expandIdentifier macros false f (tk .semicolon ";").tok it [] [] = some ⟨it, [(tk .semicolon ";").tok], [], .ok d⟩ := by
    intro f it
    rcases f with _ | _ | _ | f
    · exact Or.inl rfl
    · exact Or.inl rfl
    · exact Or.inl rfl
    · exact Or.inr ⟨0, rfl⟩
  have hstep : ∀ f st, st.stack = [] → st.lfd = false → st.disabled = [] → eStep p macros f (tk .semicolon ";") st = none ∨
      eStep p macros f (tk .semicolon ";") st = some (.ok { st with stack := [(tk .semicolon ";").tok] }) := by
    intro f st h1 h2 h3
    have he : eStep.expandHere macros f (tk .semicolon ";") st = none ∨
        eStep.expandHere macros f (tk .semicolon ";") st = some (.ok { st with stack := [(tk .semicolon ";").tok] }) := by
      simp only [eStep.expandHere, h1, h3]
      rcases hx f st.iter with h | ⟨d, h⟩
      · rw [h]; exact Or.inl rfl
      · rw [h]; right; cases st; simp only at h3; subst h3; rfl
    have hk : (tk .semicolon ";").kind = .semicolon := rfl
    unfold eStep
    rw [hk]
    simp only [h2, Bool.false_eq_true, if_false, h3, List.not_mem_nil]
    simp only [h2, h3] at he
    cases macros (tk .semicolon ";").text <;> exact he
  have hcycle : ∀ f st, eNext st = some (tk .semicolon ";", { st with iter := [], stack := [] }) → st.lfd = false → st.disabled = [] →
      eLoop p macros f st = none := by
    intro f
    induction f with
    | zero => intros; rfl
    | succ f ih =>
      intro st h1 h2 h3
      simp only [eLoop, h1]
      rcases hstep f { st with iter := [], stack := [] } rfl h2 h3 with h | h
      · rw [h]
      · rw [h]
        exact ih _ rfl h2 h3
  unfold evaluate evaluateValue
  rw [hcycle fuel _ rfl rfl rfl]
  rfl

/-- **C22 is violated** by division by zero (both profiles) ... -/
theorem evaluation_panics_division_refuted (p : Profile) (macros : Macros) :
    evaluate p macros [] [num 1, tk (.op .slash), num 0] 10 = some .panic := by
  cases p <;> rfl

/-- ... and by an unclosed parenthesis with two values before the end (`1 (2` reaches `unreachable!()`). -/
theorem evaluation_panics_paren_refuted (p : Profile) (macros : Macros) :
    evaluate p macros [] [num 1, tk .lparen, num 2] 10 = some .panic := by
  cases p <;> rfl

/-- C22, violated: malformed conditions that are not reported. `) - 1`, with a parenthesis that closes nothing, is true; a number too large to be
read (here its text is of no matter) is zero (evaluator.rs:160), so that the condition is false. -/
theorem malformed_unreported_refuted (p : Profile) (macros : Macros) :
    evaluate p macros [] [tk .rparen ")", tk (.op .minus) "-", num 1] 10 = some (.ok true) ∧
    evaluate p macros [] [tk .intLit "99999999999999999999"] 10 = some (.ok false) := by
  cases p <;> exact ⟨rfl, rfl⟩

end Verif.Props.Evaluator
