import Verif.Hir.Lower
import Verif.Props.Infer
/-!
# The syntax tree of a body and the expressions made from it
-/

namespace Verif.Props.Lower

open Verif.Hir Verif.Hir.Lower Verif.Hir.Lower.Spec
open Verif.Hir.Infer (Name TypeRef Expr)

/-! ## Nodes -/

@[simp] theorem toLow_field (n : Node) : (toLow n).field = n.field := by cases n; rfl
@[simp] theorem toLow_ptr (n : Node) : (toLow n).ptr = n.ptr := by cases n; rfl
@[simp] theorem toLow_kind (n : Node) : (toLow n).kind = n.kind := by cases n; rfl
@[simp] theorem toLow_text (n : Node) : (toLow n).text = n.text := by cases n; rfl
@[simp] theorem toLow_ty (n : Node) : (toLow n).ty = n.ty := by cases n; rfl
@[simp] theorem toLow_sub (n : Node) : (toLow n).sub = toLows n.children := by cases n; rfl
@[simp] theorem toLow_run (n : Node) : (toLow n).run = lower n := rfl

theorem lower_eq (n : Node) : lower n = step n.ptr n.kind n.text n.ty (toLows n.children) := by cases n; rfl

theorem toLows_eq : ∀ ns : List Node, toLows ns = ns.map toLow
  | [] => rfl
  | n :: ns => by rw [toLows, toLows_eq ns]; rfl

theorem child_toLows (f : Field) (n : Node) : Lower.child f (toLows n.children) = (n.child f).map toLow := by
  rw [toLows_eq, Lower.child, Node.child, List.find?_map]
  congr 2
  funext c
  simp

theorem filter_toLows (P : Low → Bool) (Q : Node → Bool) (h : ∀ n, P (toLow n) = Q n) (ns : List Node) :
    (toLows ns).filter P = toLows (ns.filter Q) := by
  rw [toLows_eq, toLows_eq, List.filter_map]
  congr 2
  funext c
  exact h c

theorem child_mem {n c : Node} {f : Field} (h : n.child f = some c) : c ∈ n.children := List.mem_of_find?_eq_some h

theorem child_field {n c : Node} {f : Field} (h : n.child f = some c) : c.field = some f := by
  have := List.find?_some h
  simpa using this

theorem within_trans {a b c : Node} (h : Within a b) (h' : Within b c) : Within a c := by
  induction h with
  | here => exact h'
  | child hm _ ih => exact .child hm (ih h')

theorem within_child {n c : Node} (h : c ∈ n.children) : Within n c := .child h (.here c)

/-- A node is strictly below another one. -/
def Below (n d : Node) : Prop := ∃ c ∈ n.children, Within c d

theorem below_child {n c : Node} (h : c ∈ n.children) : Below n c := ⟨c, h, .here c⟩

theorem below_grandchild {n c d : Node} (h : c ∈ n.children) (h' : d ∈ c.children) : Below n d := ⟨c, h, within_child h'⟩

mutual
theorem all_within {P : Node → Prop} (h : ∀ n, (∀ d, Below n d → P d) → P n) : ∀ n d, Within n d → P d
  | .mk f p k t ty cs => fun d hd => by
    have hcs := all_withinAll h cs
    cases hd with
    | here => exact h _ (fun d ⟨c, hc, hw⟩ => hcs c hc d hw)
    | child hc hw => exact hcs _ hc d hw
theorem all_withinAll {P : Node → Prop} (h : ∀ n, (∀ d, Below n d → P d) → P n) : ∀ ns : List Node, ∀ c ∈ ns, ∀ d, Within c d → P d
  | [] => fun _ hc => nomatch hc
  | n :: ns => fun c hc d hd => by
    have h1 := all_within h n
    have h2 := all_withinAll h ns
    rcases List.mem_cons.1 hc with rfl | hc
    · exact h1 d hd
    · exact h2 c hc d hd
end

theorem node_ind {P : Node → Prop} (h : ∀ n, (∀ d, Below n d → P d) → P n) (n : Node) : P n := all_within h n n (.here n)

theorem cleanAll_iff : ∀ ns : List Node, cleanAll ns = true ↔ ∀ n ∈ ns, clean n = true
  | [] => by simp [cleanAll]
  | n :: ns => by simp [cleanAll, cleanAll_iff ns]

theorem clean_iff (n : Node) : clean n = true ↔ shape n = true ∧ ∀ c ∈ n.children, clean c = true := by
  cases n; simp [clean, cleanAll_iff, Node.children]

theorem properAll_iff : ∀ ns : List Node, properAll ns = true ↔ ∀ n ∈ ns, proper n = true
  | [] => by simp [properAll]
  | n :: ns => by simp [properAll, properAll_iff ns]

theorem proper_child {n : Node} (h : proper n = true) {c : Node} (hc : c ∈ n.children) : proper c = true := by
  cases n
  simp only [proper, Bool.and_eq_true, properAll_iff] at h
  exact h.2 c hc

theorem clean_within {n d : Node} (h : clean n = true) (hw : Within n d) : clean d = true := by
  induction hw with
  | here => exact h
  | child hc _ ih => exact ih (((clean_iff _).1 h).2 _ hc)

theorem proper_within {n d : Node} (h : proper n = true) (hw : Within n d) : proper d = true := by
  induction hw with
  | here => exact h
  | child hc _ ih => exact ih (proper_child h hc)

theorem inertAll_iff : ∀ ns : List Node, inertAll ns = true ↔ ∀ n ∈ ns, inert n = true
  | [] => by simp [inertAll]
  | n :: ns => by simp [inertAll, inertAll_iff ns]

theorem inert_iff (n : Node) : inert n = true ↔ isCode n.kind = false ∧ ∀ c ∈ n.children, inert c = true := by
  cases n; simp [inert, inertAll_iff, Node.children, Node.kind]

theorem inert_within {n d : Node} (h : inert n = true) (hw : Within n d) : isCode d.kind = false := by
  induction hw with
  | here => exact ((inert_iff _).1 h).1
  | child hc _ ih => exact ih (((inert_iff _).1 h).2 _ hc)

theorem ptrsAll_eq : ∀ ns : List Node, ptrsAll ns = ns.flatMap ptrs
  | [] => rfl
  | n :: ns => by rw [ptrsAll, ptrsAll_eq ns]; rfl

/-! ## Counting insertions into the source map -/

def isOperand : Option Field → Bool
  | some .expression | some .free | some .argument => true
  | _ => false

mutual
/-- How many insertions for the node `p` lowering may make below a node and for the node itself. -/
def weight (p : Nat) : Node → Nat
  | .mk f q _ _ _ cs => (if q = p then (if isOperand f then 2 else 1) else 0) + weights p cs
def weights (p : Nat) : List Node → Nat
  | [] => 0
  | n :: ns => weight p n + weights p ns
end

def one (q p : Nat) : Nat := if q = p then 1 else 0

/-- The insertions of the node's own lowering. -/
def inner (p : Nat) (n : Node) : Nat := one n.ptr p + weights p n.children

theorem weight_eq (p : Nat) (n : Node) : weight p n = one n.ptr p + (if isOperand n.field then one n.ptr p else 0) + weights p n.children := by
  obtain ⟨f, q, k, t, ty, cs⟩ := n
  simp only [weight, one, Node.ptr, Node.field, Node.children]
  by_cases h : q = p <;> by_cases h' : isOperand f = true <;> simp [h, h']

theorem inner_le (p : Nat) (n : Node) : inner p n ≤ weight p n := by
  rw [weight_eq, inner]; omega

theorem weights_append (p : Nat) : ∀ a b : List Node, weights p (a ++ b) = weights p a + weights p b
  | [], b => by simp [weights]
  | n :: a, b => by simp [weights, weights_append p a b]; omega

theorem weights_filter (p : Nat) (P : Node → Bool) : ∀ ns : List Node, weights p (ns.filter P) ≤ weights p ns
  | [] => Nat.le_refl _
  | n :: ns => by
    have := weights_filter p P ns
    rw [List.filter_cons]
    split <;> simp only [weights] <;> omega

/-- The weight of the children under a field. -/
def under (p : Nat) (f : Field) (n : Node) : Nat := weights p (n.children.filter fun c => c.field == some f)

theorem under_sum (p : Nat) (fs : List Field) (hfs : fs.Nodup) (n : Node) :
    (fs.map fun f => under p f n).sum ≤ weights p n.children := by
  have key : ∀ (fs : List Field), fs.Nodup → ∀ ns : List Node,
      (fs.map fun f => weights p (ns.filter fun c => c.field == some f)).sum ≤ weights p ns := by
    intro fs hfs ns
    induction ns with
    | nil =>
      have : ∀ fs : List Field, (fs.map fun _ => 0).sum = 0 := by
        intro fs; induction fs with
        | nil => rfl
        | cons _ _ ih => simp [ih]
      simp only [List.filter_nil, weights, this, Nat.le_refl]
    | cons c ns ih =>
      have h2 : ∀ fs : List Field, fs.Nodup →
          (fs.map fun f => weights p ((c :: ns).filter fun c => c.field == some f)).sum ≤
            weight p c + (fs.map fun f => weights p (ns.filter fun c => c.field == some f)).sum ∧
          ((∀ f ∈ fs, c.field ≠ some f) →
            (fs.map fun f => weights p ((c :: ns).filter fun c => c.field == some f)).sum ≤
              (fs.map fun f => weights p (ns.filter fun c => c.field == some f)).sum) := by
        intro fs
        induction fs with
        | nil => intro _; exact ⟨by simp, fun _ => by simp⟩
        | cons f fs ihf =>
          intro hn
          obtain ⟨hf, hn⟩ := List.nodup_cons.1 hn
          obtain ⟨i1, i2⟩ := ihf hn
          simp only [List.map_cons, List.sum_cons, List.filter_cons]
          by_cases hcf : c.field = some f
          · have hno : ∀ g ∈ fs, c.field ≠ some g := by
              intro g hg he
              rw [hcf] at he
              exact hf (Option.some.inj he ▸ hg)
            have := i2 hno
            simp only [List.filter_cons] at this
            simp only [hcf, beq_self_eq_true, if_true, weights]
            simp only [hcf] at this
            refine ⟨by omega, fun h => absurd rfl (h f List.mem_cons_self)⟩
          · have hb : (c.field == some f) = false := by simp [hcf]
            simp only [List.filter_cons] at i1 i2
            simp only [hb, Bool.false_eq_true, if_false]
            refine ⟨by omega, fun h => ?_⟩
            have := i2 fun g hg => h g (List.mem_cons_of_mem _ hg)
            omega
      have := (h2 fs hfs).1
      simp only [weights]
      omega
  exact key fs hfs n.children

theorem weight_le_weights {p : Nat} {c : Node} : ∀ {ns : List Node}, c ∈ ns → weight p c ≤ weights p ns
  | n :: ns, h => by
    rcases List.mem_cons.1 h with rfl | h
    · simp only [weights]; omega
    · have := weight_le_weights (p := p) h
      simp only [weights]; omega

theorem weight_under {p : Nat} {n c : Node} {f : Field} (h : n.child f = some c) : weight p c ≤ under p f n :=
  weight_le_weights (List.mem_filter.2 ⟨child_mem h, by simp [child_field h]⟩)

theorem mem_weight {p : Nat} {n : Node} : 0 < weight p n → ∃ d, Within n d ∧ d.ptr = p := by
  refine node_ind (P := fun n => 0 < weight p n → ∃ d, Within n d ∧ d.ptr = p) ?_ n
  intro n ih h
  by_cases hp : n.ptr = p
  · exact ⟨n, .here n, hp⟩
  · rw [weight_eq] at h
    have hz : one n.ptr p = 0 := by simp [one, hp]
    have hw : 0 < weights p n.children := by
      rw [hz] at h
      split at h <;> omega
    have : ∀ ns : List Node, 0 < weights p ns → ∃ c ∈ ns, 0 < weight p c := by
      intro ns
      induction ns with
      | nil => intro h; simp [weights] at h
      | cons c ns ih =>
        intro h
        simp only [weights] at h
        by_cases hc : 0 < weight p c
        · exact ⟨c, List.mem_cons_self, hc⟩
        · obtain ⟨d, hd, hw⟩ := ih (by omega)
          exact ⟨d, List.mem_cons_of_mem _ hd, hw⟩
    obtain ⟨c, hc, hw⟩ := this _ hw
    obtain ⟨d, hd, he⟩ := ih c (below_child hc) hw
    exact ⟨d, .child hc hd, he⟩

/-! ## States -/

def cnt (p : Nat) (l : List (Nat × Nat)) : Nat := l.countP (·.2 == p)

/-- `s'` comes after `s` with at most `w p` insertions for each node `p`. -/
structure Ext (s s' : State) (w : Nat → Nat) : Prop where
  le : s.next ≤ s'.next
  log : ∃ new, s'.log = new ++ s.log ∧ (∀ p, cnt p new ≤ w p) ∧ (∀ q ∈ new, s.next ≤ q.1 ∧ q.1 < s'.next) ∧ (new.map (·.1)).Nodup

theorem Ext.refl (s : State) : Ext s s fun _ => 0 := ⟨Nat.le_refl _, [], rfl, fun _ => Nat.le_refl _, by simp, by simp⟩

theorem Ext.mono {s s' : State} {w w' : Nat → Nat} (h : Ext s s' w) (hw : ∀ p, w p ≤ w' p) : Ext s s' w' := by
  obtain ⟨hl, new, h1, h2, h3, h4⟩ := h
  exact ⟨hl, new, h1, fun p => Nat.le_trans (h2 p) (hw p), h3, h4⟩

theorem Ext.trans {s s1 s2 : State} {w w' : Nat → Nat} (h : Ext s s1 w) (h' : Ext s1 s2 w') : Ext s s2 fun p => w p + w' p := by
  obtain ⟨hl, new, h1, h2, h3, h4⟩ := h
  obtain ⟨hl', new', h1', h2', h3', h4'⟩ := h'
  refine ⟨Nat.le_trans hl hl', new' ++ new, by rw [h1', h1, List.append_assoc], fun p => ?_, fun q hq => ?_, ?_⟩
  · have := h2 p
    have := h2' p
    simp only [cnt, List.countP_append] at *
    omega
  · rcases List.mem_append.1 hq with hq | hq
    · have := h3' q hq; omega
    · have := h3 q hq; omega
  · rw [List.map_append, List.nodup_append]
    refine ⟨h4', h4, ?_⟩
    intro a ha b hb
    obtain ⟨q, hq, rfl⟩ := List.mem_map.1 ha
    obtain ⟨r, hr, rfl⟩ := List.mem_map.1 hb
    have := h3' q hq
    have := h3 r hr
    omega

theorem Ext.sub {s s' : State} {w : Nat → Nat} (h : Ext s s' w) : ∀ q ∈ s.log, q ∈ s'.log := by
  obtain ⟨_, new, h1, _⟩ := h
  intro q hq
  rw [h1]
  exact List.mem_append_right _ hq

/-- Different numbers, all given out between `s` and `s'`. -/
def Fresh (s s' : State) (l : List Nat) : Prop := l.Nodup ∧ ∀ i ∈ l, s.next ≤ i ∧ i < s'.next

theorem Fresh.nil (s s' : State) : Fresh s s' [] := ⟨List.nodup_nil, fun _ h => nomatch h⟩

theorem Fresh.append {s s1 s2 : State} {a b : List Nat} (h : Fresh s s1 a) (h' : Fresh s1 s2 b) (h1 : s.next ≤ s1.next)
    (h2 : s1.next ≤ s2.next) : Fresh s s2 (a ++ b) := by
  refine ⟨?_, fun i hi => ?_⟩
  · rw [List.nodup_append]
    refine ⟨h.1, h'.1, fun x hx y hy => ?_⟩
    have := h.2 x hx
    have := h'.2 y hy
    omega
  · rcases List.mem_append.1 hi with hi | hi
    · have := h.2 i hi; omega
    · have := h'.2 i hi; omega

theorem Fresh.earlier {s s1 s2 : State} {a : List Nat} (h : Fresh s1 s2 a) (h1 : s.next ≤ s1.next) : Fresh s s2 a :=
  ⟨h.1, fun i hi => ⟨Nat.le_trans h1 (h.2 i hi).1, (h.2 i hi).2⟩⟩

theorem Fresh.perm {s s' : State} {a b : List Nat} (h : Fresh s s' a) (hp : a.Perm b) : Fresh s s' b :=
  ⟨hp.nodup_iff.1 h.1, fun i hi => h.2 i (hp.mem_iff.2 hi)⟩

theorem Fresh.sublist {s s' : State} {a b : List Nat} (h : Fresh s s' a) (hp : b.Sublist a) : Fresh s s' b :=
  ⟨h.1.sublist hp, fun i hi => h.2 i (hp.subset hi)⟩

theorem Fresh.cons {s s1 : State} {a : List Nat} {l : List (Nat × Nat)} (h : Fresh s s1 a) (h1 : s.next ≤ s1.next) :
    Fresh s ⟨s1.next + 1, l⟩ (s1.next :: a) := by
  refine ⟨List.nodup_cons.2 ⟨fun hm => ?_, h.1⟩, fun i hi => ?_⟩
  · have := h.2 _ hm; omega
  · rcases List.mem_cons.1 hi with rfl | hi
    · exact ⟨h1, Nat.lt_succ_self _⟩
    · have := h.2 i hi
      exact ⟨this.1, Nat.lt_succ_of_lt this.2⟩

mutual
/-- The numbers of an expression and its parts. -/
def ids : Expr → List Nat
  | .ident id _ => [id]
  | .block id es | .seq id es | .last id es => id :: idsAll es
  | .literal id _ => [id]
  | .index id a i => id :: (ids a ++ ids i)
  | .viewAs id e _ => id :: ids e
  | .field id e _ => id :: ids e
  | .new id _ es => id :: idsAll es
  | .methodCall id e _ es | .call id e es => id :: (ids e ++ idsAll es)
  | .namedArg id n _ e => id :: n :: ids e
  | .binding id none _ => [id]
  | .binding id (some e) _ => id :: ids e
def idsAll : List Expr → List Nat
  | [] => []
  | e :: es => ids e ++ idsAll es
end

theorem idsAll_append : ∀ a b : List Expr, idsAll (a ++ b) = idsAll a ++ idsAll b
  | [], _ => rfl
  | e :: a, b => by simp [idsAll, idsAll_append a b]

theorem id_mem_ids (e : Expr) : e.id ∈ ids e := by
  cases e with
  | binding id init t => cases init <;> simp [ids, Expr.id]
  | _ => simp [ids, Infer.Expr.id]

/-! ## Running -/

theorem bind_some {α β : Type} {m : M α} {f : α → M β} {s s2 : State} {b : β} :
    M.bind m f s = some (b, s2) ↔ ∃ a s1, m s = some (a, s1) ∧ f a s1 = some (b, s2) := by
  unfold M.bind
  cases h : m s with
  | none => simp
  | some q =>
    obtain ⟨a, s1⟩ := q
    simp only [Option.some.injEq, Prod.mk.injEq]
    constructor
    · intro h; exact ⟨a, s1, ⟨rfl, rfl⟩, h⟩
    · rintro ⟨_, _, ⟨rfl, rfl⟩, h⟩; exact h

theorem pure_some {α : Type} {a b : α} {s s' : State} : M.pure a s = some (b, s') ↔ b = a ∧ s' = s := by
  simp [M.pure, eq_comm]

theorem alloc_some {mk : Nat → Expr} {ptr : Nat} {s s' : State} {r : Option Expr} :
    alloc mk ptr s = some (r, s') ↔ r = some (mk s.next) ∧ s' = ⟨s.next + 1, (s.next, ptr) :: s.log⟩ := by
  simp [alloc, eq_comm]

theorem alloc_ext (s : State) (ptr : Nat) : Ext s ⟨s.next + 1, (s.next, ptr) :: s.log⟩ (one ptr) := by
  refine ⟨Nat.le_succ _, [(s.next, ptr)], rfl, fun p => ?_, ?_, by simp⟩
  · simp only [cnt, one, List.countP_cons, List.countP_nil]
    by_cases h : ptr = p <;> simp [h]
  · simp

theorem missing_ext (s : State) : Ext s ⟨s.next + 1, s.log⟩ fun _ => 0 :=
  ⟨Nat.le_succ _, [], rfl, fun _ => Nat.le_refl _, by simp, by simp⟩

abbrev At (s : State) : Nat → Nat → Prop := fun i p => (i, p) ∈ s.log

theorem _root_.Verif.Hir.Lower.Spec.Reads.mono {strict : Bool} {P Q : Nat → Nat → Prop} (hpq : ∀ i p, P i p → Q i p) {n : Node} {e : Expr}
    (h : Reads strict P n e) : Reads strict Q n e := by
  induction h with
  | missing h => exact .missing h
  | ident h1 h2 => exact .ident h1 (hpq _ _ h2)
  | literal h1 h2 => exact .literal h1 (hpq _ _ h2)
  | paren h1 h2 _ ih => exact .paren h1 h2 ih
  | exprStmt h1 h2 _ ih => exact .exprStmt h1 h2 ih
  | block l h1 h2 h3 _ ih => exact .block l h1 (hpq _ _ h2) h3 ih
  | stmt l h1 h2 _ h4 h5 ih => exact .stmt l h1 h2 ih h4 h5
  | declared h1 h2 h3 => exact .declared h1 h2 (hpq _ _ h3)
  | initialised h1 h2 _ h4 ih => exact .initialised h1 h2 ih (hpq _ _ h4)
  | operator l h1 h2 _ ih => exact .operator l h1 h2 ih
  | index h1 h2 h3 _ _ h6 ih1 ih2 => exact .index h1 h2 h3 ih1 ih2 (hpq _ _ h6)
  | viewAs h1 h2 h3 _ h5 ih => exact .viewAs h1 h2 h3 ih (hpq _ _ h5)
  | field h1 h2 h3 _ h5 ih => exact .field h1 h2 h3 ih (hpq _ _ h5)
  | scope h1 h2 h3 _ h5 ih => exact .scope h1 h2 h3 ih (hpq _ _ h5)
  | new l h1 h2 h3 h4 _ h6 ih => exact .new l h1 h2 h3 h4 ih (hpq _ _ h6)
  | call l h1 h2 h3 h4 _ h6 _ h8 h9 ih1 ih2 =>
    exact .call l h1 h2 h3 h4 ih1 h6 ih2 (fun q hq => (h8 q hq).imp fun _ hd => ⟨hd.1, hpq _ _ hd.2⟩) (hpq _ _ h9)
  | method l h1 h2 h3 h4 h5 h6 _ h8 _ h10 ih1 ih2 => exact .method l h1 h2 h3 h4 h5 h6 ih1 h8 ih2 (hpq _ _ h10)
  | namedArg h1 h2 h3 _ _ h6 ih1 ih2 => exact .namedArg h1 h2 h3 ih1 ih2 (hpq _ _ h6)

theorem _root_.Verif.Hir.Lower.Spec.Reads.later {strict : Bool} {s s' : State} {w : Nat → Nat} {n : Node} {e : Expr} (h : Reads strict (At s) n e) (hx : Ext s s' w) :
    Reads strict (At s') n e := Reads.mono (fun _ _ h => hx.sub _ h) h

/-! ## Lowering keeps what the tree says -/

/-- What holds after `maybe_collect_expr`. -/
structure Post (strict : Bool) (n : Node) (s : State) (r : Option Expr) (s' : State) : Prop where
  ext : Ext s s' (inner · n)
  fresh : ∀ e, r = some e → Fresh s s' (ids e)
  reads : ∀ e, r = some e → Reads strict (At s') n e
  placed : ∀ e, r = some e → n.kind ≠ .exprStmt → ∃ d, Within n d ∧ At s' e.id d.ptr
  full : strict = true → readable n = true → r ≠ none
  empty : blank n = true → r = none

def Ok (strict : Bool) (n : Node) : Prop := ∀ s r s', lower n s = some (r, s') → Post strict n s r s'

/-- What holds after `collect_expr`. -/
structure Got (strict : Bool) (n : Node) (s : State) (e : Expr) (s' : State) : Prop where
  ext : Ext s s' (inner · n)
  fresh : Fresh s s' (ids e)
  reads : Reads strict (At s') n e

theorem collect_post {strict : Bool} {n : Node} (h : Ok strict n) (hr : strict = true → readableOrBlank n = true) {s s' : State} {e : Expr}
    (hc : collect (toLow n) s = some (e, s')) : Got strict n s e s' := by
  rw [collect, bind_some] at hc
  obtain ⟨r, s1, h1, h2⟩ := hc
  have hp := h s r s1 h1
  cases r with
  | some e' =>
    obtain ⟨rfl, rfl⟩ := pure_some.1 h2
    exact ⟨hp.ext, hp.fresh _ rfl, hp.reads _ rfl⟩
  | none =>
    simp only [missing, Option.some.injEq, Prod.mk.injEq] at h2
    obtain ⟨rfl, rfl⟩ := h2
    refine ⟨((hp.ext.trans (missing_ext s1)).mono fun p => by omega), ?_, ?_⟩
    · exact Fresh.cons (Fresh.nil s s1) hp.ext.le
    · cases strict with
      | false => exact .missing (.inl rfl)
      | true =>
        have := hr rfl
        simp only [readableOrBlank, Bool.or_eq_true] at this
        rcases this with this | this
        · exact absurd rfl (hp.full rfl this)
        · exact .missing (.inr this)

/-- What holds after lowering several nodes: `l` pairs the nodes with their expressions. -/
structure GotAll (strict : Bool) (ns : List Node) (l : List (Node × Expr)) (s s' : State) : Prop where
  ext : Ext s s' fun p => weights p ns
  fresh : Fresh s s' (idsAll (l.map Prod.snd))
  reads : ∀ q ∈ l, Reads strict (At s') q.1 q.2

theorem Fresh.later {s s1 s2 : State} {a : List Nat} (h : Fresh s s1 a) (h2 : s1.next ≤ s2.next) : Fresh s s2 a :=
  ⟨h.1, fun i hi => ⟨(h.2 i hi).1, Nat.lt_of_lt_of_le (h.2 i hi).2 h2⟩⟩

theorem collectAll_post {strict : Bool} : ∀ {ns : List Node}, (∀ n ∈ ns, Ok strict n) → (strict = true → ∀ n ∈ ns, readableOrBlank n = true) →
    ∀ {s s' : State} {es : List Expr}, collectAll (toLows ns) s = some (es, s') →
    ∃ l : List (Node × Expr), l.map Prod.fst = ns ∧ l.map Prod.snd = es ∧ GotAll strict ns l s s'
  | [], _, _, s, s', es, h => by
    simp only [toLows, collectAll, pure_some] at h
    obtain ⟨rfl, rfl⟩ := h
    exact ⟨[], rfl, rfl, ⟨Ext.refl _, Fresh.nil _ _, fun _ h => nomatch h⟩⟩
  | n :: ns, hok, hr, s, s', es, h => by
    simp only [toLows, collectAll, bind_some] at h
    obtain ⟨e, s1, h1, es', s2, h2, h3⟩ := h
    obtain ⟨rfl, rfl⟩ := pure_some.1 h3
    have g := collect_post (hok n List.mem_cons_self) (fun hs => hr hs n List.mem_cons_self) h1
    obtain ⟨l, hl1, hl2, gl⟩ := collectAll_post (fun m hm => hok m (List.mem_cons_of_mem _ hm))
      (fun hs m hm => hr hs m (List.mem_cons_of_mem _ hm)) h2
    refine ⟨(n, e) :: l, by simp [hl1], by simp [hl2], ⟨?_, ?_, ?_⟩⟩
    · refine (g.ext.trans gl.ext).mono fun p => ?_
      have := inner_le p n
      simp only [weights]
      omega
    · simp only [List.map_cons, idsAll]
      exact g.fresh.append gl.fresh g.ext.le gl.ext.le
    · intro q hq
      rcases List.mem_cons.1 hq with rfl | hq
      · exact g.reads.later gl.ext
      · exact gl.reads q hq

theorem collectSome_post {strict : Bool} : ∀ {ns : List Node}, (∀ n ∈ ns, Ok strict n) →
    (strict = true → ∀ n ∈ ns, readableOrBlank n = true) → ∀ {s s' : State} {es : List Expr}, collectSome (toLows ns) s = some (es, s') →
    ∃ l : List (Node × Expr), Covers strict (l.map Prod.fst) (ns.filter fun c => !blank c) ∧ l.map Prod.snd = es ∧
      GotAll strict ns l s s' ∧
      ((∀ n ∈ ns, n.kind ≠ .exprStmt) → ∀ q ∈ l, ∃ d, Within q.1 d ∧ At s' q.2.id d.ptr)
  | [], _, _, s, s', es, h => by
    simp only [toLows, collectSome, pure_some] at h
    obtain ⟨rfl, rfl⟩ := h
    refine ⟨[], ?_, rfl, ⟨Ext.refl _, Fresh.nil _ _, fun _ h => nomatch h⟩, fun _ _ h => nomatch h⟩
    unfold Covers; split <;> simp
  | n :: ns, hok, hr, s, s', es, h => by
    simp only [toLows, collectSome, bind_some] at h
    obtain ⟨r, s1, h1, es', s2, h2, h3⟩ := h
    obtain ⟨rfl, rfl⟩ := pure_some.1 h3
    have g := hok n List.mem_cons_self s r s1 h1
    obtain ⟨l, hl1, hl2, gl, hpl⟩ := collectSome_post (fun m hm => hok m (List.mem_cons_of_mem _ hm))
      (fun hs m hm => hr hs m (List.mem_cons_of_mem _ hm)) h2
    have hxx : Ext s s' fun p => weights p (n :: ns) := (g.ext.trans gl.ext).mono fun p => by
      have := inner_le p n
      simp only [weights]
      omega
    cases r with
    | none =>
      refine ⟨l, ?_, by simp [hl2], ⟨hxx, ?_, gl.reads⟩, fun hk => hpl fun m hm => hk m (List.mem_cons_of_mem _ hm)⟩
      · unfold Covers at hl1 ⊢
        cases strict with
        | false =>
          simp only [Bool.false_eq_true, if_false] at hl1 ⊢
          exact hl1.trans ((List.sublist_cons_self n ns).filter _)
        | true =>
          simp only [if_true] at hl1 ⊢
          have hb : blank n = true := by
            have := hr rfl n List.mem_cons_self
            simp only [readableOrBlank, Bool.or_eq_true] at this
            rcases this with this | this
            · exact absurd rfl (g.full rfl this)
            · exact this
          rw [List.filter_cons, hb, hl1]
          rfl
      · exact gl.fresh.1 |> fun hn => ⟨hn, fun i hi => ⟨Nat.le_trans g.ext.le (gl.fresh.2 i hi).1, (gl.fresh.2 i hi).2⟩⟩
    | some e =>
      have hb : blank n = false := by
        cases hbn : blank n with
        | false => rfl
        | true => exact absurd (g.empty hbn) (by simp)
      refine ⟨(n, e) :: l, ?_, by simp [hl2], ⟨hxx, ?_, ?_⟩, ?_⟩
      · rw [List.filter_cons, hb]
        unfold Covers at hl1 ⊢
        cases strict with
        | false =>
          simp only [Bool.false_eq_true, if_false] at hl1 ⊢
          exact hl1.cons_cons n
        | true =>
          simp only [if_true] at hl1 ⊢
          simp [hl1]
      · simp only [List.map_cons, idsAll]
        exact (g.fresh e rfl).append gl.fresh g.ext.le gl.ext.le
      · intro q hq
        rcases List.mem_cons.1 hq with rfl | hq
        · exact (g.reads e rfl).later gl.ext
        · exact gl.reads q hq
      · intro hk q hq
        rcases List.mem_cons.1 hq with rfl | hq
        · obtain ⟨d, hd, ha⟩ := g.placed e rfl (hk n List.mem_cons_self)
          exact ⟨d, hd, gl.ext.sub _ ha⟩
        · exact hpl (fun m hm => hk m (List.mem_cons_of_mem _ hm)) q hq

theorem exactly_some {n : Node} {f : Field} {P : Node → Bool} (h : exactly n f P = true) :
    ∃ c, n.child f = some c ∧ P c = true ∧ ∀ c' ∈ n.children, c'.field = some f → c' = c := by
  unfold exactly at h
  split at h
  · next c hc =>
    have hfind : n.child f = some c := by
      rw [Node.child, ← List.head?_filter, hc]; rfl
    refine ⟨c, hfind, h, fun c' hm hf => ?_⟩
    have : c' ∈ n.children.filter fun c => c.field == some f := List.mem_filter.2 ⟨hm, by simp [hf]⟩
    rw [hc] at this
    simpa using this
  · simp at h

theorem atMost_some {n : Node} {f : Field} {P : Node → Bool} (h : atMost n f P = true) {c : Node} (hc : n.child f = some c) :
    P c = true ∧ ∀ c' ∈ n.children, c'.field = some f → c' = c := by
  unfold atMost at h
  rw [Node.child, ← List.head?_filter] at hc
  split at h
  · next he => rw [he] at hc; simp at hc
  · next c1 he =>
    rw [he] at hc
    simp only [List.head?_cons, Option.some.injEq] at hc
    subst hc
    refine ⟨h, fun c' hm hf => ?_⟩
    have : c' ∈ n.children.filter fun c => c.field == some f := List.mem_filter.2 ⟨hm, by simp [hf]⟩
    rw [he] at this
    simpa using this
  · simp at h

/-- The situation in a step of the induction. -/
structure Ctx (strict : Bool) (n : Node) : Prop where
  ih : ∀ d, Below n d → Ok strict d
  clean : strict = true → clean n = true
  proper : proper n = true

theorem Ctx.shape {strict : Bool} {n : Node} (c : Ctx strict n) (h : strict = true) : shape n = true := ((clean_iff n).1 (c.clean h)).1

theorem Ctx.ok {strict : Bool} {n d : Node} (c : Ctx strict n) (h : d ∈ n.children) : Ok strict d := c.ih d (below_child h)

theorem Ctx.childShape {strict : Bool} {n d : Node} (c : Ctx strict n) (h : d ∈ n.children) (hs : strict = true) : Spec.shape d = true :=
  ((clean_iff d).1 (((clean_iff n).1 (c.clean hs)).2 d h)).1

/-- An expression is allocated in the end. -/
theorem finish {strict : Bool} {n : Node} {s s1 : State} {mk : Nat → Expr} {ptr : Nat} {w : Nat → Nat} {l : List Nat}
    (hx : Ext s s1 w) (hw : ∀ p, w p + one ptr p ≤ inner p n) (hl : Fresh s s1 l) (hi : ∀ i, (ids (mk i)).Perm (i :: l))
    (hid : ∀ i, (mk i).id = i) (hb : blank n = false)
    (hr : Ext s1 ⟨s1.next + 1, (s1.next, ptr) :: s1.log⟩ (one ptr) → At ⟨s1.next + 1, (s1.next, ptr) :: s1.log⟩ s1.next ptr →
      Reads strict (At ⟨s1.next + 1, (s1.next, ptr) :: s1.log⟩) n (mk s1.next))
    (hp : ∃ d, Within n d ∧ d.ptr = ptr) {r : Option Expr} {s' : State} (ha : alloc mk ptr s1 = some (r, s')) : Post strict n s r s' := by
  obtain ⟨rfl, rfl⟩ := alloc_some.1 ha
  have hx1 := alloc_ext s1 ptr
  refine ⟨(hx.trans hx1).mono hw, ?_, ?_, ?_, fun _ _ => by simp, fun h => ?_⟩
  · rintro e he
    obtain rfl := Option.some.inj he
    exact (Fresh.cons hl hx.le).perm (hi _).symm
  · rintro e he
    obtain rfl := Option.some.inj he
    exact hr hx1 List.mem_cons_self
  · rintro e he -
    obtain rfl := Option.some.inj he
    obtain ⟨d, hd, rfl⟩ := hp
    refine ⟨d, hd, ?_⟩
    rw [hid]
    exact List.mem_cons_self
  · rw [hb] at h; cases h

/-- There is no expression. -/
theorem nothing {strict : Bool} {n : Node} {s s' : State} {w : Nat → Nat} (hx : Ext s s' w) (hw : ∀ p, w p ≤ inner p n)
    (hs : strict = true → readable n = true → False) : Post strict n s none s' :=
  ⟨hx.mono hw, fun _ h => (by cases h), fun _ h => (by cases h), fun _ h => (by cases h), fun h h' => (hs h h').elim, fun _ => rfl⟩

theorem kind_blank {n : Node} (h1 : n.kind ≠ .punct) (h2 : n.kind ≠ .brace) (h3 : n.kind ≠ .return_) : blank n = false := by
  simp [blank, h1, h2, h3]

theorem readable_rob {n : Node} (h : readable n = true) : readableOrBlank n = true := by simp [readableOrBlank, h]

theorem covers_of {strict : Bool} {xs ys : List Node} (h : xs = ys) : Covers strict xs ys := by
  subst h; unfold Covers; split <;> simp

theorem mem2 {α : Type} {P : α → Prop} {a b : α} (ha : P a) (hb : P b) : ∀ q ∈ [a, b], P q := by
  intro q hq
  simp only [List.mem_cons, List.not_mem_nil, or_false] at hq
  rcases hq with rfl | rfl <;> assumption

theorem mem1 {α : Type} {P : α → Prop} {a : α} (ha : P a) : ∀ q ∈ [a], P q := by
  intro q hq
  obtain rfl := List.mem_singleton.1 hq
  exact ha

section Steps

variable {strict : Bool} {n : Node} {s s' : State} {r : Option Expr}

theorem exactly_at {f : Field} {P : Node → Bool} (h : exactly n f P = true) {x : Node} (hx : n.child f = some x) : P x = true := by
  obtain ⟨_, h1, h2, _⟩ := exactly_some h
  rw [hx] at h1; cases h1; exact h2

theorem exactly_none {f : Field} {P : Node → Bool} (h : exactly n f P = true) (hx : n.child f = none) : False := by
  obtain ⟨_, h1, _⟩ := exactly_some h
  rw [hx] at h1; cases h1

theorem Ctx.got (c : Ctx strict n) {f : Field} {x : Node} (hf : n.child f = some x) (hs : strict = true → readableOrBlank x = true)
    {e : Expr} {s1 : State} (ha : collect (toLow x) s = some (e, s1)) : Got strict x s e s1 := collect_post (c.ok (child_mem hf)) hs ha

theorem w1 {f : Field} {x : Node} (h : n.child f = some x) (p : Nat) : inner p x + one n.ptr p ≤ inner p n := by
  have h1 := under_sum p [f] (by simp) n
  have h2 := weight_under (p := p) h
  have := inner_le p x
  simp only [List.map_cons, List.map_nil, List.sum_cons, List.sum_nil] at h1
  rw [inner.eq_1 p n]
  omega

theorem w2 {f g : Field} {x y : Node} (h : n.child f = some x) (h' : n.child g = some y) (hfg : f ≠ g) (p : Nat) :
    inner p x + inner p y + one n.ptr p ≤ inner p n := by
  have h1 := under_sum p [f, g] (by simp [hfg]) n
  have h2 := weight_under (p := p) h
  have h3 := weight_under (p := p) h'
  have := inner_le p x
  have := inner_le p y
  simp only [List.map_cons, List.map_nil, List.sum_cons, List.sum_nil] at h1
  rw [inner.eq_1 p n]
  omega

theorem w3 {f g k : Field} {x y z : Node} (h : n.child f = some x) (h' : n.child g = some y) (h'' : n.child k = some z) (hfg : f ≠ g)
    (hfk : f ≠ k) (hgk : g ≠ k) (p : Nat) : inner p x + inner p y + inner p z + one n.ptr p ≤ inner p n := by
  have h1 := under_sum p [f, g, k] (by simp [hfg, hfk, hgk]) n
  have h2 := weight_under (p := p) h
  have h3 := weight_under (p := p) h'
  have h4 := weight_under (p := p) h''
  have := inner_le p x
  have := inner_le p y
  have := inner_le p z
  simp only [List.map_cons, List.map_nil, List.sum_cons, List.sum_nil] at h1
  rw [inner.eq_1 p n]
  omega

theorem ptr_inner (p : Nat) (x : Node) : one x.ptr p ≤ inner p x := by rw [inner]; omega

theorem step_binary (hk : n.kind = .binary) (c : Ctx strict n) (h : lower n s = some (r, s')) : Post strict n s r s' := by
  have hsh : strict = true → exactly n .left readable = true ∧ exactly n .right readable = true := fun hs => by
    have := c.shape hs; simp only [shape, hk, Bool.and_eq_true] at this; exact this.1
  rw [lower_eq, hk] at h
  simp only [step, child_toLows] at h
  cases hl : n.child .left with
  | none =>
    simp only [hl, Option.map_none, pure_some] at h
    obtain ⟨rfl, rfl⟩ := h
    exact nothing (Ext.refl s') (fun p => Nat.zero_le _) fun hs _ => exactly_none (hsh hs).1 hl
  | some l =>
    simp only [hl, Option.map_some, bind_some] at h
    obtain ⟨a, s1, ha, h⟩ := h
    have ga := c.got hl (fun hs => readable_rob (exactly_at (hsh hs).1 hl)) ha
    cases hr : n.child .right with
    | none =>
      simp only [hr, Option.map_none, pure_some] at h
      obtain ⟨rfl, rfl⟩ := h
      exact nothing ga.ext (fun p => by have := w1 hl p; omega) fun hs _ => exactly_none (hsh hs).2 hr
    | some x =>
      simp only [hr, Option.map_some, bind_some] at h
      obtain ⟨b, s2, hb, h⟩ := h
      have gb := c.got hr (fun hs => readable_rob (exactly_at (hsh hs).2 hr)) hb
      refine finish (ga.ext.trans gb.ext) (fun p => by have := w2 hl hr (by decide) p; omega)
        (ga.fresh.append gb.fresh ga.ext.le gb.ext.le) (fun i => by simp [ids, idsAll]) (fun i => rfl)
        (kind_blank (by simp [hk]) (by simp [hk]) (by simp [hk])) (fun hx _ => ?_) ⟨n, .here n, rfl⟩ h
      refine .operator [(l, a), (x, b)] (by simp [isOperator, hk]) (covers_of (by simp [operands, hk, hl, hr])) ?_
      exact mem2 ((ga.reads.later gb.ext).later hx) (gb.reads.later hx)

/-- Kinds that are never blank. -/
theorem nb (k : Kind) (hk : n.kind = k) (h : k ≠ .punct ∧ k ≠ .brace ∧ k ≠ .return_) : blank n = false :=
  kind_blank (by rw [hk]; exact h.1) (by rw [hk]; exact h.2.1) (by rw [hk]; exact h.2.2)

theorem none_post (hr : readable n = false) (h : M.pure none s = some (r, s')) : Post strict n s r s' := by
  obtain ⟨rfl, rfl⟩ := pure_some.1 h
  exact nothing (Ext.refl s') (fun p => Nat.zero_le _) fun _ h => by rw [hr] at h; cases h

theorem step_none (hk : n.kind = .varDecl ∨ n.kind = .oldVarDecl ∨ n.kind = .switchCase ∨ n.kind = .brace ∨ n.kind = .punct ∨
    n.kind = .paramDecls ∨ n.kind = .paramDecl ∨ n.kind = .callArgs ∨ n.kind = .other) (h : lower n s = some (r, s')) :
    Post strict n s r s' := by
  rw [lower_eq] at h
  rcases hk with hk | hk | hk | hk | hk | hk | hk | hk | hk <;> rw [hk] at h <;> exact none_post (by simp [readable, hk]) h

theorem step_ident (hk : n.kind = .ident) (h : lower n s = some (r, s')) : Post strict n s r s' := by
  rw [lower_eq, hk] at h
  simp only [step] at h
  exact finish (Ext.refl s) (fun p => by have := ptr_inner p n; omega) (Fresh.nil s s) (fun i => by simp [ids]) (fun i => rfl)
    (nb _ hk (by decide)) (fun _ ha => .ident hk ha) ⟨n, .here n, rfl⟩ h

theorem step_jump (hk : n.kind = .jump) (h : lower n s = some (r, s')) : Post strict n s r s' := by
  rw [lower_eq, hk] at h
  simp only [step] at h
  exact finish (Ext.refl s) (fun p => by have := ptr_inner p n; omega) (Fresh.nil s s) (fun i => by simp [ids, idsAll]) (fun i => rfl)
    (nb _ hk (by decide)) (fun _ _ => .stmt [] (by simp [isStmt, hk]) (covers_of (by simp [stmtParts, hk])) (fun _ h => nomatch h)
      (fun _ _ h => nomatch h) (fun _ _ h => nomatch h)) ⟨n, .here n, rfl⟩ h

theorem literal_of {k : Kind} {x : Name} {t : TypeRef} (h : literalType k x = some t) : Spec.literal k = some t := by
  revert h
  cases k <;> simp only [literalType, Spec.literal] <;> (try split) <;> simp

theorem step_literal (hk : (Spec.literal n.kind).isSome = true) (c : Ctx strict n) (h : lower n s = some (r, s')) :
    Post strict n s r s' := by
  have he : lower n = (match literalType n.kind n.text with
    | some t => alloc (fun id => .literal id t) n.ptr
    | none => M.pure none) := by
    rw [lower_eq]
    revert hk
    cases n.kind <;> simp [Spec.literal, step] <;> (generalize literalType _ n.text = o; cases o <;> rfl)
  have hb : blank n = false := by
    refine kind_blank ?_ ?_ ?_ <;> intro h <;> rw [h] at hk <;> simp [Spec.literal] at hk
  rw [he] at h
  cases ht : literalType n.kind n.text with
  | some t =>
    simp only [ht] at h
    exact finish (Ext.refl s) (fun p => by have := ptr_inner p n; omega) (Fresh.nil s s) (fun i => by simp [ids]) (fun i => rfl)
      hb (fun _ ha => .literal (literal_of ht) ha) ⟨n, .here n, rfl⟩ h
  | none =>
    simp only [ht, pure_some] at h
    obtain ⟨rfl, rfl⟩ := h
    refine nothing (Ext.refl s') (fun p => Nat.zero_le _) fun hs _ => ?_
    have hsh := c.shape hs
    cases hkk : n.kind <;> simp only [hkk, Spec.literal, Option.isSome_none, Option.isSome_some, Bool.false_eq_true] at hk <;>
      simp only [shape, hkk, Bool.and_eq_true, decide_eq_true_eq] at hsh <;> simp only [literalType, hkk] at ht <;>
      first
        | (rw [if_pos hsh.1] at ht; cases ht)
        | cases ht

theorem step_block (hk : n.kind = .block) (c : Ctx strict n) (h : lower n s = some (r, s')) : Post strict n s r s' := by
  have hsh : strict = true → ∀ x ∈ n.children, readableOrBlank x = true := fun hs => by
    have := c.shape hs; simp only [shape, hk, List.all_eq_true] at this; exact this
  rw [lower_eq, hk] at h
  simp only [step] at h
  rw [filter_toLows _ (fun c => c.kind != .brace) (fun n => by simp), bind_some] at h
  obtain ⟨es, s1, h1, h⟩ := h
  obtain ⟨l, hl1, rfl, g⟩ := collectAll_post (fun x hx => c.ok (List.mem_filter.1 hx).1)
    (fun hs x hx => hsh hs x (List.mem_filter.1 hx).1) h1
  refine finish g.ext (fun p => ?_) g.fresh (fun i => by simp [ids]) (fun i => rfl) (nb _ hk (by decide))
    (fun hx ha => .block l hk ha hl1 fun q hq => (g.reads q hq).later hx) ⟨n, .here n, rfl⟩ h
  have := weights_filter p (fun c => c.kind != .brace) n.children
  rw [inner]; omega

theorem step_comma (hk : n.kind = .comma) (c : Ctx strict n) (h : lower n s = some (r, s')) : Post strict n s r s' := by
  have hsh : strict = true → ∀ x ∈ n.children, readableOrBlank x = true := fun hs => by
    have := c.shape hs; simp only [shape, hk, List.all_eq_true] at this; exact this
  rw [lower_eq, hk] at h
  simp only [step, bind_some] at h
  obtain ⟨es, s1, h1, h⟩ := h
  obtain ⟨l, hl1, rfl, g⟩ := collectAll_post (fun x hx => c.ok hx) (fun hs x hx => hsh hs x hx) h1
  refine finish g.ext (fun p => ?_) g.fresh (fun i => by simp [ids]) (fun i => rfl) (nb _ hk (by decide))
    (fun hx ha => .operator l (by simp [isOperator, hk]) (covers_of (by simp [operands, hk, hl1])) fun q hq => (g.reads q hq).later hx)
    ⟨n, .here n, rfl⟩ h
  rw [inner]; omega

theorem step_arrayLit (hk : n.kind = .arrayLit) (c : Ctx strict n) (h : lower n s = some (r, s')) : Post strict n s r s' := by
  have hsh : strict = true → ∀ x ∈ n.children, readableOrBlank x = true := fun hs => by
    have := c.shape hs; simp only [shape, hk, List.all_eq_true] at this; exact this
  rw [lower_eq, hk] at h
  simp only [step, bind_some] at h
  obtain ⟨es, s1, h1, h⟩ := h
  obtain ⟨l, hl1, rfl, g, _⟩ := collectSome_post (fun x hx => c.ok hx) (fun hs x hx => hsh hs x hx) h1
  refine finish g.ext (fun p => ?_) g.fresh (fun i => by simp [ids]) (fun i => rfl) (nb _ hk (by decide))
    (fun hx ha => .operator l (by simp [isOperator, hk]) (by simp only [operands, hk]; exact hl1) fun q hq => (g.reads q hq).later hx)
    ⟨n, .here n, rfl⟩ h
  rw [inner]; omega

theorem step_while (hk : n.kind = .while_) (c : Ctx strict n) (h : lower n s = some (r, s')) : Post strict n s r s' := by
  have hsh : strict = true → exactly n .condition readable = true ∧ exactly n .body readableOrBlank = true := fun hs => by
    have := c.shape hs; simp only [shape, hk, Bool.and_eq_true] at this; exact this.1
  rw [lower_eq, hk] at h
  simp only [step, child_toLows] at h
  cases hl : n.child .condition with
  | none =>
    simp only [hl, Option.map_none, pure_some] at h
    obtain ⟨rfl, rfl⟩ := h
    exact nothing (Ext.refl s') (fun p => Nat.zero_le _) fun hs _ => exactly_none (hsh hs).1 hl
  | some l =>
    cases hr : n.child .body with
    | none =>
      simp only [hl, hr, Option.map_none, Option.map_some, pure_some] at h
      obtain ⟨rfl, rfl⟩ := h
      exact nothing (Ext.refl s') (fun p => Nat.zero_le _) fun hs _ => exactly_none (hsh hs).2 hr
    | some x =>
      simp only [hl, hr, Option.map_some, bind_some] at h
      obtain ⟨a, s1, ha, b, s2, hb, h⟩ := h
      have ga := c.got hl (fun hs => readable_rob (exactly_at (hsh hs).1 hl)) ha
      have gb := c.got hr (fun hs => exactly_at (hsh hs).2 hr) hb
      refine finish (ga.ext.trans gb.ext) (fun p => by have := w2 hl hr (by decide) p; omega)
        (ga.fresh.append gb.fresh ga.ext.le gb.ext.le) (fun i => by simp [ids, idsAll]) (fun i => rfl)
        (nb _ hk (by decide)) (fun hx _ => ?_) ⟨n, .here n, rfl⟩ h
      exact .stmt [(l, a), (x, b)] (by simp [isStmt, hk]) (covers_of (by simp [stmtParts, hk, hl, hr]))
        (mem2 ((ga.reads.later gb.ext).later hx) (gb.reads.later hx)) (by simp [hk]) (by simp [hk])

theorem step_index (hk : n.kind = .index) (c : Ctx strict n) (h : lower n s = some (r, s')) : Post strict n s r s' := by
  have hsh : strict = true → exactly n .array readable = true ∧ exactly n .index readable = true := fun hs => by
    have := c.shape hs; simp only [shape, hk, Bool.and_eq_true] at this; exact this.1
  rw [lower_eq, hk] at h
  simp only [step, child_toLows] at h
  cases hl : n.child .array with
  | none =>
    simp only [hl, Option.map_none, pure_some] at h
    obtain ⟨rfl, rfl⟩ := h
    exact nothing (Ext.refl s') (fun p => Nat.zero_le _) fun hs _ => exactly_none (hsh hs).1 hl
  | some l =>
    cases hr : n.child .index with
    | none =>
      simp only [hl, hr, Option.map_none, Option.map_some, pure_some] at h
      obtain ⟨rfl, rfl⟩ := h
      exact nothing (Ext.refl s') (fun p => Nat.zero_le _) fun hs _ => exactly_none (hsh hs).2 hr
    | some x =>
      simp only [hl, hr, Option.map_some, bind_some] at h
      obtain ⟨a, s1, ha, b, s2, hb, h⟩ := h
      have ga := c.got hl (fun hs => readable_rob (exactly_at (hsh hs).1 hl)) ha
      have gb := c.got hr (fun hs => readable_rob (exactly_at (hsh hs).2 hr)) hb
      exact finish (ga.ext.trans gb.ext) (fun p => by have := w2 hl hr (by decide) p; omega)
        (ga.fresh.append gb.fresh ga.ext.le gb.ext.le) (fun i => by simp [ids]) (fun i => rfl)
        (nb _ hk (by decide)) (fun hx hat => .index hk hl hr ((ga.reads.later gb.ext).later hx) (gb.reads.later hx) hat)
        ⟨n, .here n, rfl⟩ h

theorem step_namedArg (hk : n.kind = .namedArg) (c : Ctx strict n) (h : lower n s = some (r, s')) : Post strict n s r s' := by
  have hsh : strict = true → exactly n .argName (fun c => c.kind == .ident) = true ∧ exactly n .value readable = true := fun hs => by
    have := c.shape hs; simp only [shape, hk, Bool.and_eq_true] at this; exact this.1
  rw [lower_eq, hk] at h
  simp only [step, child_toLows] at h
  cases hl : n.child .argName with
  | none =>
    simp only [hl, Option.map_none, pure_some] at h
    obtain ⟨rfl, rfl⟩ := h
    exact nothing (Ext.refl s') (fun p => Nat.zero_le _) fun hs _ => exactly_none (hsh hs).1 hl
  | some l =>
    cases hr : n.child .value with
    | none =>
      simp only [hl, hr, Option.map_none, Option.map_some, pure_some] at h
      obtain ⟨rfl, rfl⟩ := h
      exact nothing (Ext.refl s') (fun p => Nat.zero_le _) fun hs _ => exactly_none (hsh hs).2 hr
    | some x =>
      simp only [hl, hr, Option.map_some, bind_some] at h
      obtain ⟨a, s1, ha, b, s2, hb, h⟩ := h
      have ga := c.got hl (fun hs => by
        have := exactly_at (hsh hs).1 hl
        simp only [beq_iff_eq] at this
        exact readable_rob (by simp [readable, this])) ha
      have gb := c.got hr (fun hs => readable_rob (exactly_at (hsh hs).2 hr)) hb
      have hf : Fresh s s2 (a.id :: ids b) :=
        Fresh.append (a := [a.id]) (ga.fresh.sublist (List.singleton_sublist.2 (id_mem_ids a))) gb.fresh ga.ext.le gb.ext.le
      exact finish (ga.ext.trans gb.ext) (fun p => by have := w2 hl hr (by decide) p; omega)
        hf (fun i => by simp [ids]) (fun i => rfl)
        (nb _ hk (by decide)) (fun hx hat => .namedArg hk hl hr ((ga.reads.later gb.ext).later hx) (gb.reads.later hx) hat)
        ⟨n, .here n, rfl⟩ h

theorem step_field (hk : n.kind = .fieldAccess) (c : Ctx strict n) (h : lower n s = some (r, s')) : Post strict n s r s' := by
  have hsh : strict = true → exactly n .target readable = true ∧ exactly n .field inert = true := fun hs => by
    have := c.shape hs; simp only [shape, hk, Bool.and_eq_true] at this; exact this.1
  rw [lower_eq, hk] at h
  simp only [step, child_toLows] at h
  cases hl : n.child .field with
  | none =>
    simp only [hl, Option.map_none, pure_some] at h
    obtain ⟨rfl, rfl⟩ := h
    exact nothing (Ext.refl s') (fun p => Nat.zero_le _) fun hs _ => exactly_none (hsh hs).2 hl
  | some l =>
    cases hr : n.child .target with
    | none =>
      simp only [hl, hr, Option.map_none, Option.map_some, pure_some] at h
      obtain ⟨rfl, rfl⟩ := h
      exact nothing (Ext.refl s') (fun p => Nat.zero_le _) fun hs _ => exactly_none (hsh hs).1 hr
    | some x =>
      simp only [hl, hr, Option.map_some, bind_some, toLow_ptr, toLow_text] at h
      obtain ⟨b, s2, hb, h⟩ := h
      have gb := c.got hr (fun hs => readable_rob (exactly_at (hsh hs).1 hr)) hb
      exact finish gb.ext (fun p => by have := w2 hl hr (by decide) p; have := ptr_inner p l; omega)
        gb.fresh (fun i => by simp [ids]) (fun i => rfl)
        (nb _ hk (by decide)) (fun hx hat => .field hk hr hl (gb.reads.later hx) hat)
        ⟨l, within_child (child_mem hl), rfl⟩ h

theorem step_scope (hk : n.kind = .scopeAccess) (c : Ctx strict n) (h : lower n s = some (r, s')) : Post strict n s r s' := by
  have hsh : strict = true → exactly n .scope readable = true ∧ exactly n .field inert = true := fun hs => by
    have := c.shape hs; simp only [shape, hk, Bool.and_eq_true] at this; exact this.1
  rw [lower_eq, hk] at h
  simp only [step, child_toLows] at h
  cases hl : n.child .field with
  | none =>
    simp only [hl, Option.map_none, pure_some] at h
    obtain ⟨rfl, rfl⟩ := h
    exact nothing (Ext.refl s') (fun p => Nat.zero_le _) fun hs _ => exactly_none (hsh hs).2 hl
  | some l =>
    cases hr : n.child .scope with
    | none =>
      simp only [hl, hr, Option.map_none, Option.map_some, pure_some] at h
      obtain ⟨rfl, rfl⟩ := h
      exact nothing (Ext.refl s') (fun p => Nat.zero_le _) fun hs _ => exactly_none (hsh hs).1 hr
    | some x =>
      simp only [hl, hr, Option.map_some, bind_some, toLow_text] at h
      obtain ⟨b, s2, hb, h⟩ := h
      have gb := c.got hr (fun hs => readable_rob (exactly_at (hsh hs).1 hr)) hb
      exact finish gb.ext (fun p => by have := w1 hr p; omega)
        gb.fresh (fun i => by simp [ids]) (fun i => rfl)
        (nb _ hk (by decide)) (fun hx hat => .scope hk hr hl (gb.reads.later hx) hat) ⟨n, .here n, rfl⟩ h

theorem step_sizeof (hk : n.kind = .sizeof) (c : Ctx strict n) (h : lower n s = some (r, s')) : Post strict n s r s' := by
  have hsh : strict = true → exactly n .type readable = true := fun hs => by
    have := c.shape hs; simp only [shape, hk, Bool.and_eq_true] at this; exact this.1
  rw [lower_eq, hk] at h
  simp only [step, child_toLows] at h
  cases hr : n.child .type with
  | none =>
    simp only [hr, Option.map_none, pure_some] at h
    obtain ⟨rfl, rfl⟩ := h
    exact nothing (Ext.refl s') (fun p => Nat.zero_le _) fun hs _ => exactly_none (hsh hs) hr
  | some x =>
    simp only [hr, Option.map_some, bind_some] at h
    obtain ⟨b, s2, hb, h⟩ := h
    have gb := c.got hr (fun hs => readable_rob (exactly_at (hsh hs) hr)) hb
    exact finish gb.ext (fun p => by have := w1 hr p; omega)
      gb.fresh (fun i => by simp [ids, idsAll]) (fun i => rfl) (nb _ hk (by decide))
      (fun hx hat => .operator [(x, b)] (by simp [isOperator, hk]) (covers_of (by simp [operands, hk, hr])) (mem1 (gb.reads.later hx)))
      ⟨n, .here n, rfl⟩ h

/-- An operand that is recorded for both itself and the operator. -/
theorem wop {f : Field} {x : Node} (h : n.child f = some x) (hf : isOperand (some f) = true) (p : Nat) :
    inner p x + one x.ptr p ≤ inner p n := by
  have h2 := weight_le_weights (p := p) (child_mem h)
  rw [weight_eq, child_field h, hf] at h2
  rw [inner, inner.eq_1 p n]
  simp only [if_true] at h2
  omega

theorem step_unary (hk : n.kind = .unary) (c : Ctx strict n) (h : lower n s = some (r, s')) : Post strict n s r s' := by
  have hsh : strict = true → exactly n .argument readable = true := fun hs => by
    have := c.shape hs; simp only [shape, hk, Bool.and_eq_true] at this; exact this.1
  rw [lower_eq, hk] at h
  simp only [step, child_toLows] at h
  cases hr : n.child .argument with
  | none =>
    simp only [hr, Option.map_none, pure_some] at h
    obtain ⟨rfl, rfl⟩ := h
    exact nothing (Ext.refl s') (fun p => Nat.zero_le _) fun hs _ => exactly_none (hsh hs) hr
  | some x =>
    simp only [hr, Option.map_some, bind_some, toLow_ptr] at h
    obtain ⟨b, s2, hb, h⟩ := h
    have gb := c.got hr (fun hs => readable_rob (exactly_at (hsh hs) hr)) hb
    exact finish gb.ext (wop hr rfl)
      gb.fresh (fun i => by simp [ids, idsAll]) (fun i => rfl) (nb _ hk (by decide))
      (fun hx hat => .operator [(x, b)] (by simp [isOperator, hk]) (covers_of (by simp [operands, hk, hr])) (mem1 (gb.reads.later hx)))
      ⟨x, within_child (child_mem hr), rfl⟩ h

theorem opt_reads {x : Node} {o : Option Expr} {place : Nat → Nat → Prop} (h : ∀ e, o = some e → Reads strict place x e) :
    ∀ q ∈ (o.toList.map fun e => (x, e)), Reads strict place q.1 q.2 := by
  intro q hq
  cases o with
  | none => simp at hq
  | some e =>
    simp only [Option.toList_some, List.map_cons, List.map_nil, List.mem_singleton] at hq
    subst hq
    exact h e rfl

theorem opt_covers {x : Node} {o : Option Expr} (h : strict = true → o ≠ none) :
    Covers strict ((o.toList.map fun e => (x, e)).map Prod.fst) [x] := by
  unfold Covers
  cases o with
  | none =>
    cases strict with
    | false => simp
    | true => exact absurd rfl (h rfl)
  | some e => split <;> simp

theorem opt_snd {x : Node} (o : Option Expr) : (o.toList.map fun e => (x, e)).map Prod.snd = o.toList := by
  cases o <;> rfl

theorem opt_fresh {o : Option Expr} {s1 : State} (h : ∀ e, o = some e → Fresh s s1 (ids e)) : Fresh s s1 (idsAll o.toList) := by
  cases o with
  | none => exact Fresh.nil _ _
  | some e => simpa [idsAll] using h e rfl

theorem step_return (hk : n.kind = .return_) (c : Ctx strict n) (h : lower n s = some (r, s')) : Post strict n s r s' := by
  have hsh : strict = true → atMost n .expression readable = true := fun hs => by
    have := c.shape hs; simp only [shape, hk, Bool.and_eq_true] at this; exact this.1
  rw [lower_eq, hk] at h
  simp only [step, child_toLows] at h
  cases hr : n.child .expression with
  | none =>
    simp only [hr, Option.map_none, pure_some] at h
    obtain ⟨rfl, rfl⟩ := h
    exact nothing (Ext.refl s') (fun p => Nat.zero_le _) fun _ h => by simp [readable, hk, hr] at h
  | some x =>
    simp only [hr, Option.map_some, bind_some, toLow_ptr, toLow_run] at h
    obtain ⟨o, s2, hb, h⟩ := h
    have gb := c.ok (child_mem hr) s o s2 hb
    refine finish gb.ext (wop hr rfl) (opt_fresh gb.fresh) (fun i => by simp [ids]) (fun i => rfl) (by simp [blank, hk, hr])
      (fun hx hat => ?_) ⟨x, within_child (child_mem hr), rfl⟩ h
    have := Reads.stmt (strict := strict) (place := At ⟨s2.next + 1, (s2.next, x.ptr) :: s2.log⟩) (n := n) (id := s2.next)
      (o.toList.map fun e => (x, e)) (by simp [isStmt, hk])
      (by rw [show stmtParts n = [x] by simp [stmtParts, hk, hr]]; exact opt_covers fun hs => gb.full hs (atMost_some (hsh hs) hr).1)
      (opt_reads fun e he => (gb.reads e he).later hx) (by simp [hk]) (by simp [hk])
    rw [opt_snd] at this
    exact this

theorem step_delete (hk : n.kind = .delete) (c : Ctx strict n) (h : lower n s = some (r, s')) : Post strict n s r s' := by
  have hsh : strict = true → exactly n .free readable = true := fun hs => by
    have := c.shape hs; simp only [shape, hk, Bool.and_eq_true] at this; exact this.1
  rw [lower_eq, hk] at h
  simp only [step, child_toLows] at h
  cases hr : n.child .free with
  | none =>
    simp only [hr, Option.map_none, pure_some] at h
    obtain ⟨rfl, rfl⟩ := h
    exact nothing (Ext.refl s') (fun p => Nat.zero_le _) fun hs _ => exactly_none (hsh hs) hr
  | some x =>
    simp only [hr, Option.map_some, bind_some, toLow_ptr, toLow_run] at h
    obtain ⟨o, s2, hb, h⟩ := h
    have gb := c.ok (child_mem hr) s o s2 hb
    refine finish gb.ext (wop hr rfl) (opt_fresh gb.fresh) (fun i => by simp [ids]) (fun i => rfl) (nb _ hk (by decide))
      (fun hx hat => ?_) ⟨x, within_child (child_mem hr), rfl⟩ h
    have := Reads.stmt (strict := strict) (place := At ⟨s2.next + 1, (s2.next, x.ptr) :: s2.log⟩) (n := n) (id := s2.next)
      (o.toList.map fun e => (x, e)) (by simp [isStmt, hk])
      (by rw [show stmtParts n = [x] by simp [stmtParts, hk, hr]]; exact opt_covers fun hs => gb.full hs (exactly_at (hsh hs) hr))
      (opt_reads fun e he => (gb.reads e he).later hx) (by simp [hk]) (by simp [hk])
    rw [opt_snd] at this
    exact this

theorem step_viewAs (hk : n.kind = .viewAs) (c : Ctx strict n) (h : lower n s = some (r, s')) : Post strict n s r s' := by
  have hsh : strict = true → exactly n .value readable = true ∧ n.ty.isSome = true := fun hs => by
    have := c.shape hs; simp only [shape, hk, Bool.and_eq_true] at this; exact this.1
  rw [lower_eq, hk] at h
  simp only [step, child_toLows] at h
  cases hr : n.child .value with
  | none =>
    simp only [hr, Option.map_none, pure_some] at h
    obtain ⟨rfl, rfl⟩ := h
    exact nothing (Ext.refl s') (fun p => Nat.zero_le _) fun hs _ => exactly_none (hsh hs).1 hr
  | some x =>
    cases ht : n.ty with
    | none =>
      simp only [hr, ht, Option.map_some, pure_some] at h
      obtain ⟨rfl, rfl⟩ := h
      exact nothing (Ext.refl s') (fun p => Nat.zero_le _) fun hs _ => by have := (hsh hs).2; simp [ht] at this
    | some t =>
      simp only [hr, ht, Option.map_some, bind_some] at h
      obtain ⟨b, s2, hb, h⟩ := h
      have gb := c.got hr (fun hs => readable_rob (exactly_at (hsh hs).1 hr)) hb
      exact finish gb.ext (fun p => by have := w1 hr p; omega)
        gb.fresh (fun i => by simp [ids]) (fun i => rfl) (nb _ hk (by decide))
        (fun hx hat => .viewAs hk hr ht (gb.reads.later hx) hat) ⟨n, .here n, rfl⟩ h

theorem step_paren (hk : n.kind = .paren) (c : Ctx strict n) (h : lower n s = some (r, s')) : Post strict n s r s' := by
  have hsh : strict = true → exactly n .expression readable = true := fun hs => by
    have := c.shape hs; simp only [shape, hk, Bool.and_eq_true] at this; exact this.1
  have hb := nb _ hk (by decide)
  rw [lower_eq, hk] at h
  simp only [step, child_toLows] at h
  cases hr : n.child .expression with
  | none =>
    simp only [hr, Option.map_none, runOpt, pure_some] at h
    obtain ⟨rfl, rfl⟩ := h
    exact nothing (Ext.refl s') (fun p => Nat.zero_le _) fun hs _ => exactly_none (hsh hs) hr
  | some x =>
    simp only [hr, Option.map_some, runOpt, toLow_run] at h
    have gb := c.ok (child_mem hr) s r s' h
    have hx : x.kind ≠ .exprStmt := by
      have := c.proper
      obtain ⟨f, p, k, t, ty, cs⟩ := n
      simp only [Node.kind] at hk
      subst hk
      simp only [Spec.proper, Bool.and_eq_true, List.all_eq_true] at this
      have := this.1 x (child_mem hr)
      simpa using this
    refine ⟨gb.ext.mono fun p => by have := w1 hr p; omega, gb.fresh, fun e he => .paren hk hr (gb.reads e he), fun e he _ => ?_,
      fun hs _ => gb.full hs (exactly_at (hsh hs) hr), fun h => by rw [hb] at h; cases h⟩
    obtain ⟨d, hd, ha⟩ := gb.placed e he hx
    exact ⟨d, .child (child_mem hr) hd, ha⟩

theorem step_exprStmt (hk : n.kind = .exprStmt) (c : Ctx strict n) (h : lower n s = some (r, s')) : Post strict n s r s' := by
  have hb := nb _ hk (by decide)
  have hsh := c.shape
  simp only [shape, hk] at hsh
  rw [lower_eq, hk] at h
  simp only [step] at h
  cases hcs : n.children with
  | nil =>
    simp only [hcs, toLows, pure_some] at h
    obtain ⟨rfl, rfl⟩ := h
    exact nothing (Ext.refl s') (fun p => Nat.zero_le _) fun hs _ => by have := hsh hs; simp [hcs] at this
  | cons x cs =>
    simp only [hcs, toLows, collectOpt, bind_some] at h
    obtain ⟨e, s1, h1, h⟩ := h
    obtain ⟨rfl, rfl⟩ := pure_some.1 h
    have hx : x ∈ n.children := by rw [hcs]; exact List.mem_cons_self
    have g := collect_post (c.ok hx) (fun hs => by
      have := hsh hs
      simp only [hcs, Bool.and_eq_true] at this
      exact readable_rob this.1) h1
    refine ⟨g.ext.mono fun p => ?_, ?_, ?_, fun e _ hne => absurd hk hne, fun _ _ => by simp, fun h => by rw [hb] at h; cases h⟩
    · have := weight_le_weights (p := p) hx
      have := inner_le p x
      rw [inner.eq_1 p n]; omega
    · rintro e' he; obtain rfl := Option.some.inj he; exact g.fresh
    · rintro e' he; obtain rfl := Option.some.inj he; exact .exprStmt hk hcs g.reads

theorem step_ternary (hk : n.kind = .ternary) (c : Ctx strict n) (h : lower n s = some (r, s')) : Post strict n s r s' := by
  have hsh : strict = true → (exactly n .condition readable = true ∧ exactly n .consequence readable = true) ∧
      exactly n .alternative readable = true := fun hs => by
    have := c.shape hs; simp only [shape, hk, Bool.and_eq_true] at this; exact this.1
  rw [lower_eq, hk] at h
  simp only [step, child_toLows] at h
  cases hl : n.child .condition with
  | none =>
    simp only [hl, Option.map_none, pure_some] at h
    obtain ⟨rfl, rfl⟩ := h
    exact nothing (Ext.refl s') (fun p => Nat.zero_le _) fun hs _ => exactly_none (hsh hs).1.1 hl
  | some l =>
    simp only [hl, Option.map_some, bind_some] at h
    obtain ⟨a, s1, ha, h⟩ := h
    have ga := c.got hl (fun hs => readable_rob (exactly_at (hsh hs).1.1 hl)) ha
    cases hr : n.child .consequence with
    | none =>
      simp only [hr, Option.map_none, pure_some] at h
      obtain ⟨rfl, rfl⟩ := h
      exact nothing ga.ext (fun p => by have := w1 hl p; omega) fun hs _ => exactly_none (hsh hs).1.2 hr
    | some x =>
      simp only [hr, Option.map_some, bind_some] at h
      obtain ⟨b, s2, hb, h⟩ := h
      have gb := c.got hr (fun hs => readable_rob (exactly_at (hsh hs).1.2 hr)) hb
      cases hz : n.child .alternative with
      | none =>
        simp only [hz, Option.map_none, pure_some] at h
        obtain ⟨rfl, rfl⟩ := h
        exact nothing (ga.ext.trans gb.ext) (fun p => by have := w2 hl hr (by decide) p; omega) fun hs _ => exactly_none (hsh hs).2 hz
      | some z =>
        simp only [hz, Option.map_some, bind_some] at h
        obtain ⟨e, s3, he, h⟩ := h
        have ge := c.got hz (fun hs => readable_rob (exactly_at (hsh hs).2 hz)) he
        refine finish ((ga.ext.trans gb.ext).trans ge.ext)
          (fun p => by have := w3 hl hr hz (by decide) (by decide) (by decide) p; omega)
          ((ga.fresh.append gb.fresh ga.ext.le gb.ext.le).append ge.fresh (Nat.le_trans ga.ext.le gb.ext.le) ge.ext.le)
          (fun i => by simp [ids, idsAll]) (fun i => rfl) (nb _ hk (by decide)) (fun hx _ => ?_) ⟨n, .here n, rfl⟩ h
        refine .operator [(l, a), (x, b), (z, e)] (by simp [isOperator, hk]) (covers_of (by simp [operands, hk, hl, hr, hz])) ?_
        intro q hq
        simp only [List.mem_cons, List.not_mem_nil, or_false] at hq
        rcases hq with rfl | rfl | rfl
        · exact ((ga.reads.later gb.ext).later ge.ext).later hx
        · exact (gb.reads.later ge.ext).later hx
        · exact ge.reads.later hx

theorem collectOpt_some {x : Low} {o : Option Expr} {s1 : State} (h : collectOpt (some x) s = some (o, s1)) :
    ∃ e, o = some e ∧ collect x s = some (e, s1) := by
  simp only [collectOpt, bind_some] at h
  obtain ⟨e, s2, h1, h⟩ := h
  obtain ⟨rfl, rfl⟩ := pure_some.1 h
  exact ⟨e, rfl, h1⟩

theorem step_condition (hk : n.kind = .condition) (c : Ctx strict n) (h : lower n s = some (r, s')) : Post strict n s r s' := by
  have hsh : strict = true → (exactly n .condition readable = true ∧ exactly n .truePath readableOrBlank = true) ∧
      atMost n .falsePath readableOrBlank = true := fun hs => by
    have := c.shape hs; simp only [shape, hk, Bool.and_eq_true] at this; exact this.1
  rw [lower_eq, hk] at h
  simp only [step, child_toLows] at h
  cases hl : n.child .condition with
  | none =>
    simp only [hl, Option.map_none, pure_some] at h
    obtain ⟨rfl, rfl⟩ := h
    exact nothing (Ext.refl s') (fun p => Nat.zero_le _) fun hs _ => exactly_none (hsh hs).1.1 hl
  | some l =>
    cases hr : n.child .truePath with
    | none =>
      simp only [hl, hr, Option.map_none, Option.map_some, pure_some] at h
      obtain ⟨rfl, rfl⟩ := h
      exact nothing (Ext.refl s') (fun p => Nat.zero_le _) fun hs _ => exactly_none (hsh hs).1.2 hr
    | some x =>
      simp only [hl, hr, Option.map_some, bind_some] at h
      obtain ⟨o, s1, ho, a, s2, ha, b, s3, hb, h⟩ := h
      have ga := c.got hl (fun hs => readable_rob (exactly_at (hsh hs).1.1 hl)) ha
      have gb := c.got hr (fun hs => exactly_at (hsh hs).1.2 hr) hb
      cases hz : n.child .falsePath with
      | none =>
        simp only [hz, Option.map_none, collectOpt, pure_some] at ho
        obtain ⟨rfl, rfl⟩ := ho
        refine finish (ga.ext.trans gb.ext) (fun p => by have := w2 hl hr (by decide) p; omega)
          (ga.fresh.append gb.fresh ga.ext.le gb.ext.le) (fun i => by simp [ids, idsAll]) (fun i => rfl)
          (nb _ hk (by decide)) (fun hx _ => ?_) ⟨n, .here n, rfl⟩ h
        exact .stmt [(l, a), (x, b)] (by simp [isStmt, hk]) (covers_of (by simp [stmtParts, hk, hl, hr, hz]))
          (mem2 ((ga.reads.later gb.ext).later hx) (gb.reads.later hx)) (by simp [hk]) (by simp [hk])
      | some z =>
        simp only [hz, Option.map_some] at ho
        obtain ⟨e, rfl, he⟩ := collectOpt_some ho
        have ge := c.got hz (fun hs => (atMost_some (hsh hs).2 hz).1) he
        refine finish ((ge.ext.trans ga.ext).trans gb.ext)
          (fun p => by have := w3 hl hr hz (by decide) (by decide) (by decide) p; omega)
          ((ge.fresh.append ga.fresh ge.ext.le ga.ext.le).append gb.fresh (Nat.le_trans ge.ext.le ga.ext.le) gb.ext.le)
          (fun i => ?_) (fun i => rfl) (nb _ hk (by decide)) (fun hx _ => ?_) ⟨n, .here n, rfl⟩ h
        · simp only [ids, idsAll, Option.toList_some, List.cons_append, List.nil_append, List.append_nil]
          refine List.Perm.cons _ ?_
          rw [List.append_assoc, ← List.append_assoc]
          exact List.perm_append_comm
        · refine .stmt [(l, a), (x, b), (z, e)] (by simp [isStmt, hk]) (covers_of (by simp [stmtParts, hk, hl, hr, hz])) ?_
            (by simp [hk]) (by simp [hk])
          intro q hq
          simp only [List.mem_cons, List.not_mem_nil, or_false] at hq
          rcases hq with rfl | rfl | rfl
          · exact (ga.reads.later gb.ext).later hx
          · exact gb.reads.later hx
          · exact ((ge.reads.later ga.ext).later gb.ext).later hx

theorem args_ok (c : Ctx strict n) {a : Node} (ha : n.child .arguments = some a) : ∀ x ∈ a.children, Ok strict x :=
  fun _ hx => c.ih _ (below_grandchild (child_mem ha) hx)

theorem args_rob (c : Ctx strict n) {a : Node} (ha : n.child .arguments = some a)
    (hk : strict = true → exactly n .arguments (fun c => c.kind == .callArgs) = true) :
    strict = true → ∀ x ∈ a.children, readableOrBlank x = true := fun hs => by
  have h1 := c.childShape (child_mem ha) hs
  have h2 := exactly_at (hk hs) ha
  simp only [beq_iff_eq] at h2
  simp only [shape, h2, List.all_eq_true] at h1
  exact h1

theorem step_new (hk : n.kind = .new) (c : Ctx strict n) (h : lower n s = some (r, s')) : Post strict n s r s' := by
  have hsh : strict = true → exactly n .cls inert = true ∧ exactly n .arguments (fun c => c.kind == .callArgs) = true := fun hs => by
    have := c.shape hs; simp only [shape, hk, Bool.and_eq_true] at this; exact this.1
  rw [lower_eq, hk] at h
  simp only [step, child_toLows] at h
  cases hl : n.child .cls with
  | none =>
    simp only [hl, Option.map_none, pure_some] at h
    obtain ⟨rfl, rfl⟩ := h
    exact nothing (Ext.refl s') (fun p => Nat.zero_le _) fun hs _ => exactly_none (hsh hs).1 hl
  | some k =>
    cases hr : n.child .arguments with
    | none =>
      simp only [hl, hr, Option.map_none, Option.map_some, pure_some] at h
      obtain ⟨rfl, rfl⟩ := h
      exact nothing (Ext.refl s') (fun p => Nat.zero_le _) fun hs _ => exactly_none (hsh hs).2 hr
    | some a =>
      simp only [hl, hr, Option.map_some, bind_some, toLow_ptr, toLow_text, toLow_sub] at h
      obtain ⟨es, s1, h1, h⟩ := h
      obtain ⟨l, hl1, rfl, g, _⟩ := collectSome_post (args_ok c hr) (args_rob c hr fun hs => (hsh hs).2) h1
      refine finish g.ext (fun p => ?_) g.fresh (fun i => by simp [ids]) (fun i => rfl) (nb _ hk (by decide))
        (fun hx ha => .new l hk hl hr hl1 (fun q hq => (g.reads q hq).later hx) ha) ⟨k, within_child (child_mem hl), rfl⟩ h
      have h2 := w2 hl hr (by decide) p
      have := ptr_inner p k
      rw [inner.eq_1 p a] at h2
      omega

theorem step_call (hk : n.kind = .call) (c : Ctx strict n) (h : lower n s = some (r, s')) : Post strict n s r s' := by
  have hsh : strict = true → exactly n .function (fun c => c.kind == .ident || c.kind == .fieldAccess) = true ∧
      exactly n .arguments (fun c => c.kind == .callArgs) = true := fun hs => by
    have := c.shape hs; simp only [shape, hk, Bool.and_eq_true] at this; exact this.1
  rw [lower_eq, hk] at h
  simp only [step, child_toLows] at h
  cases hl : n.child .function with
  | none =>
    simp only [hl, Option.map_none, pure_some] at h
    obtain ⟨rfl, rfl⟩ := h
    exact nothing (Ext.refl s') (fun p => Nat.zero_le _) fun hs _ => exactly_none (hsh hs).1 hl
  | some f =>
    cases hr : n.child .arguments with
    | none =>
      simp only [hl, hr, Option.map_none, Option.map_some, pure_some] at h
      obtain ⟨rfl, rfl⟩ := h
      exact nothing (Ext.refl s') (fun p => Nat.zero_le _) fun hs _ => exactly_none (hsh hs).2 hr
    | some a =>
      have hak : ∀ x ∈ a.children, x.kind ≠ .exprStmt := by
        have hp := c.proper
        have hpa := proper_child hp (child_mem hr)
        have hf := child_field hr
        have hm := child_mem hr
        obtain ⟨_, _, k, _, _, cs⟩ := n
        simp only [Node.kind] at hk
        subst hk
        simp only [Spec.proper, Bool.and_eq_true, List.all_eq_true] at hp
        have ha := hp.1 a hm
        rw [hf] at ha
        simp only [bne_self_eq_false, Bool.false_or, beq_iff_eq] at ha
        obtain ⟨_, _, ka, _, _, as⟩ := a
        simp only [Node.kind] at ha
        subst ha
        simp only [Spec.proper, Bool.and_eq_true, List.all_eq_true] at hpa
        intro x hx
        have := hpa.1 x hx
        simpa using this
      simp only [hl, hr, Option.map_some, toLow_kind, toLow_sub, child_toLows] at h
      cases hfk : f.kind <;> simp only [hfk] at h
      case ident =>
        simp only [bind_some] at h
        obtain ⟨e, s1, he, es, s2, h1, h⟩ := h
        have ge := c.got hl (fun hs => readable_rob (by simp [readable, hfk])) he
        obtain ⟨l, hl1, rfl, g, gp⟩ := collectSome_post (args_ok c hr) (args_rob c hr fun hs => (hsh hs).2) h1
        refine finish (ge.ext.trans g.ext) (fun p => ?_) (ge.fresh.append g.fresh ge.ext.le g.ext.le) (fun i => by simp [ids]) (fun i => rfl)
          (nb _ hk (by decide)) (fun hx hat => .call l hk hl hr hfk ((ge.reads.later g.ext).later hx) hl1
            (fun q hq => (g.reads q hq).later hx) (fun q hq => ?_) hat) ⟨n, .here n, rfl⟩ h
        · have h2 := w2 hl hr (by decide) p
          rw [inner.eq_1 p a] at h2
          omega
        · obtain ⟨d, hd, hp⟩ := gp hak q hq
          exact ⟨d, hd, hx.sub _ hp⟩
      case fieldAccess =>
        have hfsh : strict = true → exactly f .target readable = true ∧ exactly f .field inert = true := fun hs => by
          have := c.childShape (child_mem hl) hs; simp only [shape, hfk, Bool.and_eq_true] at this; exact this.1
        cases ht : f.child .target with
        | none =>
          simp only [ht, Option.map_none, pure_some] at h
          obtain ⟨rfl, rfl⟩ := h
          exact nothing (Ext.refl s') (fun p => Nat.zero_le _) fun hs _ => exactly_none (hfsh hs).1 ht
        | some t =>
          cases hm : f.child .field with
          | none =>
            simp only [ht, hm, Option.map_some, Option.map_none, pure_some] at h
            obtain ⟨rfl, rfl⟩ := h
            exact nothing (Ext.refl s') (fun p => Nat.zero_le _) fun hs _ => exactly_none (hfsh hs).2 hm
          | some m =>
            simp only [ht, hm, Option.map_some, bind_some, toLow_text, toLow_ptr] at h
            obtain ⟨es, s1, h1, e, s2, he, h⟩ := h
            obtain ⟨l, hl1, rfl, g, _⟩ := collectSome_post (args_ok c hr) (args_rob c hr fun hs => (hsh hs).2) h1
            have ge := collect_post (c.ih t (below_grandchild (child_mem hl) (child_mem ht)))
              (fun hs => readable_rob (exactly_at (hfsh hs).1 ht)) he
            refine finish (g.ext.trans ge.ext) (fun p => ?_) (g.fresh.append ge.fresh g.ext.le ge.ext.le)
              (fun i => ?_) (fun i => rfl) (nb _ hk (by decide))
              (fun hx hat => .method l hk hl hr hfk ht hm (ge.reads.later hx) hl1 (fun q hq => ((g.reads q hq).later ge.ext).later hx) hat)
              ⟨m, .child (child_mem hl) (within_child (child_mem hm)), rfl⟩ h
            · have h2 := w2 hl hr (by decide) p
              have h3 := w2 (n := f) ht hm (by decide) p
              have := ptr_inner p m
              rw [inner.eq_1 p a] at h2
              omega
            · simp only [ids]
              exact List.Perm.cons _ List.perm_append_comm
      all_goals cases h

theorem declare_post {d : Node} {ty : Option TypeRef} (hk : d.kind = .varDecl ∨ d.kind = .oldVarDecl) (hok : ∀ x ∈ d.children, Ok strict x)
    (hsh : strict = true → shape d = true) (h : declare ty (toLow d) s = some (r, s')) :
    Ext s s' (inner · d) ∧ (∀ e, r = some e → Fresh s s' (ids e) ∧ Reads strict (At s') d e ∧ bindingType e = ty) ∧
      (strict = true → r ≠ none) := by
  have hsh : strict = true → exactly d .name inert = true ∧ atMost d .initialValue readable = true := fun hs => by
    have := hsh hs
    rcases hk with hk | hk <;> simp only [shape, hk, Bool.and_eq_true] at this <;> exact this.1
  simp only [declare, toLow_sub, child_toLows, toLow_ptr] at h
  cases hn : d.child .name with
  | none =>
    simp only [hn, Option.map_none, pure_some] at h
    obtain ⟨rfl, rfl⟩ := h
    exact ⟨(Ext.refl s').mono fun _ => Nat.zero_le _, fun _ h => (by cases h), fun hs => (exactly_none (hsh hs).1 hn).elim⟩
  | some x =>
    simp only [hn, Option.map_some, bind_some] at h
    obtain ⟨o, s1, ho, h⟩ := h
    obtain ⟨rfl, rfl⟩ := alloc_some.1 h
    have hx := alloc_ext s1 d.ptr
    cases hv : d.child .initialValue with
    | none =>
      simp only [hv, Option.map_none, collectOpt, pure_some] at ho
      obtain ⟨rfl, rfl⟩ := ho
      refine ⟨hx.mono fun p => ptr_inner p d, fun e he => ?_, fun _ => by simp⟩
      obtain rfl := Option.some.inj he
      exact ⟨by simpa [ids] using Fresh.cons (Fresh.nil s1 s1) (Nat.le_refl _), .declared hk hv List.mem_cons_self, rfl⟩
    | some v =>
      simp only [hv, Option.map_some] at ho
      obtain ⟨e, rfl, he⟩ := collectOpt_some ho
      have g := collect_post (hok v (child_mem hv)) (fun hs => readable_rob (atMost_some (hsh hs).2 hv).1) he
      refine ⟨(g.ext.trans hx).mono fun p => w1 hv p, fun e' he' => ?_, fun _ => by simp⟩
      obtain rfl := Option.some.inj he'
      exact ⟨by simpa [ids] using Fresh.cons g.fresh g.ext.le, .initialised hk hv (g.reads.later hx) List.mem_cons_self, rfl⟩

theorem declareAll_post {ty : Low → Option TypeRef} : ∀ {ds : List Node}, (∀ d ∈ ds, d.kind = .varDecl ∨ d.kind = .oldVarDecl) →
    (∀ d ∈ ds, ∀ x ∈ d.children, Ok strict x) → (strict = true → ∀ d ∈ ds, shape d = true) →
    ∀ {s s' : State} {es : List Expr}, declareAll ty (toLows ds) s = some (es, s') →
    ∃ l : List (Node × Expr), Covers strict (l.map Prod.fst) ds ∧ l.map Prod.snd = es ∧ GotAll strict ds l s s' ∧
      ∀ q ∈ l, bindingType q.2 = ty (toLow q.1)
  | [], _, _, _, s, s', es, h => by
    simp only [toLows, declareAll, pure_some] at h
    obtain ⟨rfl, rfl⟩ := h
    exact ⟨[], covers_of rfl, rfl, ⟨Ext.refl _, Fresh.nil _ _, fun _ h => nomatch h⟩, fun _ h => nomatch h⟩
  | d :: ds, hk, hok, hsh, s, s', es, h => by
    simp only [toLows, declareAll, bind_some] at h
    obtain ⟨r, s1, h1, es', s2, h2, h3⟩ := h
    obtain ⟨rfl, rfl⟩ := pure_some.1 h3
    obtain ⟨gx, ge, gs⟩ := declare_post (hk d List.mem_cons_self) (hok d List.mem_cons_self) (fun hs => hsh hs d List.mem_cons_self) h1
    obtain ⟨l, hl1, hl2, gl, hlt⟩ := declareAll_post (fun m hm => hk m (List.mem_cons_of_mem _ hm))
      (fun m hm => hok m (List.mem_cons_of_mem _ hm)) (fun hs m hm => hsh hs m (List.mem_cons_of_mem _ hm)) h2
    have hxx : Ext s s' fun p => weights p (d :: ds) := (gx.trans gl.ext).mono fun p => by
      have := inner_le p d
      simp only [weights]
      omega
    cases r with
    | none =>
      refine ⟨l, ?_, by simp [hl2], ⟨hxx, ⟨gl.fresh.1, fun i hi => ⟨Nat.le_trans gx.le (gl.fresh.2 i hi).1, (gl.fresh.2 i hi).2⟩⟩, gl.reads⟩, hlt⟩
      cases strict with
      | true => exact absurd rfl (gs rfl)
      | false => exact List.Sublist.cons _ hl1
    | some e =>
      obtain ⟨e1, e2, e3⟩ := ge e rfl
      refine ⟨(d, e) :: l, ?_, by simp [hl2], ⟨hxx, ?_, ?_⟩, ?_⟩
      · cases strict with
        | false => exact List.Sublist.cons_cons _ hl1
        | true =>
          have : l.map Prod.fst = ds := hl1
          show _ = _
          simp [this]
      · simp only [List.map_cons, idsAll]
        exact e1.append gl.fresh gx.le gl.ext.le
      · intro q hq
        rcases List.mem_cons.1 hq with rfl | hq
        · exact e2.later gl.ext
        · exact gl.reads q hq
      · intro q hq
        rcases List.mem_cons.1 hq with rfl | hq
        · exact e3
        · exact hlt q hq

theorem step_decl (hk : n.kind = .varDeclStmt) (c : Ctx strict n) (h : lower n s = some (r, s')) : Post strict n s r s' := by
  rw [lower_eq, hk] at h
  simp only [step] at h
  rw [filter_toLows _ (fun c => c.kind == .varDecl) (fun n => by simp), bind_some] at h
  obtain ⟨es, s1, h1, h⟩ := h
  obtain ⟨l, hl1, rfl, g, ht⟩ := declareAll_post (fun x hx => .inl (by simpa using (List.mem_filter.1 hx).2))
    (fun x hx y hy => c.ih y (below_grandchild (List.mem_filter.1 hx).1 hy))
    (fun hs x hx => c.childShape (List.mem_filter.1 hx).1 hs) h1
  refine finish g.ext (fun p => ?_) g.fresh (fun i => by simp [ids]) (fun i => rfl) (nb _ hk (by decide))
    (fun hx ha => .stmt l (by simp [isStmt, hk]) (by simpa [stmtParts, hk] using hl1) (fun q hq => (g.reads q hq).later hx)
      (fun _ => ht) (by simp [hk])) ⟨n, .here n, rfl⟩ h
  have := weights_filter p (fun c => c.kind == .varDecl) n.children
  rw [inner]; omega

theorem step_oldDecl (hk : n.kind = .oldVarDeclStmt) (c : Ctx strict n) (h : lower n s = some (r, s')) : Post strict n s r s' := by
  rw [lower_eq, hk] at h
  simp only [step] at h
  rw [filter_toLows _ (fun c => c.kind == .oldVarDecl) (fun n => by simp), bind_some] at h
  obtain ⟨es, s1, h1, h⟩ := h
  obtain ⟨l, hl1, rfl, g, ht⟩ := declareAll_post (fun x hx => .inr (by simpa using (List.mem_filter.1 hx).2))
    (fun x hx y hy => c.ih y (below_grandchild (List.mem_filter.1 hx).1 hy))
    (fun hs x hx => c.childShape (List.mem_filter.1 hx).1 hs) h1
  refine finish g.ext (fun p => ?_) g.fresh (fun i => by simp [ids]) (fun i => rfl) (nb _ hk (by decide))
    (fun hx ha => .stmt l (by simp [isStmt, hk]) (by simpa [stmtParts, hk] using hl1) (fun q hq => (g.reads q hq).later hx)
      (by simp [hk]) (fun _ q hq => by simpa using ht q hq)) ⟨n, .here n, rfl⟩ h
  have := weights_filter p (fun c => c.kind == .oldVarDecl) n.children
  rw [inner]; omega

/-- The parts of a case. -/
def caseParts (c : Node) : List Node := (c.children.filter fun v => v.field == some .value) ++ (c.child .body).toList

theorem case_post {d : Node} (hk : d.kind = .switchCase) (hok : ∀ x ∈ d.children, Ok strict x) (hsh : strict = true → shape d = true)
    {es : List Expr} (h : case_ (toLow d) s = some (es, s')) :
    ∃ l : List (Node × Expr), Covers strict (l.map Prod.fst) (caseParts d) ∧ l.map Prod.snd = es ∧ Ext s s' (fun p => weights p d.children) ∧
      Fresh s s' (idsAll es) ∧ ∀ q ∈ l, Reads strict (At s') q.1 q.2 := by
  have hsh : strict = true → (∀ c ∈ d.children, c.field ≠ some .value ∨ readable c = true) ∧ exactly d .body readableOrBlank = true := fun hs => by
    have := hsh hs
    simp only [shape, hk, Bool.and_eq_true] at this
    simpa only [Bool.and_eq_true, List.all_eq_true, Bool.or_eq_true, bne_iff_ne] using this.1
  simp only [case_, toLow_sub, child_toLows] at h
  rw [filter_toLows _ (fun c => c.field == some .value) (fun n => by simp), bind_some] at h
  obtain ⟨vs, s1, h1, h⟩ := h
  obtain ⟨l, hl1, rfl, g⟩ := collectAll_post (fun x hx => hok x (List.mem_filter.1 hx).1)
    (fun hs x hx => readable_rob ((hsh hs).1 x (List.mem_filter.1 hx).1 |>.resolve_left (by simpa using (List.mem_filter.1 hx).2))) h1
  have hu := fun p => under_sum p [.value, .body] (by decide) d
  simp only [List.map_cons, List.map_nil, List.sum_cons, List.sum_nil] at hu
  cases hb : d.child .body with
  | none =>
    simp only [hb, Option.map_none, pure_some] at h
    obtain ⟨rfl, rfl⟩ := h
    refine ⟨[], ?_, rfl, g.ext.mono fun p => weights_filter p _ _, Fresh.nil _ _, fun _ h => nomatch h⟩
    cases strict with
    | true => exact (exactly_none (hsh rfl).2 hb).elim
    | false => exact List.nil_sublist _
  | some b =>
    simp only [hb, Option.map_some, bind_some] at h
    obtain ⟨e, s2, h2, h⟩ := h
    obtain ⟨rfl, rfl⟩ := pure_some.1 h
    have gb := collect_post (hok b (child_mem hb)) (fun hs => exactly_at (hsh hs).2 hb) h2
    refine ⟨l ++ [(b, e)], covers_of (by simp [caseParts, hb, hl1]), by simp, (g.ext.trans gb.ext).mono fun p => ?_, ?_, ?_⟩
    · have := hu p
      have := weight_under (p := p) hb
      have := inner_le p b
      rw [under.eq_1 p .value] at *
      omega
    · rw [idsAll_append]
      simpa [idsAll] using g.fresh.append gb.fresh g.ext.le gb.ext.le
    · intro q hq
      rcases List.mem_append.1 hq with hq | hq
      · exact (g.reads q hq).later gb.ext
      · obtain rfl := List.mem_singleton.1 hq
        exact gb.reads

theorem cases_post : ∀ {ds : List Node}, (∀ d ∈ ds, d.kind = .switchCase) → (∀ d ∈ ds, ∀ x ∈ d.children, Ok strict x) →
    (strict = true → ∀ d ∈ ds, shape d = true) → ∀ {s s' : State} {es : List Expr}, cases_ (toLows ds) s = some (es, s') →
    ∃ l : List (Node × Expr), Covers strict (l.map Prod.fst) (ds.flatMap caseParts) ∧ l.map Prod.snd = es ∧ GotAll strict ds l s s'
  | [], _, _, _, s, s', es, h => by
    simp only [toLows, cases_, pure_some] at h
    obtain ⟨rfl, rfl⟩ := h
    exact ⟨[], covers_of rfl, rfl, ⟨Ext.refl _, Fresh.nil _ _, fun _ h => nomatch h⟩⟩
  | d :: ds, hk, hok, hsh, s, s', es, h => by
    simp only [toLows, cases_, bind_some] at h
    obtain ⟨es1, s1, h1, es', s2, h2, h3⟩ := h
    obtain ⟨rfl, rfl⟩ := pure_some.1 h3
    obtain ⟨l1, k1, rfl, k2, k3, k4⟩ := case_post (hk d List.mem_cons_self) (hok d List.mem_cons_self) (fun hs => hsh hs d List.mem_cons_self) h1
    obtain ⟨l, hl1, hl2, gl⟩ := cases_post (fun m hm => hk m (List.mem_cons_of_mem _ hm))
      (fun m hm => hok m (List.mem_cons_of_mem _ hm)) (fun hs m hm => hsh hs m (List.mem_cons_of_mem _ hm)) h2
    refine ⟨l1 ++ l, ?_, by simp [hl2], ⟨(k2.trans gl.ext).mono fun p => ?_, ?_, ?_⟩⟩
    · rw [List.map_append, List.flatMap_cons]
      cases strict with
      | false => exact List.Sublist.append k1 hl1
      | true =>
        have e1 : l1.map Prod.fst = caseParts d := k1
        have e2 : l.map Prod.fst = ds.flatMap caseParts := hl1
        show _ = _
        rw [e1, e2]
    · have := inner_le p d
      rw [inner] at this
      simp only [weights]
      omega
    · rw [List.map_append, idsAll_append]
      exact k3.append gl.fresh k2.le gl.ext.le
    · intro q hq
      rcases List.mem_append.1 hq with hq | hq
      · exact (k4 q hq).later gl.ext
      · exact gl.reads q hq

theorem weights_disjoint (p : Nat) {P : Node → Bool} {c : Node} (hP : P c = false) : ∀ {ns : List Node}, c ∈ ns →
    weights p (ns.filter P) + weight p c ≤ weights p ns
  | m :: ns, hm => by
    rcases List.mem_cons.1 hm with rfl | hm
    · have := weights_filter p P ns
      rw [List.filter_cons, hP]
      simp only [Bool.false_eq_true, if_false, weights]
      omega
    · have := weights_disjoint p hP hm
      rw [List.filter_cons]
      split <;> simp only [weights] <;> omega

theorem step_switch (hk : n.kind = .switch) (c : Ctx strict n) (h : lower n s = some (r, s')) : Post strict n s r s' := by
  have hsh : strict = true → exactly n .condition readable = true := fun hs => by
    have := c.shape hs; simp only [shape, hk, Bool.and_eq_true] at this; exact this.1
  rw [lower_eq, hk] at h
  simp only [step, child_toLows] at h
  cases hl : n.child .condition with
  | none =>
    simp only [hl, Option.map_none, pure_some] at h
    obtain ⟨rfl, rfl⟩ := h
    exact nothing (Ext.refl s') (fun p => Nat.zero_le _) fun hs _ => exactly_none (hsh hs) hl
  | some x =>
    simp only [hl, Option.map_some] at h
    rw [filter_toLows _ (fun c => c.kind == .switchCase) (fun n => by simp), bind_some] at h
    obtain ⟨es, s1, h1, h⟩ := h
    obtain ⟨e, s2, h2, h⟩ := bind_some.1 h
    obtain ⟨l, hl1, rfl, g⟩ := cases_post (fun x hx => by simpa using (List.mem_filter.1 hx).2)
      (fun x hx y hy => c.ih y (below_grandchild (List.mem_filter.1 hx).1 hy))
      (fun hs x hx => c.childShape (List.mem_filter.1 hx).1 hs) h1
    have gx := c.got hl (fun hs => readable_rob (exactly_at (hsh hs) hl)) h2
    have hx2 : ∃ w, Ext s1 s2 w ∧ ∀ p, weights p (n.children.filter fun c => c.kind == .switchCase) + w p ≤ weights p n.children := by
      by_cases hxk : x.kind = .switchCase
      · refine ⟨fun _ => 0, ?_, fun p => weights_filter p _ _⟩
        rw [collect, toLow_run, lower_eq, hxk, bind_some] at h2
        obtain ⟨o, s3, h3, h4⟩ := h2
        obtain ⟨rfl, rfl⟩ := pure_some.1 h3
        simp only [missing, Option.some.injEq, Prod.mk.injEq] at h4
        obtain ⟨-, rfl⟩ := h4
        exact missing_ext s3
      · refine ⟨_, gx.ext, fun p => ?_⟩
        have := weights_disjoint p (P := fun c => c.kind == .switchCase) (c := x) (by simp [hxk]) (child_mem hl)
        have := inner_le p x
        omega
    obtain ⟨w, hw1, hw2⟩ := hx2
    refine finish (g.ext.trans hw1) (fun p => by have := hw2 p; rw [inner]; omega)
      (g.fresh.append gx.fresh g.ext.le hw1.le) (fun i => ?_) (fun i => rfl) (nb _ hk (by decide)) (fun hx ha => ?_) ⟨n, .here n, rfl⟩ h
    · simp only [ids, idsAll]
      exact List.Perm.cons _ List.perm_append_comm
    · refine .stmt ((x, e) :: l) (by simp [isStmt, hk]) ?_ ?_ (by simp [hk]) (by simp [hk])
      · have : stmtParts n = x :: (n.children.filter fun c => c.kind == .switchCase).flatMap caseParts := by
          simp only [stmtParts, hk, hl, Option.toList_some, List.cons_append, List.nil_append]
          rfl
        rw [this]
        cases strict with
        | false => exact List.Sublist.cons_cons _ hl1
        | true =>
          have e2 : l.map Prod.fst = _ := hl1
          show _ = _
          rw [List.map_cons, e2]
      · intro q hq
        rcases List.mem_cons.1 hq with rfl | hq
        · exact gx.reads.later hx
        · exact ((g.reads q hq).later hw1).later hx

theorem step_for (hk : n.kind = .for_) (c : Ctx strict n) (h : lower n s = some (r, s')) : Post strict n s r s' := by
  have hsh : strict = true → (((∀ c ∈ n.children, c.field ≠ some .initialization ∨ readable c = true) ∧ exactly n .condition readable = true) ∧
      exactly n .iteration readable = true) ∧ exactly n .body readableOrBlank = true := fun hs => by
    have := c.shape hs
    simp only [shape, hk, Bool.and_eq_true] at this
    simpa only [Bool.and_eq_true, List.all_eq_true, Bool.or_eq_true, bne_iff_ne] using this.1
  rw [lower_eq, hk] at h
  simp only [step, child_toLows] at h
  rw [filter_toLows _ (fun c => c.field == some .initialization) (fun n => by simp), bind_some] at h
  obtain ⟨vs, s1, h1, h⟩ := h
  obtain ⟨l, hl1, rfl, g⟩ := collectAll_post (fun x hx => c.ok (List.mem_filter.1 hx).1)
    (fun hs x hx => readable_rob ((hsh hs).1.1.1 x (List.mem_filter.1 hx).1 |>.resolve_left (by simpa using (List.mem_filter.1 hx).2))) h1
  have hw := fun p => weights_filter p (fun c => c.field == some .initialization) n.children
  cases hc : n.child .condition with
  | none =>
    simp only [hc, Option.map_none, pure_some] at h
    obtain ⟨rfl, rfl⟩ := h
    exact nothing g.ext (fun p => by have := hw p; rw [inner]; omega) fun hs _ => exactly_none (hsh hs).1.1.2 hc
  | some x =>
    cases hi : n.child .iteration with
    | none =>
      simp only [hc, hi, Option.map_none, Option.map_some, pure_some] at h
      obtain ⟨rfl, rfl⟩ := h
      exact nothing g.ext (fun p => by have := hw p; rw [inner]; omega) fun hs _ => exactly_none (hsh hs).1.2 hi
    | some y =>
      cases hb : n.child .body with
      | none =>
        simp only [hc, hi, hb, Option.map_none, Option.map_some, pure_some] at h
        obtain ⟨rfl, rfl⟩ := h
        exact nothing g.ext (fun p => by have := hw p; rw [inner]; omega) fun hs _ => exactly_none (hsh hs).2 hb
      | some z =>
        simp only [hc, hi, hb, Option.map_some, bind_some, toLow_run] at h
        obtain ⟨e1, s2, h2, o, s3, h3, e3, s4, h4, h⟩ := h
        have g1 := c.got hc (fun hs => readable_rob (exactly_at (hsh hs).1.1.2 hc)) h2
        have g2 := c.ok (child_mem hi) _ _ _ h3
        have g3 := c.got hb (fun hs => exactly_at (hsh hs).2 hb) h4
        have hu := fun p => under_sum p [.initialization, .condition, .iteration, .body] (by decide) n
        simp only [List.map_cons, List.map_nil, List.sum_cons, List.sum_nil] at hu
        have hsum : ∀ p, weights p (n.children.filter fun c => c.field == some .initialization) + inner p x + inner p y + inner p z +
            one n.ptr p ≤ inner p n := fun p => by
          have := hu p
          have := weight_under (p := p) hc
          have := weight_under (p := p) hi
          have := weight_under (p := p) hb
          have := inner_le p x
          have := inner_le p y
          have := inner_le p z
          rw [under.eq_1 p .initialization] at *
          rw [inner.eq_1 p n]
          omega
        have hx4 := ((g.ext.trans g1.ext).trans g2.ext).trans g3.ext
        cases o with
        | none =>
          have hst : strict = false := by
            cases strict with
            | false => rfl
            | true => exact absurd rfl (g2.full rfl (exactly_at (hsh rfl).1.2 hi))
          subst hst
          refine finish hx4 hsum
            ((g.fresh.append g1.fresh g.ext.le g1.ext.le).append (g3.fresh.earlier g2.ext.le) (Nat.le_trans g.ext.le g1.ext.le) (Nat.le_trans g2.ext.le g3.ext.le))
            (fun i => by simp [ids, idsAll, idsAll_append]) (fun i => rfl) (nb _ hk (by decide)) (fun hx ha => ?_) ⟨n, .here n, rfl⟩ h
          have : l.map Prod.snd ++ [e1] ++ (none : Option Expr).toList ++ [e3] = (l ++ [(x, e1)] ++ [(z, e3)]).map Prod.snd := by simp
          rw [this]
          refine .stmt _ (by simp [isStmt, hk]) ?_ ?_ (by simp [hk]) (by simp [hk])
          · show List.Sublist _ _
            simp only [stmtParts, hk, hc, hi, hb, List.map_append, hl1, Option.toList_some, List.map_cons, List.map_nil]
            exact List.Sublist.append (List.sublist_append_left _ _) (List.Sublist.refl _)
          · intro q hq
            simp only [List.mem_append, List.mem_singleton] at hq
            rcases hq with (hq | rfl) | rfl
            · exact ((((g.reads q hq).later g1.ext).later g2.ext).later g3.ext).later hx
            · exact ((g1.reads.later g2.ext).later g3.ext).later hx
            · exact g3.reads.later hx
        | some e2 =>
          refine finish hx4 hsum
            (((g.fresh.append g1.fresh g.ext.le g1.ext.le).append (g2.fresh e2 rfl) (Nat.le_trans g.ext.le g1.ext.le) g2.ext.le).append g3.fresh
              (Nat.le_trans (Nat.le_trans g.ext.le g1.ext.le) g2.ext.le) g3.ext.le)
            (fun i => by simp [ids, idsAll, idsAll_append]) (fun i => rfl) (nb _ hk (by decide)) (fun hx ha => ?_) ⟨n, .here n, rfl⟩ h
          have : l.map Prod.snd ++ [e1] ++ (some e2 : Option Expr).toList ++ [e3] = (l ++ [(x, e1)] ++ [(y, e2)] ++ [(z, e3)]).map Prod.snd := by simp
          rw [this]
          refine .stmt _ (by simp [isStmt, hk]) (covers_of ?_) ?_ (by simp [hk]) (by simp [hk])
          · simp [stmtParts, hk, hc, hi, hb, hl1]
          · intro q hq
            simp only [List.mem_append, List.mem_singleton] at hq
            rcases hq with ((hq | rfl) | rfl) | rfl
            · exact ((((g.reads q hq).later g1.ext).later g2.ext).later g3.ext).later hx
            · exact ((g1.reads.later g2.ext).later g3.ext).later hx
            · exact ((g2.reads e2 rfl).later g3.ext).later hx
            · exact g3.reads.later hx

end Steps

/-- Lowering keeps what the tree says. -/
theorem lower_ok (strict : Bool) (n : Node) : (strict = true → clean n = true) → proper n = true → Ok strict n := by
  refine node_ind (P := fun n => (strict = true → clean n = true) → proper n = true → Ok strict n) ?_ n
  intro n ih hc hp s r s' h
  have c : Ctx strict n := by
    refine ⟨fun d hd => ih d hd (fun hs => ?_) ?_, hc, hp⟩
    · obtain ⟨x, hx, hw⟩ := hd
      exact clean_within (hc hs) (.child hx hw)
    · obtain ⟨x, hx, hw⟩ := hd
      exact proper_within hp (.child hx hw)
  cases hk : n.kind with
  | namedArg => exact step_namedArg hk c h
  | block => exact step_block hk c h
  | varDeclStmt => exact step_decl hk c h
  | oldVarDeclStmt => exact step_oldDecl hk c h
  | for_ => exact step_for hk c h
  | while_ => exact step_while hk c h
  | jump => exact step_jump hk h
  | condition => exact step_condition hk c h
  | switch => exact step_switch hk c h
  | return_ => exact step_return hk c h
  | delete => exact step_delete hk c h
  | exprStmt => exact step_exprStmt hk c h
  | binary => exact step_binary hk c h
  | call => exact step_call hk c h
  | index => exact step_index hk c h
  | ternary => exact step_ternary hk c h
  | fieldAccess => exact step_field hk c h
  | scopeAccess => exact step_scope hk c h
  | unary => exact step_unary hk c h
  | sizeof => exact step_sizeof hk c h
  | viewAs => exact step_viewAs hk c h
  | ident => exact step_ident hk h
  | paren => exact step_paren hk c h
  | new => exact step_new hk c h
  | arrayLit => exact step_arrayLit hk c h
  | comma => exact step_comma hk c h
  | int | float | char | string | bool | null => exact step_literal (by simp [Spec.literal, hk]) c h
  | _ => exact step_none (by simp [hk]) h

end Verif.Props.Lower
