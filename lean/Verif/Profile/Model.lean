import Mathlib.Data.List.Basic
/-!
# Model of the profiler

`crates/profile/src/tree.rs` and `crates/profile/src/hprof.rs`: the spans that a thread enters and leaves, the tree in which they are collected, and the report
that is printed when the outermost one is left.

The two modules are in the tree but commented out in `crates/profile/src/lib.rs:10-20`: at this commit they are not compiled, and this is a model of their text only.

Simplifications: one thread (each has its own stack, hprof.rs:137-140) and one filter, which is installed before (hprof.rs:16-32); labels are numbers, which are compared
as the strings would be; times are nanoseconds without overflow; heartbeats are left out, as nothing in the repository uses them; lines are kept as what they say, not as text.
`none` is a panic.
-/

namespace Verif.Profile

/-- `Node` (tree.rs:60-64). -/
structure Node (T : Type) where
  data : T
  firstChild : Option Nat := none
  nextSibling : Option Nat := none

/-- `Tree` (tree.rs:7-10); the end of `current_path` is the head of `path`. -/
structure Tree (T : Type) where
  nodes : List (Node T) := []
  path : List (Nat × Option Nat) := []

/-- `Tree::start` (tree.rs:15-31). -/
def Tree.start {T : Type} [Inhabited T] (t : Tree T) : Option (Tree T) :=
  let me := t.nodes.length
  let nodes := t.nodes ++ [{ data := default }]
  match t.path with
  | [] => some ⟨nodes, [(me, none)]⟩
  | (parent, some last) :: rest =>
    match nodes[last]? with
    | none => none
    | some n => if n.nextSibling.isSome then none else some ⟨nodes.set last { n with nextSibling := some me }, (me, none) :: (parent, some me) :: rest⟩
  | (parent, none) :: rest =>
    match nodes[parent]? with
    | none => none
    | some n => if n.firstChild.isSome then none else some ⟨nodes.set parent { n with firstChild := some me }, (me, none) :: (parent, some me) :: rest⟩

/-- `Tree::finish` (tree.rs:33-36). -/
def Tree.finish {T : Type} (t : Tree T) (data : T) : Option (Tree T) :=
  match t.path with
  | [] => none
  | (me, _) :: rest =>
    match t.nodes[me]? with
    | none => none
    | some n => some ⟨t.nodes.set me { n with data := data }, rest⟩

/-- `Tree::children` and `NodeIter::next` (tree.rs:42-47, 76-91), the number of steps being bounded. -/
def siblings {T : Type} (nodes : List (Node T)) : Nat → Option Nat → Option (List Nat)
  | _, none => some []
  | 0, some _ => none
  | fuel + 1, some i =>
    match nodes[i]? with
    | none => none
    | some n => (siblings nodes fuel n.nextSibling).map (i :: ·)

/-- `Message` (hprof.rs:213-218). -/
structure Message where
  duration : Nat
  label : Nat
  detail : Option Nat
  deriving DecidableEq, Repr

instance : Inhabited Message := ⟨0, 0, none⟩

/-- A line of the report (hprof.rs:314-322, 341-346, 350-353), with its indentation. -/
inductive Line where
  | span (level duration label : Nat) (detail : Option Nat)
  | calls (level duration label count : Nat)
  | rest (level duration : Nat)
  deriving DecidableEq, Repr

/-- `as_millis`. -/
def millis (d : Nat) : Nat := d / 1000000

/-- `short_children.entry(label).or_insert((0, 0))` and the two additions (hprof.rs:333-337), on a map that is ordered by its keys. -/
def bump (l d : Nat) : List (Nat × Nat × Nat) → List (Nat × Nat × Nat)
  | [] => [(l, d, 1)]
  | (k, t, c) :: m => if l < k then (l, d, 1) :: (k, t, c) :: m else if l = k then (k, t + d, c + 1) :: m else (k, t, c) :: bump l d m

/-- What is known while the children are visited (hprof.rs:325-326): the lines written, `accounted_for`, `short_children`. -/
structure Acc where
  out : List Line := []
  accounted : Nat := 0
  short : List (Nat × Nat × Nat) := []

/-- One child (hprof.rs:327-339); `below` prints it. -/
def visit (nodes : List (Node Message)) (longer : Nat) (below : Nat → Option (List Line)) (a : Acc) (c : Nat) : Option Acc :=
  match nodes[c]? with
  | none => none
  | some m =>
    if millis m.data.duration > millis longer then
      match below c with
      | none => none
      | some ls => some { a with out := a.out ++ ls, accounted := a.accounted + m.data.duration }
    else some { a with accounted := a.accounted + m.data.duration, short := bump m.data.label m.data.duration a.short }

/-- `print` (hprof.rs:299-355), the depth being bounded. -/
def print (nodes : List (Node Message)) (longer : Nat) : Nat → Nat → Nat → Option (List Line)
  | 0, _, _ => none
  | fuel + 1, level, curr =>
    match nodes[curr]? with
    | none => none
    | some n =>
      match siblings nodes nodes.length n.firstChild with
      | none => none
      | some children =>
        match children.foldlM (visit nodes longer (fun c => print nodes longer fuel (level + 1) c)) {} with
        | none => none
        | some a =>
          if n.data.duration < a.accounted then none
          else
            let unaccounted := n.data.duration - a.accounted
            some (.span level n.data.duration n.data.label n.data.detail :: a.out ++ a.short.map (fun e => .calls (level + 1) e.2.1 e.1 e.2.2) ++
              if !children.isEmpty && decide (unaccounted > longer) then [.rest (level + 1) unaccounted] else [])

/-- `Filter` (hprof.rs:143-149). -/
structure Filter where
  depth : Nat
  allowed : List Nat
  longer : Nat

/-- `ProfileStack` (hprof.rs:201-206) and what was printed. A frame is the time it was pushed (hprof.rs:208-211). -/
structure Stack where
  frames : List Nat := []
  messages : Tree Message := {}
  printed : List Line := []

/-- `ProfileStack::push` (hprof.rs:230-253) at the time `now`. -/
def push (f : Filter) (label now : Nat) (s : Stack) : Option (Stack × Bool) :=
  if s.frames.length > f.depth then some (s, false)
  else if s.frames.isEmpty && !f.allowed.isEmpty && !f.allowed.contains label then some (s, false)
  else
    match s.messages.start with
    | none => none
    | some t => some ({ s with frames := now :: s.frames, messages := t }, true)

/-- `ProfileStack::pop` (hprof.rs:255-287) at the time `now`; `elapsed` is 0 if the clock went back. -/
def pop (f : Filter) (label : Nat) (detail : Option Nat) (now : Nat) (s : Stack) : Option Stack :=
  match s.frames with
  | [] => none
  | t :: frames =>
    let duration := now - t
    match s.messages.finish ⟨duration, label, detail⟩ with
    | none => none
    | some m =>
      if frames.isEmpty then
        if millis duration > millis f.longer then
          match m.nodes with
          | [] => some ⟨frames, {}, s.printed⟩
          | _ :: _ =>
            match print m.nodes f.longer (m.nodes.length + 1) 0 0 with
            | none => none
            | some ls => some ⟨frames, {}, s.printed ++ ls⟩
        else some ⟨frames, {}, s.printed⟩
      else some ⟨frames, m, s.printed⟩

/-- What a thread does, as far as it is profiled: one span after the other, each with its label, its detail, the times it is entered and left, and what is done inside it. -/
inductive Spans where
  | nil
  | cons (label : Nat) (detail : Option Nat) (entered left : Nat) (inside : Spans) (after : Spans)
  deriving DecidableEq, Repr

/-- `span` (hprof.rs:59-72), `detail` (hprof.rs:97-103) and `drop` (hprof.rs:105-110) along the execution, profiling being enabled or not (hprof.rs:193-198). -/
def exec (f : Filter) : Spans → Stack → Option Stack
  | .nil, s => some s
  | .cons l d t0 t1 inside after, s =>
    if f.depth > 0 then
      match push f l t0 s with
      | none => none
      | some (s, entered) =>
        match exec f inside s with
        | none => none
        | some s =>
          if entered then
            match pop f l d t1 s with
            | none => none
            | some s => exec f after s
          else exec f after s
    else
      match exec f inside s with
      | none => none
      | some s => exec f after s

namespace Spec

/-- The times of the spans fit: what is done inside a span is done between entering and leaving it, and one after the other. -/
def Timed : Nat → Nat → Spans → Prop
  | lo, hi, .nil => lo ≤ hi
  | lo, hi, .cons _ _ t0 t1 inside after => lo ≤ t0 ∧ Timed t0 t1 inside ∧ Timed t1 hi after

/-- The spans down to `k` levels. -/
def cut : Nat → Spans → Spans
  | 0, _ => .nil
  | _ + 1, .nil => .nil
  | k + 1, .cons l d t0 t1 inside after => .cons l d t0 t1 (cut k inside) (cut (k + 1) after)

/-- The time spent in the spans. -/
def total : Spans → Nat
  | .nil => 0
  | .cons _ _ t0 t1 _ after => (t1 - t0) + total after

/-- The spans with the label `l` that take no more than the limit. -/
def shortOnes (longer l : Nat) : Spans → List Nat
  | .nil => []
  | .cons l' _ t0 t1 _ after => if l' = l ∧ millis (t1 - t0) ≤ millis longer then (t1 - t0) :: shortOnes longer l after else shortOnes longer l after

/-- `m` lists, in the order of the labels, how often and for how long short spans with this label were run. -/
def Summary (longer : Nat) (ss : Spans) (m : List (Nat × Nat × Nat)) : Prop :=
  m.Pairwise (fun a b => a.1 < b.1) ∧ ∀ l t c, (l, t, c) ∈ m ↔ c = (shortOnes longer l ss).length ∧ c ≠ 0 ∧ t = (shortOnes longer l ss).sum

/-- The lines about the spans: for each one that takes longer than the limit a line, below it the lines about the spans inside it, then the short ones inside it
label by label, and then the time that was spent in none of them, if there are any and it is longer than the limit. -/
inductive Reports (longer : Nat) : Nat → Spans → List Line → Prop where
  | nil {level} : Reports longer level .nil []
  | short {level l d t0 t1 inside after ls} : millis (t1 - t0) ≤ millis longer → Reports longer level after ls → Reports longer level (.cons l d t0 t1 inside after) ls
  | long {level l d t0 t1 inside after m below ls} : millis (t1 - t0) > millis longer → Reports longer (level + 1) inside below → Summary longer inside m →
      Reports longer level after ls →
      Reports longer level (.cons l d t0 t1 inside after)
        (.span level (t1 - t0) l d :: below ++ m.map (fun e => .calls (level + 1) e.2.1 e.1 e.2.2) ++
          (if inside ≠ .nil ∧ (t1 - t0) - total inside > longer then [.rest (level + 1) ((t1 - t0) - total inside)] else []) ++ ls)

/-- The outermost spans that are asked for: those with an allowed label that are not inside another one, all if no label is given. -/
def outermost (allowed : List Nat) : Spans → Spans → Spans
  | .nil, k => k
  | .cons l d t0 t1 inside after, k =>
    if allowed = [] ∨ l ∈ allowed then .cons l d t0 t1 inside (outermost allowed after k)
    else outermost allowed inside (outermost allowed after k)

end Spec

end Verif.Profile
