import Verif.Lsp.Config
/-!
# The settings in effect
-/

namespace Verif.Props.Config

open Verif.Lsp.Config Verif.Lsp.Config.Spec

/-- The first entry with a key. -/
def look (k : Str) : List (Str × Json) → Option Json
  | [] => none
  | (k', v) :: l => if k' = k then some v else look k l

/-- What is found under the names. -/
def value : List Str → Json → Option Json
  | [], j => some j
  | k :: ks, .obj l => (look k l).bind (value ks)
  | _ :: _, _ => none

theorem modifyKey_fst (f : Json → Option (Json × Json)) (k : Str) : ∀ l, (modifyKey f k l).map (·.1) = (look k l).bind fun v => (f v).map (·.1)
  | [] => rfl
  | (k', v) :: l => by
    rw [modifyKey, look]
    split
    · rw [Option.map_map]; rfl
    · rw [Option.map_map, ← modifyKey_fst f k l]; rfl

theorem takeAt_fst : ∀ (ks : List Str) (j : Json), (takeAt ks j).map (·.1) = value ks j
  | [], _ => rfl
  | k :: ks, .obj l => by
    rw [takeAt, value, Option.map_map]
    have h := modifyKey_fst (takeAt ks) k l
    rw [show (fun v => (takeAt ks v).map (·.1)) = value ks from funext (takeAt_fst ks)] at h
    rw [← h]; rfl
  | _ :: _, .null | _ :: _, .bool _ | _ :: _, .nat _ | _ :: _, .number | _ :: _, .str _ | _ :: _, .arr _ => rfl

theorem look_modify_ne {f : Json → Option (Json × Json)} {k q : Str} (hq : q ≠ k) : ∀ {l l' : List (Str × Json)} {v : Json},
    modifyKey f k l = some (v, l') → look q l' = look q l
  | (k', w) :: l, l', v, h => by
    rw [modifyKey] at h
    split at h
    · next hk =>
      rw [Option.map_eq_some_iff] at h
      obtain ⟨r, _, h⟩ := h
      cases h
      subst hk
      simp only [look]
      rw [if_neg (Ne.symm hq), if_neg (Ne.symm hq)]
    · rw [Option.map_eq_some_iff] at h
      obtain ⟨⟨v', l''⟩, hr, h⟩ := h
      cases h
      simp only [look]
      rw [look_modify_ne hq hr]

theorem look_modify_eq {f : Json → Option (Json × Json)} {k : Str} : ∀ {l l' : List (Str × Json)} {v : Json},
    modifyKey f k l = some (v, l') → ∃ w w', look k l = some w ∧ f w = some (v, w') ∧ look k l' = some w'
  | (k', w) :: l, l', v, h => by
    rw [modifyKey] at h
    split at h
    · next hk =>
      rw [Option.map_eq_some_iff] at h
      obtain ⟨⟨r, w'⟩, hr, h⟩ := h
      cases h
      exact ⟨w, w', by simp [look, hk], hr, by simp [look, hk]⟩
    · next hk =>
      rw [Option.map_eq_some_iff] at h
      obtain ⟨⟨v', l''⟩, hr, h⟩ := h
      cases h
      obtain ⟨a, b, h1, h2, h3⟩ := look_modify_eq hr
      exact ⟨a, b, by simp [look, hk, h1], h2, by simp [look, hk, h3]⟩

/-- Neither path leads through the other. -/
def Apart : List Str → List Str → Prop
  | a :: p, b :: q => a ≠ b ∨ Apart p q
  | _, _ => False

instance : ∀ p q, Decidable (Apart p q)
  | a :: p, b :: q => by
    unfold Apart
    have := instDecidableApart p q
    exact inferInstance
  | [], _ => by unfold Apart; exact instDecidableFalse
  | _ :: _, [] => by unfold Apart; exact instDecidableFalse

/-- Taking a value leaves what is elsewhere as it was. -/
theorem value_take : ∀ {p q : List Str} {j j' v : Json}, Apart p q → takeAt p j = some (v, j') → value q j' = value q j
  | k :: ks, k' :: ks', .obj l, j', v, ha, h => by
    rw [takeAt, Option.map_eq_some_iff] at h
    obtain ⟨⟨v', l'⟩, hm, h⟩ := h
    cases h
    simp only [value]
    by_cases hk : k' = k
    · subst hk
      obtain ⟨w, w', h1, h2, h3⟩ := look_modify_eq hm
      rw [h1, h3]
      exact value_take (ha.resolve_left (fun h => h rfl)) h2
    · rw [look_modify_ne hk hm]
  | [], _, _, _, _, ha, _ => by cases ‹List Str› <;> exact ha.elim
  | _ :: _, [], _, _, _, ha, _ => ha.elim
  | _ :: _, _ :: _, .null, _, _, _, h | _ :: _, _ :: _, .bool _, _, _, _, h | _ :: _, _ :: _, .nat _, _, _, _, h
  | _ :: _, _ :: _, .number, _, _, _, h | _ :: _, _ :: _, .str _, _, _, _, h | _ :: _, _ :: _, .arr _, _, _, _, h => nomatch h

/-- The value of a field. -/
def read {α : Type} (f : Json → Option α) (d : α) (v : Option Json) : α := (v.bind f).getD d

theorem getField_fst {α : Type} (f : Json → Option α) (n : String) (d : α) (j : Json) :
    (getField f n d j).1 = read f d (value (tokens n.toList) j) := by
  unfold getField
  rw [← takeAt_fst]
  split
  · next h => simp [h, read]
  · next v j' h =>
    simp only [h, read, Option.map_some, Option.bind_some]
    split
    · next a ha => simp [ha]
    · next ha => simp [ha]

theorem getField_rest {α : Type} (f : Json → Option α) (n : String) (d : α) (j : Json) {q : List Str} (h : Apart (tokens n.toList) q) :
    value q (getField f n d j).2.1 = value q j := by
  unfold getField
  split
  · rfl
  · next v j' ht =>
    have := value_take h ht
    split <;> exact this

theorem getField_errors {α : Type} (f : Json → Option α) (n : String) (d : α) (j : Json) : (getField f n d j).2.2 = [] := by
  unfold getField
  split
  · rfl
  · split <;> rfl

theorem look_iff {k : Str} {v : Json} : ∀ {l : List (Str × Json)}, look k l = some v ↔ Entry k v l
  | [] => ⟨fun h => (nomatch h), fun h => (nomatch h)⟩
  | (k', w) :: l => by
    rw [look]
    constructor
    · intro h
      split at h
      · next hk => cases h; subst hk; exact .here
      · next hk => exact .there hk (look_iff.1 h)
    · intro h
      cases h with
      | here => simp
      | there hk h => rw [if_neg hk]; exact look_iff.2 h

theorem value_iff : ∀ {ks : List String} {j v : Json}, value (ks.map String.toList) j = some v ↔ At j ks v
  | [], j, v => ⟨fun h => by cases h; exact .here, fun h => by cases h; rfl⟩
  | k :: ks, j, v => by
    constructor
    · intro h
      cases j with
      | obj l =>
        simp only [List.map_cons, value, Option.bind_eq_some_iff] at h
        obtain ⟨w, h1, h2⟩ := h
        exact .inside (look_iff.1 h1) (value_iff.1 h2)
      | _ => cases h
    · intro h
      cases h with
      | inside h1 h2 =>
        simp only [List.map_cons, value, Option.bind_eq_some_iff]
        exact ⟨_, look_iff.2 h1, value_iff.2 h2⟩

theorem read_reads {α : Type} {f : Json → Option α} {P : Json → α → Prop} (hf : ∀ j a, f j = some a ↔ P j a) (d : α) (names : List String) (json : Json) :
    Reads json names P d (read f d (value (names.map String.toList) json)) := by
  unfold read
  cases hv : value (names.map String.toList) json with
  | none =>
    refine .inr ⟨fun j a h => ?_, rfl⟩
    rw [value_iff.2 h] at hv; cases hv
  | some v =>
    cases ha : f v with
    | none =>
      refine .inr ⟨fun j a h hp => ?_, by simp [ha]⟩
      rw [value_iff.2 h] at hv
      cases hv
      rw [(hf _ _).2 hp] at ha; cases ha
    | some a => exact .inl ⟨v, value_iff.1 hv, by simpa [ha] using (hf _ _).1 ha⟩

theorem bool_iff (j : Json) (b : Bool) : fromBool j = some b ↔ Flag j b :=
  ⟨fun h => by cases j <;> cases h; constructor, fun h => by cases h; rfl⟩

theorem u8_iff (j : Json) (n : Nat) : fromU8 j = some n ↔ Byte j n := by
  constructor
  · intro h
    cases j with
    | nat m =>
      simp only [fromU8] at h
      split at h
      · cases h; exact .mk (by omega)
      · cases h
    | _ => cases h
  · intro h
    cases h with
    | mk hn => simp only [fromU8]; rw [if_pos (by omega)]

theorem usize_iff (j : Json) (n : Nat) : fromUsize j = some n ↔ Natural j n :=
  ⟨fun h => by cases j <;> cases h; constructor, fun h => by cases h; rfl⟩

theorem string_iff (j : Json) (s : Str) : fromString j = some s ↔ Text j s :=
  ⟨fun h => by cases j <;> cases h; constructor, fun h => by cases h; rfl⟩

theorem list_iff : ∀ (l : List Json) (ss : List Str), fromList fromString l = some ss ↔ l = ss.map .str
  | [], ss => by simp [fromList, eq_comm]
  | j :: l, ss => by
    rw [fromList, Option.bind_eq_some_iff]
    constructor
    · rintro ⟨s, h1, h2⟩
      rw [Option.map_eq_some_iff] at h2
      obtain ⟨t, h2, rfl⟩ := h2
      cases (string_iff _ _).1 h1
      rw [(list_iff l t).1 h2]; rfl
    · intro h
      cases ss with
      | nil => cases h
      | cons s t =>
        rw [List.map_cons, List.cons.injEq] at h
        exact ⟨s, by rw [h.1]; rfl, by rw [(list_iff l t).2 h.2]; rfl⟩

theorem vec_iff (j : Json) (ss : List Str) : fromVec fromString j = some ss ↔ Texts j ss := by
  constructor
  · intro h
    cases j with
    | arr l => rw [(list_iff l ss).1 h]; exact .mk ss
    | _ => cases h
  · intro h
    cases h
    exact (list_iff _ _).2 rfl

theorem option_iff {α : Type} {f : Json → Option α} {P : Json → α → Prop} (hf : ∀ j a, f j = some a ↔ P j a) (hn : f .null = none) (j : Json) (a : Option α) :
    fromOption f j = some a ↔ Maybe P j a := by
  by_cases hj : j = .null
  · subst hj
    constructor
    · intro h; cases h; exact .null
    · intro h
      cases h with
      | null => rfl
      | some h => rw [← hf, hn] at h; cases h
  · have : fromOption f j = (f j).map some := by cases j <;> first | rfl | exact absurd rfl hj
    rw [this, Option.map_eq_some_iff]
    constructor
    · rintro ⟨b, h, rfl⟩; exact .some ((hf _ _).1 h)
    · intro h
      cases h with
      | null => exact absurd rfl hj
      | some h => exact ⟨_, (hf _ _).2 h, rfl⟩

/-- **C74, reading**. Whatever the client sends, each setting has the value given for it, if that is a valid one, and its default otherwise: whether a
setting is missing or invalid does not matter to the others. -/
theorem settings_read (json : Json) : Means json (fromJson json).1 := by
  have h1 := bool_iff
  have h5 := option_iff string_iff rfl
  have h8 := option_iff usize_iff rfl
  constructor
  · simp only [fromJson, getField_fst]
    exact read_reads bool_iff _ _ _
  · simp only [fromJson, getField_fst]
    rw [getField_rest _ _ _ _ (by decide)]
    exact read_reads u8_iff _ _ _
  · simp only [fromJson, getField_fst]
    rw [getField_rest _ _ _ _ (by decide), getField_rest _ _ _ _ (by decide)]
    exact read_reads vec_iff _ _ _
  · simp only [fromJson, getField_fst]
    rw [getField_rest _ _ _ _ (by decide), getField_rest _ _ _ _ (by decide), getField_rest _ _ _ _ (by decide)]
    exact read_reads bool_iff _ _ _
  · simp only [fromJson, getField_fst]
    rw [getField_rest _ _ _ _ (by decide), getField_rest _ _ _ _ (by decide), getField_rest _ _ _ _ (by decide), getField_rest _ _ _ _ (by decide)]
    exact read_reads h5 _ _ _
  · simp only [fromJson, getField_fst]
    rw [getField_rest _ _ _ _ (by decide), getField_rest _ _ _ _ (by decide), getField_rest _ _ _ _ (by decide), getField_rest _ _ _ _ (by decide),
      getField_rest _ _ _ _ (by decide)]
    exact read_reads vec_iff _ _ _
  · simp only [fromJson, getField_fst]
    rw [getField_rest _ _ _ _ (by decide), getField_rest _ _ _ _ (by decide), getField_rest _ _ _ _ (by decide), getField_rest _ _ _ _ (by decide),
      getField_rest _ _ _ _ (by decide), getField_rest _ _ _ _ (by decide)]
    exact read_reads bool_iff _ _ _
  · simp only [fromJson, getField_fst]
    rw [getField_rest _ _ _ _ (by decide), getField_rest _ _ _ _ (by decide), getField_rest _ _ _ _ (by decide), getField_rest _ _ _ _ (by decide),
      getField_rest _ _ _ _ (by decide), getField_rest _ _ _ _ (by decide), getField_rest _ _ _ _ (by decide)]
    exact read_reads h8 _ _ _

/-- The value of a setting is determined by what the client sent. -/
theorem means_unique {json : Json} {d e : Data} (hd : Means json d) (he : Means json e) : d = e := by
  have key : ∀ {α : Type} {names : List String} {P : Json → α → Prop} {x a b : α}, (∀ j a b, P j a → P j b → a = b) →
      Reads json names P x a → Reads json names P x b → a = b := by
    intro α names P x a b hu ha hb
    rcases ha with ⟨j, h1, h2⟩ | ⟨h1, rfl⟩
    · rcases hb with ⟨j', h3, h4⟩ | ⟨h3, _⟩
      · have := value_iff.2 h1
        rw [value_iff.2 h3] at this
        cases this
        exact hu _ _ _ h2 h4
      · exact absurd h2 (h3 _ _ h1)
    · rcases hb with ⟨j', h3, h4⟩ | ⟨_, rfl⟩
      · exact absurd h4 (h1 _ _ h3)
      · rfl
  have u1 : ∀ j a b, Flag j a → Flag j b → a = b := fun j a b h g => by cases h; cases g; rfl
  have u2 : ∀ j a b, Byte j a → Byte j b → a = b := fun j a b h g => by cases h; cases g; rfl
  have u3 : ∀ j a b, Texts j a → Texts j b → a = b := fun j a b h g => by
    rw [← vec_iff] at h g; rw [h] at g; exact Option.some.inj g
  have u4 : ∀ j a b, Maybe Text j a → Maybe Text j b → a = b := fun j a b h g => by
    rw [← option_iff string_iff rfl] at h g; rw [h] at g; exact Option.some.inj g
  have u5 : ∀ j a b, Maybe Natural j a → Maybe Natural j b → a = b := fun j a b h g => by
    rw [← option_iff usize_iff rfl] at h g; rw [h] at g; exact Option.some.inj g
  cases d; cases e
  have e1 := key u1 hd.enable he.enable
  have e2 := key u2 hd.threads he.threads
  have e3 := key u3 hd.arguments he.arguments
  have e4 := key u1 hd.onSave he.onSave
  have e5 := key u4 hd.path he.path
  have e6 := key u3 hd.dirs he.dirs
  have e7 := key u1 hd.disable he.disable
  have e8 := key u5 hd.mainThreads he.mainThreads
  simp only at e1 e2 e3 e4 e5 e6 e7 e8
  subst e1 e2 e3 e4 e5 e6 e7 e8
  rfl

/-! ## What the client sent last -/

/-- The client sent settings, and not `null` or an empty object. -/
def Given (j : Json) : Prop := j ≠ .null ∧ j ≠ .obj []

theorem update_given {j : Json} (h : Given j) (d : Data) : update d j = fromJson j := by
  have : isEmpty j = false := by
    cases j with
    | null => exact absurd rfl h.1
    | obj l =>
      cases l with
      | nil => exact absurd rfl h.2
      | cons => rfl
    | _ => rfl
  rw [update, this]; rfl

/-- **C74, what holds**. After any history, once the client answers with settings other than `null` and `{}`, the settings in effect are those, and
nothing of earlier ones is left. Missing: the same for `null` and `{}`, which is false (`removal_refuted`), and that the user is told of invalid values
(`silent_refuted`). -/
theorem settings_last_partial (options pulled : Option Json) (as : List Answer) (j : Json) (others : List Json) (h : Given j) :
    Means j (answered (as.foldl answered (start options pulled).1) ⟨false, some (.arr (j :: others))⟩).data := by
  simp only [answered]
  rw [if_neg (by simp), update_given h]
  exact settings_read j

/-- The settings at start-up are those the client answers with, or those given with `initialize`, or the defaults. -/
theorem settings_start_partial (options pulled : Option Json) :
    (∀ j, pulled = some j → Given j → Means j (start options pulled).1.data) ∧
    (∀ j, options = some j → Given j → (∀ k, pulled = some k → ¬ Given k) → Means j (start options pulled).1.data) ∧
    ((∀ k, pulled = some k → ¬ Given k) → (∀ k, options = some k → ¬ Given k) → Means .null (start options pulled).1.data) := by
  have hu : ∀ j d, ¬ Given j → (update d j).1 = d := by
    intro j d h
    have : isEmpty j = true := by
      by_cases h1 : j = .null
      · rw [h1]; rfl
      · by_cases h2 : j = .obj []
        · rw [h2]; rfl
        · exact absurd ⟨h1, h2⟩ h
    rw [update, this]; rfl
  refine ⟨?_, ?_, ?_⟩
  · rintro j rfl h
    simp only [start]
    rw [update_given h]
    exact settings_read j
  · rintro j rfl h hk
    cases pulled with
    | none => simp only [start]; rw [update_given h]; exact settings_read j
    | some k =>
      simp only [start]
      rw [hu k _ (hk k rfl), update_given h]
      exact settings_read j
  · intro hk ho
    cases pulled with
    | none =>
      cases options with
      | none => exact settings_read .null
      | some o => simp only [start]; rw [hu o _ (ho o rfl)]; exact settings_read .null
    | some k =>
      simp only [start]
      rw [hu k _ (hk k rfl)]
      cases options with
      | none => exact settings_read .null
      | some o => simp only []; rw [hu o _ (ho o rfl)]; exact settings_read .null

/-- An answer without settings changes nothing. -/
theorem settings_kept (s : State) (a : Answer) (h : ∀ j t, a.error = false → a.result = some (.arr (j :: t)) → ¬ Given j) :
    (answered s a).data = s.data := by
  unfold answered
  split
  · rfl
  · next he =>
    split
    · next j t hr =>
      have hg := h j t (by simpa using he) hr
      simp only [update]
      rw [if_pos]
      by_cases h1 : j = .null
      · rw [h1]; rfl
      · by_cases h2 : j = .obj []
        · rw [h2]; rfl
        · exact absurd ⟨h1, h2⟩ hg
    · rfl

def path (p : String) : Json := .obj [("compiler".toList, .obj [("path".toList, .str p.toList)])]

/-- **C74 does not hold** when a client that sends only what is set has nothing left to send: the user removes the setting, the client answers `{}`, and
the compiler that was set before stays. -/
theorem removal_refuted :
    let s := [⟨false, some (.arr [path "/spcomp"])⟩, ⟨false, some (.arr [.obj []])⟩].foldl answered (start none none).1
    ¬ Means (.obj []) s.data ∧ s.data.compilerPath = some "/spcomp".toList := by
  have h : ([⟨false, some (.arr [path "/spcomp"])⟩, ⟨false, some (.arr [.obj []])⟩].foldl answered (start none none).1).data.compilerPath
      = some "/spcomp".toList := by decide +kernel
  refine ⟨fun hm => ?_, h⟩
  have := hm.path
  rw [h] at this
  rcases this with ⟨j, h1, _⟩ | ⟨_, h2⟩
  · cases h1 with
    | inside h _ => cases h
  · cases h2

theorem errors_none (d : Data) (j : Json) : (update d j).2 = [] := by
  unfold update
  split
  · rfl
  · simp only [fromJson, getField_errors, List.append_nil]

/-- **C74 does not hold**: no invalid setting is ever reported, at start-up or later. A number where the path of the compiler should be is one. -/
theorem silent_refuted :
    (∀ options pulled, (start options pulled).2 = []) ∧
    (∀ options pulled (as : List Answer), (as.foldl answered (start options pulled).1).errors = []) ∧
    ∃ j, At j ["compiler", "path"] (.nat 3) ∧ ∀ v, ¬ Maybe Text (.nat 3) v := by
  refine ⟨fun o p => ?_, fun o p as => ?_, .obj [("compiler".toList, .obj [("path".toList, .nat 3)])], .inside .here (.inside .here .here), fun v h => ?_⟩
  · cases o <;> cases p <;> simp [start, errors_none]
  · have h : ∀ (as : List Answer) (s : State), s.errors = [] → (as.foldl answered s).errors = [] := by
      intro as
      induction as with
      | nil => exact fun _ h => h
      | cons a as ih =>
        intro s h
        rw [List.foldl_cons]
        refine ih _ ?_
        unfold answered
        split
        · exact h
        · split
          · exact errors_none _ _
          · exact h
    exact h as _ rfl
  · cases h with
    | some h => cases h

/-- **C74**: the include directories in effect are the absolute ones that are set, in the same order. -/
theorem absolute_used (d : Data) : (includeDirs d).Sublist d.includeDirectories ∧
    ∀ p, p ∈ includeDirs d ↔ p ∈ d.includeDirectories ∧ ∃ q, p = '/' :: q := by
  refine ⟨List.filter_sublist, fun p => ?_⟩
  simp only [includeDirs, List.mem_filter, decide_eq_true_eq]
  refine and_congr_right fun _ => ?_
  cases p with
  | nil => simp
  | cons c q => simp

/-- **C74 does not hold** for include directories that are relative paths: they are valid and read, but have no effect. -/
theorem relative_refuted : ∃ j, At j ["includeDirectories"] (.arr [.str "include".toList]) ∧ includeDirs (fromJson j).1 = [] ∧
    (fromJson j).1.includeDirectories = ["include".toList] :=
  ⟨.obj [("includeDirectories".toList, .arr [.str "include".toList])], .inside .here .here, by decide +kernel, by decide +kernel⟩

/-- A file with one invalid and several valid settings, after another. -/
example : (answered ((start (some (path "/old")) none).1) ⟨false, some (.arr [.obj [
      ("compiler".toList, .obj [("onSave".toList, .str "yes".toList), ("arguments".toList, .arr [.str "-O2".toList])]),
      ("numThreads".toList, .nat 4)]])⟩).data =
    { cachePrimingEnable := true, cachePrimingNumThreads := 0, compilerArguments := ["-O2".toList], compilerOnSave := true, compilerPath := none,
      includeDirectories := [], linterDisable := false, numThreads := some 4 } := by decide +kernel

end Verif.Props.Config
