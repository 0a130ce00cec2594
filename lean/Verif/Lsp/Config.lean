/-!
# Model of the settings

`crates/sourcepawn_lsp/src/config.rs`: `get_field`, `ConfigData::from_json`, `Config::update`, and the places where it is called
(`main_loop.rs:140-195`, `handlers/notification.rs:182-214`).
-/

namespace Verif.Lsp.Config

abbrev Str := List Char

/-- `serde_json::Value`. Of numbers only those that fit in a `u64` are told apart; `number` is any other. The entries of an object are a list in
which the first entry with a key counts. -/
inductive Json where
  | null
  | bool (b : Bool)
  | nat (n : Nat)
  | number
  | str (s : Str)
  | arr (l : List Json)
  | obj (l : List (Str × Json))

/-- `Map::get_mut` followed by a change: the entry with the key becomes what `f` makes of it. -/
def modifyKey (f : Json → Option (Json × Json)) (k : Str) : List (Str × Json) → Option (Json × List (Str × Json))
  | [] => none
  | (k', v) :: l =>
    if k' = k then (f v).map fun r => (r.1, (k', r.2) :: l)
    else (modifyKey f k l).map fun r => (r.1, (k', v) :: r.2)

/-- `Value::pointer_mut` and `Value::take` (config.rs:343-346): the value there and the whole with `null` in its place. The tokens of the fields are not
numbers, so they lead nowhere in an array. -/
def takeAt : List Str → Json → Option (Json × Json)
  | [], j => some (j, .null)
  | k :: ks, .obj l => (modifyKey (takeAt ks) k l).map fun r => (r.1, .obj r.2)
  | _ :: _, _ => none

/-- `field.replace('_', "/")` with a `/` in front (config.rs:341-342), split at `/` as `pointer_mut` does. No field has a `~` or `/`. -/
def tokens : Str → List Str
  | [] => [[]]
  | c :: cs =>
    if c = '_' then [] :: tokens cs
    else match tokens cs with
      | t :: ts => (c :: t) :: ts
      | [] => [[c]]

/-- `serde_json::from_value::<bool>` -/
def fromBool : Json → Option Bool
  | .bool b => some b
  | _ => none

/-- `from_value::<u8>` -/
def fromU8 : Json → Option Nat
  | .nat n => if n < 256 then some n else none
  | _ => none

/-- `from_value::<usize>` -/
def fromUsize : Json → Option Nat
  | .nat n => some n
  | _ => none

/-- `from_value::<String>`, `from_value::<PathBuf>` -/
def fromString : Json → Option Str
  | .str s => some s
  | _ => none

/-- `from_value::<Vec<_>>`: the elements of an array, if each can be read. -/
def fromList {α : Type} (f : Json → Option α) : List Json → Option (List α)
  | [] => some []
  | j :: l => (f j).bind fun a => (fromList f l).map (a :: ·)

def fromVec {α : Type} (f : Json → Option α) : Json → Option (List α)
  | .arr l => fromList f l
  | _ => none

/-- `from_value::<Option<_>>` -/
def fromOption {α : Type} (f : Json → Option α) : Json → Option (Option α)
  | .null => some none
  | j => (f j).map some

/-- `get_field` (config.rs:330-364) for a field without alias, which is every field: its value, what is left of the settings, and what it adds to the
errors. The iterator has the one element `from_value(..)`, or none; `find(Result::is_ok)` drops it when it is an error, so `and_then` never sees an
error, and `error_sink` is never pushed to. -/
def getField {α : Type} (from? : Json → Option α) (field : String) (default : α) (json : Json) : α × Json × List Str :=
  match takeAt (tokens field.toList) json with
  | none => (default, json, [])
  | some (v, json') =>
    match from? v with
    | some a => (a, json', [])
    | none => (default, json', [])

/-- `ConfigData` (config.rs:36-56) -/
structure Data where
  cachePrimingEnable : Bool
  cachePrimingNumThreads : Nat
  compilerArguments : List Str
  compilerOnSave : Bool
  compilerPath : Option Str
  includeDirectories : List Str
  linterDisable : Bool
  numThreads : Option Nat
deriving DecidableEq

/-- `ConfigData::from_json` (config.rs:285-297): the fields are read one after the other, each from what the earlier ones left. -/
def fromJson (j0 : Json) : Data × List Str :=
  let r1 := getField fromBool "cachePriming_enable" true j0
  let r2 := getField fromU8 "cachePriming_numThreads" 0 r1.2.1
  let r3 := getField (fromVec fromString) "compiler_arguments" [] r2.2.1
  let r4 := getField fromBool "compiler_onSave" true r3.2.1
  let r5 := getField (fromOption fromString) "compiler_path" none r4.2.1
  let r6 := getField (fromVec fromString) "includeDirectories" [] r5.2.1
  let r7 := getField fromBool "linter_disable" false r6.2.1
  let r8 := getField (fromOption fromUsize) "numThreads" none r7.2.1
  ({ cachePrimingEnable := r1.1, cachePrimingNumThreads := r2.1, compilerArguments := r3.1, compilerOnSave := r4.1, compilerPath := r5.1,
     includeDirectories := r6.1, linterDisable := r7.1, numThreads := r8.1 },
   r1.2.2 ++ r2.2.2 ++ r3.2.2 ++ r4.2.2 ++ r5.2.2 ++ r6.2.2 ++ r7.2.2 ++ r8.2.2)

/-- `ConfigData::default` (config.rs:58-62) -/
def Data.default : Data := (fromJson .null).1

/-- `json.is_null() || json.as_object().map_or(false, |it| it.is_empty())` (config.rs:114) -/
def isEmpty : Json → Bool
  | .null => true
  | .obj [] => true
  | _ => false

/-- `Config::update` (config.rs:112-127): the settings and the fields reported as invalid. -/
def update (d : Data) (json : Json) : Data × List Str := if isEmpty json then (d, []) else fromJson json

/-- `Config::include_directories` (config.rs:170-178): those that are absolute, which on Unix means that they begin with `/`. -/
def includeDirs (d : Data) : List Str := d.includeDirectories.filter fun p => p.head? = some '/'

/-- The answer of the client to `workspace/configuration`. -/
structure Answer where
  error : Bool
  result : Option Json

/-- The settings and the errors the server keeps. -/
structure State where
  data : Data
  errors : List Str := []

/-- The handler of the answer to `workspace/configuration` (notification.rs:192-212); `configs.get_mut(0)` is the first element of an array. -/
def answered (s : State) (a : Answer) : State :=
  if a.error then s
  else match a.result with
    | some (.arr (j :: _)) => { data := (update s.data j).1, errors := (update s.data j).2 }
    | _ => s

/-- Start-up (main_loop.rs:134-195): the settings from `initialize` and, if the client can be asked, those it answers. What `update` reports goes to the
client as a message and is the second component. -/
def start (options : Option Json) (pulled : Option Json) : State × List Str :=
  let d0 := Data.default
  let r1 := match options with
    | some j => update d0 j
    | none => (d0, [])
  let r2 := match pulled with
    | some j => update r1.1 j
    | none => (r1.1, [])
  ({ data := r2.1 }, r1.2 ++ r2.2)

/-! ## Specification -/

namespace Spec

/-- The first entry with the key. -/
inductive Entry (k : Str) (v : Json) : List (Str × Json) → Prop
  | here {l : List (Str × Json)} : Entry k v ((k, v) :: l)
  | there {k' : Str} {v' : Json} {l : List (Str × Json)} : k' ≠ k → Entry k v l → Entry k v ((k', v') :: l)

/-- `j` is what is found in the settings under the names, one inside the other. -/
inductive At : Json → List String → Json → Prop
  | here {j : Json} : At j [] j
  | inside {l : List (Str × Json)} {k : String} {v j : Json} {ks : List String} : Entry k.toList v l → At v ks j → At (.obj l) (k :: ks) j

/-- What a setting of each kind may look like, and what it then means. -/
inductive Flag : Json → Bool → Prop
  | mk (b : Bool) : Flag (.bool b) b

inductive Byte : Json → Nat → Prop
  | mk {n : Nat} : n ≤ 255 → Byte (.nat n) n

inductive Natural : Json → Nat → Prop
  | mk (n : Nat) : Natural (.nat n) n

inductive Text : Json → Str → Prop
  | mk (s : Str) : Text (.str s) s

inductive Texts : Json → List Str → Prop
  | mk (l : List Str) : Texts (.arr (l.map .str)) l

inductive Maybe {α : Type} (P : Json → α → Prop) : Json → Option α → Prop
  | null : Maybe P .null none
  | some {j : Json} {a : α} : P j a → Maybe P j (some a)

/-- The setting has the value the client gave, if it gave a valid one, and the default otherwise. -/
def Reads {α : Type} (json : Json) (names : List String) (P : Json → α → Prop) (default value : α) : Prop :=
  (∃ j, At json names j ∧ P j value) ∨ ((∀ j a, At json names j → ¬ P j a) ∧ value = default)

/-- The settings are those of `json`. -/
structure Means (json : Json) (d : Data) : Prop where
  enable : Reads json ["cachePriming", "enable"] Flag true d.cachePrimingEnable
  threads : Reads json ["cachePriming", "numThreads"] Byte 0 d.cachePrimingNumThreads
  arguments : Reads json ["compiler", "arguments"] Texts [] d.compilerArguments
  onSave : Reads json ["compiler", "onSave"] Flag true d.compilerOnSave
  path : Reads json ["compiler", "path"] (Maybe Text) none d.compilerPath
  dirs : Reads json ["includeDirectories"] Texts [] d.includeDirectories
  disable : Reads json ["linter", "disable"] Flag false d.linterDisable
  mainThreads : Reads json ["numThreads"] (Maybe Natural) none d.numThreads

end Spec

end Verif.Lsp.Config
