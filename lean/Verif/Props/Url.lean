import Verif.Lsp.Url
import Verif.Props.Vfs
/-!
# C101: names of files in messages
-/

namespace Verif.Props.Url
open Verif.Lsp.Url Verif.Lsp.Url.Spec
open Verif.Vfs (FileId Vfs Op)

theorem pieces_ne_nil : ∀ s : Bytes, pieces s ≠ []
  | [] => by simp [pieces]
  | c :: cs => by
    rw [pieces]
    split
    · simp
    · split <;> simp

theorem pieces_plain : ∀ s : Bytes, 47 ∉ s → pieces s = [s]
  | [], _ => rfl
  | c :: cs, h => by
    rw [pieces, if_neg (by rintro rfl; simp at h), pieces_plain cs (fun h' => h (by simp [h']))]

theorem pieces_append : ∀ (s r : Bytes), 47 ∉ s → pieces (s ++ 47 :: r) = s :: pieces r
  | [], r, _ => by simp [pieces]
  | c :: cs, r, h => by
    rw [List.cons_append, pieces, if_neg (by rintro rfl; simp at h), pieces_append cs r (fun h' => h (by simp [h']))]

theorem hex_digit {c n : Nat} (h : Digit c n) : hexValue c = some n := by
  unfold hexValue
  rcases h with ⟨h1, rfl⟩ | ⟨h1, h2, rfl | rfl⟩
  · rw [if_pos (by omega)]; simp
  · rw [if_neg (by omega), if_pos (by omega)]; simp
  · rw [if_neg (by omega), if_neg (by omega), if_pos (by omega)]; simp

theorem digit_ne {c n : Nat} (h : Digit c n) : c ≠ 47 := by rcases h with ⟨h1, rfl⟩ | ⟨h1, h2, rfl | rfl⟩ <;> omega

theorem decode_plain {c : Nat} (h : c ≠ 37) (r : Bytes) : decode (c :: r) = c :: decode r := by
  rw [decode]
  intro a b r' hc
  exact absurd hc h

theorem decode_spells {text name : Bytes} (h : Spells text name) : decode text = name := by
  induction h with
  | nil => rfl
  | plain h1 _ _ ih => rw [decode_plain h1, ih]
  | digits ha hb _ ih => rw [decode, hex_digit ha, hex_digit hb]; simp only [ih]

theorem spells_slash {text name : Bytes} (h : Spells text name) : 47 ∉ text := by
  induction h with
  | nil => simp
  | plain _ h2 _ ih => simpa [ih] using fun h => h2 h.symm
  | digits ha hb _ ih => simpa [ih] using ⟨fun h => digit_ne ha h.symm, fun h => digit_ne hb h.symm⟩

theorem spells_path {text : Bytes} {names : Path} (h : SpellsPath text names) :
    ∃ rest, text = 47 :: rest ∧ ((names = [] ∧ rest = []) ∨ (pieces rest).map decode = names) := by
  induction h with
  | root => exact ⟨[], rfl, .inl ⟨rfl, rfl⟩⟩
  | one h => exact ⟨_, rfl, .inr (by rw [pieces_plain _ (spells_slash h)]; simp [decode_spells h])⟩
  | cons hne h _ ih =>
    obtain ⟨rest, rfl, ⟨rfl, -⟩ | e⟩ := ih
    · exact absurd rfl hne
    · exact ⟨_, rfl, .inr (by rw [pieces_append _ _ (spells_slash h), List.map_cons, decode_spells h, e])⟩

theorem components_names : ∀ (names : Path), (∀ s ∈ names, Name s) → components (names.flatMap fun s => 47 :: s) = names
  | [], _ => by decide
  | n :: names, h => by
    have hn := h n (by simp)
    have ih := components_names names (fun s hs => h s (by simp [hs]))
    have key : ∀ r : Bytes, pieces (47 :: r) = [] :: pieces r := fun r => by rw [pieces, if_pos rfl]
    rw [List.flatMap_cons, List.cons_append, components, key]
    cases names with
    | nil =>
      rw [List.flatMap_nil, List.append_nil, pieces_plain _ hn.2.2.2.1]
      simp [hn.1, hn.2.1]
    | cons m ms =>
      rw [components, List.flatMap_cons, List.cons_append, key] at ih
      rw [List.flatMap_cons, List.cons_append, pieces_append _ _ hn.2.2.2.1]
      rw [List.filter_cons_of_neg (by simp)] at ih
      rw [List.filter_cons_of_neg (by simp), List.filter_cons_of_pos (by simp [hn.1, hn.2.1]), ih]

/-- Any spelling of a path is read as this path. -/
theorem spelling {u : Url} {names : Path} (hn : ∀ s ∈ names, Name s) (hu : Names u names) : vfsPath u = some names := by
  obtain ⟨-, hh, hp⟩ := hu
  obtain ⟨rest, e, h⟩ := spells_path hp
  rw [vfsPath, toFilePath, e]
  simp only [hh, true_or, if_true]
  rcases h with ⟨rfl, rfl⟩ | h
  · decide
  · have : ((pieces rest).flatMap fun s => 47 :: decode s) = names.flatMap fun s => 47 :: s := by rw [← h, List.flatMap_map]
    rw [this, components_names names hn]

theorem escaped_percent : escaped 37 = true := by decide
theorem escaped_slash : escaped 47 = true := by decide

theorem digit_of {n : Nat} (h : n < 16) : Digit (hexDigit n) n := by
  unfold hexDigit Digit
  split <;> omega

theorem encode_spells : ∀ (s : Bytes), (∀ b ∈ s, b < 256) → Spells (encode s) s
  | [], _ => .nil
  | b :: s, h => by
    have ih := encode_spells s (fun x hx => h x (by simp [hx]))
    have hb := h b (by simp)
    rw [encode, List.flatMap_cons]
    split
    · have hd : Spells (37 :: hexDigit (b / 16) :: hexDigit (b % 16) :: encode s) ((16 * (b / 16) + b % 16) :: s) := .digits (digit_of (by omega)) (digit_of (by omega)) ih
      rw [Nat.div_add_mod] at hd
      exact hd
    · rename_i he
      exact .plain (by rintro rfl; exact he escaped_percent) (by rintro rfl; exact he escaped_slash) ih

theorem from_spells : ∀ (names : Path), names ≠ [] → (∀ s ∈ names, Name s) → SpellsPath (names.flatMap fun s => 47 :: encode s) names
  | [], h, _ => absurd rfl h
  | [n], _, h => by
    rw [List.flatMap_cons, List.flatMap_nil, List.append_nil]
    exact .one (encode_spells n (h n (by simp)).2.2.2.2)
  | n :: m :: ms, _, h => by
    rw [List.flatMap_cons, List.cons_append]
    exact .cons (by simp) (encode_spells n (h n (by simp)).2.2.2.2) (from_spells (m :: ms) (by simp) fun s hs => h s (by simp [hs]))

/-- **C101**: what the server sends for a file is a URL of this file. -/
theorem sent_names (v : Vfs Path) (f : FileId) (names : Path) (hp : v.filePath f = some names) (hn : ∀ s ∈ names, Name s) :
    ∃ u, fileIdToUrl v f = some u ∧ Names u names := by
  refine ⟨fromFilePath names, by rw [fileIdToUrl, hp]; rfl, rfl, rfl, ?_⟩
  simp only [fromFilePath]
  split
  · rename_i h; rw [h]; exact .root
  · rename_i h; exact from_spells names h hn

/-- **C101**: after any history of files that come and go, the URL that the server sends for an existing file, and every other spelling of it, is taken for
this very file in every request. -/
theorem round_trip (ops : List (Op Path)) : ∃ v d, Vfs.empty.run ops = some (v, d) ∧ ∀ names f, (∀ s ∈ names, Name s) → v.fileId names = some (some f) →
    (∃ u, fileIdToUrl v f = some u ∧ Names u names) ∧ ∀ u, Names u names → urlToFileId v u = some (some f) := by
  obtain ⟨v, d, h, -, hp⟩ := Verif.Props.Vfs.file_id_injective ops
  refine ⟨v, d, h, fun names f hn hf => ⟨sent_names v f names (hp names f hf) hn, fun u hu => ?_⟩⟩
  rw [urlToFileId, spelling hn hu]
  exact hf

/-- **C101**: after any history every URL is answered without a panic, also one that no path can be made of, and a file is only told for the URL of this
file: the path of the URL is the path of the file, which exists. -/
theorem answered (ops : List (Op Path)) : ∃ v d, Vfs.empty.run ops = some (v, d) ∧ ∀ u, ∃ r, urlToFileId v u = some r ∧
    ∀ f, r = some f ↔ ∃ p, vfsPath u = some p ∧ v.filePath f = some p ∧ ∃ c, Vfs.Spec.lastContents p ops = some c := by
  obtain ⟨v, d, h, w, _⟩ := Vfs.run_spec ops (Vfs.WF.empty (P := Path))
  refine ⟨v, d, h, fun u => ?_⟩
  have hlast : ∀ p, v.content p = Vfs.Spec.lastContents p ops := by
    intro p
    obtain ⟨v', d', h', hr⟩ := Verif.Props.Vfs.vfs_reads_last_write ops p
    rw [h] at h'
    cases h'
    rw [← hr, Verif.Props.Vfs.read_eq_content w]
  rw [urlToFileId]
  cases hu : vfsPath u with
  | none => exact ⟨none, rfl, fun f => by simp⟩
  | some p =>
    refine ⟨_, Vfs.fileId_spec w p, fun f => ?_⟩
    rw [hlast p]
    constructor
    · intro hf
      split at hf
      · rename_i hs
        exact ⟨p, rfl, Vfs.internGet_eq_some hf, Option.isSome_iff_exists.1 hs⟩
      · cases hf
    · rintro ⟨q, hq, hf, c, hc⟩
      cases hq
      rw [hc]
      exact Vfs.internGet_of_getElem? w.nodup hf

/-- **C101**: different files have different URLs. -/
theorem told_apart {u : Url} {p q : Path} (hp : ∀ s ∈ p, Name s) (hq : ∀ s ∈ q, Name s) (h : Names u p) (h' : Names u q) : p = q :=
  Option.some.inj ((spelling hp h).symm.trans (spelling hq h'))

/-- Bytes of a text. -/
def bytes (s : String) : Bytes := s.toUTF8.toList.map (·.toNat)

/-- **C101, refuted**: the URL of a file that the server sends need not be the one the client uses: `/(` may be opened as `file:///%28`. -/
theorem spelling_refuted : ∃ u, Names u [bytes "("] ∧ vfsPath u = some [bytes "("] ∧ fromFilePath [bytes "("] ≠ u :=
  ⟨⟨bytes "file", none, bytes "/%28"⟩, ⟨rfl, rfl, by
      show SpellsPath (bytes "/%28") [bytes "("]
      rw [show bytes "/%28" = 47 :: [37, 50, 56] by decide +kernel, show bytes "(" = [40] by decide +kernel]
      exact .one (.digits (x := 2) (y := 8) (.inl ⟨by decide, rfl⟩) (.inl ⟨by decide, rfl⟩) .nil)⟩, by decide +kernel, by decide +kernel⟩

/-- **C101, refuted**: the scheme is ignored. The old version of a file that an editor shows as `git:/p/x.sp` is taken for the file itself. -/
theorem scheme_refuted : vfsPath ⟨bytes "git", none, bytes "/p/x.sp"⟩ = some [bytes "p", bytes "x.sp"] ∧
    Names ⟨bytes "file", none, bytes "/p/x.sp"⟩ [bytes "p", bytes "x.sp"] := by
  refine ⟨by decide +kernel, rfl, rfl, ?_⟩
  have h := from_spells [bytes "p", bytes "x.sp"] (by simp) (by
    intro s hs
    simp only [List.mem_cons, List.not_mem_nil, or_false] at hs
    rcases hs with rfl | rfl <;> refine ⟨by decide +kernel, by decide +kernel, by decide +kernel, by decide +kernel, by decide +kernel⟩)
  have e : (([bytes "p", bytes "x.sp"] : Path).flatMap fun s => 47 :: encode s) = bytes "/p/x.sp" := by decide +kernel
  rw [e] at h
  exact h

/-- A name with a blank, a percent sign and a letter that is not ASCII. -/
example : Name (bytes "é 5%.sp") ∧ fromFilePath [bytes "é 5%.sp"] = ⟨bytes "file", none, bytes "/%C3%A9%205%25.sp"⟩ :=
  ⟨⟨by decide +kernel, by decide +kernel, by decide +kernel, by decide +kernel, by decide +kernel⟩, by decide +kernel⟩

/-- The hypotheses of `round_trip` hold for `/é%` after it was created, deleted and created again behind another file: `file:///%c3%A9%25` is this file. -/
example : ∃ v d, (Vfs.empty (P := Path)).run [.set [[195, 169, 37]] (some [1]), .set [[195, 169, 37]] none, .set [[98]] (some []),
      .set [[195, 169, 37]] (some [2])] = some (v, d) ∧ v.fileId [[195, 169, 37]] = some (some 0) ∧
    urlToFileId v ⟨bytes "file", none, bytes "/%c3%A9%25"⟩ = some (some 0) := by
  refine ⟨_, _, rfl, rfl, ?_⟩
  decide +kernel

/-- `answered` for a URL no path can be made of (`untitled:Untitled-1`, what an editor calls a document that was never saved): it is no file. -/
example : vfsPath ⟨bytes "untitled", none, bytes "Untitled-1"⟩ = none ∧
    urlToFileId (Vfs.empty (P := Path)) ⟨bytes "untitled", none, bytes "Untitled-1"⟩ = some none := by
  decide +kernel

end Verif.Props.Url
