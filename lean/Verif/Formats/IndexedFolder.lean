import Verif.Index.Build

/-!
# C114: folders that are mounted with an index (core/ratarmountcore/mountsource/formats/folder.py:198-341)

The host's folder is a function from the components of a path to the entries of the folder there. Not modelled: the
progress bar, entries that vanish while the index is made (folder.py:259-262), an index that is loaded instead of being
made, and encodings other than UTF-8.
-/

namespace Verif.IndexedFolder

open Verif.Py Verif.Index

/-- A file name of the host as `os.fsdecode` gives it (folder.py:274): characters, and bytes that are not UTF-8. -/
abbrev Raw := List (Char ⊕ UInt8)

/-- What `lstat` and `readlink` say about an entry (folder.py:258-269). `rest` are size, time, owner and link target,
`toDir` says whether `os.walk` counts it as a folder, which it does for links to folders. -/
structure Stat where
  mode : Nat
  rest : Nat
  toDir : Bool
  deriving DecidableEq

/-- The host: the entries of a folder below the root (`os.scandir`, as called by `os.walk` at folder.py:243). -/
abbrev Fs := List Raw → List (Raw × Stat)

/-- The code point of a character of a file name, for sorting (folder.py:244-245). -/
def code : Char ⊕ UInt8 → Nat
  | .inl c => c.toNat
  | .inr b => 0xDC00 + b.toNat

/-- Comparison of strings (folder.py:244-245). -/
def leRaw : Raw → Raw → Bool
  | [], _ => true
  | _ :: _, [] => false
  | a :: as, b :: bs => if code a = code b then leRaw as bs else code a < code b

/-- `folderNames.sort()`, `fileNames.sort()` (folder.py:244-245). -/
def sorted (es : List (Raw × Stat)) : List (Raw × Stat) := sortBy (fun a b => leRaw a.1 b.1) es

/-- `folderNames` (folder.py:243-244). -/
def folderNames (es : List (Raw × Stat)) : List (Raw × Stat) := sorted (es.filter (fun e => e.2.toDir))

/-- `fileNames` (folder.py:243-245). -/
def fileNames (es : List (Raw × Stat)) : List (Raw × Stat) := sorted (es.filter (fun e => !e.2.toDir))

/-- `os.walk(self.root, topdown=True, followlinks=False)` (folder.py:243-245), down to a depth: the folders with their
entries as they are gone through in folder.py:255. Links to folders are not entered. -/
def walk (fs : Fs) : Nat → List Raw → List (List Raw × List (Raw × Stat))
  | 0, _ => []
  | k + 1, p => (p, folderNames (fs p) ++ fileNames (fs p)) ::
      ((folderNames (fs p)).filter (fun e => isDir e.2.mode)).flatMap (fun e => walk fs k (p ++ [e.1]))

/-- All entries in the order in which they are gone through (folder.py:243-255). -/
def entries (fs : Fs) (depth : Nat) : List (List Raw × Raw × Stat) :=
  (walk fs depth []).flatMap (fun w => w.2.map (fun e => (w.1, e.1, e.2)))

/-- A digit of a byte, for `backslashreplace` (SQLiteIndex.py:1098). -/
def hexDigit (n : Nat) : Char := if n < 10 then Char.ofNat (48 + n) else Char.ofNat (87 + n)

/-- `_escape_invalid_characters` (SQLiteIndex.py:1092-1098): characters that cannot be stored become `\xNN`. -/
def escape (s : Raw) : Str :=
  s.flatMap (fun c => match c with
    | .inl c => [c]
    | .inr b => ['\\', 'x', hexDigit (b.toNat / 16), hexDigit (b.toNat % 16)])

/-- `relativeFolder` (folder.py:247-249). -/
def relativeFolder (p : List Raw) : Raw := join (.inl '/') p

/-- `pathInIndex` (folder.py:252). -/
def pathInIndex (p : List Raw) : Raw := if relativeFolder p = [] then [] else .inl '/' :: relativeFolder p

/-- The row of an entry (folder.py:272-290), as it is stored (SQLiteIndex.py:1100-1128). -/
def row (i : Nat) (e : List Raw × Raw × Stat) : Row :=
  (⟨escape (pathInIndex e.1), escape e.2.1, i⟩, ⟨0, e.2.2.mode, false, e.2.2.rest⟩)

/-- All rows (folder.py:243-290). `offsetheader` counts them. -/
def rows (fs : Fs) (depth : Nat) : List Row := (entries fs depth).mapIdx row

/-- The calls of `set_file_infos` (folder.py:292-302). -/
def batches (limit : Nat) : List Row → List Row → List (List Row)
  | [], pending => if pending = [] then [] else [pending]
  | r :: rs, pending =>
    if (pending ++ [r]).length ≥ limit then (pending ++ [r]) :: batches limit rs []
    else batches limit rs (pending ++ [r])

/-- The index of a folder (folder.py:233-311). -/
def index (fs : Fs) (depth : Nat) : Table := build (batches 1000 (rows fs depth) [])

/-- `FROM_REGULAR_FILES AND "offsetheader" == (?)` (SQLiteIndex.py:213, folder.py:320-327). -/
def matchesRow (oh : Int) (r : Row) : Bool := (r.2.mode &&& 0xF000 == 0x8000) && r.1.oh == oh

/-- `_get_path_in_index` (folder.py:317-332). -/
def pathOf (t : Table) (fi : FileInfo) : Option Str :=
  (t.find? (matchesRow fi.oh)).map (fun r =>
    if r.1.path = ['/'] then '/' :: r.1.name else rstrip '/' r.1.path ++ '/' :: r.1.name)

/-- A string as a file name of the host (folder.py:338). -/
def raw (s : Str) : Raw := s.map .inl

/-- `_realpath` (folder.py:229-231): the components below the root. -/
def realpath (path : Str) : List Raw := (split '/' (rstrip '/' (lstrip '/' path))).map raw

/-- The file of the host that `open` opens and `get_file_path` names (folder.py:334-341). -/
def opened (t : Table) (fi : FileInfo) : Option (List Raw) := (pathOf t fi).map realpath

/-! ## Specification -/

/-- A folder that is reached from the root without following links. -/
inductive Folder (fs : Fs) : List Raw → Prop
  | root : Folder fs []
  | sub {p n st} : Folder fs p → (n, st) ∈ fs p → isDir st.mode = true → Folder fs (p ++ [n])

/-- An entry of the tree. -/
def Entry (fs : Fs) (p : List Raw) (n : Raw) (st : Stat) : Prop := Folder fs p ∧ (n, st) ∈ fs p

/-- File names of a host. -/
def RawName (n : Raw) : Prop := n ≠ [] ∧ .inl '/' ∉ n ∧ n ≠ raw ['.'] ∧ n ≠ raw ['.', '.']

/-- A folder of a host: names are names and occur once, folders count as folders, and nothing is below the depth. -/
structure Host (fs : Fs) (depth : Nat) : Prop where
  names : ∀ p e, e ∈ fs p → RawName e.1
  unique : ∀ p, ((fs p).map (·.1)).Nodup
  folders : ∀ p e, e ∈ fs p → isDir e.2.mode = true → e.2.toDir = true
  finite : ∀ p, depth ≤ p.length → fs p = []

/-- C114 as claimed: every regular file is found under its name, with its attributes, and opening it opens that file. -/
def C114_statement : Prop :=
  ∀ (fs : Fs) (depth : Nat), Host fs depth → ∀ p n st, Entry fs p n st → st.mode &&& 0xF000 = 0x8000 →
    ∃ fi, lookup (index fs depth) (canonical ((p ++ [n]).map escape)) 0 = some fi ∧
      fi.info.mode = st.mode ∧ fi.info.rest = st.rest ∧ opened (index fs depth) fi = some (p ++ [n])

/-- All names are UTF-8. -/
def Utf8 (fs : Fs) : Prop := ∀ p e, e ∈ fs p → ∃ s, e.1 = raw s

/-! ## Lemmas -/

theorem escape_raw (s : Str) : escape (raw s) = s := by
  unfold escape raw
  rw [List.flatMap_map]
  induction s with
  | nil => rfl
  | cons c s ih => simp [ih]

theorem escape_append (a b : Raw) : escape (a ++ b) = escape a ++ escape b := List.flatMap_append

theorem raw_inj {a b : Str} (h : raw a = raw b) : a = b := by
  have := congrArg escape h
  rwa [escape_raw, escape_raw] at this

theorem isName_of_raw {s : Str} (h : RawName (raw s)) : IsName s := by
  obtain ⟨h1, h2, h3, h4⟩ := h
  refine ⟨fun h => h1 (by rw [h]; rfl), fun h => h2 (List.mem_map.mpr ⟨_, h, rfl⟩), fun h => h3 (by rw [h]), fun h => h4 (by rw [h])⟩

theorem join_ne_nil {p : List Raw} (hp : p ≠ []) (h : ∀ n ∈ p, n ≠ []) : join (Sum.inl '/') p ≠ [] := by
  match p, hp with
  | [a], _ => exact h a (by simp)
  | a :: b :: l, _ => simp [join]

theorem escape_join (p : List Raw) : escape (join (.inl '/') p) = join '/' (p.map escape) := by
  match p with
  | [] => rfl
  | [a] => rfl
  | a :: b :: l =>
    rw [join, escape_append, show (Sum.inl '/' :: join (Sum.inl '/') (b :: l) : Raw) = [Sum.inl '/'] ++ join (Sum.inl '/') (b :: l) from rfl,
      escape_append, escape_join (b :: l)]
    rfl

theorem path_eq (p : List Raw) (h : ∀ n ∈ p, n ≠ []) : escape (pathInIndex p) = folderPath (p.map escape) := by
  unfold pathInIndex relativeFolder
  cases p with
  | nil => rfl
  | cons a l =>
    rw [if_neg (join_ne_nil (by simp) h), List.map_cons, folderPath, canonical_eq, ← List.map_cons, ← escape_join]
    rfl

theorem mem_sorted (es : List (Raw × Stat)) (e : Raw × Stat) : e ∈ sorted es ↔ e ∈ es := (sortBy_perm _ _).mem_iff

theorem mem_walked (fs : Fs) (p : List Raw) (e : Raw × Stat) : e ∈ folderNames (fs p) ++ fileNames (fs p) ↔ e ∈ fs p := by
  rw [List.mem_append, folderNames, fileNames, mem_sorted, mem_sorted, List.mem_filter, List.mem_filter]
  cases e.2.toDir <;> simp

theorem walk_sound (fs : Fs) (k : Nat) : ∀ p, Folder fs p → ∀ w ∈ walk fs k p, Folder fs w.1 ∧ ∀ e ∈ w.2, e ∈ fs w.1 := by
  induction k with
  | zero => simp [walk]
  | succ k ih =>
    intro p hp w hw
    rw [walk, List.mem_cons] at hw
    rcases hw with rfl | hw
    · exact ⟨hp, fun e he => (mem_walked fs p e).mp he⟩
    · rw [List.mem_flatMap] at hw
      obtain ⟨e, he, hw⟩ := hw
      rw [List.mem_filter] at he
      have hmem := (mem_walked fs p e).mp (List.mem_append_left _ he.1)
      exact ih _ (.sub hp hmem he.2) w hw

/-- Folders between two folders. -/
inductive Below (fs : Fs) : List Raw → List Raw → Prop
  | here {p} : Below fs p []
  | down {p n st q} : (n, st) ∈ fs p → isDir st.mode = true → Below fs (p ++ [n]) q → Below fs p (n :: q)

theorem below_snoc {fs : Fs} {p q : List Raw} {n : Raw} {st : Stat} (h : Below fs p q) (hm : (n, st) ∈ fs (p ++ q))
    (hd : isDir st.mode = true) : Below fs p (q ++ [n]) := by
  induction h with
  | here => exact .down (by simpa using hm) hd .here
  | @down p n' st' q h1 h2 h3 ih => exact .down h1 h2 (ih (by simpa using hm))

theorem folder_below {fs : Fs} {p : List Raw} (h : Folder fs p) : Below fs [] p := by
  induction h with
  | root => exact .here
  | sub _ hm hd ih => exact below_snoc ih (by simpa using hm) hd

theorem walk_complete {fs : Fs} {depth : Nat} (hf : Host fs depth) : ∀ (k : Nat) (p q : List Raw), Below fs p q →
    q.length < k → ∃ w ∈ walk fs k p, w.1 = p ++ q ∧ ∀ e ∈ fs (p ++ q), e ∈ w.2 := by
  intro k
  induction k with
  | zero => intro p q _ h; omega
  | succ k ih =>
    intro p q hb hl
    cases hb with
    | here =>
      refine ⟨_, List.mem_cons_self, by simp, ?_⟩
      intro e he
      exact (mem_walked fs p e).mpr (by simpa using he)
    | @down _ n st q hm hd hb =>
      obtain ⟨w, hw, h1, h2⟩ := ih (p ++ [n]) q hb (by simp at hl; omega)
      refine ⟨w, ?_, by simpa using h1, by simpa using h2⟩
      rw [walk]
      refine List.mem_cons_of_mem _ (List.mem_flatMap.mpr ⟨(n, st), ?_, hw⟩)
      rw [List.mem_filter, folderNames, mem_sorted, List.mem_filter]
      exact ⟨⟨hm, hf.folders p _ hm hd⟩, hd⟩

theorem folder_depth {fs : Fs} {depth : Nat} (hf : Host fs depth) {p : List Raw} (h : Folder fs p) : p.length ≤ depth := by
  induction h with
  | root => simp
  | @sub p n st _ hm _ ih =>
    rw [List.length_append, List.length_singleton]
    rcases Nat.lt_or_ge p.length depth with hl | hl
    · omega
    · rw [hf.finite p hl] at hm
      simp at hm

theorem mem_entries {fs : Fs} {depth : Nat} (hf : Host fs depth) (p : List Raw) (n : Raw) (st : Stat) :
    (p, n, st) ∈ entries fs depth ↔ Entry fs p n st := by
  unfold entries
  rw [List.mem_flatMap]
  constructor
  · rintro ⟨w, hw, he⟩
    rw [List.mem_map] at he
    obtain ⟨e, he, heq⟩ := he
    obtain ⟨h1, h2⟩ := walk_sound fs depth [] .root w hw
    simp only [Prod.mk.injEq] at heq
    obtain ⟨rfl, rfl, rfl⟩ := heq
    exact ⟨h1, h2 e he⟩
  · rintro ⟨h1, h2⟩
    have hlt : p.length < depth := by
      rcases Nat.lt_or_ge p.length depth with hl | hl
      · exact hl
      · rw [hf.finite p hl] at h2
        simp at h2
    obtain ⟨w, hw, hw1, hw2⟩ := walk_complete hf depth [] p (folder_below h1) hlt
    rw [List.nil_append] at hw1 hw2
    exact ⟨w, hw, List.mem_map.mpr ⟨_, hw2 _ h2, by rw [hw1]⟩⟩

theorem flatten_batches (limit : Nat) : ∀ (rs pending : List Row), (batches limit rs pending).flatten = pending ++ rs := by
  intro rs
  induction rs with
  | nil =>
    intro pending
    rw [batches]
    split
    · next h => simp [h]
    · simp
  | cons r rs ih =>
    intro pending
    rw [batches]
    split
    · rw [List.flatten_cons, ih]
      simp
    · rw [ih]
      simp

theorem folder_names {fs : Fs} {depth : Nat} (hf : Host fs depth) {p : List Raw} (h : Folder fs p) : ∀ n ∈ p, RawName n := by
  induction h with
  | root => simp
  | sub _ hm _ ih =>
    intro n hn
    rcases List.mem_append.mp hn with hn | hn
    · exact ih n hn
    · rw [List.mem_singleton.mp hn]
      exact hf.names _ _ hm

theorem folder_utf8 {fs : Fs} (hu : Utf8 fs) {p : List Raw} (h : Folder fs p) : ∃ ns : List Str, p = ns.map raw := by
  induction h with
  | root => exact ⟨[], rfl⟩
  | sub _ hm _ ih =>
    obtain ⟨ns, rfl⟩ := ih
    obtain ⟨s, hs⟩ := hu _ _ hm
    exact ⟨ns ++ [s], by simp only [List.map_append, List.map_cons, List.map_nil, ← hs]⟩

theorem map_escape_raw (ns : List Str) : (ns.map raw).map escape = ns := by
  rw [List.map_map]
  conv => rhs; rw [← List.map_id ns]
  apply List.map_congr_left
  intro s _
  exact escape_raw s

theorem mem_rows (fs : Fs) (depth : Nat) (r : Row) : r ∈ rows fs depth ↔ ∃ i, ∃ h : i < (entries fs depth).length, r = row i (entries fs depth)[i] := by
  unfold rows
  rw [List.mem_mapIdx]
  constructor
  · rintro ⟨i, h, rfl⟩
    exact ⟨i, h, rfl⟩
  · rintro ⟨i, h, rfl⟩
    exact ⟨i, h, rfl⟩

theorem rows_oh {fs : Fs} {depth : Nat} {a b : Row} (ha : a ∈ rows fs depth) (hb : b ∈ rows fs depth) (h : a.1.oh = b.1.oh) : a = b := by
  obtain ⟨i, hi, rfl⟩ := (mem_rows fs depth a).mp ha
  obtain ⟨j, hj, rfl⟩ := (mem_rows fs depth b).mp hb
  simp only [row] at h
  have : i = j := by omega
  subst this
  rfl

/-- What a row says about the tree. -/
theorem row_entry {fs : Fs} {depth : Nat} (hf : Host fs depth) {r : Row} (h : r ∈ rows fs depth) :
    ∃ p n st, Entry fs p n st ∧ r.1.path = folderPath (p.map escape) ∧ r.1.name = escape n ∧
      r.2 = ⟨0, st.mode, false, st.rest⟩ := by
  obtain ⟨i, hi, rfl⟩ := (mem_rows fs depth r).mp h
  have hm : (entries fs depth)[i] ∈ entries fs depth := List.getElem_mem hi
  generalize (entries fs depth)[i] = e at hm
  obtain ⟨p, n, st⟩ := e
  have he := (mem_entries hf p n st).mp hm
  exact ⟨p, n, st, he, path_eq p (fun n hn => (folder_names hf he.1 n hn).1), rfl, rfl⟩

theorem entry_row {fs : Fs} {depth : Nat} (hf : Host fs depth) {p n st} (h : Entry fs p n st) :
    ∃ r ∈ rows fs depth, r.1.path = folderPath (p.map escape) ∧ r.1.name = escape n ∧ r.2 = ⟨0, st.mode, false, st.rest⟩ := by
  obtain ⟨i, hi, he⟩ := List.mem_iff_getElem.mp ((mem_entries hf p n st).mpr h)
  refine ⟨row i (entries fs depth)[i], (mem_rows fs depth _).mpr ⟨i, hi, rfl⟩, ?_⟩
  rw [he]
  exact ⟨path_eq p (fun n hn => (folder_names hf h.1 n hn).1), rfl, rfl⟩

theorem folderPath_inj {a b : List Str} (ha : ∀ n ∈ a, IsName n) (hb : ∀ n ∈ b, IsName n) (h : folderPath a = folderPath b) : a = b := by
  have h1 := split_folderPath a ha
  rw [h, split_folderPath b hb] at h1
  simpa using h1.symm

theorem dirBit_of_isDir {mode : Nat} (h : isDir mode = true) : dirBit mode = true := by
  unfold isDir at h
  unfold dirBit
  have h1 : mode &&& 0xF000 = 0x4000 := by simpa using h
  have h2 := congrArg (fun x => x.testBit 14) h1
  simp only [Nat.testBit_and] at h2
  rw [show Nat.testBit 0xF000 14 = true by decide, show Nat.testBit 0x4000 14 = true by decide, Bool.and_true] at h2
  exact h2

theorem isName_utf8 {fs : Fs} {depth : Nat} (hf : Host fs depth) {ns : List Str} (h : Folder fs (ns.map raw)) : ∀ n ∈ ns, IsName n :=
  fun n hn => isName_of_raw (folder_names hf h _ (List.mem_map.mpr ⟨n, hn, rfl⟩))

/-- Every prefix of a folder is one, and every step is an entry with the mode of a folder. -/
theorem folder_take {fs : Fs} {p : List Raw} (h : Folder fs p) : ∀ (k : Nat) (hk : k < p.length),
    ∃ st, Entry fs (p.take k) p[k] st ∧ isDir st.mode = true := by
  induction h with
  | root => intro k hk; simp at hk
  | @sub p n st hp hm hd ih =>
    intro k hk
    rw [List.length_append, List.length_singleton] at hk
    rcases Nat.lt_or_ge k p.length with hl | hl
    · obtain ⟨st', h1, h2⟩ := ih k hl
      refine ⟨st', ?_, h2⟩
      rw [List.take_append_of_le_length (by omega), List.getElem_append_left hl]
      exact h1
    · have : k = p.length := by omega
      subst this
      refine ⟨st, ?_, hd⟩
      rw [List.take_left' rfl, List.getElem_append_right (Nat.le_refl _)]
      simp only [Nat.sub_self, List.getElem_singleton]
      exact ⟨hp, hm⟩

/-- No folders are made up. -/
theorem no_generated {fs : Fs} {depth : Nat} (hf : Host fs depth) (hu : Utf8 fs) :
    (insertAll (batches 1000 (rows fs depth) [])).generated = [] := by
  have inv := insertAll_inv (batches 1000 (rows fs depth) [])
  rw [flatten_batches, List.nil_append] at inv
  unfold DB.generated
  rw [List.map_eq_nil_iff, List.filter_eq_nil_iff]
  intro x hx
  simp only [decide_eq_true_eq]
  intro hall
  have hk : x.1 ∈ (insertAll (batches 1000 (rows fs depth) [])).parents.keys := List.mem_map.mpr ⟨x, hx, rfl⟩
  obtain ⟨r, hr, hanc⟩ := (inv.parents x.1).mp hk
  obtain ⟨p, n, st, he, hp, -, -⟩ := row_entry hf hr
  obtain ⟨ns, rfl⟩ := folder_utf8 hu he.1
  rw [hp, map_escape_raw, mem_ancestorPairs ns (isName_utf8 hf he.1)] at hanc
  obtain ⟨k, hk, hx1⟩ := hanc
  obtain ⟨st', h1, h2⟩ := folder_take he.1 k (by rw [List.length_map]; exact hk)
  obtain ⟨q, hq, hq1, hq2, hq3⟩ := entry_row hf h1
  have hkey := mem_files_keys (rows fs depth) q hq
  rw [← inv.files] at hkey
  rw [Dict.keys, List.mem_map] at hkey
  obtain ⟨q', hq', hqk⟩ := hkey
  have hq'' : q' ∈ rows fs depth := by
    rw [inv.files] at hq'
    exact mem_files _ _ hq'
  have : q' = q := rows_oh hq'' hq (by rw [hqk])
  subst this
  refine hall q' hq' (by rw [hq3]; exact dirBit_of_isDir h2) ?_
  rw [hx1, hq1, hq2]
  simp only [← List.map_take, map_escape_raw, List.getElem_map, escape_raw]

/-- The index has exactly the rows. -/
theorem mem_index {fs : Fs} {depth : Nat} (hf : Host fs depth) (hu : Utf8 fs) (r : Row) : r ∈ index fs depth ↔ r ∈ rows fs depth := by
  constructor
  · intro h
    rcases mem_build _ r h with h1 | h1
    · rwa [flatten_batches, List.nil_append] at h1
    · rw [no_generated hf hu] at h1
      simp at h1
  · intro h
    have inv := insertAll_inv (batches 1000 (rows fs depth) [])
    rw [flatten_batches, List.nil_append] at inv
    unfold index build DB.finalize
    rw [no_generated hf hu, List.foldl_nil, inv.files]
    have hkey := mem_files_keys (rows fs depth) r h
    rw [Dict.keys, List.mem_map] at hkey
    obtain ⟨q, hq, hqk⟩ := hkey
    rwa [← rows_oh (mem_files _ _ hq) h (by rw [hqk])]

theorem eq_of_entry {fs : Fs} {depth : Nat} (hf : Host fs depth) {p n} {st st' : Stat} (h : (n, st) ∈ fs p) (h' : (n, st') ∈ fs p) :
    st = st' := by
  have hnd := hf.unique p
  generalize fs p = l at *
  induction l with
  | nil => simp at h
  | cons a l ih =>
    rw [List.map_cons, List.nodup_cons] at hnd
    rcases List.mem_cons.mp h with h1 | h1 <;> rcases List.mem_cons.mp h' with h2 | h2
    · rw [← h1, Prod.mk.injEq] at h2
      exact h2.2.symm
    · exact absurd (List.mem_map.mpr ⟨_, h2, by rw [← h1]⟩) hnd.1
    · exact absurd (List.mem_map.mpr ⟨_, h1, by rw [← h2]⟩) hnd.1
    · exact ih h1 h2 hnd.2

/-- A row for a path belongs to the entry with this path. -/
theorem row_is {fs : Fs} {depth : Nat} (hf : Host fs depth) (hu : Utf8 fs) {ns : List Str} {n : Str} (hns : ∀ m ∈ ns, IsName m)
    {q : Row} (hq : q ∈ rows fs depth) (h1 : q.1.path = folderPath ns) (h2 : q.1.name = n) :
    ∃ st, Entry fs (ns.map raw) (raw n) st ∧ q.2 = ⟨0, st.mode, false, st.rest⟩ := by
  obtain ⟨p, m, st, he, hp, hm, hi⟩ := row_entry hf hq
  obtain ⟨ps, rfl⟩ := folder_utf8 hu he.1
  obtain ⟨s, hs⟩ := hu _ _ he.2
  simp only at hs
  subst hs
  rw [map_escape_raw, h1] at hp
  have := folderPath_inj hns (isName_utf8 hf he.1) hp
  subst this
  rw [escape_raw] at hm
  exact ⟨st, by rw [← h2, hm]; exact he, hi⟩

theorem pathOf_parts (ns : List Str) (n : Str) (h : ∀ m ∈ ns ++ [n], IsName m) :
    realpath (if folderPath ns = ['/'] then '/' :: n else rstrip '/' (folderPath ns) ++ '/' :: n) = (ns ++ [n]).map raw := by
  have hns : ∀ m ∈ ns, IsName m := fun m hm => h m (List.mem_append_left _ hm)
  have hn := h n (by simp)
  have h0 : folderPath ns ≠ ['/'] := by
    intro he
    have := split_folderPath ns hns
    rw [he] at this
    have h1 : split '/' ['/'] = [[], ([] : Str)] := by decide
    rw [h1, List.cons.injEq] at this
    exact (hns [] (by rw [← this.2]; simp)).1 rfl
  rw [if_neg h0]
  have h1 : rstrip '/' (folderPath ns) = folderPath ns := by
    cases ns with
    | nil => rfl
    | cons a l =>
      rw [folderPath]
      have := rstrip_canonical (a :: l) hns
      rwa [folderPath] at this
  rw [h1, ← canonical_append, realpath]
  have h2 : lstrip '/' (canonical (ns ++ [n])) = join '/' (ns ++ [n]) := by
    rw [canonical_eq]
    have hj : (join '/' (ns ++ [n])).head? ≠ some '/' := by
      cases hs : ns ++ [n] with
      | nil => simp at hs
      | cons a l =>
        have ha : IsName a := h a (by rw [hs]; simp)
        cases a with
        | nil => exact absurd rfl ha.1
        | cons c a =>
          have hc : c ≠ '/' := fun hc => ha.2.1 (by simp [hc])
          cases l with
          | nil => simp [join, hc]
          | cons b l => simp [join, hc]
    exact lstrip_slashes 1 _ hj
  have h3 : rstrip '/' (join '/' (ns ++ [n])) = join '/' (ns ++ [n]) := by
    have hc := rstrip_canonical (ns ++ [n]) h
    have hf : folderPath (ns ++ [n]) = canonical (ns ++ [n]) := by cases ns <;> rfl
    rw [hf, canonical_eq] at hc
    unfold rstrip at hc ⊢
    rw [List.reverse_cons] at hc
    have := congrArg List.reverse hc
    rw [List.reverse_reverse, List.reverse_cons] at this
    have hne : (join '/' (ns ++ [n])).reverse ≠ [] := by
      cases hs : ns ++ [n] with
      | nil => simp at hs
      | cons a l =>
        have ha : IsName a := h a (by rw [hs]; simp)
        cases l with
        | nil => simp [join, ha.1]
        | cons b l => simp [join]
    cases hr : (join '/' (ns ++ [n])).reverse with
    | nil => exact absurd hr hne
    | cons c s =>
      rw [hr, List.cons_append, List.dropWhile_cons] at this
      split at this
      · next hd =>
        have hl := congrArg List.length this
        have hle := (List.dropWhile_suffix (fun x => decide (x = '/')) (l := s ++ ['/'])).length_le
        simp only [List.length_append, List.length_cons, List.length_nil] at hl hle
        omega
      · next hd =>
        rw [List.dropWhile_cons, if_neg hd, ← hr, List.reverse_reverse]
  rw [h2, h3, split_join '/' _ (by simp) (fun p hp => (h p hp).2.1)]

/-! ## Theorems -/

/-- C114 for folders whose names are all UTF-8, all entries: what is found under a path are the attributes of the entry
there, and opening a regular file opens this file. -/
theorem C114_found_partial (fs : Fs) (depth : Nat) (hf : Host fs depth) (hu : Utf8 fs) (ns : List Str) (n : Str) (st : Stat)
    (he : Entry fs (ns.map raw) (raw n) st) :
    ∃ fi, lookup (index fs depth) (canonical (ns ++ [n])) 0 = some fi ∧ fi.info.mode = st.mode ∧ fi.info.rest = st.rest ∧
      (st.mode &&& 0xF000 = 0x8000 → opened (index fs depth) fi = some ((ns ++ [n]).map raw)) := by
  have hns := isName_utf8 hf he.1
  have hn := isName_of_raw (hf.names _ _ he.2)
  have hN : ∀ m ∈ ns ++ [n], IsName m := by
    intro m hm
    rcases List.mem_append.mp hm with hm | hm
    · exact hns m hm
    · rw [List.mem_singleton.mp hm]; exact hn
  obtain ⟨r, hr, hr1, hr2, hr3⟩ := entry_row hf he
  rw [map_escape_raw] at hr1
  rw [escape_raw] at hr2
  obtain ⟨q, hq, hq1, hq2, hl⟩ := lookup_some (index fs depth) (build_nodup _) ns n hN ⟨r, (mem_index hf hu r).mpr hr, hr1, hr2⟩
  obtain ⟨st', he', hq3⟩ := row_is hf hu hns ((mem_index hf hu q).mp hq) hq1 hq2
  have := eq_of_entry hf he.2 he'.2
  subst this
  refine ⟨toFileInfo q, hl, by simp [toFileInfo, hq3], by simp [toFileInfo, hq3], fun hreg => ?_⟩
  unfold opened pathOf
  cases hfd : (index fs depth).find? (matchesRow (toFileInfo q).oh) with
  | none =>
    rw [List.find?_eq_none] at hfd
    refine absurd ?_ (hfd q hq)
    simp only [matchesRow, toFileInfo, hq3, hreg]
    simp
  | some x =>
    have hx := List.mem_of_find?_eq_some hfd
    have hxm := List.find?_some hfd
    simp only [matchesRow, toFileInfo, Bool.and_eq_true, beq_iff_eq] at hxm
    have : x = q := rows_oh ((mem_index hf hu x).mp hx) ((mem_index hf hu q).mp hq) hxm.2
    subst this
    rw [Option.map_some, Option.map_some, hq1, hq2, pathOf_parts ns n hN]

/-- C114 for folders whose names are all UTF-8: nothing else is found. -/
theorem C114_absent_partial (fs : Fs) (depth : Nat) (hf : Host fs depth) (hu : Utf8 fs) (ns : List Str) (n : Str)
    (hN : ∀ m ∈ ns ++ [n], IsName m) (h : ∀ st, ¬ Entry fs (ns.map raw) (raw n) st) (version : Int) :
    lookup (index fs depth) (canonical (ns ++ [n])) version = none := by
  have hes : Entries (index fs depth) (folderPath ns) n [] := by
    refine ⟨fun r => ⟨by simp, ?_⟩, by simp⟩
    rintro ⟨hr, h1, h2⟩
    obtain ⟨st, he, -⟩ := row_is hf hu (fun m hm => hN m (List.mem_append_left _ hm)) ((mem_index hf hu r).mp hr) h1 h2
    exact absurd he (h st)
  rw [C15_lookup (index fs depth) (build_nodup _) ns n hN _ (query_canonical _ hN) _ hes]
  simp

/-- C114 for folders whose names are all UTF-8: a listing shows the entries of the folder and nothing else. -/
theorem C114_listed_partial (fs : Fs) (depth : Nat) (hf : Host fs depth) (hu : Utf8 fs) (ns : List Str) (n : Str)
    (hN : ∀ m ∈ ns ++ [n], IsName m) :
    ((list (index fs depth) (canonical ns)).bind (fun d => d.get? n)).isSome = true ↔ ∃ st, Entry fs (ns.map raw) (raw n) st := by
  rw [(C16_list_lookup (index fs depth) (build_nodup _) ns n hN _ _ (query_canonical _ (fun m hm => hN m (List.mem_append_left _ hm)))
    (query_canonical _ hN)).1]
  constructor
  · intro h
    apply Classical.byContradiction
    intro hno
    have : ∀ st, ¬ Entry fs (ns.map raw) (raw n) st := fun st he => hno ⟨st, he⟩
    rw [C114_absent_partial fs depth hf hu ns n hN this 0] at h
    simp at h
  · rintro ⟨st, he⟩
    obtain ⟨fi, hfi, -⟩ := C114_found_partial fs depth hf hu ns n st he
    rw [hfi]
    rfl

/-! ### the order of the rows -/

theorem leRaw_iff (a b : Raw) : leRaw a b = true ↔ a.map code ≤ b.map code := by
  induction a generalizing b with
  | nil => simp [leRaw]
  | cons x a ih =>
    cases b with
    | nil => simp [leRaw]
    | cons y b =>
      rw [leRaw, List.map_cons, List.map_cons, List.cons_le_cons_iff]
      split
      · next h => simp [h, ih]
      · next h => simp [h]

theorem code_inj {x y : Char ⊕ UInt8} (h : code x = code y) : x = y := by
  have hc : ∀ (c : Char) (b : UInt8), c.toNat ≠ 0xDC00 + b.toNat := by
    intro c b he
    have hb := b.toNat_lt
    have hv := c.valid
    have hn : c.toNat = c.val.toNat := rfl
    rcases hv with hv | hv
    · omega
    · omega
  cases x with
  | inl c =>
    cases y with
    | inl d => rw [show c = d from Char.ext (UInt32.toNat.inj h)]
    | inr b => exact absurd h (hc c b)
  | inr b =>
    cases y with
    | inl d => exact absurd h.symm (hc d b)
    | inr b' =>
      have : b.toNat = b'.toNat := by
        have h' : 0xDC00 + b.toNat = 0xDC00 + b'.toNat := h
        omega
      rw [UInt8.toNat.inj this]

theorem map_code_inj {a b : Raw} (h : a.map code = b.map code) : a = b := by
  induction a generalizing b with
  | nil => cases b with
    | nil => rfl
    | cons y b => cases h
  | cons x a ih => cases b with
    | nil => cases h
    | cons y b =>
      rw [List.map_cons, List.map_cons] at h
      injection h with h1 h2
      rw [code_inj h1, ih h2]

theorem sorted_pairwise (es : List (Raw × Stat)) : (sorted es).Pairwise (fun a b => leRaw a.1 b.1 = true) := by
  refine sortBy_pairwise ?_ ?_ es
  · intro a b c h1 h2
    rw [leRaw_iff] at h1 h2 ⊢
    exact List.le_trans h1 h2
  · intro a b
    rw [leRaw_iff, leRaw_iff]
    exact List.le_total _ _

theorem sorted_perm {es es' : List (Raw × Stat)} (hp : es.Perm es') (hn : (es.map (·.1)).Nodup) : sorted es = sorted es' := by
  refine List.Perm.eq_of_pairwise ?_ (sorted_pairwise es) (sorted_pairwise es') (((sortBy_perm _ es).trans hp).trans (sortBy_perm _ es').symm)
  intro a b ha hb h1 h2
  rw [leRaw_iff] at h1 h2
  have he := map_code_inj (List.le_antisymm h1 h2)
  have ha' : a ∈ es := (mem_sortBy _ _ _).mp ha
  have hb' : b ∈ es := hp.mem_iff.mpr ((mem_sortBy _ _ _).mp hb)
  clear ha hb h1 h2 hp
  induction es with
  | nil => simp at ha'
  | cons x l ih =>
    rw [List.map_cons, List.nodup_cons] at hn
    rcases List.mem_cons.mp ha' with h1 | h1 <;> rcases List.mem_cons.mp hb' with h2 | h2
    · rw [h1, h2]
    · exact absurd (List.mem_map.mpr ⟨_, h2, by rw [← h1]; exact he.symm⟩) hn.1
    · exact absurd (List.mem_map.mpr ⟨_, h1, by rw [← h2]; exact he⟩) hn.1
    · exact ih hn.2 h1 h2

/-- **C114** The index is the same in whatever order the host lists the entries of its folders. -/
theorem C114_order (fs fs' : Fs) (depth : Nat) (hn : ∀ p, ((fs p).map (·.1)).Nodup) (hp : ∀ p, (fs p).Perm (fs' p)) :
    index fs depth = index fs' depth := by
  have h1 : ∀ p, folderNames (fs p) = folderNames (fs' p) := fun p =>
    sorted_perm ((hp p).filter _) ((hn p).sublist (List.Sublist.map _ (List.filter_sublist)))
  have h2 : ∀ p, fileNames (fs p) = fileNames (fs' p) := fun p =>
    sorted_perm ((hp p).filter _) ((hn p).sublist (List.Sublist.map _ (List.filter_sublist)))
  have h3 : ∀ k p, walk fs k p = walk fs' k p := by
    intro k
    induction k with
    | zero => intro p; rfl
    | succ k ih =>
      intro p
      rw [walk, walk, h1, h2]
      congr 1
      rw [List.flatMap_def, List.flatMap_def, List.map_congr_left (fun e _ => ih (p ++ [e.1]))]
  unfold index rows entries
  rw [h3]

/-- **C114** Folders come before files, and both are in the order of their names. -/
theorem C114_sorted (fs : Fs) (k : Nat) (p : List Raw) : ∃ ds files rest, walk fs (k + 1) p = (p, ds ++ files) :: rest ∧
    (ds ++ files).Perm (fs p) ∧ (∀ e ∈ ds, e.2.toDir = true) ∧ (∀ e ∈ files, e.2.toDir = false) ∧
    ds.Pairwise (fun a b => a.1.map code ≤ b.1.map code) ∧ files.Pairwise (fun a b => a.1.map code ≤ b.1.map code) := by
  refine ⟨folderNames (fs p), fileNames (fs p), _, rfl, ?_, ?_, ?_, ?_, ?_⟩
  · refine ((sortBy_perm _ _).append (sortBy_perm _ _)).trans ?_
    exact List.filter_append_perm _ _
  · intro e he
    exact (List.mem_filter.mp ((mem_sortBy _ _ _).mp he)).2
  · intro e he
    simpa using (List.mem_filter.mp ((mem_sortBy _ _ _).mp he)).2
  · exact (sorted_pairwise _).imp (fun h => (leRaw_iff _ _).mp h)
  · exact (sorted_pairwise _).imp (fun h => (leRaw_iff _ _).mp h)

/-- **C114** Names that are not UTF-8 are stored with two hexadecimal digits for each wrong byte. -/
theorem C114_escape (s t : Raw) (b : UInt8) : escape (s ++ .inr b :: t) =
    escape s ++ "\\x".toList ++ ["0123456789abcdef".toList.getD (b.toNat / 16) '?', "0123456789abcdef".toList.getD (b.toNat % 16) '?'] ++ escape t := by
  have hd : ∀ d < 16, hexDigit d = "0123456789abcdef".toList.getD d '?' := by decide
  have hb := b.toNat_lt
  unfold escape
  rw [List.flatMap_append, List.flatMap_cons, ← hd _ (by omega), ← hd _ (by omega)]
  simp

/-- A folder with one file whose name is the byte 255. -/
def demo : Fs := fun p => if p = [] then [([.inr 255], ⟨0o100644, 7, false⟩)] else []

theorem demo_host : Host demo 1 := by
  refine ⟨?_, ?_, ?_, ?_⟩
  · intro p e he
    unfold demo at he
    split at he
    · rw [List.mem_singleton.mp he]
      exact ⟨by decide, by simp, by decide, by decide⟩
    · simp at he
  · intro p
    unfold demo
    split <;> simp
  · intro p e he
    unfold demo at he
    split at he
    · rw [List.mem_singleton.mp he]
      intro h
      exact absurd h (by decide)
    · simp at he
  · intro p hp
    unfold demo
    rw [if_neg]
    rintro rfl
    simp at hp

/-- C114 is violated: the name that is not UTF-8 is stored as `\xff`, and the file that is opened is the one with this
name of four characters, which does not exist. -/
theorem C114_violated : ¬ C114_statement := by
  intro h
  obtain ⟨fi, h1, -, -, h2⟩ := h demo 1 demo_host [] [.inr 255] ⟨0o100644, 7, false⟩ ⟨.root, by simp [demo]⟩ (by decide)
  have h3 : lookup (index demo 1) (canonical (([] ++ [[.inr 255]] : List Raw).map escape)) 0 = some ⟨0, ⟨0, 0o100644, false, 7⟩⟩ := by
    decide +kernel
  rw [h3, Option.some.injEq] at h1
  subst h1
  exact absurd h2 (by decide +kernel)

example : opened (index demo 1) ⟨0, ⟨0, 0o100644, false, 7⟩⟩ = some [raw "\\xff".toList] := by decide +kernel

/-- A folder with a folder `d` that holds the file `f`, a file `a`, and a link `l` to a folder. -/
def sample : Fs := fun p =>
  if p = [] then [(raw ['l'], ⟨0o120777, 3, true⟩), (raw ['d'], ⟨0o40755, 1, true⟩), (raw ['a'], ⟨0o100644, 2, false⟩)]
  else if p = [raw ['d']] then [(raw ['f'], ⟨0o100600, 4, false⟩)] else []

example : Entry sample ([['d']].map raw) (raw ['f']) ⟨0o100600, 4, false⟩ ∧ Utf8 sample := by
  refine ⟨⟨?_, by simp [sample]⟩, ?_⟩
  · exact .sub (p := []) (st := ⟨0o40755, 1, true⟩) .root (by simp [sample]) (by decide)
  · intro p e he
    unfold sample at he
    split at he
    · simp only [List.mem_cons, List.not_mem_nil, or_false] at he
      rcases he with rfl | rfl | rfl <;> exact ⟨_, rfl⟩
    · split at he
      · rw [List.mem_singleton.mp he]
        exact ⟨_, rfl⟩
      · simp at he

example : Host sample 2 := by
  refine ⟨?_, ?_, ?_, ?_⟩
  · intro p e he
    unfold sample at he
    split at he
    · simp only [List.mem_cons, List.not_mem_nil, or_false] at he
      rcases he with rfl | rfl | rfl <;> exact ⟨by decide, by simp [raw], by decide, by decide⟩
    · split at he
      · rw [List.mem_singleton.mp he]
        exact ⟨by decide, by simp [raw], by decide, by decide⟩
      · simp at he
  · intro p
    unfold sample
    split
    · simp [raw]
    · split <;> simp
  · intro p e he
    unfold sample at he
    split at he
    · simp only [List.mem_cons, List.not_mem_nil, or_false] at he
      rcases he with rfl | rfl | rfl <;> decide
    · split at he
      · rw [List.mem_singleton.mp he]
        decide
      · simp at he
  · intro p hp
    unfold sample
    rw [if_neg (by rintro rfl; simp at hp), if_neg (by rintro rfl; simp at hp)]

example : (list (index sample 2) "/".toList).map (·.keys) = some ["d".toList, "l".toList, "a".toList] ∧
    (lookup (index sample 2) "/d/f".toList 0).bind (opened (index sample 2)) = some [raw ['d'], raw ['f']] := by decide +kernel

end Verif.IndexedFolder
