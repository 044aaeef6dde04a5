import Verif.Index.Query

/-!
# C17, C19: inserting rows and parent folders (core/ratarmountcore/SQLiteIndex.py:694-734, 1018-1131)

Not modelled: moving an in-memory database to disk during the insertions (1066-1080, a copy of the whole
database) and the escaping of names that cannot be encoded (1082-1090, 1107-1128). The table "filestmp" is never
written to, see create-index-tables.sql:57-68.
-/

namespace Verif.Index

open Verif.Py

/-- A row of "files" (create-index-tables.sql, SQLiteIndex.py:1060-1090). -/
abbrev Row := Key × Info

/-- The tables "files" and "parentfolders" and the member `parentFolderCache` (SQLiteIndex.py:1018-1090). -/
structure DB where
  files : Table
  parents : Dict (Str × Str) (Int × Int)
  cache : List (Str × Str)

/-- `INSERT OR REPLACE` (SQLiteIndex.py:1083-1090). -/
def insertOrReplace {K V : Type} [DecidableEq K] (t : Dict K V) (kv : K × V) : Dict K V := t.set kv.1 kv.2

/-- `INSERT OR IGNORE` (SQLiteIndex.py:1055-1058). -/
def insertOrIgnore {K V : Type} [DecidableEq K] (t : Dict K V) (kv : K × V) : Dict K V :=
  if t.has kv.1 then t else t.set kv.1 kv.2

/-- The generator in `_try_add_parent_folders` (SQLiteIndex.py:1023-1033): (folder, name) of all ancestors. -/
def ancestorPairs (path : Str) : List (Str × Str) :=
  let parts := split '/' path
  (List.range' 1 (parts.length - 1)).map (fun i => (join '/' (parts.take i), parts[i]?.getD []))

/-- `_try_add_parent_folders` (SQLiteIndex.py:1018-1058). -/
def DB.addParents (db : DB) (r : Row) : DB :=
  let paths := (ancestorPairs r.1.path).filter (fun p => p ∉ db.cache)
  if paths = [] then db                                                                     -- 1036-1037
  else
    let cache := db.cache ++ paths                                                          -- 1039
    { db with
      cache := if cache.length > 16 then cache.drop (cache.length - 8) else cache           -- 1042-1043
      parents := (paths.map (fun p => (p, (r.1.oh, r.2.offset)))).foldl insertOrIgnore db.parents }  -- 1055-1058

/-- `set_file_infos` (SQLiteIndex.py:1060-1090). -/
def DB.setFileInfos (db : DB) (rows : List Row) : DB :=
  rows.foldl DB.addParents { db with files := rows.foldl insertOrReplace db.files }

/-- `mode & (1 << 14) != 0` in the clean-up query (SQLiteIndex.py:714). -/
def dirBit (mode : Nat) : Bool := mode.testBit 14

/-- The `INSERT OR IGNORE INTO "files" SELECT ... FROM "parentfolders"` of `_finalize_files_table` (SQLiteIndex.py:706-716).
Note that the column isgenerated is 0. -/
def DB.generated (db : DB) : List Row :=
  (db.parents.filter (fun p => decide (∀ r ∈ db.files, dirBit r.2.mode = true → (r.1.path, r.1.name) ≠ p.1))).map
    (fun p => (⟨p.1.1, p.1.2, p.2.1⟩, ⟨p.2.2, 0o40555, false, 0⟩))

/-- `_finalize_files_table` (SQLiteIndex.py:694-726). -/
def DB.finalize (db : DB) : Table := db.generated.foldl insertOrIgnore db.files

/-- An empty index, then batches of rows, then finalisation (SQLiteIndex.py:643-660). -/
def DB.empty : DB := ⟨[], [], []⟩

/-- Batches of rows (SQLiteIndex.py:1060-1090). -/
def insertAll (batches : List (List Row)) : DB := batches.foldl DB.setFileInfos DB.empty

/-- Batches, then finalisation (SQLiteIndex.py:695-726, 1060-1090). -/
def build (batches : List (List Row)) : Table := (insertAll batches).finalize

/-! ## specification -/

/-- `stat.S_ISDIR(mode)`. -/
def isDir (mode : Nat) : Bool := mode &&& 0xF000 == 0x4000

/-- A row of an entry with a normal path: in the folder with the names `ns`. -/
structure RowOk (r : Row) (ns : List Str) : Prop where
  path : r.1.path = folderPath ns
  names : ∀ m ∈ ns, IsName m
  name : r.1.name = [] ∨ IsName r.1.name

/-! ## lemmas -/

theorem split_folderPath (ns : List Str) (h : ∀ m ∈ ns, IsName m) : split '/' (folderPath ns) = [] :: ns := by
  cases ns with
  | nil => rfl
  | cons n ns =>
    rw [folderPath, canonical_eq, split_cons_eq, split_join '/' _ (by simp) (fun p hp => (h p hp).2.1)]

theorem join_folderPath (ns : List Str) : join '/' ([] :: ns) = folderPath ns := by
  cases ns with
  | nil => rfl
  | cons n ns => simp [join, folderPath, canonical_eq]

theorem mem_ancestorPairs (ns : List Str) (h : ∀ m ∈ ns, IsName m) (p : Str × Str) :
    p ∈ ancestorPairs (folderPath ns) ↔ ∃ k, ∃ hk : k < ns.length, p = (folderPath (ns.take k), ns[k]) := by
  unfold ancestorPairs
  simp only [split_folderPath ns h, List.length_cons, Nat.add_sub_cancel, List.mem_map, List.mem_range'_1]
  constructor
  · rintro ⟨i, ⟨h1, h2⟩, rfl⟩
    refine ⟨i - 1, by omega, ?_⟩
    obtain ⟨j, rfl⟩ : ∃ j, i = j + 1 := ⟨i - 1, by omega⟩
    have hj : j < ns.length := by omega
    simp only [List.take_succ_cons, join_folderPath, List.getElem?_cons_succ, Nat.add_sub_cancel,
      List.getElem?_eq_getElem hj, Option.getD_some]
  · rintro ⟨k, hk, rfl⟩
    refine ⟨k + 1, ⟨by omega, by omega⟩, ?_⟩
    simp only [List.take_succ_cons, join_folderPath, List.getElem?_cons_succ, List.getElem?_eq_getElem hk,
      Option.getD_some]

section
variable {K V : Type} [DecidableEq K]

theorem get?_insertOrIgnore (t : Dict K V) (kv : K × V) (k : K) :
    (insertOrIgnore t kv).get? k = if kv.1 = k then some ((t.get? k).getD kv.2) else t.get? k := by
  unfold insertOrIgnore
  by_cases h : t.has kv.1 = true
  · rw [if_pos h]
    split
    · next he =>
      subst he
      cases hg : t.get? kv.1 with
      | none => simp [Dict.has, hg] at h
      | some v => rfl
    · rfl
  · rw [if_neg h, Dict.get?_set]
    split
    · next he =>
      subst he
      cases hg : t.get? kv.1 with
      | none => rfl
      | some v => simp [Dict.has, hg] at h
    · rfl

theorem mem_keys_insertOrIgnore (t : Dict K V) (kv : K × V) (k : K) :
    k ∈ (insertOrIgnore t kv).keys ↔ k = kv.1 ∨ k ∈ t.keys := by
  rw [Dict.mem_keys_iff, get?_insertOrIgnore, Dict.mem_keys_iff]
  split
  · next h => simp [h]
  · next h => exact ⟨.inr, fun h' => h'.resolve_left (fun he => h he.symm)⟩

theorem nodup_insertOrIgnore (t : Dict K V) (kv : K × V) (h : t.keys.Nodup) : (insertOrIgnore t kv).keys.Nodup := by
  unfold insertOrIgnore
  split
  · exact h
  · exact Dict.nodup_set t h _ _

theorem foldl_ignore_keys (l : List (K × V)) : ∀ (t : Dict K V) (k : K),
    k ∈ (l.foldl insertOrIgnore t).keys ↔ k ∈ l.map (·.1) ∨ k ∈ t.keys := by
  induction l with
  | nil => intro t k; simp
  | cons p l ih =>
    intro t k
    rw [List.foldl_cons, ih, mem_keys_insertOrIgnore, List.map_cons, List.mem_cons]
    constructor
    · rintro (h | h | h)
      · exact .inl (.inr h)
      · exact .inl (.inl h)
      · exact .inr h
    · rintro ((h | h) | h)
      · exact .inr (.inl h)
      · exact .inl h
      · exact .inr (.inr h)

theorem foldl_ignore_nodup (l : List (K × V)) : ∀ (t : Dict K V), t.keys.Nodup →
    (l.foldl insertOrIgnore t).keys.Nodup := by
  induction l with
  | nil => intro t h; exact h
  | cons p l ih => intro t h; exact ih _ (nodup_insertOrIgnore t p h)

/-- Rows that are there stay, and every new row is one of the inserted ones. -/
theorem foldl_ignore_get (l : List (K × V)) : ∀ (t : Dict K V) (k : K) (v : V),
    (l.foldl insertOrIgnore t).get? k = some v → t.get? k = some v ∨ (t.get? k = none ∧ (k, v) ∈ l) := by
  induction l with
  | nil => intro t k v h; exact .inl h
  | cons p l ih =>
    intro t k v h
    rw [List.foldl_cons] at h
    rcases ih _ k v h with h1 | ⟨h1, h2⟩
    · rw [get?_insertOrIgnore] at h1
      split at h1
      · next he =>
        cases hg : t.get? k with
        | none =>
          rw [hg] at h1
          simp only [Option.getD_none, Option.some.injEq] at h1
          exact .inr ⟨rfl, by rw [← he, ← h1]; simp⟩
        | some w => rw [hg] at h1; exact .inl (by simpa using h1)
      · exact .inl h1
    · rw [get?_insertOrIgnore] at h1
      split at h1
      · cases h1
      · exact .inr ⟨h1, List.mem_cons_of_mem _ h2⟩

theorem foldl_ignore_old (l : List (K × V)) : ∀ (t : Dict K V) (k : K) (v : V), t.get? k = some v →
    (l.foldl insertOrIgnore t).get? k = some v := by
  induction l with
  | nil => intro t k v h; exact h
  | cons p l ih =>
    intro t k v h
    rw [List.foldl_cons]
    refine ih _ k v ?_
    rw [get?_insertOrIgnore, h]
    split <;> simp

theorem foldl_replace_nodup (l : List (K × V)) : ∀ (t : Dict K V), t.keys.Nodup →
    (l.foldl insertOrReplace t).keys.Nodup := by
  induction l with
  | nil => intro t h; exact h
  | cons p l ih => intro t h; exact ih _ (Dict.nodup_set t h _ _)

/-- The last row for a key wins. -/
theorem foldl_replace_get (l : List (K × V)) : ∀ (t : Dict K V) (k : K),
    (l.foldl insertOrReplace t).get? k =
      ((l.filter (fun p => decide (p.1 = k))).getLast?.map (·.2)).or (t.get? k) := by
  induction l with
  | nil => intro t k; simp
  | cons p l ih =>
    intro t k
    rw [List.foldl_cons, ih, insertOrReplace, Dict.get?_set]
    by_cases hk : p.1 = k
    · rw [if_pos hk, List.filter_cons, if_pos (by simpa using hk)]
      cases hl : l.filter (fun p => decide (p.1 = k)) with
      | nil => simp
      | cons a b => simp [List.getLast?_cons]
    · rw [if_neg hk, List.filter_cons, if_neg (by simpa using hk)]

end

/-- What holds after any number of insertions of the rows `rows`. -/
structure Inserted (db : DB) (rows : List Row) : Prop where
  files : db.files = rows.foldl insertOrReplace []
  cached : ∀ p ∈ db.cache, p ∈ db.parents.keys
  parents : ∀ p, p ∈ db.parents.keys ↔ ∃ r ∈ rows, p ∈ ancestorPairs r.1.path
  nodup : db.parents.keys.Nodup
  from_ : ∀ p v, db.parents.get? p = some v → ∃ r ∈ rows, p ∈ ancestorPairs r.1.path ∧ v = (r.1.oh, r.2.offset)

theorem addParents_inv (db : DB) (r : Row) (P : Str × Str → Prop)
    (Q : Str × Str → Int × Int → Prop)
    (hc : ∀ p ∈ db.cache, p ∈ db.parents.keys) (hp : ∀ p, p ∈ db.parents.keys ↔ P p) (hn : db.parents.keys.Nodup)
    (hf : ∀ p v, db.parents.get? p = some v → Q p v) :
    (db.addParents r).files = db.files ∧ (∀ p ∈ (db.addParents r).cache, p ∈ (db.addParents r).parents.keys) ∧
    (∀ p, p ∈ (db.addParents r).parents.keys ↔ P p ∨ p ∈ ancestorPairs r.1.path) ∧
    (db.addParents r).parents.keys.Nodup ∧
    (∀ p v, (db.addParents r).parents.get? p = some v →
      Q p v ∨ (p ∈ ancestorPairs r.1.path ∧ v = (r.1.oh, r.2.offset))) := by
  unfold DB.addParents
  simp only
  generalize hpaths : (ancestorPairs r.1.path).filter (fun p => p ∉ db.cache) = paths
  have hmem : ∀ p, p ∈ paths ↔ p ∈ ancestorPairs r.1.path ∧ p ∉ db.cache := by
    intro p; rw [← hpaths]; simp
  have hall : ∀ p, (p ∈ paths ∨ p ∈ db.parents.keys) ↔ (P p ∨ p ∈ ancestorPairs r.1.path) := by
    intro p
    rw [hmem, ← hp]
    constructor
    · rintro (h | h)
      · exact .inr h.1
      · exact .inl h
    · rintro (h | h)
      · exact .inr h
      · by_cases hpc : p ∈ db.cache
        · exact .inr (hc p hpc)
        · exact .inl ⟨h, hpc⟩
  split
  · next he =>
    refine ⟨rfl, hc, ?_, hn, fun p v h => .inl (hf p v h)⟩
    intro p; rw [← hall]; simp [he]
  · have hkeys : ∀ p, p ∈ ((paths.map (fun p => (p, (r.1.oh, r.2.offset)))).foldl insertOrIgnore db.parents).keys ↔
        p ∈ paths ∨ p ∈ db.parents.keys := by
      intro p
      rw [foldl_ignore_keys]
      simp
    refine ⟨rfl, ?_, ?_, foldl_ignore_nodup _ _ hn, ?_⟩
    · intro p hp'
      rw [hkeys]
      have : p ∈ db.cache ++ paths := by
        simp only at hp'
        split at hp'
        · exact List.mem_of_mem_drop hp'
        · exact hp'
      rcases List.mem_append.mp this with h | h
      · exact .inr (hc p h)
      · exact .inl h
    · intro p; rw [hkeys]; exact hall p
    · intro p v h
      rcases foldl_ignore_get _ _ p v h with h1 | ⟨-, h1⟩
      · exact .inl (hf p v h1)
      · rw [List.mem_map] at h1
        obtain ⟨q, hq, he⟩ := h1
        simp only [Prod.mk.injEq] at he
        obtain ⟨rfl, rfl⟩ := he
        exact .inr ⟨((hmem q).mp hq).1, rfl⟩

theorem addParents_all (rows : List Row) : ∀ (db : DB) (done : List Row),
    (∀ p ∈ db.cache, p ∈ db.parents.keys) → (∀ p, p ∈ db.parents.keys ↔ ∃ r ∈ done, p ∈ ancestorPairs r.1.path) →
    db.parents.keys.Nodup →
    (∀ p v, db.parents.get? p = some v → ∃ r ∈ done, p ∈ ancestorPairs r.1.path ∧ v = (r.1.oh, r.2.offset)) →
    (rows.foldl DB.addParents db).files = db.files ∧
    (∀ p ∈ (rows.foldl DB.addParents db).cache, p ∈ (rows.foldl DB.addParents db).parents.keys) ∧
    (∀ p, p ∈ (rows.foldl DB.addParents db).parents.keys ↔ ∃ r ∈ done ++ rows, p ∈ ancestorPairs r.1.path) ∧
    (rows.foldl DB.addParents db).parents.keys.Nodup ∧
    (∀ p v, (rows.foldl DB.addParents db).parents.get? p = some v →
      ∃ r ∈ done ++ rows, p ∈ ancestorPairs r.1.path ∧ v = (r.1.oh, r.2.offset)) := by
  induction rows with
  | nil => intro db done h1 h2 h3 h4; rw [List.append_nil]; exact ⟨rfl, h1, h2, h3, h4⟩
  | cons r rows ih =>
    intro db done h1 h2 h3 h4
    obtain ⟨g0, g1, g2, g3, g4⟩ := addParents_inv db r _ _ h1 h2 h3 h4
    have := ih (db.addParents r) (done ++ [r]) g1 (by
      intro p; rw [g2]
      constructor
      · rintro (⟨q, hq, hp⟩ | h)
        · exact ⟨q, by simp [hq], hp⟩
        · exact ⟨r, by simp, h⟩
      · rintro ⟨q, hq, hp⟩
        rcases List.mem_append.mp hq with hq | hq
        · exact .inl ⟨q, hq, hp⟩
        · rw [List.mem_singleton] at hq; subst hq; exact .inr hp) g3 (by
      intro p v h
      rcases g4 p v h with ⟨q, hq, hp⟩ | h'
      · exact ⟨q, by simp [hq], hp⟩
      · exact ⟨r, by simp, h'⟩)
    rw [g0] at this
    rw [show done ++ r :: rows = done ++ [r] ++ rows by simp]
    exact this

theorem insertAll_from (batches : List (List Row)) : ∀ (db : DB) (done : List Row), Inserted db done →
    Inserted (batches.foldl DB.setFileInfos db) (done ++ batches.flatten) := by
  induction batches with
  | nil => intro db done h; simpa using h
  | cons b bs ih =>
    intro db done h
    rw [List.foldl_cons, List.flatten_cons, ← List.append_assoc]
    refine ih _ _ ?_
    obtain ⟨g0, g1, g2, g3, g4⟩ := addParents_all b { db with files := b.foldl insertOrReplace db.files } done
      h.cached h.parents h.nodup h.from_
    exact ⟨by rw [DB.setFileInfos, g0, h.files, List.foldl_append], g1, g2, g3, g4⟩

theorem insertAll_inv (batches : List (List Row)) : Inserted (insertAll batches) batches.flatten := by
  have := insertAll_from batches DB.empty [] ⟨rfl, by simp [DB.empty], by simp [DB.empty, Dict.keys],
    List.nodup_nil, by simp [DB.empty]⟩
  rwa [List.nil_append] at this

theorem getLast?_of_mem {α : Type} {l : List α} {a : α} (h : a ∈ l) : ∃ x, l.getLast? = some x := by
  cases hl : l.getLast? with
  | none => rw [List.getLast?_eq_none_iff.mp hl] at h; simp at h
  | some x => exact ⟨x, rfl⟩

/-- Rows of the table come from the inserted rows. -/
theorem mem_files (rows : List Row) (r : Row) (h : r ∈ (rows.foldl insertOrReplace ([] : Table))) : r ∈ rows := by
  have h1 := Dict.get?_eq_some_of_mem _ (foldl_replace_nodup rows [] List.nodup_nil) (k := r.1) (v := r.2) h
  rw [foldl_replace_get] at h1
  simp only [Dict.get?_nil, Option.or_none, Option.map_eq_some_iff] at h1
  obtain ⟨q, hq, he⟩ := h1
  have := List.mem_of_getLast? hq
  rw [List.mem_filter] at this
  have hk : q.1 = r.1 := by simpa using this.2
  have : q = r := Prod.ext hk he
  rw [← this]; exact (List.mem_filter.mp (List.mem_of_getLast? hq)).1

/-- Every key inserted is in the table. -/
theorem mem_files_keys (rows : List Row) (r : Row) (h : r ∈ rows) :
    r.1 ∈ (rows.foldl insertOrReplace ([] : Table)).keys := by
  rw [Dict.mem_keys_iff, foldl_replace_get]
  obtain ⟨q, hq⟩ := getLast?_of_mem (l := rows.filter (fun p => decide (p.1 = r.1))) (List.mem_filter.mpr ⟨h, by simp⟩)
  rw [hq]; simp

theorem build_nodup (batches : List (List Row)) : (build batches).keys.Nodup := by
  refine foldl_ignore_nodup _ _ ?_
  rw [(insertAll_inv batches).files]
  exact foldl_replace_nodup _ _ List.nodup_nil

/-- A row of the finished index was inserted or is a generated folder. -/
theorem mem_build (batches : List (List Row)) (r : Row) (h : r ∈ build batches) :
    r ∈ batches.flatten ∨ r ∈ (insertAll batches).generated := by
  have h1 := Dict.get?_eq_some_of_mem _ (build_nodup batches) (k := r.1) (v := r.2) h
  rcases foldl_ignore_get _ _ _ _ h1 with h2 | ⟨-, h2⟩
  · left
    rw [(insertAll_inv batches).files] at h2
    exact mem_files _ r (Dict.mem_of_get? _ h2)
  · exact .inr h2

theorem generated_dir (db : DB) (r : Row) (h : r ∈ db.generated) : r.2.mode = 0o40555 := by
  unfold DB.generated at h
  rw [List.mem_map] at h
  obtain ⟨p, -, rfl⟩ := h
  rfl

/-- Every ancestor of an inserted row has a row in the finished index. -/
theorem ancestor_row (batches : List (List Row)) (r : Row) (hr : r ∈ batches.flatten) (p : Str × Str)
    (hp : p ∈ ancestorPairs r.1.path) : ∃ q ∈ build batches, q.1.path = p.1 ∧ q.1.name = p.2 := by
  have inv := insertAll_inv batches
  by_cases hdir : ∀ q ∈ (insertAll batches).files, dirBit q.2.mode = true → (q.1.path, q.1.name) ≠ p
  · have hk := (inv.parents p).mpr ⟨r, hr, hp⟩
    rw [Dict.mem_keys_iff, Option.isSome_iff_exists] at hk
    obtain ⟨v, hv⟩ := hk
    have hg : ((⟨p.1, p.2, v.1⟩, ⟨v.2, 0o40555, false, 0⟩) : Row) ∈ (insertAll batches).generated := by
      unfold DB.generated
      rw [List.mem_map]
      refine ⟨(p, v), ?_, rfl⟩
      rw [List.mem_filter]
      exact ⟨Dict.mem_of_get? _ hv, by simpa using hdir⟩
    have : (⟨p.1, p.2, v.1⟩ : Key) ∈ (build batches).keys := by
      rw [build, DB.finalize, foldl_ignore_keys]
      left; rw [List.mem_map]; exact ⟨_, hg, rfl⟩
    rw [Dict.keys, List.mem_map] at this
    obtain ⟨q, hq, he⟩ := this
    exact ⟨q, hq, by rw [he], by rw [he]⟩
  · simp only [Classical.not_forall] at hdir
    obtain ⟨q, hq, hd, he⟩ := hdir
    have he := Classical.not_not.mp he
    have : q.1 ∈ (build batches).keys := by
      rw [build, DB.finalize, foldl_ignore_keys]
      right; rw [Dict.keys, List.mem_map]; exact ⟨q, hq, rfl⟩
    rw [Dict.keys, List.mem_map] at this
    obtain ⟨q', hq', he'⟩ := this
    exact ⟨q', hq', by rw [he', ← he], by rw [he', ← he]⟩

/-- A path with rows is found, and what is found is one of the rows. -/
theorem lookup_some (t : Table) (ht : t.keys.Nodup) (ns : List Str) (n : Str) (hns : ∀ m ∈ ns ++ [n], IsName m)
    (hex : ∃ q ∈ t, q.1.path = folderPath ns ∧ q.1.name = n) :
    ∃ q ∈ t, q.1.path = folderPath ns ∧ q.1.name = n ∧ lookup t (canonical (ns ++ [n])) 0 = some (toFileInfo q) := by
  have hq := query_canonical (ns ++ [n]) hns
  rw [C15_lookup t ht ns n hns _ hq _ (entries_exist ht (folderPath ns) n) 0]
  simp only [ge_iff_le, Int.reduceLE, if_false, Int.neg_zero, Int.toNat_zero]
  obtain ⟨q, hq1, hq2⟩ := hex
  have hmem : q ∈ orderAsc (rowsAt t (folderPath ns) n) := (entries_exist ht _ _).mem q |>.mpr ⟨hq1, hq2⟩
  rw [← List.head?_eq_getElem?, List.head?_reverse]
  obtain ⟨x, hx⟩ := getLast?_of_mem hmem
  have := ((entries_exist ht (folderPath ns) n).mem x).mp (List.mem_of_getLast? hx)
  exact ⟨x, this.1, this.2.1, this.2.2, by rw [hx]; rfl⟩

/-! ## C17 -/

/-- The full statement of C17: for every inserted entry in the folder `ns`, every ancestor `ns.take (k+1)` is
found as a directory and listed in its parent, and the entry itself is listed in its folder. -/
def C17_statement : Prop :=
  ∀ (batches : List (List Row)), (∀ r ∈ batches.flatten, ∃ ns, RowOk r ns) →
    ∀ r ∈ batches.flatten, ∀ ns, RowOk r ns →
      (∀ k (hk : k < ns.length),
        (∃ fi, lookup (build batches) (canonical (ns.take (k + 1))) 0 = some fi ∧ isDir fi.info.mode = true) ∧
        ∃ d, list (build batches) (canonical (ns.take k)) = some d ∧ ns[k] ∈ d.keys)

/-- **C17 is violated by the code**: a file entry with the name of the folder hides it, here `/a` stored after
`/a/b`. (The same happens for an explicit folder `/a`, then a file `/a`, then `/a/b`.) -/
theorem C17_violated : ¬ C17_statement := by
  intro h
  have := h [[(⟨"/a".toList, "b".toList, 0⟩, ⟨512, 0o100644, false, 0⟩), (⟨[], "a".toList, 1024⟩, ⟨1536, 0o100644, false, 0⟩)]]
    (by
      intro r hr
      simp only [List.flatten_cons, List.flatten_nil, List.append_nil, List.mem_cons, List.not_mem_nil, or_false] at hr
      rcases hr with rfl | rfl
      · exact ⟨["a".toList], by decide, by simp [IsName], .inr (by simp [IsName])⟩
      · exact ⟨[], by decide, by simp, .inr (by simp [IsName])⟩)
    (⟨"/a".toList, "b".toList, 0⟩, ⟨512, 0o100644, false, 0⟩) (by simp) ["a".toList]
    ⟨by decide, by simp [IsName], .inr (by simp [IsName])⟩ 0 (by decide)
  obtain ⟨⟨fi, h1, h2⟩, -⟩ := this
  have h3 : (lookup (build [[(⟨"/a".toList, "b".toList, 0⟩, ⟨512, 0o100644, false, 0⟩),
    (⟨[], "a".toList, 1024⟩, ⟨1536, 0o100644, false, 0⟩)]]) (canonical (["a".toList].take 1)) 0).map
      (fun fi => isDir fi.info.mode) = some false := by decide +kernel
  rw [h1] at h3
  simp [h2] at h3

theorem isName_take {ns : List Str} (h : ∀ m ∈ ns, IsName m) (k : Nat) (hk : k < ns.length) :
    ∀ m ∈ ns.take k ++ [ns[k]], IsName m := by
  intro m hm
  rcases List.mem_append.mp hm with hm | hm
  · exact h m (List.mem_of_mem_take hm)
  · rw [List.mem_singleton] at hm; subst hm; exact h _ (List.getElem_mem hk)

/-- **C17, provable part**: whatever the batching and the evictions from the parent-folder cache, every ancestor is
listed in its parent and found, and it is a directory if no entry that is not a directory was stored under its
path. Missing: archives with a file under the path of a folder. -/
theorem C17_reachable_partial (batches : List (List Row)) (r : Row) (hr : r ∈ batches.flatten) (ns : List Str)
    (hns : RowOk r ns) (k : Nat) (hk : k < ns.length) :
    (∃ d, list (build batches) (canonical (ns.take k)) = some d ∧ ns[k] ∈ d.keys) ∧
    (∃ fi, lookup (build batches) (canonical (ns.take (k + 1))) 0 = some fi ∧
      ((∀ q ∈ batches.flatten, q.1.path = folderPath (ns.take k) → q.1.name = ns[k] → isDir q.2.mode = true) →
        isDir fi.info.mode = true)) := by
  have hN := isName_take hns.names k hk
  have hnd := build_nodup batches
  have hpair : (folderPath (ns.take k), ns[k]) ∈ ancestorPairs r.1.path := by
    rw [hns.path, mem_ancestorPairs ns hns.names]; exact ⟨k, hk, rfl⟩
  obtain ⟨q, hq, hq1, hq2, hlook⟩ := lookup_some (build batches) hnd (ns.take k) ns[k] hN
    (ancestor_row batches r hr _ hpair)
  constructor
  · have hN' : ∀ m ∈ ns.take k, IsName m := fun m hm => hN m (List.mem_append_left _ hm)
    have h16 := (C16_list_lookup (build batches) hnd (ns.take k) ns[k] hN _ _ (query_canonical _ hN')
      (query_canonical _ hN)).1
    rw [hlook] at h16
    cases hl : list (build batches) (canonical (ns.take k)) with
    | none => rw [hl] at h16; cases h16
    | some d =>
      rw [hl] at h16
      refine ⟨d, rfl, ?_⟩
      rw [Dict.mem_keys_iff, show d.get? ns[k] = _ from h16]; rfl
  · have htake : ns.take (k + 1) = ns.take k ++ [ns[k]] := by rw [List.take_append_getElem hk]
    rw [htake]
    refine ⟨_, hlook, ?_⟩
    intro hall
    rcases mem_build batches q hq with h1 | h1
    · exact hall q h1 hq1 hq2
    · simp only [toFileInfo, generated_dir _ q h1]; decide

/-- **C17, the entries themselves**: every inserted entry is found under its path. -/
theorem C17_entry_found (batches : List (List Row)) (r : Row) (hr : r ∈ batches.flatten) (ns : List Str)
    (hns : RowOk r ns) (hname : r.1.name ≠ []) :
    (∃ fi, lookup (build batches) (canonical (ns ++ [r.1.name])) 0 = some fi ∧ r.1.oh ≤ fi.oh) ∧
      ∃ d, list (build batches) (canonical ns) = some d ∧ r.1.name ∈ d.keys := by
  have hN : ∀ m ∈ ns ++ [r.1.name], IsName m := by
    intro m hm
    rcases List.mem_append.mp hm with hm | hm
    · exact hns.names m hm
    · rw [List.mem_singleton] at hm; subst hm; exact hns.name.resolve_left hname
  have hnd := build_nodup batches
  have hkey : r.1 ∈ (build batches).keys := by
    rw [build, DB.finalize, foldl_ignore_keys, (insertAll_inv batches).files]
    exact .inr (mem_files_keys _ r hr)
  rw [Dict.keys, List.mem_map] at hkey
  obtain ⟨q, hq, he⟩ := hkey
  have hes := entries_exist hnd (folderPath ns) r.1.name
  have hlook := C15_lookup (build batches) hnd ns r.1.name hN _ (query_canonical _ hN) _ hes 0
  have hmem := (hes.mem q).mpr ⟨hq, by rw [he, hns.path], by rw [he]⟩
  simp only [ge_iff_le, Int.reduceLE, if_false, Int.neg_zero, Int.toNat_zero, ← List.head?_eq_getElem?,
    List.head?_reverse] at hlook
  obtain ⟨x, hx⟩ := getLast?_of_mem hmem
  have hle : q.1.oh ≤ x.1.oh := by
    rcases List.getLast?_eq_some_iff.mp hx with ⟨ys, hys⟩
    rw [hys] at hmem
    rcases List.mem_append.mp hmem with h | h
    · have hs := hes.sorted
      rw [hys, List.pairwise_append] at hs
      have := hs.2.2 q h x (by simp); omega
    · rw [List.mem_singleton] at h; rw [h]; omega
  rw [hx] at hlook
  refine ⟨⟨_, hlook, by simp only [toFileInfo]; rw [← he]; exact hle⟩, ?_⟩
  have h16 := (C16_list_lookup (build batches) hnd ns r.1.name hN _ _ (query_canonical _ hns.names)
    (query_canonical _ hN)).1
  rw [hlook] at h16
  cases hl : list (build batches) (canonical ns) with
  | none => rw [hl] at h16; cases h16
  | some d =>
    rw [hl] at h16
    refine ⟨d, rfl, ?_⟩
    rw [Dict.mem_keys_iff, show d.get? r.1.name = _ from h16]; rfl

/-- `/a/b/f` and `/a/c/g`, only files stored. -/
def exampleBatches : List (List Row) :=
  [[(⟨"/a/b".toList, "f".toList, 0⟩, ⟨512, 0o100644, false, 0⟩)], [(⟨"/a/c".toList, "g".toList, 1024⟩, ⟨1536, 0o100644, false, 0⟩)]]

example : RowOk (⟨"/a/b".toList, "f".toList, 0⟩, ⟨512, 0o100644, false, 0⟩) ["a".toList, "b".toList] :=
  ⟨by decide, by simp [IsName], .inr (by simp [IsName])⟩
example : ((lookup (build exampleBatches) "/a/b".toList 0).map (·.info.mode) = some 0o40555) ∧
    ((list (build exampleBatches) "/a".toList).map (·.keys) = some ["b".toList, "c".toList]) ∧
    (lookup (build exampleBatches) "/a/c/g".toList 0).isSome := by decide +kernel

end Verif.Index
