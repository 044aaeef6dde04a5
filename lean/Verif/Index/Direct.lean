import Verif.Index.Load
import Verif.Dict
import Verif.Py

/-!
# C173: mounting an SQLite file as an index
(core/ratarmountcore/mountsource/SQLiteIndexMountSource.py:57-92, 241-250, core/ratarmountcore/SQLiteIndex.py:216-305, 366-370, 1134-1150,
1175-1384, core/ratarmountcore/mountsource/factory.py:330-378)

An index can be mounted on its own. Every SQLite file has the signature of an index, so that this backend is tried for each of them.
Paths are absolute here, and the files of the host are a dictionary.
-/

namespace Verif.Direct

open Verif.Py
open Verif.Index

/-- What `SELECT * FROM versions` gives (SQLiteIndex.py:1262-1269): an `OperationalError`, rows that are too short, or the second number of the
version for each name. -/
inductive Versions where
  | missing
  | short
  | rows (minor : Dict Str (Option Nat))

/-- An SQLite database as far as it is looked at (SQLiteIndex.py:1261-1304): tables and views, the versions and whether the metadata are pairs. -/
structure Db where
  tables : List Str
  versions : Versions
  pairs : Bool

/-- What a file is (SQLiteIndex.py:1256-1261, SQLiteIndexMountSource.py:241-250): it does not start with the magic bytes, it does but SQLite cannot
open it, or it is a database. -/
inductive Content where
  | other
  | broken
  | db (d : Db)

/-- A file and whether it can be removed (SQLiteIndex.py:1374-1376). -/
structure File where
  content : Content
  removable : Bool

/-- The files of the host (SQLiteIndexMountSource.py:63-66). -/
abbrev Host := Dict Str File

/-! ## the model -/

/-- `versions['index'][1] < 2` raises an exception if the number is missing (SQLiteIndex.py:1290-1295); otherwise there is only a warning. -/
def minorOk (v : Versions) : Bool :=
  match v with
  | .rows r => match Dict.get? r "index".toList with | some none => false | _ => true
  | _ => true

/-- The checks inside of the try block (SQLiteIndex.py:1271-1304) without a function that checks the metadata. -/
def checksPass (d : Db) : Bool :=
  if d.tables.contains "bzip2blocks".toList && !d.tables.contains "versions".toList then false             -- 1273
  else if !d.tables.contains "files".toList then false                                                     -- 1282
  else if d.tables.contains "filestmp".toList || d.tables.contains "parentfolders".toList then false       -- 1285
  else if d.tables.contains "versions".toList && !minorOk d.versions then false                            -- 1290
  else !d.tables.contains "metadata".toList || d.pairs                                                     -- 1301

/-- `_load_index` (SQLiteIndex.py:1175-1336) of an uncompressed file, and whether a connection is left. An `IndexError` for a row of `versions` is
raised outside of the try block, which leaves the connection. -/
def loadContent (c : Content) : LoadResult × Bool :=
  match c with
  | .other => (.failed, false)
  | .broken => (.failed, false)
  | .db d =>
    match d.versions with
    | .short => (.failed, true)
    | _ => if checksPass d then (.loaded, true) else (.failed, false)

/-- `index_is_loaded` (SQLiteIndex.py:1134-1150) after loading. -/
def isLoaded (c : Content) : Bool :=
  match c with
  | .db d => (loadContent c).2 && d.tables.contains "files".toList
  | _ => false

/-- The keyword arguments of `SQLiteIndex` (SQLiteIndex.py:216-228): `readOnlyIndex` is false by default, all that is not known ends up in
`**_`. -/
def readOnlyOf (kwargs : Dict Str Bool) : Bool := (Dict.get? kwargs "readOnlyIndex".toList).getD false

/-- The arguments with which an index is opened on its own (SQLiteIndexMountSource.py:80). -/
def directArgs : Dict Str Bool := [("readOnly".toList, true)]

/-- Removing files (SQLiteIndex.py:1376). -/
def removeAll (host : Host) : List Str → Host
  | [] => host
  | p :: ps => removeAll (Dict.del host p) ps

/-- `open_existing` (SQLiteIndex.py:366-370) with one possible path, the one given (SQLiteIndex.py:327-328). -/
def openAt (host : Host) (kwargs : Dict Str Bool) (path : Str) (f : File) : Host :=
  removeAll host (openExisting (readOnlyOf kwargs) [(path, (loadContent f.content).1, f.removable)]).2

/-- `_quick_check_file` (SQLiteIndexMountSource.py:241-250). -/
def magic (c : Content) : Bool :=
  match c with
  | .other => false
  | _ => true

/-- Whether a mount is made, after the index was opened (SQLiteIndexMountSource.py:88-92). -/
def verdict (c : Content) : Except PyErr Unit := if isLoaded c then .ok () else .error .ratarmount

/-- `SQLiteIndexMountSource` for a path (SQLiteIndexMountSource.py:57-92). -/
def mountPath (host : Host) (path : Str) : Except PyErr Unit × Host :=
  match Dict.get? host path with
  | none => (.error .fileNotFound, host)
  | some f =>
    if magic f.content then (verdict f.content, openAt host directArgs path f)
    else (.error .ratarmount, host)

/-- `SQLiteIndexMountSource` for a file object (SQLiteIndexMountSource.py:68-80): a copy is made at a new temporary path, and the copy is opened. -/
def mountObject (host : Host) (tmp : Str) (c : Content) : Except PyErr Unit × Host :=
  if magic c then (verdict c, Dict.del (openAt (Dict.set host tmp ⟨c, true⟩) directArgs tmp ⟨c, true⟩) tmp)
  else (.error .ratarmount, host)

/-- One attempt of `open_mount_source` (factory.py:350-378): a backend for archives that fails or mounts and only reads the file, or the one for
indexes. -/
inductive Backend where
  | reads (mounts : Bool)
  | index

/-- The loop of `open_mount_source` (factory.py:333-378) over the backends that fit; the result tells whether one mounted the file. -/
def openAll (path : Str) : List Backend → Host → Bool × Host
  | [], host => (false, host)
  | .reads true :: _, host => (true, host)
  | .reads false :: bs, host => openAll path bs host
  | .index :: bs, host =>
    match mountPath host path with
    | (.ok (), host') => (true, host')
    | (.error _, host') => openAll path bs host'

/-! ## specification -/

/-- A finished index: there is a table with files, none of the tables that exist only while it is made, it is not from a version with the error in
the decoder for bzip2, and its versions and metadata are in order. -/
def GoodIndex (d : Db) : Prop :=
  "files".toList ∈ d.tables ∧ "filestmp".toList ∉ d.tables ∧ "parentfolders".toList ∉ d.tables ∧
  ("bzip2blocks".toList ∈ d.tables → "versions".toList ∈ d.tables) ∧
  (match d.versions with
    | .missing => True
    | .short => False
    | .rows r => "versions".toList ∈ d.tables → Dict.get? r "index".toList ≠ some none) ∧
  ("metadata".toList ∈ d.tables → d.pairs = true)

/-- **C173** as stated: trying to mount a file with the backends that fit leaves all files of the host. -/
def C173_statement : Prop := ∀ host path backends, (openAll path backends host).2 = host

/-! ## proofs -/

theorem checksPass_iff (d : Db) (h : d.versions ≠ .short) : checksPass d = true ↔ GoodIndex d := by
  unfold checksPass GoodIndex minorOk
  cases hv : d.versions with
  | short => exact absurd hv h
  | missing =>
    simp only [List.contains_iff_mem, Bool.and_eq_true, Bool.or_eq_true, Bool.not_eq_true']
    by_cases h1 : "bzip2blocks".toList ∈ d.tables <;> by_cases h2 : "versions".toList ∈ d.tables <;>
      by_cases h3 : "files".toList ∈ d.tables <;> by_cases h4 : "filestmp".toList ∈ d.tables <;>
      by_cases h5 : "parentfolders".toList ∈ d.tables <;> by_cases h6 : "metadata".toList ∈ d.tables <;>
      simp_all
  | rows r =>
    have hq : ∀ o : Option (Option Nat), ((match o with | some none => false | _ => true) = true) ↔ o ≠ some none := by
      intro o
      rcases o with _ | (_ | _) <;> simp
    have hq := hq (Dict.get? r "index".toList)
    generalize hb : (match Dict.get? r "index".toList with | some none => false | _ => true) = b at hq
    by_cases h1 : "bzip2blocks".toList ∈ d.tables <;> by_cases h2 : "versions".toList ∈ d.tables <;>
      by_cases h3 : "files".toList ∈ d.tables <;> by_cases h4 : "filestmp".toList ∈ d.tables <;>
      by_cases h5 : "parentfolders".toList ∈ d.tables <;> by_cases h6 : "metadata".toList ∈ d.tables <;>
      cases b <;> simp_all

/-- A file is usable as an index. -/
def Usable (c : Content) : Prop := ∃ d, c = .db d ∧ GoodIndex d

/-- A file is loaded exactly if it is usable. -/
theorem load_iff (c : Content) : (loadContent c).1 = .loaded ↔ Usable c := by
  cases c with
  | other => exact ⟨(fun h => by cases h), (fun ⟨_, h, _⟩ => by cases h)⟩
  | broken => exact ⟨(fun h => by cases h), (fun ⟨_, h, _⟩ => by cases h)⟩
  | db d =>
    have hu : Usable (.db d) ↔ GoodIndex d := ⟨(fun ⟨_, h, g⟩ => by cases h; exact g), (fun g => ⟨d, rfl, g⟩)⟩
    rw [hu]
    by_cases hs : d.versions = .short
    · have h1 : loadContent (.db d) = (.failed, true) := by simp [loadContent, hs]
      rw [h1]
      refine ⟨(fun h => by cases h), fun h => ?_⟩
      have h5 := h.2.2.2.2.1
      rw [hs] at h5
      exact h5.elim
    · rw [← checksPass_iff d hs]
      have h1 : loadContent (.db d) = if checksPass d then (.loaded, true) else (.failed, false) := by
        unfold loadContent
        cases hv : d.versions with
        | short => exact absurd hv hs
        | missing => simp only [hv]
        | rows r => simp only [hv]
      rw [h1]
      cases checksPass d <;> simp

/-- Loading either works or fails. -/
theorem load_cases (c : Content) : (loadContent c).1 = .loaded ∨ (loadContent c).1 = .failed := by
  unfold loadContent
  split
  · exact .inr rfl
  · exact .inr rfl
  · split
    · exact .inr rfl
    · split
      · exact .inl rfl
      · exact .inr rfl

/-- What is left of the host after `open_existing`. -/
theorem openAt_direct (host : Host) (path : Str) (f : File) (hurl : contains "://".toList path = false) :
    openAt host directArgs path f = if (loadContent f.content).1 = .loaded then host else if f.removable then Dict.del host path else host := by
  have hr : readOnlyOf directArgs = false := by decide
  unfold openAt
  rw [hr]
  rcases load_cases f.content with h | h
  · simp [h, openExisting, tryLoadIndex, removeAll]
  · rw [h, if_neg (by decide)]
    have ht : tryLoadIndex false path .failed f.removable = (.returns false, if f.removable then [path] else []) := by
      show (if (!false && !contains "://".toList path) = true then _ else _) = _
      rw [hurl]
      rfl
    unfold openExisting
    rw [ht]
    cases hb : f.removable <;> rfl

/-- **C173** is wrong: a database that is not an index is removed when somebody tries to mount it. `readOnly=True` is not a parameter of
`SQLiteIndex` (it is called `readOnlyIndex`), so that the file is taken for a cached index that is of no use. -/
theorem C173_violated : ¬ C173_statement := by
  intro h
  have h1 := h [("/home/u/notes.sqlite".toList, ⟨.db ⟨["notes".toList], .missing, true⟩, true⟩)] "/home/u/notes.sqlite".toList [.reads false, .index]
  have h2 : (openAll "/home/u/notes.sqlite".toList [.reads false, .index]
      [("/home/u/notes.sqlite".toList, ⟨.db ⟨["notes".toList], .missing, true⟩, true⟩)]).2 = [] := by
    rfl
  rw [h2] at h1
  cases h1

/-- **C173**, when it happens: the file is removed exactly if it starts like an SQLite file, is not a finished index and can be removed; in this
case nothing is changed but this file. -/
theorem C173_removed (host : Host) (path : Str) (f : File) (hf : Dict.get? host path = some f) (hurl : contains "://".toList path = false) :
    (mountPath host path).2 = host ∧ (f.content = .other ∨ Usable f.content ∨ f.removable = false) ∨
    (mountPath host path).2 = Dict.del host path ∧ f.content ≠ .other ∧ ¬ Usable f.content ∧ f.removable = true := by
  have hm : mountPath host path = if magic f.content then (verdict f.content, openAt host directArgs path f) else (.error .ratarmount, host) := by
    unfold mountPath
    rw [hf]
  rw [hm]
  by_cases ho : f.content = .other
  · left
    rw [ho]
    exact ⟨rfl, .inl rfl⟩
  · have hmag : magic f.content = true := by
      unfold magic
      split
      · next h => exact absurd h ho
      · rfl
    rw [if_pos hmag]
    show openAt host directArgs path f = host ∧ _ ∨ openAt host directArgs path f = Dict.del host path ∧ _
    rw [openAt_direct host path f hurl]
    by_cases hu : Usable f.content
    · rw [if_pos ((load_iff _).mpr hu)]
      exact .inl ⟨rfl, .inr (.inl hu)⟩
    · rw [if_neg (fun h => hu ((load_iff _).mp h))]
      cases hr : f.removable with
      | true => exact .inr ⟨rfl, ho, hu, rfl⟩
      | false => exact .inl ⟨rfl, .inr (.inr rfl)⟩

/-- **C173** for what is an index, and for what does not look like one: nothing is changed, and an index is mounted. -/
theorem C173_partial (host : Host) (path : Str) (f : File) (hf : Dict.get? host path = some f) (hurl : contains "://".toList path = false)
    (h : f.content = .other ∨ Usable f.content) :
    (mountPath host path).2 = host ∧ (Usable f.content → (mountPath host path).1 = .ok ()) := by
  constructor
  · rcases C173_removed host path f hf hurl with h1 | ⟨_, h1, h2, _⟩
    · exact h1.1
    · exact h.elim (fun h => absurd h h1) (fun h => absurd h h2)
  · intro hu
    obtain ⟨d, hd, hg⟩ := hu
    have hm : mountPath host path = if magic f.content then (verdict f.content, openAt host directArgs path f) else (.error .ratarmount, host) := by
      unfold mountPath
      rw [hf]
    rw [hm, hd, if_pos (show magic (.db d) = true from rfl)]
    show verdict (.db d) = .ok ()
    have hl := (load_iff (.db d)).mpr ⟨d, rfl, hg⟩
    have h2 : (loadContent (.db d)).2 = true := by
      unfold loadContent at hl ⊢
      cases hv : d.versions with
      | short => simp only [hv]
      | missing => simp only [hv] at hl ⊢; split at hl <;> simp_all
      | rows r => simp only [hv] at hl ⊢; split at hl <;> simp_all
    have h3 : isLoaded (.db d) = true := by
      show ((loadContent (.db d)).2 && d.tables.contains "files".toList) = true
      rw [h2, Bool.true_and]
      exact List.contains_iff_mem.mpr hg.1
    unfold verdict
    rw [if_pos h3]

/-- **C173** through `open_mount_source`, for files that are an index or do not look like one: nothing is changed. -/
theorem C173_all_partial (host : Host) (path : Str) (f : File) (hf : Dict.get? host path = some f) (hurl : contains "://".toList path = false)
    (h : f.content = .other ∨ Usable f.content) (bs : List Backend) : (openAll path bs host).2 = host := by
  induction bs with
  | nil => rfl
  | cons b bs ih =>
    match b with
    | .reads true => rfl
    | .reads false => exact ih
    | .index =>
      have h1 := (C173_partial host path f hf hurl h).1
      unfold openAll
      generalize mountPath host path = m at h1
      obtain ⟨r, host'⟩ := m
      replace h1 : host' = host := h1
      subst h1
      cases r with
      | ok u => rfl
      | error e => exact ih

/-- What a host looks like from the outside. -/
def Same (a b : Host) : Prop := ∀ p, Dict.get? a p = Dict.get? b p

/-- **C173** for file objects, as for archives inside of others: only a copy is removed. -/
theorem C173_object (host : Host) (tmp : Str) (c : Content) (hn : host.keys.Nodup) (hnew : Dict.get? host tmp = none)
    (hurl : contains "://".toList tmp = false) : Same (mountObject host tmp c).2 host := by
  intro p
  unfold mountObject
  split
  · show Dict.get? (Dict.del (openAt (Dict.set host tmp ⟨c, true⟩) directArgs tmp ⟨c, true⟩) tmp) p = Dict.get? host p
    have hn2 : (Dict.set host tmp (⟨c, true⟩ : File)).keys.Nodup := Dict.nodup_set host hn tmp _
    rw [openAt_direct _ _ _ hurl]
    have key : Dict.get? (Dict.del (Dict.set host tmp (⟨c, true⟩ : File)) tmp) p = Dict.get? host p := by
      rw [Dict.get?_del _ hn2]
      by_cases hp : tmp = p
      · rw [if_pos hp, ← hp, hnew]
      · rw [if_neg hp, Dict.get?_set, if_neg hp]
    split
    · exact key
    · rw [if_pos rfl]
      have hn3 : (Dict.del (Dict.set host tmp (⟨c, true⟩ : File)) tmp).keys.Nodup := Dict.nodup_del _ hn2 _
      rw [Dict.get?_del _ hn3]
      by_cases hp : tmp = p
      · rw [if_pos hp, ← hp, hnew]
      · rw [if_neg hp]
        exact key
  · rfl

/-- **C173** through `open_mount_source`: if the backends before the one for indexes cannot mount a database that is not an index, the file is
removed and nothing is mounted by it; this is the case for all databases that are no SQLite archives. -/
theorem C173_backends (host : Host) (path : Str) (f : File) (hf : Dict.get? host path = some f) (hn : host.keys.Nodup)
    (hurl : contains "://".toList path = false) (hc : f.content ≠ .other) (hu : ¬ Usable f.content) (hr : f.removable = true)
    (before after : List Backend) (hb : ∀ b ∈ before, b = .reads false) :
    Dict.get? (openAll path (before ++ .index :: after) host).2 path = none := by
  induction before with
  | cons b bs ih =>
    have h := hb b List.mem_cons_self
    subst h
    exact ih (fun x hx => hb x (List.mem_cons_of_mem _ hx))
  | nil =>
    have hrest : ∀ (bs : List Backend) (h : Host), Dict.get? h path = none → Dict.get? (openAll path bs h).2 path = none := by
      intro bs
      induction bs with
      | nil => exact fun h hh => hh
      | cons b bs ih =>
        intro h hh
        match b with
        | .reads true => exact hh
        | .reads false => exact ih h hh
        | .index =>
          have : mountPath h path = (.error .fileNotFound, h) := by unfold mountPath; rw [hh]
          unfold openAll
          rw [this]
          exact ih h hh
    rcases C173_removed host path f hf hurl with ⟨_, h | h | h⟩ | ⟨h, _⟩
    · exact absurd h hc
    · exact absurd h hu
    · rw [hr] at h; cases h
    · have hgone : Dict.get? (mountPath host path).2 path = none := by
        rw [h, Dict.get?_del _ hn, if_pos rfl]
      show Dict.get? (openAll path (.index :: after) host).2 path = none
      unfold openAll
      generalize hm : mountPath host path = m at hgone
      obtain ⟨r, host'⟩ := m
      cases r with
      | ok u => exact hgone
      | error e => exact hrest after host' hgone

/-! ## a concrete case -/

/-- The tables of a finished index. -/
def demoDb : Db := ⟨["files".toList, "metadata".toList, "versions".toList, "xattrs".toList], .rows [("index".toList, some 6)], true⟩

example : Usable (.db demoDb) := ⟨demoDb, rfl, by decide, by decide, by decide, by decide, fun _ => by decide, fun _ => rfl⟩
example : (mountPath [("/a.index.sqlite".toList, ⟨.db demoDb, true⟩)] "/a.index.sqlite".toList).1 = .ok () := by rfl
example : contains "://".toList "/home/u/notes.sqlite".toList = false := by decide
/-- A database with the history of a browser: it is neither a SQLite archive nor an index. -/
example : (openAll "/h.sqlite".toList [.reads false, .index] [("/h.sqlite".toList, ⟨.db ⟨["urls".toList], .missing, true⟩, true⟩),
    ("/x".toList, ⟨.other, true⟩)]) = (false, [("/x".toList, ⟨.other, true⟩)]) := by rfl
/-- An index that another process is still writing. -/
example : ¬ Usable (.db ⟨["files".toList, "filestmp".toList], .missing, true⟩) := by
  rintro ⟨d, h, g⟩
  cases h
  exact g.2.1 (by decide)

end Verif.Direct
