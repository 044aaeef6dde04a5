import Verif.Index.Reindex

/-!
# C18: interrupted index creation (core/ratarmountcore/SQLiteIndex.py:642-661, 694-742, 1175-1308)

The creation of an index is the list of its SQL statements in execution order. Each statement is atomic and a
crash happens between two of them: the state left behind is that of a prefix of the list. Assumption: a finished
statement is on disk (the connection uses `SYNCHRONOUS = OFF`, so this is about killed processes, not about power
failures), and rows of a batch become visible together.
-/

namespace Verif.Index

open Verif.Py

/-- The tables and views of create-index-tables.sql (used at SQLiteIndex.py:643-660). -/
inductive Tbl where
  | files | xattrkeys | xattrsdata | xattrs | filestmp | parentfolders | metadata | versions
  deriving DecidableEq

/-- An index file: the tables in it, and the contents relevant here (SQLiteIndex.py:643-774). -/
structure IndexFile where
  tables : List Tbl
  db : DB

/-- SQL statements (SQLiteIndex.py:643-774). -/
inductive Stmt where
  /-- `CREATE TABLE/VIEW IF NOT EXISTS` -/
  | create (t : Tbl)
  /-- `CREATE TRIGGER IF NOT EXISTS "xattrs_insert"` -/
  | createTrigger
  /-- `set_file_infos` -/
  | insert (rows : List Row)
  /-- `INSERT OR REPLACE INTO "files" SELECT * FROM "filestmp"`, which is always empty -/
  | copyTmp
  | drop (t : Tbl)
  /-- `INSERT OR IGNORE INTO "files" SELECT ... FROM "parentfolders"` -/
  | insertParents
  /-- `VACUUM`, `PRAGMA optimize` -/
  | vacuum
  /-- `store_metadata` (SQLiteIndex.py:486-493) -/
  | storeMetadata

/-- One statement (SQLiteIndex.py:643-774). -/
def IndexFile.exec (s : IndexFile) : Stmt → IndexFile
  | .create t => if t ∈ s.tables then s else { s with tables := s.tables ++ [t] }
  | .createTrigger => s
  | .insert rows => { s with db := s.db.setFileInfos rows }
  | .copyTmp => s
  | .drop t => { tables := s.tables.filter (· ≠ t),
                 db := if t = .parentfolders then { s.db with parents := [] } else s.db }
  | .insertParents => { s with db := { s.db with files := s.db.finalize } }
  | .vacuum => s
  | .storeMetadata => s

/-- Statements one after the other (SQLiteIndex.py:643-774). -/
def IndexFile.run (s : IndexFile) (l : List Stmt) : IndexFile := l.foldl IndexFile.exec s

/-- The script `_CREATE_TABLES`: create-index-tables.sql, in order (SQLiteIndex.py:643-660). -/
def createTables : List Stmt :=
  [.create .files, .create .xattrkeys, .create .xattrsdata, .create .xattrs, .createTrigger, .create .filestmp,
    .create .parentfolders, .create .metadata, .create .versions]

/-- `_finalize_files_table` (SQLiteIndex.py:703-720). -/
def finalizeTables : List Stmt :=
  [.copyTmp, .drop .filestmp, .insertParents, .drop .parentfolders, .vacuum, .vacuum]

/-- `finalize_index` (SQLiteIndex.py:744-775): `_create_sql_db` (SQLiteIndex.py:659), then `create_index_timed` with the script again (SQLiteIndex.py:734), the
batches (SQLiteIndex.py:735), finalisation (SQLiteIndex.py:736), then the metadata (SQLiteIndex.py:774). -/
def createIndex (batches : List (List Row)) : List Stmt :=
  createTables ++ createTables ++ batches.map .insert ++ finalizeTables ++ [.storeMetadata]

/-- `create_index_timed` on an existing index, for an archive that was appended to (SQLiteIndex.py:731-774). -/
def appendIndex (batches : List (List Row)) : List Stmt :=
  createTables ++ batches.map .insert ++ finalizeTables ++ [.storeMetadata]

/-- The checks of `_load_index` on the tables (SQLiteIndex.py:1259-1263). The callback `checkMetadata` (SQLiteIndex.py:1277-1281) can only reject
more; without the table "metadata" it is not called at all. -/
def accepted (s : IndexFile) : Prop := .files ∈ s.tables ∧ .filestmp ∉ s.tables ∧ .parentfolders ∉ s.tables

instance (s : IndexFile) : Decidable (accepted s) := by unfold accepted; infer_instance

/-- A new file (SQLiteIndex.py:643-660). -/
def newFile : IndexFile := ⟨[], DB.empty⟩

/-- An index as a finished run leaves it, with the rows `t`. -/
def completeFile (t : Table) : IndexFile := ⟨[.files, .xattrkeys, .xattrsdata, .xattrs, .metadata, .versions], ⟨t, [], []⟩⟩

/-! ## C18 -/

/-- The full statement of C18: an index file left behind by a crash after any number of statements is either
refused or shows all entries. -/
def C18_statement : Prop :=
  ∀ (batches : List (List Row)) (k : Nat),
    accepted (newFile.run ((createIndex batches).take k)) →
    ∀ path v, lookup (newFile.run ((createIndex batches).take k)).db.files path v = lookup (build batches) path v

/-- **C18 is violated by the code**: the script creates "files" before "filestmp" and "parentfolders", the marks of
an incomplete index. A crash in between leaves an index that is accepted and shows an empty archive. -/
theorem C18_violated : ¬ C18_statement := by
  intro h
  have := h [[(⟨[], "f".toList, 0⟩, ⟨512, 0o100644, false, 0⟩)]] 1 (by decide) "/f".toList 0
  exact absurd this (by decide +kernel)

theorem run_append (s : IndexFile) (a b : List Stmt) : s.run (a ++ b) = (s.run a).run b := by
  simp [IndexFile.run, List.foldl_append]

theorem run_inserts (batches : List (List Row)) : ∀ s : IndexFile,
    s.run (batches.map .insert) = { s with db := batches.foldl DB.setFileInfos s.db } := by
  induction batches with
  | nil => intro s; rfl
  | cons b bs ih =>
    intro s
    rw [List.map_cons, IndexFile.run, List.foldl_cons]
    exact ih (s.exec (.insert b))

/-- From any file in which the creation script has finished, up to the end. -/
theorem tail_accepted (s : IndexFile) (hp : .parentfolders ∈ s.tables) (batches : List (List Row)) (k : Nat)
    (h : accepted (s.run ((batches.map Stmt.insert ++ (finalizeTables ++ [Stmt.storeMetadata])).take k))) :
    (s.run ((batches.map Stmt.insert ++ (finalizeTables ++ [Stmt.storeMetadata])).take k)).db.files =
      (batches.foldl DB.setFileInfos s.db).finalize := by
  rw [List.take_append, run_append] at h ⊢
  by_cases hk : k < batches.length
  · exfalso
    rw [show k - (batches.map Stmt.insert).length = 0 by simp; omega, List.take_zero, ← List.map_take, run_inserts] at h
    exact h.2.2 hp
  · rw [List.take_of_length_le (by simp; omega), run_inserts] at h ⊢
    rw [List.length_map] at h ⊢
    generalize hj : k - batches.length = j at h ⊢
    generalize hdb : batches.foldl DB.setFileInfos s.db = db at h ⊢
    have hcase : j = 0 ∨ j = 1 ∨ j = 2 ∨ j = 3 ∨ 4 ≤ j := by omega
    rcases hcase with rfl | rfl | rfl | rfl | hj4
    · exact absurd hp h.2.2
    · exact absurd hp h.2.2
    · refine absurd ?_ h.2.2
      simp [IndexFile.run, finalizeTables, IndexFile.exec, hp]
    · refine absurd ?_ h.2.2
      simp [IndexFile.run, finalizeTables, IndexFile.exec, hp]
    · obtain ⟨i, rfl⟩ : ∃ i, j = i + 4 := ⟨j - 4, by omega⟩
      have : ∀ (s' : IndexFile) (l : List Stmt), (∀ x ∈ l, x = .vacuum ∨ x = .storeMetadata) → s'.run l = s' := by
        intro s' l
        induction l with
        | nil => intro _; rfl
        | cons x l ih =>
          intro hx
          have h1 : s'.exec x = s' := by rcases hx x (by simp) with rfl | rfl <;> rfl
          rw [IndexFile.run, List.foldl_cons, h1]
          exact ih (fun y hy => hx y (List.mem_cons_of_mem _ hy))
      have hsplit : (finalizeTables ++ [Stmt.storeMetadata]).take (i + 4) =
          [.copyTmp, .drop .filestmp, .insertParents, .drop .parentfolders] ++
            ([Stmt.vacuum, .vacuum, .storeMetadata]).take i := rfl
      rw [hsplit, run_append, this _ _ (by
        intro x hx
        have := List.mem_of_mem_take hx
        simp only [List.mem_cons, List.not_mem_nil, or_false] at this
        rcases this with rfl | rfl | rfl
        · exact .inl rfl
        · exact .inl rfl
        · exact .inr rfl)]
      rfl

/-- **C18, provable part**: once the statement that creates "filestmp" was executed, or before the first statement,
an index left behind by a crash is refused or complete. Missing: crashes between the creation of "files" and of
"filestmp". -/
theorem C18_after_schema_partial (batches : List (List Row)) (k : Nat) (hk : k = 0 ∨ 6 ≤ k)
    (h : accepted (newFile.run ((createIndex batches).take k))) :
    (newFile.run ((createIndex batches).take k)).db.files = build batches := by
  have hprog : createIndex batches = (createTables ++ createTables) ++
      (batches.map .insert ++ (finalizeTables ++ [.storeMetadata])) := by simp [createIndex]
  rw [hprog, List.take_append, run_append] at h ⊢
  by_cases hk18 : k < 18
  · exfalso
    rw [show k - (createTables ++ createTables).length = 0 by simp [createTables]; omega, List.take_zero] at h
    have hcase : k = 0 ∨ k = 6 ∨ k = 7 ∨ k = 8 ∨ k = 9 ∨ k = 10 ∨ k = 11 ∨ k = 12 ∨ k = 13 ∨ k = 14 ∨ k = 15 ∨
      k = 16 ∨ k = 17 := by omega
    rcases hcase with rfl | rfl | rfl | rfl | rfl | rfl | rfl | rfl | rfl | rfl | rfl | rfl | rfl <;>
      exact absurd h (by decide)
  · rw [List.take_of_length_le (by simp [createTables]; omega)] at h ⊢
    have h1 := tail_accepted (newFile.run (createTables ++ createTables)) (by decide) batches _ h
    rw [h1]
    rfl

example : accepted (newFile.run ((createIndex exampleBatches).take 24)) ∧
    ¬ accepted (newFile.run ((createIndex exampleBatches).take 22)) ∧
    ¬ accepted (newFile.run ((createIndex exampleBatches).take 19)) := by decide +kernel

/-- **C18, completed indexes are accepted**: the whole list of statements leaves an accepted index. -/
theorem C18_complete_accepted (batches : List (List Row)) : accepted (newFile.run (createIndex batches)) ∧
    (newFile.run (createIndex batches)).db.files = build batches := by
  have hprog : createIndex batches = (createTables ++ createTables) ++
      (batches.map .insert ++ (finalizeTables ++ [.storeMetadata])) := by simp [createIndex]
  rw [hprog, run_append, run_append, run_inserts]
  exact ⟨by refine ⟨?_, ?_, ?_⟩ <;> simp [IndexFile.run, createTables, finalizeTables, IndexFile.exec, newFile], rfl⟩

/-- **C18 for archives that were appended to**: extending a complete index, a crash after any number of statements
leaves an index that is refused, or shows the old entries, or shows the old and all new entries. -/
theorem C18_append (t : Table) (batches : List (List Row)) (k : Nat)
    (h : accepted ((completeFile t).run ((appendIndex batches).take k))) :
    ((completeFile t).run ((appendIndex batches).take k)).db.files = t ∨
    ((completeFile t).run ((appendIndex batches).take k)).db.files =
      (batches.foldl DB.setFileInfos ⟨t, [], []⟩).finalize := by
  have hprog : appendIndex batches = createTables ++ (batches.map .insert ++ (finalizeTables ++ [.storeMetadata])) := by
    simp [appendIndex]
  rw [hprog, List.take_append, run_append] at h ⊢
  by_cases hk : k < 9
  · left
    rw [show k - createTables.length = 0 by simp [createTables]; omega, List.take_zero]
    have hcase : k = 0 ∨ k = 1 ∨ k = 2 ∨ k = 3 ∨ k = 4 ∨ k = 5 ∨ k = 6 ∨ k = 7 ∨ k = 8 := by omega
    rcases hcase with rfl | rfl | rfl | rfl | rfl | rfl | rfl | rfl | rfl <;> rfl
  · right
    rw [List.take_of_length_le (by simp [createTables]; omega)] at h ⊢
    have h1 := tail_accepted ((completeFile t).run createTables) (by simp [IndexFile.run, createTables, IndexFile.exec, completeFile]) batches _ h
    rw [h1]
    rfl

example : accepted ((completeFile exampleTable).run ((appendIndex exampleBatches).take 3)) ∧
    ¬ accepted ((completeFile exampleTable).run ((appendIndex exampleBatches).take 10)) ∧
    accepted ((completeFile exampleTable).run ((appendIndex exampleBatches).take 15)) := by decide +kernel

end Verif.Index
