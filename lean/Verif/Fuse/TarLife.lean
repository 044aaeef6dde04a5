import Verif.Fuse.TarTable
import Verif.Index.Crash
import Verif.Tar.Verify

/-!
# C207: a TAR archive that grows, with an index that is saved, used again, extended, or left behind by a killed process
(core/ratarmountcore/mountsource/formats/tar.py:594-735, 1125-1416, core/ratarmountcore/SQLiteIndex.py:366-391, 440-497, 694-775, 1175-1380)

There is one place for the index file, next to the archive, and the archive is an uncompressed file. A killed process leaves the effects of
the first statements (see `Verif.Index.Crash`). Not modelled: the table that `_path_can_be_used_for_sqlite` creates and removes
(SQLiteIndex.py:597-613), compressed indexes, several places for indexes, indexes that move from memory to a file, the read-only option, `DELETE FROM metadata` and
`DELETE FROM versions` as two statements, and the warnings about other arguments.
-/

namespace Verif.Fuse.TarLife

open Verif.Py Verif.Index Verif.Fuse.TarMount Verif.Fuse.TarFiles Verif.Fuse.TarTable
open Verif.Tar (Member Hdr Bytes IRow PRow Stats Now archiveOf newIndex extendIndex checkRows isRegularRow openExisting pastEndOffset)
open Verif.Tar.Header (File Written codec)
open Verif.Compose (Source dotVersions)

/-! ## model -/

/-- A database: its tables, the metadata "tarstats", whether there is the metadata "backendName", and the columns of the inserted rows that
are only copied, by number (SQLiteIndex.py:460-497). -/
structure Disk where
  file : IndexFile
  stats : Option Stats
  backend : Bool
  rows : List IRow

/-- Statements: those of `Verif.Index.Crash`, the insertion of a batch, `drop_metadata`, and storing the two metadata
(SQLiteIndex.py:460-497, 1055-1090). -/
inductive Act where
  | sql (s : Stmt)
  | insert (batch : List IRow)
  | clear
  | stats (s : Stats)
  | backend

/-- One statement (SQLiteIndex.py:460-497, 1055-1090). -/
def Disk.exec (d : Disk) : Act → Disk
  | .sql s => ⟨d.file.exec s, d.stats, d.backend, d.rows⟩
  | .insert batch => ⟨d.file.exec (.insert (numbered d.rows.length batch)), d.stats, d.backend, d.rows ++ batch⟩
  | .clear => ⟨d.file, none, false, d.rows⟩
  | .stats s => ⟨d.file, some s, d.backend, d.rows⟩
  | .backend => ⟨d.file, d.stats, true, d.rows⟩

/-- Statements one after the other (SQLiteIndex.py:460-497). -/
def Disk.run (d : Disk) (l : List Act) : Disk := l.foldl Disk.exec d

/-- A new database (SQLiteIndex.py:642-661). -/
def fresh : Disk := ⟨newFile, none, false, []⟩

/-- An index that was opened: nothing is cached (SQLiteIndex.py:1018-1032). -/
def Disk.reopen (d : Disk) : Disk := ⟨⟨d.file.tables, ⟨d.file.db.files, d.file.db.parents, []⟩⟩, d.stats, d.backend, d.rows⟩

/-- Creating an index (SQLiteIndex.py:744-775, tar.py:724-735): the script runs twice, see `Index.createIndex`. -/
def createActs (bs : List (List IRow)) (st : Stats) : List Act :=
  ((createTables ++ createTables).map .sql ++ (bs.map .insert ++ finalizeTables.map .sql) ++ [.sql .storeMetadata]) ++ [.stats st, .backend]

/-- Extending an index (tar.py:702-717). -/
def extendActs (bs : List (List IRow)) (st : Stats) : List Act :=
  (createTables.map .sql ++ (bs.map .insert ++ finalizeTables.map .sql)) ++ ([.clear, .sql .storeMetadata] ++ [.stats st, .backend])

/-- The archive with the time of its last change, and the index file next to it. -/
structure World where
  ws : Packing
  zeros : Nat
  mtime : Int
  index : Option Disk

/-- The bytes of the archive. -/
def World.archive (w : World) : Bytes := bytesOf w.ws w.zeros

/-- Options of a mount: whether the time is checked and whether an index is written to a file; and what is not determined: the batches in
which rows are inserted, and the rows that are chosen for the check (tar.py:518-560, 1336-1350). -/
structure Options where
  verify : Bool
  write : Bool
  batches : List IRow → List (List IRow)
  picks : List IRow → List IRow

/-- `os.stat` of the archive (tar.py:1257, SQLiteIndex.py:460-470). -/
def World.stats (w : World) : Stats := ⟨some w.archive.length, some w.mtime⟩

/-- The archive and options for the checks (tar.py:1156-1334). -/
def World.now (w : World) (o : Options) : Now := ⟨w.archive.length, w.mtime, false, false, o.verify, true⟩

/-- A row as `_get_past_end_offset` sees it (tar.py:1125-1154). -/
def prow (rs : List IRow) (r : Row) : PRow := ⟨r.2.offset.toNat, sizeAt rs r.2.rest, false⟩

/-- The rows of regular files (SQLiteIndex.py:213). -/
def regular (d : Disk) : List IRow := (d.file.db.files.filterMap (fun r => column d.rows r.2.rest)).filter isRegularRow

/-- The first two rows (tar.py:1326-1331). -/
def firstTwo (l : List IRow) : List IRow := (sortBy (fun a b : IRow => decide (a.offset ≤ b.offset)) l).take 2

/-- The check for the end-of-archive blocks (tar.py:1275-1289). -/
def endsThere (archive : Bytes) (rows : List PRow) : Bool :=
  match pastEndOffset rows with
  | .ok (some p) => decide ((archive.drop p).take 1024 = List.replicate 1024 0)
  | _ => false

/-- Whether the rows pass (tar.py:1326-1331). -/
def passes (esc : Bytes → Str) (ign : Bool) (archive : Bytes) (rs : List IRow) : Bool :=
  match checkRows (codec esc) (plain ign) archive rs with
  | .ok b => b
  | .error _ => false

/-- The index for the checks (tar.py:1246-1334). The version of the index is stored before the statistics.
`valid` is not looked at before `appended`. -/
def toIndex (esc : Bytes → Str) (ign : Bool) (archive : Bytes) (d : Disk) : Tar.Index where
  stats := d.stats
  rows := d.file.db.files.map (prow d.rows)
  fileCount := d.file.db.files.length
  sameVersion := true
  eofZeros := endsThere archive (d.file.db.files.map (prow d.rows))
  rowsOk := d.backend || passes esc ign archive (firstTwo (regular d))
  valid := true

/-- What a mount does: use an index, execute statements on an index file, or make an index in memory while an index file may stay
(tar.py:688-735). -/
inductive Plan where
  | use (d : Disk)
  | write (d : Disk) (acts : List Act)
  | memory (kept : Option Disk) (d : Disk) (acts : List Act)

/-- All rows of the archive (tar.py:724-735). -/
def World.all (esc : Bytes → Str) (ign : Bool) (w : World) : List IRow := newIndex (codec esc) (plain ign) 0 w.archive

/-- Making a new index (tar.py:719-735). `_path_can_be_used_for_sqlite` refuses a file that exists (SQLiteIndex.py:597-601); then the index is
made in memory if no folders for indexes were given (SQLiteIndex.py:347-349). -/
def create (esc : Bytes → Str) (ign : Bool) (w : World) (o : Options) (kept : Option Disk) : Plan :=
  if o.write = true ∧ kept.isNone = true then .write fresh (createActs (o.batches (w.all esc ign)) w.stats)
  else .memory kept fresh (createActs (o.batches (w.all esc ign)) w.stats)

/-- Extending the index from the offset on (tar.py:702-717). -/
def extend (esc : Bytes → Str) (ign : Bool) (w : World) (o : Options) (d : Disk) (p : Nat) : Plan :=
  .write d.reopen (extendActs (o.batches (extendIndex (codec esc) (plain ign) 0 p w.archive)) w.stats)

/-- An index that was loaded and whose archive was appended to (tar.py:700-721). -/
def appended (esc : Bytes → Str) (ign : Bool) (w : World) (o : Options) (d : Disk) : Except PyErr Plan :=
  match pastEndOffset (d.file.db.files.map (prow d.rows)) with
  | .error e => .error e
  | .ok none => .ok (create esc ign w o (some d))
  | .ok (some p) =>
    if p = 0 then .ok (create esc ign w o (some d))
    else
      match checkRows (codec esc) (plain ign) w.archive (o.picks (regular d)) with
      | .error e => .error e
      | .ok true => .ok (extend esc ign w o d p)
      | .ok false => .ok (create esc ign w o (some d))

/-- `_load_index` (SQLiteIndex.py:1255-1281): whether the index is loaded, and whether the archive was appended to. Without the table
"metadata" there are no checks. -/
def load (esc : Bytes → Str) (ign : Bool) (w : World) (o : Options) (d : Disk) : Bool × Bool :=
  if accepted d.file then
    if .metadata ∈ d.file.tables then
      match openExisting (w.now o) [toIndex esc ign w.archive d] false with
      | (none, flag) => (false, flag)
      | (some _, flag) => (true, flag)
    else (true, false)
  else (false, false)

/-- `SQLiteIndexedTar.__init__` (tar.py:680-735). An index that is not loaded is removed (SQLiteIndex.py:1375-1378). -/
def plan (esc : Bytes → Str) (ign : Bool) (w : World) (o : Options) : Except PyErr Plan :=
  match w.index with
  | none => .ok (create esc ign w o none)
  | some d =>
    match load esc ign w o d with
    | (false, _) => .ok (create esc ign w o none)
    | (true, false) => .ok (.use d)
    | (true, true) => appended esc ign w o d

/-- The database that the mount works with (tar.py:688-735). -/
def Plan.finish : Plan → Disk
  | .use d => d
  | .write d acts => d.run acts
  | .memory _ d acts => d.run acts

/-- The index file that stays: after the whole mount, or if the process is killed after a number of statements. -/
def Plan.left : Plan → Option Nat → Option Disk
  | .use d, _ => some d
  | .write d acts, none => some (d.run acts)
  | .write d acts, some k => some (d.run (acts.take k))
  | .memory kept _ _, _ => kept

/-- The mount source (SQLiteIndexMountSource.py:273-292). -/
def Disk.source (d : Disk) : Source := tableSource d.rows d.file.db.files

/-- What happens: files are appended to the archive, or it is mounted; the process may be killed while it makes the index. -/
inductive Event where
  | grow (more : Packing) (zeros : Nat) (mtime : Int)
  | mount (o : Options) (killed : Option Nat)

/-- One event (tar.py:594-735). Appended members replace the zeros at the end. -/
def step (esc : Bytes → Str) (ign : Bool) (w : World) : Event → World
  | .grow more zeros mtime => ⟨w.ws ++ more, zeros, mtime, w.index⟩
  | .mount o killed =>
    match plan esc ign w o with
    | .error _ => w
    | .ok p => ⟨w.ws, w.zeros, w.mtime, p.left killed⟩

/-- All events (tar.py:594-735). -/
def steps (esc : Bytes → Str) (ign : Bool) (w : World) (es : List Event) : World := es.foldl (step esc ign) w

/-! ## specification -/

/-- What a mount is expected to show of files that were packed. -/
structure Shows (s : Source) (archive : Bytes) (ws : Packing) : Prop where
  read : ∀ {k : Nat} {ns : List Str} {f : File}, Leads (ws.map (fun p => p.1)) k ns f → k ≤ 128 → (∀ x ∈ ns, IsName x) →
    ∀ before : List Call, ∃ m fh, mopen s (calls s (start archive) before) (canonical ns) = (m, .ok fh) ∧
      ∀ (between : List Call) (size offset : Nat), (mread (calls s m between) fh size offset).2 = .ok ((f.data.drop offset).take size)
  attributes : ∀ {k : Nat} {ns : List Str} {f : File}, Leads (ws.map (fun p => p.1)) k ns f → k ≤ 128 → (∀ x ∈ ns, IsName x) →
    mgetattr s (canonical ns) = .ok (f.mode ||| bits f.kind, f.data.length) ∧ mreadlink s (canonical ns) = .ok f.link
  names : ∀ {ns : List Str}, (∀ x ∈ ns, IsName x) → (∀ x ∈ ns, endsWith dotVersions x = false) →
    (mreaddir s (canonical ns)).Nodup ∧ ∀ n, n ∈ mreaddir s (canonical ns) ↔
      n = ['.'] ∨ n = ['.', '.'] ∨ ∃ p ∈ ws, ∃ rest, place p.1.name = ns ++ n :: rest
  folders : ∀ {ns : List Str}, (∀ x ∈ ns, IsName x) → ns ≠ [] → lastFile (ws.map (fun p => p.1)) ns = none →
    Inside (ws.map (fun p => p.1)) ns → mgetattr s (canonical ns) = .ok (0o40555, 0)
  absent : ∀ {ns : List Str}, (∀ x ∈ ns, IsName x) → (∀ x ∈ ns, endsWith dotVersions x = false) → ns ≠ [] →
    lastFile (ws.map (fun p => p.1)) ns = none → ¬ Inside (ws.map (fun p => p.1)) ns → mgetattr s (canonical ns) = .error (.os 2)

/-- Rows are inserted in order, all of them, and the rows for the check are rows of the index. -/
structure Options.Ok (o : Options) : Prop where
  batches : ∀ l, (o.batches l).flatten = l
  picks : ∀ l, ∀ r ∈ o.picks l, r ∈ l

/-- The options of all mounts. -/
def AllOk (es : List Event) : Prop := ∀ e ∈ es, ∀ o k, e = .mount o k → o.Ok

/-- All files that are ever packed. -/
def packedAll (ws : Packing) (es : List Event) : Packing :=
  ws ++ es.flatMap (fun e => match e with
    | .grow more _ _ => more
    | .mount _ _ => [])

/-- The full statement of C207: after any history of appending, mounting and killed mounts, a mount succeeds and shows what was packed. -/
def C207_statement : Prop :=
  ∀ (esc : Bytes → Str) (ign : Bool) (ws : Packing) (zeros : Nat) (mtime : Int) (es : List Event) (o : Options),
    Packed (packedAll ws es) → ws ≠ [] → AllOk es → o.Ok →
    ∃ p, plan esc ign (steps esc ign ⟨ws, zeros, mtime, none⟩ es) o = .ok p ∧
      Shows p.finish.source (steps esc ign ⟨ws, zeros, mtime, none⟩ es).archive (packedAll ws es)

/-- No killed mount leaves an index file that has no mark of an incomplete index but no statistics of the archive either. -/
def Quiet (esc : Bytes → Str) (ign : Bool) : World → List Event → Prop
  | _, [] => True
  | w, .grow more zeros mtime :: es => Quiet esc ign (step esc ign w (.grow more zeros mtime)) es
  | w, .mount o none :: es => Quiet esc ign (step esc ign w (.mount o none)) es
  | w, .mount o (some k) :: es =>
    (∀ d, (step esc ign w (.mount o (some k))).index = some d → accepted d.file → d.stats.isSome = true) ∧
      Quiet esc ign (step esc ign w (.mount o (some k))) es

/-! ## lemmas: statements -/

theorem run_app (d : Disk) (a b : List Act) : d.run (a ++ b) = (d.run a).run b := by simp [Disk.run, List.foldl_append]

theorem run_sql (l : List Stmt) : ∀ d : Disk, d.run (l.map .sql) = ⟨d.file.run l, d.stats, d.backend, d.rows⟩ := by
  induction l with
  | nil => intro d; rfl
  | cons s l ih =>
    intro d
    rw [List.map_cons, Disk.run, List.foldl_cons]
    exact ih _

/-- The batches with their numbers. -/
def numberBatches : Nat → List (List IRow) → List (List Row)
  | _, [] => []
  | n, b :: bs => numbered n b :: numberBatches (n + b.length) bs

theorem numbered_append (n : Nat) (a b : List IRow) : numbered n (a ++ b) = numbered n a ++ numbered (n + a.length) b := by
  unfold numbered
  rw [List.mapIdx_append]
  congr 2
  funext k r
  rw [show n + (k + a.length) + 1 = n + a.length + k + 1 by omega]

theorem numberBatches_flatten (bs : List (List IRow)) : ∀ n, (numberBatches n bs).flatten = numbered n bs.flatten := by
  induction bs with
  | nil => intro n; rfl
  | cons b bs ih => intro n; rw [numberBatches, List.flatten_cons, List.flatten_cons, numbered_append, ih]

theorem numberBatches_length (bs : List (List IRow)) : ∀ n, (numberBatches n bs).length = bs.length := by
  induction bs with
  | nil => intro n; rfl
  | cons b bs ih => intro n; rw [numberBatches, List.length_cons, List.length_cons, ih]

theorem numberBatches_take (bs : List (List IRow)) : ∀ n j, numberBatches n (bs.take j) = (numberBatches n bs).take j := by
  induction bs with
  | nil => intro n j; simp [numberBatches]
  | cons b bs ih =>
    intro n j
    cases j with
    | zero => rfl
    | succ j => rw [List.take_succ_cons, numberBatches, numberBatches, List.take_succ_cons, ih]

theorem run_insert (bs : List (List IRow)) : ∀ d : Disk, d.run (bs.map Act.insert) =
    ⟨d.file.run ((numberBatches d.rows.length bs).map Stmt.insert), d.stats, d.backend, d.rows ++ bs.flatten⟩ := by
  induction bs with
  | nil => intro d; simp [Disk.run, numberBatches, IndexFile.run]
  | cons b bs ih =>
    intro d
    rw [List.map_cons, Disk.run, List.foldl_cons]
    refine (ih _).trans ?_
    simp only [Disk.exec, List.length_append, numberBatches, List.map_cons, List.flatten_cons, List.append_assoc]
    rfl

/-- The insertions and the finalisation, up to any statement. -/
theorem run_tail (bs : List (List IRow)) (d : Disk) (j : Nat) :
    d.run ((bs.map Act.insert ++ finalizeTables.map Act.sql).take j) =
      ⟨d.file.run (((numberBatches d.rows.length bs).map Stmt.insert ++ finalizeTables).take j), d.stats, d.backend,
        d.rows ++ (bs.take j).flatten⟩ := by
  rw [List.take_append, run_app, ← List.map_take, run_insert, ← List.map_take, run_sql, List.length_map, List.take_append, run_append,
    ← List.map_take, numberBatches_take, List.length_map, numberBatches_length]

theorem keep_stats (l : List Act) : ∀ d : Disk, (∀ a ∈ l, a ≠ .clear ∧ ∀ s, a ≠ .stats s) → (d.run l).stats = d.stats := by
  induction l with
  | nil => intro d _; rfl
  | cons a l ih =>
    intro d h
    rw [Disk.run, List.foldl_cons]
    refine (ih _ (fun b hb => h b (List.mem_cons_of_mem _ hb))).trans ?_
    have h1 := h a (by simp)
    cases a with
    | clear => exact absurd rfl h1.1
    | stats s => exact absurd rfl (h1.2 s)
    | _ => rfl

theorem keeps_table (t : Tbl) (l : List Stmt) : ∀ s : IndexFile, t ∈ s.tables → (∀ x ∈ l, x ≠ .drop t) → t ∈ (s.run l).tables := by
  induction l with
  | nil => intro s h _; exact h
  | cons x l ih =>
    intro s h hx
    rw [IndexFile.run, List.foldl_cons]
    refine ih _ ?_ (fun y hy => hx y (List.mem_cons_of_mem _ hy))
    have h1 := hx x (by simp)
    cases x with
    | create t' =>
      show t ∈ (if t' ∈ s.tables then s else { s with tables := s.tables ++ [t'] }).tables
      split
      · exact h
      · exact List.mem_append_left _ h
    | drop t' =>
      show t ∈ s.tables.filter _
      rw [List.mem_filter]
      refine ⟨h, ?_⟩
      simp only [ne_eq, decide_not, Bool.not_eq_eq_eq_not, Bool.not_true, decide_eq_false_iff_not]
      rintro rfl
      exact h1 rfl
    | _ => exact h

theorem makes_table (t : Tbl) (s : IndexFile) (l : List Stmt) (h : .create t ∈ l) (hx : ∀ x ∈ l, x ≠ .drop t) : t ∈ (s.run l).tables := by
  obtain ⟨a, b, rfl⟩ := List.append_of_mem h
  rw [show a ++ Stmt.create t :: b = (a ++ [Stmt.create t]) ++ b by simp, run_append]
  refine keeps_table t b _ ?_ (fun x hb => hx x (by simp [hb]))
  rw [run_append]
  generalize s.run a = s'
  show t ∈ (if t ∈ s'.tables then s' else { s' with tables := s'.tables ++ [t] }).tables
  split
  · assumption
  · simp

/-- The script does not change rows. -/
theorem script_db (k : Nat) (s : IndexFile) : (s.run (createTables.take k)).db = s.db := by
  have : ∀ (l : List Stmt) (s : IndexFile), (∀ x ∈ l, x = .createTrigger ∨ ∃ t, x = .create t) → (s.run l).db = s.db := by
    intro l
    induction l with
    | nil => intro s _; rfl
    | cons x l ih =>
      intro s h
      rw [IndexFile.run, List.foldl_cons]
      refine (ih _ (fun y hy => h y (List.mem_cons_of_mem _ hy))).trans ?_
      rcases h x (by simp) with rfl | ⟨t, rfl⟩
      · rfl
      · show (if t ∈ s.tables then s else { s with tables := s.tables ++ [t] }).db = s.db
        split <;> rfl
  refine this _ s ?_
  intro x hx
  have := List.mem_of_mem_take hx
  simp only [createTables, List.mem_cons, List.not_mem_nil, or_false] at this
  rcases this with rfl | rfl | rfl | rfl | rfl | rfl | rfl | rfl | rfl <;> simp

/-- The finalisation, up to any statement, from a file in which the script has finished: like `tail_accepted`. -/
theorem tail_state (s : IndexFile) (hp : .parentfolders ∈ s.tables) (batches : List (List Row)) (k : Nat)
    (h : accepted (s.run ((batches.map Stmt.insert ++ finalizeTables).take k))) :
    batches.length + 4 ≤ k ∧
    (s.run ((batches.map Stmt.insert ++ finalizeTables).take k)).db.files = (batches.foldl DB.setFileInfos s.db).finalize ∧
    (s.run ((batches.map Stmt.insert ++ finalizeTables).take k)).db.parents = [] := by
  rw [List.take_append, run_append] at h ⊢
  by_cases hk : k < batches.length
  · exfalso
    rw [show k - (batches.map Stmt.insert).length = 0 by simp; omega, List.take_zero, ← List.map_take, run_inserts] at h
    exact h.2.2 hp
  · rw [List.take_of_length_le (by simp; omega), run_inserts] at h ⊢
    rw [List.length_map] at h ⊢
    obtain ⟨j, rfl⟩ : ∃ j, k = batches.length + j := ⟨k - batches.length, by omega⟩
    rw [Nat.add_sub_cancel_left] at h ⊢
    generalize hdb : batches.foldl DB.setFileInfos s.db = db at h ⊢
    have hcase : j = 0 ∨ j = 1 ∨ j = 2 ∨ j = 3 ∨ j = 4 ∨ j = 5 ∨ 6 ≤ j := by omega
    rcases hcase with rfl | rfl | rfl | rfl | rfl | rfl | hj
    · exact absurd hp h.2.2
    · exact absurd hp h.2.2
    · refine absurd ?_ h.2.2
      simp [IndexFile.run, finalizeTables, IndexFile.exec, hp]
    · refine absurd ?_ h.2.2
      simp [IndexFile.run, finalizeTables, IndexFile.exec, hp]
    · exact ⟨by omega, rfl, rfl⟩
    · exact ⟨by omega, rfl, rfl⟩
    · rw [List.take_of_length_le (by simp [finalizeTables]; omega)]
      exact ⟨by omega, rfl, rfl⟩

/-- The tables after the finalisation. -/
theorem tail_tables (s : IndexFile) (hf : .files ∈ s.tables) (batches : List (List Row)) (j : Nat) (hj : 4 ≤ j) :
    accepted (s.run ((batches.map Stmt.insert ++ finalizeTables).take (batches.length + j))) := by
  rw [List.take_append, run_append, List.take_of_length_le (by simp), run_inserts, List.length_map, Nat.add_sub_cancel_left]
  have hcase : j = 4 ∨ j = 5 ∨ 6 ≤ j := by omega
  have key : accepted (IndexFile.run { s with db := batches.foldl DB.setFileInfos s.db }
      [.copyTmp, .drop .filestmp, .insertParents, .drop .parentfolders]) := by
    refine ⟨?_, ?_, ?_⟩ <;> simp [IndexFile.run, IndexFile.exec, hf]
  rcases hcase with rfl | rfl | h6
  · exact key
  · exact key
  · rw [List.take_of_length_le (by simp [finalizeTables]; omega)]
    exact key

theorem mem_final (x : Stmt) (hx : x ∈ finalizeTables) : x ≠ .drop .metadata ∧ x ≠ .drop .files := by
  simp only [finalizeTables, List.mem_cons, List.not_mem_nil, or_false] at hx
  rcases hx with rfl | rfl | rfl | rfl | rfl | rfl <;> exact ⟨by simp, by simp⟩

theorem mem_script (x : Stmt) (hx : x ∈ createTables) : ∀ t, x ≠ .drop t := by
  simp only [createTables, List.mem_cons, List.not_mem_nil, or_false] at hx
  rcases hx with rfl | rfl | rfl | rfl | rfl | rfl | rfl | rfl | rfl <;> simp

/-! ## lemmas: an index that is created -/

/-- The file that a finished creation leaves. -/
def createdFile (nb : List (List Row)) : IndexFile := newFile.run (Index.createIndex nb)

theorem created_file (nb : List (List Row)) : accepted (createdFile nb) ∧ Tbl.metadata ∈ (createdFile nb).tables ∧
    (createdFile nb).db.files = build nb ∧ (createdFile nb).db.parents = [] := by
  obtain ⟨h1, h2⟩ := C18_complete_accepted nb
  refine ⟨h1, ?_, h2, ?_⟩
  · refine makes_table _ _ _ (by simp [Index.createIndex, createTables]) ?_
    intro x hx
    unfold Index.createIndex at hx
    simp only [List.mem_append, List.mem_map, List.mem_singleton] at hx
    rcases hx with (((hx | hx) | ⟨b, -, rfl⟩) | hx) | rfl
    · exact mem_script x hx _
    · exact mem_script x hx _
    · simp
    · exact (mem_final x hx).1
    · simp
  · have hprog : Index.createIndex nb = (createTables ++ createTables) ++ (nb.map .insert ++ (finalizeTables ++ [.storeMetadata])) := by
      simp [Index.createIndex]
    unfold createdFile
    rw [hprog, run_append, run_append, run_inserts]
    rfl

theorem created_before (bs : List (List IRow)) :
    fresh.run ((createTables ++ createTables).map Act.sql ++ (bs.map Act.insert ++ finalizeTables.map Act.sql) ++ [.sql .storeMetadata]) =
      ⟨createdFile (numberBatches 0 bs), none, false, bs.flatten⟩ := by
  rw [run_app, run_app, run_sql, run_app, run_insert, run_sql]
  unfold createdFile Index.createIndex
  rw [run_append, run_append, run_append, run_append]
  rw [run_append]
  rfl

theorem created_whole (bs : List (List IRow)) (st : Stats) :
    fresh.run (createActs bs st) = ⟨createdFile (numberBatches 0 bs), some st, true, bs.flatten⟩ := by
  unfold createActs
  rw [run_app, created_before]
  rfl

theorem created_killed (bs : List (List IRow)) (st : Stats) (k : Nat) (h : (fresh.run ((createActs bs st).take k)).stats.isSome = true) :
    ∃ b, fresh.run ((createActs bs st).take k) = ⟨createdFile (numberBatches 0 bs), some st, b, bs.flatten⟩ := by
  have hb := created_before bs
  have hn : ∀ a ∈ (createTables ++ createTables).map Act.sql ++ (bs.map Act.insert ++ finalizeTables.map Act.sql) ++ [.sql .storeMetadata],
      a ≠ .clear ∧ ∀ s, a ≠ .stats s := by
    intro a ha
    simp only [List.mem_append, List.mem_map, List.mem_singleton] at ha
    rcases ha with (⟨x, -, rfl⟩ | ⟨x, -, rfl⟩ | ⟨x, -, rfl⟩) | rfl <;> simp
  unfold createActs at h ⊢
  generalize (createTables ++ createTables).map Act.sql ++ (bs.map Act.insert ++ finalizeTables.map Act.sql) ++ [.sql .storeMetadata] = pre at *
  rw [List.take_append, run_app] at h ⊢
  rcases Nat.lt_or_ge pre.length k with hk | hk
  · rw [List.take_of_length_le (by omega), hb]
    obtain ⟨j, hj⟩ : ∃ j, k - pre.length = j + 1 := ⟨k - pre.length - 1, by omega⟩
    rw [hj]
    cases j with
    | zero => exact ⟨false, rfl⟩
    | succ j =>
      refine ⟨true, ?_⟩
      rw [List.take_of_length_le (by simp)]
      rfl
  · rw [show k - pre.length = 0 by omega, List.take_zero] at h
    have : (Disk.run fresh (pre.take k)).stats = none :=
      keep_stats _ fresh (fun a ha => hn a (List.mem_of_mem_take ha))
    rw [show Disk.run (Disk.run fresh (pre.take k)) [] = Disk.run fresh (pre.take k) from rfl, this] at h
    cases h

/-! ## lemmas: an index that is extended -/

/-- What is left of an extension. -/
structure Extended (d : Disk) (bs : List (List IRow)) (st : Stats) (e : Disk) : Prop where
  metadata : .metadata ∈ e.file.tables
  stats : e.stats = d.stats ∨ e.stats = some st
  parents : e.file.db.parents = []
  rows : (e.file.db.files = d.file.db.files ∧ e.rows = d.rows) ∨
    (e.file.db.files = ((numberBatches d.rows.length bs).foldl DB.setFileInfos ⟨d.file.db.files, [], []⟩).finalize ∧ e.rows = d.rows ++ bs.flatten)

theorem script_tables (s : IndexFile) (t : Tbl) (h : t ∈ s.tables) (l : List Stmt) (hl : ∀ x ∈ l, x ∈ createTables) : t ∈ (s.run l).tables :=
  keeps_table t l s h (fun x hx => mem_script x (hl x hx) t)

theorem after_script (d : Disk) (hm : Tbl.metadata ∈ d.file.tables) (hp : d.file.db.parents = []) :
    ∃ s, d.reopen.file.run createTables = s ∧ .parentfolders ∈ s.tables ∧ .files ∈ s.tables ∧ .metadata ∈ s.tables ∧
      s.db = ⟨d.file.db.files, [], []⟩ := by
  refine ⟨_, rfl, makes_table _ _ _ (by simp [createTables]) (fun x hx => mem_script x hx _),
    makes_table _ _ _ (by simp [createTables]) (fun x hx => mem_script x hx _), script_tables d.reopen.file _ hm createTables (fun x hx => hx), ?_⟩
  have := script_db 9 d.reopen.file
  rw [show createTables.take 9 = createTables from rfl] at this
  rw [this, ← hp]
  rfl

theorem tail_metadata (s : IndexFile) (nb : List (List Row)) (j : Nat) (h : Tbl.metadata ∈ s.tables) :
    Tbl.metadata ∈ (s.run ((nb.map Stmt.insert ++ finalizeTables).take j)).tables := by
  refine keeps_table _ _ _ h ?_
  intro x hx
  have := List.mem_of_mem_take hx
  rw [List.mem_append] at this
  rcases this with h | h
  · obtain ⟨b, -, rfl⟩ := List.mem_map.mp h
    simp
  · exact (mem_final x h).1

theorem run_whole (bs : List (List IRow)) (d : Disk) : d.run (bs.map Act.insert ++ finalizeTables.map Act.sql) =
    ⟨d.file.run (((numberBatches d.rows.length bs).map Stmt.insert ++ finalizeTables).take (bs.length + 6)), d.stats, d.backend,
      d.rows ++ bs.flatten⟩ := by
  have := run_tail bs d (bs.length + 6)
  rw [List.take_of_length_le (show (bs.map Act.insert ++ finalizeTables.map Act.sql).length ≤ bs.length + 6 by simp [finalizeTables]),
    List.take_of_length_le (show bs.length ≤ bs.length + 6 by omega)] at this
  exact this

/-- The statements on the tables are all executed. -/
theorem extended_sql (d : Disk) (bs : List (List IRow)) (hm : Tbl.metadata ∈ d.file.tables) (hp : d.file.db.parents = []) :
    ∃ f, d.reopen.run (createTables.map Act.sql ++ (bs.map Act.insert ++ finalizeTables.map Act.sql)) =
        ⟨f, d.stats, d.backend, d.rows ++ bs.flatten⟩ ∧
      accepted f ∧ .metadata ∈ f.tables ∧ f.db.parents = [] ∧
      f.db.files = ((numberBatches d.rows.length bs).foldl DB.setFileInfos ⟨d.file.db.files, [], []⟩).finalize := by
  obtain ⟨s, hs, hpf, hf, hmd, hdb⟩ := after_script d hm hp
  rw [run_app, run_sql, hs, run_whole]
  have hrl : d.reopen.rows = d.rows := rfl
  rw [hrl]
  have hacc := tail_tables s hf (numberBatches d.rows.length bs) 6 (by omega)
  rw [numberBatches_length] at hacc
  obtain ⟨-, h1, h2⟩ := tail_state s hpf _ _ hacc
  rw [hdb] at h1
  exact ⟨_, rfl, hacc, tail_metadata s _ _ hmd, h2, h1⟩

theorem extended_whole (d : Disk) (bs : List (List IRow)) (st : Stats) (hm : Tbl.metadata ∈ d.file.tables) (hp : d.file.db.parents = []) :
    Extended d bs st (d.reopen.run (extendActs bs st)) ∧ (d.reopen.run (extendActs bs st)).stats = some st ∧
      (d.reopen.run (extendActs bs st)).file.db.files =
        ((numberBatches d.rows.length bs).foldl DB.setFileInfos ⟨d.file.db.files, [], []⟩).finalize ∧
      (d.reopen.run (extendActs bs st)).rows = d.rows ++ bs.flatten := by
  obtain ⟨f, h1, h2, h3, h4, h5⟩ := extended_sql d bs hm hp
  unfold extendActs
  rw [run_app, h1]
  have : Disk.run ⟨f, d.stats, d.backend, d.rows ++ bs.flatten⟩ ([.clear, .sql .storeMetadata] ++ [.stats st, .backend]) =
      ⟨f, some st, true, d.rows ++ bs.flatten⟩ := rfl
  rw [this]
  exact ⟨⟨h3, .inr rfl, h4, .inr ⟨h5, rfl⟩⟩, rfl, h5, rfl⟩

theorem extended_killed (d : Disk) (bs : List (List IRow)) (st : Stats) (hm : Tbl.metadata ∈ d.file.tables) (hp : d.file.db.parents = [])
    (k : Nat) (hacc : accepted (d.reopen.run ((extendActs bs st).take k)).file)
    (hs : (d.reopen.run ((extendActs bs st).take k)).stats.isSome = true) :
    Extended d bs st (d.reopen.run ((extendActs bs st).take k)) := by
  obtain ⟨f, h1, h2, h3, h4, h5⟩ := extended_sql d bs hm hp
  unfold extendActs at hacc hs ⊢
  rw [List.take_append, run_app] at hacc hs ⊢
  generalize hlen : (createTables.map Act.sql ++ (bs.map Act.insert ++ finalizeTables.map Act.sql)).length = n at *
  rcases Nat.lt_or_ge n k with hk | hk
  · rw [List.take_of_length_le (by omega), h1] at hacc hs ⊢
    obtain ⟨j, hj⟩ : ∃ j, k - n = j + 1 := ⟨k - n - 1, by omega⟩
    rw [hj] at hacc hs ⊢
    have hcase : j = 0 ∨ j = 1 ∨ j = 2 ∨ 3 ≤ j := by omega
    rcases hcase with rfl | rfl | rfl | h3'
    · cases hs
    · cases hs
    · exact ⟨h3, .inr rfl, h4, .inr ⟨h5, rfl⟩⟩
    · rw [List.take_of_length_le (by simp; omega)]
      exact ⟨h3, .inr rfl, h4, .inr ⟨h5, rfl⟩⟩
  · rw [show k - n = 0 by omega, List.take_zero] at hacc hs ⊢
    rw [show ∀ x : Disk, x.run [] = x from fun _ => rfl] at hacc hs ⊢
    rw [List.take_append, run_app, List.length_map] at hacc hs ⊢
    rw [← List.map_take, run_sql, run_tail] at hacc hs ⊢
    clear hs
    simp only at hacc
    rcases Nat.lt_or_ge createTables.length k with h9 | h9
    · obtain ⟨s, hs, hpf, hf, hmd, hdb⟩ := after_script d hm hp
      rw [List.take_of_length_le (by omega : createTables.length ≤ k), hs, show d.reopen.rows = d.rows from rfl] at hacc ⊢
      obtain ⟨g0, g1, g2⟩ := tail_state s hpf _ _ hacc
      rw [numberBatches_length] at g0
      rw [hdb] at g1
      refine ⟨tail_metadata s _ _ hmd, .inl rfl, g2, .inr ⟨g1, ?_⟩⟩
      show d.rows ++ _ = _
      rw [List.take_of_length_le (by omega)]
    · rw [show k - createTables.length = 0 by omega, List.take_zero, List.take_zero]
      rw [show ∀ x : IndexFile, x.run [] = x from fun _ => rfl]
      have hdb := script_db k d.reopen.file
      refine ⟨?_, .inl rfl, ?_, .inl ⟨?_, ?_⟩⟩
      · exact script_tables d.reopen.file _ hm (createTables.take k) (fun x hx => List.mem_of_mem_take hx)
      · show (IndexFile.run _ _).db.parents = []
        rw [hdb]
        exact hp
      · show (IndexFile.run _ _).db.files = _
        rw [hdb]
        rfl
      · show d.rows ++ [] = _
        rw [List.append_nil]

/-! ## lemmas: the archive -/

theorem packed_prefix {a b : Packing} (h : Packed (a ++ b)) : Packed a where
  written p hp := h.written p (List.mem_append_left _ hp)
  ok p hp := h.ok p (List.mem_append_left _ hp)
  names p hp := h.names p (List.mem_append_left _ hp)
  tree p hp hi := by
    refine h.tree p (List.mem_append_left _ hp) ?_
    obtain ⟨f, hf, n, rest, he⟩ := hi
    exact ⟨f, by rw [List.map_append]; exact List.mem_append_left _ hf, n, rest, he⟩

theorem members_append (a b : Packing) : members (a ++ b) = members a ++ members b := by simp [members]

theorem members_ne {a : Packing} (h : a ≠ []) : members a ≠ [] := by simpa [members] using h

theorem rows_zeros {c : Tar.Codec} {ms : List (Member × Hdr)} (h : Clean c ms) (ign : Bool) (z z' : Nat) : rowsOf c ign ms z = rowsOf c ign ms z' := by
  rw [rowsOf_eq h, rowsOf_eq h]

theorem covers_zeros {c : Tar.Codec} {ign : Bool} {ms : List (Member × Hdr)} {z : Nat} {tb : Table} (h : Covers c ign ms z tb) (z' : Nat) :
    Covers c ign ms z' tb := by
  obtain ⟨h0, h1, h2, h3, h4, h5⟩ := h
  have := rows_zeros h0 ign z z'
  exact ⟨h0, h1, by rw [← this]; exact h2, by rw [← this]; exact h3, by rw [← this]; exact h4, by rw [← this]; exact h5⟩

theorem all_eq (esc : Bytes → Str) (ign : Bool) {w : World} (h : Packed w.ws) : w.all esc ign = rowsOf (codec esc) ign (members w.ws) 0 := by
  rw [rows_zeros (clean esc h) ign 0 w.zeros]
  unfold World.all World.archive rowsOf
  rw [archive_eq]

/-- The size of the members. -/
def size (ws : Packing) : Nat := (bytesOf ws 0).length

theorem size_eq (ws : Packing) : size ws = (Tar.encode ((members ws).map (fun p => p.1))).length := by
  unfold size
  rw [← archive_eq]
  simp [archiveOf]

theorem bytes_append (a b : Packing) (z : Nat) : bytesOf (a ++ b) z = bytesOf a 0 ++ bytesOf b z := by simp [bytesOf]

theorem drop_size (a b : Packing) (z : Nat) : (bytesOf (a ++ b) z).drop (size a) = bytesOf b z := by
  rw [bytes_append, size, List.drop_left]

/-- The resume offset of a table that covers the members. -/
theorem past_end {esc : Bytes → Str} {ign : Bool} {ws : Packing} {tb : Table} (hp : Packed ws) (hne : ws ≠ [])
    (hc : Covers (codec esc) ign (members ws) 0 tb) :
    pastEndOffset (tb.map (prow (rowsOf (codec esc) ign (members ws) 0))) = .ok (some (size ws)) := by
  have hcl := clean esc hp
  have hflat := Tar.flat_pastEnd (codec esc) (plain ign) (members ws) 0 hcl.ok (members_ne hne)
  have hs := rows_sorted hcl ign 0
  have heq := rowsOf_eq hcl ign 0
  rw [size_eq, ← hflat]
  show _ = pastEndOffset ((rowsOf (codec esc) ign (members ws) 0).map IRow.toP)
  generalize hR : rowsOf (codec esc) ign (members ws) 0 = R at *
  rcases List.eq_nil_or_concat R with hn | ⟨R0, r, hn⟩
  · exfalso
    rw [hn] at heq
    have hl := congrArg List.length heq
    rw [List.length_map] at hl
    cases hm : members ws with
    | nil => exact members_ne hne hm
    | cons p ms => rw [hm] at hl; simp [Tar.entriesAt] at hl
  · rw [List.concat_eq_append] at hn
    have hT : toRows R = toRows R0 ++ [toRow (R0.length + 1) r] := by
      rw [hn, toRows_eq, toRows_eq, numbered_append]
      simp [numbered]
    have hpos : 0 < r.offset := by
      have hr : r ∈ R := by rw [hn]; simp
      rw [heq] at hr
      obtain ⟨e, he, rfl⟩ := List.mem_map.mp hr
      have := (entries_lower (members ws) 0 hcl.ok e he).2
      show 0 < 0 + e.data
      omega
    obtain ⟨A, B, h1, h2, h3⟩ := hc.ends (toRow (R0.length + 1) r) (by rw [hR, hT, List.getLast?_concat])
    have hq : prow R (toRow (R0.length + 1) r) = r.toP := by
      unfold prow toRow sizeAt column IRow.toP
      simp [hn]
    rw [h1, List.map_append, List.map_cons, hq, Tar.pastEnd_of_split _ _ _ ?_ ?_ rfl, hn, List.map_append, List.map_cons, List.map_nil,
      Tar.pastEnd_of_split _ _ _ ?_ (by simp) rfl]
    · intro x hx
      obtain ⟨y, hy, rfl⟩ := List.mem_map.mp hx
      rw [hT, List.pairwise_append] at hs
      obtain ⟨i, hi, rfl⟩ := List.mem_iff_getElem.mp hy
      have := hs.2.2 (toRow (i + 1) R0[i]) (by
        unfold toRows
        rw [List.mem_mapIdx]
        exact ⟨i, hi, rfl⟩) _ (List.mem_singleton.mpr rfl)
      have h4 := this.2
      simp only [toRow] at h4
      show R0[i].offset < r.offset
      omega
    · intro x hx
      obtain ⟨y, hy, rfl⟩ := List.mem_map.mp hx
      have := h2 y hy
      simp only [toRow] at this
      show y.2.offset.toNat < r.offset
      omega
    · intro x hx
      obtain ⟨y, hy, rfl⟩ := List.mem_map.mp hx
      have := h3 y hy
      simp only [toRow] at this
      show y.2.offset.toNat ≤ r.offset
      omega

theorem size_pos {esc : Bytes → Str} {ws : Packing} (hp : Packed ws) (hne : ws ≠ []) : 0 < size ws := by
  cases ws with
  | nil => exact absurd rfl hne
  | cons p ws =>
    have := Tar.head_pos ((clean esc hp).ok (p.2, p.1.hdr) (by simp [members]))
    simp only at this
    unfold size bytesOf
    simp only [List.flatMap_cons, List.length_append, Tar.Member.encode]
    omega

/-- The rows of the old part and of the rest are the rows of the archive. -/
theorem extension {esc : Bytes → Str} (ign : Bool) {a b : Packing} (hp : Packed (a ++ b)) (hne : a ≠ []) (z : Nat) :
    rowsOf (codec esc) ign (members a) 0 ++ extendIndex (codec esc) (plain ign) 0 (size a) (bytesOf (a ++ b) z) =
      rowsOf (codec esc) ign (members (a ++ b)) 0 := by
  have hok := (clean esc hp).ok
  rw [members_append] at hok
  obtain ⟨p, h1, h2⟩ := Tar.C88_extend_partial (codec esc) (plain ign) (members a) (members b) 0 z hok (members_ne hne)
  have h3 := Tar.flat_pastEnd (codec esc) (plain ign) (members a) 0 (clean esc (packed_prefix hp)).ok (members_ne hne)
  rw [h3] at h1
  simp only [Except.ok.injEq, Option.some.injEq] at h1
  rw [← h1, ← size_eq, ← members_append, archive_eq (a ++ b)] at h2
  rw [rows_zeros (clean esc hp) ign 0 z]
  unfold rowsOf
  rw [archive_eq (a ++ b)]
  exact h2

theorem head_nonzero {c : Tar.Codec} {as : List Tar.Aux} {block : Bytes} {own h : Hdr} (hk : Tar.HeadOk c as block own h) :
    ∃ x ∈ (as.flatMap (fun a => a.block ++ a.content) ++ block).take 512, x ≠ 0 := by
  cases as with
  | nil =>
    obtain ⟨⟨h1, ⟨x, hx, h2⟩, -⟩, -⟩ := hk
    exact ⟨x, by rw [List.flatMap_nil, List.nil_append, ← h1, List.take_length]; exact hx, h2⟩
  | cons a as =>
    obtain ⟨ah, h', ⟨h1, ⟨x, hx, h2⟩, -⟩, -⟩ := hk
    refine ⟨x, ?_, h2⟩
    rw [List.flatMap_cons, List.append_assoc, List.append_assoc, ← h1, List.take_left']
    · exact hx
    · rfl

/-- Behind the old members there are zeros only if nothing was appended. -/
theorem not_zeros {esc : Bytes → Str} {b : Packing} (hp : Packed b) (z : Nat) (h : (bytesOf b z).take 1024 = List.replicate 1024 0) : b = [] := by
  cases b with
  | nil => rfl
  | cons p b =>
    exfalso
    obtain ⟨own, hk⟩ := ((clean esc hp).ok (p.2, p.1.hdr) (by simp [members])).own
    obtain ⟨x, hx, h0⟩ := head_nonzero hk
    have hm : x ∈ (bytesOf (p :: b) z).take 1024 := by
      have h1 : x ∈ (bytesOf (p :: b) z).take 512 := by
        unfold bytesOf
        rw [List.flatMap_cons, Tar.Member.encode, Tar.Member.head, List.append_assoc, List.append_assoc, List.append_assoc, List.take_append]
        exact List.mem_append_left _ hx
      rw [show (512 : Nat) = min 512 1024 from rfl, ← List.take_take] at h1
      exact List.mem_of_mem_take h1
    rw [h] at hm
    exact h0 (List.eq_of_mem_replicate hm)

theorem regular_mem {d : Disk} {r : IRow} (h : r ∈ regular d) : r ∈ d.rows ∧ isRegularRow r = true := by
  unfold regular at h
  rw [List.mem_filter, List.mem_filterMap] at h
  obtain ⟨⟨q, -, hq⟩, hr⟩ := h
  refine ⟨?_, hr⟩
  unfold column at hq
  split at hq
  · cases hq
  · exact List.mem_of_getElem? hq

/-- Rows of the old part pass the check. -/
theorem check_ok {esc : Bytes → Str} {ign : Bool} {a b : Packing} (hp : Packed (a ++ b)) (hne : a ≠ []) (z : Nat) {l : List IRow}
    (hl : ∀ r ∈ l, r ∈ rowsOf (codec esc) ign (members a) 0 ∧ isRegularRow r = true) :
    checkRows (codec esc) (plain ign) (bytesOf (a ++ b) z) l = .ok true := by
  have hmem : ∀ r ∈ l, r ∈ rowsOf (codec esc) ign (members (a ++ b)) 0 := by
    intro r hr
    rw [← extension ign hp hne z]
    exact List.mem_append_left _ (hl r hr).1
  refine Tar.C129_accepted_partial (codec esc) (plain ign) 0 (bytesOf (a ++ b) z) l ?_ ?_
  · intro r hr
    refine ⟨?_, (hl r hr).2⟩
    have := hmem r hr
    rw [rows_zeros (clean esc hp) ign 0 z] at this
    unfold rowsOf at this
    rw [archive_eq] at this
    exact this
  · intro r hr
    left
    have := hmem r hr
    rw [rowsOf_eq (clean esc hp)] at this
    obtain ⟨e, -, rfl⟩ := List.mem_map.mp this
    rfl

/-! ## lemmas: loading an index -/

/-- What an index file that can be loaded holds. -/
structure Good (esc : Bytes → Str) (ign : Bool) (ws : Packing) (d : Disk) : Prop where
  metadata : .metadata ∈ d.file.tables
  stats : d.stats.isSome = true
  parents : d.file.db.parents = []
  covers : ∃ a b, ws = a ++ b ∧ a ≠ [] ∧ d.rows = rowsOf (codec esc) ign (members a) 0 ∧ Covers (codec esc) ign (members a) 0 d.file.db.files

/-- The database describes the whole archive. -/
structure Whole (esc : Bytes → Str) (ign : Bool) (ws : Packing) (d : Disk) : Prop where
  rows : d.rows = rowsOf (codec esc) ign (members ws) 0
  covers : Covers (codec esc) ign (members ws) 0 d.file.db.files

/-- If nothing was noticed, the end-of-archive blocks were there. -/
theorem unnoticed {n : Now} {i : Tar.Index} {s : Stats} {p : Nat} (hs : i.stats = some s) (hx : n.exists_ = true) (hc : n.compressed = false)
    (hr : n.readOnly = false) (hp : pastEndOffset i.rows = .ok (some p)) (h0 : p ≠ 0) {j : Tar.Index} (h : openExisting n [i] false = (some j, false)) :
    i.eofZeros = true := by
  unfold openExisting Tar.checkMetadata at h
  simp only [hs, hx, if_true] at h
  cases hcs : Tar.checkStats n i s false with
  | mk res flag =>
    rw [hcs] at h
    cases res with
    | error e => simp [openExisting] at h
    | ok u =>
      simp only at h
      cases hro : i.rowsOk with
      | false => rw [hro] at h; simp [openExisting] at h
      | true =>
        rw [hro] at h
        simp only [if_true, Prod.mk.injEq] at h
        obtain ⟨-, hflag⟩ := h
        subst hflag
        unfold Tar.checkStats at hcs
        split at hcs
        · cases hcs
        · rw [hp] at hcs
          simp only at hcs
          split at hcs
          · cases hcs
          · next flag1 _ flag2 he =>
            have h2 : flag2 = false := by
              split at hcs
              · cases hcs
              · simp only [Prod.mk.injEq] at hcs
                exact hcs.2
            subst h2
            unfold Tar.eofStep at he
            cases hz : i.eofZeros with
            | true => rfl
            | false =>
              exfalso
              rw [hc, hz] at he
              simp only [Bool.not_false, Option.getD_some, Bool.true_and, Bool.and_true, bne_iff_ne, ne_eq, h0, not_false_eq_true, if_true] at he
              rcases Tar.tryMark_ok hs he with ⟨h3, -⟩ | ⟨h3, -⟩
              · rw [hr] at h3; cases h3
              · cases h3

/-- An index that is used as it is describes the whole archive. -/
theorem used_whole {esc : Bytes → Str} {ign : Bool} {w : World} {o : Options} {d : Disk} (hp : Packed w.ws) (hg : Good esc ign w.ws d)
    (h : load esc ign w o d = (true, false)) : Whole esc ign w.ws d := by
  obtain ⟨a, b, hw, hne, hrows, hcov⟩ := hg.covers
  have hpa : Packed a := by rw [hw] at hp; exact packed_prefix hp
  have hpast := past_end hpa hne hcov
  rw [← hrows] at hpast
  unfold load at h
  split at h
  · rw [if_pos hg.metadata] at h
    obtain ⟨s, hs⟩ := Option.isSome_iff_exists.mp hg.stats
    cases hoe : openExisting (w.now o) [toIndex esc ign w.archive d] false with
    | mk res flag =>
      rw [hoe] at h
      cases res with
      | none => simp at h
      | some j =>
        simp only [Prod.mk.injEq, true_and] at h
        subst h
        have h1 : (toIndex esc ign w.archive d).eofZeros = true :=
          unnoticed (i := toIndex esc ign w.archive d) (s := s) hs rfl rfl rfl hpast (by have := size_pos (esc := esc) hpa hne; omega) hoe
        unfold toIndex endsThere at h1
        simp only [hpast, decide_eq_true_eq] at h1
        have hb : b = [] := by
          have hd := drop_size a b w.zeros
          unfold World.archive at h1
          rw [hw, hd] at h1
          refine not_zeros (esc := esc) ?_ w.zeros h1
          rw [hw] at hp
          exact ⟨fun p h => hp.written p (List.mem_append_right _ h), fun p h => hp.ok p (List.mem_append_right _ h),
            fun p h => hp.names p (List.mem_append_right _ h), fun p h hi => hp.tree p (List.mem_append_right _ h) (by
              obtain ⟨f, hf, n, rest, he⟩ := hi
              exact ⟨f, by rw [List.map_append]; exact List.mem_append_right _ hf, n, rest, he⟩)⟩
        rw [hb, List.append_nil] at hw
        rw [hw]
        exact ⟨hrows, hcov⟩
  · simp at h

/-! ## lemmas: a mount -/

/-- What a mount does right. -/
structure Right (esc : Bytes → Str) (ign : Bool) (w : World) (p : Plan) : Prop where
  whole : Whole esc ign w.ws p.finish
  done : ∀ d, p.left none = some d → accepted d.file → Good esc ign w.ws d
  killed : ∀ k d, p.left (some k) = some d → accepted d.file → d.stats.isSome = true → Good esc ign w.ws d

theorem created_rows (bs : List (List IRow)) (rs : List IRow) (h : bs.flatten = rs) : (numberBatches 0 bs).flatten = toRows rs := by
  rw [numberBatches_flatten, h, toRows_eq]

theorem created_covers {esc : Bytes → Str} {ign : Bool} {ws : Packing} (hp : Packed ws) {bs : List (List IRow)}
    (hb : bs.flatten = rowsOf (codec esc) ign (members ws) 0) : Covers (codec esc) ign (members ws) 0 (createdFile (numberBatches 0 bs)).db.files := by
  rw [(created_file _).2.2.1]
  exact built ⟨clean esc hp, created_rows bs _ hb⟩

theorem create_right {esc : Bytes → Str} {ign : Bool} {w : World} {o : Options} (hp : Packed w.ws) (hne : w.ws ≠ []) (ho : o.Ok)
    (kept : Option Disk) (hk : ∀ d, kept = some d → accepted d.file → Good esc ign w.ws d) : Right esc ign w (create esc ign w o kept) := by
  have hb : (o.batches (w.all esc ign)).flatten = rowsOf (codec esc) ign (members w.ws) 0 := by
    rw [ho.batches, all_eq esc ign hp]
  have hcov := created_covers hp hb
  obtain ⟨h1, h2, h3, h4⟩ := created_file (numberBatches 0 (o.batches (w.all esc ign)))
  have hgood : ∀ b, Good esc ign w.ws ⟨createdFile (numberBatches 0 (o.batches (w.all esc ign))), some w.stats, b, (o.batches (w.all esc ign)).flatten⟩ :=
    fun b => ⟨h2, rfl, h4, w.ws, [], by simp, hne, hb, hcov⟩
  unfold create
  split
  · refine ⟨?_, ?_, ?_⟩
    · show Whole esc ign w.ws (fresh.run _)
      rw [created_whole]
      exact ⟨hb, hcov⟩
    · intro d hd _
      simp only [Plan.left, Option.some.injEq] at hd
      rw [created_whole] at hd
      subst hd
      exact hgood true
    · intro k d hd _ hs
      simp only [Plan.left, Option.some.injEq] at hd
      subst hd
      obtain ⟨b, hb'⟩ := created_killed _ _ _ hs
      rw [hb']
      exact hgood b
  · refine ⟨?_, ?_, ?_⟩
    · show Whole esc ign w.ws (fresh.run _)
      rw [created_whole]
      exact ⟨hb, hcov⟩
    · intro d hd ha
      exact hk d hd ha
    · intro k d hd ha _
      exact hk d hd ha

theorem extend_right {esc : Bytes → Str} {ign : Bool} {w : World} {o : Options} {d : Disk} {a b : Packing} (hp : Packed w.ws) (ho : o.Ok)
    (hw : w.ws = a ++ b) (hne : a ≠ []) (hm : Tbl.metadata ∈ d.file.tables) (hs : d.stats.isSome = true) (hpar : d.file.db.parents = [])
    (hrows : d.rows = rowsOf (codec esc) ign (members a) 0) (hcov : Covers (codec esc) ign (members a) 0 d.file.db.files) :
    Right esc ign w (extend esc ign w o d (size a)) := by
  have hpab : Packed (a ++ b) := by rw [← hw]; exact hp
  have hext := extension (esc := esc) ign hpab hne w.zeros
  have harch : w.archive = bytesOf (a ++ b) w.zeros := by unfold World.archive; rw [hw]
  have hb := ho.batches (extendIndex (codec esc) (plain ign) 0 (size a) w.archive)
  unfold extend
  generalize o.batches (extendIndex (codec esc) (plain ign) 0 (size a) w.archive) = bs at hb ⊢
  rw [harch] at hb
  have hr : d.rows ++ bs.flatten = rowsOf (codec esc) ign (members w.ws) 0 := by rw [hrows, hb, hext, hw]
  have hc : Covers (codec esc) ign (members w.ws) 0 ((numberBatches d.rows.length bs).foldl DB.setFileInfos ⟨d.file.db.files, [], []⟩).finalize := by
    rw [hw, members_append]
    refine extended hcov (by rw [← members_append]; exact clean esc hpab) ?_
    rw [numberBatches_flatten, hb, ← members_append, ← hext, toRows_eq, toRows_eq, numbered_append, hrows, Nat.zero_add]
  have hE : ∀ e, Extended d bs w.stats e → Good esc ign w.ws e := by
    intro e he
    refine ⟨he.metadata, ?_, he.parents, ?_⟩
    · rcases he.stats with h | h
      · rw [h]; exact hs
      · rw [h]; rfl
    · rcases he.rows with ⟨h1, h2⟩ | ⟨h1, h2⟩
      · exact ⟨a, b, hw, hne, by rw [h2, hrows], by rw [h1]; exact hcov⟩
      · refine ⟨w.ws, [], by simp, ?_, by rw [h2, hr], by rw [h1]; exact hc⟩
        rw [hw]
        simp [hne]
  obtain ⟨h1, h2, h3, h4⟩ := extended_whole d bs w.stats hm hpar
  refine ⟨?_, ?_, ?_⟩
  · refine ⟨?_, ?_⟩
    · exact h4.trans hr
    · show Covers _ _ _ _ (d.reopen.run (extendActs bs w.stats)).file.db.files
      rw [h3]
      exact hc
  · intro e he _
    simp only [Plan.left, Option.some.injEq] at he
    subst he
    exact hE _ h1
  · intro k e he ha hst
    simp only [Plan.left, Option.some.injEq] at he
    subst he
    exact hE _ (extended_killed d bs w.stats hm hpar k ha hst)

/-- A mount with a sound index, or without one. -/
theorem plan_right {esc : Bytes → Str} {ign : Bool} {w : World} {o : Options} (hp : Packed w.ws) (hne : w.ws ≠ []) (ho : o.Ok)
    (hI : ∀ d, w.index = some d → accepted d.file → Good esc ign w.ws d) : ∃ p, plan esc ign w o = .ok p ∧ Right esc ign w p := by
  unfold plan
  cases hi : w.index with
  | none => exact ⟨_, rfl, create_right hp hne ho none (by simp)⟩
  | some d =>
    simp only
    cases hl : load esc ign w o d with
    | mk ok flag =>
      cases ok with
      | false => exact ⟨_, rfl, create_right hp hne ho none (by simp)⟩
      | true =>
        have hacc : accepted d.file := by
          unfold load at hl
          split at hl
          · assumption
          · simp at hl
        have hg := hI d hi hacc
        cases flag with
        | false =>
          refine ⟨_, rfl, used_whole hp hg hl, ?_, ?_⟩
          · intro e he _
            simp only [Plan.left, Option.some.injEq] at he
            rw [← he]; exact hg
          · intro k e he _ _
            simp only [Plan.left, Option.some.injEq] at he
            rw [← he]; exact hg
        | true =>
          obtain ⟨a, b, hw, hne', hrows, hcov⟩ := hg.covers
          have hpab : Packed (a ++ b) := by rw [← hw]; exact hp
          have hpa : Packed a := packed_prefix hpab
          have hpast := past_end hpa hne' hcov
          rw [← hrows] at hpast
          have hz := size_pos (esc := esc) hpa hne'
          have hchk : checkRows (codec esc) (plain ign) w.archive (o.picks (regular d)) = .ok true := by
            unfold World.archive
            rw [hw]
            refine check_ok hpab hne' w.zeros ?_
            intro r hr
            have := regular_mem (ho.picks _ r hr)
            rw [hrows] at this
            exact this
          refine ⟨_, ?_, extend_right (o := o) hp ho hw hne' hg.metadata hg.stats hg.parents hrows hcov⟩
          show appended esc ign w o d = _
          unfold appended
          rw [hpast]
          simp only
          rw [if_neg (by omega), hchk]

/-! ## lemmas: a history -/

theorem step_ws (esc : Bytes → Str) (ign : Bool) (w : World) (e : Event) : (step esc ign w e).ws = packedAll w.ws [e] := by
  cases e with
  | grow more z t => simp [step, packedAll]
  | mount o k =>
    simp only [step, packedAll, List.flatMap_cons, List.flatMap_nil, List.append_nil]
    split <;> rfl

theorem steps_ws (esc : Bytes → Str) (ign : Bool) (es : List Event) : ∀ w, (steps esc ign w es).ws = packedAll w.ws es := by
  induction es with
  | nil => intro w; simp [steps, packedAll]
  | cons e es ih =>
    intro w
    rw [steps, List.foldl_cons]
    refine (ih _).trans ?_
    rw [step_ws]
    unfold packedAll
    simp

/-- The index file that is there, if it can be loaded, is sound. -/
theorem steps_sound {esc : Bytes → Str} {ign : Bool} (es : List Event) : ∀ w : World, Packed (packedAll w.ws es) → w.ws ≠ [] → AllOk es →
    Quiet esc ign w es → (∀ d, w.index = some d → accepted d.file → Good esc ign w.ws d) →
    ∀ d, (steps esc ign w es).index = some d → accepted d.file → Good esc ign (steps esc ign w es).ws d := by
  induction es with
  | nil => intro w _ _ _ _ h; exact h
  | cons e es ih =>
    intro w hp hne ho hq h
    have hpw : Packed w.ws := packed_prefix hp
    have hpe : packedAll (step esc ign w e).ws es = packedAll w.ws (e :: es) := by
      rw [step_ws]
      unfold packedAll
      simp
    have hne' : (step esc ign w e).ws ≠ [] := by
      rw [step_ws]
      unfold packedAll
      simp [hne]
    have ho' : AllOk es := fun x hx => ho x (List.mem_cons_of_mem _ hx)
    rw [steps, List.foldl_cons]
    cases e with
    | grow more z t =>
      refine ih _ (by rw [hpe]; exact hp) hne' ho' hq ?_
      intro d hd ha
      obtain ⟨g1, g2, g3, a, b, g4, g5⟩ := h d hd ha
      exact ⟨g1, g2, g3, a, b ++ more, by show w.ws ++ more = _; rw [g4, List.append_assoc], g5⟩
    | mount o k =>
      obtain ⟨p, h1, h2⟩ := plan_right (esc := esc) (ign := ign) (w := w) (o := o) hpw hne (ho _ (by simp) o k rfl) h
      have hst : step esc ign w (.mount o k) = ⟨w.ws, w.zeros, w.mtime, p.left k⟩ := by
        simp only [step, h1]
      cases k with
      | none =>
        refine ih _ (by rw [hpe]; exact hp) hne' ho' hq ?_
        rw [hst]
        exact h2.done
      | some k =>
        refine ih _ (by rw [hpe]; exact hp) hne' ho' hq.2 ?_
        intro d hd ha
        have hs := hq.1 d hd ha
        rw [hst] at hd ⊢
        exact h2.killed k d hd ha hs

/-- A database that describes the whole archive shows it. -/
theorem whole_shows {esc : Bytes → Str} {ign : Bool} {ws : Packing} {d : Disk} (zeros : Nat) (hp : Packed ws) (h : Whole esc ign ws d) :
    Shows d.source (bytesOf ws zeros) ws := by
  have hc := covers_zeros h.covers zeros
  have hs : d.source = tableSource (rowsOf (codec esc) ign (members ws) zeros) d.file.db.files := by
    unfold Disk.source
    rw [h.rows, rows_zeros (clean esc hp) ign 0 zeros]
  refine ⟨?_, ?_, ?_, ?_, ?_⟩
  · intro k ns f hl hk hn before
    obtain ⟨m, h1, h2, -⟩ := reaches hl
    have h3 := shown_read hc h2 hk hn before
    rw [← hs, archive_eq, data_eq (hp.written _ h1)] at h3
    exact h3
  · intro k ns f hl hk hn
    obtain ⟨m, h1, h2, h3⟩ := reaches hl
    have h4 := shown_attributes hc h2 hk hn
    rw [← hs, data_eq (hp.written _ h1), show typeOf f.hdr.type = bits f.kind from typeOf_kind f.kind h3] at h4
    exact h4
  · intro ns hn hv
    rw [hs]
    refine ⟨shown_nodup hc hn hv, fun n => (shown_list hc hn hv n).trans ?_⟩
    constructor
    · rintro (h | h | ⟨p, hm, rest, he⟩)
      · exact .inl h
      · exact .inr (.inl h)
      · obtain ⟨q, hq, rfl⟩ := List.mem_map.mp hm
        exact .inr (.inr ⟨q, hq, rest, he⟩)
    · rintro (h | h | ⟨q, hq, rest, he⟩)
      · exact .inl h
      · exact .inr (.inl h)
      · exact .inr (.inr ⟨_, List.mem_map.mpr ⟨q, hq, rfl⟩, rest, he⟩)
  · intro ns hn hne hl hin
    rw [hs]
    exact shown_folder hc hn hne (last_none hl) ((inside_iff ws ns).mpr hin)
  · intro ns hn hv hne hl hin
    rw [hs]
    exact (shown_absent hc hn hne hv (last_none hl) (fun h => hin ((inside_iff ws ns).mp h)) (start [])).1

/-! ## C207 -/

/-- **C207**, histories in which no killed mount leaves an index that can be loaded but has no statistics of the archive: a mount succeeds
and shows exactly the packed files, whichever index is used, extended or made anew. Missing: the other killed mounts, see
`C207_violated` and `C207_unnoticed_violated`. -/
theorem C207_history_partial (esc : Bytes → Str) (ign : Bool) (ws : Packing) (zeros : Nat) (mtime : Int) (es : List Event) (o : Options)
    (hp : Packed (packedAll ws es)) (hne : ws ≠ []) (hes : AllOk es) (ho : o.Ok) (hq : Quiet esc ign ⟨ws, zeros, mtime, none⟩ es) :
    ∃ p, plan esc ign (steps esc ign ⟨ws, zeros, mtime, none⟩ es) o = .ok p ∧
      Shows p.finish.source (steps esc ign ⟨ws, zeros, mtime, none⟩ es).archive (packedAll ws es) := by
  have hws := steps_ws esc ign es ⟨ws, zeros, mtime, none⟩
  have hI := steps_sound es ⟨ws, zeros, mtime, none⟩ hp hne hes hq (by simp)
  have hp' : Packed (steps esc ign ⟨ws, zeros, mtime, none⟩ es).ws := by rw [hws]; exact hp
  obtain ⟨p, h1, h2⟩ := plan_right hp' (by rw [hws]; unfold packedAll; simp [hne]) ho hI
  refine ⟨p, h1, ?_⟩
  have := whole_shows (steps esc ign ⟨ws, zeros, mtime, none⟩ es).zeros hp' h2.whole
  unfold World.archive
  rw [hws] at this ⊢
  exact this

theorem create_finish (esc : Bytes → Str) (ign : Bool) (w : World) (o : Options) (kept : Option Disk) :
    (create esc ign w o kept).finish = (create esc ign w o none).finish := by
  have h : ∀ kept, (create esc ign w o kept).finish = fresh.run (createActs (o.batches (w.all esc ign)) w.stats) := by
    intro kept
    unfold create
    split <;> rfl
  rw [h, h]

theorem create_shows {esc : Bytes → Str} {ign : Bool} {w : World} {o : Options} (hp : Packed w.ws) (hne : w.ws ≠ []) (ho : o.Ok)
    (kept : Option Disk) : Shows (create esc ign w o kept).finish.source w.archive w.ws := by
  rw [create_finish]
  exact whole_shows w.zeros hp (create_right hp hne ho none (fun d h => by cases h)).whole

/-- **C207**, an index of another archive: whatever is stored, if it is not loaded then the mount shows what is packed. -/
theorem C207_unloaded (esc : Bytes → Str) (ign : Bool) (w : World) (o : Options) (d : Disk) (hp : Packed w.ws) (hne : w.ws ≠ []) (ho : o.Ok)
    (hi : w.index = some d) (hl : (load esc ign w o d).1 = false) :
    ∃ p, plan esc ign w o = .ok p ∧ Shows p.finish.source w.archive w.ws := by
  refine ⟨create esc ign w o none, ?_, create_shows hp hne ho none⟩
  unfold plan
  rw [hi]
  simp only
  cases h : load esc ign w o d with
  | mk a b =>
    rw [h] at hl
    simp only at hl
    subst hl
    rfl

/-- **C207**, an archive that seems to be appended to but was changed: whatever is stored, if one of the rows that are checked is not in the archive,
then nothing of the index is used and the mount shows what is packed. -/
theorem C207_rejected (esc : Bytes → Str) (ign : Bool) (w : World) (o : Options) (d : Disk) (hp : Packed w.ws) (hne : w.ws ≠ []) (ho : o.Ok)
    (x : Option Nat) (hx : pastEndOffset (d.file.db.files.map (prow d.rows)) = .ok x)
    (hc : checkRows (codec esc) (plain ign) w.archive (o.picks (regular d)) = .ok false) :
    ∃ p, appended esc ign w o d = .ok p ∧ Shows p.finish.source w.archive w.ws := by
  refine ⟨create esc ign w o (some d), ?_, create_shows hp hne ho _⟩
  simp only [appended, hx, hc]
  cases x with
  | none => rfl
  | some p => simp only; split <;> rfl

/-- **C207**, no mount is killed: this is the claim for all histories of appending and mounting. Missing: killed mounts. -/
theorem C207_unkilled_partial (esc : Bytes → Str) (ign : Bool) (ws : Packing) (zeros : Nat) (mtime : Int) (es : List Event) (o : Options)
    (hp : Packed (packedAll ws es)) (hne : ws ≠ []) (hes : AllOk es) (ho : o.Ok) (hk : ∀ e ∈ es, ∀ o k, e ≠ .mount o (some k)) :
    ∃ p, plan esc ign (steps esc ign ⟨ws, zeros, mtime, none⟩ es) o = .ok p ∧
      Shows p.finish.source (steps esc ign ⟨ws, zeros, mtime, none⟩ es).archive (packedAll ws es) := by
  refine C207_history_partial esc ign ws zeros mtime es o hp hne hes ho ?_
  have : ∀ (es : List Event) (w : World), (∀ e ∈ es, ∀ o k, e ≠ .mount o (some k)) → Quiet esc ign w es := by
    intro es
    induction es with
    | nil => intro w _; exact trivial
    | cons e es ih =>
      intro w h
      have h1 := fun w' => ih w' (fun x hx => h x (List.mem_cons_of_mem _ hx))
      cases e with
      | grow more z t => exact h1 _
      | mount o k =>
        cases k with
        | none => exact h1 _
        | some k => exact absurd rfl (h _ (by simp) o k)
  exact this es _ hk

/-! ### the windows -/

/-- The file after the script was executed twice. -/
theorem script_file : Tbl.parentfolders ∈ (newFile.run (createTables ++ createTables)).tables ∧ Tbl.files ∈ (newFile.run (createTables ++ createTables)).tables ∧
    Tbl.metadata ∈ (newFile.run (createTables ++ createTables)).tables ∧ (newFile.run (createTables ++ createTables)).db = DB.empty := by
  refine ⟨by decide, by decide, by decide, rfl⟩

/-- A creation that was killed after the script and before the statistics were stored. -/
theorem created_middle (bs : List (List IRow)) (st : Stats) (j : Nat) (hj : j ≤ bs.length + 7) :
    fresh.run ((createActs bs st).take (18 + j)) =
      ⟨(newFile.run (createTables ++ createTables)).run (((numberBatches 0 bs).map Stmt.insert ++ finalizeTables).take j), none, false,
        (bs.take j).flatten⟩ := by
  unfold createActs
  have hl : ((createTables ++ createTables).map Act.sql).length = 18 := rfl
  have hl2 : (bs.map Act.insert ++ finalizeTables.map Act.sql).length = bs.length + 6 := by simp [finalizeTables]
  have hl3 : ((createTables ++ createTables).map Act.sql ++ (bs.map Act.insert ++ finalizeTables.map Act.sql)).length = 18 + (bs.length + 6) := by
    rw [List.length_append, hl, hl2]
  rw [List.take_append_of_le_length (by rw [List.length_append, hl3, List.length_singleton]; omega), List.take_append, hl3, run_app,
    List.take_append, hl, run_app, List.take_of_length_le (by rw [hl]; omega), Nat.add_sub_cancel_left, run_sql, run_tail]
  have : ∀ (d : Disk) (i : Nat), d.run (List.take i [Act.sql .storeMetadata]) = d := by
    intro d i
    cases i with
    | zero => rfl
    | succ i => rw [List.take_of_length_le (by simp)]; rfl
  rw [this]
  show Disk.mk _ _ _ ([] ++ _) = _
  rw [List.nil_append]
  rfl

/-- **C207**, the windows of a mount that creates an index: killed after `k` statements, it leaves an index that can be loaded but
has no statistics exactly if only the first table was created but not yet "filestmp", or if all rows are stored but not yet the statistics. -/
theorem C207_windows (bs : List (List IRow)) (st : Stats) (k : Nat) :
    (accepted (fresh.run ((createActs bs st).take k)).file ∧ (fresh.run ((createActs bs st).take k)).stats.isSome = false) ↔
      (1 ≤ k ∧ k ≤ 5) ∨ (bs.length + 22 ≤ k ∧ k ≤ bs.length + 25) := by
  rcases Nat.lt_or_ge k 18 with hk | hk
  · have hsmall : fresh.run ((createActs bs st).take k) = ⟨newFile.run ((createTables ++ createTables).take k), none, false, []⟩ := by
      unfold createActs
      have hl : ((createTables ++ createTables).map Act.sql).length = 18 := rfl
      rw [List.take_append_of_le_length (by simp [createTables]; omega), List.take_append_of_le_length (by simp [createTables]; omega),
        List.take_append_of_le_length (by rw [hl]; omega), ← List.map_take, run_sql]
      rfl
    rw [hsmall]
    simp only [Option.isSome_none, and_true]
    have hcase : k = 0 ∨ k = 1 ∨ k = 2 ∨ k = 3 ∨ k = 4 ∨ k = 5 ∨ k = 6 ∨ k = 7 ∨ k = 8 ∨ k = 9 ∨ k = 10 ∨ k = 11 ∨ k = 12 ∨ k = 13 ∨ k = 14 ∨
      k = 15 ∨ k = 16 ∨ k = 17 := by omega
    constructor
    · intro h
      left
      rcases hcase with rfl | rfl | rfl | rfl | rfl | rfl | rfl | rfl | rfl | rfl | rfl | rfl | rfl | rfl | rfl | rfl | rfl | rfl <;>
        first | omega | exact absurd h (by decide)
    · rintro (h | h)
      · rcases hcase with rfl | rfl | rfl | rfl | rfl | rfl | rfl | rfl | rfl | rfl | rfl | rfl | rfl | rfl | rfl | rfl | rfl | rfl <;>
          first | omega | decide
      · omega
  · obtain ⟨j, rfl⟩ : ∃ j, k = 18 + j := ⟨k - 18, by omega⟩
    rcases Nat.lt_or_ge (bs.length + 7) j with hj | hj
    · have : (fresh.run ((createActs bs st).take (18 + j))).stats = some st := by
        have hb := created_before bs
        unfold createActs
        have hl : ((createTables ++ createTables).map Act.sql ++ (bs.map Act.insert ++ finalizeTables.map Act.sql) ++
            [Act.sql .storeMetadata]).length = bs.length + 25 := by
          simp [createTables, finalizeTables]
        rw [List.take_append, run_app, List.take_of_length_le (by rw [hl]; omega), hb, hl]
        obtain ⟨i, hi⟩ : ∃ i, 18 + j - (bs.length + 25) = i + 1 := ⟨18 + j - (bs.length + 25) - 1, by omega⟩
        rw [hi]
        cases i with
        | zero => rfl
        | succ i => rw [List.take_of_length_le (by simp)]; rfl
      rw [this]
      simp only [Option.isSome_some, Bool.true_eq_false, and_false, false_iff]
      omega
    · rw [created_middle bs st j hj]
      simp only [Option.isSome_none, and_true]
      constructor
      · intro h
        have := (tail_state _ script_file.1 _ _ h).1
        rw [numberBatches_length] at this
        right
        omega
      · rintro (h | h)
        · omega
        · have := tail_tables (newFile.run (createTables ++ createTables)) script_file.2.1 (numberBatches 0 bs) (j - bs.length) (by omega)
          rw [numberBatches_length, show bs.length + (j - bs.length) = j by omega] at this
          exact this

/-- **C207**, the window of a mount that extends an index: killed between `drop_metadata` and the storing of the new statistics. -/
theorem C207_windows_extend (d : Disk) (bs : List (List IRow)) (st : Stats) (hs : d.stats.isSome = true) (k : Nat) :
    (d.reopen.run ((extendActs bs st).take k)).stats.isSome = false ↔ k = bs.length + 16 ∨ k = bs.length + 17 := by
  have hn : ∀ a ∈ createTables.map Act.sql ++ (bs.map Act.insert ++ finalizeTables.map Act.sql), a ≠ .clear ∧ ∀ s, a ≠ .stats s := by
    intro a ha
    simp only [List.mem_append, List.mem_map] at ha
    rcases ha with ⟨x, -, rfl⟩ | ⟨x, -, rfl⟩ | ⟨x, -, rfl⟩ <;> simp
  have hl : (createTables.map Act.sql ++ (bs.map Act.insert ++ finalizeTables.map Act.sql)).length = bs.length + 15 := by
    simp [createTables, finalizeTables]
  unfold extendActs
  generalize createTables.map Act.sql ++ (bs.map Act.insert ++ finalizeTables.map Act.sql) = pre at *
  rw [List.take_append, run_app, hl]
  rcases Nat.lt_or_ge (bs.length + 15) k with hk | hk
  · obtain ⟨j, rfl⟩ : ∃ j, k = bs.length + 16 + j := ⟨k - (bs.length + 16), by omega⟩
    rw [List.take_of_length_le (by omega), show bs.length + 16 + j - (bs.length + 15) = j + 1 by omega]
    have hcase : j = 0 ∨ j = 1 ∨ j = 2 ∨ 3 ≤ j := by omega
    rcases hcase with rfl | rfl | rfl | hj
    · exact ⟨fun _ => .inl rfl, fun _ => rfl⟩
    · exact ⟨fun _ => .inr rfl, fun _ => rfl⟩
    · refine ⟨fun h => ?_, fun h => by omega⟩
      cases h
    · rw [List.take_of_length_le (by simp; omega)]
      refine ⟨fun h => ?_, fun h => by omega⟩
      cases h
  · rw [show k - (bs.length + 15) = 0 by omega, List.take_zero, show ∀ x : Disk, x.run [] = x from fun _ => rfl,
      keep_stats _ d.reopen (fun a ha => hn a (List.mem_of_mem_take ha))]
    constructor
    · intro h
      rw [show d.reopen.stats = d.stats from rfl, hs] at h
      cases h
    · omega

/-- **C207**, what happens in the second window: the index is used as it is, for every archive that was appended to, and the appended
files are missing. -/
theorem C207_unnoticed_violated (esc : Bytes → Str) (ign : Bool) (a b : Packing) (zeros zeros' : Nat) (mtime mtime' : Int) (o o' : Options)
    (hp : Packed (a ++ b)) (hne : a ≠ []) (ho : o.Ok) (hw : o.write = true) (k : Nat)
    (hk : (o.batches (newIndex (codec esc) (plain ign) 0 (bytesOf a zeros))).length + 22 ≤ k ∧
      k ≤ (o.batches (newIndex (codec esc) (plain ign) 0 (bytesOf a zeros))).length + 25) :
    ∃ d, plan esc ign (steps esc ign ⟨a, zeros, mtime, none⟩ [.mount o (some k), .grow b zeros' mtime']) o' = .ok (.use d) ∧
      ∀ {ns : List Str}, (∀ x ∈ ns, IsName x) → (∀ x ∈ ns, endsWith dotVersions x = false) → ns ≠ [] →
        lastFile (a.map (fun p => p.1)) ns = none → ¬ Inside (a.map (fun p => p.1)) ns → mgetattr d.source (canonical ns) = .error (.os 2) := by
  have hpa := packed_prefix hp
  generalize hbs : o.batches (newIndex (codec esc) (plain ign) 0 (bytesOf a zeros)) = bs at hk
  have hall : (World.mk a zeros mtime none).all esc ign = newIndex (codec esc) (plain ign) 0 (bytesOf a zeros) := rfl
  have hflat : bs.flatten = rowsOf (codec esc) ign (members a) 0 := by
    rw [← hbs, ho.batches, ← hall, all_eq esc ign hpa]
  obtain ⟨j, rfl⟩ : ∃ j, k = 18 + j := ⟨k - 18, by omega⟩
  have hstate := created_middle bs (World.mk a zeros mtime none).stats j (by omega)
  rw [List.take_of_length_le (by omega : bs.length ≤ j)] at hstate
  obtain ⟨s1, s2, s3, s4⟩ := script_file
  generalize newFile.run (createTables ++ createTables) = s0 at *
  have hacc := tail_tables s0 s2 (numberBatches 0 bs) (j - bs.length) (by omega)
  rw [numberBatches_length, show bs.length + (j - bs.length) = j by omega] at hacc
  have hmeta := tail_metadata s0 (numberBatches 0 bs) j s3
  have hfiles := (tail_state s0 s1 _ _ hacc).2.1
  rw [s4] at hfiles
  generalize s0.run (((numberBatches 0 bs).map Stmt.insert ++ finalizeTables).take j) = f at *
  refine ⟨⟨f, none, false, bs.flatten⟩, ?_, ?_⟩
  · have hstep : steps esc ign ⟨a, zeros, mtime, none⟩ [.mount o (some (18 + j)), .grow b zeros' mtime'] =
        ⟨a ++ b, zeros', mtime', some ⟨f, none, false, bs.flatten⟩⟩ := by
      unfold steps
      simp only [List.foldl_cons, List.foldl_nil, step, plan, create, hw, Option.isNone_none, and_self, if_true, Plan.left, hall, hbs, hstate]
    rw [hstep]
    have hpass : passes esc ign (bytesOf (a ++ b) zeros') (firstTwo (regular ⟨f, none, false, bs.flatten⟩)) = true := by
      unfold passes
      rw [check_ok hp hne zeros' (l := firstTwo (regular ⟨f, none, false, bs.flatten⟩))]
      intro r hr
      have h1 : r ∈ regular ⟨f, none, false, bs.flatten⟩ := (sortBy_perm _ _).mem_iff.mp (List.mem_of_mem_take hr)
      have h2 := regular_mem h1
      rw [← hflat]
      exact h2
    have hload : load esc ign ⟨a ++ b, zeros', mtime', some ⟨f, none, false, bs.flatten⟩⟩ o' ⟨f, none, false, bs.flatten⟩ = (true, false) := by
      unfold load
      rw [if_pos hacc, if_pos hmeta]
      have : openExisting ((World.mk (a ++ b) zeros' mtime' (some ⟨f, none, false, bs.flatten⟩)).now o')
          [toIndex esc ign (World.mk (a ++ b) zeros' mtime' (some ⟨f, none, false, bs.flatten⟩)).archive ⟨f, none, false, bs.flatten⟩] false =
          (some (toIndex esc ign (World.mk (a ++ b) zeros' mtime' (some ⟨f, none, false, bs.flatten⟩)).archive ⟨f, none, false, bs.flatten⟩), false) := by
        have hro : (toIndex esc ign (World.mk (a ++ b) zeros' mtime' (some ⟨f, none, false, bs.flatten⟩)).archive ⟨f, none, false, bs.flatten⟩).rowsOk = true := by
          show (false || passes esc ign (bytesOf (a ++ b) zeros') _) = true
          rw [hpass]
          rfl
        have hst : (toIndex esc ign (World.mk (a ++ b) zeros' mtime' (some ⟨f, none, false, bs.flatten⟩)).archive ⟨f, none, false, bs.flatten⟩).stats = none := rfl
        generalize toIndex esc ign (World.mk (a ++ b) zeros' mtime' (some ⟨f, none, false, bs.flatten⟩)).archive ⟨f, none, false, bs.flatten⟩ = i at *
        unfold openExisting Tar.checkMetadata
        rw [hst, hro]
        rfl
      rw [this]
    unfold plan
    simp only [hload]
  · intro ns hn hv hne' hl hin
    refine (whole_shows (esc := esc) (ign := ign) (ws := a) 0 hpa ⟨hflat, ?_⟩).absent hn hv hne' hl hin
    show Covers _ _ _ _ f.db.files
    rw [hfiles]
    exact built ⟨clean esc hpa, created_rows bs _ hflat⟩

/-! ### extending -/

theorem rows_length {esc : Bytes → Str} {ign : Bool} {ws : Packing} (hp : Packed ws) (z : Nat) :
    (rowsOf (codec esc) ign (members ws) z).length = ws.length := by
  rw [rowsOf_eq (clean esc hp), List.length_map]
  have : ∀ (ms : List (Member × Hdr)) (off : Nat), (Tar.entriesAt off ms).length = ms.length := by
    intro ms
    induction ms with
    | nil => intro off; rfl
    | cons p ms ih => intro off; unfold Tar.entriesAt; rw [List.length_cons, List.length_cons, ih]
  rw [this]
  simp [members]

theorem covers_length {esc : Bytes → Str} {ign : Bool} {ws : Packing} {tb : Table} (hp : Packed ws)
    (hc : Covers (codec esc) ign (members ws) 0 tb) : ws.length ≤ tb.length := by
  have hnd : (toRows (rowsOf (codec esc) ign (members ws) 0)).Nodup := by
    refine (rows_sorted (clean esc hp) ign 0).imp ?_
    intro a b h he
    rw [he] at h
    omega
  have := List.Nodup.length_le_of_subset hnd (fun x hx => hc.rows x hx)
  have hl : (toRows (rowsOf (codec esc) ign (members ws) 0)).length = ws.length := by
    unfold toRows
    rw [List.length_mapIdx, rows_length hp]
  omega

/-- **C207**, the work for a large archive: if it was appended to, and is at least 64 MiB large, with at least 100 files and less than
tripled, then the saved index is used and exactly one row for each appended file is added to it. -/
theorem C207_extends (esc : Bytes → Str) (ign : Bool) (a b : Packing) (zeros zeros' : Nat) (mtime mtime' : Int) (o o' : Options)
    (hp : Packed (a ++ b)) (ho : o.Ok) (ho' : o'.Ok) (hw : o.write = true) (hmany : 100 ≤ a.length) (ht : mtime ≤ mtime')
    (hlarge : 64 * 1024 * 1024 ≤ (bytesOf (a ++ b) zeros').length) (hmore : (bytesOf a zeros).length < (bytesOf (a ++ b) zeros').length)
    (htriple : (bytesOf (a ++ b) zeros').length ≤ 3 * (bytesOf a zeros).length) :
    ∃ (d : Disk) (bs : List (List IRow)) (st : Stats), plan esc ign (steps esc ign ⟨a, zeros, mtime, none⟩ [.mount o none, .grow b zeros' mtime']) o' =
        .ok (.write d.reopen (extendActs bs st)) ∧ d.rows.length = a.length ∧ bs.flatten.length = b.length := by
  have hne : a ≠ [] := by
    rintro rfl
    simp at hmany
  have hpa := packed_prefix hp
  have hall : (World.mk a zeros mtime none).all esc ign = rowsOf (codec esc) ign (members a) 0 := all_eq esc ign hpa
  have hflat : (o.batches ((World.mk a zeros mtime none).all esc ign)).flatten = rowsOf (codec esc) ign (members a) 0 := by
    rw [ho.batches, hall]
  generalize hbs : o.batches ((World.mk a zeros mtime none).all esc ign) = bs at hflat
  have hcov := created_covers hpa hflat
  obtain ⟨c1, c2, c3, c4⟩ := created_file (numberBatches 0 bs)
  have hstep : steps esc ign ⟨a, zeros, mtime, none⟩ [.mount o none, .grow b zeros' mtime'] =
      ⟨a ++ b, zeros', mtime', some ⟨createdFile (numberBatches 0 bs), some (World.mk a zeros mtime none).stats, true, bs.flatten⟩⟩ := by
    unfold steps
    simp only [List.foldl_cons, List.foldl_nil, step, plan, create, hw, Option.isNone_none, and_self, if_true, Plan.left, hbs, created_whole]
  rw [hstep]
  generalize createdFile (numberBatches 0 bs) = f at *
  have hlen := covers_length hpa hcov
  have hpast := past_end hpa hne hcov
  rw [← hflat] at hpast
  have hz := size_pos (esc := esc) hpa hne
  have hload : load esc ign ⟨a ++ b, zeros', mtime', some ⟨f, some (World.mk a zeros mtime none).stats, true, bs.flatten⟩⟩ o'
      ⟨f, some (World.mk a zeros mtime none).stats, true, bs.flatten⟩ = (true, true) := by
    unfold load
    rw [if_pos c1, if_pos c2]
    have : ∀ i : Tar.Index, i.stats = some ⟨some (bytesOf a zeros).length, some mtime⟩ → i.rows = f.db.files.map (prow bs.flatten) →
        i.fileCount = f.db.files.length → i.sameVersion = true → i.rowsOk = true →
        openExisting ⟨(bytesOf (a ++ b) zeros').length, mtime', false, false, o'.verify, true⟩ [i] false = (some i, true) := by
      intro i h1 h2 h3 h4 h5
      have hmark : ∀ flag, Tar.tryMark ⟨(bytesOf (a ++ b) zeros').length, mtime', false, false, o'.verify, true⟩
          ⟨some (bytesOf a zeros).length, some mtime⟩ i flag = .ok true := by
        intro flag
        unfold Tar.tryMark
        simp only
        rw [if_neg (by omega), if_neg (by omega), if_neg (by simp), if_neg (by simp), if_neg (by omega), if_neg (by omega), if_neg (by omega),
          if_neg (by simp [h4])]
      unfold openExisting Tar.checkMetadata Tar.checkStats Tar.sizeStep Tar.eofStep
      simp only [h1, h2, h5, hpast, if_true]
      rw [if_neg (by omega), if_pos (by omega), hmark]
      simp only [hmark, ite_self]
      rfl
    rw [show (World.mk (a ++ b) zeros' mtime' (some ⟨f, some (World.mk a zeros mtime none).stats, true, bs.flatten⟩)).now o' =
      ⟨(bytesOf (a ++ b) zeros').length, mtime', false, false, o'.verify, true⟩ from rfl, this _ rfl rfl rfl rfl rfl]
  have hchk : checkRows (codec esc) (plain ign) (bytesOf (a ++ b) zeros')
      (o'.picks (regular ⟨f, some (World.mk a zeros mtime none).stats, true, bs.flatten⟩)) = .ok true := by
    refine check_ok hp hne zeros' ?_
    intro r hr
    have := regular_mem (ho'.picks _ r hr)
    rw [← hflat]
    exact this
  refine ⟨⟨f, some (World.mk a zeros mtime none).stats, true, bs.flatten⟩,
    o'.batches (extendIndex (codec esc) (plain ign) 0 (size a) (bytesOf (a ++ b) zeros')),
    ⟨some (bytesOf (a ++ b) zeros').length, some mtime'⟩, ?_, ?_, ?_⟩
  · unfold plan
    simp only [hload]
    unfold appended
    simp only [hpast]
    rw [if_neg (by omega)]
    show (match checkRows (codec esc) (plain ign) (bytesOf (a ++ b) zeros')
      (o'.picks (regular ⟨f, some (World.mk a zeros mtime none).stats, true, bs.flatten⟩)) with
      | .error e => Except.error e
      | .ok true => _
      | .ok false => _) = _
    rw [hchk]
    rfl
  · show bs.flatten.length = _
    rw [hflat, rows_length hpa]
  · rw [ho'.batches]
    have := congrArg List.length (extension (esc := esc) ign hp hne zeros')
    rw [List.length_append, rows_length hpa, rows_length hp, List.length_append] at this
    omega

/-! ## a concrete history -/

/-- All rows are inserted at once, and all rows are checked. -/
def simple : Options := ⟨true, true, fun l => [l], id⟩

theorem simple_ok : simple.Ok := ⟨fun l => by simp [simple], fun l r h => h⟩

/-- The first file of `demo`, and the others. -/
def first : Packing := demo.take 1

def others : Packing := demo.drop 1

theorem demo_split : first ++ others = demo := List.take_append_drop 1 demo

theorem long_place : ∃ n, place longFile.name = [n] := ⟨List.replicate 300 'n', by decide +kernel⟩

theorem demo_folder : Leads (demo.map (fun p => p.1)) 0 [['a'], ['b']] folder := by
  obtain ⟨n, hlong⟩ := long_place
  have hfold : place folder.name = [['a'], ['b']] := by decide
  have hhard : place hardFile.name = [['b'], ['é']] := by decide
  refine .here _ folder (by decide) ?_ (by decide)
  unfold lastFile
  rw [show demo.map (fun p => p.1) = [longFile, folder, hardFile] from rfl]
  generalize longFile = l at *
  rw [List.filter_cons_of_neg (by rw [hlong]; simp), List.filter_cons_of_pos (by rw [hfold]; simp), List.filter_cons_of_neg (by rw [hhard]; simp)]
  rfl

theorem first_lacks : lastFile (first.map (fun p => p.1)) [['a'], ['b']] = none ∧ ¬ Inside (first.map (fun p => p.1)) [['a'], ['b']] := by
  obtain ⟨n, hlong⟩ := long_place
  rw [show first.map (fun p => p.1) = [longFile] from rfl]
  generalize longFile = l at *
  constructor
  · unfold lastFile
    rw [List.filter_cons_of_neg (by rw [hlong]; simp)]
    rfl
  · rintro ⟨f, hf, m, rest, he⟩
    rw [List.mem_singleton] at hf
    subst hf
    rw [hlong] at he
    simp at he

/-- **C207 is violated by the code**: the process is killed when all rows but no statistics are stored, and the archive is appended to. -/
theorem C207_violated : ¬ C207_statement := by
  intro h
  have hbs : (simple.batches (newIndex (codec (fun _ => [])) (plain false) 0 (bytesOf first 1024))).length = 1 := rfl
  have hok : AllOk [.mount simple (some 23), .grow others 1024 1] := by
    intro e he o k heq
    subst heq
    simp only [List.mem_cons, Event.mount.injEq, reduceCtorEq, List.not_mem_nil, or_false] at he
    rw [he.1]
    exact simple_ok
  have hall : packedAll first [.mount simple (some 23), .grow others 1024 1] = demo := by
    rw [← demo_split]
    unfold packedAll
    simp
  obtain ⟨p, h1, h2⟩ := h (fun _ => []) false first 1024 0 [.mount simple (some 23), .grow others 1024 1] simple
    (by rw [hall]; exact demo_packed) (by simp [first, demo]) hok simple_ok
  obtain ⟨d, h3, h4⟩ := C207_unnoticed_violated (fun _ => []) false first others 1024 1024 0 1 simple simple (by rw [demo_split]; exact demo_packed)
    (by simp [first, demo]) simple_ok rfl 23 (by rw [hbs]; decide)
  rw [h3] at h1
  simp only [Except.ok.injEq] at h1
  subst h1
  rw [hall] at h2
  have h5 := (h2.attributes demo_folder (by decide) (by unfold IsName; decide)).1
  have h6 := h4 (ns := [['a'], ['b']]) (by unfold IsName; decide) (by decide) (by decide) first_lacks.1 first_lacks.2
  rw [show (Plan.use d).finish = d from rfl, h6] at h5
  cases h5

/-- C207: a mount that was killed while the script ran the second time, then two files are appended, and the archive is mounted twice. -/
example (esc : Bytes → Str) : ∃ p, plan esc false (steps esc false ⟨first, 1024, 0, none⟩
      [.mount simple (some 12), .grow others 2048 1, .mount simple none]) simple = .ok p ∧
    mgetattr p.finish.source "/a/b".toList = .ok (0o40755, 0) := by
  have hall : packedAll first [.mount simple (some 12), .grow others 2048 1, .mount simple none] = demo := by
    rw [← demo_split]
    unfold packedAll
    simp
  obtain ⟨p, h1, h2⟩ := C207_history_partial esc false first 1024 0 [.mount simple (some 12), .grow others 2048 1, .mount simple none] simple
    (by rw [hall]; exact demo_packed) (by simp [first, demo]) (by
      intro e he o k heq
      subst heq
      simp only [List.mem_cons, Event.mount.injEq, reduceCtorEq, List.not_mem_nil, or_false, false_or] at he
      rcases he with he | he <;> rw [he.1] <;> exact simple_ok) simple_ok (by
      refine ⟨?_, trivial⟩
      intro d hd ha
      have hd' : some (fresh.run ((createActs [World.all esc false ⟨first, 1024, 0, none⟩] (World.stats ⟨first, 1024, 0, none⟩)).take 12)) = some d := hd
      rw [Option.some.injEq] at hd'
      subst hd'
      have := C207_windows [World.all esc false ⟨first, 1024, 0, none⟩] (World.stats ⟨first, 1024, 0, none⟩) 12
      cases hs : (fresh.run ((createActs [World.all esc false ⟨first, 1024, 0, none⟩] (World.stats ⟨first, 1024, 0, none⟩)).take 12)).stats.isSome with
      | true => rfl
      | false =>
        have hx := this.mp ⟨ha, hs⟩
        simp at hx)
  rw [hall] at h2
  exact ⟨p, h1, (h2.attributes demo_folder (by decide) (by unfold IsName; decide)).1⟩

/-- A file with `n` bytes. -/
def filled (n : Nat) : File := ⟨.file, ['x'], 0o644, List.replicate n 7, []⟩

/-- The file is packed `k` times. -/
def repeated (n k : Nat) : Packing := List.replicate k (filled n, Tar.Header.gnu someone (filled n))

theorem repeated_mem {n k : Nat} {p : File × Member} (h : p ∈ repeated n k) : p = (filled n, Tar.Header.gnu someone (filled n)) :=
  (List.mem_replicate.mp h).2

theorem filled_ok {n : Nat} (hn : n < 256 ^ 11) : (filled n).Ok where
  name := ⟨by show '\x00' ∉ ['x']; decide, by show ['x'].getLast? ≠ some '/'; decide⟩
  link := List.not_mem_nil
  mode := by show 0o644 < 4096; decide
  data h := absurd rfl h
  size := by show (List.replicate n 7).length < _; rw [List.length_replicate]; exact hn
  folder h := by cases h

theorem repeated_packed {n : Nat} (hn : n < 256 ^ 11) (k : Nat) : Packed (repeated n k) where
  written p hp := by
    rw [repeated_mem hp]
    exact .gnu someone someone_ok (filled n)
  ok p hp := by
    rw [repeated_mem hp]
    exact filled_ok hn
  names p hp := by
    rw [repeated_mem hp]
    show Tar.Header.Storable ['x'] ∧ Tar.Header.Storable []
    exact ⟨by unfold Tar.Header.Storable; decide, by unfold Tar.Header.Storable; decide⟩
  tree p hp := by
    rw [repeated_mem hp]
    rintro ⟨f, hf, m, rest, he⟩
    obtain ⟨q, hq, rfl⟩ := List.mem_map.mp hf
    rw [repeated_mem hq] at he
    have := congrArg List.length he
    simp only [List.length_append, List.length_cons] at this
    omega

theorem filled_bytes (n : Nat) : (Tar.Header.gnu someone (filled n)).encode.length = 512 + Tar.roundUp n := by
  have h1 : Tar.Header.gnuLink someone (filled n) = [] := rfl
  have h2 : Tar.Header.gnuName someone (filled n) = [] := rfl
  unfold Tar.Member.encode Tar.Member.head Tar.Header.gnu
  simp only [h1, h2, List.append_nil, List.flatMap_nil, List.nil_append]
  rw [List.append_assoc, List.length_append, Tar.Header.block_length, Tar.Header.filled_length]
  show 512 + Tar.roundUp (List.replicate n 7).length = _
  rw [List.length_replicate]

theorem repeated_bytes (n k z : Nat) : (bytesOf (repeated n k) z).length = k * (512 + Tar.roundUp n) + z := by
  unfold bytesOf
  rw [List.length_append, List.length_replicate]
  congr 1
  induction k with
  | zero => simp [repeated]
  | succ k ih =>
    have : repeated n (k + 1) = (filled n, Tar.Header.gnu someone (filled n)) :: repeated n k := rfl
    rw [this, List.flatMap_cons, List.length_append, ih, filled_bytes, Nat.succ_mul]
    omega

/-- C207: an archive with hundred files of one MiB, to which a further one is added. -/
example (esc : Bytes → Str) : ∃ (d : Disk) (bs : List (List IRow)) (st : Stats),
    plan esc false (steps esc false ⟨repeated (2 ^ 20) 100, 1024, 5, none⟩ [.mount simple none, .grow (repeated (2 ^ 20) 1) 1024 6]) simple =
        .ok (.write d.reopen (extendActs bs st)) ∧ d.rows.length = 100 ∧ bs.flatten.length = 1 := by
  have hn : (2 ^ 20 : Nat) < 256 ^ 11 := by decide
  have hr : Tar.roundUp (2 ^ 20) = 2 ^ 20 := by decide
  generalize h0 : 2 ^ 20 = n at *
  have hs : repeated n 100 ++ repeated n 1 = repeated n 101 := by
    unfold repeated
    rw [List.replicate_append_replicate]
  have hl : ∀ k, (repeated n k).length = k := fun k => List.length_replicate
  obtain ⟨d, bs, st, h1, h2, h3⟩ := C207_extends esc false (repeated n 100) (repeated n 1) 1024 1024 5 6 simple simple
    (by rw [hs]; exact repeated_packed hn 101) simple_ok simple_ok rfl (by rw [hl]; omega) (by decide)
    (by rw [hs, repeated_bytes, hr]; omega) (by rw [hs, repeated_bytes, repeated_bytes, hr]; omega) (by rw [hs, repeated_bytes, repeated_bytes, hr]; omega)
  rw [hl] at h2 h3
  exact ⟨d, bs, st, h1, h2, h3⟩

/-- A row of a file that is not in `demo`, and an index with it. -/
def foreign : IRow := ⟨['/'], ['z'], 0, 512, 1, 0o100644, [], false, false, 0⟩

def foreignIndex : Disk := fresh.run (createActs [[foreign]] ⟨some 1024, some 0⟩)

example : pastEndOffset (foreignIndex.file.db.files.map (prow foreignIndex.rows)) = .ok (some 1024) ∧
    checkRows (codec (fun _ => [])) (plain false) (World.archive ⟨first, 1024, 1, some foreignIndex⟩) (simple.picks (regular foreignIndex)) = .ok false := by
  refine ⟨by decide +kernel, by decide +kernel⟩

example : (load (fun _ => []) false ⟨first, 1024, 1, some foreignIndex⟩ simple foreignIndex).1 = false := by decide +kernel

end Verif.Fuse.TarLife
