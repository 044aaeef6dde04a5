import Verif.Index.Load
import Verif.Dict
import Verif.Py

/-!
# C174, C175: where a new index is kept while it is made
(core/ratarmountcore/SQLiteIndex.py:295-305, 372-391, 596-613, 642-692, 744-775, 1060-1090, 1390-1408, core/ratarmountcore/utils.py:422-470)

An index starts in memory and is moved to disk as soon as it has many rows, or if the archive is compressed. Connections to databases are objects
that can be shared, so they have numbers here. The rows of a database are the list of all rows that were put into it.
-/

namespace Verif.Writable

open Verif.Py
open Verif.Index

/-- What happens when a file is written (utils.py:441-442): it works, it is refused before anything is made, or it fails after some bytes. -/
inductive Write where
  | works
  | refused
  | breaks (bytes : Nat)

/-- The host (utils.py:422-455, SQLiteIndex.py:596-613): the files with their sizes, what happens when a file is written, and whether SQLite can
make a database there. -/
structure Host where
  files : Dict Str Nat
  write : Str → Write
  sqlite : Str → Bool

/-- `:memory:` (SQLiteIndex.py:389). -/
def memory : Str := ":memory:".toList

/-- `Path.unlink` and `unchecked_remove` (utils.py:443, 458-470). -/
def Host.without (h : Host) (path : Str) : Host := { h with files := Dict.del h.files path }

/-- Writing the file for the test, and removing it (utils.py:441-455). -/
def tryWrite (h : Host) (path : Str) : Bool × Host :=
  match h.write path with
  | .works => (true, h.without path)
  | .refused => (false, h)
  | .breaks n => (false, { h with files := Dict.set h.files path n })

/-- `file.exists() and file.stat().st_size > 0` (utils.py:432). -/
def filled (h : Host) (path : Str) : Bool :=
  match Dict.get? h.files path with
  | some n => n > 0
  | none => false

/-- `ensure_writable_path` (utils.py:422-455), without the parent folders. -/
def ensureWritable (h : Host) (path : Str) : Bool × Host :=
  if contains "://".toList path then (false, h)
  else if filled h path then (false, h)
  else tryWrite h path

/-- `_path_can_be_used_for_sqlite` (SQLiteIndex.py:596-613). The database for the test is removed in any case. -/
def canBeUsed (h : Host) (path : Str) : Bool × Host :=
  match ensureWritable h path with
  | (false, h') => (false, h')
  | (true, h') => (h.sqlite path, h'.without path)

/-- The loop of `open_writable` (SQLiteIndex.py:376-380): the first path that can be used. -/
def firstUsable (h : Host) : List Str → Option Str × Host
  | [] => (none, h)
  | p :: ps =>
    match canBeUsed h p with
    | (true, h') => (some p, h')
    | (false, h') => firstUsable h' ps

/-- A connection to a database (SQLiteIndex.py:642-661). -/
structure Conn (α : Type) where
  path : Str
  rows : List α
  closed : Bool

/-- The members of `SQLiteIndex` that matter here (SQLiteIndex.py:253-305); connections are numbered in the order in which they were made. -/
structure Index (α : Type) where
  possible : List Str
  preferMemory : Bool
  minimum : Nat
  inserted : Nat
  path : Option Str
  conn : Option Nat
  conns : List (Conn α)
  host : Host

/-- `_create_sql_db` (SQLiteIndex.py:642-661), and storing its result (SQLiteIndex.py:379, 385, 768). -/
def create (s : Index α) (path : Str) : Index α :=
  { s with path := some path, conn := some s.conns.length, conns := s.conns ++ [⟨path, [], false⟩] }

/-- The file of a database on disk exists after `_create_sql_db` (SQLiteIndex.py:659). -/
def createOnDisk (s : Index α) (path : Str) : Index α :=
  if path = memory then create s path
  else { create s path with host := { s.host with files := Dict.set s.host.files path 1 } }

/-- `index_is_loaded` (SQLiteIndex.py:1134-1150): the connection exists; using one that is closed raises `ProgrammingError`, for which
`runtimeError` stands. -/
def isLoaded (s : Index α) : Except PyErr Bool :=
  match s.conn with
  | none => .ok false
  | some c =>
    match s.conns[c]? with
    | none => .ok false
    | some k => if k.closed then .error .runtimeError else .ok true

/-- The choice of the place (SQLiteIndex.py:376-385). -/
def choose (s : Index α) : Index α :=
  if s.possible ≠ [] ∧ s.preferMemory = false then
    match firstUsable s.host s.possible with
    | (some p, h) => createOnDisk { s with host := h } p
    | (none, h) => { s with host := h }
  else create s memory

/-- `open_writable` (SQLiteIndex.py:372-391) of an index that may be written. -/
def openWritable (s : Index α) : Except PyErr (Index α) :=
  match isLoaded (choose s) with
  | .error e => .error e
  | .ok true => .ok (choose s)
  | .ok false => .error .invalidIndex

/-- `sqlConnection.close()` (SQLiteIndex.py:685, 692). -/
def closeConn (s : Index α) (c : Nat) : Index α :=
  { s with conns := s.conns.modify c (fun k : Conn α => { k with closed := true }) }

/-- `oldSqlConnection.backup(self.sqlConnection)` (SQLiteIndex.py:691). -/
def backup (s : Index α) (old : Conn α) (new : Nat) : Index α :=
  { s with conns := s.conns.modify new (fun k : Conn α => { k with rows := old.rows }) }

/-- The end of `_reload_index_on_disk` (SQLiteIndex.py:683-692). `conn` is the one before, `t` the state after `open_writable`. -/
def moveTo (t : Index α) (conn : Nat) : Except PyErr (Index α) :=
  if t.path = some memory then
    match t.conn with
    | none => .error .typeError
    | some c => .ok { closeConn t c with conn := some conn }
  else
    match t.conn, t.conns[conn]? with
    | some c, some old => if old.closed then .error .runtimeError else .ok (closeConn (backup t old c) conn)
    | _, _ => .error .typeError

/-- `_reload_index_on_disk` (SQLiteIndex.py:674-692). -/
def reloadOnDisk (s : Index α) : Except PyErr (Index α) :=
  match s.path, s.conn with
  | some p, some c =>
    if p = memory then
      match openWritable { s with preferMemory := false } with
      | .error e => .error e
      | .ok t => moveTo t c
    else .ok s
  | _, _ => .ok s

/-- `get_connection().executemany(…)` (SQLiteIndex.py:1079-1082). -/
def insert (s : Index α) (rows : List α) : Except PyErr (Index α) :=
  match s.conn with
  | none => .error .assertionError
  | some c =>
    match s.conns[c]? with
    | none => .error .assertionError
    | some k =>
      if k.closed then .error .runtimeError
      else .ok { s with conns := s.conns.modify c (fun k : Conn α => { k with rows := k.rows ++ rows }) }

/-- `self._insertedRowCount += len(rows)` (SQLiteIndex.py:1064). -/
def count (s : Index α) (n : Nat) : Index α := { s with inserted := s.inserted + n }

/-- The condition for moving to disk (SQLiteIndex.py:1065-1069). -/
def tooMany (s : Index α) : Prop := s.inserted > s.minimum ∧ s.path = some memory ∧ s.preferMemory = true

instance (s : Index α) : Decidable (tooMany s) := inferInstanceAs (Decidable (_ ∧ _ ∧ _))

/-- `set_file_infos` (SQLiteIndex.py:1060-1090), without the parent folders and rows with bad characters. -/
def setFileInfos (s : Index α) (rows : List α) : Except PyErr (Index α) :=
  if rows.isEmpty then .ok s
  else if tooMany (count s rows.length) then
    match reloadOnDisk { count s rows.length with preferMemory := false } with
    | .error e => .error e
    | .ok t => insert t rows
  else insert (count s rows.length) rows

/-- `synchronize_compression_offsets` (SQLiteIndex.py:1390-1408) up to the point where the offsets are stored; it uses the connection afterwards. -/
def synchronize (s : Index α) : Except PyErr (Index α) :=
  if s.path = none ∨ s.path = some memory then reloadOnDisk s else .ok s

/-- What a backend does with the index while it makes it (tar.py:734-847, SQLiteIndex.py:733-738): rows are put in, and offsets of a compressed archive are
stored. -/
inductive Step (α : Type) where
  | rows (rs : List α)
  | offsets

/-- One step (tar.py:847-854). -/
def step (s : Index α) : Step α → Except PyErr (Index α)
  | .rows rs => setFileInfos s rs
  | .offsets => synchronize s

/-- All steps (tar.py:734-847). -/
def steps (s : Index α) : List (Step α) → Except PyErr (Index α)
  | [] => .ok s
  | a :: as =>
    match step s a with
    | .error e => .error e
    | .ok t => steps t as

/-- The rows in the database that is in use, if it can be used (SQLiteIndex.py:738, 771): `finalize` needs an open connection. -/
def finish (s : Index α) : Except PyErr (Option Str × List α × Host) :=
  match s.conn with
  | none => .error .assertionError
  | some c =>
    match s.conns[c]? with
    | none => .error .assertionError
    | some k => if k.closed then .error .runtimeError else .ok (s.path, k.rows, s.host)

/-- `SQLiteIndex.__init__` (SQLiteIndex.py:253-305); `given` tells whether the path of the index was given. -/
def fresh (h : Host) (possible : List Str) (minimum : Nat) (given : Bool) : Index α :=
  ⟨possible, decide (minimum > 0 ∧ given = false), minimum, 0, none, none, [], h⟩

/-- `finalize_index` (SQLiteIndex.py:744-775) when nothing was loaded: `write` stands for
`writeIndex and (self._requestedIndexFilePath or not isFileObject)`. -/
def build (h : Host) (possible : List Str) (minimum : Nat) (given write : Bool) (work : List (Step α)) :
    Except PyErr (Option Str × List α × Host) :=
  match (if write then openWritable (fresh h possible minimum given) else .ok (create (fresh h possible minimum given) memory)) with
  | .error e => .error e
  | .ok s =>
    match steps s work with
    | .error e => .error e
    | .ok t => finish t

/-! ## specification -/

/-- All rows of the archive. -/
def allRows : List (Step α) → List α
  | [] => []
  | .rows rs :: as => rs ++ allRows as
  | .offsets :: as => allRows as

/-- A place can be used for an index: it is not a URL, there is no file with something in it, it can be written and SQLite works there. -/
def Usable (h : Host) (p : Str) : Prop :=
  contains "://".toList p = false ∧ (∀ n, Dict.get? h.files p = some n → n = 0) ∧ h.write p = .works ∧ h.sqlite p = true

/-- **C174** as stated: an archive for which no index path was given can be indexed wherever it is, and whatever can be written: the index then has
all rows. -/
def C174_statement : Prop :=
  ∀ (h : Host) (possible : List Str) (minimum : Nat) (work : List (Step Nat)), minimum > 0 →
    ∃ path h', build h possible minimum false true work = .ok (path, allRows work, h')

/-- **C175** as stated: if the memory is one of the places, the index can be made. -/
def C175_statement : Prop :=
  ∀ (h : Host) (possible : List Str) (work : List (Step Nat)), ":memory:".toList ∈ possible →
    ∃ path h', build h possible 0 false true work = .ok (path, allRows work, h')

/-- **C176** as stated: if no index is to be written, the files of the host stay as they are. -/
def C176_statement : Prop :=
  ∀ (h : Host) (possible : List Str) (minimum : Nat) (work : List (Step Nat)) (path : Option Str) (rows : List Nat) (h' : Host),
    build h possible minimum false false work = .ok (path, rows, h') → h' = h

/-! ## proofs: the places -/

theorem filled_iff (h : Host) (p : Str) : filled h p = false ↔ ∀ n, Dict.get? h.files p = some n → n = 0 := by
  unfold filled
  cases hq : Dict.get? h.files p with
  | none => simp
  | some n => simp

/-- What the test of a place does: if it is a URL or filled or refused, nothing; otherwise the file there is gone, or it is a broken one. -/
theorem canBeUsed_cases (h : Host) (p : Str) :
    (canBeUsed h p = (false, h) ∧ ¬ Usable h p) ∨
    (∃ n, canBeUsed h p = (false, { h with files := Dict.set h.files p n }) ∧ h.write p = .breaks n ∧ filled h p = false) ∨
    (canBeUsed h p = (h.sqlite p, (h.without p).without p) ∧ h.write p = .works ∧ filled h p = false ∧ contains "://".toList p = false) := by
  unfold canBeUsed ensureWritable
  by_cases hu : contains "://".toList p = true
  · rw [if_pos hu]
    left
    refine ⟨rfl, fun h1 => ?_⟩
    rw [h1.1] at hu
    cases hu
  · rw [if_neg hu]
    by_cases hf : filled h p = true
    · rw [if_pos hf]
      left
      refine ⟨rfl, fun h1 => ?_⟩
      rw [(filled_iff h p).mpr h1.2.1] at hf
      cases hf
    · rw [if_neg hf]
      have hf : filled h p = false := by cases hq : filled h p with | true => exact absurd hq hf | false => rfl
      have hu : contains "://".toList p = false := by cases hq : contains "://".toList p with | true => exact absurd hq hu | false => rfl
      unfold tryWrite
      cases hw : h.write p with
      | works => exact .inr (.inr ⟨rfl, rfl, hf, hu⟩)
      | refused =>
        left
        refine ⟨rfl, fun h1 => ?_⟩
        have := h1.2.2.1
        rw [hw] at this
        cases this
      | breaks n => exact .inr (.inl ⟨n, rfl, rfl, hf⟩)

/-- A place passes the test exactly if it can be used. -/
theorem canBeUsed_iff (h : Host) (p : Str) : (canBeUsed h p).1 = true ↔ Usable h p := by
  rcases canBeUsed_cases h p with ⟨h1, h2⟩ | ⟨n, h1, h2, _⟩ | ⟨h1, h2, h3, h4⟩
  · rw [h1]
    exact ⟨(fun h => by cases h), fun h => absurd h h2⟩
  · rw [h1]
    refine ⟨(fun h => by cases h), fun h => ?_⟩
    have := h.2.2.1
    rw [h2] at this
    cases this
  · rw [h1]
    exact ⟨fun h5 => ⟨h4, (filled_iff h p).mp h3, h2, h5⟩, fun h5 => h5.2.2.2⟩

/-- The dictionary of the files has no path twice. -/
def Host.Ok (h : Host) : Prop := (Dict.keys h.files).Nodup

theorem without_ok (h : Host) (p : Str) (hn : h.Ok) : (h.without p).Ok := Dict.nodup_del _ hn _

theorem canBeUsed_ok (h : Host) (p : Str) (hn : h.Ok) : (canBeUsed h p).2.Ok := by
  rcases canBeUsed_cases h p with ⟨h1, _⟩ | ⟨n, h1, _⟩ | ⟨h1, _⟩
  · rw [h1]; exact hn
  · rw [h1]; exact Dict.nodup_set _ hn _ _
  · rw [h1]; exact without_ok _ _ (without_ok _ _ hn)

theorem canBeUsed_other (h : Host) (p q : Str) (hn : h.Ok) (hq : p ≠ q) :
    Dict.get? (canBeUsed h p).2.files q = Dict.get? h.files q := by
  rcases canBeUsed_cases h p with ⟨h1, _⟩ | ⟨n, h1, _⟩ | ⟨h1, _⟩
  · rw [h1]
  · rw [h1]
    show Dict.get? (Dict.set h.files p n) q = _
    rw [Dict.get?_set, if_neg hq]
  · rw [h1]
    show Dict.get? (Dict.del (Dict.del h.files p) p) q = _
    rw [Dict.get?_del _ (Dict.nodup_del _ hn _), if_neg hq, Dict.get?_del _ hn, if_neg hq]

theorem canBeUsed_frame (h : Host) (p : Str) : (canBeUsed h p).2.write = h.write ∧ (canBeUsed h p).2.sqlite = h.sqlite := by
  rcases canBeUsed_cases h p with ⟨h1, _⟩ | ⟨n, h1, _⟩ | ⟨h1, _⟩ <;> rw [h1] <;> exact ⟨rfl, rfl⟩

/-- The test of a place does not change which places can be used. -/
theorem canBeUsed_stable (h : Host) (p q : Str) (hn : h.Ok) : Usable (canBeUsed h p).2 q ↔ Usable h q := by
  unfold Usable
  rw [(canBeUsed_frame h p).1, (canBeUsed_frame h p).2]
  by_cases hq : p = q
  · subst hq
    rcases canBeUsed_cases h p with ⟨h1, _⟩ | ⟨n, h1, h2, _⟩ | ⟨h1, h2, h3, h4⟩
    · rw [h1]
    · simp [h2]
    · rw [h1]
      have : Dict.get? ((h.without p).without p).files p = none := by
        show Dict.get? (Dict.del (Dict.del h.files p) p) p = none
        rw [Dict.get?_del _ (Dict.nodup_del _ hn _), if_pos rfl]
      simp only [this]
      have := (filled_iff h p).mp h3
      constructor
      · rintro ⟨a, _, c⟩; exact ⟨a, this, c⟩
      · rintro ⟨a, _, c⟩; exact ⟨a, (fun n hn => by cases hn), c⟩
  · rw [canBeUsed_other h p q hn hq]

/-- The test of a place leaves all files that are not empty. -/
theorem canBeUsed_kept (h : Host) (p q : Str) (n : Nat) (hn : h.Ok) (h0 : n > 0) (hq : Dict.get? h.files q = some n) :
    Dict.get? (canBeUsed h p).2.files q = some n := by
  by_cases hpq : p = q
  · subst hpq
    have hf : filled h p = true := by
      unfold filled
      rw [hq]
      exact decide_eq_true h0
    rcases canBeUsed_cases h p with ⟨h1, _⟩ | ⟨n', h1, _, h3⟩ | ⟨h1, _, h3, _⟩
    · rw [h1]; exact hq
    · rw [hf] at h3; cases h3
    · rw [hf] at h3; cases h3
  · rw [canBeUsed_other h p q hn hpq, hq]

/-- The first place that can be used. -/
def First (h : Host) (ps : List Str) (p : Str) : Prop :=
  ∃ before after, ps = before ++ p :: after ∧ (∀ q ∈ before, ¬ Usable h q) ∧ Usable h p

theorem first_congr {h h' : Host} (hs : ∀ q, Usable h' q ↔ Usable h q) (ps : List Str) (p : Str) : First h' ps p ↔ First h ps p := by
  unfold First
  simp only [hs]

/-- What the loop over the places comes to. -/
theorem firstUsable_spec (h : Host) (hn : h.Ok) (ps : List Str) :
    (firstUsable h ps).2.Ok ∧ (∀ q, Usable (firstUsable h ps).2 q ↔ Usable h q) ∧
    (∀ q n, n > 0 → Dict.get? h.files q = some n → Dict.get? (firstUsable h ps).2.files q = some n) ∧
    (match (firstUsable h ps).1 with
      | some p => First h ps p
      | none => ∀ q ∈ ps, ¬ Usable h q) := by
  induction ps generalizing h with
  | nil => exact ⟨hn, fun _ => Iff.rfl, fun _ _ _ h => h, (fun _ h => by cases h)⟩
  | cons p ps ih =>
    have hu := canBeUsed_iff h p
    have hok := canBeUsed_ok h p hn
    have hst := fun q => canBeUsed_stable h p q hn
    have hk := fun q n => canBeUsed_kept h p q n hn
    unfold firstUsable
    generalize hc : canBeUsed h p = r at hu hok hst hk
    obtain ⟨b, h'⟩ := r
    cases b with
    | true => exact ⟨hok, hst, hk, [], ps, rfl, (fun _ h => by cases h), hu.mp rfl⟩
    | false =>
      have hnu : ¬ Usable h p := fun h1 => by have := hu.mpr h1; cases this
      obtain ⟨i1, i2, i3, i4⟩ := ih h' hok
      refine ⟨i1, fun q => (i2 q).trans (hst q), fun q n h0 h1 => i3 q n h0 (hk q n h0 h1), ?_⟩
      show (match (firstUsable h' ps).1 with
        | some p' => First h (p :: ps) p'
        | none => ∀ q ∈ p :: ps, ¬ Usable h q)
      cases hf : (firstUsable h' ps).1 with
      | none =>
        rw [hf] at i4
        intro q hq
        rcases List.mem_cons.mp hq with rfl | hq
        · exact hnu
        · exact fun h1 => i4 q hq ((hst q).mpr h1)
      | some p' =>
        rw [hf] at i4
        replace i4 : First h' ps p' := i4
        obtain ⟨bf, af, e1, e2, e3⟩ := (first_congr hst ps p').mp i4
        refine ⟨p :: bf, af, by rw [e1]; rfl, ?_, e3⟩
        intro q hq
        rcases List.mem_cons.mp hq with rfl | hq
        · exact hnu
        · exact e2 q hq

theorem first_unique (h : Host) (ps : List Str) (p q : Str) (hp : First h ps p) (hq : First h ps q) : p = q := by
  obtain ⟨b1, a1, e1, n1, u1⟩ := hp
  obtain ⟨b2, a2, e2, n2, u2⟩ := hq
  rw [e1] at e2
  rcases List.append_eq_append_iff.mp e2 with ⟨c, hc1, hc2⟩ | ⟨c, hc1, hc2⟩
  · cases c with
    | nil => simpa using (List.cons.inj hc2).1
    | cons x c =>
      have : p = x := (List.cons.inj hc2).1
      subst this
      exact absurd u1 (n2 p (by rw [hc1]; simp))
  · cases c with
    | nil => simpa using (List.cons.inj hc2).1.symm
    | cons x c =>
      have : q = x := (List.cons.inj hc2).1
      subst this
      exact absurd u2 (n1 q (by rw [hc1]; simp))

theorem first_of_usable (h : Host) (ps : List Str) (hp : ∃ p ∈ ps, Usable h p) : ∃ p, First h ps p := by
  induction ps with
  | nil => obtain ⟨p, hp, _⟩ := hp; cases hp
  | cons a ps ih =>
    by_cases ha : Usable h a
    · exact ⟨a, [], ps, rfl, (fun _ h => by cases h), ha⟩
    · obtain ⟨p, hp, hu⟩ := hp
      rcases List.mem_cons.mp hp with rfl | hp
      · exact absurd hu ha
      · obtain ⟨q, b, af, e, n, u⟩ := ih ⟨p, hp, hu⟩
        refine ⟨q, a :: b, af, by rw [e]; rfl, ?_, u⟩
        intro x hx
        rcases List.mem_cons.mp hx with rfl | hx
        · exact ha
        · exact n x hx

/-! ## proofs: the connections -/

/-- The connection in use is open and its database has these rows. -/
def Live (s : Index α) (rows : List α) : Prop :=
  ∃ (c : Nat) (k : Conn α), s.conn = some c ∧ s.conns[c]? = some k ∧ k.closed = false ∧ k.rows = rows

/-- The connection in use is closed. -/
def Dead (s : Index α) : Prop := ∃ (c : Nat) (k : Conn α), s.conn = some c ∧ s.conns[c]? = some k ∧ k.closed = true

theorem getElem?_modify_self (l : List (Conn α)) (i : Nat) (f : Conn α → Conn α) (k : Conn α) (h : l[i]? = some k) :
    (l.modify i f)[i]? = some (f k) := by
  rw [List.getElem?_modify, h]
  simp

theorem getElem?_modify_other (l : List (Conn α)) (i j : Nat) (f : Conn α → Conn α) (h : i ≠ j) : (l.modify i f)[j]? = l[j]? := by
  rw [List.getElem?_modify]
  simp [h]

theorem insert_live (s : Index α) (rows rs : List α) (h : Live s rows) :
    ∃ cs, insert s rs = .ok { s with conns := cs } ∧ Live { s with conns := cs } (rows ++ rs) := by
  obtain ⟨c, k, h1, h2, h3, h4⟩ := h
  refine ⟨s.conns.modify c (fun k : Conn α => { k with rows := k.rows ++ rs }), ?_, c, { k with rows := k.rows ++ rs }, h1, ?_, h3, ?_⟩
  · unfold insert
    simp only [h1, h2, h3]
    rfl
  · exact getElem?_modify_self _ _ _ _ h2
  · show k.rows ++ rs = rows ++ rs
    rw [h4]

theorem insert_dead (s : Index α) (rs : List α) (h : Dead s) : insert s rs = .error .runtimeError := by
  obtain ⟨c, k, h1, h2, h3⟩ := h
  unfold insert
  simp only [h1, h2, h3, if_true]

theorem finish_live (s : Index α) (rows : List α) (h : Live s rows) : finish s = .ok (s.path, rows, s.host) := by
  obtain ⟨c, k, h1, h2, h3, h4⟩ := h
  unfold finish
  simp only [h1, h2, h3, h4]
  rfl

theorem finish_dead (s : Index α) (h : Dead s) : finish s = .error .runtimeError := by
  obtain ⟨c, k, h1, h2, h3⟩ := h
  unfold finish
  simp only [h1, h2, h3, if_true]

/-- Making a new connection leaves the others, and the new one is open and empty. -/
theorem create_spec (s : Index α) (p : Str) :
    isLoaded (create s p) = .ok true ∧ (create s p).conns[s.conns.length]? = some ⟨p, [], false⟩ ∧
    (∀ (c : Nat) (k : Conn α), s.conns[c]? = some k → (create s p).conns[c]? = some k ∧ c ≠ s.conns.length) := by
  have h1 : (create s p).conns[s.conns.length]? = some ⟨p, [], false⟩ := by
    show (s.conns ++ [(⟨p, [], false⟩ : Conn α)])[s.conns.length]? = _
    simp
  refine ⟨?_, h1, ?_⟩
  · unfold isLoaded
    have h2 : (create s p).conn = some s.conns.length := rfl
    simp only [h2, h1]
    rfl
  · intro c k hk
    have hc : c < s.conns.length := (List.getElem?_eq_some_iff.mp hk).1
    refine ⟨?_, by omega⟩
    show (s.conns ++ [(⟨p, [], false⟩ : Conn α)])[c]? = _
    rw [List.getElem?_append_left hc, hk]

/-- Where the index goes if it is to be written: to the memory if there are no places, otherwise to the first that can be used. -/
def Target (h : Host) (possible : List Str) (p : Str) : Prop := (possible = [] ∧ p = ":memory:".toList) ∨ First h possible p

/-- A later state of the host: no file with something in it was changed. -/
def Kept (h h' : Host) : Prop := h'.Ok ∧ ∀ q n, n > 0 → Dict.get? h.files q = some n → Dict.get? h'.files q = some n

/-- The index was put where it belongs, with these rows. -/
def Settled (h : Host) (possible : List Str) (p : Str) (s : Index α) (rows : List α) : Prop :=
  s.possible = possible ∧ Live s rows ∧ s.path = some p ∧ Kept h s.host ∧
  (p = memory → s.preferMemory = false ∧ ∀ q, Usable s.host q ↔ Usable h q) ∧ (p ≠ memory → ∃ n, n > 0 ∧ Dict.get? s.host.files p = some n)

/-- `createOnDisk` makes a new connection, and the file if it is one. -/
theorem createOnDisk_eq (s : Index α) (p : Str) :
    createOnDisk s p = { create s p with host := if p = memory then s.host else { s.host with files := Dict.set s.host.files p 1 } } := by
  unfold createOnDisk
  split <;> rfl

theorem isLoaded_host (s : Index α) (h : Host) : isLoaded { s with host := h } = isLoaded s := rfl

/-- Choosing a place when there is one. -/
theorem choose_target (h : Host) (s : Index α) (possible : List Str) (p : Str) (hp : s.possible = possible) (hm : s.preferMemory = false)
    (ht : Target h possible p) (hk : Kept h s.host) (hu : ∀ q, Usable s.host q ↔ Usable h q) :
    ∃ h', choose s = { create s p with host := h' } ∧ Kept h h' ∧ (p = memory → ∀ q, Usable h' q ↔ Usable h q) ∧
      (p ≠ memory → ∃ n, n > 0 ∧ Dict.get? h'.files p = some n) := by
  subst hp
  unfold choose
  by_cases he : s.possible = []
  · rw [if_neg (fun h1 => h1.1 he)]
    have hpm : p = memory := by
      rcases ht with ⟨_, h1⟩ | ⟨b, a, h1, _⟩
      · exact h1
      · rw [he] at h1
        cases b <;> cases h1
    subst hpm
    exact ⟨s.host, rfl, hk, fun _ => hu, fun h1 => absurd rfl h1⟩
  · rw [if_pos ⟨he, hm⟩]
    have hf : First h s.possible p := ht.resolve_left (fun h1 => he h1.1)
    have spec := firstUsable_spec s.host hk.1 s.possible
    have hf2 : First s.host s.possible p := (first_congr hu s.possible p).mpr hf
    generalize firstUsable s.host s.possible = r at spec
    obtain ⟨o, h'⟩ := r
    obtain ⟨i1, i2, i3, i4⟩ := spec
    cases o with
    | none =>
      replace i4 : ∀ q ∈ s.possible, ¬ Usable s.host q := i4
      obtain ⟨b, a, e, _, u⟩ := hf2
      exact absurd u (i4 p (by rw [e]; simp))
    | some q =>
      replace i4 : First s.host s.possible q := i4
      have hq : q = p := first_unique _ _ _ _ i4 hf2
      subst hq
      show ∃ h'', createOnDisk { s with host := h' } q = _ ∧ _
      rw [createOnDisk_eq]
      refine ⟨_, rfl, ?_, ?_, ?_⟩
      · by_cases hqm : q = memory
        · rw [if_pos hqm]
          exact ⟨i1, fun x n h0 h1 => i3 x n h0 (hk.2 x n h0 h1)⟩
        · rw [if_neg hqm]
          refine ⟨Dict.nodup_set _ i1 _ _, fun x n h0 h1 => ?_⟩
          show Dict.get? (Dict.set h'.files q 1) x = some n
          rw [Dict.get?_set]
          by_cases hx : q = x
          · subst hx
            obtain ⟨_, _, _, _, u⟩ := hf
            have := u.2.1 n h1
            omega
          · rw [if_neg hx]
            exact i3 x n h0 (hk.2 x n h0 h1)
      · intro hqm
        rw [if_pos hqm]
        exact fun x => (i2 x).trans (hu x)
      · intro hqm
        rw [if_neg hqm]
        refine ⟨1, by decide, ?_⟩
        show Dict.get? (Dict.set h'.files q 1) q = some 1
        rw [Dict.get?_set, if_pos rfl]

/-- Opening a new index. -/
theorem openWritable_target (h : Host) (s : Index α) (possible : List Str) (p : Str) (hp : s.possible = possible) (hm : s.preferMemory = false)
    (ht : Target h possible p) (hk : Kept h s.host) (hu : ∀ q, Usable s.host q ↔ Usable h q) :
    ∃ h', openWritable s = .ok { create s p with host := h' } ∧ Kept h h' ∧ (p = memory → ∀ q, Usable h' q ↔ Usable h q) ∧
      (p ≠ memory → ∃ n, n > 0 ∧ Dict.get? h'.files p = some n) := by
  obtain ⟨h', e, r⟩ := choose_target h s possible p hp hm ht hk hu
  refine ⟨h', ?_, r⟩
  unfold openWritable
  rw [e, isLoaded_host, (create_spec s p).1]

theorem moveTo_memory (t : Index α) (c n : Nat) (h1 : t.path = some memory) (h2 : t.conn = some n) :
    moveTo t c = .ok { closeConn t n with conn := some c } := by
  unfold moveTo
  rw [if_pos h1]
  simp only [h2]

theorem moveTo_disk (t : Index α) (c n : Nat) (old : Conn α) (h1 : t.path ≠ some memory) (h2 : t.conn = some n) (h3 : t.conns[c]? = some old)
    (h4 : old.closed = false) : moveTo t c = .ok (closeConn (backup t old n) c) := by
  unfold moveTo
  rw [if_neg h1]
  simp only [h2, h3, h4]
  rfl

theorem reload_eq (s : Index α) (c : Nat) (h1 : s.path = some memory) (h2 : s.conn = some c) :
    reloadOnDisk s = match openWritable { s with preferMemory := false } with
      | .error e => .error e
      | .ok t => moveTo t c := by
  obtain ⟨po, pm, mi, ins, pa, co, cs, ho⟩ := s
  replace h1 : pa = some memory := h1
  replace h2 : co = some c := h2
  subst h1 h2
  rfl

/-- Moving an index to where it belongs. -/
theorem reload_target (h : Host) (s : Index α) (possible : List Str) (p : Str) (rows : List α) (hp : s.possible = possible)
    (ht : Target h possible p) (hk : Kept h s.host) (hu : ∀ q, Usable s.host q ↔ Usable h q) (hpath : s.path = some memory) (hl : Live s rows) :
    ∃ t, reloadOnDisk s = .ok t ∧ Settled h possible p t rows := by
  obtain ⟨c, k, h1, h2, h3, h4⟩ := hl
  obtain ⟨h', e, k1, k2, k3⟩ := openWritable_target h { s with preferMemory := false } possible p hp rfl ht hk hu
  obtain ⟨_, c2, c3⟩ := create_spec { s with preferMemory := false } p
  obtain ⟨c4, c5⟩ := c3 c k h2
  have hr : reloadOnDisk s = moveTo { create { s with preferMemory := false } p with host := h' } c := by
    rw [reload_eq s c hpath h1, e]
  rw [hr]
  by_cases hpm : p = memory
  · refine ⟨_, moveTo_memory _ _ s.conns.length (congrArg some hpm) rfl, hp, ⟨c, k, rfl, ?_, h3, h4⟩, congrArg some rfl, k1, fun _ => ⟨rfl, k2 hpm⟩, fun hn => absurd hpm hn⟩
    show ((create { s with preferMemory := false } p).conns.modify s.conns.length _)[c]? = some k
    rw [getElem?_modify_other _ _ _ _ (fun h => c5 h.symm)]
    exact c4
  · refine ⟨_, moveTo_disk _ _ s.conns.length k (fun h => hpm (Option.some.inj h)) rfl c4 h3, hp, ⟨s.conns.length, ⟨p, k.rows, false⟩, rfl, ?_, rfl, h4⟩, congrArg some rfl, k1, fun h => absurd h hpm, k3⟩
    show (((create { s with preferMemory := false } p).conns.modify s.conns.length (fun x : Conn α => { x with rows := k.rows })).modify c _)[s.conns.length]? = _
    rw [getElem?_modify_other _ _ _ _ c5]
    exact getElem?_modify_self _ _ _ ⟨p, [], false⟩ c2

/-- A settled index takes all further steps. -/
theorem settled_step (h : Host) (possible : List Str) (p : Str) (s : Index α) (rows : List α) (ht : Target h possible p)
    (hs : Settled h possible p s rows) (a : Step α) : ∃ t, step s a = .ok t ∧ Settled h possible p t (rows ++ allRows [a]) := by
  obtain ⟨s1, s2, s3, s4, s5, s6⟩ := hs
  cases a with
  | rows rs =>
    have hall : allRows [Step.rows rs] = rs := List.append_nil rs
    rw [hall]
    show ∃ t, setFileInfos s rs = .ok t ∧ _
    unfold setFileInfos
    by_cases hr : rs.isEmpty = true
    · rw [if_pos hr]
      have : rs = [] := List.isEmpty_iff.mp hr
      subst this
      refine ⟨s, rfl, s1, by rw [List.append_nil]; exact s2, s3, s4, s5, s6⟩
    · rw [if_neg hr]
      have hnot : ¬ tooMany (count s rs.length) := by
        rintro ⟨_, h1, h2⟩
        replace h1 : s.path = some memory := h1
        replace h2 : s.preferMemory = true := h2
        rw [s3] at h1
        have := (s5 (Option.some.inj h1)).1
        rw [h2] at this
        cases this
      rw [if_neg hnot]
      have hl : Live (count s rs.length) rows := s2
      obtain ⟨cs, e1, e2⟩ := insert_live (count s rs.length) rows rs hl
      exact ⟨_, e1, s1, e2, s3, s4, s5, s6⟩
  | offsets =>
    have hall : allRows [(Step.offsets : Step α)] = [] := rfl
    rw [hall, List.append_nil]
    show ∃ t, synchronize s = .ok t ∧ _
    unfold synchronize
    by_cases hpm : p = memory
    · rw [if_pos (.inr (s3.trans (congrArg some hpm)))]
      exact reload_target h s possible p rows s1 ht s4 (s5 hpm).2 (s3.trans (congrArg some hpm)) s2
    · have hno : ¬ (s.path = none ∨ s.path = some memory) := by
        rw [s3]
        rintro (h1 | h1)
        · cases h1
        · exact hpm (Option.some.inj h1)
      rw [if_neg hno]
      exact ⟨s, rfl, s1, s2, s3, s4, s5, s6⟩

theorem allRows_cons (a : Step α) (as : List (Step α)) : allRows (a :: as) = allRows [a] ++ allRows as := by
  cases a with
  | rows rs => show rs ++ allRows as = (rs ++ []) ++ allRows as; rw [List.append_nil]
  | offsets => rfl

theorem settled_steps (h : Host) (possible : List Str) (p : Str) (s : Index α) (rows : List α) (ht : Target h possible p)
    (hs : Settled h possible p s rows) (as : List (Step α)) : ∃ t, steps s as = .ok t ∧ Settled h possible p t (rows ++ allRows as) := by
  induction as generalizing s rows with
  | nil => exact ⟨s, rfl, by rw [show allRows ([] : List (Step α)) = [] from rfl, List.append_nil]; exact hs⟩
  | cons a as ih =>
    obtain ⟨t, e1, h1⟩ := settled_step h possible p s rows ht hs a
    obtain ⟨u, e2, h2⟩ := ih t _ h1
    refine ⟨u, ?_, ?_⟩
    · unfold steps
      rw [e1]
      exact e2
    · rw [allRows_cons, ← List.append_assoc]
      exact h2

/-- The index is in memory, and there was no need yet to put it somewhere else. -/
def Waiting (h : Host) (possible : List Str) (minimum : Nat) (prefer : Bool) (s : Index α) (rows : List α) : Prop :=
  s.possible = possible ∧ s.minimum = minimum ∧ s.preferMemory = prefer ∧ Live s rows ∧ s.path = some memory ∧ s.host = h ∧
  (prefer = true → s.inserted = rows.length ∧ rows.length ≤ minimum)

/-- The index is to be put on disk while it is made: there are many rows, or offsets of a compressed archive. -/
def NeedsDisk (minimum : Nat) (prefer : Bool) (n : Nat) (as : List (Step α)) : Prop :=
  (prefer = true ∧ n + (allRows as).length > minimum) ∨ Step.offsets ∈ as

/-- One step of a waiting index that goes on waiting. -/
theorem waiting_rows (h : Host) (possible : List Str) (minimum : Nat) (prefer : Bool) (s : Index α) (rows rs : List α)
    (hs : Waiting h possible minimum prefer s rows) (hn : prefer = true → rows.length + rs.length ≤ minimum) :
    ∃ t, step s (.rows rs) = .ok t ∧ Waiting h possible minimum prefer t (rows ++ rs) := by
  obtain ⟨s1, s2, s3, s4, s5, s6, s7⟩ := hs
  show ∃ t, setFileInfos s rs = .ok t ∧ _
  unfold setFileInfos
  by_cases hr : rs.isEmpty = true
  · rw [if_pos hr]
    have : rs = [] := List.isEmpty_iff.mp hr
    subst this
    rw [List.append_nil]
    exact ⟨s, rfl, s1, s2, s3, s4, s5, s6, s7⟩
  · rw [if_neg hr]
    have hnot : ¬ tooMany (count s rs.length) := by
      rintro ⟨h1, _, h2⟩
      replace h2 : s.preferMemory = true := h2
      replace h1 : s.inserted + rs.length > s.minimum := h1
      have hp : prefer = true := s3.symm.trans h2
      have h5 := hn hp
      have h6 := (s7 hp).1
      omega
    rw [if_neg hnot]
    have hl : Live (count s rs.length) rows := s4
    obtain ⟨cs, e1, e2⟩ := insert_live (count s rs.length) rows rs hl
    refine ⟨_, e1, s1, s2, s3, e2, s5, s6, fun hp => ⟨?_, ?_⟩⟩
    · show s.inserted + rs.length = (rows ++ rs).length
      rw [List.length_append, (s7 hp).1]
    · rw [List.length_append]
      exact hn hp

/-- A waiting index that has to be moved, if there is a place for it. -/
theorem waiting_moves (h : Host) (hok : h.Ok) (possible : List Str) (minimum : Nat) (prefer : Bool) (p : Str) (s : Index α) (rows : List α)
    (ht : Target h possible p) (hs : Waiting h possible minimum prefer s rows) (a : Step α)
    (hn : a = .offsets ∨ (prefer = true ∧ rows.length + (allRows [a]).length > minimum)) :
    ∃ t, step s a = .ok t ∧ Settled h possible p t (rows ++ allRows [a]) := by
  obtain ⟨s1, s2, s3, s4, s5, s6, s7⟩ := hs
  have hk : Kept h s.host := by rw [s6]; exact ⟨hok, fun _ _ _ h => h⟩
  have hu : ∀ q, Usable s.host q ↔ Usable h q := by rw [s6]; exact fun _ => Iff.rfl
  cases a with
  | offsets =>
    rw [show allRows [(Step.offsets : Step α)] = [] from rfl, List.append_nil]
    show ∃ t, synchronize s = .ok t ∧ _
    unfold synchronize
    rw [if_pos (.inr s5)]
    exact reload_target h s possible p rows s1 ht hk hu s5 s4
  | rows rs =>
    have hall : allRows [Step.rows rs] = rs := List.append_nil rs
    rw [hall] at hn ⊢
    obtain ⟨hp, hlen⟩ := hn.resolve_left (fun h => by cases h)
    show ∃ t, setFileInfos s rs = .ok t ∧ _
    have h7 := s7 hp
    have hr : ¬ rs.isEmpty = true := by
      intro h1
      have : rs = [] := List.isEmpty_iff.mp h1
      subst this
      have : ([] : List α).length = 0 := rfl
      omega
    have htoo : tooMany (count s rs.length) := by
      refine ⟨?_, s5, s3.trans hp⟩
      show s.inserted + rs.length > s.minimum
      omega
    unfold setFileInfos
    rw [if_neg hr, if_pos htoo]
    obtain ⟨t, e, hset⟩ := reload_target h { count s rs.length with preferMemory := false } possible p rows s1 ht hk hu s5 s4
    rw [e]
    obtain ⟨t1, t2, t3, t4, t5, t6⟩ := hset
    obtain ⟨cs, e1, e2⟩ := insert_live t rows rs t2
    exact ⟨_, e1, t1, e2, t3, t4, t5, t6⟩

/-- All steps of a waiting index that need no disk. -/
theorem waiting_stays (h : Host) (possible : List Str) (minimum : Nat) (prefer : Bool) (s : Index α) (rows : List α)
    (hs : Waiting h possible minimum prefer s rows) (as : List (Step α)) (hn : ¬ NeedsDisk minimum prefer rows.length as) :
    ∃ t, steps s as = .ok t ∧ Waiting h possible minimum prefer t (rows ++ allRows as) := by
  induction as generalizing s rows with
  | nil => exact ⟨s, rfl, by rw [show allRows ([] : List (Step α)) = [] from rfl, List.append_nil]; exact hs⟩
  | cons a as ih =>
    cases a with
    | offsets => exact absurd (.inr List.mem_cons_self) hn
    | rows rs =>
      have hcons : (allRows (Step.rows rs :: as)).length = rs.length + (allRows as).length := List.length_append
      have h1 : prefer = true → rows.length + rs.length ≤ minimum := by
        intro hp
        rcases Nat.lt_or_ge minimum (rows.length + rs.length) with h2 | h2
        · exact absurd (.inl ⟨hp, by omega⟩) hn
        · exact h2
      obtain ⟨t, e, ht⟩ := waiting_rows h possible minimum prefer s rows rs hs h1
      have h2 : ¬ NeedsDisk minimum prefer (rows ++ rs).length as := by
        rintro (⟨h3, h4⟩ | h3)
        · rw [List.length_append] at h4
          exact hn (.inl ⟨h3, by omega⟩)
        · exact hn (.inr (List.mem_cons_of_mem _ h3))
      obtain ⟨u, e2, hu⟩ := ih t _ ht h2
      refine ⟨u, ?_, ?_⟩
      · unfold steps
        rw [e]
        exact e2
      · show Waiting h possible minimum prefer u (rows ++ (rs ++ allRows as))
        rw [← List.append_assoc]
        exact hu

/-- All steps of a waiting index if there is a place for it. -/
theorem waiting_settles (h : Host) (hok : h.Ok) (possible : List Str) (minimum : Nat) (prefer : Bool) (p : Str) (s : Index α) (rows : List α)
    (ht : Target h possible p) (hs : Waiting h possible minimum prefer s rows) (as : List (Step α))
    (hn : NeedsDisk minimum prefer rows.length as) : ∃ t, steps s as = .ok t ∧ Settled h possible p t (rows ++ allRows as) := by
  induction as generalizing s rows with
  | nil =>
    rcases hn with ⟨hp, h1⟩ | h1
    · have := (hs.2.2.2.2.2.2 hp).2
      rw [show allRows ([] : List (Step α)) = [] from rfl] at h1
      have : ([] : List α).length = 0 := rfl
      omega
    · cases h1
  | cons a as ih =>
    by_cases hmv : a = .offsets ∨ (prefer = true ∧ rows.length + (allRows [a]).length > minimum)
    · obtain ⟨t, e, h1⟩ := waiting_moves h hok possible minimum prefer p s rows ht hs a hmv
      obtain ⟨u, e2, h2⟩ := settled_steps h possible p t _ ht h1 as
      refine ⟨u, ?_, ?_⟩
      · unfold steps
        rw [e]
        exact e2
      · rw [allRows_cons, ← List.append_assoc]
        exact h2
    · cases a with
      | offsets => exact absurd (.inl rfl) hmv
      | rows rs =>
        have hall : allRows [Step.rows rs] = rs := List.append_nil rs
        rw [hall] at hmv
        have h1 : prefer = true → rows.length + rs.length ≤ minimum := by
          intro hp
          rcases Nat.lt_or_ge minimum (rows.length + rs.length) with h2 | h2
          · exact absurd (.inr ⟨hp, h2⟩) hmv
          · exact h2
        obtain ⟨t, e, h3⟩ := waiting_rows h possible minimum prefer s rows rs hs h1
        have h2 : NeedsDisk minimum prefer (rows ++ rs).length as := by
          rcases hn with ⟨h4, h5⟩ | h4
          · left
            have hcons : (allRows (Step.rows rs :: as)).length = rs.length + (allRows as).length := List.length_append
            rw [List.length_append]
            exact ⟨h4, by omega⟩
          · right
            rcases List.mem_cons.mp h4 with h4 | h4
            · cases h4
            · exact h4
        obtain ⟨u, e2, hu⟩ := ih t _ h3 h2
        refine ⟨u, ?_, ?_⟩
        · unfold steps
          rw [e]
          exact e2
        · show Settled h possible p u (rows ++ (rs ++ allRows as))
          rw [← List.append_assoc]
          exact hu

/-- An index that has to be moved and finds no place loses its connection, and each further use of it fails. -/
def Lost (possible : List Str) (s : Index α) : Prop :=
  s.possible = possible ∧ s.preferMemory = false ∧ Dead s ∧ s.path = some memory ∧ s.host.Ok ∧ ∀ q ∈ possible, ¬ Usable s.host q

theorem choose_none (s : Index α) (he : s.possible ≠ []) (hm : s.preferMemory = false) (hok : s.host.Ok) (hn : ∀ q ∈ s.possible, ¬ Usable s.host q) :
    ∃ h', choose s = { s with host := h' } ∧ h'.Ok ∧ ∀ q, Usable h' q ↔ Usable s.host q := by
  unfold choose
  rw [if_pos ⟨he, hm⟩]
  have spec := firstUsable_spec s.host hok s.possible
  generalize firstUsable s.host s.possible = r at spec
  obtain ⟨o, h'⟩ := r
  obtain ⟨i1, i2, i3, i4⟩ := spec
  cases o with
  | none => exact ⟨h', rfl, i1, i2⟩
  | some q =>
    replace i4 : First s.host s.possible q := i4
    obtain ⟨b, a, e, _, u⟩ := i4
    exact absurd u (hn q (by rw [e]; simp))

theorem isLoaded_live (s : Index α) (rows : List α) (h : Live s rows) : isLoaded s = .ok true := by
  obtain ⟨c, k, h1, h2, h3, _⟩ := h
  unfold isLoaded
  simp only [h1, h2, h3]
  rfl

theorem isLoaded_dead (s : Index α) (h : Dead s) : isLoaded s = .error .runtimeError := by
  obtain ⟨c, k, h1, h2, h3⟩ := h
  unfold isLoaded
  simp only [h1, h2, h3, if_true]

/-- Moving an index that has no place to go closes its only connection (SQLiteIndex.py:683-687). -/
theorem reload_none (possible : List Str) (he : possible ≠ []) (s : Index α) (rows : List α) (hp : s.possible = possible)
    (hok : s.host.Ok) (hn : ∀ q ∈ possible, ¬ Usable s.host q) (hpath : s.path = some memory) (hl : Live s rows) :
    ∃ t, reloadOnDisk s = .ok t ∧ Lost possible t := by
  subst hp
  obtain ⟨h', e, k1, k2⟩ := choose_none { s with preferMemory := false } he rfl hok hn
  have hl2 : Live { s with preferMemory := false, host := h' } rows := hl
  obtain ⟨c, k, h1, h2, h3, h4⟩ := hl
  have ho : openWritable { s with preferMemory := false } = .ok { s with preferMemory := false, host := h' } := by
    unfold openWritable
    rw [e, isLoaded_live _ rows hl2]
  rw [reload_eq s c hpath h1, ho]
  refine ⟨_, moveTo_memory _ _ c hpath h1, rfl, rfl, ⟨c, { k with closed := true }, rfl, ?_, rfl⟩, hpath, k1, fun q hq hu => hn q hq ((k2 q).mp hu)⟩
  exact getElem?_modify_self _ _ _ _ h2

/-- Nothing can be done with a lost index. -/
theorem lost_steps (possible : List Str) (he : possible ≠ []) (as : List (Step α)) (s : Index α) (hs : Lost possible s) :
    steps s as = .error .runtimeError ∨ ∃ t, steps s as = .ok t ∧ Dead t := by
  induction as with
  | nil => exact .inr ⟨s, rfl, hs.2.2.1⟩
  | cons a as ih =>
    obtain ⟨s1, s2, s3, s4, s5, s6⟩ := hs
    cases a with
    | rows rs =>
      unfold steps
      by_cases hr : rs.isEmpty = true
      · have : step s (.rows rs) = .ok s := by
          show setFileInfos s rs = _
          unfold setFileInfos
          rw [if_pos hr]
        rw [this]
        exact ih
      · left
        have hnot : ¬ tooMany (count s rs.length) := by
          rintro ⟨_, _, h2⟩
          replace h2 : s.preferMemory = true := h2
          rw [h2] at s2
          cases s2
        have : step s (.rows rs) = .error .runtimeError := by
          show setFileInfos s rs = _
          unfold setFileInfos
          rw [if_neg hr, if_neg hnot]
          exact insert_dead _ rs s3
        rw [this]
    | offsets =>
      left
      obtain ⟨c, k, h1, h2, h3⟩ := s3
      subst s1
      obtain ⟨h', e, k1, k2⟩ := choose_none { s with preferMemory := false } he rfl s5 s6
      have hd : Dead { s with preferMemory := false, host := h' } := ⟨c, k, h1, h2, h3⟩
      have ho : openWritable { s with preferMemory := false } = .error .runtimeError := by
        unfold openWritable
        rw [e, isLoaded_dead _ hd]
      have : step s .offsets = .error .runtimeError := by
        show synchronize s = _
        unfold synchronize
        rw [if_pos (.inr s4), reload_eq s c s4 h1, ho]
      unfold steps
      rw [this]

/-- A waiting index that has to be moved, if there is no place for it. -/
theorem waiting_lost (h : Host) (hok : h.Ok) (possible : List Str) (he : possible ≠ []) (hu : ∀ q ∈ possible, ¬ Usable h q) (minimum : Nat)
    (prefer : Bool) (s : Index α) (rows : List α) (hs : Waiting h possible minimum prefer s rows) (as : List (Step α))
    (hn : NeedsDisk minimum prefer rows.length as) :
    steps s as = .error .runtimeError ∨ ∃ t, steps s as = .ok t ∧ Dead t := by
  induction as generalizing s rows with
  | nil =>
    rcases hn with ⟨hp, h1⟩ | h1
    · have := (hs.2.2.2.2.2.2 hp).2
      rw [show allRows ([] : List (Step α)) = [] from rfl] at h1
      have : ([] : List α).length = 0 := rfl
      omega
    · cases h1
  | cons a as ih =>
    cases a with
    | offsets =>
      obtain ⟨s1, s2, s3, s4, s5, s6, s7⟩ := hs
      obtain ⟨t, e, hlost⟩ := reload_none possible he s rows s1 (by rw [s6]; exact hok) (by rw [s6]; exact hu) s5 s4
      have hst : step s .offsets = .ok t := by
        show synchronize s = _
        unfold synchronize
        rw [if_pos (.inr s5), e]
      unfold steps
      rw [hst]
      exact lost_steps possible he as t hlost
    | rows rs =>
      by_cases hmv : prefer = true ∧ rows.length + rs.length > minimum
      · left
        obtain ⟨s1, s2, s3, s4, s5, s6, s7⟩ := hs
        have h7 := s7 hmv.1
        have hr : ¬ rs.isEmpty = true := by
          intro h1
          have : rs = [] := List.isEmpty_iff.mp h1
          subst this
          have : ([] : List α).length = 0 := rfl
          have := hmv.2
          omega
        have htoo : tooMany (count s rs.length) := by
          refine ⟨?_, s5, s3.trans hmv.1⟩
          show s.inserted + rs.length > s.minimum
          have := hmv.2
          omega
        obtain ⟨t, e, hlost⟩ := reload_none possible he { count s rs.length with preferMemory := false } rows s1
          (show s.host.Ok by rw [s6]; exact hok) (show ∀ q ∈ possible, ¬ Usable s.host q by rw [s6]; exact hu) s5 s4
        have hst : step s (.rows rs) = .error .runtimeError := by
          show setFileInfos s rs = _
          unfold setFileInfos
          rw [if_neg hr, if_pos htoo, e]
          exact insert_dead t rs hlost.2.2.1
        unfold steps
        rw [hst]
      · have h1 : prefer = true → rows.length + rs.length ≤ minimum := by
          intro hp
          rcases Nat.lt_or_ge minimum (rows.length + rs.length) with h2 | h2
          · exact absurd ⟨hp, h2⟩ hmv
          · exact h2
        obtain ⟨t, e, h3⟩ := waiting_rows h possible minimum prefer s rows rs hs h1
        have h2 : NeedsDisk minimum prefer (rows ++ rs).length as := by
          rcases hn with ⟨h4, h5⟩ | h4
          · left
            have hcons : (allRows (Step.rows rs :: as)).length = rs.length + (allRows as).length := List.length_append
            rw [List.length_append]
            exact ⟨h4, by omega⟩
          · right
            rcases List.mem_cons.mp h4 with h4 | h4
            · cases h4
            · exact h4
        unfold steps
        rw [e]
        exact ih t _ h3 h2

/-- A new index in memory. -/
theorem waiting_fresh (h : Host) (possible : List Str) (minimum : Nat) (given : Bool) :
    Waiting h possible minimum (decide (minimum > 0 ∧ given = false)) (create (fresh h possible minimum given : Index α) memory) [] :=
  ⟨rfl, rfl, rfl, ⟨0, ⟨memory, [], false⟩, rfl, rfl, rfl, rfl⟩, rfl, rfl, fun _ => ⟨rfl, Nat.zero_le _⟩⟩

/-- If no path was given, a new index is first made in memory. -/
theorem openWritable_memory (h : Host) (possible : List Str) (minimum : Nat) (hm : minimum > 0) :
    openWritable (fresh h possible minimum false : Index α) = .ok (create (fresh h possible minimum false) memory) := by
  have hc : choose (fresh h possible minimum false : Index α) = create (fresh h possible minimum false) memory := by
    unfold choose
    rw [if_neg]
    rintro ⟨_, h1⟩
    replace h1 : decide (minimum > 0 ∧ (false = false)) = false := h1
    rw [decide_eq_true ⟨hm, rfl⟩] at h1
    cases h1
  unfold openWritable
  rw [hc, (create_spec _ _).1]

/-- Making an index that starts in memory. -/
theorem build_memory (h : Host) (possible : List Str) (minimum : Nat) (given write : Bool) (hm : write = true → minimum > 0 ∧ given = false)
    (work : List (Step α)) :
    build h possible minimum given write work = match steps (create (fresh h possible minimum given) memory) work with
      | .error e => .error e
      | .ok t => finish t := by
  unfold build
  cases write with
  | false => rfl
  | true =>
    obtain ⟨h1, h2⟩ := hm rfl
    subst h2
    rw [if_pos rfl, openWritable_memory h possible minimum h1]

/-! ## C174 -/

/-- **C174**, small archives: as long as there are not more rows than the limit, and the archive is not compressed, the index is in memory with all
rows, and nothing is written or tried. -/
theorem C174_small (h : Host) (possible : List Str) (minimum : Nat) (hm : minimum > 0) (work : List (Step α))
    (hlen : (allRows work).length ≤ minimum) (hoff : Step.offsets ∉ work) :
    build h possible minimum false true work = .ok (some ":memory:".toList, allRows work, h) := by
  rw [build_memory h possible minimum false true (fun _ => ⟨hm, rfl⟩)]
  have hn : ¬ NeedsDisk minimum (decide (minimum > 0 ∧ false = false)) ([] : List α).length work := by
    rintro (⟨_, h1⟩ | h1)
    · have : ([] : List α).length = 0 := rfl
      omega
    · exact hoff h1
  obtain ⟨t, e, w⟩ := waiting_stays h possible minimum _ _ [] (waiting_fresh h possible minimum false) work hn
  rw [e]
  show finish t = _
  rw [finish_live t _ w.2.2.2.1, w.2.2.2.2.1, w.2.2.2.2.2.1]
  rfl

/-- **C174**, large and compressed archives: if there is a place for the index, it ends up in the first one that can be used, with all rows,
also those from before it was moved. Files that have something in them are left alone. -/
theorem C174_partial (h : Host) (hok : h.Ok) (possible : List Str) (p : Str) (hp : First h possible p) (minimum : Nat) (hm : minimum > 0)
    (work : List (Step α)) (hn : (allRows work).length > minimum ∨ Step.offsets ∈ work) :
    ∃ h', build h possible minimum false true work = .ok (some p, allRows work, h') ∧ Kept h h' ∧
      (p ≠ memory → ∃ n, n > 0 ∧ Dict.get? h'.files p = some n) := by
  rw [build_memory h possible minimum false true (fun _ => ⟨hm, rfl⟩)]
  have hn2 : NeedsDisk minimum (decide (minimum > 0 ∧ false = false)) ([] : List α).length work := by
    rcases hn with h1 | h1
    · exact .inl ⟨decide_eq_true ⟨hm, rfl⟩, by have : ([] : List α).length = 0 := rfl; omega⟩
    · exact .inr h1
  obtain ⟨t, e, w⟩ := waiting_settles h hok possible minimum _ p _ [] (.inr hp) (waiting_fresh h possible minimum false) work hn2
  rw [e]
  refine ⟨t.host, ?_, w.2.2.2.1, w.2.2.2.2.2⟩
  show finish t = _
  rw [finish_live t _ w.2.1, w.2.2.1]
  rfl

/-- **C174** without any places, as for a file object: the index stays in memory. -/
theorem C174_no_places (h : Host) (hok : h.Ok) (minimum : Nat) (hm : minimum > 0) (work : List (Step α)) :
    ∃ h', build h [] minimum false true work = .ok (some ":memory:".toList, allRows work, h') ∧ Kept h h' := by
  by_cases hn : NeedsDisk minimum (decide (minimum > 0 ∧ false = false)) ([] : List α).length work
  · rw [build_memory h [] minimum false true (fun _ => ⟨hm, rfl⟩)]
    obtain ⟨t, e, w⟩ := waiting_settles h hok [] minimum _ memory _ [] (.inl ⟨rfl, rfl⟩) (waiting_fresh h [] minimum false) work hn
    rw [e]
    refine ⟨t.host, ?_, w.2.2.2.1⟩
    show finish t = _
    rw [finish_live t _ w.2.1, w.2.2.1]
    rfl
  · have h1 : (allRows work).length ≤ minimum := by
      rcases Nat.lt_or_ge minimum (allRows work).length with h2 | h2
      · exact absurd (.inl ⟨decide_eq_true ⟨hm, rfl⟩, by have : ([] : List α).length = 0 := rfl; omega⟩) hn
      · exact h2
    exact ⟨h, C174_small h [] minimum hm work h1 (fun h2 => hn (.inr h2)), hok, fun _ _ _ h => h⟩

/-- **C174**, when it fails: if there are places but none can be used, every archive with more rows than the limit, and every compressed archive,
fails to be indexed, because the only connection was closed. -/
theorem C174_fails (h : Host) (hok : h.Ok) (possible : List Str) (he : possible ≠ []) (hu : ∀ q ∈ possible, ¬ Usable h q) (minimum : Nat)
    (hm : minimum > 0) (work : List (Step α)) (hn : (allRows work).length > minimum ∨ Step.offsets ∈ work) :
    build h possible minimum false true work = .error .runtimeError := by
  rw [build_memory h possible minimum false true (fun _ => ⟨hm, rfl⟩)]
  have hn2 : NeedsDisk minimum (decide (minimum > 0 ∧ false = false)) ([] : List α).length work := by
    rcases hn with h1 | h1
    · exact .inl ⟨decide_eq_true ⟨hm, rfl⟩, by have : ([] : List α).length = 0 := rfl; omega⟩
    · exact .inr h1
  rcases waiting_lost h hok possible he hu minimum _ _ [] (waiting_fresh h possible minimum false) work hn2 with e | ⟨t, e, hd⟩
  · rw [e]
  · rw [e]
    exact finish_dead t hd

/-- A host on which nothing can be written. -/
def readOnlyHost : Host := ⟨[], fun _ => .refused, fun _ => true⟩

theorem readOnlyHost_unusable (q : Str) : ¬ Usable readOnlyHost q := by
  intro h
  have := h.2.2.1
  cases this

/-- **C174** is wrong: with the default limit of 1000 rows, an archive with 1001 entries on a host on which nothing can be written cannot be
indexed, although it would fit into the memory. -/
theorem C174_violated : ¬ C174_statement := by
  intro h
  obtain ⟨path, h', e⟩ := h readOnlyHost ["/media/a.tar.index.sqlite".toList] 1000 [.rows (List.replicate 1001 0)] (by decide)
  rw [C174_fails readOnlyHost List.nodup_nil _ (fun h => by cases h) (fun q _ => readOnlyHost_unusable q) 1000 (by decide) _
    (.inl (by show (List.replicate 1001 0 ++ []).length > 1000; rw [List.append_nil, List.length_replicate]; decide))] at e
  cases e

/-! ## C175 -/

/-- Making an index that is put on disk at once. -/
theorem build_disk (h : Host) (hok : h.Ok) (possible : List Str) (minimum : Nat) (given : Bool) (hpf : ¬ (minimum > 0 ∧ given = false)) (p : Str)
    (ht : Target h possible p) (work : List (Step α)) :
    ∃ h', build h possible minimum given true work = .ok (some p, allRows work, h') ∧ Kept h h' ∧
      (p ≠ memory → ∃ n, n > 0 ∧ Dict.get? h'.files p = some n) := by
  obtain ⟨h', e, k1, k2, k3⟩ := openWritable_target h (fresh h possible minimum given : Index α) possible p rfl (decide_eq_false hpf) ht
    ⟨hok, fun _ _ _ h => h⟩ (fun _ => Iff.rfl)
  have hs : Settled h possible p ({ create (fresh h possible minimum given : Index α) p with host := h' } : Index α) [] :=
    ⟨rfl, ⟨0, ⟨p, [], false⟩, rfl, rfl, rfl, rfl⟩, rfl, k1, fun hpm => ⟨decide_eq_false hpf, k2 hpm⟩, k3⟩
  obtain ⟨t, e2, w⟩ := settled_steps h possible p _ [] ht hs work
  refine ⟨t.host, ?_, w.2.2.2.1, w.2.2.2.2.2⟩
  unfold build
  rw [if_pos rfl, e]
  show (match steps _ work with | .error e => Except.error e | .ok t => finish t) = _
  rw [e2]
  show finish t = _
  rw [finish_live t _ w.2.1, w.2.2.1]
  rfl

/-- **C175**, the place of an index that is to be written at once: it is the first that can be used, and has all rows. No file that has something
in it is changed. -/
theorem C175_partial (h : Host) (hok : h.Ok) (possible : List Str) (minimum : Nat) (given : Bool) (hpf : minimum = 0 ∨ given = true) (p : Str)
    (hp : First h possible p) (work : List (Step α)) :
    ∃ h', build h possible minimum given true work = .ok (some p, allRows work, h') ∧ Kept h h' ∧
      (p ≠ memory → ∃ n, n > 0 ∧ Dict.get? h'.files p = some n) := by
  refine build_disk h hok possible minimum given ?_ p (.inr hp) work
  rintro ⟨h1, h2⟩
  rcases hpf with h3 | h3
  · omega
  · rw [h2] at h3; cases h3

/-- **C175**: if there is no such place, an error tells so. -/
theorem C175_error (h : Host) (hok : h.Ok) (possible : List Str) (he : possible ≠ []) (hu : ∀ q ∈ possible, ¬ Usable h q) (minimum : Nat) (given : Bool)
    (hpf : minimum = 0 ∨ given = true) (work : List (Step α)) : build h possible minimum given true work = .error .invalidIndex := by
  have hpf2 : decide (minimum > 0 ∧ given = false) = false := by
    refine decide_eq_false ?_
    rintro ⟨h1, h2⟩
    rcases hpf with h3 | h3
    · omega
    · rw [h2] at h3; cases h3
  obtain ⟨h', e, _, _⟩ := choose_none (fresh h possible minimum given : Index α) he hpf2 hok hu
  have ho : openWritable (fresh h possible minimum given : Index α) = .error .invalidIndex := by
    unfold openWritable
    rw [e]
    rfl
  unfold build
  rw [if_pos rfl, ho]

/-- **C175** is wrong: also for the memory it is tested whether a file of this name can be written to the working directory. -/
theorem C175_violated : ¬ C175_statement := by
  intro h
  obtain ⟨path, h', e⟩ := h readOnlyHost ["/media/a.tar.index.sqlite".toList, memory] [] (List.mem_cons_of_mem _ List.mem_cons_self)
  rw [C175_error readOnlyHost List.nodup_nil _ (fun h => by cases h) (fun q _ => readOnlyHost_unusable q) 0 false (.inl rfl)] at e
  cases e

/-! ## C176 -/

/-- **C176** for archives that are small, or have no limit, and are not compressed: nothing is written. -/
theorem C176_partial (h : Host) (possible : List Str) (minimum : Nat) (given : Bool) (work : List (Step α))
    (hlen : minimum = 0 ∨ given = true ∨ (allRows work).length ≤ minimum) (hoff : Step.offsets ∉ work) :
    build h possible minimum given false work = .ok (some ":memory:".toList, allRows work, h) := by
  rw [build_memory h possible minimum given false (fun h => by cases h)]
  have hn : ¬ NeedsDisk minimum (decide (minimum > 0 ∧ given = false)) ([] : List α).length work := by
    rintro (⟨h0, h1⟩ | h1)
    · have h2 := of_decide_eq_true h0
      have : ([] : List α).length = 0 := rfl
      rcases hlen with h3 | h3 | h3
      · omega
      · rw [h2.2] at h3; cases h3
      · omega
    · exact hoff h1
  obtain ⟨t, e, w⟩ := waiting_stays h possible minimum _ _ [] (waiting_fresh h possible minimum given) work hn
  rw [e]
  show finish t = _
  rw [finish_live t _ w.2.2.2.1, w.2.2.2.2.1, w.2.2.2.2.2.1]
  rfl

/-- **C176**, when it fails: a compressed archive, and one with more rows than the limit, gets a file with an index although none was to be written,
if there is a place for it. -/
theorem C176_written (h : Host) (hok : h.Ok) (possible : List Str) (p : Str) (hp : First h possible p) (hpm : p ≠ memory) (minimum : Nat)
    (given : Bool) (work : List (Step α)) (hn : Step.offsets ∈ work ∨ (minimum > 0 ∧ given = false ∧ (allRows work).length > minimum)) :
    ∃ h' n, build h possible minimum given false work = .ok (some p, allRows work, h') ∧ n > 0 ∧ Dict.get? h'.files p = some n := by
  rw [build_memory h possible minimum given false (fun h => by cases h)]
  have hn2 : NeedsDisk minimum (decide (minimum > 0 ∧ given = false)) ([] : List α).length work := by
    rcases hn with h1 | ⟨h1, h2, h3⟩
    · exact .inr h1
    · exact .inl ⟨decide_eq_true ⟨h1, h2⟩, by have : ([] : List α).length = 0 := rfl; omega⟩
  obtain ⟨t, e, w⟩ := waiting_settles h hok possible minimum _ p _ [] (.inr hp) (waiting_fresh h possible minimum given) work hn2
  obtain ⟨n, hn0, hn1⟩ := w.2.2.2.2.2 hpm
  rw [e]
  refine ⟨t.host, n, ?_, hn0, hn1⟩
  show finish t = _
  rw [finish_live t _ w.2.1, w.2.2.1]
  rfl

/-- A host on which everything can be written. -/
def openHost : Host := ⟨[], fun _ => .works, fun _ => true⟩

/-- **C176** is wrong: opening a compressed archive without writing an index writes one beside it. -/
theorem C176_violated : ¬ C176_statement := by
  intro h
  have hf : First openHost ["/d/a.tar.gz.index.sqlite".toList] "/d/a.tar.gz.index.sqlite".toList :=
    ⟨[], [], rfl, (fun _ h => by cases h), by decide, (fun _ h => by cases h), rfl, rfl⟩
  obtain ⟨h', n, e, _, hn⟩ := C176_written openHost List.nodup_nil _ _ hf (by decide) 1000 false [.rows [1], .offsets] (.inl (by simp))
  have := h _ _ _ _ _ _ _ e
  rw [this] at hn
  cases hn

/-! ## concrete cases -/

/-- The place beside the archive cannot be written, the one at home can; a file that has something in it is not used. -/
def demoHost : Host :=
  ⟨[("/home/u/.ratarmount/x".toList, 5)], fun p => if startsWith "/home/".toList p then .works else .refused, fun _ => true⟩

example : First demoHost ["/ro/a.tar.index.sqlite".toList, "/home/u/.ratarmount/x".toList, "ftp://s/a".toList, "/home/u/y".toList] "/home/u/y".toList := by
  refine ⟨["/ro/a.tar.index.sqlite".toList, "/home/u/.ratarmount/x".toList, "ftp://s/a".toList], [], rfl, ?_, by decide, ?_, by rfl, rfl⟩
  · intro q hq h
    simp only [List.mem_cons, List.not_mem_nil, or_false] at hq
    rcases hq with rfl | rfl | rfl
    · have := h.2.2.1
      cases this
    · have := h.2.1 5 rfl
      cases this
    · have := h.1
      revert this
      decide
  · intro n hn
    cases hn
example : demoHost.Ok := by unfold Host.Ok; decide
/-- Five rows in three calls with a limit of three: the third call moves the index. -/
example : (match build demoHost ["/ro/x".toList, "/home/u/y".toList] 3 false true [.rows [1, 2], .rows [3], .rows [4, 5], .offsets] with
    | .ok (p, rows, h) => decide (p = some "/home/u/y".toList ∧ rows = [1, 2, 3, 4, 5] ∧ Dict.get? h.files "/home/u/y".toList = some 1)
    | .error _ => false) = true := by rfl
example : (match build demoHost ["/ro/x".toList] 3 false true [.rows [1, 2], .rows [3], .rows [4, 5]] with
    | .ok _ => none
    | .error e => some e) = some PyErr.runtimeError := by rfl

end Verif.Writable
