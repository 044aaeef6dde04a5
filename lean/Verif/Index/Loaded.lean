import Verif.Index.Hashes
import Verif.Compress.SeekPoints

/-!
# C187, C188, C189: what a mount does with an index that could be loaded
(core/ratarmountcore/mountsource/SQLiteIndexMountSource.py:118-240, core/ratarmountcore/mountsource/formats/tar.py:688-693, 1418-1420,
core/ratarmountcore/SQLiteIndex.py:393-420, 475-484, 616-640, 662-672, 972-974, 1256-1261, 1455-1466)

A connection to an index is writable, or it is not: with `--no-recreate-index` it is opened with `mode=ro` (SQLiteIndex.py:1256-1259), and SQLite
opens files without write permission for reading only. Writing then raises `sqlite3.OperationalError`, which is `runtimeError` here.
Python's module sqlite3 begins a transaction with the first insertion and ends it with `commit`. Nothing of it is on disk if the process is
killed before; that SQLite writes parts of large transactions earlier, which without journal (SQLiteIndex.py:630) damages the file, is not modelled.
For compressed TARs, gzip is modelled. bzip2 and Zstandard store blocks in the same way.
-/

namespace Verif.Loaded

open Verif.Py Verif.Index

variable {V : Type}

/-! ## Model -/

/-- A connection: what is on disk, what its own queries see, and whether it may write (SQLiteIndex.py:616-640, 1256-1261). -/
structure Conn (V : Type) where
  disk : XDB V
  now : XDB V
  writable : Bool

/-- `connection.commit()` (SQLiteIndex.py:484, 666). -/
def Conn.commit (c : Conn V) : Conn V := ⟨c.now, c.now, c.writable⟩

/-- `close` (SQLiteIndex.py:404-413), also called by `__del__` after an exception (SQLiteIndex.py:393-399), and the index that is left. -/
def Conn.close (c : Conn V) : XDB V := c.commit.disk

/-- The process is killed: the index that is left (SQLite, used at SQLiteIndex.py:972-974). -/
def Conn.kill (c : Conn V) : XDB V := c.disk

/-- `setxattrs` (SQLiteIndex.py:972-974) of at least one row. -/
def write (c : Conn V) (rows : List (Int × Str × V)) : Except PyErr (Conn V) :=
  if c.writable then .ok ⟨c.disk, c.now.setxattrs rows, c.writable⟩ else .error .runtimeError

/-- The calls of `setxattrs` one after the other (SQLiteIndexMountSource.py:176-209). -/
def writeCalls : Conn V → List (List (Int × Str × V)) → Except PyErr (Conn V)
  | c, [] => .ok c
  | c, rows :: rest =>
    match write c rows with
    | .error e => .error e
    | .ok c' => writeCalls c' rest

/-- `_compute_and_store_hashes` (SQLiteIndexMountSource.py:118-209). -/
def storeHashes (h : Hasher V) (algs : List Str) (files : List HFile) (c : Conn V) : Except PyErr (Conn V) :=
  writeCalls c (hashCalls h algs files c.now)

/-- The branch of `_finalize_index` for a loaded index (SQLiteIndexMountSource.py:220-227). Storing metadata raises nothing and commits
(SQLiteIndex.py:475-493); the metadata themselves are not modelled here, see Verif.Index.Reuse. -/
def finalizeLoaded (h : Hasher V) (algs : List Str) (files : List HFile) (c : Conn V) : Except PyErr (Conn V) :=
  match storeHashes h algs files c with
  | .error e => .error e
  | .ok c' => .ok c'.commit

/-- An index with the tables for seek points. -/
structure Store (V : Type) where
  conn : Conn V
  seek : SeekPoints.Tables

/-- The seek points are written (SQLiteIndex.py:1561-1600): dropping and creating a table raises on a connection that may not write. -/
def storeSeek (l : SeekPoints.Lib) (s : Store V) : Except PyErr (Store V) :=
  if s.conn.writable then .ok ⟨s.conn.commit, SeekPoints.store l s.seek⟩ else .error .runtimeError

/-- `_load_or_store_compression_offsets` (tar.py:1418-1420, SQLiteIndex.py:1455-1466) of a TAR that is compressed with gzip, and of one that is
not compressed. -/
def seekPoints (lib : Option SeekPoints.Lib) (s : Store V) : Except PyErr (Store V) :=
  match lib with
  | none => .ok s
  | some l =>
    match SeekPoints.load l s.seek with
    | some _ => .ok s
    | none => storeSeek l s

/-- The rest of a mount with a loaded index: of a TAR (tar.py:688-693), and of all other archives with an index
(SQLiteIndexMountSource.py:220-227). -/
def mount (tar : Bool) (lib : Option SeekPoints.Lib) (h : Hasher V) (algs : List Str) (files : List HFile) (s : Store V) :
    Except PyErr (Store V) :=
  if tar then
    match seekPoints lib s with
    | .error e => .error e
    | .ok s' => .ok ⟨s'.conn.commit, s'.seek⟩
  else
    match finalizeLoaded h algs files s.conn with
    | .error e => .error e
    | .ok c => .ok ⟨c, s.seek⟩

/-- The connection after `j` calls of `setxattrs` (SQLiteIndexMountSource.py:176-209). -/
def interrupted (h : Hasher V) (algs : List Str) (files : List HFile) (c : Conn V) (j : Nat) : Except PyErr (Conn V) :=
  writeCalls c ((hashCalls h algs files c.now).take j)

/-- A connection to an index that has just been opened (SQLiteIndex.py:1256-1261). -/
def opened (x : XDB V) (writable : Bool) : Conn V := ⟨x, x, writable⟩

/-! ## Specification -/

/-- **C187**, as claimed: after mounting with `--hashes`, all regular files of the archive that can be read have the hashes, also if there was an
index before that lacks them. -/
def C187_statement : Prop :=
  ∀ (tar : Bool) (lib : Option SeekPoints.Lib) (h : Hasher Nat) (algs : List Str) (files : List HFile) (calls : List (List (Int × Str × Nat)))
    (seek : SeekPoints.Tables) (s : Store Nat), SameContents h files →
    mount tar lib h algs files ⟨opened (writeAll calls) true, seek⟩ = .ok s →
    ∀ f ∈ files, f.eligible = true → h.fails f = false → ∀ a ∈ algs, h.supported a = true → (attr s.conn.disk f.oh (hashKey a)).isSome = true

/-- **C188**, as claimed: an index that may not be changed can be used. -/
def C188_statement : Prop :=
  ∀ (tar : Bool) (lib : Option SeekPoints.Lib) (h : Hasher Nat) (algs : List Str) (files : List HFile) (x : XDB Nat)
    (seek : SeekPoints.Tables), ∃ s, mount tar lib h algs files ⟨opened x false, seek⟩ = .ok s

/-- **C189**, as claimed: if the process is killed while hashes are computed, then the batches that were stored before are kept. -/
def C189_statement : Prop :=
  ∀ (h : Hasher Nat) (algs : List Str) (files : List HFile) (x : XDB Nat) (j : Nat) (c : Conn Nat),
    interrupted h algs files (opened x true) j = .ok c →
    ∀ oh key, attr c.kill oh key = attr (((hashCalls h algs files x).take j).foldl XDB.setxattrs x) oh key

/-! ## Lemmas -/

theorem writeCalls_writable (calls : List (List (Int × Str × V))) : ∀ (c : Conn V), c.writable = true →
    writeCalls c calls = .ok ⟨c.disk, calls.foldl XDB.setxattrs c.now, true⟩ := by
  induction calls with
  | nil =>
    intro c hc
    rw [writeCalls, List.foldl_nil, ← hc]
  | cons rows rest ih =>
    intro c hc
    rw [writeCalls, write, if_pos hc, List.foldl_cons]
    exact ih _ hc

theorem writeCalls_readOnly (calls : List (List (Int × Str × V))) (c : Conn V) (hc : c.writable = false) :
    writeCalls c calls = if calls = [] then .ok c else .error .runtimeError := by
  cases calls with
  | nil => rfl
  | cons rows rest =>
    rw [writeCalls, write, hc]
    rfl

/-- Every call of `setxattrs` has rows, at least if algorithms are known. The list of calls is empty only if there is nothing to store. -/
theorem hashLoop_nil (h : Hasher V) (algs : List Str) (fs : List HFile) : ∀ (acc : List (Int × Str × V)),
    hashLoop h algs fs acc = [] ↔ acc = [] ∧ ∀ f ∈ fs, hashRows h algs f = [] := by
  induction fs with
  | nil =>
    intro acc
    rw [hashLoop]
    split
    · next ha => simp [ha]
    · next ha => simp [ha]
  | cons f fs ih =>
    intro acc
    rw [hashLoop]
    cases hc : computeHashes h algs f with
    | none =>
      have hr : hashRows h algs f = [] := by
        unfold hashRows
        rw [hc]
        rfl
      show hashLoop h algs fs acc = [] ↔ _
      rw [ih acc, List.forall_mem_cons]
      exact ⟨fun ⟨a, b⟩ => ⟨a, hr, b⟩, fun ⟨a, _, b⟩ => ⟨a, b⟩⟩
    | some d =>
      show (if (acc ++ hashRows h algs f).length ≥ 1000 then _ else hashLoop h algs fs (acc ++ hashRows h algs f)) = [] ↔ _
      rw [List.forall_mem_cons]
      split
      · next hl =>
        refine ⟨(fun hx => by cases hx), (fun ⟨a, b, _⟩ => ?_)⟩
        rw [a, b] at hl
        simp at hl
      · rw [ih, List.append_eq_nil_iff, and_assoc]

theorem storeHashes_writable (h : Hasher V) (algs : List Str) (files : List HFile) (c : Conn V) (hc : c.writable = true) :
    storeHashes h algs files c = .ok ⟨c.disk, hashRun h algs files c.now, true⟩ := by
  unfold storeHashes hashRun
  rw [writeCalls_writable _ c hc]

theorem mount_other (h : Hasher V) (algs : List Str) (files : List HFile) (lib : Option SeekPoints.Lib) (x : XDB V) (seek : SeekPoints.Tables) :
    mount false lib h algs files ⟨opened x true, seek⟩ =
      .ok ⟨⟨hashRun h algs files x, hashRun h algs files x, true⟩, seek⟩ := by
  unfold mount
  rw [if_neg Bool.false_ne_true]
  unfold finalizeLoaded
  rw [storeHashes_writable h algs files _ rfl]
  rfl

/-! ## C187 -/

/-- **C187** for all archives with an index but TARs. Missing: TARs, see `C187_violated`. -/
theorem C187_partial (lib : Option SeekPoints.Lib) (h : Hasher V) (algs : List Str) (files : List HFile) (calls : List (List (Int × Str × V)))
    (seek : SeekPoints.Tables) (hs : SameContents h files) :
    ∃ s, mount false lib h algs files ⟨opened (writeAll calls) true, seek⟩ = .ok s ∧
      ∀ f ∈ files, f.eligible = true → h.fails f = false → ∀ a ∈ algs, h.supported a = true →
        (attr (writeAll calls) f.oh (hashKey a) = none → attr s.conn.disk f.oh (hashKey a) = some (h.digest f a)) ∧
        ((∃ b ∈ algs, attr (writeAll calls) f.oh (hashKey b) = none) → attr s.conn.disk f.oh (hashKey a) = some (h.digest f a)) := by
  refine ⟨_, mount_other h algs files lib (writeAll calls) seek, fun f hf he hr a ha hsup => ⟨fun hn => ?_, fun hm => ?_⟩⟩
  · exact C21_complete h algs files hs calls f hf he hr ⟨a, ha, hn⟩ a ha hsup
  · exact C21_complete h algs files hs calls f hf he hr hm a ha hsup

/-- **C187** for a TAR: nothing is computed, whatever hashes are asked for. -/
theorem C187_tar (lib : Option SeekPoints.Lib) (h : Hasher V) (algs : List Str) (files : List HFile) (x : XDB V) (seek : SeekPoints.Tables)
    (s : Store V) (hm : mount true lib h algs files ⟨opened x true, seek⟩ = .ok s) : s.conn.disk = x := by
  unfold mount at hm
  rw [if_pos rfl] at hm
  unfold seekPoints at hm
  cases lib with
  | none =>
    cases hm
    rfl
  | some l =>
    cases hl : SeekPoints.load l seek with
    | some d =>
      simp only [hl] at hm
      cases hm
      rfl
    | none =>
      simp only [hl] at hm
      unfold storeSeek at hm
      rw [if_pos (show (opened x true).writable = true from rfl)] at hm
      cases hm
      rfl

/-- Some algorithm for the demonstrations: the hash of a file is its offset. -/
def demoHasher : Hasher Nat := ⟨fun _ => true, fun _ => false, fun f _ => f.oh.toNat, fun _ => false⟩

/-- A regular file. -/
def demoFile : HFile := ⟨512, 0o100644, false⟩

/-- No seek points are stored. -/
def noTables : SeekPoints.Tables := ⟨none, none, none⟩

/-- **C187** is violated: a TAR that has been mounted before without `--hashes` has no hashes if it is mounted with the option. -/
theorem C187_violated : ¬ C187_statement := by
  intro hx
  have h1 := hx true none demoHasher ["md5".toList] [demoFile] [] noTables _
    (fun f hf g hg he => by
      rw [List.mem_singleton] at hf hg
      subst hf; subst hg
      exact ⟨rfl, fun _ => rfl⟩) rfl demoFile (by simp) (by decide +kernel) rfl "md5".toList (by simp) rfl
  revert h1
  decide +kernel

/-! ## C188 -/

/-- **C188**: whatever happens, an index that may not be changed is not changed. -/
theorem C188_unchanged (tar : Bool) (lib : Option SeekPoints.Lib) (h : Hasher V) (algs : List Str) (files : List HFile) (x : XDB V)
    (seek : SeekPoints.Tables) (s : Store V) (hm : mount tar lib h algs files ⟨opened x false, seek⟩ = .ok s) :
    s.conn.disk = x ∧ s.seek = seek := by
  unfold mount at hm
  cases tar with
  | true =>
    rw [if_pos rfl] at hm
    unfold seekPoints at hm
    cases lib with
    | none =>
      cases hm
      exact ⟨rfl, rfl⟩
    | some l =>
      cases hl : SeekPoints.load l seek with
      | some d =>
        simp only [hl] at hm
        cases hm
        exact ⟨rfl, rfl⟩
      | none =>
        simp only [hl] at hm
        unfold storeSeek at hm
        rw [if_neg (by exact Bool.false_ne_true)] at hm
        cases hm
  | false =>
    rw [if_neg Bool.false_ne_true] at hm
    unfold finalizeLoaded storeHashes at hm
    rw [writeCalls_readOnly _ _ rfl] at hm
    by_cases hc : hashCalls h algs files (Store.mk (opened x false) seek).conn.now = []
    · rw [if_pos hc] at hm
      cases hm
      exact ⟨rfl, rfl⟩
    · rw [if_neg hc] at hm
      cases hm

/-- **C188** for archives other than TARs, exactly: an index that may not be changed can be used if and only if there is nothing to add, i.e., all
regular files that lack a hash cannot be read, or no algorithm is known. Missing: the other cases, see `C188_violated`. -/
theorem C188_hashes_partial (lib : Option SeekPoints.Lib) (h : Hasher V) (algs : List Str) (files : List HFile) (x : XDB V)
    (seek : SeekPoints.Tables) :
    (∃ s, mount false lib h algs files ⟨opened x false, seek⟩ = .ok s) ↔ ∀ f ∈ hashReads algs files x, hashRows h algs f = [] := by
  have hcalls : hashCalls h algs files x = [] ↔ ∀ f ∈ hashReads algs files x, hashRows h algs f = [] := by
    unfold hashCalls hashReads
    split
    · simp
    · rw [hashLoop_nil]
      simp
  rw [← hcalls]
  unfold mount
  rw [if_neg Bool.false_ne_true]
  unfold finalizeLoaded storeHashes
  rw [writeCalls_readOnly _ _ rfl]
  show (∃ s, (match (match (if hashCalls h algs files x = [] then Except.ok (opened x false) else Except.error PyErr.runtimeError :
      Except PyErr (Conn V)) with
      | .error e => Except.error e
      | .ok c' => Except.ok c'.commit : Except PyErr (Conn V)) with
    | .error e => Except.error e
    | .ok c => Except.ok (⟨c, seek⟩ : Store V)) = Except.ok s) ↔ _
  by_cases hc : hashCalls h algs files x = []
  · rw [if_pos hc]
    exact ⟨fun _ => hc, fun _ => ⟨_, rfl⟩⟩
  · rw [if_neg hc]
    exact ⟨(fun ⟨s, hs⟩ => by cases hs), (fun he => absurd he hc)⟩

/-- **C188** for TARs, exactly: an index that may not be changed can be used if and only if the TAR is not compressed or the library can
import seek points of the index. -/
theorem C188_tar_partial (lib : Option SeekPoints.Lib) (h : Hasher V) (algs : List Str) (files : List HFile) (x : XDB V)
    (seek : SeekPoints.Tables) :
    (∃ s, mount true lib h algs files ⟨opened x false, seek⟩ = .ok s) ↔
      ∀ l, lib = some l → ∃ d ∈ SeekPoints.candidates l seek, l.imports d = true := by
  unfold mount
  rw [if_pos rfl]
  unfold seekPoints
  cases lib with
  | none => exact ⟨(fun _ l hl => by cases hl), (fun _ => ⟨_, rfl⟩)⟩
  | some l =>
    cases hl : SeekPoints.load l seek with
    | some d =>
      simp only [hl]
      refine ⟨fun _ l' hl' => ?_, fun _ => ⟨_, rfl⟩⟩
      cases hl'
      unfold SeekPoints.load at hl
      exact ⟨d, List.mem_of_find?_eq_some hl, List.find?_some hl⟩
    | none =>
      simp only [hl]
      unfold storeSeek
      rw [if_neg (by exact Bool.false_ne_true)]
      refine ⟨(fun ⟨s, hs⟩ => by cases hs), (fun hx => ?_)⟩
      obtain ⟨d, hd, hi⟩ := hx l rfl
      rw [SeekPoints.load_none hl hd] at hi
      cases hi

/-- A library that imports nothing but its own data. -/
def demoLib : SeekPoints.Lib := ⟨false, false, fun d => d == [1], [[1]]⟩

/-- **C188** is violated by seek points: an index made with rapidgzip is used by indexed_gzip, which cannot read its seek points. -/
theorem C188_seek_violated : ¬ C188_statement := by
  intro hx
  have h1 := hx true (some demoLib) demoHasher [] [] XDB.empty ⟨some [[2]], none, none⟩
  rw [C188_tar_partial] at h1
  obtain ⟨d, hd, -⟩ := h1 demoLib rfl
  revert hd
  decide +revert

/-- **C188** is violated by hashes: with `--hashes` and an index without them that may not be changed, mounting fails. -/
theorem C188_violated : ¬ C188_statement := by
  intro hx
  have h1 := hx false none demoHasher ["md5".toList] [demoFile] XDB.empty noTables
  rw [C188_hashes_partial] at h1
  have h2 := h1 demoFile (by decide +kernel)
  revert h2
  decide +kernel

/-! ## C189 -/

/-- **C189**, what is lost: no batch is on disk if the process is killed before all have been computed. -/
theorem C189_lost (h : Hasher V) (algs : List Str) (files : List HFile) (x : XDB V) (j : Nat) (c : Conn V)
    (hc : interrupted h algs files (opened x true) j = .ok c) : c.kill = x := by
  unfold interrupted at hc
  rw [writeCalls_writable _ _ rfl] at hc
  cases hc
  rfl

/-- **C189**, what holds: after an exception, e.g., because of Ctrl+C, the batches that were stored before are kept and a further run reads only what is
left. Missing: the process is killed, see `C189_violated`. -/
theorem C189_partial (h : Hasher V) (algs : List Str) (files : List HFile) (x : XDB V) (j : Nat) :
    ∃ c, interrupted h algs files (opened x true) j = .ok c ∧ c.close = hashCrash h algs files x j := by
  refine ⟨⟨x, ((hashCalls h algs files x).take j).foldl XDB.setxattrs x, true⟩, ?_, rfl⟩
  unfold interrupted
  rw [writeCalls_writable _ _ rfl]
  rfl

/-- **C189**: in any case, further runs give the same hashes as one run. -/
theorem C189_again (h : Hasher V) (algs : List Str) (files : List HFile) (hs : SameContents h files) (calls : List (List (Int × Str × V)))
    (j : Nat) (c : Conn V) (hc : interrupted h algs files (opened (writeAll calls) true) j = .ok c) (oh : Int) (key : Str) :
    attr (hashRun h algs files c.kill) oh key = attr (hashRun h algs files (writeAll calls)) oh key ∧
    attr (hashRun h algs files c.close) oh key = attr (hashRun h algs files (writeAll calls)) oh key := by
  refine ⟨by rw [C189_lost h algs files _ j c hc], ?_⟩
  obtain ⟨c', h1, h2⟩ := C189_partial h algs files (writeAll calls) j
  rw [hc] at h1
  cases h1
  rw [h2]
  exact C21_resume h algs files hs calls [j] oh key

/-- **C189** is violated: one batch is computed and lost. -/
theorem C189_violated : ¬ C189_statement := by
  intro hx
  obtain ⟨c, h1, -⟩ := C189_partial demoHasher ["md5".toList] [demoFile] XDB.empty 1
  have h2 := hx demoHasher ["md5".toList] [demoFile] XDB.empty 1 c h1 512 (hashKey "md5".toList)
  rw [C189_lost _ _ _ _ _ _ h1] at h2
  revert h2
  decide +kernel

/-! ## Examples -/

/-- The hypotheses of `C187_partial` can be met, and something is computed. -/
example : attr (hashRun demoHasher ["md5".toList] [demoFile] XDB.empty) 512 (hashKey "md5".toList) = some 512 := by decide +kernel

/-- An index that may not be changed and has the seek points of the library. -/
example : ∃ s, mount true (some demoLib) demoHasher [] [] ⟨opened XDB.empty false, ⟨none, none, some [[1]]⟩⟩ = .ok s := by
  rw [C188_tar_partial]
  intro l hl
  cases hl
  exact ⟨[1], by decide, by decide⟩

end Verif.Loaded
