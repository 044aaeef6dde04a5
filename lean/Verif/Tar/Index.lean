import Verif.Tar.Scan
import Verif.Tar.Append
import Verif.Bits

/-!
# C25, C28, C88, C89: index rows of a TAR archive (core/ratarmountcore/mountsource/formats/tar.py:135-150, 194-278,
392-490, 849-920)

See `Verif.Tar.Scan` for what is left out of the iteration. Rows are given in the order of the calls of
`set_file_infos`/`set_file_info`.
-/

namespace Verif.Tar

open Verif.Py Verif.Index

/-- `tarInfo.isdir()` (Python library, used at tar.py:194-278). -/
def isDir (t : Char) : Bool := t == '5'

/-- `_tar_info_full_mode` (tar.py:135-149). `isfile()` is `isreg()`. -/
def fullMode (t : Char) (mode : Nat) : Nat :=
  mode ||| (if isDir t then 0o040000 else 0)
    ||| (if isReg t || t == 'D' then 0o100000 else 0)
    ||| (if t == '2' then 0o120000 else 0)
    ||| (if t == '3' then 0o020000 else 0)
    ||| (if t == '6' then 0o010000 else 0)

/-- The columns of a row of "files" that are modelled (tar.py:194-278). -/
structure IRow where
  path : Str
  name : Str
  oh : Nat
  offset : Nat
  size : Nat
  mode : Nat
  link : Str
  isTar : Bool
  generated : Bool
  depth : Nat
  deriving DecidableEq, Repr

/-- Options: `transform` is applied to full paths (kwargs of SQLiteIndexMountSource), `mountPoint` is
`transformRecursiveMountPoint` (tar.py:76-90, 518-560). -/
structure Opts where
  ignoreZeros : Bool
  strip : Bool
  transform : Str → Str
  mountPoint : Option (Str → Str)

/-- ASCII lower case; no other character lowers to a letter of ".tar" (tar.py:262). -/
def lower (s : Str) : Str := s.map Char.toLower

/-- `path.rsplit("/", 1)` of a path that has a slash (tar.py:194-278). -/
def rsplitPath (p : Str) : Str × Str := (rsplit1 '/' p).getD ([], p)

/-- The row (tar.py:230-258). -/
def rowOf (o : Opts) (depth : Nat) (pre : Str) (stream : Nat) (e : Entry) : IRow :=
  let full := pre ++ '/' :: e.hdr.name ++ (if isDir e.hdr.type then ['/'] else [])
  let pn := rsplitPath (normpath (o.transform full))
  { path := pn.1, name := pn.2, oh := stream + e.offset, offset := stream + e.data, size := e.hdr.size,
    mode := fullMode e.hdr.type e.hdr.mode, link := e.hdr.link, isTar := false, generated := false, depth := depth }

/-- The condition for reading a member as an archive (tar.py:262). -/
def mightBeTar (mountRecursively : Bool) (e : Entry) : Bool :=
  mountRecursively && isReg e.hdr.type && endsWith ".tar".toList (lower e.hdr.name)

/-- `_process_tar_info` (tar.py:194-278): rows, and the row again if it might be a TAR. -/
def processTarInfo (o : Opts) (rec : Bool) (depth : Nat) (pre : Str) (stream : Nat) (e : Entry) : List IRow :=
  let r := rowOf o depth pre stream e
  if mightBeTar rec e then [r]
  else if e.hdr.type == 'D' then [r, { r with oh := r.oh + 1, size := 0, mode := e.hdr.mode ||| 0o040000 }]
  else [r]

/-- Folder and name of the mount point of a nested TAR (tar.py:868-884). -/
def mountPointOf (o : Opts) (r : IRow) : Str × Str :=
  let name := if o.strip && endsWith ".tar".toList (lower r.name) then r.name.take (r.name.length - 4) else r.name
  match o.mountPoint with
  | none => (r.path, name)
  | some f => rsplitPath ('/' :: lstrip '/' (f ('/' :: lstrip '/' (r.path ++ '/' :: name))))

/-- `modifiedPath` (tar.py:849-1014). -/
def mountPathOf (o : Opts) (r : IRow) : Str :=
  let name := if o.strip && endsWith ".tar".toList (lower r.name) then r.name.take (r.name.length - 4) else r.name
  match o.mountPoint with
  | none => '/' :: lstrip '/' (r.path ++ '/' :: name)
  | some f => '/' :: lstrip '/' (f ('/' :: lstrip '/' (r.path ++ '/' :: name)))

/-- `create_folder_from_file_permissions` (utils.py:412-419). -/
def folderMode (mode : Nat) : Nat :=
  (mode &&& 0o777) ||| 0o040000 ||| (if mode &&& 0o400 ≠ 0 then 0o100 else 0) |||
    (if mode &&& 0o040 ≠ 0 then 0o010 else 0) ||| (if mode &&& 0o004 ≠ 0 then 0o001 else 0)

/-- The folder row of a nested TAR (tar.py:909-931). -/
def folderRow (o : Opts) (r : IRow) : IRow :=
  let mp := mountPointOf o r
  let r' := if mp.1 ≠ r.path ∨ mp.2 ≠ r.name then { r with path := mp.1, name := mp.2 }
    else { r with oh := r.oh + 1, offset := r.offset + 1 }
  { r' with mode := folderMode r.mode, isTar := true, generated := true, depth := r.depth + 1 }

/-- `_create_index_recursively` (tar.py:849-937) with `_process_serial` (tar.py:392-472) and `process` (tar.py:479-496). `whole` is the
contents of `self.tarFileObject`, `b` that of the file object, `k` is `maxRecursionDepth + 1 - recursionDepth`.
`process` returns no files for recursion if iterating raised. Nothing raises `tarfile.ReadError` out of the recursive
call because `process` and `_open_tar` catch it, therefore `isTar` is always true. -/
def createIndex (c : Codec) (o : Opts) (whole : Bytes) : Nat → Nat → Str → Nat → Bytes → List IRow
  | 0, _, _, _, _ => []
  | k + 1, depth, pre, stream, b =>
    let es := scan c o.ignoreZeros b 0
    let tars := if es.2 then [] else (es.1.filter (mightBeTar (decide (0 < k)))).map (rowOf o depth pre stream)
    es.1.flatMap (processTarInfo o (decide (0 < k)) depth pre stream) ++
      tars.flatMap (fun r =>
        createIndex c o whole k (depth + 1) (mountPathOf o r) r.offset (readAt whole r.offset r.size) ++
          [folderRow o r, { r with isTar := true }])

/-- A new index of an uncompressed archive (tar.py:836-846): recursion depth starts at 0. -/
def newIndex (c : Codec) (o : Opts) (maxDepth : Nat) (archive : Bytes) : List IRow :=
  createIndex c o archive (maxDepth + 1) 0 [] 0 archive

/-- C25: with the option to strip extensions, an archive `stem.tar`, in whatever case, is shown below `stem`, and otherwise below
its own name. -/
theorem C25_stripped (o : Opts) (r : IRow) (hm : o.mountPoint = none) (stem ext : Str) (he : lower ext = ['.', 't', 'a', 'r'])
    (hn : r.name = stem ++ ext) :
    mountPathOf o r = '/' :: lstrip '/' (r.path ++ '/' :: (if o.strip = true then stem else stem ++ ext)) ∧
      mountPointOf o r = (r.path, if o.strip = true then stem else stem ++ ext) := by
  have hl : ext.length = 4 := by
    have := congrArg List.length he
    unfold lower at this
    rwa [List.length_map] at this
  have hw : endsWith ".tar".toList (lower r.name) = true := by
    rw [hn]
    unfold lower at he ⊢
    rw [List.map_append, he]
    unfold endsWith
    rw [List.isSuffixOf_iff_suffix]
    exact List.suffix_append _ _
  have ht : r.name.take (r.name.length - 4) = stem := by
    rw [hn, List.length_append, hl, Nat.add_sub_cancel]
    exact List.take_left' rfl
  unfold mountPathOf mountPointOf
  rw [hw, Bool.and_true, hm, ht, hn]
  exact ⟨rfl, rfl⟩

example : lower ".Tar".toList = ['.', 't', 'a', 'r'] := by decide

/-! ## specification -/

/-- A member at any nesting level, described by the members a writer put there: `Nested c o k pre b p data` means that
the archive with bytes `b`, shown at the folder `pre` and read to `k` levels, has a member shown at the path `p`
with contents `data`. -/
inductive Nested (c : Codec) (o : Opts) : Nat → Str → Bytes → Str → Hdr → Bytes → Prop where
  | here (k : Nat) (pre : Str) (ms : List (Member × Hdr)) (n : Nat) (m : Member) (h : Hdr)
      (hok : ∀ p ∈ ms, p.1.Ok c p.2) (hm : (m, h) ∈ ms) :
      Nested c o (k + 1) pre (archiveOf ms n)
        (normpath (o.transform (pre ++ '/' :: h.name ++ (if isDir h.type then ['/'] else [])))) h m.data
  | inside (k : Nat) (pre : Str) (ms : List (Member × Hdr)) (n : Nat) (m : Member) (h h' : Hdr) (p : Str) (d : Bytes)
      (hok : ∀ p ∈ ms, p.1.Ok c p.2) (hm : (m, h) ∈ ms) (hk : 0 < k) (hreg : isReg h.type = true)
      (htar : endsWith ".tar".toList (lower h.name) = true)
      (hin : ∀ r : IRow, r.path ++ '/' :: r.name = normpath (o.transform (pre ++ '/' :: h.name)) → '/' ∉ r.name →
        Nested c o k (mountPathOf o r) m.data p h' d) :
      Nested c o (k + 1) pre (archiveOf ms n) p h' d

/-! ## lemmas -/

theorem rsplitPath_normpath (p : Str) :
    (rsplitPath (normpath p)).1 ++ '/' :: (rsplitPath (normpath p)).2 = normpath p ∧ '/' ∉ (rsplitPath (normpath p)).2 := by
  unfold rsplitPath
  cases h : rsplit1 '/' (normpath p) with
  | none => exact absurd (List.mem_cons_self) (rsplit1_none.mp h)
  | some ab =>
    obtain ⟨a, b⟩ := ab
    have := rsplit1_some h
    exact ⟨this.1.symm, this.2⟩

theorem mem_processTarInfo (o : Opts) (rec : Bool) (depth : Nat) (pre : Str) (stream : Nat) (e : Entry) :
    rowOf o depth pre stream e ∈ processTarInfo o rec depth pre stream e := by
  unfold processTarInfo
  simp only
  split
  · simp
  · split <;> simp

theorem readAt_readAt (whole : Bytes) (g n o k : Nat) (h : o + k ≤ n) :
    readAt (readAt whole g n) o k = readAt whole (g + o) k := by
  unfold readAt
  rw [List.drop_take, List.drop_drop, List.take_take, Nat.min_eq_left (by omega)]

theorem entry_of_mem (c : Codec) (ign : Bool) (ms : List (Member × Hdr)) (n : Nat) (hok : ∀ p ∈ ms, p.1.Ok c p.2)
    (m : Member) (h : Hdr) (hm : (m, h) ∈ ms) :
    ∃ e ∈ (scan c ign (archiveOf ms n) 0).1, e.hdr = h ∧
      readAt (archiveOf ms n) e.data h.size = m.data ∧
      e.data + h.size ≤ (archiveOf ms n).length := by
  obtain ⟨k, hk⟩ := List.getElem?_of_mem hm
  obtain ⟨e, h1, h2, h3, h4, h5, h6⟩ := entriesAt_spec c ms [] (List.replicate n 0) k m h hok hk
  unfold archiveOf
  rw [scan_archive c ign ms n hok]
  refine ⟨e, List.mem_of_getElem? h1, h2, by simpa using h5, ?_⟩
  simp only [List.nil_append] at h6
  rw [List.length_append]
  omega

theorem nested_rows (c : Codec) (o : Opts) (whole : Bytes) {k : Nat} {pre : Str} {b : Bytes} {p : Str} {h : Hdr} {d : Bytes}
    (hn : Nested c o k pre b p h d) : ∀ (depth stream : Nat), b = readAt whole stream b.length →
    stream + b.length ≤ whole.length →
    ∃ r ∈ createIndex c o whole k depth pre stream b, r.path ++ '/' :: r.name = p ∧ '/' ∉ r.name ∧ r.size = h.size ∧
      r.mode = fullMode h.type h.mode ∧ r.link = h.link ∧ readAt whole r.offset r.size = d ∧ r.offset + r.size ≤ whole.length := by
  induction hn with
  | here k pre ms n m h hok hm =>
    intro depth stream hb hl
    obtain ⟨e, he, h1, h2, h3⟩ := entry_of_mem c o.ignoreZeros ms n hok m h hm
    refine ⟨rowOf o depth pre stream e, ?_, ?_⟩
    · unfold createIndex
      simp only
      exact List.mem_append.mpr (.inl (List.mem_flatMap.mpr ⟨e, he, mem_processTarInfo _ _ _ _ _ _⟩))
    · subst h1
      have hs := rsplitPath_normpath (o.transform (pre ++ '/' :: e.hdr.name ++ (if isDir e.hdr.type then ['/'] else [])))
      refine ⟨hs.1, hs.2, rfl, rfl, rfl, ?_, ?_⟩
      · show readAt whole (stream + e.data) e.hdr.size = m.data
        rw [← readAt_readAt whole stream _ e.data e.hdr.size h3, ← hb]
        exact h2
      · show stream + e.data + e.hdr.size ≤ whole.length
        omega
  | inside k pre ms n m h h' p d hok hm hk hreg htar hin ih =>
    intro depth stream hb hl
    obtain ⟨e, he, h1, h2, h3⟩ := entry_of_mem c o.ignoreZeros ms n hok m h hm
    have hnd : isDir h.type = false := by
      unfold isReg at hreg; unfold isDir
      simp only [decide_eq_true_eq, List.mem_cons, List.not_mem_nil, or_false] at hreg
      rcases hreg with hr | hr | hr | hr <;> rw [hr] <;> rfl
    have hs := rsplitPath_normpath (o.transform (pre ++ '/' :: e.hdr.name ++ (if isDir e.hdr.type then ['/'] else [])))
    have hmd : readAt whole (stream + e.data) h.size = m.data := by
      rw [← readAt_readAt whole stream _ e.data h.size h3, ← hb]
      exact h2
    have hsz : h.size = m.data.length := (hok _ hm).size
    subst h1
    rw [hnd] at hs
    simp only [Bool.false_eq_true, if_false, List.append_nil] at hs
    have hrow : (rowOf o depth pre stream e).path ++ '/' :: (rowOf o depth pre stream e).name =
        normpath (o.transform (pre ++ '/' :: e.hdr.name)) ∧ '/' ∉ (rowOf o depth pre stream e).name := by
      unfold rowOf
      simp only [hnd, Bool.false_eq_true, if_false, List.append_nil]
      exact hs
    obtain ⟨r, hr, hrest⟩ := ih (rowOf o depth pre stream e) hrow.1 hrow.2 (depth + 1) (stream + e.data)
      (by rw [← hsz]; exact hmd.symm) (by rw [← hsz]; omega)
    refine ⟨r, ?_, hrest⟩
    unfold createIndex
    simp only
    have hne : ms ≠ [] := by rintro rfl; cases hm
    rw [show (scan c o.ignoreZeros (archiveOf ms n) 0).2 = false from scan_archive_err c o.ignoreZeros ms n hok hne]
    simp only [Bool.false_eq_true, if_false]
    refine List.mem_append.mpr (.inr (List.mem_flatMap.mpr ⟨rowOf o depth pre stream e, ?_, ?_⟩))
    · refine List.mem_map.mpr ⟨e, List.mem_filter.mpr ⟨he, ?_⟩, rfl⟩
      unfold mightBeTar
      simp only [hk, decide_true, hreg, htar, Bool.and_self]
    · refine List.mem_append.mpr (.inl ?_)
      show r ∈ createIndex c o whole k (depth + 1) _ (stream + e.data) (readAt whole (stream + e.data) e.hdr.size)
      rw [hmd]
      exact hr

/-! ## C25 -/

/-- **C25**, recursion: every member at every nesting level that is read gets a row with its path below the mount
points of the enclosing TARs, its mode and link, and the recorded range of the outermost archive is its data. -/
theorem C25_nested (c : Codec) (o : Opts) (maxDepth : Nat) (archive : Bytes) (p : Str) (h : Hdr) (d : Bytes)
    (hn : Nested c o (maxDepth + 1) [] archive p h d) :
    ∃ r ∈ newIndex c o maxDepth archive, r.path ++ '/' :: r.name = p ∧ '/' ∉ r.name ∧ r.mode = fullMode h.type h.mode ∧
      r.link = h.link ∧ readAt archive r.offset r.size = d ∧ r.offset + r.size ≤ archive.length := by
  obtain ⟨r, hr, h1, h2, _, h4, h5, h6, h7⟩ := nested_rows c o archive hn 0 0 (by simp [readAt]) (by omega)
  exact ⟨r, hr, h1, h2, h4, h5, h6, h7⟩

/-- **C25**, opening a row: the file object for a recorded range (`open`, 1023-1032) behaves under every history of
calls like an in-memory file with the data of the member, whatever others do to the position of the archive. -/
theorem C25_open (c : Codec) (o : Opts) (maxDepth : Nat) (archive : Bytes) (p : Str) (h : Hdr) (d : Bytes)
    (hn : Nested c o (maxDepth + 1) [] archive p h d) (st : Stencil.Store UInt8) (f : Nat)
    (hf : (st f).content = archive) (hc : (st f).closed = false) :
    ∃ r ∈ newIndex c o maxDepth archive, r.path ++ '/' :: r.name = p ∧
      ∀ ops, (Stencil.MemFile.mk d 0).accepts ops = true →
        ∃ raw, Stencil.Raw.init [(f, r.offset, r.size)] = .ok raw ∧ Stencil.run (st, raw) ops = (Stencil.MemFile.mk d 0).run ops := by
  obtain ⟨r, hr, h1, _, _, _, h6, h7⟩ := C25_nested c o maxDepth archive p h d hn
  refine ⟨r, hr, h1, fun ops hacc => ?_⟩
  have hj : Stencil.joined st [(f, (r.offset : Int), (r.size : Int))] = d := by
    unfold Stencil.joined
    simp only [List.flatMap_cons, List.flatMap_nil, List.append_nil, hf]
    exact h6
  have := Stencil.C01_stencil_reads_are_slices st [(f, (r.offset : Int), (r.size : Int))] (by
    intro s hs
    rw [List.mem_singleton] at hs
    subst hs
    refine ⟨Int.natCast_nonneg _, Int.natCast_nonneg _, ?_, hc⟩
    simp only [hf]
    omega) ops (by rw [hj]; exact hacc)
  rw [hj] at this
  exact this

/-- **C25**, nothing else: without recursion there is exactly one row per member in archive order (and one more for
a directory listing of a GNU incremental archive). -/
theorem C25_rows (c : Codec) (o : Opts) (ms : List (Member × Hdr)) (n : Nat) (hok : ∀ p ∈ ms, p.1.Ok c p.2)
    (hD : ∀ p ∈ ms, p.2.type ≠ 'D') :
    (newIndex c o 0 (archiveOf ms n)).map (fun r => (r.path ++ '/' :: r.name, r.size, r.mode, r.link)) =
      ms.map (fun p => (normpath (o.transform ('/' :: p.2.name ++ (if isDir p.2.type then ['/'] else []))), p.2.size,
        fullMode p.2.type p.2.mode, p.2.link)) := by
  unfold newIndex createIndex
  simp only [Nat.lt_irrefl, decide_false]
  have hmt : mightBeTar false = fun _ => false := by funext e; simp [mightBeTar]
  rw [hmt]
  have hff : ∀ l : List Entry, l.filter (fun _ => false) = [] := fun l => List.filter_eq_nil_iff.mpr (by simp)
  unfold archiveOf
  simp only [scan_archive c o.ignoreZeros ms n hok, hff, List.map_nil, List.flatMap_nil, ite_self, List.append_nil]
  have : ∀ (ms : List (Member × Hdr)) (off : Nat), (∀ p ∈ ms, p.2.type ≠ 'D') →
      ((entriesAt off ms).flatMap (processTarInfo o false 0 [] 0)).map (fun r => (r.path ++ '/' :: r.name, r.size, r.mode, r.link)) =
      ms.map (fun p => (normpath (o.transform ('/' :: p.2.name ++ (if isDir p.2.type then ['/'] else []))), p.2.size,
        fullMode p.2.type p.2.mode, p.2.link)) := by
    intro ms
    induction ms with
    | nil => intro off _; rfl
    | cons p ms ih =>
      intro off hD
      obtain ⟨m, h⟩ := p
      unfold entriesAt
      rw [List.flatMap_cons, List.map_append, ih _ (fun p hp => hD p (List.mem_cons_of_mem _ hp)), List.map_cons]
      have ht : h.type ≠ 'D' := hD (m, h) (by simp)
      unfold processTarInfo
      simp only [hmt, Bool.false_eq_true, if_false, beq_iff_eq, ht]
      rw [List.map_singleton, List.singleton_append]
      congr 1
      have hs := rsplitPath_normpath (o.transform ('/' :: h.name ++ (if isDir h.type then ['/'] else [])))
      unfold rowOf
      simp only [List.nil_append]
      rw [hs.1]
  exact this ms 0 hD


/-! ## C28: modes -/

/-- The file type a TAR type flag stands for, as the number in the type bits: regular files (old, new, contiguous,
sparse, and hard links, which are names of regular files), symbolic links, character and block devices, folders and
named pipes. A GNU incremental directory listing ('D') is stored as file besides the folder. -/
def typeOf : Char → Option Nat
  | '0' => some 8 | '\x00' => some 8 | '7' => some 8 | 'S' => some 8 | '1' => some 8 | 'D' => some 8
  | '2' => some 10 | '3' => some 2 | '4' => some 6 | '5' => some 4 | '6' => some 1
  | _ => none

/-- The full statement of C28. -/
def C28_statement : Prop :=
  ∀ (t : Char) (ty mode : Nat), typeOf t = some ty →
    typeBits (fullMode t mode) = ty ∧ fullMode t mode % 4096 = mode % 4096

/-- **C28 is violated by the code**: a block device gets no file type. -/
theorem C28_violated : ¬ C28_statement := fun h => absurd (h '4' 6 0o660 rfl).1 (by decide)

/-- Neither does a hard link, and stray type bits in the stored mode give another type: a folder stored with the mode
0100755 of a regular file is a socket. -/
example : typeBits (fullMode '1' 0o644) = 0 ∧ typeBits (fullMode '5' 0o100755) = 12 := by decide

/-- **C28** for modes without type bits. Missing from the full claim: block devices, hard links and stored type bits. -/
theorem C28_type_partial (t : Char) (ty mode : Nat) (h : typeOf t = some ty) (hm : mode < 4096) (h4 : t ≠ '4') (h1 : t ≠ '1') :
    typeBits (fullMode t mode) = ty ∧ fullMode t mode % 4096 = mode := by
  have key : ∀ k, k < 16 → fullMode t mode = mode ||| k * 4096 → typeBits (fullMode t mode) = k ∧ fullMode t mode % 4096 = mode := by
    intro k hk e
    rw [e]
    refine ⟨typeBits_or mode k hm hk, ?_⟩
    rw [show (4096 : Nat) = 2 ^ 12 from rfl, Nat.or_mod_two_pow, Nat.mul_mod_left, Nat.or_zero]
    exact Nat.mod_eq_of_lt hm
  unfold typeOf at h
  split at h
  case _ => cases h; exact key 8 (by decide) (by simp [fullMode, isDir, isReg])
  case _ => cases h; exact key 8 (by decide) (by simp [fullMode, isDir, isReg])
  case _ => cases h; exact key 8 (by decide) (by simp [fullMode, isDir, isReg])
  case _ => cases h; exact key 8 (by decide) (by simp [fullMode, isDir, isReg])
  case _ => exact absurd rfl h1
  case _ => cases h; exact key 8 (by decide) (by simp [fullMode, isDir, isReg])
  case _ => cases h; exact key 10 (by decide) (by simp [fullMode, isDir, isReg])
  case _ => cases h; exact key 2 (by decide) (by simp [fullMode, isDir, isReg])
  case _ => exact absurd rfl h4
  case _ => cases h; exact key 4 (by decide) (by simp [fullMode, isDir, isReg])
  case _ => cases h; exact key 1 (by decide) (by simp [fullMode, isDir, isReg])
  case _ => cases h

/-- **C28**, links: only symbolic links get the type of a link. -/
theorem C28_links (t : Char) (mode : Nat) (hm : mode < 4096) : typeBits (fullMode t mode) = 10 ↔ t = '2' := by
  constructor
  · intro h
    refine Classical.byContradiction fun hn => ?_
    by_cases ht : ∃ ty, typeOf t = some ty
    · obtain ⟨ty, ht⟩ := ht
      by_cases h4 : t = '4'
      · subst h4
        have : fullMode '4' mode = mode := by simp [fullMode, isDir, isReg]
        rw [this] at h
        unfold typeBits at h
        omega
      by_cases h1 : t = '1'
      · subst h1
        have : fullMode '1' mode = mode := by simp [fullMode, isDir, isReg]
        rw [this] at h
        unfold typeBits at h
        omega
      have := (C28_type_partial t ty mode ht hm h4 h1).1
      rw [h] at this
      subst this
      unfold typeOf at ht
      split at ht <;> first | (cases ht; done) | exact hn rfl | (simp at ht)
    · have hno : ∀ ty, typeOf t ≠ some ty := fun ty h => ht ⟨ty, h⟩
      have e : fullMode t mode = mode := by
        have a1 : isDir t = false := by
          unfold isDir; rw [beq_eq_false_iff_ne]; rintro rfl; exact hno 4 rfl
        have a2 : isReg t = false := by
          unfold isReg
          rw [decide_eq_false_iff_not]
          simp only [List.mem_cons, List.not_mem_nil, or_false, not_or]
          refine ⟨?_, ?_, ?_, ?_⟩ <;> rintro rfl <;> exact hno 8 rfl
        have a3 : (t == 'D') = false := by rw [beq_eq_false_iff_ne]; rintro rfl; exact hno 8 rfl
        have a4 : (t == '2') = false := by rw [beq_eq_false_iff_ne]; exact hn
        have a5 : (t == '3') = false := by rw [beq_eq_false_iff_ne]; rintro rfl; exact hno 2 rfl
        have a6 : (t == '6') = false := by rw [beq_eq_false_iff_ne]; rintro rfl; exact hno 1 rfl
        simp [fullMode, a1, a2, a3, a4, a5, a6]
      rw [e] at h
      unfold typeBits at h
      omega
  · rintro rfl
    exact (C28_type_partial '2' 10 mode rfl hm (by decide) (by decide)).1

example : (0o755 : Nat) < 4096 ∧ typeOf '5' = some 4 ∧ fullMode '5' 0o755 = 0o40755 := by decide

/-! ## C88: appended archives -/

/-- What `_get_past_end_offset` sees of a row (sparse members are not modelled here). -/
def IRow.toP (r : IRow) : PRow := ⟨r.offset, r.size, false⟩

/-- The rows added when only the part after `p` is indexed (tar.py:702-714). -/
def extendIndex (c : Codec) (o : Opts) (maxDepth p : Nat) (archive : Bytes) : List IRow :=
  createIndex c o archive (maxDepth + 1) 0 [] p (archive.drop p)

/-- The full statement of C88: whenever the index of the old archive gives a resume offset, the old rows and the rows
of the part after it are all rows of the archive with the appended members. -/
def C88_statement : Prop :=
  ∀ (c : Codec) (o : Opts) (maxDepth : Nat) (ms ms' : List (Member × Hdr)) (n n' p : Nat),
    (∀ q ∈ ms ++ ms', q.1.Ok c q.2) →
    pastEndOffset ((newIndex c o maxDepth (archiveOf ms n)).map IRow.toP) = .ok (some p) →
    ∀ r ∈ newIndex c o maxDepth (archiveOf (ms ++ ms') n'),
      r ∈ newIndex c o maxDepth (archiveOf ms n) ∨ r ∈ extendIndex c o maxDepth p (archiveOf (ms ++ ms') n')

/-- A codec for examples: the first byte is the number of blocks of data plus one, the second one the name; 2 stands
for `n.tar`. -/
def demoCodec : Codec where
  parse b := match b with
    | s :: n :: _ => some ⟨if n = 2 then "n.tar".toList else [Char.ofNat (97 + n.toNat)], (s.toNat - 1) * 512, '0', 0o644, []⟩
    | _ => none
  amend _ _ h := h

def demoOpts : Opts := ⟨false, false, id, none⟩

def demoBlock (size name : UInt8) : Bytes := size :: name :: List.replicate 510 0

/-- A member without data, and `n.tar` that contains it and a zero block. -/
def demoEmpty (name : UInt8) : Member := ⟨[], demoBlock 1 name, [], []⟩

def demoTar : Member := ⟨[], demoBlock 3 2, demoBlock 1 3 ++ List.replicate 512 0, []⟩


theorem demoBlock_ok (size name : UInt8) (hs : size ≠ 0) : IsBlock demoCodec (demoBlock size name)
    ⟨if name = 2 then "n.tar".toList else [Char.ofNat (97 + name.toNat)], (size.toNat - 1) * 512, '0', 0o644, []⟩ := by
  refine ⟨?_, ⟨size, ?_, hs⟩, rfl⟩
  · simp only [demoBlock, List.length_cons, List.length_replicate]
  · simp only [demoBlock, List.mem_cons, true_or]

theorem demoEmpty_ok (name : UInt8) (h : name ≠ 2) :
    (demoEmpty name).Ok demoCodec ⟨[Char.ofNat (97 + name.toNat)], 0, '0', 0o644, []⟩ where
  own := ⟨_, demoBlock_ok 1 name (by decide), rfl, by simp only [if_neg h]; rfl⟩
  size := rfl
  none _ := rfl
  padded := by simp [demoEmpty, roundUp]

theorem demoTar_ok : demoTar.Ok demoCodec ⟨"n.tar".toList, 1024, '0', 0o644, []⟩ where
  own := ⟨_, demoBlock_ok 3 2 (by decide), rfl, rfl⟩
  size := by decide +kernel
  none h := by revert h; decide
  padded := by decide +kernel

/-- **C88 is violated by the code**: the last member is a TAR that is indexed recursively. Reading resumes at the end
of the last file inside it, where its own end-of-archive block stops the iteration, and the appended member `e` is
never found. -/
theorem C88_violated : ¬ C88_statement := by
  intro h
  have := h demoCodec demoOpts 1 [(demoTar, ⟨"n.tar".toList, 1024, '0', 0o644, []⟩)]
    [(demoEmpty 4, ⟨['e'], 0, '0', 0o644, []⟩)] 1024 1024 1024
    (by
      intro q hq
      simp only [List.cons_append, List.nil_append, List.mem_cons, List.not_mem_nil, or_false] at hq
      rcases hq with rfl | rfl
      · exact demoTar_ok
      · exact demoEmpty_ok 4 (by decide))
    (by decide +kernel) ⟨[], ['e'], 1536, 2048, 0, 0o100644, [], false, false, 0⟩ (by decide +kernel)
  revert this
  decide +kernel

/-! ### flat archives -/

theorem pastEnd_of_split (A B : List PRow) (r : PRow) (hA : ∀ x ∈ A, x.offset < r.offset) (hB : ∀ x ∈ B, x.offset ≤ r.offset)
    (hs : r.sparse = false) :
    pastEndOffset (A ++ r :: B) = .ok (some (if (r.offset + r.size) % 512 ≠ 0 then
      r.offset + r.size + (512 - (r.offset + r.size) % 512) else r.offset + r.size)) := by
  have hh : (sortBy (fun a b : PRow => decide (b.offset ≤ a.offset)) (A ++ r :: B)).head? = some r := by
    cases h : (sortBy (fun a b : PRow => decide (b.offset ≤ a.offset)) (A ++ r :: B)).head? with
    | none =>
      have hn : sortBy (fun a b : PRow => decide (b.offset ≤ a.offset)) (A ++ r :: B) = [] := List.head?_eq_none_iff.mp h
      have := (sortBy_perm (fun a b : PRow => decide (b.offset ≤ a.offset)) (A ++ r :: B)).length_eq
      rw [hn] at this
      simp at this
    | some x =>
      obtain ⟨pre, post, h1, h2, h3⟩ := head_sortBy desc_trans desc_total _ x h
      have hrx : r.offset ≤ x.offset := of_decide_eq_true (h3 r (by simp))
      rcases List.append_eq_append_iff.mp h1 with ⟨as, ha, hb⟩ | ⟨bs, ha, hb⟩
      · cases as with
        | nil => simp only [List.nil_append, List.cons.injEq] at hb; rw [hb.1]
        | cons a as =>
          simp only [List.cons_append, List.cons.injEq] at hb
          have hr : r ∈ pre := by rw [ha, ← hb.1]; simp
          have := of_decide_eq_false (h2 r hr)
          have hx : x ∈ B := by rw [hb.2]; simp
          have := hB x hx
          omega
      · cases bs with
        | nil => simp only [List.nil_append, List.cons.injEq] at hb; rw [hb.1]
        | cons b bs =>
          simp only [List.cons_append, List.cons.injEq] at hb
          have hx : x ∈ A := by rw [ha, hb.1]; simp
          have := hA x hx
          omega
  unfold pastEndOffset
  rw [hh]
  simp [hs]

theorem head_mod {c : Codec} {m : Member} {h : Hdr} (hok : m.Ok c h) : m.head.length % 512 = 0 := by
  obtain ⟨own, ho⟩ := hok.own
  have key : ∀ (aux : List Aux) h, HeadOk c aux m.block own h →
      (aux.flatMap (fun a => a.block ++ a.content) ++ m.block).length % 512 = 0 := by
    intro aux
    induction aux with
    | nil => rintro h ⟨⟨hl, _⟩, _⟩; simp [hl]
    | cons a aux ih =>
      rintro h ⟨ah, h', ⟨hl, _⟩, _, hc, hk, _⟩
      have := ih h' hk
      simp only [List.flatMap_cons, List.length_append, hl, hc, roundUp] at this ⊢
      omega
  exact key _ _ ho

theorem encode_mod {c : Codec} (ms : List (Member × Hdr)) (hok : ∀ p ∈ ms, p.1.Ok c p.2) :
    (encode (ms.map (fun p => p.1))).length % 512 = 0 := by
  induction ms with
  | nil => rfl
  | cons p ms ih =>
    have h1 := head_mod (hok p (by simp))
    have h2 := (hok p (by simp)).padded
    have h3 := ih (fun q hq => hok q (List.mem_cons_of_mem _ hq))
    simp only [List.map_cons, encode_cons, Member.encode, List.length_append]
    unfold roundUp at h2
    omega

theorem entriesAt_append (ms ms' : List (Member × Hdr)) : ∀ off, entriesAt off (ms ++ ms') =
    entriesAt off ms ++ entriesAt (off + (encode (ms.map (fun p => p.1))).length) ms' := by
  induction ms with
  | nil => intro off; simp [entriesAt, encode]
  | cons p ms ih =>
    intro off
    obtain ⟨m, h⟩ := p
    simp only [List.cons_append, entriesAt, ih, List.map_cons, encode_cons, List.length_append, Nat.add_assoc]

theorem entriesAt_shift (ms : List (Member × Hdr)) : ∀ s off, entriesAt (s + off) ms =
    (entriesAt off ms).map (fun e => { e with offset := s + e.offset, data := s + e.data }) := by
  induction ms with
  | nil => intros; rfl
  | cons p ms ih =>
    intro s off
    obtain ⟨m, h⟩ := p
    simp only [entriesAt, List.map_cons, Nat.add_assoc, ih]

theorem entriesAt_data_lt {c : Codec} (ms : List (Member × Hdr)) : ∀ off, (∀ p ∈ ms, p.1.Ok c p.2) →
    ∀ e ∈ entriesAt off ms, e.data ≤ off + (encode (ms.map (fun p => p.1))).length := by
  induction ms with
  | nil => intro off _ e he; cases he
  | cons p ms ih =>
    intro off hok e he
    obtain ⟨m, h⟩ := p
    simp only [List.map_cons, encode_cons, List.length_append]
    unfold entriesAt at he
    rcases List.mem_cons.mp he with rfl | he
    · simp only [Member.encode, List.length_append]; omega
    · have := ih _ (fun q hq => hok q (List.mem_cons_of_mem _ hq)) e he
      omega

/-- The rows of an archive without recursion. -/
theorem flat_rows (c : Codec) (o : Opts) (ms : List (Member × Hdr)) (n depth stream : Nat) (pre : Str) (whole : Bytes)
    (hok : ∀ p ∈ ms, p.1.Ok c p.2) :
    createIndex c o whole 1 depth pre stream (archiveOf ms n) =
      (entriesAt 0 ms).flatMap (processTarInfo o false depth pre stream) := by
  unfold createIndex
  simp only [Nat.lt_irrefl, decide_false]
  have hmt : mightBeTar false = fun _ => false := by funext e; simp [mightBeTar]
  rw [hmt]
  have hff : ∀ l : List Entry, l.filter (fun _ => false) = [] := fun l => List.filter_eq_nil_iff.mpr (by simp)
  unfold archiveOf
  simp only [scan_archive c o.ignoreZeros ms n hok, hff, List.map_nil, List.flatMap_nil, ite_self, List.append_nil]

theorem offset_processTarInfo (o : Opts) (rec : Bool) (depth : Nat) (pre : Str) (stream : Nat) (e : Entry) (r : IRow)
    (hr : r ∈ processTarInfo o rec depth pre stream e) : r.offset = stream + e.data := by
  unfold processTarInfo at hr
  simp only at hr
  split at hr
  · rw [List.mem_singleton] at hr; subst hr; rfl
  · split at hr
    · rcases List.mem_cons.mp hr with rfl | hr
      · rfl
      · rw [List.mem_singleton] at hr; subst hr; rfl
    · rw [List.mem_singleton] at hr; subst hr; rfl

/-- The resume offset of a flat archive is the end of its last member. -/
theorem flat_pastEnd (c : Codec) (o : Opts) (ms : List (Member × Hdr)) (n : Nat) (hok : ∀ p ∈ ms, p.1.Ok c p.2) (hne : ms ≠ []) :
    pastEndOffset ((newIndex c o 0 (archiveOf ms n)).map IRow.toP) = .ok (some (encode (ms.map (fun p => p.1))).length) := by
  unfold newIndex
  rw [flat_rows c o ms n 0 0 [] _ hok]
  obtain ⟨ms0, p, rfl⟩ : ∃ ms0 p, ms = ms0 ++ [p] := ⟨ms.dropLast, ms.getLast hne, (List.dropLast_concat_getLast hne).symm⟩
  obtain ⟨m, h⟩ := p
  have hm : m.Ok c h := hok (m, h) (by simp)
  have hok0 : ∀ p ∈ ms0, p.1.Ok c p.2 := fun p hp => hok p (by simp [hp])
  rw [entriesAt_append, List.flatMap_append, List.map_append]
  simp only [entriesAt, List.flatMap_cons, List.flatMap_nil, List.append_nil, Nat.zero_add]
  have hsplit : ∃ B : List IRow, processTarInfo o false 0 [] 0 ⟨h, (encode (ms0.map (fun p => p.1))).length,
      (encode (ms0.map (fun p => p.1))).length + m.head.length⟩ = rowOf o 0 [] 0 ⟨h, (encode (ms0.map (fun p => p.1))).length,
      (encode (ms0.map (fun p => p.1))).length + m.head.length⟩ :: B := by
    unfold processTarInfo
    simp only
    split
    · exact ⟨[], rfl⟩
    · split
      · exact ⟨_, rfl⟩
      · exact ⟨[], rfl⟩
  obtain ⟨B, hB⟩ := hsplit
  have hBo : ∀ r ∈ B, r.offset = 0 + ((encode (ms0.map (fun p => p.1))).length + m.head.length) := by
    intro r hr
    exact offset_processTarInfo o false 0 [] 0 _ r (by rw [hB]; exact List.mem_cons_of_mem _ hr)
  rw [hB, List.map_cons, pastEnd_of_split]
  · have h1 := encode_mod ms0 hok0
    have h2 := head_mod hm
    have h3 := hm.padded
    have h4 := hm.size
    simp only [IRow.toP, rowOf, Nat.zero_add, List.map_append, List.map_cons, List.map_nil]
    rw [show encode (List.map (fun p : Member × Hdr => p.1) ms0 ++ [m]) = encode (ms0.map (fun p => p.1)) ++ m.encode by
      simp [encode]]
    simp only [Member.encode, List.length_append, h4]
    unfold roundUp at h3
    congr 2
    split <;> omega
  · intro x hx
    obtain ⟨r, hr, rfl⟩ := List.mem_map.mp hx
    obtain ⟨e, he, hr⟩ := List.mem_flatMap.mp hr
    have h1 := offset_processTarInfo _ _ _ _ _ _ _ hr
    have h2 := entriesAt_data_lt ms0 0 hok0 e he
    have h3 := head_pos hm
    simp only [IRow.toP, rowOf]
    omega
  · intro x hx
    obtain ⟨r, hr, rfl⟩ := List.mem_map.mp hx
    have := hBo r hr
    simp only [IRow.toP, rowOf]
    omega
  · rfl

/-- **C88** without recursion: reading only the part after the resume offset gives exactly the rows of the appended
members, so that the old rows followed by the new ones are the rows of the whole archive. Missing from the full
claim: recursive indexing. -/
theorem C88_extend_partial (c : Codec) (o : Opts) (ms ms' : List (Member × Hdr)) (n n' : Nat)
    (hok : ∀ q ∈ ms ++ ms', q.1.Ok c q.2) (hne : ms ≠ []) :
    ∃ p, pastEndOffset ((newIndex c o 0 (archiveOf ms n)).map IRow.toP) = .ok (some p) ∧
      newIndex c o 0 (archiveOf ms n) ++ extendIndex c o 0 p (archiveOf (ms ++ ms') n') =
        newIndex c o 0 (archiveOf (ms ++ ms') n') := by
  have hok1 : ∀ p ∈ ms, p.1.Ok c p.2 := fun p hp => hok p (by simp [hp])
  have hok2 : ∀ p ∈ ms', p.1.Ok c p.2 := fun p hp => hok p (by simp [hp])
  refine ⟨_, flat_pastEnd c o ms n hok1 hne, ?_⟩
  have hd : (archiveOf (ms ++ ms') n').drop (encode (ms.map (fun p => p.1))).length = archiveOf ms' n' := by
    unfold archiveOf
    rw [List.map_append, show encode (List.map (fun p : Member × Hdr => p.1) ms ++ List.map (fun p => p.1) ms') =
      encode (ms.map (fun p => p.1)) ++ encode (ms'.map (fun p => p.1)) by simp [encode], List.append_assoc, List.drop_left]
  unfold extendIndex newIndex
  rw [hd, flat_rows c o ms n 0 0 [] _ hok1, flat_rows c o ms' n' _ _ _ _ hok2, flat_rows c o (ms ++ ms') n' _ _ _ _ hok,
    entriesAt_append, List.flatMap_append]
  congr 1
  have := entriesAt_shift ms' (0 + (encode (ms.map (fun p => p.1))).length) 0
  rw [Nat.add_zero] at this
  rw [this, List.flatMap_map]
  congr 1
  funext e
  unfold processTarInfo rowOf mightBeTar
  simp only [Nat.zero_add]

example : ∀ q ∈ [(demoTar, (⟨"n.tar".toList, 1024, '0', 0o644, []⟩ : Hdr))] ++ [(demoEmpty 4, ⟨['e'], 0, '0', 0o644, []⟩)],
    q.1.Ok demoCodec q.2 := by
  intro q hq
  simp only [List.cons_append, List.nil_append, List.mem_cons, List.not_mem_nil, or_false] at hq
  rcases hq with rfl | rfl
  · exact demoTar_ok
  · exact demoEmpty_ok 4 (by decide)

/-- A nested file for `C25_nested`: `/n.tar/d`. -/
example : Nested demoCodec demoOpts 2 [] (archiveOf [(demoTar, ⟨"n.tar".toList, 1024, '0', 0o644, []⟩)] 1024)
    "/n.tar/d".toList ⟨['d'], 0, '0', 0o644, []⟩ [] := by
  refine Nested.inside 1 [] _ 1024 demoTar ⟨"n.tar".toList, 1024, '0', 0o644, []⟩ _ _ _ ?_ (by simp) (by decide) rfl rfl ?_
  · intro q hq
    rw [List.mem_singleton] at hq
    subst hq
    exact demoTar_ok
  · intro r hr hs
    have hmp : mountPathOf demoOpts r = "/n.tar".toList := by
      unfold mountPathOf
      have e : normpath (demoOpts.transform ([] ++ '/' :: "n.tar".toList)) = "/n.tar".toList := by decide
      rw [e] at hr
      simp only [demoOpts, Bool.false_and, Bool.false_eq_true, if_false]
      rw [hr]
      decide
    rw [hmp]
    have hb : demoTar.data = archiveOf [(demoEmpty 3, ⟨['d'], 0, '0', 0o644, []⟩)] 512 := by decide +kernel
    rw [hb]
    exact Nested.here 0 "/n.tar".toList [(demoEmpty 3, ⟨['d'], 0, '0', 0o644, []⟩)] 512 (demoEmpty 3)
      ⟨['d'], 0, '0', 0o644, []⟩ (by
        intro q hq
        rw [List.mem_singleton] at hq
        subst hq
        exact demoEmpty_ok 3 (by decide)) (by simp)

/-! ## C89: members named like an archive -/

/-- The full statement of C89: if iterating over the contents of a regular member whose name ends in `.tar` finds
nothing because it is no TAR, then the newest row with its path is not a folder. -/
def C89_statement : Prop :=
  ∀ (c : Codec) (o : Opts) (maxDepth : Nat) (ms : List (Member × Hdr)) (n : Nat) (m : Member) (h : Hdr),
    (∀ q ∈ ms, q.1.Ok c q.2) → (m, h) ∈ ms → isReg h.type = true → scan c o.ignoreZeros m.data 0 = ([], true) →
    ∀ r ∈ newIndex c o maxDepth (archiveOf ms n), r.path ++ '/' :: r.name = normpath (o.transform ('/' :: h.name)) →
      ∃ r' ∈ newIndex c o maxDepth (archiveOf ms n), r'.path = r.path ∧ r'.name = r.name ∧ r.oh ≤ r'.oh ∧ typeBits r'.mode = 8

/-- A member `n.tar` that holds a text. -/
def demoText : Member := ⟨[], demoBlock 2 2, List.replicate 512 65, []⟩

/-- The codec rejects the text. -/
def strictCodec : Codec where
  parse b := if b.head? = some 65 then none else demoCodec.parse b
  amend _ _ h := h

theorem demoText_ok : demoText.Ok strictCodec ⟨"n.tar".toList, 512, '0', 0o644, []⟩ where
  own := ⟨⟨"n.tar".toList, 512, '0', 0o644, []⟩, ⟨(demoBlock_ok 2 2 (by decide)).1, (demoBlock_ok 2 2 (by decide)).2.1, by rfl⟩, rfl, rfl⟩
  size := by decide +kernel
  none h := by revert h; decide
  padded := by decide +kernel

/-- **C89 is violated by the code**: the text file `n.tar` is shown as an empty folder. -/
theorem C89_violated : ¬ C89_statement := by
  intro h
  obtain ⟨r', hr', h1, h2, h3, h4⟩ := h strictCodec demoOpts 1 [(demoText, ⟨"n.tar".toList, 512, '0', 0o644, []⟩)] 1024 demoText
    ⟨"n.tar".toList, 512, '0', 0o644, []⟩ (by
      intro q hq
      rw [List.mem_singleton] at hq
      subst hq
      exact demoText_ok) (by simp) rfl (by decide +kernel)
    ⟨[], "n.tar".toList, 1, 513, 512, 0o40755, [], true, true, 1⟩ (by decide +kernel) (by decide +kernel)
  have e : newIndex strictCodec demoOpts 1 (archiveOf [(demoText, ⟨"n.tar".toList, 512, '0', 0o644, []⟩)] 1024) =
      [⟨[], "n.tar".toList, 0, 512, 512, 0o100644, [], false, false, 0⟩,
       ⟨[], "n.tar".toList, 1, 513, 512, 0o40755, [], true, true, 1⟩,
       ⟨[], "n.tar".toList, 0, 512, 512, 0o100644, [], true, false, 0⟩] := by decide +kernel
  rw [e] at hr'
  simp only [List.mem_cons, List.not_mem_nil, or_false] at hr'
  rcases hr' with rfl | rfl | rfl
  · exact absurd h3 (by decide)
  · exact absurd h4 (by decide)
  · exact absurd h3 (by decide)

/-- **C89**, what holds: the contents of every member is still there as a regular file, also if it is mounted as a
folder. Missing from the full claim: it is the newest version. -/
theorem C89_file_partial (c : Codec) (o : Opts) (maxDepth : Nat) (ms : List (Member × Hdr)) (n : Nat) (m : Member) (h : Hdr)
    (hok : ∀ q ∈ ms, q.1.Ok c q.2) (hm : (m, h) ∈ ms) (hreg : isReg h.type = true) (hmode : h.mode < 4096) :
    ∃ r ∈ newIndex c o maxDepth (archiveOf ms n), r.path ++ '/' :: r.name = normpath (o.transform ('/' :: h.name)) ∧
      typeBits r.mode = 8 ∧ readAt (archiveOf ms n) r.offset r.size = m.data := by
  have hn := Nested.here (o := o) maxDepth [] ms n m h hok hm
  obtain ⟨r, hr, h1, _, h3, _, h5, _⟩ := C25_nested c o maxDepth _ _ _ _ hn
  have hr' := hreg
  unfold isReg at hreg
  simp only [decide_eq_true_eq, List.mem_cons, List.not_mem_nil, or_false] at hreg
  have hd : isDir h.type = false := by rcases hreg with hr | hr | hr | hr <;> rw [hr] <;> rfl
  refine ⟨r, hr, ?_, ?_, h5⟩
  · rw [h1, hd]; simp
  · rw [h3]
    exact (C28_type_partial h.type 8 h.mode (by rcases hreg with hr | hr | hr | hr <;> rw [hr] <;> rfl) hmode
      (by rcases hreg with hr | hr | hr | hr <;> rw [hr] <;> decide) (by rcases hreg with hr | hr | hr | hr <;> rw [hr] <;> decide)).1

end Verif.Tar
