import Verif.Fuse.IndexMount
import Verif.Fuse.TarFiles
import Verif.Index.Hashes
import Verif.Compose.Adaptor
import Verif.Compose.Prefix
import Verif.Tar.Verify

/-!
# C198: TAR archives inside of TAR archives that are mounted recursively

`SQLiteIndexedTar` reads TAR archives that are members of a TAR archive and adds their members to the same index (tar.py:849-937). This
file puts together the headers (`Verif.Tar.Header`), the recursive index (`Verif.Tar.Index`) and the operations of the mount
(`Verif.Fuse.IndexMount`): from the bytes of the outermost archive to what reads, attributes and lists show at all levels.

`AutoMountLayer`, which is also there for recursive mounts (FuseMount.py:249), is not included here: the archives contain no other files
that it would mount. Time, owner and group are not modelled here. The options are the default ones apart from the recursion.
-/

namespace Verif.Fuse.TarNested

open Verif.Py Verif.Index Verif.Fuse.IndexMount
open Verif.Tar (Member Hdr Bytes IRow newIndex createIndex archiveOf entriesAt)
open Verif.Tar.Header (File Kind Written Storable codec)
open Verif.Compose (Source dotVersions)
open Verif.Fuse.TarMount (plain Call start mread mreaddir mlookup mp place)

/-! ## model -/

/-- The columns of a row (tar.py:230-258). -/
def toF (r : IRow) : FRow := ⟨r.path, r.name, r.oh, r.offset, r.size, 0, r.mode, r.link, 0, 0, r.generated⟩

/-- The rows that are given to the index, in the order in which they are given (tar.py:849-937). -/
def rowsOf (esc : Bytes → Str) (ign : Bool) (maxDepth : Nat) (archive : Bytes) : List FRow :=
  (newIndex (codec esc) (plain ign) maxDepth archive).map toF

/-- The different rows in the order of their headers, for referring to the columns that are only copied (SQLiteIndex.py:781-799). -/
def columns (l : List FRow) : List FRow := sortBy (fun a b => decide (a.oh ≤ b.oh)) (distinct l)

/-- The rows as they are inserted (SQLiteIndex.py:1060-1090). -/
def numbered (l : List FRow) : List Row := l.map (fun r => toRow ((columns l).idxOf r + 1) r)

/-- The batches contain all rows of the archive in order (tar.py:457-475, 931-937). -/
def Batches (esc : Bytes → Str) (ign : Bool) (maxDepth : Nat) (archive : Bytes) (bs : List (List Row)) : Prop :=
  bs.flatten = numbered (rowsOf esc ign maxDepth archive)

/-- The columns of the archive (tar.py:849-937). -/
def cols (esc : Bytes → Str) (ign : Bool) (maxDepth : Nat) (archive : Bytes) : List FRow := columns (rowsOf esc ign maxDepth archive)

/-- The mount (FuseMount.py:225-245, tar.py:834-850). -/
def mounted (esc : Bytes → Str) (ign : Bool) (maxDepth : Nat) (archive : Bytes) (bs : List (List Row)) : Source :=
  source (cols esc ign maxDepth archive) bs

/-- `SQLiteIndexedTar.open` (tar.py:1023-1030) opens everything. -/
def never (_ : Nat) : Bool := false

/-! ## specification -/

/-- Files with the bytes that were written for each of them, in order. The data of some of them are archives. -/
inductive Arch where
  | nil
  | file (f : File) (m : Member) (rest : Arch)
  | tar (f : File) (m : Member) (inner : Arch) (zeros : Nat) (rest : Arch)

/-- The files of the outermost archive. -/
def Arch.packing : Arch → TarFiles.Packing
  | .nil => []
  | .file f m rest => (f, m) :: rest.packing
  | .tar f m _ _ rest => (f, m) :: rest.packing

/-- The bytes of the archive. -/
def Arch.bytes (a : Arch) (zeros : Nat) : Bytes := TarFiles.bytesOf a.packing zeros

/-- The name looks like that of an archive. -/
def tarName (f : File) : Bool := endsWith ".tar".toList (Tar.lower f.name)

/-- One file was written in the format of GNU tar, ustar or PAX. -/
structure One (f : File) (m : Member) : Prop where
  written : Written f m
  ok : f.Ok
  names : Storable f.written ∧ Storable f.link

/-- All files were written correctly, and exactly the files with names like archives are archives. -/
def Arch.Ok : Arch → Prop
  | .nil => True
  | .file f m rest => One f m ∧ (f.kind = .file → tarName f = false) ∧ rest.Ok
  | .tar f m inner zeros rest => One f m ∧ f.kind = .file ∧ tarName f = true ∧ f.link = [] ∧ f.data = inner.bytes zeros ∧ inner.Ok ∧ rest.Ok

/-- Something that should be shown: a file at a place, or the folder with the contents of an archive. `root` is the folder at which the archive
with the file is shown. -/
structure Shown where
  root : List Str
  place : List Str
  file : File
  contents : Bool

/-- The place of a name that is written in an archive that is shown in the folder `root`. -/
def placeIn (root : List Str) (name : Str) : List Str := walk root (split '/' name)

/-- What should be shown of an archive in the folder `root` if `k` more levels are read. -/
def shown : Nat → List Str → Arch → List Shown
  | _, _, .nil => []
  | k, root, .file f _ rest => ⟨root, placeIn root f.name, f, false⟩ :: shown k root rest
  | 0, root, .tar f _ _ _ rest => ⟨root, placeIn root f.name, f, false⟩ :: shown 0 root rest
  | k + 1, root, .tar f _ inner _ rest =>
    ⟨root, placeIn root f.name, f, false⟩ :: ⟨root, placeIn root f.name, f, true⟩ ::
      (shown k (placeIn root f.name) inner ++ shown (k + 1) root rest)

/-- It is a folder. -/
def Shown.isFolder (s : Shown) : Prop := s.contents = true ∨ s.file.kind = .folder

/-- There is something below the place `ns`. -/
def Inside (ss : List Shown) (ns : List Str) : Prop := ∃ s ∈ ss, ∃ n rest, s.place = ns ++ n :: rest

/-- Only folders have something below them. -/
def Tree (ss : List Shown) : Prop := ∀ s ∈ ss, Inside ss s.place → ∃ s' ∈ ss, s'.place = s.place ∧ s'.isFolder

/-- What comes last for a place. -/
def lastOf (ss : List Shown) (ns : List Str) : Option Shown := (ss.filter (fun s => decide (s.place = ns))).getLast?

/-- It is a hard link. -/
def Shown.isHard (s : Shown) : Prop := s.contents = false ∧ s.file.kind = .hardlink

/-- Following `k` hard links from the place `ns` leads to `s`. Links of an archive lead to files of the same archive. -/
inductive Leads (ss : List Shown) : Nat → List Str → Shown → Prop where
  | here (ns : List Str) (s : Shown) (hne : ns ≠ []) (hl : lastOf ss ns = some s) (ht : ¬ s.isHard) : Leads ss 0 ns s
  | link (k : Nat) (ns : List Str) (t s : Shown) (hne : ns ≠ []) (hl : lastOf ss ns = some t) (ht : t.isHard) (hlink : t.file.link ≠ [])
      (hother : placeIn t.root t.file.link ≠ ns) (hr : Leads ss k (placeIn t.root t.file.link) s) : Leads ss (k + 1) ns s

/-- The mode that should be shown: a folder for the contents of an archive has the permissions of the archive, and everyone who may read it may
also look into it. -/
def Shown.mode (s : Shown) : Nat :=
  if s.contents then (s.file.mode % 512) ||| (s.file.mode % 512 &&& 0o444) / 4 ||| 0o40000 else s.file.mode ||| TarFiles.bits s.file.kind

/-! ## the rows of an archive -/

/-- The row of a file whose header is at `off`. -/
def rowFor (root : List Str) (off : Nat) (f : File) (m : Member) : FRow :=
  ⟨(splitPath (canonical (placeIn root f.name))).1, (splitPath (canonical (placeIn root f.name))).2, off, off + m.head.length, f.data.length, 0,
    Tar.fullMode f.kind.char f.mode, f.link, 0, 0, false⟩

/-- The row of the folder with its contents. -/
def dirFor (root : List Str) (off : Nat) (f : File) (m : Member) : FRow :=
  ⟨(splitPath (canonical (placeIn root f.name))).1, (splitPath (canonical (placeIn root f.name))).2, off + 1, off + m.head.length + 1, f.data.length, 0,
    Tar.folderMode (Tar.fullMode f.kind.char f.mode), f.link, 0, 0, true⟩

/-- All rows in the order of their headers. -/
def rowsIn : Nat → List Str → Nat → Arch → List FRow
  | _, _, _, .nil => []
  | k, root, off, .file f m rest => rowFor root off f m :: rowsIn k root (off + m.encode.length) rest
  | 0, root, off, .tar f m _ _ rest => rowFor root off f m :: rowsIn 0 root (off + m.encode.length) rest
  | k + 1, root, off, .tar f m inner _ rest =>
    rowFor root off f m :: dirFor root off f m ::
      (rowsIn k (placeIn root f.name) (off + m.head.length) inner ++ rowsIn (k + 1) root (off + m.encode.length) rest)

theorem one_ok (esc : Bytes → Str) {f : File} {m : Member} (h : One f m) : m.Ok (codec esc) f.hdr :=
  Tar.Header.written_ok esc h.ok h.names.1 h.names.2 h.written

theorem packing_one {a : Arch} (h : a.Ok) : ∀ p ∈ a.packing, One p.1 p.2 := by
  induction a with
  | nil => intro p hp; cases hp
  | file f m rest ih =>
    intro p hp
    rcases List.mem_cons.mp hp with e | hp
    · rw [e]; exact h.1
    · exact ih h.2.2 p hp
  | tar f m inner z rest _ ih =>
    intro p hp
    rcases List.mem_cons.mp hp with e | hp
    · rw [e]; exact h.1
    · exact ih h.2.2.2.2.2.2 p hp

theorem members_ok (esc : Bytes → Str) {a : Arch} (h : a.Ok) : ∀ p ∈ TarFiles.members a.packing, p.1.Ok (codec esc) p.2 := by
  intro p hp
  obtain ⟨q, hq, rfl⟩ := List.mem_map.mp hp
  exact one_ok esc (packing_one h q hq)

theorem walk_below (root : List Str) (pre : Str) (hpre : walk [] (split '/' pre) = root) (name : Str) (b : Bool) :
    normpath (pre ++ '/' :: name ++ (if b then ['/'] else [])) = canonical (placeIn root name) := by
  rw [(C14_canonical _).1]
  congr 1
  cases b with
  | false =>
    simp only [Bool.false_eq_true, if_false, List.append_nil]
    rw [Adaptor.split_append, Tar.walk_append, hpre]
    rfl
  | true =>
    simp only [if_true]
    have e : pre ++ '/' :: name ++ ['/'] = pre ++ '/' :: (name ++ '/' :: []) := by simp
    rw [e, Adaptor.split_append, Adaptor.split_append, Tar.walk_append, Tar.walk_append, hpre]
    show walk (walk root (split '/' name)) [[]] = _
    simp [walk, placeIn]

theorem row_eq (ign : Bool) (depth : Nat) (root : List Str) (pre : Str) (hpre : walk [] (split '/' pre) = root) (stream off : Nat) (f : File) (m : Member) :
    toF (Tar.rowOf (plain ign) depth pre stream ⟨f.hdr, off, off + m.head.length⟩) = rowFor root (stream + off) f m := by
  unfold toF Tar.rowOf rowFor
  simp only [plain, id]
  rw [walk_below root pre hpre f.hdr.name (Tar.isDir f.hdr.type)]
  have e : stream + (off + m.head.length) = stream + off + m.head.length := by omega
  rw [e]
  rfl

theorem mount_path (ign : Bool) (depth : Nat) (root : List Str) (pre : Str) (hpre : walk [] (split '/' pre) = root) (stream off : Nat) (f : File) (m : Member) :
    walk [] (split '/' (Tar.mountPathOf (plain ign) (Tar.rowOf (plain ign) depth pre stream ⟨f.hdr, off, off + m.head.length⟩))) = placeIn root f.name := by
  unfold Tar.mountPathOf
  simp only [plain, Bool.false_and, Bool.false_eq_true, if_false]
  have h1 : ∀ s : Str, walk [] (split '/' ('/' :: s)) = walk [] (split '/' s) := by
    intro s; rw [split_cons_eq]; simp [walk]
  rw [h1, Compose.walk_split_lstrip]
  unfold Tar.rowOf
  simp only [id]
  rw [(Tar.rsplitPath_normpath _).1, walk_below root pre hpre f.hdr.name (Tar.isDir f.hdr.type)]
  exact split_canonical _ (fun n hn => by
    have := (C14_canonical (pre ++ '/' :: f.name)).2 n
    rw [Adaptor.split_append, Tar.walk_append, hpre] at this
    exact this hn)

theorem folder_eq (ign : Bool) (depth : Nat) (root : List Str) (pre : Str) (hpre : walk [] (split '/' pre) = root) (stream off : Nat) (f : File) (m : Member) :
    toF (Tar.folderRow (plain ign) (Tar.rowOf (plain ign) depth pre stream ⟨f.hdr, off, off + m.head.length⟩)) = dirFor root (stream + off) f m := by
  have h := row_eq ign depth root pre hpre stream off f m
  generalize Tar.rowOf (plain ign) depth pre stream ⟨f.hdr, off, off + m.head.length⟩ = r at h
  unfold Tar.folderRow Tar.mountPointOf
  simp only [plain, Bool.false_and, Bool.false_eq_true, if_false, ne_eq, not_true_eq_false, or_self]
  unfold toF rowFor at h
  simp only [FRow.mk.injEq] at h
  obtain ⟨a1, a2, a3, a4, a5, -, a6, a7, -⟩ := h
  unfold toF dirFor
  simp only [a1, a2, a3, a4, a5, a6, a7]

theorem might_be (rec : Bool) (f : File) (off data : Nat) : Tar.mightBeTar rec ⟨f.hdr, off, data⟩ = (rec && decide (f.kind = .file) && tarName f) := by
  unfold Tar.mightBeTar tarName
  have : Tar.isReg f.hdr.type = decide (f.kind = .file) := by
    show Tar.isReg f.kind.char = _
    cases f.kind <;> decide
  rw [this]
  rfl

theorem process_eq (ign rec : Bool) (depth : Nat) (pre : Str) (stream off data : Nat) (f : File) :
    Tar.processTarInfo (plain ign) rec depth pre stream ⟨f.hdr, off, data⟩ = [Tar.rowOf (plain ign) depth pre stream ⟨f.hdr, off, data⟩] := by
  unfold Tar.processTarInfo
  have : (f.hdr.type == 'D') = false := by
    show (f.kind.char == 'D') = false
    cases f.kind <;> decide
  simp only [this, Bool.false_eq_true, if_false, ite_self]

theorem bytes_eq (a : Arch) (z : Nat) : a.bytes z = archiveOf (TarFiles.members a.packing) z := (TarFiles.archive_eq _ _).symm

/-- The bytes of the members of an archive without the zeros at the end. -/
def Arch.body (a : Arch) : Bytes := a.packing.flatMap (fun p => p.2.encode)

theorem bytes_body (a : Arch) (z : Nat) : a.bytes z = a.body ++ List.replicate z 0 := rfl

theorem body_file (f : File) (m : Member) (rest : Arch) : (Arch.file f m rest).body = m.encode ++ rest.body := rfl
theorem body_tar (f : File) (m : Member) (inner : Arch) (z : Nat) (rest : Arch) : (Arch.tar f m inner z rest).body = m.encode ++ rest.body := rfl

/-- The bytes `b` are in `whole` at the offset `o`. -/
def At (whole : Bytes) (o : Nat) (b : Bytes) : Prop := Tar.readAt whole o b.length = b ∧ o + b.length ≤ whole.length

theorem at_iff {whole : Bytes} {o : Nat} {b : Bytes} : At whole o b ↔ ∃ pre post, whole = pre ++ (b ++ post) ∧ pre.length = o := by
  constructor
  · rintro ⟨h1, h2⟩
    refine ⟨whole.take o, whole.drop (o + b.length), ?_, by rw [List.length_take]; omega⟩
    unfold Tar.readAt at h1
    conv => lhs; rw [← List.take_append_drop o whole, ← List.take_append_drop b.length (whole.drop o), h1, List.drop_drop]
  · rintro ⟨pre, post, rfl, rfl⟩
    refine ⟨Tar.readAt_mid pre b post, ?_⟩
    simp only [List.length_append]
    omega

theorem at_left {whole : Bytes} {o : Nat} {a b : Bytes} (h : At whole o (a ++ b)) : At whole o a := by
  obtain ⟨pre, post, h1, h2⟩ := at_iff.mp h
  exact at_iff.mpr ⟨pre, b ++ post, by rw [h1]; simp, h2⟩

theorem at_right {whole : Bytes} {o : Nat} {a b : Bytes} (h : At whole o (a ++ b)) : At whole (o + a.length) b := by
  obtain ⟨pre, post, h1, h2⟩ := at_iff.mp h
  exact at_iff.mpr ⟨pre ++ a, post, by rw [h1]; simp, by rw [List.length_append, h2]⟩

theorem at_data {whole : Bytes} {o : Nat} {f : File} {m : Member} (h1 : One f m) (h : At whole o m.encode) : At whole (o + m.head.length) f.data := by
  unfold Tar.Member.encode at h
  rw [List.append_assoc] at h
  have := at_left (at_right h)
  rw [TarFiles.data_eq h1.written] at this
  exact this

/-- All rows that are added for an archive. -/
theorem mem_index (esc : Bytes → Str) (ign : Bool) (whole : Bytes) : ∀ (k : Nat) (a : Arch), a.Ok → ∀ (depth : Nat) (root : List Str) (pre : Str),
    walk [] (split '/' pre) = root → ∀ (stream z : Nat), At whole stream a.body → ∀ q,
    q ∈ (createIndex (codec esc) (plain ign) whole (k + 1) depth pre stream (a.bytes z)).map toF ↔ q ∈ rowsIn k root stream a := by
  intro k
  induction k with
  | zero =>
    intro a ha depth root pre hpre stream z _ q
    rw [bytes_eq, Tar.flat_rows _ _ _ _ _ _ _ _ (members_ok esc ha)]
    have key : ∀ (a : Arch) (off : Nat), q ∈ ((entriesAt off (TarFiles.members a.packing)).flatMap (Tar.processTarInfo (plain ign) false depth pre stream)).map toF ↔
        q ∈ rowsIn 0 root (stream + off) a := by
      intro a
      induction a with
      | nil => intro off; exact Iff.rfl
      | file f m rest ih =>
        intro off
        show q ∈ ((⟨f.hdr, off, off + m.head.length⟩ :: entriesAt (off + m.encode.length) (TarFiles.members rest.packing)).flatMap _).map toF ↔
          q ∈ rowFor root (stream + off) f m :: rowsIn 0 root (stream + off + m.encode.length) rest
        rw [List.flatMap_cons, process_eq, List.map_append, List.map_singleton, row_eq ign depth root pre hpre, List.singleton_append, List.mem_cons,
          List.mem_cons, ih, Nat.add_assoc]
      | tar f m inner z rest _ ih =>
        intro off
        show q ∈ ((⟨f.hdr, off, off + m.head.length⟩ :: entriesAt (off + m.encode.length) (TarFiles.members rest.packing)).flatMap _).map toF ↔
          q ∈ rowFor root (stream + off) f m :: rowsIn 0 root (stream + off + m.encode.length) rest
        rw [List.flatMap_cons, process_eq, List.map_append, List.map_singleton, row_eq ign depth root pre hpre, List.singleton_append, List.mem_cons,
          List.mem_cons, ih, Nat.add_assoc]
    exact key a 0
  | succ k ih =>
    intro a ha depth root pre hpre stream z hat q
    have hok := members_ok esc ha
    have hcut : createIndex (codec esc) (plain ign) whole (k + 2) depth pre stream (a.bytes z) =
        (entriesAt 0 (TarFiles.members a.packing)).flatMap (Tar.processTarInfo (plain ign) true depth pre stream) ++
        ((entriesAt 0 (TarFiles.members a.packing)).filter (Tar.mightBeTar true)).flatMap (fun e =>
          createIndex (codec esc) (plain ign) whole (k + 1) (depth + 1) (Tar.mountPathOf (plain ign) (Tar.rowOf (plain ign) depth pre stream e))
            (Tar.rowOf (plain ign) depth pre stream e).offset
            (Tar.readAt whole (Tar.rowOf (plain ign) depth pre stream e).offset (Tar.rowOf (plain ign) depth pre stream e).size) ++
          [Tar.folderRow (plain ign) (Tar.rowOf (plain ign) depth pre stream e), { Tar.rowOf (plain ign) depth pre stream e with isTar := true }]) := by
      rw [bytes_eq]
      conv => lhs; unfold createIndex
      simp only [Nat.zero_lt_succ, decide_true]
      have hi : (plain ign).ignoreZeros = ign := rfl
      rw [hi]
      have h1 : (Tar.scan (codec esc) ign (archiveOf (TarFiles.members a.packing) z) 0).1 = entriesAt 0 (TarFiles.members a.packing) :=
        Tar.scan_archive _ _ _ _ hok
      rw [h1]
      congr 1
      by_cases hne : TarFiles.members a.packing = []
      · rw [hne]
        simp [entriesAt]
      · have h2 : (Tar.scan (codec esc) ign (archiveOf (TarFiles.members a.packing) z) 0).2 = false := Tar.scan_archive_err _ _ _ _ hok hne
        rw [h2]
        simp only [Bool.false_eq_true, if_false, List.flatMap_map]
    rw [hcut, List.map_append, List.mem_append]
    clear hcut
    have key : ∀ (a : Arch) (off : Nat), a.Ok → At whole (stream + off) a.body →
        ((q ∈ ((entriesAt off (TarFiles.members a.packing)).flatMap (Tar.processTarInfo (plain ign) true depth pre stream)).map toF ∨
         q ∈ (((entriesAt off (TarFiles.members a.packing)).filter (Tar.mightBeTar true)).flatMap (fun e =>
          createIndex (codec esc) (plain ign) whole (k + 1) (depth + 1) (Tar.mountPathOf (plain ign) (Tar.rowOf (plain ign) depth pre stream e))
            (Tar.rowOf (plain ign) depth pre stream e).offset
            (Tar.readAt whole (Tar.rowOf (plain ign) depth pre stream e).offset (Tar.rowOf (plain ign) depth pre stream e).size) ++
          [Tar.folderRow (plain ign) (Tar.rowOf (plain ign) depth pre stream e), { Tar.rowOf (plain ign) depth pre stream e with isTar := true }])).map toF) ↔
        q ∈ rowsIn (k + 1) root (stream + off) a) := by
      intro a
      induction a with
      | nil => intro off _ _; simp [Arch.packing, TarFiles.members, entriesAt, rowsIn]
      | file f m rest ihr =>
        intro off ho hw
        rw [body_file] at hw
        have hrest := ihr (off + m.encode.length) ho.2.2 (by have := at_right hw; rw [Nat.add_assoc] at this; exact this)
        have hm : Tar.mightBeTar true ⟨f.hdr, off, off + m.head.length⟩ = false := by
          rw [might_be]
          by_cases hf : f.kind = .file
          · rw [ho.2.1 hf]; simp
          · simp [hf]
        have e : entriesAt off (TarFiles.members (Arch.file f m rest).packing) =
          ⟨f.hdr, off, off + m.head.length⟩ :: entriesAt (off + m.encode.length) (TarFiles.members rest.packing) := rfl
        rw [e, List.flatMap_cons, process_eq, List.map_append, List.map_singleton, row_eq ign depth root pre hpre, List.singleton_append, List.mem_cons,
          List.filter_cons, hm]
        simp only [Bool.false_eq_true, if_false]
        show _ ↔ q ∈ rowFor root (stream + off) f m :: rowsIn (k + 1) root (stream + off + m.encode.length) rest
        rw [List.mem_cons, or_assoc, hrest, Nat.add_assoc]
      | tar f m inner z rest _ ihr =>
        intro off ho hw
        obtain ⟨h1, h2, h3, h4, h5, h6, h7⟩ := ho
        rw [body_tar] at hw
        have hrest := ihr (off + m.encode.length) h7 (by have := at_right hw; rw [Nat.add_assoc] at this; exact this)
        have hm : Tar.mightBeTar true ⟨f.hdr, off, off + m.head.length⟩ = true := by
          rw [might_be, h3]; simp [h2]
        have hd := at_data h1 (at_left hw)
        have e : entriesAt off (TarFiles.members (Arch.tar f m inner z rest).packing) =
          ⟨f.hdr, off, off + m.head.length⟩ :: entriesAt (off + m.encode.length) (TarFiles.members rest.packing) := rfl
        have hro : (Tar.rowOf (plain ign) depth pre stream ⟨f.hdr, off, off + m.head.length⟩).offset = stream + off + m.head.length := by
          show stream + (off + m.head.length) = _; omega
        have hrs : (Tar.rowOf (plain ign) depth pre stream ⟨f.hdr, off, off + m.head.length⟩).size = f.data.length := rfl
        have hin := ih inner h6 (depth + 1) (placeIn root f.name)
          (Tar.mountPathOf (plain ign) (Tar.rowOf (plain ign) depth pre stream ⟨f.hdr, off, off + m.head.length⟩))
          (mount_path ign depth root pre hpre stream off f m) (stream + off + m.head.length) z
          (by rw [h5, bytes_body] at hd; exact at_left hd) q
        rw [← h5] at hin
        rw [e, List.flatMap_cons, process_eq, List.map_append, List.map_singleton, row_eq ign depth root pre hpre, List.singleton_append, List.mem_cons,
          List.filter_cons, hm]
        simp only [if_true]
        have hagain : ∀ r : IRow, toF ⟨r.path, r.name, r.oh, r.offset, r.size, r.mode, r.link, true, r.generated, r.depth⟩ = toF r := fun _ => rfl
        rw [List.flatMap_cons, List.map_append, List.mem_append, List.map_append, List.mem_append, List.map_cons, List.map_cons, List.map_nil, hagain,
          row_eq ign depth root pre hpre, folder_eq ign depth root pre hpre, List.mem_cons, List.mem_singleton, hro, hrs, hd.1, hin]
        show _ ↔ q ∈ rowFor root (stream + off) f m :: dirFor root (stream + off) f m ::
          (rowsIn k (placeIn root f.name) (stream + off + m.head.length) inner ++ rowsIn (k + 1) root (stream + off + m.encode.length) rest)
        rw [List.mem_cons, List.mem_cons, List.mem_append, Nat.add_assoc stream off m.encode.length, ← hrest]
        constructor
        · rintro ((h | h) | ((h | h | h) | h))
          · exact .inl h
          · exact .inr (.inr (.inr (.inl h)))
          · exact .inr (.inr (.inl h))
          · exact .inr (.inl h)
          · exact .inl h
          · exact .inr (.inr (.inr (.inr h)))
        · rintro (h | h | h | h | h)
          · exact .inl (.inl h)
          · exact .inr (.inl (.inr (.inl h)))
          · exact .inr (.inl (.inl h))
          · exact .inl (.inr h)
          · exact .inr (.inr h)
    exact key a 0 ha hat

/-! ## what is shown and the rows side by side -/

/-- What is shown, with its row. -/
def pairs : Nat → List Str → Nat → Arch → List (Shown × FRow)
  | _, _, _, .nil => []
  | k, root, off, .file f m rest => (⟨root, placeIn root f.name, f, false⟩, rowFor root off f m) :: pairs k root (off + m.encode.length) rest
  | 0, root, off, .tar f m _ _ rest => (⟨root, placeIn root f.name, f, false⟩, rowFor root off f m) :: pairs 0 root (off + m.encode.length) rest
  | k + 1, root, off, .tar f m inner _ rest =>
    (⟨root, placeIn root f.name, f, false⟩, rowFor root off f m) :: (⟨root, placeIn root f.name, f, true⟩, dirFor root off f m) ::
      (pairs k (placeIn root f.name) (off + m.head.length) inner ++ pairs (k + 1) root (off + m.encode.length) rest)

theorem pairs_shown : ∀ (a : Arch) (k : Nat) (root : List Str) (off : Nat), (pairs k root off a).map (fun p => p.1) = shown k root a := by
  intro a
  induction a with
  | nil => intro k root off; simp [pairs, shown]
  | file f m rest ih => intro k root off; simp [pairs, shown, ih]
  | tar f m inner z rest ih1 ih2 => intro k root off; cases k <;> simp [pairs, shown, ih1, ih2]

theorem pairs_rows : ∀ (a : Arch) (k : Nat) (root : List Str) (off : Nat), (pairs k root off a).map (fun p => p.2) = rowsIn k root off a := by
  intro a
  induction a with
  | nil => intro k root off; simp [pairs, rowsIn]
  | file f m rest ih => intro k root off; simp [pairs, rowsIn, ih]
  | tar f m inner z rest ih1 ih2 => intro k root off; cases k <;> simp [pairs, rowsIn, ih1, ih2]

theorem walk_ok (name : Str) (root : List Str) (hr : ∀ x ∈ root, IsName x) : ∀ x ∈ placeIn root name, IsName x := by
  have h : walk [] (split '/' (canonical root)) = root := split_canonical root hr
  intro x hx
  have := (C14_canonical (canonical root ++ '/' :: name)).2 x
  rw [Adaptor.split_append, Tar.walk_append, h] at this
  exact this hx

theorem head_long {f : File} {m : Member} (h : One f m) : 512 ≤ m.head.length := Tar.head_pos (one_ok (fun _ => []) h)

theorem encode_long {f : File} {m : Member} (h : One f m) : m.head.length + f.data.length ≤ m.encode.length := by
  unfold Tar.Member.encode
  rw [List.length_append, List.length_append, TarFiles.data_eq h.written]
  omega

/-- What is known about something that is shown and its row. -/
structure Fits (whole : Bytes) (s : Shown) (r : FRow) : Prop where
  place : (r.path, r.name) = splitPath (canonical s.place)
  names : ∀ x ∈ s.place, IsName x
  size : r.size = s.file.data.length
  mode : r.mode = s.mode
  link : r.link = s.file.link
  others : r.mtime = 0 ∧ r.uid = 0 ∧ r.gid = 0
  data : s.contents = false → Tar.readAt whole r.offset r.size = s.file.data
  inside : r.offset + r.size ≤ whole.length
  file : s.file.Ok
  contents : s.contents = true → s.file.link = [] ∧ s.file.kind = .file

theorem mode_file (f : File) : Tar.fullMode f.kind.char f.mode = f.mode ||| TarFiles.bits f.kind := by
  unfold Tar.fullMode
  cases f.kind <;> simp [Kind.char, TarFiles.bits, Tar.isDir, Tar.isReg]

theorem mode_folder (m : Nat) : Tar.folderMode (Tar.fullMode Kind.file.char m) = (m % 512) ||| (m % 512 &&& 0o444) / 4 ||| 0o40000 := by
  have h1 : Tar.fullMode Kind.file.char m = m ||| 0o100000 := by
    unfold Tar.fullMode
    simp [Kind.char, Tar.isDir, Tar.isReg]
  have h2 : ∀ x, x &&& 0o777 = x → (m ||| 0o100000) &&& x = m % 512 &&& x := by
    intro x hx
    have : m % 512 = m &&& 0o777 := (Nat.and_two_pow_sub_one_eq_mod m 9).symm
    rw [this]
    apply Nat.eq_of_testBit_eq
    intro i
    rw [Nat.testBit_and, Nat.testBit_or, Nat.testBit_and, Nat.testBit_and]
    have hxi : x.testBit i = (x.testBit i && (0o777 : Nat).testBit i) := by
      conv => lhs; rw [← hx, Nat.testBit_and]
    by_cases hi : i < 9
    · have : (0o777 : Nat).testBit i = true ∧ (0o100000 : Nat).testBit i = false := by
        have : ∀ j < 9, (0o777 : Nat).testBit j = true ∧ (0o100000 : Nat).testBit j = false := by decide
        exact this i hi
      rw [this.1, this.2]; simp
    · have : (0o777 : Nat).testBit i = false := Nat.testBit_lt_two_pow (Nat.lt_of_lt_of_le (by decide) (Nat.pow_le_pow_right (by decide) (Nat.le_of_not_lt hi)))
      rw [hxi, this]; simp
  have h3 : ∀ j < 512, Tar.folderMode j = j ||| (j &&& 0o444) / 4 ||| 0o40000 := by decide +kernel
  rw [h1, ← h3 (m % 512) (Nat.mod_lt _ (by decide))]
  unfold Tar.folderMode
  rw [h2 0o777 (by decide), h2 0o400 (by decide), h2 0o40 (by decide), h2 4 (by decide)]

theorem fits_row {whole : Bytes} {root : List Str} (hroot : ∀ x ∈ root, IsName x) {off : Nat} {f : File} {m : Member} (h : One f m)
    (hat : At whole off m.encode) : Fits whole ⟨root, placeIn root f.name, f, false⟩ (rowFor root off f m) where
  place := rfl
  names := walk_ok _ _ hroot
  size := rfl
  mode := mode_file f
  link := rfl
  others := ⟨rfl, rfl, rfl⟩
  data _ := (at_data h hat).1
  inside := (at_data h hat).2
  file := h.ok
  contents h := by cases h

theorem fits_dir {whole : Bytes} {root : List Str} (hroot : ∀ x ∈ root, IsName x) {off : Nat} {f : File} {m : Member} (h : One f m)
    (hk : f.kind = .file) (hl : f.link = []) (hlt : off + m.encode.length < whole.length) :
    Fits whole ⟨root, placeIn root f.name, f, true⟩ (dirFor root off f m) where
  place := rfl
  names := walk_ok _ _ hroot
  size := rfl
  mode := by
    show Tar.folderMode (Tar.fullMode f.kind.char f.mode) = _
    rw [hk, mode_folder]
    rfl
  link := rfl
  others := ⟨rfl, rfl, rfl⟩
  data h := by cases h
  inside := by
    have := encode_long h
    show off + m.head.length + 1 + f.data.length ≤ _
    omega
  file := h.ok
  contents _ := ⟨hl, hk⟩

theorem pairs_fit {whole : Bytes} : ∀ (a : Arch), a.Ok → ∀ (k : Nat) (root : List Str), (∀ x ∈ root, IsName x) → ∀ (off : Nat), At whole off a.body →
    off + a.body.length < whole.length → ∀ p ∈ pairs k root off a, Fits whole p.1 p.2 := by
  intro a
  induction a with
  | nil => intro _ k root _ off _ _ p hp; simp [pairs] at hp
  | file f m rest ih =>
    intro ha k root hroot off hat hlt p hp
    rw [body_file] at hat hlt
    rw [List.length_append] at hlt
    simp only [pairs, List.mem_cons] at hp
    rcases hp with rfl | hp
    · exact fits_row hroot ha.1 (at_left hat)
    · exact ih ha.2.2 k root hroot _ (at_right hat) (by omega) p hp
  | tar f m inner z rest ih1 ih2 =>
    intro ha k root hroot off hat hlt p hp
    obtain ⟨h1, h2, h3, h4, h5, h6, h7⟩ := ha
    rw [body_tar] at hat hlt
    rw [List.length_append] at hlt
    cases k with
    | zero =>
      simp only [pairs, List.mem_cons] at hp
      rcases hp with rfl | hp
      · exact fits_row hroot h1 (at_left hat)
      · exact ih2 h7 0 root hroot _ (at_right hat) (by omega) p hp
    | succ k =>
      simp only [pairs, List.mem_cons, List.mem_append] at hp
      rcases hp with rfl | rfl | hp | hp
      · exact fits_row hroot h1 (at_left hat)
      · exact fits_dir hroot h1 h2 h4 (by omega)
      · have hd := at_data h1 (at_left hat)
        have hle := encode_long h1
        have hlen : inner.body.length ≤ f.data.length := by rw [h5, bytes_body, List.length_append]; omega
        rw [h5, bytes_body] at hd
        exact ih1 h6 k _ (walk_ok _ _ hroot) _ (at_left hd) (by omega) p hp
      · exact ih2 h7 (k + 1) root hroot _ (at_right hat) (by omega) p hp

/-- The headers of the rows are in this range and in this order. -/
theorem rows_order : ∀ (a : Arch), a.Ok → ∀ (k : Nat) (root : List Str) (off : Nat),
    (rowsIn k root off a).Pairwise (fun r r' => r.oh < r'.oh) ∧ ∀ r ∈ rowsIn k root off a, off ≤ r.oh ∧ r.oh < off + a.body.length := by
  intro a
  induction a with
  | nil => intro _ k root off; simp [rowsIn]
  | file f m rest ih =>
    intro ha k root off
    obtain ⟨i1, i2⟩ := ih ha.2.2 k root (off + m.encode.length)
    have h1 := head_long ha.1
    have h2 := encode_long ha.1
    rw [body_file, List.length_append]
    simp only [rowsIn, List.pairwise_cons, List.mem_cons]
    refine ⟨⟨fun r hr => ?_, i1⟩, ?_⟩
    · have := i2 r hr
      show off < r.oh
      omega
    · rintro r (rfl | hr)
      · show off ≤ off ∧ off < _
        omega
      · have := i2 r hr
        omega
  | tar f m inner z rest ih1 ih2 =>
    intro ha k root off
    obtain ⟨h1, h2, h3, h4, h5, h6, h7⟩ := ha
    have hh := head_long h1
    have he := encode_long h1
    have hlen : inner.body.length ≤ f.data.length := by rw [h5, bytes_body, List.length_append]; omega
    rw [body_tar, List.length_append]
    cases k with
    | zero =>
      obtain ⟨i1, i2⟩ := ih2 h7 0 root (off + m.encode.length)
      simp only [rowsIn, List.pairwise_cons, List.mem_cons]
      refine ⟨⟨fun r hr => ?_, i1⟩, ?_⟩
      · have := i2 r hr
        show off < r.oh
        omega
      · rintro r (rfl | hr)
        · show off ≤ off ∧ off < _
          omega
        · have := i2 r hr
          omega
    | succ k =>
      obtain ⟨i1, i2⟩ := ih2 h7 (k + 1) root (off + m.encode.length)
      obtain ⟨j1, j2⟩ := ih1 h6 k (placeIn root f.name) (off + m.head.length)
      simp only [rowsIn, List.pairwise_cons, List.mem_cons, List.mem_append, List.pairwise_append]
      refine ⟨⟨?_, ?_, j1, i1, ?_⟩, ?_⟩
      · rintro r (rfl | hr | hr)
        · show off < off + 1; omega
        · have := j2 r hr
          show off < r.oh
          omega
        · have := i2 r hr
          show off < r.oh
          omega
      · rintro r (hr | hr)
        · have := j2 r hr
          show off + 1 < r.oh
          omega
        · have := i2 r hr
          show off + 1 < r.oh
          omega
      · intro r hr r' hr'
        have := j2 r hr
        have := i2 r' hr'
        omega
      · rintro r (rfl | rfl | hr | hr)
        · show off ≤ off ∧ off < _
          omega
        · show off ≤ off + 1 ∧ off + 1 < _
          omega
        · have := j2 r hr
          omega
        · have := i2 r hr
          omega

/-! ## the index of an archive -/

theorem idxOf_at {A : Type} [DecidableEq A] : ∀ (l : List A), l.Nodup → ∀ (k : Nat) (a : A), l[k]? = some a → l.idxOf a = k := by
  intro l
  induction l with
  | nil => intro _ k a h; simp at h
  | cons x l ih =>
    intro hd k a h
    rw [List.nodup_cons] at hd
    cases k with
    | zero =>
      simp only [List.getElem?_cons_zero, Option.some.injEq] at h
      rw [h, List.idxOf_cons_self]
    | succ k =>
      rw [List.getElem?_cons_succ] at h
      have hne : x ≠ a := fun e => hd.1 (e ▸ List.mem_of_getElem? h)
      rw [List.idxOf_cons, show (x == a) = false from beq_eq_false_iff_ne.mpr hne]
      simp only [cond_false, ih hd.2 k a h]

theorem columns_eq {l rs : List FRow} (hmem : ∀ q, q ∈ l ↔ q ∈ rs) (hs : rs.Pairwise (fun r r' => r.oh < r'.oh)) : columns l = rs := by
  have hnd : rs.Nodup := hs.imp (fun h e => by rw [e] at h; exact Nat.lt_irrefl _ h)
  have hinj : ∀ a ∈ rs, ∀ b ∈ rs, a.oh = b.oh → a = b := by
    intro a ha b hb e
    obtain ⟨i, hi, rfl⟩ := List.getElem_of_mem ha
    obtain ⟨j, hj, rfl⟩ := List.getElem_of_mem hb
    rw [List.pairwise_iff_getElem] at hs
    rcases Nat.lt_trichotomy i j with h | h | h
    · have := hs i j hi hj h; omega
    · subst h; rfl
    · have := hs j i hj hi h; omega
  have hp : (columns l).Perm rs := by
    refine (sortBy_perm _ _).trans ((List.perm_ext_iff_of_nodup (distinct_nodup l).1 hnd).mpr ?_)
    intro a
    rw [(distinct_nodup l).2, hmem]
  refine List.Perm.eq_of_pairwise (le := fun a b : FRow => a.oh ≤ b.oh) ?_ ?_ ?_ hp
  · intro a b ha hb h1 h2
    exact hinj a (hp.mem_iff.mp ha) b hb (by omega)
  · have := sortBy_pairwise (le := fun a b : FRow => decide (a.oh ≤ b.oh)) (by intro a b c; simp only [decide_eq_true_eq]; omega)
      (by intro a b; simp only [decide_eq_true_eq]; omega) (distinct l)
    exact this.imp (fun h => of_decide_eq_true h)
  · exact hs.imp (fun h => Nat.le_of_lt h)

/-- An archive with an archive inside, and at least one zero byte at the end. -/
structure Packed (k : Nat) (a : Arch) (zeros : Nat) : Prop where
  ok : a.Ok
  ended : 0 < zeros
  tree : Tree (shown k [] a)

/-- Something that is shown, as a record. -/
def recOf (whole : Bytes) (p : Shown × FRow) : Rec :=
  ⟨p.1.place, p.1.mode, p.1.file.link, 0, 0, 0, if p.1.contents then Tar.readAt whole p.2.offset p.2.size else p.1.file.data⟩

/-- All records. -/
def recs (k : Nat) (a : Arch) (zeros : Nat) : List Rec := (pairs k [] 0 a).map (recOf (a.bytes zeros))

theorem readAt_length {b : Bytes} {o n : Nat} (h : o + n ≤ b.length) : (Tar.readAt b o n).length = n := by
  unfold Tar.readAt
  rw [List.length_take, List.length_drop]
  omega

theorem at_start (a : Arch) (zeros : Nat) : At (a.bytes zeros) 0 a.body := at_iff.mpr ⟨[], List.replicate zeros 0, rfl, rfl⟩

theorem fits_all {k : Nat} {a : Arch} {zeros : Nat} (h : Packed k a zeros) : ∀ p ∈ pairs k [] 0 a, Fits (a.bytes zeros) p.1 p.2 :=
  pairs_fit a h.ok k [] (by simp) 0 (at_start a zeros) (by rw [bytes_body, List.length_append, List.length_replicate]; have := h.ended; omega)

theorem isRow {whole : Bytes} {p : Shown × FRow} (h : Fits whole p.1 p.2) : IsRow never whole (recOf whole p) p.2 where
  place := h.place
  size := by
    unfold recOf
    cases hc : p.1.contents with
    | false => exact h.size
    | true =>
      simp only [if_true]
      rw [readAt_length h.inside]
  mode := h.mode
  link := h.link
  owner := by
    rw [h.others.1, h.others.2.1, h.others.2.2]
    rfl
  data := by
    right
    unfold recOf
    cases hc : p.1.contents with
    | false => exact h.data hc
    | true => simp only [if_true]
  inside := .inr (.inr h.inside)

theorem rows_of (esc : Bytes → Str) (ign : Bool) {k : Nat} {a : Arch} (ha : a.Ok) (zeros : Nat) :
    cols esc ign k (a.bytes zeros) = rowsIn k [] 0 a ∧ ∀ q, q ∈ rowsOf esc ign k (a.bytes zeros) ↔ q ∈ rowsIn k [] 0 a := by
  have hm : ∀ q, q ∈ rowsOf esc ign k (a.bytes zeros) ↔ q ∈ rowsIn k [] 0 a :=
    mem_index esc ign (a.bytes zeros) k a ha 0 [] [] (by decide) 0 zeros (at_start a zeros)
  exact ⟨columns_eq hm (rows_order a ha k [] 0).1, hm⟩

theorem dirBit_file (s : Shown) (h : s.isFolder) : dirBit s.mode = true := by
  unfold dirBit Shown.mode
  cases hc : s.contents with
  | true =>
    simp only [if_true, Nat.testBit_or]
    rw [show (0o40000 : Nat).testBit 14 = true by decide]
    simp
  | false =>
    rcases h with h | h
    · rw [hc] at h; cases h
    · simp only [Bool.false_eq_true, if_false]
      rw [h, Nat.testBit_or]
      rw [show (TarFiles.bits Kind.folder).testBit 14 = true by decide]
      simp

theorem indexed {esc : Bytes → Str} {ign : Bool} {k : Nat} {a : Arch} {zeros : Nat} {bs : List (List Row)} (h : Packed k a zeros)
    (hb : Batches esc ign k (a.bytes zeros) bs) : Indexed never (a.bytes zeros) (recs k a zeros) (cols esc ign k (a.bytes zeros)) bs := by
  obtain ⟨hc, hm⟩ := rows_of esc ign (k := k) h.ok zeros
  have hfit := fits_all h
  have hs := (rows_order a h.ok k [] 0).1
  refine ⟨?_, ?_, ?_, ?_, ?_, ?_⟩
  · intro p hp
    obtain ⟨q, hq, rfl⟩ := List.mem_map.mp hp
    exact (hfit q hq).names
  · rw [hc, ← pairs_rows]
    simp [recs]
  · intro i p r hp hr
    rw [hc, ← pairs_rows, List.getElem?_map, Option.map_eq_some_iff] at hr
    unfold recs at hp
    rw [List.getElem?_map, Option.map_eq_some_iff] at hp
    obtain ⟨q, hq, rfl⟩ := hr
    obtain ⟨q', hq', rfl⟩ := hp
    rw [hq] at hq'
    cases hq'
    exact isRow (hfit q (List.mem_of_getElem? hq))
  · intro i j r r' hij hi hj _ _
    rw [hc] at hi hj
    rw [List.pairwise_iff_getElem] at hs
    obtain ⟨hi1, hi2⟩ := List.getElem?_eq_some_iff.mp hi
    obtain ⟨hj1, hj2⟩ := List.getElem?_eq_some_iff.mp hj
    have := hs i j hi1 hj1 hij
    rw [hi2, hj2] at this
    exact this
  · intro p hp hbelow
    obtain ⟨q, hq, rfl⟩ := List.mem_map.mp hp
    have hin : ∀ x ∈ pairs k [] 0 a, x.1 ∈ shown k [] a := fun x hx => by
      rw [← pairs_shown a k [] 0]; exact List.mem_map.mpr ⟨x, hx, rfl⟩
    have : Inside (shown k [] a) q.1.place := by
      obtain ⟨p', hp', n, rest, he⟩ := hbelow
      obtain ⟨q', hq', rfl⟩ := List.mem_map.mp hp'
      exact ⟨q'.1, hin q' hq', n, rest, he⟩
    obtain ⟨s', hs', he, hfold⟩ := h.tree q.1 (hin q hq) this
    rw [← pairs_shown a k [] 0] at hs'
    obtain ⟨q', hq', rfl⟩ := List.mem_map.mp hs'
    exact ⟨recOf _ q', List.mem_map.mpr ⟨q', hq', rfl⟩, he, dirBit_file _ hfold⟩
  · intro q
    have hcl : columns (rowsOf esc ign k (a.bytes zeros)) = rowsIn k [] 0 a := hc
    have hnd : (rowsIn k [] 0 a).Nodup := hs.imp (fun h e => by rw [e] at h; exact Nat.lt_irrefl _ h)
    rw [hb, hc]
    unfold numbered toRows
    rw [hcl, List.mem_map, List.mem_mapIdx]
    constructor
    · rintro ⟨r, hr, rfl⟩
      obtain ⟨i, hi, e⟩ := List.getElem_of_mem ((hm r).mp hr)
      refine ⟨i, hi, ?_⟩
      rw [idxOf_at _ hnd i r (by rw [List.getElem?_eq_getElem hi, e]), e]
    · rintro ⟨i, hi, rfl⟩
      refine ⟨(rowsIn k [] 0 a)[i], (hm _).mpr (List.getElem_mem hi), ?_⟩
      rw [idxOf_at _ hnd i _ (List.getElem?_eq_getElem hi)]

theorem lastAt_recs {k : Nat} {a : Arch} {zeros : Nat} (ns : List Str) :
    lastAt (recs k a zeros) ns = ((pairs k [] 0 a).filter (fun p => decide (p.1.place = ns))).getLast?.map (recOf (a.bytes zeros)) := by
  unfold lastAt recs
  rw [List.filter_map, List.getLast?_map]
  rfl

theorem lastOf_pairs {k : Nat} {a : Arch} (ns : List Str) :
    lastOf (shown k [] a) ns = ((pairs k [] 0 a).filter (fun p => decide (p.1.place = ns))).getLast?.map (fun p => p.1) := by
  unfold lastOf
  rw [← pairs_shown a k [] 0, List.filter_map, List.getLast?_map]
  rfl

theorem last_some {k : Nat} {a : Arch} {zeros : Nat} {ns : List Str} {s : Shown} (h : lastOf (shown k [] a) ns = some s) :
    ∃ p ∈ pairs k [] 0 a, p.1 = s ∧ lastAt (recs k a zeros) ns = some (recOf (a.bytes zeros) p) := by
  rw [lastOf_pairs, Option.map_eq_some_iff] at h
  obtain ⟨p, hp, rfl⟩ := h
  refine ⟨p, (List.mem_filter.mp (List.mem_of_getLast? hp)).1, rfl, ?_⟩
  rw [lastAt_recs, hp]
  rfl

theorem last_none {k : Nat} {a : Arch} {zeros : Nat} {ns : List Str} (h : lastOf (shown k [] a) ns = none) : lastAt (recs k a zeros) ns = none := by
  rw [lastOf_pairs, Option.map_eq_none_iff] at h
  rw [lastAt_recs, h]
  rfl

theorem below_iff' (k : Nat) (a : Arch) (zeros : Nat) (ns : List Str) : Below (recs k a zeros) ns ↔ Inside (shown k [] a) ns := by
  unfold Below Inside recs
  rw [← pairs_shown a k [] 0]
  constructor
  · rintro ⟨p, hp, n, rest, he⟩
    obtain ⟨q, hq, rfl⟩ := List.mem_map.mp hp
    exact ⟨q.1, List.mem_map.mpr ⟨q, hq, rfl⟩, n, rest, he⟩
  · rintro ⟨s, hs, n, rest, he⟩
    obtain ⟨q, hq, rfl⟩ := List.mem_map.mp hs
    exact ⟨_, List.mem_map.mpr ⟨q, hq, rfl⟩, n, rest, he⟩

theorem type_bits (m b : Nat) (hm : m < 4096) (hb : b % 4096 = 0) (hb' : b < 65536) : (m ||| b) &&& 0xF000 = b := by
  apply Nat.eq_of_testBit_eq
  intro i
  rw [Nat.testBit_and, Nat.testBit_or]
  by_cases h1 : i < 12
  · have : ∀ j < 12, (0xF000 : Nat).testBit j = false := by decide
    rw [this i h1, Bool.and_false]
    have h2 : b.testBit i = (b % 2 ^ 12).testBit i := by rw [Nat.testBit_mod_two_pow]; simp [h1]
    rw [h2, show b % 2 ^ 12 = 0 from hb]
    simp
  · have hm' : m.testBit i = false := Nat.testBit_lt_two_pow (Nat.lt_of_lt_of_le (m := 2 ^ 12) hm (Nat.pow_le_pow_right (by decide) (Nat.le_of_not_lt h1)))
    rw [hm', Bool.false_or]
    by_cases h3 : i < 16
    · have : ∀ j < 16, ¬ j < 12 → (0xF000 : Nat).testBit j = true := by decide
      rw [this i h3 h1, Bool.and_true]
    · have : b.testBit i = false := Nat.testBit_lt_two_pow (Nat.lt_of_lt_of_le (m := 2 ^ 16) hb' (Nat.pow_le_pow_right (by decide) (Nat.le_of_not_lt h3)))
      rw [this, Bool.false_and]

theorem hard_iff {whole : Bytes} {p : Shown × FRow} (h : Fits whole p.1 p.2) : (recOf whole p).isHard = true ↔ p.1.isHard ∧ p.1.file.link ≠ [] := by
  have e : (recOf whole p).isHard = (!(p.1.mode &&& 0xF000 == 0x8000) && !(p.1.mode &&& 0xF000 == 0xA000) && !p.1.file.link.isEmpty) := rfl
  rw [e]
  unfold Shown.isHard
  cases hc : p.1.contents with
  | true => rw [(h.contents hc).1]; simp
  | false =>
    have hmode : p.1.mode &&& 0xF000 = TarFiles.bits p.1.file.kind := by
      unfold Shown.mode
      rw [hc]
      simp only [Bool.false_eq_true, if_false]
      exact type_bits _ _ h.file.mode (by cases p.1.file.kind <;> decide) (by cases p.1.file.kind <;> decide)
    rw [hmode]
    cases hk : p.1.file.kind with
    | folder => rw [h.file.folder hk]; simp
    | symlink => simp [TarFiles.bits]
    | file => simp [TarFiles.bits]
    | hardlink => cases hl : p.1.file.link <;> simp [TarFiles.bits]

theorem reaches {k : Nat} {a : Arch} {zeros : Nat} (h : Packed k a zeros) (hroot : ∀ s ∈ shown k [] a, s.isHard → s.root = []) {n : Nat} {ns : List Str}
    {s : Shown} (hl : Leads (shown k [] a) n ns s) :
    ∃ p ∈ pairs k [] 0 a, p.1 = s ∧ Reaches (recs k a zeros) n ns (recOf (a.bytes zeros) p) := by
  have hfit := fits_all h
  induction hl with
  | here ns s hne hl ht =>
    obtain ⟨p, hp, rfl, h2⟩ := last_some (zeros := zeros) hl
    refine ⟨p, hp, rfl, .here ns _ hne h2 ?_⟩
    cases hb : (recOf (a.bytes zeros) p).isHard with
    | false => rfl
    | true => exact absurd ((hard_iff (hfit p hp)).mp hb).1 ht
  | link k' ns t s hne hl ht hlink hother hr ih =>
    obtain ⟨p, hp, h1, h2⟩ := ih
    obtain ⟨q, hq, rfl, h5⟩ := last_some (zeros := zeros) hl
    have hr0 : q.1.root = [] := hroot q.1 (by rw [← pairs_shown a k [] 0]; exact List.mem_map.mpr ⟨q, hq, rfl⟩) ht
    rw [hr0] at hother h2
    exact ⟨p, hp, h1, .link k' ns _ _ hne h5 ((hard_iff (hfit q hq)).mpr ⟨ht, hlink⟩) hother h2⟩

/-! ## C198 -/

/-- What a user expects: whatever leads to a file of any of the archives, opening and reading gives its data. -/
def C198_statement : Prop :=
  ∀ (esc : Bytes → Str) (ign : Bool) (k : Nat) (a : Arch) (zeros : Nat) (bs : List (List Row)), Packed k a zeros →
    Batches esc ign k (a.bytes zeros) bs → ∀ (n : Nat) (ns : List Str) (s : Shown), Leads (shown k [] a) n ns s → n ≤ 128 → (∀ x ∈ ns, IsName x) →
    s.contents = false →
    ∃ m fh, mopen never (cols esc ign k (a.bytes zeros)) (mounted esc ign k (a.bytes zeros) bs) (start (a.bytes zeros)) (canonical ns) = (m, .ok fh) ∧
      ∀ size offset : Nat, (mread m fh size offset).2 = .ok ((s.file.data.drop offset).take size)

/-- **C198** (without hard links in inner archives): every file of the archive and of all archives in it that are read can be opened at its
place, and every read gives exactly the requested range of its data, whatever else is opened and read before and in between. If there is
more than one file for a path, it is the last one in the bytes of the archive. -/
theorem C198_read_partial {esc : Bytes → Str} {ign : Bool} {k : Nat} {a : Arch} {zeros : Nat} {bs : List (List Row)} (h : Packed k a zeros)
    (hb : Batches esc ign k (a.bytes zeros) bs) (hroot : ∀ s ∈ shown k [] a, s.isHard → s.root = []) {n : Nat} {ns : List Str} {s : Shown}
    (hl : Leads (shown k [] a) n ns s) (hk : n ≤ 128) (hn : ∀ x ∈ ns, IsName x) (hc : s.contents = false) (before : List Call) :
    ∃ m fh, mopen never (cols esc ign k (a.bytes zeros)) (mounted esc ign k (a.bytes zeros) bs)
        (calls never (cols esc ign k (a.bytes zeros)) (mounted esc ign k (a.bytes zeros) bs) (start (a.bytes zeros)) before) (canonical ns) = (m, .ok fh) ∧
      ∀ (between : List Call) (size offset : Nat),
        (mread (calls never (cols esc ign k (a.bytes zeros)) (mounted esc ign k (a.bytes zeros) bs) m between) fh size offset).2 =
          .ok ((s.file.data.drop offset).take size) := by
  obtain ⟨p, -, rfl, h2⟩ := reaches h hroot hl
  have e : (recOf (a.bytes zeros) p).data = p.1.file.data := by
    unfold recOf
    rw [hc]
    rfl
  have := reads (indexed h hb) h2 hk hn rfl before
  rw [e] at this
  exact this

/-- **C198** (without hard links in inner archives): the type, permissions, size and target that are shown are those of the file. An archive that
is read is shown as a folder, which everyone can list who may read the archive. -/
theorem C198_attributes_partial {esc : Bytes → Str} {ign : Bool} {k : Nat} {a : Arch} {zeros : Nat} {bs : List (List Row)} (h : Packed k a zeros)
    (hb : Batches esc ign k (a.bytes zeros) bs) (hroot : ∀ s ∈ shown k [] a, s.isHard → s.root = []) {n : Nat} {ns : List Str} {s : Shown}
    (hl : Leads (shown k [] a) n ns s) (hk : n ≤ 128) (hn : ∀ x ∈ ns, IsName x) :
    mgetattr (cols esc ign k (a.bytes zeros)) (mounted esc ign k (a.bytes zeros) bs) (canonical ns) = .ok ⟨s.mode, s.file.data.length, 0, 0, 0⟩ ∧
      mreadlink (mounted esc ign k (a.bytes zeros) bs) (canonical ns) = .ok s.file.link := by
  obtain ⟨p, hp, rfl, h2⟩ := reaches h hroot hl
  have := attributes (indexed h hb) h2 hk hn
  have hlen : (recOf (a.bytes zeros) p).data.length = p.1.file.data.length := by
    have hr := isRow (fits_all h p hp)
    rw [← hr.size, (fits_all h p hp).size]
  refine ⟨?_, this.2⟩
  rw [← hlen]
  exact this.1

/-- **C198** Every folder, also the root and the archives inside, lists exactly the next parts of the paths of what is shown below it, each once. -/
theorem C198_list {esc : Bytes → Str} {ign : Bool} {k : Nat} {a : Arch} {zeros : Nat} {bs : List (List Row)} (h : Packed k a zeros)
    (hb : Batches esc ign k (a.bytes zeros) bs) {ns : List Str} (hn : ∀ x ∈ ns, IsName x) (hv : ∀ x ∈ ns, endsWith dotVersions x = false) :
    (mreaddir (mounted esc ign k (a.bytes zeros) bs) (canonical ns)).Nodup ∧
      ∀ x, x ∈ mreaddir (mounted esc ign k (a.bytes zeros) bs) (canonical ns) ↔
        x = ['.'] ∨ x = ['.', '.'] ∨ ∃ s ∈ shown k [] a, ∃ rest, s.place = ns ++ x :: rest := by
  refine ⟨once (indexed h hb) hn hv, fun x => (lists (indexed h hb) hn hv x).trans ?_⟩
  have key : (∃ p ∈ recs k a zeros, ∃ rest, p.place = ns ++ x :: rest) ↔ ∃ s ∈ shown k [] a, ∃ rest, s.place = ns ++ x :: rest := by
    rw [← pairs_shown a k [] 0]
    constructor
    · rintro ⟨p, hp, rest, he⟩
      obtain ⟨q, hq, rfl⟩ := List.mem_map.mp hp
      exact ⟨q.1, List.mem_map.mpr ⟨q, hq, rfl⟩, rest, he⟩
    · rintro ⟨s, hs, rest, he⟩
      obtain ⟨q, hq, rfl⟩ := List.mem_map.mp hs
      exact ⟨_, List.mem_map.mpr ⟨q, hq, rfl⟩, rest, he⟩
  rw [key]

/-- **C198** Folders that only occur in paths exist, and nothing else exists. -/
theorem C198_others {esc : Bytes → Str} {ign : Bool} {k : Nat} {a : Arch} {zeros : Nat} {bs : List (List Row)} (h : Packed k a zeros)
    (hb : Batches esc ign k (a.bytes zeros) bs) {ns : List Str} (hn : ∀ x ∈ ns, IsName x) (hv : ∀ x ∈ ns, endsWith dotVersions x = false) (hne : ns ≠ [])
    (hl : lastOf (shown k [] a) ns = none) :
    (Inside (shown k [] a) ns →
      mgetattr (cols esc ign k (a.bytes zeros)) (mounted esc ign k (a.bytes zeros) bs) (canonical ns) = .ok ⟨0o40555, 0, 0, 0, 0⟩) ∧
    (¬ Inside (shown k [] a) ns → ∀ m,
      mgetattr (cols esc ign k (a.bytes zeros)) (mounted esc ign k (a.bytes zeros) bs) (canonical ns) = .error (.os 2) ∧
      mopen never (cols esc ign k (a.bytes zeros)) (mounted esc ign k (a.bytes zeros) bs) m (canonical ns) = (m, .error (.os 2))) := by
  rw [← below_iff' k a zeros]
  exact ⟨fun h1 => folder (indexed h hb) hn hne (last_none hl) h1, fun h1 m => absent (indexed h hb) hn hne hv (last_none hl) h1 m⟩

/-! ## a concrete archive -/

open Verif.Fuse.TarFiles (someone someone_ok)

/-- The bytes of a file in the format of GNU tar. -/
def gnu (f : File) : Member := Tar.Header.gnu someone f

/-- Files in the inner archive. -/
def inF : File := ⟨.file, "f".toList, 0o644, [2, 3], []⟩
def inUp : File := ⟨.file, "../x".toList, 0o600, [7], []⟩
def inHard : File := ⟨.hardlink, "h".toList, 0o644, [], "f".toList⟩
def outF : File := ⟨.file, "f".toList, 0o644, [1], []⟩

/-- The inner archive. -/
def inner : Arch := .file inF (gnu inF) (.file inUp (gnu inUp) .nil)

/-- The inner archive as a file. -/
def inTar : File := ⟨.file, "d/N.TAR".toList, 0o640, inner.bytes 2, []⟩

/-- An archive with a file and an archive. -/
def demo : Arch := .file outF (gnu outF) (.tar inTar (gnu inTar) inner 2 .nil)

theorem one (f : File) (h : f.Ok) (h1 : Storable f.written) (h2 : Storable f.link) : One f (gnu f) := ⟨.gnu someone someone_ok f, h, h1, h2⟩

theorem inF_one : One inF (gnu inF) :=
  one _ ⟨by decide, by decide, by decide, fun h => absurd rfl h, by decide, (fun h => by cases h)⟩ (by unfold Storable; decide) (by unfold Storable; decide)
theorem inUp_one : One inUp (gnu inUp) :=
  one _ ⟨by decide, by decide, by decide, fun h => absurd rfl h, by decide, (fun h => by cases h)⟩ (by unfold Storable; decide) (by unfold Storable; decide)
theorem outF_one : One outF (gnu outF) :=
  one _ ⟨by decide, by decide, by decide, fun h => absurd rfl h, by decide, (fun h => by cases h)⟩ (by unfold Storable; decide) (by unfold Storable; decide)
theorem inHard_one : One inHard (gnu inHard) :=
  one _ ⟨by decide, by decide, by decide, (fun _ => rfl), by decide, (fun h => by cases h)⟩ (by unfold Storable; decide) (by unfold Storable; decide)
theorem inTar_one : One inTar (gnu inTar) :=
  one _ ⟨by decide, by decide, by decide, fun h => absurd rfl h, by decide +kernel, (fun h => by cases h)⟩ (by unfold Storable; decide) (by unfold Storable; decide)

theorem inner_ok : inner.Ok := ⟨inF_one, (fun _ => by decide), inUp_one, (fun _ => by decide), trivial⟩

theorem demo_ok : demo.Ok := ⟨outF_one, (fun _ => by decide), inTar_one, rfl, by decide, rfl, rfl, inner_ok, trivial⟩

/-- What should be shown. -/
def demoShown : List Shown :=
  [⟨[], [['f']], outF, false⟩, ⟨[], ["d".toList, "N.TAR".toList], inTar, false⟩, ⟨[], ["d".toList, "N.TAR".toList], inTar, true⟩,
    ⟨["d".toList, "N.TAR".toList], ["d".toList, "N.TAR".toList, ['f']], inF, false⟩, ⟨["d".toList, "N.TAR".toList], ["d".toList, ['x']], inUp, false⟩]

theorem demo_shown : shown 1 [] demo = demoShown := by
  have h1 : placeIn [] outF.name = [['f']] := by decide
  have h2 : placeIn [] inTar.name = ["d".toList, "N.TAR".toList] := by decide
  have h3 : placeIn ["d".toList, "N.TAR".toList] inF.name = ["d".toList, "N.TAR".toList, ['f']] := by decide
  have h4 : placeIn ["d".toList, "N.TAR".toList] inUp.name = ["d".toList, ['x']] := by decide
  simp only [demo, inner, shown, h1, h2, h3, h4]
  rfl

theorem demo_packed : Packed 1 demo 1024 where
  ok := demo_ok
  ended := by decide
  tree := by
    rw [demo_shown]
    intro s hs hi
    obtain ⟨t, ht, n, rest, he⟩ := hi
    have hN : ∃ s' ∈ demoShown, s'.place = ["d".toList, "N.TAR".toList] ∧ s'.isFolder :=
      ⟨⟨[], ["d".toList, "N.TAR".toList], inTar, true⟩, by simp [demoShown], rfl, .inl rfl⟩
    simp only [demoShown, List.mem_cons, List.not_mem_nil, or_false] at hs ht
    rcases hs with rfl | rfl | rfl | rfl | rfl
    · exfalso
      rcases ht with rfl | rfl | rfl | rfl | rfl <;> simp at he
    · exact hN
    · exact hN
    · exfalso
      rcases ht with rfl | rfl | rfl | rfl | rfl <;> simp at he
    · exfalso
      rcases ht with rfl | rfl | rfl | rfl | rfl <;> simp at he

/-- The rows are inserted in one batch. -/
def oneBatch (esc : Bytes → Str) (k : Nat) (archive : Bytes) : List (List Row) := [numbered (rowsOf esc false k archive)]

theorem oneBatch_ok (esc : Bytes → Str) (k : Nat) (archive : Bytes) : Batches esc false k archive (oneBatch esc k archive) := by
  unfold Batches oneBatch
  simp

theorem demo_root : ∀ s ∈ shown 1 [] demo, s.isHard → s.root = [] := by
  rw [demo_shown]
  intro s hs hh
  simp only [demoShown, List.mem_cons, List.not_mem_nil, or_false] at hs
  rcases hs with rfl | rfl | rfl | rfl | rfl <;> exact absurd hh.2 (by decide)

theorem demo_leads : Leads (shown 1 [] demo) 0 ["d".toList, "N.TAR".toList, ['f']] ⟨["d".toList, "N.TAR".toList], ["d".toList, "N.TAR".toList, ['f']], inF, false⟩ := by
  rw [demo_shown]
  refine .here _ _ (by decide) ?_ (fun h => absurd h.2 (by decide))
  simp [lastOf, demoShown]

theorem demo_folder : Leads (shown 1 [] demo) 0 ["d".toList, "N.TAR".toList] ⟨[], ["d".toList, "N.TAR".toList], inTar, true⟩ := by
  rw [demo_shown]
  refine .here _ _ (by decide) ?_ (fun h => absurd h.1 (by decide))
  simp [lastOf, demoShown]

theorem demo_up : Leads (shown 1 [] demo) 0 ["d".toList, ['x']] ⟨["d".toList, "N.TAR".toList], ["d".toList, ['x']], inUp, false⟩ := by
  rw [demo_shown]
  refine .here _ _ (by decide) ?_ (fun h => absurd h.2 (by decide))
  simp [lastOf, demoShown]

/-- C198: the file of the inner archive, not the one of the outer archive with the same name. -/
example (esc : Bytes → Str) : ∃ m fh, mopen never (cols esc false 1 (demo.bytes 1024)) (mounted esc false 1 (demo.bytes 1024) (oneBatch esc 1 (demo.bytes 1024)))
      (calls never (cols esc false 1 (demo.bytes 1024)) (mounted esc false 1 (demo.bytes 1024) (oneBatch esc 1 (demo.bytes 1024))) (start (demo.bytes 1024)) [.open "/f".toList])
      "/d/N.TAR/f".toList = (m, .ok fh) ∧
    (mread (calls never (cols esc false 1 (demo.bytes 1024)) (mounted esc false 1 (demo.bytes 1024) (oneBatch esc 1 (demo.bytes 1024))) m [.read 1 1 0]) fh 5 1).2 = .ok [3] := by
  obtain ⟨m, fh, h1, h2⟩ := C198_read_partial demo_packed (oneBatch_ok esc 1 _) demo_root demo_leads (by decide) (by unfold IsName; decide) rfl [.open "/f".toList]
  exact ⟨m, fh, h1, h2 [.read 1 1 0] 5 1⟩

/-- C198: the archive is shown as a folder that is readable by the group, with the size of the archive. -/
example (esc : Bytes → Str) : mgetattr (cols esc false 1 (demo.bytes 1024)) (mounted esc false 1 (demo.bytes 1024) (oneBatch esc 1 (demo.bytes 1024))) "/d/N.TAR".toList =
    .ok ⟨0o40750, (inner.bytes 2).length, 0, 0, 0⟩ :=
  (C198_attributes_partial demo_packed (oneBatch_ok esc 1 _) demo_root demo_folder (by decide) (by unfold IsName; decide)).1

/-- C198: the folder of the archive does not list the member `../x`, but its parent does. -/
example (esc : Bytes → Str) : ['x'] ∈ mreaddir (mounted esc false 1 (demo.bytes 1024) (oneBatch esc 1 (demo.bytes 1024))) "/d".toList ∧
    ['x'] ∉ mreaddir (mounted esc false 1 (demo.bytes 1024) (oneBatch esc 1 (demo.bytes 1024))) "/d/N.TAR".toList := by
  constructor
  · refine ((C198_list demo_packed (oneBatch_ok esc 1 _) (ns := [['d']]) (by unfold IsName; decide) (by decide)).2 ['x']).mpr (.inr (.inr ?_))
    rw [demo_shown]
    exact ⟨_, List.mem_cons_of_mem _ (List.mem_cons_of_mem _ (List.mem_cons_of_mem _ (List.mem_cons_of_mem _ List.mem_cons_self))), [], rfl⟩
  · intro hc
    have := ((C198_list demo_packed (oneBatch_ok esc 1 _) (ns := ["d".toList, "N.TAR".toList]) (by unfold IsName; decide) (by decide)).2 ['x']).mp hc
    rw [demo_shown] at this
    rcases this with h | h | ⟨s, hs, rest, he⟩
    · exact absurd h (by decide)
    · exact absurd h (by decide)
    · simp only [demoShown, List.mem_cons, List.not_mem_nil, or_false] at hs
      rcases hs with rfl | rfl | rfl | rfl | rfl <;> simp at he

/-- C198: `/d` was not packed and is shown as a folder. -/
example (esc : Bytes → Str) : mgetattr (cols esc false 1 (demo.bytes 1024)) (mounted esc false 1 (demo.bytes 1024) (oneBatch esc 1 (demo.bytes 1024))) "/d".toList =
    .ok ⟨0o40555, 0, 0, 0, 0⟩ := by
  refine (C198_others demo_packed (oneBatch_ok esc 1 _) (ns := [['d']]) (by unfold IsName; decide) (by decide) (by decide) ?_).1 ?_
  · rw [demo_shown]; simp [lastOf, demoShown]
  · rw [demo_shown]
    exact ⟨_, List.mem_cons_of_mem _ (List.mem_cons_of_mem _ (List.mem_cons_of_mem _ (List.mem_cons_of_mem _ List.mem_cons_self))), ['x'], [], rfl⟩

/-! ## hard links of inner archives -/

/-- An inner archive with a hard link. -/
def linked : Arch := .file inF (gnu inF) (.file inHard (gnu inHard) .nil)

def linkedTar : File := ⟨.file, "n.tar".toList, 0o644, linked.bytes 2, []⟩

/-- A file `f` in both archives. -/
def wrong : Arch := .file outF (gnu outF) (.tar linkedTar (gnu linkedTar) linked 2 .nil)

theorem linkedTar_one : One linkedTar (gnu linkedTar) :=
  one _ ⟨by decide, by decide, by decide, fun h => absurd rfl h, by decide +kernel, (fun h => by cases h)⟩ (by unfold Storable; decide) (by unfold Storable; decide)

def wrongShown : List Shown :=
  [⟨[], [['f']], outF, false⟩, ⟨[], ["n.tar".toList], linkedTar, false⟩, ⟨[], ["n.tar".toList], linkedTar, true⟩,
    ⟨["n.tar".toList], ["n.tar".toList, ['f']], inF, false⟩, ⟨["n.tar".toList], ["n.tar".toList, ['h']], inHard, false⟩]

theorem wrong_shown : shown 1 [] wrong = wrongShown := by
  have h1 : placeIn [] outF.name = [['f']] := by decide
  have h2 : placeIn [] linkedTar.name = ["n.tar".toList] := by decide
  have h3 : placeIn ["n.tar".toList] inF.name = ["n.tar".toList, ['f']] := by decide
  have h4 : placeIn ["n.tar".toList] inHard.name = ["n.tar".toList, ['h']] := by decide
  simp only [wrong, linked, shown, h1, h2, h3, h4]
  rfl

theorem wrong_packed : Packed 1 wrong 1024 where
  ok := ⟨outF_one, (fun _ => by decide), linkedTar_one, rfl, by decide, rfl, rfl, ⟨inF_one, (fun _ => by decide), inHard_one, (fun h => by cases h), trivial⟩, trivial⟩
  ended := by decide
  tree := by
    rw [wrong_shown]
    intro s hs hi
    obtain ⟨t, ht, n, rest, he⟩ := hi
    have hN : ∃ s' ∈ wrongShown, s'.place = ["n.tar".toList] ∧ s'.isFolder :=
      ⟨⟨[], ["n.tar".toList], linkedTar, true⟩, by simp [wrongShown], rfl, .inl rfl⟩
    simp only [wrongShown, List.mem_cons, List.not_mem_nil, or_false] at hs ht
    rcases hs with rfl | rfl | rfl | rfl | rfl
    · exfalso
      rcases ht with rfl | rfl | rfl | rfl | rfl <;> simp at he
    · exact hN
    · exact hN
    · exfalso
      rcases ht with rfl | rfl | rfl | rfl | rfl <;> simp at he
    · exfalso
      rcases ht with rfl | rfl | rfl | rfl | rfl <;> simp at he

theorem wrong_leads : Leads (shown 1 [] wrong) 1 ["n.tar".toList, ['h']] ⟨["n.tar".toList], ["n.tar".toList, ['f']], inF, false⟩ := by
  have h3 : placeIn ["n.tar".toList] inHard.link = ["n.tar".toList, ['f']] := by decide
  rw [wrong_shown]
  refine .link 0 _ ⟨["n.tar".toList], ["n.tar".toList, ['h']], inHard, false⟩ _ (by decide) ?_ ⟨rfl, rfl⟩ (by decide) ?_ ?_
  · simp [lastOf, wrongShown]
  · show placeIn ["n.tar".toList] inHard.link ≠ _
    rw [h3]; decide
  · show Leads wrongShown 0 (placeIn ["n.tar".toList] inHard.link) _
    rw [h3]
    refine .here _ _ (by decide) ?_ (fun h => absurd h.2 (by decide))
    simp [lastOf, wrongShown]

theorem lastAt_of {k : Nat} {a : Arch} {zeros : Nat} {ns : List Str} {s : Shown} (h : lastOf (shown k [] a) ns = some s) (hc : s.contents = false) :
    lastAt (recs k a zeros) ns = some ⟨s.place, s.mode, s.file.link, 0, 0, 0, s.file.data⟩ := by
  obtain ⟨p, -, rfl, h2⟩ := last_some (zeros := zeros) h
  rw [h2]
  unfold recOf
  rw [hc]
  rfl

/-- The code follows the link to the file with this name in the outer archive. -/
theorem wrong_reaches : Reaches (recs 1 wrong 1024) 1 ["n.tar".toList, ['h']] ⟨[['f']], 0o100644, [], 0, 0, 0, [1]⟩ := by
  have h3 : TarMount.place inHard.link = [['f']] := by decide
  have e1 : lastOf (shown 1 [] wrong) ["n.tar".toList, ['h']] = some ⟨["n.tar".toList], ["n.tar".toList, ['h']], inHard, false⟩ := by
    rw [wrong_shown]; simp [lastOf, wrongShown]
  have e2 : lastOf (shown 1 [] wrong) [['f']] = some ⟨[], [['f']], outF, false⟩ := by
    rw [wrong_shown]; simp [lastOf, wrongShown]
  refine .link 0 _ _ _ (by decide) (lastAt_of e1 rfl) (by decide) ?_ ?_
  · show TarMount.place inHard.link ≠ _
    rw [h3]; decide
  · show Reaches _ 0 (TarMount.place inHard.link) _
    rw [h3]
    exact .here _ _ (by decide) (lastAt_of e2 rfl) (by decide)

/-- **C198 is violated**: the target of a hard link of an inner archive is looked up in the outermost archive (versioning.py:104-112). Here `h`
of the inner archive, which is the same as its `f`, gives the bytes of another file `f`. -/
theorem C198_violated : ¬ C198_statement := by
  intro h
  have hb := oneBatch_ok (fun _ => []) 1 (wrong.bytes 1024)
  obtain ⟨m, fh, h1, h2⟩ := h (fun _ => []) false 1 wrong 1024 _ wrong_packed hb 1 _ _ wrong_leads (by decide) (by unfold IsName; decide) rfl
  obtain ⟨m', fh', h3, h4⟩ := reads (indexed wrong_packed hb) wrong_reaches (by decide) (by unfold IsName; decide) rfl []
  have h5 : (m, Except.ok (ε := PyErr) fh) = (m', .ok fh') := h1.symm.trans h3
  cases h5
  have h6 := (h2 1 0).symm.trans (h4 [] 1 0)
  cases h6

end Verif.Fuse.TarNested
