import Verif.Overlay.Host

/-!
# The write overlay (ratarmount/WriteOverlay.py)

The mount is the union of the sources below, which never change, and the overlay folder, which comes first. The sources
below are given by what they show: a table from paths to nodes. Exceptions do not undo what was done before: an
operation gives the new state beside its result.
-/

namespace Verif.Overlay

open Verif.Py

/-- What does not change during a mount: the tree of the sources below; what `mountSource.open` does for something
below that is not a file (the TAR backend opens a folder as an empty file, others raise); the attributes of a new file
or folder in the overlay folder, given its mode; and how many leading names of a path belong to the mount point that
`get_mount_source` reports (0 without recursive mounting) (WriteOverlay.py:71-100). -/
structure Cfg where
  lower : Dict Path Inode
  openOther : Inode → Except PyErr Bytes
  newAttrs : Nat → Meta
  subMount : Path → Nat

/-- A row of the table `files` (WriteOverlay.py:55-67); the primary key is the path. -/
structure Row where
  mtime : Option Int
  mode : Option Nat
  uid : Option Nat
  gid : Option Nat
  deleted : Bool
  deriving DecidableEq, Repr

/-- The state: the overlay folder and the rows of its database (WriteOverlay.py:50-100). -/
structure St where
  host : Host
  rows : Dict Path Row

variable (c : Cfg)

/-- `mountSource.lookup` of the union: the overlay folder first (FuseMount.py:116-297, union.py:105-146). -/
def ms (s : St) (p : Path) : Option Inode := (s.host.node p).or (Dict.get? c.lower p)

/-- `mountSource.exists` (MountSource.py:111-112). -/
def msExists (s : St) (p : Path) : Bool := (ms c s p).isSome

/-- `mountSource.is_dir` (MountSource.py:114-116). -/
def msIsDir (s : St) (p : Path) : Bool :=
  match ms c s p with
  | some i => i.kind == .dir
  | none => false

/-- The names in a folder of the sources below (MountSource.py:48-61). -/
def lowerList (p : Path) : Option (List Str) :=
  match Dict.get? c.lower p with
  | some i => if i.kind = .dir then some ((Dict.keys c.lower).filterMap (nameIn p)) else none
  | none => none

/-- `mountSource.list_mode`: names in the folder below and in the overlay folder; `None` if neither is a folder (union.py:152-190). -/
def msList (s : St) (p : Path) : Option (List Str) :=
  if s.host.isdir p then some ((lowerList c p).getD [] ++ s.host.children p) else lowerList c p

/-- `mountSource.open(mountSource.lookup(path)).read()` (WriteOverlay.py:163-169). Opening a folder of the overlay raises ValueError. -/
def msRead (s : St) (p : Path) : Except PyErr Bytes :=
  match s.host.node p with
  | some i => if i.kind = .file then .ok i.data else .error .valueError
  | none =>
    match Dict.get? c.lower p with
    | some i => if i.kind = .file then .ok i.data else c.openOther i
    | none => .error .typeError

/-- `_ensure_parent_exists` (WriteOverlay.py:155-161). -/
def ensureParent (s : St) (p : Path) : Except PyErr St :=
  if !s.host.lexists p.dropLast && msIsDir c s p.dropLast then
    (s.host.makedirs (c.newAttrs 0o777) p.dropLast).map (fun h => { s with host := h })
  else .ok s

/-- `_ensure_file_is_modifiable` (WriteOverlay.py:163-169): the source is opened, then the target is opened with `'wb'`, which cuts it
to length zero, and only then the source is read. -/
def ensureModifiable (s : St) (p : Path) : St × Except PyErr Unit :=
  match ensureParent c s p with
  | .error e => (s, .error e)
  | .ok s1 =>
    match msRead c s1 p with
    | .error e => (s1, .error e)
    | .ok below =>
      match s1.host.openTruncate p (c.newAttrs 0o666) with
      | .error e => (s1, .error e)
      | .ok (h, n) =>
        -- If the source is the file in the overlay itself, then it is empty by now.
        let source := if s1.host.lexists p then [] else below
        ({ s1 with host := h.setData n source }, .ok ())

/-- `INSERT OR IGNORE … (path,name,mode,deleted)` and `UPDATE … SET deleted=0` (WriteOverlay.py:175-181). -/
def unhide (rows : Dict Path Row) (p : Path) (mode : Nat) : Dict Path Row :=
  match Dict.get? rows p with
  | some r => Dict.set rows p { r with deleted := false }
  | none => Dict.set rows p ⟨none, some mode, none, none, false⟩

/-- `_open` (WriteOverlay.py:171-181). -/
def openRow (s : St) (p : Path) (mode : Nat) : Except PyErr St :=
  (ensureParent c s p).map (fun s => { s with rows := unhide s.rows p mode })

/-- `_mark_as_deleted` (WriteOverlay.py:183-192). -/
def markDeleted (s : St) (p : Path) : St :=
  if msExists c s p then { s with rows := Dict.set s.rows p ⟨none, none, none, none, true⟩ }
  else { s with rows := without s.rows p }

/-- The names of the database and the temporary files beside it (WriteOverlay.py:69, 201). -/
def databaseNames : List Str :=
  [".ratarmount.overlay.sqlite", ".ratarmount.overlay.sqlite-journal", ".ratarmount.overlay.sqlite-shm",
    ".ratarmount.overlay.sqlite-wal"].map String.toList

/-- `is_deleted` (WriteOverlay.py:204-209). -/
def isDeleted (s : St) (p : Path) : Bool :=
  match Dict.get? s.rows p with
  | some r => r.deleted
  | none => false

/-- `list_deleted` (WriteOverlay.py:194-202). -/
def listDeleted (s : St) (p : Path) : List Str :=
  ((Dict.keys s.rows).filter (isDeleted s)).filterMap (nameIn p) ++ databaseNames

/-- The arguments of `_set_metadata`: what to change (WriteOverlay.py:211-232). -/
structure Change where
  mtime : Option Int := none
  mode : Option Nat := none
  uid : Option Nat := none
  gid : Option Nat := none
  deriving DecidableEq, Repr

/-- Nothing to change (WriteOverlay.py:211-232). -/
def Change.isEmpty (m : Change) : Bool := m == {}

/-- A row with the changes (WriteOverlay.py:211-232). -/
def Row.apply (r : Row) (m : Change) : Row :=
  { mtime := m.mtime.or r.mtime, mode := m.mode.or r.mode, uid := m.uid.or r.uid, gid := m.gid.or r.gid,
    deleted := r.deleted }

/-- `_init_file_metadata` (WriteOverlay.py:234-247). -/
def initRow (s : St) (p : Path) : Except PyErr St :=
  match ms c s p with
  | none => .error ENOENT
  | some i =>
    let row : Row := ⟨some i.attrs.mtime, some i.attrs.mode, some i.attrs.uid, some i.attrs.gid, false⟩
    .ok { s with rows := Dict.set s.rows p row }

/-- The beginning of `_set_file_metadata` (WriteOverlay.py:252-257). -/
def haveRow (s : St) (p : Path) : Except PyErr St :=
  if (Dict.get? s.rows p).isSome then .ok s else initRow c s p

/-- `_set_file_metadata` (WriteOverlay.py:249-269) with `_set_metadata` (WriteOverlay.py:211-232). `real` is what happens to the real file, whose
attributes do not matter while there is a row with all values. -/
def setMetadata (s : St) (p : Path) (m : Change) (real : Meta → Meta) : St × Except PyErr Unit :=
  match haveRow c s p with
  | .error e => (s, .error e)
  | .ok s1 =>
    if m.isEmpty then (s1, .error .valueError)
    else
      let rows := match Dict.get? s1.rows p with
        | some r => Dict.set s1.rows p (r.apply m)
        | none => s1.rows
      let host := match Dict.get? s1.host.entries p with
        | some n => s1.host.setInode n { s1.host.inode n with attrs := real (s1.host.inode n).attrs }
        | none => s1.host
      ({ host := host, rows := rows }, .ok ())

/-- `chmod` (WriteOverlay.py:296-297). -/
def chmod (s : St) (p : Path) (mode : Nat) : St × Except PyErr Unit :=
  setMetadata c s p { mode := some mode } (fun a => { a with mode := mode })

/-- `chown` (WriteOverlay.py:301-311); `none` is −1. -/
def chown (s : St) (p : Path) (uid gid : Option Nat) : St × Except PyErr Unit :=
  setMetadata c s p { uid := uid, gid := gid } id

/-- `utimens` (WriteOverlay.py:315-321). -/
def utimens (s : St) (p : Path) (mtime : Int) : St × Except PyErr Unit :=
  setMetadata c s p { mtime := some mtime } (fun a => { a with mtime := mtime })

/-- `update_file_info` (WriteOverlay.py:271-289). -/
def updateInfo (s : St) (p : Path) (a : Meta) : Meta :=
  match Dict.get? s.rows p with
  | none => a
  | some r => ⟨r.mode.getD a.mode, r.uid.getD a.uid, r.gid.getD a.gid, r.mtime.getD a.mtime⟩

/-- `rename` (WriteOverlay.py:324-345). -/
def rename (s : St) (old new : Path) : St × Except PyErr Unit :=
  if !msExists c s old || isDeleted s old then (s, .error ENOENT)
  else
    let s1 : St := { s with rows := without s.rows new }
    match haveRow c s1 old with
    | .error e => (s1, .error e)
    | .ok s2 =>
      let s3 : St := match Dict.get? s2.rows old with
        | some r => { s2 with rows := Dict.set (without s2.rows old) new r }
        | none => s2
      match ensureParent c s3 new with
      | .error e => (s3, .error e)
      | .ok s4 =>
        if s4.host.lexists old then
          match s4.host.rename old new with
          | .error e => (s4, .error e)
          | .ok h => ({ s4 with host := h }, .ok ())
        else
          match msRead c s4 old with
          | .error e => (s4, .error e)
          | .ok content =>
            match s4.host.openTruncate new (c.newAttrs 0o666) with
            | .error e => (s4, .error e)
            | .ok (h, n) => (markDeleted c { s4 with host := h.setData n content } old, .ok ())

/-- `symlink` (WriteOverlay.py:351-352). -/
def symlink (s : St) (p : Path) (target : Str) : St × Except PyErr Unit :=
  match s.host.create p ⟨.link, [], target, c.newAttrs 0o120777⟩ with
  | .error e => (s, .error e)
  | .ok h => ({ s with host := h }, .ok ())

/-- `link` (WriteOverlay.py:356-364). -/
def link (s : St) (p source : Path) : St × Except PyErr Unit :=
  if !s.host.lexists source && msExists c s source then (s, .error EXDEV)
  else match s.host.link source p with
    | .error e => (s, .error e)
    | .ok h => ({ s with host := h }, .ok ())

/-- `mknod` (WriteOverlay.py:441-443). -/
def mknod (s : St) (p : Path) (mode : Nat) : St × Except PyErr Unit :=
  match ensureParent c s p with
  | .error e => (s, .error e)
  | .ok s1 =>
    match s1.host.create p ⟨.special, [], [], c.newAttrs mode⟩ with
    | .error e => (s1, .error e)
    | .ok h => ({ s1 with host := h }, .ok ())

/-- `mkdir` (WriteOverlay.py:370-372). -/
def mkdir (s : St) (p : Path) (mode : Nat) : St × Except PyErr Unit :=
  match openRow c s p (mode ||| 0o40000) with
  | .error e => (s, .error e)
  | .ok s1 =>
    match s1.host.create p ⟨.dir, [], [], c.newAttrs (mode ||| 0o40000)⟩ with
    | .error e => (s1, .error e)
    | .ok h => ({ s1 with host := h }, .ok ())

/-- `rmdir` (WriteOverlay.py:376-393). -/
def rmdir (s : St) (p : Path) : St × Except PyErr Unit :=
  if !msExists c s p || isDeleted s p then (s, .error ENOENT)
  else if ((msList c s p).getD []).any (fun n => !(listDeleted s p).contains n) then (s, .error ENOTEMPTY)
  else if s.host.lexists p then
    match s.host.rmdir p with
    | .error _ => (markDeleted c s p, .error EIO)
    | .ok h => (markDeleted c { s with host := h } p, .ok ())
  else (markDeleted c s p, .ok ())

/-- `unlink` (WriteOverlay.py:422-437). -/
def unlink (s : St) (p : Path) : St × Except PyErr Unit :=
  if !msExists c s p || isDeleted s p then (markDeleted c s p, .error ENOENT)
  else if s.host.lexists p then
    match s.host.unlink p with
    | .error _ => (markDeleted c s p, .error EIO)
    | .ok h => (markDeleted c { s with host := h } p, .ok ())
  else (markDeleted c s p, .ok ())

/-- `open` (WriteOverlay.py:399-409); `write` is `flags & (O_WRONLY | O_RDWR)`. The result is the opened inode of the overlay. -/
def openOverlay (s : St) (p : Path) (write : Bool) : St × Except PyErr Nat :=
  if s.host.lexists p then (s, s.host.openExisting p)
  else if !msExists c s p then (s, .error ENOENT)
  else if write then
    match ensureModifiable c s p with
    | (s1, .error e) => (s1, .error e)
    | (s1, .ok ()) => (s1, s1.host.openExisting p)
  else (s, s.host.openExisting p)

/-- `create` (WriteOverlay.py:413-418). -/
def create (s : St) (p : Path) (mode : Nat) : St × Except PyErr Nat :=
  match openRow c s p mode with
  | .error e => (s, .error e)
  | .ok s1 =>
    match s1.host.openTruncate p (c.newAttrs mode) with
    | .error e => (s1, .error e)
    | .ok (h, n) => ({ s1 with host := h }, .ok n)

/-- `truncate` (WriteOverlay.py:447-449). -/
def truncate (s : St) (p : Path) (n : Nat) : St × Except PyErr Unit :=
  match ensureModifiable c s p with
  | (s1, .error e) => (s1, .error e)
  | (s1, .ok ()) =>
    match s1.host.truncate p n with
    | .error e => (s1, .error e)
    | .ok h => ({ s1 with host := h }, .ok ())

/-- `write` (WriteOverlay.py:455-457) on an opened inode. -/
def writeInode (s : St) (n : Nat) (data : Bytes) (offset : Nat) : St :=
  { s with host := s.host.setData n (pwrite (s.host.inode n).data offset data) }

/-! ## what the mount shows -/

/-- `FuseMount._lookup` (FuseMount.py:656-674) without the attributes: what is visible at a path. -/
def view (s : St) (p : Path) : Option Inode := if isDeleted s p then none else ms c s p

/-- The attributes `FuseMount._lookup` gives (FuseMount.py:656-674): the database is asked for the path without the
mount point of the innermost mount source. -/
def attrsOf (s : St) (p : Path) : Option Meta :=
  (view c s p).map (fun i => updateInfo s (p.drop (c.subMount p)) i.attrs)

/-- `FuseMount.readdir` (FuseMount.py:739-767) without `.` and `..`. -/
def readdir (s : St) (p : Path) : List Str :=
  ((msList c s p).getD []).filter (fun n => !(listDeleted s p).contains n)

end Verif.Overlay
