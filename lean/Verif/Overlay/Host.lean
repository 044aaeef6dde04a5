import Verif.Dict
import Verif.Py
import Verif.PyStr

/-!
# The file system below the write overlay

The write overlay stores changes in a folder of the host. What its system calls do is specified here: paths are lists
of names below that folder, an entry points to an inode. Symbolic links inside the overlay folder are not followed:
the kernel resolves links before it calls a FUSE operation, so no path has one in the middle, and operations that
would follow one at the end answer `unsupported`.
-/

namespace Verif.Overlay

open Verif.Py

/-- A path: the names below the folder (WriteOverlay.py:146-153). -/
abbrev Path := List Str
/-- Data of a file (WriteOverlay.py:455-461). -/
abbrev Bytes := List UInt8

/-- Types of files (WriteOverlay.py:351-446). -/
inductive Kind where
  | dir | file | link | special
  deriving DecidableEq, Repr

/-- Attributes (WriteOverlay.py:211-322). -/
structure Meta where
  mode : Nat
  uid : Nat
  gid : Nat
  mtime : Int
  deriving DecidableEq, Repr

/-- What an entry points to; `data` is the content of a file, `target` the one of a symbolic link (WriteOverlay.py:71-100). -/
structure Inode where
  kind : Kind
  data : Bytes
  target : Str
  attrs : Meta
  deriving DecidableEq, Repr

/-- A folder of the host with everything below (WriteOverlay.py:71-100). -/
structure Host where
  entries : Dict Path Nat
  inode : Nat → Inode
  next : Nat

abbrev ENOENT : PyErr := .os 2
abbrev EIO : PyErr := .os 5
abbrev EEXIST : PyErr := .os 17
abbrev EXDEV : PyErr := .os 18
abbrev ENOTDIR : PyErr := .os 20
abbrev EISDIR : PyErr := .os 21
abbrev EINVAL : PyErr := .os 22
abbrev EROFS : PyErr := .os 30
abbrev ESTALE : PyErr := .os 116
abbrev ENOTEMPTY : PyErr := .os 39

/-- All items with another key (POSIX, WriteOverlay.py:422-439). -/
def without {K V : Type} [DecidableEq K] (d : Dict K V) (k : K) : Dict K V := d.filter (fun e : K × V => e.1 ≠ k)

theorem get?_without {K V : Type} [DecidableEq K] (d : Dict K V) (k k' : K) :
    Dict.get? (without d k) k' = if k = k' then none else Dict.get? d k' := by
  induction d with
  | nil => simp [without, Dict.get?]
  | cons e d ih =>
    obtain ⟨a, b⟩ := e
    simp only [without, ne_eq, List.filter_cons] at ih ⊢
    by_cases ha : a = k
    · subst ha
      simp only [not_true_eq_false, decide_false, Bool.false_eq_true, if_false, ih, Dict.get?]
      by_cases hk : a = k'
      · simp [hk]
      · simp [hk]
    · simp only [ha, not_false_eq_true, decide_true, if_true, Dict.get?, ih]
      by_cases h1 : a = k'
      · rw [if_pos h1, if_pos h1, if_neg (by rintro rfl; exact ha h1)]
      · rw [if_neg h1, if_neg h1]

/-- `os.lstat` (WriteOverlay.py:271-293). -/
def Host.node (h : Host) (p : Path) : Option Inode := (Dict.get? h.entries p).map h.inode

/-- `os.path.lexists` (WriteOverlay.py:155-169). -/
def Host.lexists (h : Host) (p : Path) : Bool := (Dict.get? h.entries p).isSome

/-- `os.path.isdir` (WriteOverlay.py:155-161). -/
def Host.isdir (h : Host) (p : Path) : Bool :=
  match h.node p with
  | some i => i.kind == .dir
  | none => false

/-- The name of `k` in the folder `p` (POSIX, WriteOverlay.py:376-396). -/
def nameIn (p k : Path) : Option Str := if k ≠ [] ∧ k.dropLast = p then k.getLast? else none

/-- `os.scandir`: the names in a folder (WriteOverlay.py:376-396). -/
def Host.children (h : Host) (p : Path) : List Str := h.entries.keys.filterMap (nameIn p)

/-- The checks on the parent folder for making a new entry (POSIX, WriteOverlay.py:351-374). -/
def Host.parentError (h : Host) (p : Path) : Option PyErr :=
  match h.node p.dropLast with
  | none => some ENOENT
  | some d => if d.kind = .dir then none else some ENOTDIR

/-- Replacing the content of one inode (POSIX, WriteOverlay.py:447-461). -/
def Host.setInode (h : Host) (n : Nat) (i : Inode) : Host :=
  { h with inode := fun k => if k = n then i else h.inode k }

/-- A new entry with a new inode (POSIX, WriteOverlay.py:351-374). -/
def Host.insert (h : Host) (p : Path) (i : Inode) : Host :=
  { entries := Dict.set h.entries p h.next, inode := fun k => if k = h.next then i else h.inode k, next := h.next + 1 }

/-- `os.mkdir`, `os.symlink`, `os.mknod`: the entry must not exist (WriteOverlay.py:351-374, 441-445). -/
def Host.create (h : Host) (p : Path) (i : Inode) : Except PyErr Host :=
  if h.lexists p then .error EEXIST
  else match h.parentError p with
    | some e => .error e
    | none => .ok (h.insert p i)

/-- `os.link` (WriteOverlay.py:356-368). -/
def Host.link (h : Host) (src dst : Path) : Except PyErr Host :=
  match Dict.get? h.entries src with
  | none => .error ENOENT
  | some n =>
    if h.lexists dst then .error EEXIST
    else match h.parentError dst with
      | some e => .error e
      | none => .ok { h with entries := Dict.set h.entries dst n }

/-- The prefixes of a path, the shortest first, without the root (POSIX, WriteOverlay.py:155-161). -/
def ancestors (p : Path) : List Path := (List.range p.length).map (fun k => p.take (k + 1))

/-- One step of `os.makedirs(…, exist_ok=True)` (WriteOverlay.py:155-161). -/
def Host.ensureDir (h : Host) (a : Meta) (p : Path) : Except PyErr Host :=
  if h.lexists p then (if h.isdir p then .ok h else .error EEXIST)
  else h.create p ⟨.dir, [], [], a⟩

/-- `os.makedirs(p, exist_ok=True)` (WriteOverlay.py:155-161). -/
def Host.makedirs (h : Host) (a : Meta) (p : Path) : Except PyErr Host :=
  (ancestors p).foldlM (fun h q => h.ensureDir a q) h

/-- `os.open(p, O_CREAT | O_TRUNC | …)` and `open(p, 'wb')`: the inode that is open for writing (WriteOverlay.py:163-181, 413-420). -/
def Host.openTruncate (h : Host) (p : Path) (a : Meta) : Except PyErr (Host × Nat) :=
  match Dict.get? h.entries p with
  | some n =>
    match (h.inode n).kind with
    | .file => .ok (h.setInode n { h.inode n with data := [] }, n)
    | .dir => .error EISDIR
    | _ => .error .unsupported
  | none =>
    match h.parentError p with
    | some e => .error e
    | none => .ok (h.insert p ⟨.file, [], [], a⟩, h.next)

/-- `os.open(p, flags)` without `O_CREAT` and `O_TRUNC` (WriteOverlay.py:171-181). -/
def Host.openExisting (h : Host) (p : Path) : Except PyErr Nat :=
  match Dict.get? h.entries p with
  | none => .error ENOENT
  | some n =>
    match (h.inode n).kind with
    | .file => .ok n
    | .dir => .error EISDIR
    | _ => .error .unsupported

/-- Replacing the data of an inode (POSIX, WriteOverlay.py:447-461). -/
def Host.setData (h : Host) (n : Nat) (d : Bytes) : Host := h.setInode n { h.inode n with data := d }

/-- Reading from a byte string at an offset (POSIX, FuseMount.py:808-833). -/
def pread (d : Bytes) (offset size : Nat) : Bytes := (d.drop offset).take size

/-- Writing into a byte string at an offset; a gap is filled with zeros (POSIX, WriteOverlay.py:455-461). -/
def pwrite (d : Bytes) (offset : Nat) (new : Bytes) : Bytes :=
  (d ++ List.replicate (offset - d.length) 0).take offset ++ new ++ d.drop (offset + new.length)

/-- Cutting a byte string to a length, or filling it up with zeros (POSIX, WriteOverlay.py:447-453). -/
def resize (d : Bytes) (n : Nat) : Bytes := d.take n ++ List.replicate (n - d.length) 0

/-- `os.truncate(p, n)` (WriteOverlay.py:447-453). -/
def Host.truncate (h : Host) (p : Path) (n : Nat) : Except PyErr Host :=
  match Dict.get? h.entries p with
  | none => .error ENOENT
  | some k =>
    match (h.inode k).kind with
    | .file => .ok (h.setData k (resize (h.inode k).data n))
    | .dir => .error EISDIR
    | _ => .error .unsupported

/-- `os.unlink` (WriteOverlay.py:422-439). -/
def Host.unlink (h : Host) (p : Path) : Except PyErr Host :=
  match h.node p with
  | none => .error ENOENT
  | some i => if i.kind = .dir then .error EISDIR else .ok { h with entries := without h.entries p }

/-- `os.rmdir` (WriteOverlay.py:376-396). -/
def Host.rmdir (h : Host) (p : Path) : Except PyErr Host :=
  match h.node p with
  | none => .error ENOENT
  | some i =>
    if i.kind ≠ .dir then .error ENOTDIR
    else if h.children p ≠ [] then .error ENOTEMPTY
    else .ok { h with entries := without h.entries p }

/-- The entries after moving a folder (POSIX, WriteOverlay.py:324-349). -/
def moveTree (d : Dict Path Nat) (old new : Path) : Dict Path Nat :=
  (without d new).map (fun e : Path × Nat =>
    if startsWithPath old e.1 then (new ++ e.1.drop old.length, e.2) else e)
where
  startsWithPath (a b : Path) : Bool := b.take a.length == a

/-- `os.rename` (WriteOverlay.py:324-349). -/
def Host.rename (h : Host) (old new : Path) : Except PyErr Host :=
  match Dict.get? h.entries old with
  | none => .error ENOENT
  | some n =>
    match h.parentError new with
    | some e => .error e
    | none =>
      if old = new then .ok h
      else if (h.inode n).kind = .dir then
        if moveTree.startsWithPath old new then .error EINVAL
        else match h.node new with
          | some t =>
            if t.kind ≠ .dir then .error ENOTDIR
            else if h.children new ≠ [] then .error ENOTEMPTY
            else .ok { h with entries := moveTree h.entries old new }
          | none => .ok { h with entries := moveTree h.entries old new }
      else
        match Dict.get? h.entries new with
        | some m =>
          if (h.inode m).kind = .dir then .error EISDIR
          else if m = n then .ok h  -- two hard links to the same file: nothing happens
          else .ok { h with entries := Dict.set (without h.entries old) new n }
        | none => .ok { h with entries := Dict.set (without h.entries old) new n }

end Verif.Overlay
