import Verif.Fat.Header
import Verif.Fat.Table
import Verif.Fat.Chain
import Verif.Fat.Names
import Verif.Fat.Source
import Verif.Fat.Dates

/-!
# C195: a FAT image, from its bytes to the bytes of reads — the code and the format
(core/ratarmountcore/_external/pyfatfs/PyFat.py:130-196, 240-274, 364-543; core/ratarmountcore/mountsource/formats/fat.py:49-128)

Opening an image puts together what Fat/Header.lean, Fat/Table.lean, Fat/Chain.lean, Fat/Names.lean and Fat/Source.lean model:
the header, the first table, the folders in the root area or in chains of clusters, and the files. The code page of short names,
what counts as a space, and the time zone are parameters. Simplified: names are decoded when a folder is read, in the code when an
entry is compared or shown; folders are read anew with every access, in the code they are kept; a chain with a cycle, which the
code follows forever, is an error.
-/

namespace Verif.FatImage

open Verif.Py Verif.Bin Verif.FileSpec
open Verif.FatTable (Kind parseFat)
open Verif.FatNames (Slot Piece DirEntry byteAt isLfn addPiece mkEntry)
open Verif.FatSource (DEnt Vol)

/-- The type as a number of bits (PyFat.py:33-41). -/
def kindOf : Fat.FatType → Kind
  | .fat12 => .fat12
  | .fat16 => .fat16
  | .fat32 => .fat32

/-- `_parse_fat` up to the bytes of the first table (PyFat.py:240-269): it has to be there completely. -/
def readTable (v : Fat.Volume) (d : Data) : Except PyErr (List Nat) :=
  if ((d.drop (v.bpb.reserved * v.bpb.bytesPerSec)).take (v.bpb.bytesPerSec * Fat.fatSize v.bpb)).length ≠
      v.bpb.bytesPerSec * Fat.fatSize v.bpb then .error .fat
  else parseFat (kindOf v.fatType) ((d.drop (v.bpb.reserved * v.bpb.bytesPerSec)).take (v.bpb.bytesPerSec * Fat.fatSize v.bpb))

/-- `FAT16_CLEAN_SHUTDOWN_BIT_MASK` and `FAT32_CLEAN_SHUTDOWN_BIT_MASK` (PyFat.py:74-81, 142-147); FAT12 has none. -/
def cleanMask : Fat.FatType → Option Nat
  | .fat12 => none
  | .fat16 => some 0x8000
  | .fat32 => some 0x8000000

/-- `BS_Reserved1` is byte 37 of the header for FAT12 and FAT16 and byte 65 of the one for FAT32 (BootSectorHeader.py:48-69). -/
def reserved1 (v : Fat.Volume) (d : Data) : Nat := if v.bpb.fatSz16 > 0 then Fat.field 1 d 37 else Fat.field 1 d 65

/-- `_is_dirty` (PyFat.py:149-163). -/
def isDirty (v : Fat.Volume) (fat : List Nat) (d : Data) : Except PyErr Bool :=
  match cleanMask v.fatType with
  | none => .ok ((reserved1 v d &&& 1) == 1)
  | some mask => match fat[1]? with
    | none => .error .indexError
    | some e => .ok ((e &&& mask) != mask || (reserved1 v d &&& 1) == 1)

/-- **C195** What counts as not cleanly unmounted: bit 0 of byte 37 of the first sector (65 for FAT32) is set, or bit 15 of the second entry
of the table (27 for FAT32, none for FAT12) is not. -/
theorem C195_unclean (v : Fat.Volume) (fat : List Nat) (d : Data) (second : Nat) (flags : UInt8) (hf : fat[1]? = some second)
    (hd : d[if v.bpb.fatSz16 > 0 then 37 else 65]? = some flags) :
    isDirty v fat d = .ok (flags.toNat.testBit 0 || (match v.fatType with
      | .fat12 => false
      | .fat16 => !second.testBit 15
      | .fat32 => !second.testBit 27)) := by
  have hr : reserved1 v d = flags.toNat := by
    have h1 : ∀ i, d[i]? = some flags → Fat.field 1 d i = flags.toNat := by
      intro i hi
      unfold Fat.field
      obtain ⟨hlt, he⟩ := List.getElem?_eq_some_iff.mp hi
      rw [List.drop_eq_getElem_cons hlt, he]
      simp [leNat]
    unfold reserved1
    split
    · next h => rw [if_pos h] at hd; exact h1 _ hd
    · next h => rw [if_neg h] at hd; exact h1 _ hd
  have hb : (flags.toNat &&& 1 == 1) = flags.toNat.testBit 0 := by
    rw [Nat.and_one_is_mod, Nat.testBit_zero]
    rfl
  have hm : ∀ k, (second &&& 2 ^ k != 2 ^ k) = !second.testBit k := by
    intro k
    have h1 : second &&& 2 ^ k = if second.testBit k then 2 ^ k else 0 := by
      apply Nat.eq_of_testBit_eq
      intro i
      rw [Nat.testBit_and, Nat.testBit_two_pow]
      by_cases hi : k = i
      · subst hi
        cases hk : second.testBit k <;> simp [hk, Nat.testBit_two_pow]
      · cases hk : second.testBit k <;> simp [hi, Nat.testBit_two_pow]
    rw [h1]
    have h2 := Nat.two_pow_pos k
    cases second.testBit k with
    | true => simp
    | false =>
      simp only [Bool.false_eq_true, if_false, Bool.not_false, bne_iff_ne, ne_eq]
      omega
  unfold isDirty
  rw [hr, hb]
  cases hv : v.fatType with
  | fat12 => simp [cleanMask]
  | fat16 =>
    simp only [cleanMask, hf]
    rw [show (0x8000 : Nat) = 2 ^ 15 by decide, hm, Bool.or_comm]
  | fat32 =>
    simp only [cleanMask, hf]
    rw [show (0x8000000 : Nat) = 2 ^ 27 by decide, hm, Bool.or_comm]

/-- `__parse_dir_entry` and `parse_lfn_entry` read 32 bytes (PyFat.py:423-453). -/
def slotAt (d : Data) (a : Nat) : Except PyErr Slot :=
  if ((d.drop a).take 32).length = 32 then .ok ((d.drop a).take 32) else .error .structError

/-- `parse_dir_entries_in_address` (PyFat.py:455-516): `n` entries from the address `a` of the image on. -/
def parseArea (d : Data) : Nat → Nat → List Piece → Except PyErr (List DirEntry × List Piece)
  | 0, _, tmp => .ok ([], tmp)
  | n + 1, a, tmp => match slotAt d a with
    | .error e => .error e
    | .ok s =>
      if byteAt s 0 = 0xE5 then parseArea d n (a + 32) []
      else if byteAt s 0 = 0 then .ok ([], [])
      else if isLfn s then
        match addPiece tmp s with
        | .error e => .error e
        | .ok tmp => parseArea d n (a + 32) tmp
      else match parseArea d n (a + 32) [] with
        | .error e => .error e
        | .ok (es, t) => .ok (mkEntry s tmp :: es, t)

/-- `bytes_per_cluster` (PyFat.py:265-266). -/
def bytesPerCluster (v : Fat.Volume) : Nat := v.bpb.bytesPerSec * v.bpb.secPerClus

/-- `get_data_cluster_address` (PyFat.py:534-543). -/
def clusterAddress (v : Fat.Volume) (c : Nat) : Int :=
  (((c : Int) - 2) * v.bpb.secPerClus + v.firstDataSector) * v.bpb.bytesPerSec

/-- The loop of `parse_dir_entries_in_cluster_chain` (PyFat.py:524-530). Seeking before the beginning is a `ValueError`. -/
def parseChain (v : Fat.Volume) (d : Data) : List Nat → List Piece → Except PyErr (List DirEntry)
  | [], _ => .ok []
  | c :: cs, tmp =>
    if clusterAddress v c < 0 then .error .valueError
    else match parseArea d ((bytesPerCluster v + 31) / 32) (clusterAddress v c).toNat tmp with
      | .error e => .error e
      | .ok (es, tmp) => match parseChain v d cs tmp with
        | .error e => .error e
        | .ok es' => .ok (es ++ es')

/-- `parse_dir_entries_in_cluster_chain` (PyFat.py:518-532). A chain of more clusters than there are has a cycle. -/
def readFolder (v : Fat.Volume) (fat : List Nat) (d : Data) (c : Nat) : Except PyErr (List DirEntry) :=
  match FatChain.collect (kindOf v.fatType) fat (fat.length + 1) (some c) with
  | (cs, .stopped) => parseChain v d cs []
  | (cs, .failed e) => match parseChain v d cs [] with
    | .error x => .error x
    | .ok _ => .error e
  | (_, .more) => .error .runtimeError

/-- `parse_root_dir` (PyFat.py:364-421): a fixed area, for FAT32 the chain from `BPB_RootClus` on. -/
def readRoot (v : Fat.Volume) (fat : List Nat) (d : Data) : Except PyErr (List DirEntry) :=
  match v.fatType with
  | .fat32 => readFolder v fat d (Fat.field 4 d 44)
  | _ => (parseArea d v.bpb.rootEntries (v.rootDirSector * v.bpb.bytesPerSec) []).map Prod.fst

/-- What `set_fp` leaves in the object (PyFat.py:165-196). -/
structure Mounted where
  volume : Fat.Volume
  fat : List Nat
  root : List DirEntry
  dirty : Bool

/-- `set_fp` (PyFat.py:165-196); the warning for volumes that were not unmounted cleanly is the field `dirty`. -/
def mount (d : Data) : Except PyErr Mounted :=
  match Fat.parseHeader d with
  | .error e => .error e
  | .ok v => match readTable v d with
    | .error e => .error e
    | .ok fat => match isDirty v fat d with
      | .error e => .error e
      | .ok dirty => match readRoot v fat d with
        | .error e => .error e
        | .ok root => .ok ⟨v, fat, root, dirty⟩

/-- What is not part of the image: the code page (EightDotThree.py:43-44), the characters `rstrip` takes for spaces, and the local
time zone of `timestamp` (fat.py:72). -/
structure Codec where
  dec : UInt8 → Char
  space : Char → Bool
  stamp : FatDates.Date → FatDates.Time → Nat

/-- `decode('utf-16-le')` on code units (Python library, used at FATDirectoryEntry.py:640); `UnicodeDecodeError` is a
`ValueError`. -/
def decode16 : List Nat → Except PyErr Str
  | [] => .ok []
  | u :: r =>
    if u < 0xD800 ∨ 0xDFFF < u then (decode16 r).map (Char.ofNat u :: ·)
    else if u < 0xDC00 then
      match r with
      | [] => .error .valueError
      | l :: r =>
        if 0xDC00 ≤ l ∧ l < 0xE000 then (decode16 r).map (Char.ofNat (0x10000 + (u - 0xD800) * 0x400 + (l - 0xDC00)) :: ·)
        else .error .valueError
    else .error .valueError

/-- The decoded long name (FATDirectoryEntry.py:568-580). -/
def decodeLong : Option (List Nat) → Except PyErr (Option Str)
  | none => .ok none
  | some us => (decode16 us).map some

/-- `FATDirectoryEntry` from the fields of its slot (FATDirectoryEntry.py:44-116, 177-192, 257-262). -/
def entryOf (x : Codec) (e : DirEntry) (long : Option Str) : DEnt where
  short := FatSource.shortStr x.dec x.space (e.slot.take 11)
  long := long
  attr := Fat.field 1 e.slot 11
  cluster := Fat.field 2 e.slot 26 + Fat.field 2 e.slot 20 <<< 16
  size := Fat.field 4 e.slot 28
  mtime := x.stamp (FatDates.deserializeDate (Fat.field 2 e.slot 24)) (FatDates.deserializeTime (Fat.field 2 e.slot 22))

/-- The entries of a folder with their decoded names (FATDirectoryEntry.py:44-116). -/
def decodeAll (x : Codec) : List DirEntry → Except PyErr (List DEnt)
  | [] => .ok []
  | e :: es => match decodeLong e.long with
    | .error y => .error y
    | .ok long => (decodeAll x es).map (entryOf x e long :: ·)

/-- The object of the root folder has its entries from the beginning (PyFat.py:378-382, 394-396). It gets a number here that no
entry of a folder can have. -/
def rootNumber : Nat := 2 ^ 32

/-- The folders of the volume (FATDirectoryEntry.py:407-416). -/
def Mounted.vol (m : Mounted) (d : Data) (x : Codec) : Vol := fun c =>
  if c = rootNumber then decodeAll x m.root else (readFolder m.volume m.fat d c).bind (decodeAll x)

/-- The root folder (PyFat.py:400-416). -/
def rootEntry (x : Codec) : DEnt :=
  ⟨[], none, 0x10, rootNumber, 0, x.stamp (FatDates.deserializeDate 0) (FatDates.deserializeTime 0)⟩

/-- `read_cluster_contents` (PyFat.py:130-140); a negative address raises there and gives no bytes here. -/
def readCluster (v : Fat.Volume) (d : Data) (c : Nat) : Data :=
  if clusterAddress v c < 0 then [] else (d.drop (clusterAddress v c).toNat).take (bytesPerCluster v)

/-- The volume as files see it (PyFat.py:130-140, 545-581). -/
def Mounted.files (m : Mounted) (d : Data) : FatChain.Volume UInt8 :=
  ⟨kindOf m.volume.fatType, m.fat, bytesPerCluster m.volume, readCluster m.volume d⟩

/-- `FATMountSource.lookup` on an image (fat.py:109-117). -/
def Mounted.lookup (m : Mounted) (d : Data) (x : Codec) (path : Str) : Except PyErr (Option FatSource.FileInfo) :=
  FatSource.lookup (m.vol d x) (rootEntry x) path

/-- `FATMountSource.list` on an image (fat.py:95-107). -/
def Mounted.list (m : Mounted) (d : Data) (x : Codec) (path : Str) : Except PyErr (Option (List Str)) :=
  FatSource.list (m.vol d x) (rootEntry x) path

/-- The entry of a file as `FatIO` uses it (FatIO.py:41-54). -/
def fileEntry (e : DEnt) : FatChain.Entry := ⟨e.cluster, e.size⟩

/-- `FATMountSource.open` on an image, and calls on the file (fat.py:123-128, FatIO.py:47-176). -/
def Mounted.openRun (m : Mounted) (d : Data) (x : Codec) (fi : FatSource.FileInfo) (ops : List FileOp) :
    Except PyErr (List (FileOut UInt8)) :=
  (FatSource.open_ (m.vol d x) (rootEntry x) fi).map fun e =>
    (FatChain.openFile (fileEntry e)).run (m.files d) (fileEntry e) ops

/-! ## specification: the format

What a program that formats a disk writes. -/

/-- The table. -/
def tableBytes : Kind → List Nat → Data
  | .fat12, fat => FatTable.pairs12 fat
  | .fat16, fat => fat.flatMap (toLE · 2)
  | .fat32, fat => fat.flatMap (toLE · 4)

/-- A formatted disk: the fields of the header, what is between them, the areas behind it. -/
structure Disk where
  kind : Kind
  jump : Data
  oem : Data
  bps : Nat
  spc : Nat
  reserved : Nat
  copies : Nat
  rootEntries : Nat
  tot16 : Nat
  media : Nat
  tracks : Data
  tot32 : Nat
  fatSectors : Nat
  flags : Data
  rootCluster : Nat
  code : Data
  more : Data
  fat : List Nat
  filler : Data
  others : Data
  rootArea : Data
  clusters : List Data
  rest : Data

def Disk.sectors16 (k : Disk) : Nat := match k.kind with
  | .fat32 => 0
  | _ => k.fatSectors

/-- The header of FAT32 goes on with the size of a table and the first cluster of the root folder. -/
def Disk.extended (k : Disk) : Data := match k.kind with
  | .fat32 => toLE k.fatSectors 4 ++ (k.flags ++ (toLE k.rootCluster 4 ++ k.code))
  | _ => k.code

def Disk.sector (k : Disk) : Data :=
  k.jump ++ (k.oem ++ (toLE k.bps 2 ++ (toLE k.spc 1 ++ (toLE k.reserved 2 ++ (toLE k.copies 1 ++ (toLE k.rootEntries 2 ++
    (toLE k.tot16 2 ++ (toLE k.media 1 ++ (toLE k.sectors16 2 ++ (k.tracks ++ (toLE k.tot32 4 ++
      (k.extended ++ [0x55, 0xAA]))))))))))))

/-- The reserved sectors, the tables, the root area of FAT12 and FAT16, and the clusters from number 2 on. -/
def Disk.image (k : Disk) : Data :=
  k.sector ++ (k.more ++ ((tableBytes k.kind k.fat ++ k.filler) ++ (k.others ++ (k.rootArea ++ (k.clusters.flatten ++ k.rest)))))

def Disk.total (k : Disk) : Nat := if k.tot16 ≠ 0 then k.tot16 else k.tot32

/-- The number of clusters tells the type. That of FAT12 volumes has to be small enough even if the root area is counted as
data, see C96. -/
def Disk.Typed (k : Disk) : Prop := match k.kind with
  | .fat12 => (k.total : Int) - (k.reserved + k.copies * k.fatSectors) < 4085 * k.spc
  | .fat16 => 4085 * (k.spc : Int) ≤ k.total - (k.reserved + k.copies * k.fatSectors + k.rootEntries * 32 / k.bps)
  | .fat32 => k.rootEntries = 0

/-- 12-bit tables need room for another entry, see C69. -/
structure Disk.Ok (k : Disk) : Prop where
  jump : (∃ a, k.jump = [0xEB, a, 0x90]) ∨ ∃ a b, k.jump = [0xE9, a, b]
  oem : k.oem.length = 8
  bps : k.bps = 512 ∨ k.bps = 1024 ∨ k.bps = 2048 ∨ k.bps = 4096
  spc : k.spc = 1 ∨ k.spc = 2 ∨ k.spc = 4 ∨ k.spc = 8 ∨ k.spc = 16 ∨ k.spc = 32 ∨ k.spc = 64 ∨ k.spc = 128
  reserved : 0 < k.reserved ∧ k.reserved < 65536
  copies : 0 < k.copies ∧ k.copies < 256
  rootEntries : k.rootEntries < 65536 ∧ k.rootEntries * 32 % k.bps = 0
  totals : k.tot16 < 65536 ∧ k.tot32 < 2 ^ 32 ∧ k.total ≠ 0
  media : k.media = 0xF0 ∨ 0xF8 ≤ k.media ∧ k.media ≤ 0xFF
  tracks : k.tracks.length = 8
  fatSectors : 0 < k.fatSectors ∧ k.fatSectors < (match k.kind with | .fat32 => 2 ^ 32 | _ => 65536)
  flags : k.flags.length = 4
  rootCluster : k.rootCluster < 2 ^ 32
  code : k.code.length = (match k.kind with | .fat32 => 462 | _ => 474)
  more : 512 + k.more.length = k.reserved * k.bps
  entries : ∀ e ∈ k.fat, e < FatTable.limit k.kind
  table : (tableBytes k.kind k.fat ++ k.filler).length = k.fatSectors * k.bps
  odd : k.kind = .fat12 → k.fat.length < 2 * (k.fatSectors * k.bps) / 3
  others : k.others.length = (k.copies - 1) * (k.fatSectors * k.bps)
  rootArea : k.rootArea.length = k.rootEntries * 32
  clusters : ∀ c ∈ k.clusters, c.length = k.bps * k.spc
  typed : k.Typed

/-- The bytes of a cluster; the first one has the number 2. -/
def Disk.cluster (k : Disk) (c : Nat) : Data := (k.clusters[c - 2]?).getD []

/-- Clusters that the disk has. -/
def Disk.Inside (k : Disk) (cs : List Nat) : Prop := ∀ c ∈ cs, 2 ≤ c ∧ c < k.clusters.length + 2

/-! ## specification: folders and files -/

/-- UTF-16. -/
def encodeChar (c : Char) : List Nat :=
  if c.toNat < 0x10000 then [c.toNat] else [0xD800 + (c.toNat - 0x10000) / 0x400, 0xDC00 + (c.toNat - 0x10000) % 0x400]

def encode16 (s : Str) : List Nat := s.flatMap encodeChar

/-- An entry of a folder: removed slots, the slots of its long name if it has one, and the slot with its other data. -/
structure Item where
  gone : List Slot
  long : Option Str
  pieces : List (List Nat)
  slots : List Slot
  base : Data
  ext : Data
  attr : Nat
  misc : Data
  first : Nat
  time : Nat
  date : Nat
  size : Nat

/-- The byte 0xE5 is stored as 5. -/
def storedBase : Data → Data
  | [] => []
  | b :: r => (if b = 0xE5 then 5 else b) :: r

/-- The short name, filled up with spaces. -/
def Item.stored (i : Item) : Data :=
  storedBase i.base ++ List.replicate (8 - i.base.length) 0x20 ++ (i.ext ++ List.replicate (3 - i.ext.length) 0x20)

def Item.short (i : Item) : Slot :=
  i.stored ++ (toLE i.attr 1 ++ (i.misc ++ (toLE (i.first / 65536) 2 ++ (toLE i.time 2 ++ (toLE i.date 2 ++
    (toLE (i.first % 65536) 2 ++ toLE i.size 4))))))

def Item.all (i : Item) : List Slot := i.gone ++ (i.slots ++ [i.short])

/-- The short name as it is shown. -/
def Item.alias (x : Codec) (i : Item) : Str := i.base.map x.dec ++ (if i.ext = [] then [] else '.' :: i.ext.map x.dec)

structure Item.Ok (x : Codec) (i : Item) : Prop where
  gone : ∀ s ∈ i.gone, s.length = 32 ∧ s.head? = some 0xE5
  long : match i.long with
    | none => i.slots = []
    | some n => FatNames.Storable (encode16 n) ∧ FatNames.Split (encode16 n) i.pieces ∧
        i.slots.Perm (FatNames.lfnSlots (FatNames.checksum i.stored) 1 i.pieces)
  base : i.base ≠ [] ∧ i.base.length ≤ 8 ∧ i.base.head? ≠ some 0 ∧ i.base.head? ≠ some 5 ∧
    ∀ c, i.base.getLast? = some c → x.space (x.dec c) = false
  ext : i.ext.length ≤ 3 ∧ ∀ c, i.ext.getLast? = some c → x.space (x.dec c) = false
  attr : i.attr < 256 ∧ i.attr &&& 0x3F ≠ 0x0F
  misc : i.misc.length = 8
  first : i.first < 2 ^ 32
  times : i.time < 65536 ∧ i.date < 65536
  size : i.size < 2 ^ 32

/-- The folder itself, its parent, and the label of the volume are not shown. -/
def Item.Hidden (x : Codec) (i : Item) : Prop := i.alias x = ['.'] ∨ i.alias x = ['.', '.'] ∨ i.attr &&& 0x08 ≠ 0

/-- Files can be found under both names. -/
def Item.Named (x : Codec) (i : Item) (n : Str) : Prop := i.long = some n ∨ i.alias x = n

/-- The bytes of a folder: its entries, removed slots, and slots that were never used. -/
def Layout (bytes : Data) (items : List Item) : Prop :=
  ∃ removed zeros : List Slot, (∀ s ∈ removed, s.length = 32 ∧ s.head? = some 0xE5) ∧
    (∀ s ∈ zeros, s.length = 32 ∧ s.head? = some 0) ∧ bytes = (items.flatMap Item.all ++ (removed ++ zeros)).flatten

/-- What a user has put on the disk. Hidden entries have nothing behind them. -/
inductive Tree where
  | file (content : Data)
  | folder (entries : List (Item × Option Tree))

/-- The entries of a folder have names that are not ambiguous. -/
structure FolderOk (x : Codec) (es : List (Item × Option Tree)) : Prop where
  items : ∀ e ∈ es, e.1.Ok x
  hidden : ∀ e ∈ es, e.2 = none ↔ e.1.Hidden x
  names : ∀ a ∈ es, ∀ b ∈ es, ∀ n, a.2.isSome → b.2.isSome → a.1.Named x n → b.1.Named x n → a = b

/-- What an entry stands for is on the disk. -/
inductive Stored (k : Disk) (x : Codec) : Item → Tree → Prop
  | file {i : Item} {cs : List Nat} {content : Data} : i.attr &&& 0x10 = 0 →
      (0 < i.size → FatChain.Chain k.kind k.fat i.first cs) → k.Inside cs → i.size ≤ cs.length * (k.bps * k.spc) →
      content = (cs.flatMap k.cluster).take i.size → Stored k x i (.file content)
  | folder {i : Item} {cs : List Nat} {es : List (Item × Option Tree)} : i.attr &&& 0x10 ≠ 0 →
      FatChain.Chain k.kind k.fat i.first cs → k.Inside cs → Layout (cs.flatMap k.cluster) (es.map Prod.fst) → FolderOk x es →
      (∀ e ∈ es, ∀ t, e.2 = some t → Stored k x e.1 t) → Stored k x i (.folder es)

/-- Where the root folder is. -/
def Disk.RootAt (k : Disk) (items : List Item) : Prop := match k.kind with
  | .fat32 => ∃ cs, FatChain.Chain k.kind k.fat k.rootCluster cs ∧ k.Inside cs ∧ Layout (cs.flatMap k.cluster) items
  | _ => Layout k.rootArea items

/-- The disk holds these entries in its root folder and everything below. -/
structure Disk.Holds (k : Disk) (x : Codec) (es : List (Item × Option Tree)) : Prop where
  root : k.RootAt (es.map Prod.fst)
  ok : FolderOk x es
  below_ : ∀ e ∈ es, ∀ t, e.2 = some t → Stored k x e.1 t

instance (x : Codec) (i : Item) (n : Str) : Decidable (i.Named x n) := by unfold Item.Named; infer_instance

/-- The entry of a folder with a name. -/
def child (x : Codec) (es : List (Item × Option Tree)) (n : Str) : Option (Item × Option Tree) :=
  es.find? (fun e => e.2.isSome && decide (e.1.Named x n))

/-- What is under a path. -/
def Tree.at (x : Codec) : Item → Tree → List Str → Option (Item × Tree)
  | i, t, [] => some (i, t)
  | _, .file _, _ :: _ => none
  | _, .folder es, n :: ns => match child x es n with
    | some (j, some t) => Tree.at x j t ns
    | _ => none

end Verif.FatImage
