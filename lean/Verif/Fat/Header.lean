import Verif.Bytes
import Verif.Detect.Backends

/-!
# C57, C96, C97: the header of a FAT volume
(core/ratarmountcore/_external/pyfatfs/BootSectorHeader.py, core/ratarmountcore/_external/pyfatfs/PyFat.py:221-238,
596-736, core/ratarmountcore/mountsource/formats/fat.py:21-43)

`_get_fat_size_count` cannot raise: the header for FAT32 is used if `BPB_FATSz16` is 0. Warnings are left out.
-/

namespace Verif.Fat

open Verif.Py Verif.Bin

/-- The fields of `BootSectorHeader` (BootSectorHeader.py:13-19) that are used, and `BPB_FATSz32`, which is 0 here if the
header is not the one for FAT32. -/
structure Bpb where
  jmp0 : Nat
  jmp2 : Nat
  bytesPerSec : Nat
  secPerClus : Nat
  reserved : Nat
  numFats : Nat
  rootEntries : Nat
  totSec16 : Nat
  media : Nat
  fatSz16 : Nat
  totSec32 : Nat
  fatSz32 : Nat
  deriving DecidableEq, Repr

/-- A number in the header, which is known to be long enough (BootSectorHeader.py:34-45). -/
def field (k : Nat) (d : Data) (pos : Nat) : Nat := leNat ((d.drop pos).take k)

/-- `BootSectorHeader.parse_header`, `FAT12BootSectorHeader.parse_header` and `FAT32BootSectorHeader.parse_header` as far as
they get values (BootSectorHeader.py:34-69). -/
def fields (d : Data) : Bpb where
  jmp0 := field 1 d 0
  jmp2 := field 1 d 2
  bytesPerSec := field 2 d 11
  secPerClus := field 1 d 13
  reserved := field 2 d 14
  numFats := field 1 d 16
  rootEntries := field 2 d 17
  totSec16 := field 2 d 19
  media := field 1 d 21
  fatSz16 := field 2 d 22
  totSec32 := field 4 d 32
  fatSz32 := if field 2 d 22 = 0 then field 4 d 36 else 0

/-- `__verify_bpb_header` (PyFat.py:685-736). -/
def verify (b : Bpb) : Bool :=
  ((b.jmp0 == 0xEB && b.jmp2 == 0x90) || b.jmp0 == 0xE9) &&
    [512, 1024, 2048, 4096].contains b.bytesPerSec && [1, 2, 4, 8, 16, 32, 64, 128].contains b.secPerClus &&
    b.reserved != 0 && [0xf0, 0xf8, 0xf9, 0xfa, 0xfb, 0xfc, 0xfd, 0xfe, 0xff].contains b.media && decide (1 ≤ b.numFats) &&
    !(b.rootEntries != 0 && b.rootEntries * 32 % b.bytesPerSec != 0) && !(b.totSec16 == 0 && b.totSec32 == 0)

/-- The types (PyFat.py:33-41). -/
inductive FatType where
  | fat12 | fat16 | fat32
  deriving DecidableEq, Repr

/-- `_get_total_sectors` (PyFat.py:221-226). -/
def totalSectors (b : Bpb) : Nat := if b.totSec16 ≠ 0 then b.totSec16 else b.totSec32

/-- `_get_fat_size_count` (PyFat.py:228-237). -/
def fatSize (b : Bpb) : Nat := if b.fatSz16 ≠ 0 then b.fatSz16 else b.fatSz32

/-- `__determine_fat_type` (PyFat.py:596-636); `rootDirSectors` is the attribute `root_dir_sectors` at the time of the call. -/
def determineFatType (b : Bpb) (rootDirSectors : Nat) : FatType :=
  let dataSec : Int := totalSectors b - (b.reserved + b.numFats * fatSize b + rootDirSectors)
  let count : Int := dataSec / b.secPerClus
  let microsoft := if count < 4085 then FatType.fat12 else if count < 65525 then .fat16 else .fat32
  if b.fatSz16 = 0 then if b.fatSz32 ≠ 0 then .fat32 else microsoft
  else if 4085 ≤ count then .fat16 else .fat12

/-- What `parse_header` sets (PyFat.py:638-683). -/
structure Volume where
  bpb : Bpb
  fatType : FatType
  rootDirSectors : Nat
  rootDirSector : Nat
  firstDataSector : Nat
  deriving DecidableEq, Repr

/-- The length of the header: the one for FAT32 is used if the 16-bit size of a table is 0 (BootSectorHeader.py:48-69,
PyFat.py:648-654). -/
def headerLength (b : Bpb) : Nat := if b.fatSz16 > 0 then 62 else 90

/-- `parse_header` (PyFat.py:638-683) of a new object, whose `root_dir_sectors` is 0 (PyFat.py:103). -/
def parseHeader (d : Data) : Except PyErr Volume :=
  let boot := d.take 512
  if (boot.take 36).length < 36 then .error .valueError                     -- BootSectorHeader.py:38-41
  else
    let b := fields boot
    if !verify b then .error .fat
    else if boot.length < headerLength b then .error .valueError
    else
      let fatType := determineFatType b 0                                    -- 657
      let rootDirSectors := (b.rootEntries * 32 + (b.bytesPerSec - 1)) / b.bytesPerSec
      let volume : Volume :=
        ⟨b, fatType, rootDirSectors, b.reserved + fatSize b * b.numFats, b.reserved + b.numFats * fatSize b + rootDirSectors⟩
      match uint 2 d 510 with
      | none => .error .structError                                          -- 677
      | some signature => if signature = 0xAA55 then .ok volume else .error .fat

/-- `is_fat_image` (fat.py:21-43): only some exceptions are caught. -/
def isFatImage (d : Data) : Except PyErr Bool :=
  match parseHeader d with
  | .ok _ => .ok true
  | .error .fat => .ok false
  | .error .valueError => .ok false
  | .error e => .error e

/-! ## C96: the type of the volume -/

/-- The number of clusters as Microsoft's specification (fatgen103) computes it. -/
def clusterCount (b : Bpb) : Int :=
  ((totalSectors b : Int) - (b.reserved + b.numFats * fatSize b +
    ((b.rootEntries * 32 + (b.bytesPerSec - 1)) / b.bytesPerSec : Nat))) / b.secPerClus

def typeOfCount (n : Int) : FatType := if n < 4085 then .fat12 else if n < 65525 then .fat16 else .fat32

/-- A header that was made for its type: the 16-bit size of a table is 0 exactly for FAT32, which has no fixed root
directory. -/
def Consistent (b : Bpb) : Prop :=
  (typeOfCount (clusterCount b) = .fat32 ↔ b.fatSz16 = 0) ∧ (b.fatSz16 = 0 → b.fatSz32 ≠ 0 ∧ b.rootEntries = 0)

/-- The type is the one the number of clusters tells. -/
def C96_statement : Prop :=
  ∀ (d : Data) (v : Volume), parseHeader d = .ok v → Consistent v.bpb → v.fatType = typeOfCount (clusterCount v.bpb)

theorem parseHeader_ok {d : Data} {v : Volume} (h : parseHeader d = .ok v) :
    v.bpb = fields (d.take 512) ∧ verify v.bpb = true ∧ v.fatType = determineFatType v.bpb 0 ∧
      v.rootDirSectors = (v.bpb.rootEntries * 32 + (v.bpb.bytesPerSec - 1)) / v.bpb.bytesPerSec ∧
      v.firstDataSector = v.bpb.reserved + v.bpb.numFats * fatSize v.bpb + v.rootDirSectors ∧
      v.rootDirSector + v.rootDirSectors = v.firstDataSector := by
  unfold parseHeader at h
  simp only at h
  split at h
  · cases h
  · split at h
    · cases h
    · next hv =>
      split at h
      · cases h
      · cases hu : uint 2 d 510 with
        | none => rw [hu] at h; cases h
        | some s =>
          rw [hu] at h
          simp only at h
          split at h
          · injection h with h
            subst h
            exact ⟨rfl, by simpa using hv, rfl, rfl, rfl, by simp [Nat.mul_comm]⟩
          · cases h

/-- The number of clusters the code uses: the sectors of the root directory are counted as data. -/
def countUsed (b : Bpb) : Int :=
  ((totalSectors b : Int) - (b.reserved + b.numFats * fatSize b + (0 : Nat))) / b.secPerClus

/-- **C96** as far as it holds: the type is the right one exactly if counting the sectors of the root directory as data does
not make 4085 clusters out of less. Missing: those volumes; the code violates the claim for them. -/
theorem C96_type_partial (d : Data) (v : Volume) (h : parseHeader d = .ok v) (hc : Consistent v.bpb) :
    v.fatType = typeOfCount (clusterCount v.bpb) ↔ ¬ (clusterCount v.bpb < 4085 ∧ 4085 ≤ countUsed v.bpb) := by
  obtain ⟨-, hv, ht, -⟩ := parseHeader_ok h
  have hsec : 0 < v.bpb.secPerClus := by
    simp only [verify, Bool.and_eq_true] at hv
    have h1 := hv.1.1.1.1.1.2
    generalize v.bpb.secPerClus = x at h1
    cases x with
    | zero => exact absurd h1 (by decide)
    | succ x => omega
  have hle : clusterCount v.bpb ≤ countUsed v.bpb := by
    unfold clusterCount countUsed
    apply Int.ediv_le_ediv (by omega)
    generalize (v.bpb.rootEntries * 32 + (v.bpb.bytesPerSec - 1)) / v.bpb.bytesPerSec = r
    omega
  rw [ht]
  unfold determineFatType
  simp only
  change (if v.bpb.fatSz16 = 0 then if v.bpb.fatSz32 ≠ 0 then FatType.fat32 else
    (if countUsed v.bpb < 4085 then FatType.fat12 else if countUsed v.bpb < 65525 then .fat16 else .fat32)
    else if 4085 ≤ countUsed v.bpb then .fat16 else .fat12) = _ ↔ _
  obtain ⟨h1, h2⟩ := hc
  by_cases hz : v.bpb.fatSz16 = 0
  · rw [if_pos hz, if_pos (h2 hz).1, h1.mpr hz]
    simp only [true_iff]
    rintro ⟨h3, -⟩
    have := h1.mpr hz
    unfold typeOfCount at this
    rw [if_pos h3] at this
    cases this
  · rw [if_neg hz]
    have hne : typeOfCount (clusterCount v.bpb) ≠ .fat32 := fun hx => hz (h1.mp hx)
    generalize clusterCount v.bpb = n at hne hle ⊢
    generalize countUsed v.bpb = m at hle ⊢
    unfold typeOfCount at hne ⊢
    by_cases hn : n < 4085
    · rw [if_pos hn]
      by_cases hm : 4085 ≤ m
      · rw [if_pos hm]; simp [hn, hm]
      · rw [if_neg hm]; simp [hn, hm]
    · rw [if_neg hn] at hne ⊢
      by_cases hn2 : n < 65525
      · rw [if_pos hn2, if_pos (by omega)]; simp [hn]
      · rw [if_neg hn2] at hne; exact absurd rfl hne

/-- A boot sector: jump, name, the fields up to the table sizes, and the signature. -/
def bootSector (bytesPerSec secPerClus reserved numFats rootEntries totSec16 media fatSz16 totSec32 fatSz32 : Nat) : Data :=
  [0xEB, 0x3C, 0x90] ++ List.replicate 8 32 ++ toLE bytesPerSec 2 ++ toLE secPerClus 1 ++ toLE reserved 2 ++ toLE numFats 1 ++
    toLE rootEntries 2 ++ toLE totSec16 2 ++ toLE media 1 ++ toLE fatSz16 2 ++ List.replicate 8 0 ++ toLE totSec32 4 ++
    toLE fatSz32 4 ++ List.replicate 470 0 ++ [0x55, 0xAA]

/-- The description of a floppy disk: FAT12, and the code says so. -/
def floppy : Data := bootSector 512 1 1 2 224 2880 0xF0 9 0 0

instance (b : Bpb) : Decidable (Consistent b) := by unfold Consistent; infer_instance

example : ∃ v, parseHeader floppy = .ok v ∧ Consistent v.bpb ∧ clusterCount v.bpb = 2847 ∧ v.fatType = .fat12 ∧
    v.firstDataSector = 33 := by
  refine ⟨⟨fields (floppy.take 512), .fat12, 14, 19, 33⟩, by decide +kernel, by decide +kernel, by decide +kernel,
    by decide +kernel, by decide +kernel⟩

/-- A FAT12 volume of 4084 clusters with 512 entries in its root directory. -/
def boundary : Data := bootSector 512 1 1 2 512 4141 0xF8 12 0 0

/-- C96 is violated: the volume is taken for FAT16. -/
theorem C96_violated : ¬ C96_statement := by
  intro h
  have := h boundary ⟨fields (boundary.take 512), .fat16, 32, 25, 57⟩ (by decide +kernel) (by decide +kernel)
  exact absurd this (by decide +kernel)

/-! ## C97, C57: the check -/

/-- The check answers for every file. -/
def C97_statement : Prop := ∀ d : Data, ∃ b, isFatImage d = .ok b

/-- **C97** for files with a whole boot sector. Missing: shorter files, for which the code violates the claim. -/
theorem C97_sector_partial (d : Data) (h : 512 ≤ d.length) :
    ∃ b, isFatImage d = .ok b ∧ (b = true ↔ verify (fields (d.take 512)) = true ∧ uint 2 d 510 = some 0xAA55) := by
  unfold isFatImage parseHeader
  simp only
  have h1 : ¬ ((d.take 512).take 36).length < 36 := by simp; omega
  have h2 : ¬ (d.take 512).length < headerLength (fields (d.take 512)) := by
    simp only [List.length_take, headerLength]
    split <;> omega
  rw [if_neg h1]
  by_cases hv : verify (fields (d.take 512)) = true
  · rw [hv]
    simp only [Bool.not_true, Bool.false_eq_true, if_false]
    rw [if_neg h2]
    have hu : ∃ s, uint 2 d 510 = some s := by
      unfold uint
      rw [if_pos (by simp; omega)]
      exact ⟨_, rfl⟩
    obtain ⟨s, hs⟩ := hu
    rw [hs]
    simp only
    by_cases hsig : s = 0xAA55
    · exact ⟨true, by rw [if_pos hsig], by simp [hsig]⟩
    · exact ⟨false, by rw [if_neg hsig], by simp [hsig]⟩
  · have hf : verify (fields (d.take 512)) = false := by simpa using hv
    rw [hf]
    exact ⟨false, rfl, by simp⟩

example : 512 ≤ floppy.length ∧ isFatImage floppy = .ok true := by decide +kernel

/-- The beginning of a floppy disk. -/
def truncated : Data := floppy.take 100

theorem truncated_raises : isFatImage truncated = .error .structError := by decide +kernel

/-- C97 is violated: for the first 100 bytes of an image the check raises. -/
theorem C97_violated : ¬ C97_statement := by
  intro h
  obtain ⟨b, hb⟩ := h truncated
  rw [truncated_raises] at hb
  cases hb

open Verif.Detect in
/-- C57 is violated: the check for FAT images raises, and a backend that comes after it, and could open the file, is not
tried. The formats 1 and 2 stand for FAT and for any other one, the names for `pyfatfs` and for any other backend. -/
theorem C57_violated : ¬ C57_statement := by
  intro h
  have := h [("pyfatfs".toList, ⟨[1], fun _ => (.raised, 0)⟩), ("other".toList, ⟨[2], fun _ => (.mounted, 0)⟩)]
    (fun fid _ => if fid = 1 then isFatImage truncated else .ok true) [] true false [] []
  have he : openMountSource [("pyfatfs".toList, ⟨[1], fun _ => (.raised, 0)⟩), ("other".toList, ⟨[2], fun _ => (.mounted, 0)⟩)]
      (fun fid _ => if fid = 1 then isFatImage truncated else .ok true) [] true false [] [] = (.error .structError, []) := by
    decide +kernel
  rw [he] at this
  obtain ⟨_, _, _, _, _, h, _⟩ := this
  cases h

end Verif.Fat
