import Verif.Fat.Mounted

/-!
# C195: a disk that meets the hypotheses, and what is wrong with all histories
(core/ratarmountcore/_external/pyfatfs/PyFat.py:165-196; core/ratarmountcore/mountsource/formats/fat.py:49-128)
-/

namespace Verif.FatImage

open Verif.Py Verif.Bin Verif.FileSpec
open Verif.FatTable (Kind parseFat)
open Verif.FatNames (Slot)

def demoCodec : Codec := ⟨FatSource.ascii, fun c => decide (c = ' '), fun d t => d.year * 400 + d.month * 32 + d.day + t.hour⟩

/-- A slot that was never used. -/
def blank : Slot := List.replicate 32 0

/-- A slot of a file that was removed. -/
def removedSlot : Slot := 0xE5 :: List.replicate 31 0x41

def demoPieces : List (List Nat) := [[0x61, 0xD83D, 0xDE00, 0x62, 0x62, 0x62, 0x62, 0x62, 0x62, 0x62, 0x62, 0x62, 0x62],
  [0x2E, 0x74, 0x78, 0x74, 0, 0xFFFF, 0xFFFF, 0xFFFF, 0xFFFF, 0xFFFF, 0xFFFF, 0xFFFF, 0xFFFF]]

/-- A short entry without a long name. -/
def plainItem (base : Data) (attr first size : Nat) : Item := ⟨[], none, [], [], base, [], attr, List.replicate 8 0, first, 0, 33, size⟩

def demoStored : Data := [65, 66, 126, 49, 0x20, 0x20, 0x20, 0x20, 84, 88, 84]

/-- A file with a long name of two slots behind a removed file: "a😀bbbbbbbbbb.txt". -/
def demoFile : Item := ⟨[removedSlot], some ['a', '😀', 'b', 'b', 'b', 'b', 'b', 'b', 'b', 'b', 'b', 'b', '.', 't', 'x', 't'], demoPieces,
  (FatNames.lfnSlots (FatNames.checksum demoStored) 1 demoPieces).reverse, [65, 66, 126, 49], [84, 88, 84], 0x20, List.replicate 8 0, 2,
  0, 33, 600⟩

def demoLabel : Item := plainItem [76] 0x08 0 0
def demoFolder : Item := plainItem [68] 0x10 4 0
def demoDot : Item := plainItem [46] 0x10 4 0
def demoDots : Item := plainItem [46, 46] 0x10 0 0
def demoInner : Item := plainItem [0xE5] 0x21 5 3

/-- A file behind a cluster full of removed files. -/
def demoInner32 : Item := ⟨List.replicate 16 removedSlot, none, [], [], [90], [], 0x20, List.replicate 8 0, 4, 0, 33, 1⟩

def demoContent : Data := List.replicate 512 7 ++ List.replicate 88 8

def demoEntries : List (Item × Option Tree) := [(demoDot, none), (demoDots, none), (demoInner, some (.file [1, 2, 3]))]

def demoRoot : List (Item × Option Tree) :=
  [(demoLabel, none), (demoFile, some (.file demoContent)), (demoFolder, some (.folder demoEntries))]

/-- A disk with 12-bit table, sectors of 512 bytes and one sector per cluster. -/
def demoDisk : Disk where
  kind := .fat12
  jump := [0xEB, 0x3C, 0x90]
  oem := List.replicate 8 0x20
  bps := 512
  spc := 1
  reserved := 1
  copies := 2
  rootEntries := 16
  tot16 := 8
  media := 0xF8
  tracks := List.replicate 8 0
  tot32 := 0
  fatSectors := 1
  flags := [0, 0, 0, 0]
  rootCluster := 0
  code := List.replicate 474 0
  more := []
  fat := [0xFF8, 0xFFF, 3, 0xFFF, 0xFFF, 0xFFF]
  filler := List.replicate 503 0
  others := List.replicate 512 0
  rootArea := (((demoRoot.map Prod.fst).flatMap Item.all ++ ([] ++ List.replicate 10 blank)).flatten)
  clusters := [List.replicate 512 7, List.replicate 88 8 ++ List.replicate 424 0,
    (((demoEntries.map Prod.fst).flatMap Item.all ++ ([removedSlot] ++ List.replicate 12 blank)).flatten), [1, 2, 3] ++ List.replicate 509 0]
  rest := []

theorem demo_stored : demoFile.stored = demoStored := by decide +kernel

theorem plain_ok (base : Data) (attr first size : Nat) (h1 : base ≠ []) (h2 : base.length ≤ 8) (h3 : base.head? ≠ some 0)
    (h4 : base.head? ≠ some 5) (h5 : ∀ c, base.getLast? = some c → demoCodec.space (demoCodec.dec c) = false)
    (h6 : attr < 256 ∧ attr &&& 0x3F ≠ 0x0F) (h7 : first < 2 ^ 32) (h8 : size < 2 ^ 32) : (plainItem base attr first size).Ok demoCodec where
  gone := fun s hs => by cases hs
  long := rfl
  base := ⟨h1, h2, h3, h4, h5⟩
  ext := ⟨Nat.zero_le _, fun c hc => by cases hc⟩
  attr := h6
  misc := rfl
  first := h7
  times := ⟨show 0 < 65536 by decide, show 33 < 65536 by decide⟩
  size := h8

theorem demoFile_ok : demoFile.Ok demoCodec where
  gone := by
    intro s hs
    rw [show demoFile.gone = [removedSlot] from rfl, List.mem_singleton] at hs
    rw [hs]
    exact ⟨rfl, rfl⟩
  long := by
    show FatNames.Storable (encode16 _) ∧ FatNames.Split (encode16 _) demoPieces ∧ _
    refine ⟨⟨by decide +kernel, by decide +kernel, by decide +kernel, by decide +kernel⟩, ⟨by decide +kernel, by decide +kernel, by decide +kernel⟩, ?_⟩
    rw [demo_stored]
    exact List.reverse_perm _
  base := ⟨by decide, by decide, by decide, by decide, fun c hc => by
    have : c = 49 := by
      have : demoFile.base.getLast? = some 49 := rfl
      rw [this, Option.some.injEq] at hc
      exact hc.symm
    rw [this]
    decide +kernel⟩
  ext := ⟨by decide, fun c hc => by
    have : c = 84 := by
      have : demoFile.ext.getLast? = some 84 := rfl
      rw [this, Option.some.injEq] at hc
      exact hc.symm
    rw [this]
    decide +kernel⟩
  attr := ⟨by decide, by decide⟩
  misc := rfl
  first := by decide
  times := ⟨by decide, by decide⟩
  size := by decide

theorem last_space (base : Data) (b : UInt8) (h : base.getLast? = some b) (hb : demoCodec.space (demoCodec.dec b) = false) :
    ∀ c, base.getLast? = some c → demoCodec.space (demoCodec.dec c) = false := by
  intro c hc
  rw [h, Option.some.injEq] at hc
  rw [← hc, hb]

theorem demoLabel_ok : demoLabel.Ok demoCodec :=
  plain_ok _ _ _ _ (by decide) (by decide) (by decide) (by decide) (last_space _ 76 rfl (by decide +kernel)) (by decide) (by decide) (by decide)
theorem demoFolder_ok : demoFolder.Ok demoCodec :=
  plain_ok _ _ _ _ (by decide) (by decide) (by decide) (by decide) (last_space _ 68 rfl (by decide +kernel)) (by decide) (by decide) (by decide)
theorem demoDot_ok : demoDot.Ok demoCodec :=
  plain_ok _ _ _ _ (by decide) (by decide) (by decide) (by decide) (last_space _ 46 rfl (by decide +kernel)) (by decide) (by decide) (by decide)
theorem demoDots_ok : demoDots.Ok demoCodec :=
  plain_ok _ _ _ _ (by decide) (by decide) (by decide) (by decide) (last_space _ 46 rfl (by decide +kernel)) (by decide) (by decide) (by decide)
theorem demoInner_ok : demoInner.Ok demoCodec :=
  plain_ok _ _ _ _ (by decide) (by decide) (by decide) (by decide) (last_space _ 0xE5 rfl (by decide +kernel)) (by decide) (by decide) (by decide)

instance (x : Codec) (i : Item) : Decidable (i.Hidden x) := by unfold Item.Hidden; infer_instance

theorem demoEntries_ok : FolderOk demoCodec demoEntries where
  items := by
    intro e he
    simp only [demoEntries, List.mem_cons, List.not_mem_nil, or_false] at he
    rcases he with rfl | rfl | rfl
    · exact demoDot_ok
    · exact demoDots_ok
    · exact demoInner_ok
  hidden := by
    intro e he
    simp only [demoEntries, List.mem_cons, List.not_mem_nil, or_false] at he
    rcases he with rfl | rfl | rfl
    · exact iff_of_true rfl (by decide +kernel)
    · exact iff_of_true rfl (by decide +kernel)
    · exact iff_of_false (fun h => by cases h) (by decide +kernel)
  names := by
    intro a ha b hb n h1 h2 _ _
    simp only [demoEntries, List.mem_cons, List.not_mem_nil, or_false] at ha hb
    rcases ha with rfl | rfl | rfl
    · cases h1
    · cases h1
    · rcases hb with rfl | rfl | rfl
      · cases h2
      · cases h2
      · rfl

theorem demo_differ (n : Str) (h1 : demoFile.Named demoCodec n) (h2 : demoFolder.Named demoCodec n) : False := by
  rcases h2 with h2 | h2
  · cases h2
  · subst h2
    revert h1
    decide +kernel

theorem demoRoot_ok : FolderOk demoCodec demoRoot where
  items := by
    intro e he
    simp only [demoRoot, List.mem_cons, List.not_mem_nil, or_false] at he
    rcases he with rfl | rfl | rfl
    · exact demoLabel_ok
    · exact demoFile_ok
    · exact demoFolder_ok
  hidden := by
    intro e he
    simp only [demoRoot, List.mem_cons, List.not_mem_nil, or_false] at he
    rcases he with rfl | rfl | rfl
    · exact iff_of_true rfl (by decide +kernel)
    · exact iff_of_false (fun h => by cases h) (by decide +kernel)
    · exact iff_of_false (fun h => by cases h) (by decide +kernel)
  names := by
    intro a ha b hb n h1 h2 h3 h4
    simp only [demoRoot, List.mem_cons, List.not_mem_nil, or_false] at ha hb
    rcases ha with rfl | rfl | rfl
    · cases h1
    · rcases hb with rfl | rfl | rfl
      · cases h2
      · rfl
      · exact (demo_differ n h3 h4).elim
    · rcases hb with rfl | rfl | rfl
      · cases h2
      · exact (demo_differ n h4 h3).elim
      · rfl

theorem demo_end (i : Nat) (h : demoDisk.fat[i]? = some 0xFFF) : FatChain.Chain demoDisk.kind demoDisk.fat i [i] :=
  .last h (.inl (by show 2 ^ 12 - 8 ≤ 0xFFF ∧ 0xFFF < 2 ^ 12; decide))

theorem blanks (n : Nat) : ∀ s ∈ List.replicate n blank, s.length = 32 ∧ s.head? = some 0 := by
  intro s hs
  rw [(List.mem_replicate.mp hs).2]
  exact ⟨rfl, rfl⟩

theorem demo_holds : demoDisk.Holds demoCodec demoRoot where
  root := ⟨[], List.replicate 10 blank, (fun s hs => absurd hs List.not_mem_nil), blanks 10, rfl⟩
  ok := demoRoot_ok
  below_ := by
    intro e he t ht
    simp only [demoRoot, List.mem_cons, List.not_mem_nil, or_false] at he
    rcases he with rfl | rfl | rfl
    · cases ht
    · cases ht
      exact .file (cs := [2, 3]) (by decide) (fun _ => .next (v := 3) rfl (by show 2 ≤ 3 ∧ 3 < 2 ^ 12 - 16; decide)
        (demo_end 3 rfl)) (by unfold Disk.Inside; decide) (by decide) (by decide +kernel)
    · cases ht
      refine .folder (cs := [4]) (by decide) (demo_end 4 rfl) (by unfold Disk.Inside; decide) ?_ demoEntries_ok ?_
      · refine ⟨[removedSlot], List.replicate 12 blank, ?_, blanks 12, ?_⟩
        · intro s hs
          rw [List.mem_singleton.mp hs]
          exact ⟨rfl, rfl⟩
        · rw [List.flatMap_singleton]
          rfl
      · intro e he t ht
        simp only [demoEntries, List.mem_cons, List.not_mem_nil, or_false] at he
        rcases he with rfl | rfl | rfl
        · cases ht
        · cases ht
        · cases ht
          exact .file (cs := [5]) (by decide) (fun _ => demo_end 5 rfl) (by unfold Disk.Inside; decide) (by decide) (by decide +kernel)

theorem demo_ok : demoDisk.Ok where
  jump := .inl ⟨0x3C, rfl⟩
  oem := rfl
  bps := .inl rfl
  spc := .inl rfl
  reserved := ⟨by decide, by decide⟩
  copies := ⟨by decide, by decide⟩
  rootEntries := ⟨by decide, by decide⟩
  totals := ⟨by decide, by decide, by decide⟩
  media := .inr ⟨by decide, by decide⟩
  tracks := rfl
  fatSectors := ⟨by decide, by decide⟩
  flags := rfl
  rootCluster := by decide
  code := List.length_replicate
  more := rfl
  entries := by decide
  table := by decide +kernel
  odd := fun _ => by decide
  others := List.length_replicate
  rootArea := by decide +kernel
  clusters := by decide +kernel
  typed := show (8 : Int) - (1 + 2 * 1) < 4085 * 1 by decide

example : demoDisk.Ok ∧ demoDisk.Holds demoCodec demoRoot ∧ demoCodec.space (demoCodec.dec 0x20) = true := ⟨demo_ok, demo_holds, by decide +kernel⟩

/-- Files are found under both of their names, in the root folder and below. -/
example : (∃ i, found demoCodec demoRoot [['A', 'B', '~', '1', '.', 'T', 'X', 'T']] = some (some i, .file demoContent)) ∧
    found demoCodec demoRoot [['D']] = some (some demoFolder, .folder demoEntries) ∧
    found demoCodec demoRoot [['D'], [FatSource.ascii 0xE5]] = some (some demoInner, .file [1, 2, 3]) ∧
    found demoCodec demoRoot [['D'], ['.', '.']] = none := ⟨⟨demoFile, rfl⟩, rfl, rfl, rfl⟩

/-- The root folder of a FAT32 disk is a chain of clusters: here 3 and then 2. -/
def demoRoot32 : List (Item × Option Tree) := [(demoInner32, some (.file [9]))]

def demoDisk32 : Disk where
  kind := .fat32
  jump := [0xE9, 0, 0]
  oem := List.replicate 8 0x20
  bps := 512
  spc := 1
  reserved := 1
  copies := 1
  rootEntries := 0
  tot16 := 0
  media := 0xF0
  tracks := List.replicate 8 0
  tot32 := 5
  fatSectors := 1
  flags := [0, 0, 0, 0]
  rootCluster := 3
  code := List.replicate 462 0
  more := []
  fat := [0xFFFFFF8, 0xFFFFFFF, 0xFFFFFFF, 2, 0xFFFFFFF]
  filler := List.replicate 492 0
  others := []
  rootArea := []
  clusters := [demoInner32.short ++ (List.replicate 15 blank).flatten, (List.replicate 16 removedSlot).flatten, [9] ++ List.replicate 511 0]
  rest := []

theorem demoInner32_ok : demoInner32.Ok demoCodec where
  gone := by
    intro s hs
    rw [show demoInner32.gone = List.replicate 16 removedSlot from rfl] at hs
    rw [(List.mem_replicate.mp hs).2]
    exact ⟨rfl, rfl⟩
  long := rfl
  base := ⟨by decide, by decide, by decide, by decide, last_space _ 90 rfl (by decide +kernel)⟩
  ext := ⟨by decide, fun c hc => by cases hc⟩
  attr := ⟨by decide, by decide⟩
  misc := rfl
  first := by decide
  times := ⟨by decide, by decide⟩
  size := by decide

theorem demo32_ok : demoDisk32.Ok where
  jump := .inr ⟨0, 0, rfl⟩
  oem := rfl
  bps := .inl rfl
  spc := .inl rfl
  reserved := ⟨by decide, by decide⟩
  copies := ⟨by decide, by decide⟩
  rootEntries := ⟨by decide, by decide⟩
  totals := ⟨by decide, by decide, by decide⟩
  media := .inl rfl
  tracks := rfl
  fatSectors := ⟨by decide, by decide⟩
  flags := rfl
  rootCluster := by decide
  code := List.length_replicate
  more := rfl
  entries := by decide
  table := by decide +kernel
  odd := fun h => by cases h
  others := rfl
  rootArea := rfl
  clusters := by decide +kernel
  typed := show 0 = 0 from rfl

theorem demo32_holds : demoDisk32.Holds demoCodec demoRoot32 where
  root := ⟨[3, 2], .next (v := 2) rfl (by show 2 ≤ 2 ∧ 2 < 2 ^ 28 - 16; decide)
      (.last (v := 0xFFFFFFF) rfl (.inl (by show 2 ^ 28 - 8 ≤ 0xFFFFFFF ∧ 0xFFFFFFF < 2 ^ 28; decide))), by unfold Disk.Inside; decide,
    [], List.replicate 15 blank, (fun s hs => absurd hs List.not_mem_nil), blanks 15, by decide +kernel⟩
  ok := ⟨by
      intro e he
      rw [List.mem_singleton.mp he]
      exact demoInner32_ok, by
      intro e he
      rw [List.mem_singleton.mp he]
      exact iff_of_false (fun h => by cases h) (by decide +kernel), by
      intro a ha b hb _ _ _ _ _
      rw [List.mem_singleton.mp ha, List.mem_singleton.mp hb]⟩
  below_ := by
    intro e he t ht
    rw [List.mem_singleton.mp he] at ht ⊢
    cases ht
    exact .file (cs := [4]) (by decide)
      (fun _ => .last (v := 0xFFFFFFF) rfl (.inl (by show 2 ^ 28 - 8 ≤ 0xFFFFFFF ∧ 0xFFFFFFF < 2 ^ 28; decide)))
      (by unfold Disk.Inside; decide) (by decide) (by decide +kernel)

example : demoDisk32.Ok ∧ demoDisk32.Holds demoCodec demoRoot32 ∧
    found demoCodec demoRoot32 [['Z']] = some (some demoInner32, .file [9]) := ⟨demo32_ok, demo32_holds, rfl⟩

/-- The full claim: files of a mounted disk behave like files in memory. -/
def C195_statement : Prop :=
  ∀ (k : Disk) (x : Codec) (es : List (Item × Option Tree)) (m : Mounted) (ns : List Str) (j : Item) (content : Data) (ops : List FileOp),
    x.space (x.dec 0x20) = true → k.Ok → k.Holds x es → mount k.image = .ok m → (∀ n ∈ ns, Index.IsName n) →
    found x es ns = some (some j, .file content) →
    m.openRun k.image x ⟨content.length, timeOf x j, 0o100777, Index.canonical ns⟩ ops = .ok ((FatChain.ClampIO.mk content 0).run ops)

/-- C195 is violated: after a seek before the begin of a file, which is not refused, the bytes of another cluster are read. -/
theorem C195_violated : ¬ C195_statement := by
  intro h
  obtain ⟨r, dirty, hm⟩ := C195_mounts demoDisk demoCodec demoRoot demo_ok demo_holds
  have key := h demoDisk demoCodec demoRoot _ [['A', 'B', '~', '1', '.', 'T', 'X', 'T']] demoFile demoContent
    [.seek (-1) .set, .seek 0 .set, .read 2] (by decide +kernel) demo_ok demo_holds hm
    (by intro n hn; rw [List.mem_singleton.mp hn]; unfold Index.IsName; decide) rfl
  have hm2 : (mount demoDisk.image).toOption.map (fun m => m.openRun demoDisk.image demoCodec
      ⟨600, timeOf demoCodec demoFile, 0o100777, Index.canonical [['A', 'B', '~', '1', '.', 'T', 'X', 'T']]⟩
      [.seek (-1) .set, .seek 0 .set, .read 2] == .ok ((FatChain.ClampIO.mk demoContent 0).run [.seek (-1) .set, .seek 0 .set, .read 2])) = some false := by
    decide +kernel
  rw [hm] at hm2
  simp only [Except.toOption, Option.map_some, Option.some.injEq] at hm2
  have hl : demoContent.length = 600 := by decide +kernel
  rw [hl] at key
  rw [key] at hm2
  simp at hm2

end Verif.FatImage
