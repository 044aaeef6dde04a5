import Verif.Fat.Image

/-!
# C195: the areas of a formatted disk are found
(core/ratarmountcore/_external/pyfatfs/PyFat.py:240-324, 455-543, 638-683)

Lemmas: the header of an image that was written is read, its first table is decoded, and the addresses of clusters are right.
-/

namespace Verif.FatImage

open Verif.Py Verif.Bin Verif.FileSpec
open Verif.FatTable (Kind parseFat)
open Verif.FatNames (Slot Piece DirEntry byteAt isLfn addPiece mkEntry)

/-! ## numbers at positions -/

theorem field_skip (k : Nat) (a b : Data) (p q : Nat) (h : a.length = p) : Fat.field k (a ++ b) (p + q) = Fat.field k b q := by
  unfold Fat.field
  rw [← List.drop_drop, List.drop_left' h]

theorem field_here (k n : Nat) (b : Data) (h : n < 256 ^ k) : Fat.field k (toLE n k ++ b) 0 = n := by
  unfold Fat.field
  rw [List.drop_zero, List.take_left' (length_toLE n k), leNat_toLE n k h]

theorem field_end (k n : Nat) (h : n < 256 ^ k) : Fat.field k (toLE n k) 0 = n := by
  have := field_here k n [] h
  rwa [List.append_nil] at this

/-- Fields of the first sector. -/
theorem field_prefix (k : Nat) (a b : Data) (p : Nat) (h : p + k ≤ a.length) : Fat.field k (a ++ b) p = Fat.field k a p := by
  unfold Fat.field
  rw [List.drop_append_of_le_length (by omega), List.take_append_of_le_length (by rw [List.length_drop]; omega)]

/-! ## the header -/

theorem jump_length {k : Disk} (h : k.Ok) : k.jump.length = 3 := by
  rcases h.jump with ⟨a, e⟩ | ⟨a, b, e⟩ <;> rw [e] <;> rfl

theorem extended_length {k : Disk} (h : k.Ok) : k.extended.length = 474 := by
  have hc := h.code
  have hf := h.flags
  unfold Disk.extended
  cases hk : k.kind <;> rw [hk] at hc <;> simp only at hc ⊢
  · exact hc
  · exact hc
  · simp only [List.length_append, length_toLE, hf, hc]

theorem sector_length {k : Disk} (h : k.Ok) : k.sector.length = 512 := by
  unfold Disk.sector
  simp only [List.length_append, length_toLE, jump_length h, h.oem, h.tracks, extended_length h, List.length_cons, List.length_nil]

/-- The fields of the header. -/
def Disk.bpb (k : Disk) : Fat.Bpb where
  jmp0 := Fat.field 1 k.jump 0
  jmp2 := Fat.field 1 k.jump 2
  bytesPerSec := k.bps
  secPerClus := k.spc
  reserved := k.reserved
  numFats := k.copies
  rootEntries := k.rootEntries
  totSec16 := k.tot16
  media := k.media
  fatSz16 := k.sectors16
  totSec32 := k.tot32
  fatSz32 := if k.sectors16 = 0 then k.fatSectors else 0

theorem sectors16_zero {k : Disk} (h : k.Ok) : k.sectors16 = 0 ↔ k.kind = .fat32 := by
  have := h.fatSectors
  unfold Disk.sectors16
  cases k.kind <;> simp <;> omega

theorem sectors16_lt {k : Disk} (h : k.Ok) : k.sectors16 < 65536 := by
  have := h.fatSectors
  unfold Disk.sectors16
  cases hk : k.kind <;> rw [hk] at this <;> simp only at this ⊢ <;> omega

theorem fatSectors_lt {k : Disk} (h : k.Ok) : k.fatSectors < 2 ^ 32 := by
  have := h.fatSectors.2
  cases hk : k.kind <;> rw [hk] at this <;> simp only at this <;> omega

theorem bps_lt {k : Disk} (h : k.Ok) : k.bps < 65536 := by rcases h.bps with h | h | h | h <;> omega

theorem spc_lt {k : Disk} (h : k.Ok) : k.spc < 256 := by rcases h.spc with h | h | h | h | h | h | h | h <;> omega

theorem fields_sector {k : Disk} (h : k.Ok) : Fat.fields k.sector = k.bpb := by
  have hj := jump_length h
  have f11 : ∀ n q, Fat.field n k.sector (3 + (8 + q)) = Fat.field n (toLE k.bps 2 ++ (toLE k.spc 1 ++ (toLE k.reserved 2 ++
      (toLE k.copies 1 ++ (toLE k.rootEntries 2 ++ (toLE k.tot16 2 ++ (toLE k.media 1 ++ (toLE k.sectors16 2 ++ (k.tracks ++
      (toLE k.tot32 4 ++ (k.extended ++ [0x55, 0xAA]))))))))))) q := by
    intro n q
    unfold Disk.sector
    rw [field_skip _ _ _ _ _ hj, field_skip _ _ _ _ _ h.oem]
  have e1 : Fat.field 1 k.sector 0 = Fat.field 1 k.jump 0 := field_prefix _ _ _ _ (by omega)
  have e2 : Fat.field 1 k.sector 2 = Fat.field 1 k.jump 2 := field_prefix _ _ _ _ (by omega)
  have e3 : Fat.field 2 k.sector 11 = k.bps := by
    rw [show (11 : Nat) = 3 + (8 + 0) from rfl, f11, field_here _ _ _ (bps_lt h)]
  have e4 : Fat.field 1 k.sector 13 = k.spc := by
    rw [show (13 : Nat) = 3 + (8 + (2 + 0)) from rfl, f11, field_skip _ _ _ _ _ (length_toLE _ _), field_here _ _ _ (spc_lt h)]
  have e5 : Fat.field 2 k.sector 14 = k.reserved := by
    rw [show (14 : Nat) = 3 + (8 + (2 + (1 + 0))) from rfl, f11, field_skip _ _ _ _ _ (length_toLE _ _),
      field_skip _ _ _ _ _ (length_toLE _ _), field_here _ _ _ h.reserved.2]
  have e6 : Fat.field 1 k.sector 16 = k.copies := by
    rw [show (16 : Nat) = 3 + (8 + (2 + (1 + (2 + 0)))) from rfl, f11, field_skip _ _ _ _ _ (length_toLE _ _),
      field_skip _ _ _ _ _ (length_toLE _ _), field_skip _ _ _ _ _ (length_toLE _ _), field_here _ _ _ h.copies.2]
  have e7 : Fat.field 2 k.sector 17 = k.rootEntries := by
    rw [show (17 : Nat) = 3 + (8 + (2 + (1 + (2 + (1 + 0))))) from rfl, f11, field_skip _ _ _ _ _ (length_toLE _ _),
      field_skip _ _ _ _ _ (length_toLE _ _), field_skip _ _ _ _ _ (length_toLE _ _), field_skip _ _ _ _ _ (length_toLE _ _),
      field_here _ _ _ h.rootEntries.1]
  have e8 : Fat.field 2 k.sector 19 = k.tot16 := by
    rw [show (19 : Nat) = 3 + (8 + (2 + (1 + (2 + (1 + (2 + 0)))))) from rfl, f11, field_skip _ _ _ _ _ (length_toLE _ _),
      field_skip _ _ _ _ _ (length_toLE _ _), field_skip _ _ _ _ _ (length_toLE _ _), field_skip _ _ _ _ _ (length_toLE _ _),
      field_skip _ _ _ _ _ (length_toLE _ _), field_here _ _ _ h.totals.1]
  have e9 : Fat.field 1 k.sector 21 = k.media := by
    rw [show (21 : Nat) = 3 + (8 + (2 + (1 + (2 + (1 + (2 + (2 + 0))))))) from rfl, f11, field_skip _ _ _ _ _ (length_toLE _ _),
      field_skip _ _ _ _ _ (length_toLE _ _), field_skip _ _ _ _ _ (length_toLE _ _), field_skip _ _ _ _ _ (length_toLE _ _),
      field_skip _ _ _ _ _ (length_toLE _ _), field_skip _ _ _ _ _ (length_toLE _ _), field_here]
    have := h.media
    omega
  have e10 : ∀ n q, Fat.field n k.sector (22 + q) = Fat.field n (toLE k.sectors16 2 ++ (k.tracks ++
      (toLE k.tot32 4 ++ (k.extended ++ [0x55, 0xAA])))) q := by
    intro n q
    rw [show 22 + q = 3 + (8 + (2 + (1 + (2 + (1 + (2 + (2 + (1 + q)))))))) by omega, f11, field_skip _ _ _ _ _ (length_toLE _ _),
      field_skip _ _ _ _ _ (length_toLE _ _), field_skip _ _ _ _ _ (length_toLE _ _), field_skip _ _ _ _ _ (length_toLE _ _),
      field_skip _ _ _ _ _ (length_toLE _ _), field_skip _ _ _ _ _ (length_toLE _ _), field_skip _ _ _ _ _ (length_toLE _ _)]
  have e11 : Fat.field 2 k.sector 22 = k.sectors16 := by
    rw [show (22 : Nat) = 22 + 0 from rfl, e10, field_here _ _ _ (sectors16_lt h)]
  have e12 : Fat.field 4 k.sector 32 = k.tot32 := by
    rw [show (32 : Nat) = 22 + (2 + (8 + 0)) from rfl, e10, field_skip _ _ _ _ _ (length_toLE _ _), field_skip _ _ _ _ _ h.tracks,
      field_here _ _ _ h.totals.2.1]
  have e13 : k.sectors16 = 0 → Fat.field 4 k.sector 36 = k.fatSectors := by
    intro hz
    rw [show (36 : Nat) = 22 + (2 + (8 + (4 + 0))) from rfl, e10, field_skip _ _ _ _ _ (length_toLE _ _),
      field_skip _ _ _ _ _ h.tracks, field_skip _ _ _ _ _ (length_toLE _ _)]
    unfold Disk.extended
    rw [(sectors16_zero h).mp hz]
    simp only
    rw [List.append_assoc, field_here _ _ _ (fatSectors_lt h)]
  unfold Fat.fields Disk.bpb
  rw [e1, e2, e3, e4, e5, e6, e7, e8, e9, e11, e12]
  congr 1
  by_cases hz : k.sectors16 = 0
  · rw [if_pos hz, if_pos hz, e13 hz]
  · rw [if_neg hz, if_neg hz]

theorem rootCluster_sector {k : Disk} (h : k.Ok) (hk : k.kind = .fat32) : Fat.field 4 k.sector 44 = k.rootCluster := by
  unfold Disk.sector Disk.extended
  rw [hk]
  simp only
  rw [show (44 : Nat) = 3 + (8 + (2 + (1 + (2 + (1 + (2 + (2 + (1 + (2 + (8 + (4 + (4 + (4 + 0))))))))))))) from rfl,
    field_skip _ _ _ _ _ (jump_length h), field_skip _ _ _ _ _ h.oem, field_skip _ _ _ _ _ (length_toLE _ _),
    field_skip _ _ _ _ _ (length_toLE _ _), field_skip _ _ _ _ _ (length_toLE _ _), field_skip _ _ _ _ _ (length_toLE _ _),
    field_skip _ _ _ _ _ (length_toLE _ _), field_skip _ _ _ _ _ (length_toLE _ _), field_skip _ _ _ _ _ (length_toLE _ _),
    field_skip _ _ _ _ _ (length_toLE _ _), field_skip _ _ _ _ _ h.tracks, field_skip _ _ _ _ _ (length_toLE _ _),
    List.append_assoc, field_skip _ _ _ _ _ (length_toLE _ _), List.append_assoc, field_skip _ _ _ _ _ h.flags,
    List.append_assoc, field_here _ _ _ h.rootCluster]

theorem signature_sector {k : Disk} (h : k.Ok) : Fat.field 2 k.sector 510 = 0xAA55 := by
  unfold Disk.sector
  rw [show (510 : Nat) = 3 + (8 + (2 + (1 + (2 + (1 + (2 + (2 + (1 + (2 + (8 + (4 + (474 + 0)))))))))))) from rfl,
    field_skip _ _ _ _ _ (jump_length h), field_skip _ _ _ _ _ h.oem, field_skip _ _ _ _ _ (length_toLE _ _),
    field_skip _ _ _ _ _ (length_toLE _ _), field_skip _ _ _ _ _ (length_toLE _ _), field_skip _ _ _ _ _ (length_toLE _ _),
    field_skip _ _ _ _ _ (length_toLE _ _), field_skip _ _ _ _ _ (length_toLE _ _), field_skip _ _ _ _ _ (length_toLE _ _),
    field_skip _ _ _ _ _ (length_toLE _ _), field_skip _ _ _ _ _ h.tracks, field_skip _ _ _ _ _ (length_toLE _ _),
    field_skip _ _ _ _ _ (extended_length h)]
  decide

theorem verify_bpb {k : Disk} (h : k.Ok) : Fat.verify k.bpb = true := by
  have h1 : ((k.bpb.jmp0 == 0xEB && k.bpb.jmp2 == 0x90) || k.bpb.jmp0 == 0xE9) = true := by
    unfold Disk.bpb
    simp only
    rcases h.jump with ⟨a, e⟩ | ⟨a, b, e⟩ <;> rw [e] <;> simp [Fat.field, leNat]
  have h2 : [512, 1024, 2048, 4096].contains k.bpb.bytesPerSec = true := by
    show [512, 1024, 2048, 4096].contains k.bps = true
    rcases h.bps with e | e | e | e <;> rw [e] <;> rfl
  have h3 : [1, 2, 4, 8, 16, 32, 64, 128].contains k.bpb.secPerClus = true := by
    show [1, 2, 4, 8, 16, 32, 64, 128].contains k.spc = true
    rcases h.spc with e | e | e | e | e | e | e | e <;> rw [e] <;> rfl
  have h4 : (k.bpb.reserved != 0) = true := by
    show (k.reserved != 0) = true
    have := h.reserved.1
    simp
    omega
  have h5 : [0xf0, 0xf8, 0xf9, 0xfa, 0xfb, 0xfc, 0xfd, 0xfe, 0xff].contains k.bpb.media = true := by
    show [0xf0, 0xf8, 0xf9, 0xfa, 0xfb, 0xfc, 0xfd, 0xfe, 0xff].contains k.media = true
    have := h.media
    have hm : k.media = 0xF0 ∨ k.media = 0xF8 ∨ k.media = 0xF9 ∨ k.media = 0xFA ∨ k.media = 0xFB ∨ k.media = 0xFC ∨ k.media = 0xFD ∨
        k.media = 0xFE ∨ k.media = 0xFF := by omega
    rcases hm with e | e | e | e | e | e | e | e | e <;> rw [e] <;> rfl
  have h6 : decide (1 ≤ k.bpb.numFats) = true := decide_eq_true h.copies.1
  have h7 : (!(k.bpb.rootEntries != 0 && k.bpb.rootEntries * 32 % k.bpb.bytesPerSec != 0)) = true := by
    show (!(k.rootEntries != 0 && k.rootEntries * 32 % k.bps != 0)) = true
    rw [h.rootEntries.2]
    simp
  have h8 : (!(k.bpb.totSec16 == 0 && k.bpb.totSec32 == 0)) = true := by
    show (!(k.tot16 == 0 && k.tot32 == 0)) = true
    have ht := h.totals.2.2
    unfold Disk.total at ht
    by_cases hz : k.tot16 = 0
    · rw [if_neg (by simpa using hz)] at ht
      simp [ht]
    · simp [hz]
  unfold Fat.verify
  rw [h1, h2, h3, h4, h5, h6, h7, h8]
  rfl

theorem fatSize_bpb {k : Disk} (h : k.Ok) : Fat.fatSize k.bpb = k.fatSectors := by
  unfold Fat.fatSize
  show (if k.sectors16 ≠ 0 then k.sectors16 else (if k.sectors16 = 0 then k.fatSectors else 0)) = _
  by_cases hz : k.sectors16 = 0
  · rw [if_neg (by simpa using hz), if_pos hz]
  · rw [if_pos hz]
    have : k.kind ≠ .fat32 := fun e => hz ((sectors16_zero h).mpr e)
    unfold Disk.sectors16
    cases hk : k.kind <;> rw [hk] at this <;> simp at this ⊢

/-- The type the code finds. -/
def typeOf : Kind → Fat.FatType
  | .fat12 => .fat12
  | .fat16 => .fat16
  | .fat32 => .fat32

theorem kindOf_typeOf (kind : Kind) : kindOf (typeOf kind) = kind := by cases kind <;> rfl

theorem spc_pos {k : Disk} (h : k.Ok) : 0 < k.spc := by rcases h.spc with h | h | h | h | h | h | h | h <;> omega

theorem bps_pos {k : Disk} (h : k.Ok) : 512 ≤ k.bps := by rcases h.bps with h | h | h | h <;> omega

theorem type_bpb {k : Disk} (h : k.Ok) : Fat.determineFatType k.bpb 0 = typeOf k.kind := by
  have ht := h.typed
  have hs := h.fatSectors.1
  have hspc := spc_pos h
  have htot : Fat.totalSectors k.bpb = k.total := rfl
  unfold Fat.determineFatType
  rw [fatSize_bpb h, htot]
  simp only
  show (if k.sectors16 = 0 then (if (if k.sectors16 = 0 then k.fatSectors else 0) ≠ 0 then Fat.FatType.fat32 else _) else
    if 4085 ≤ ((k.total : Int) - (k.reserved + k.copies * k.fatSectors + ((0 : Nat) : Int))) / (k.spc : Int) then Fat.FatType.fat16 else .fat12) = _
  unfold Disk.Typed at ht
  cases hk : k.kind with
  | fat32 =>
    rw [if_pos ((sectors16_zero h).mpr hk), if_pos ((sectors16_zero h).mpr hk), if_pos (by omega)]
    rfl
  | fat16 =>
    rw [hk] at ht
    simp only at ht
    rw [if_neg (fun e => by have := (sectors16_zero h).mp e; rw [hk] at this; cases this), if_pos]
    · rfl
    · rw [Int.le_ediv_iff_mul_le (by omega)]
      have : (0 : Int) ≤ (k.rootEntries : Int) * 32 / k.bps := Int.ediv_nonneg (by omega) (by omega)
      simp only [Int.natCast_zero, Int.add_zero]
      generalize (k.copies : Int) * k.fatSectors = z at ht ⊢
      omega
  | fat12 =>
    rw [hk] at ht
    simp only at ht
    rw [if_neg (fun e => by have := (sectors16_zero h).mp e; rw [hk] at this; cases this), if_neg]
    · rfl
    · rw [Int.le_ediv_iff_mul_le (by omega)]
      simp only [Int.natCast_zero, Int.add_zero]
      generalize (k.copies : Int) * k.fatSectors = z at ht ⊢
      omega

/-- What the header tells. -/
def Disk.volume (k : Disk) : Fat.Volume :=
  ⟨k.bpb, typeOf k.kind, k.rootEntries * 32 / k.bps, k.reserved + k.fatSectors * k.copies,
    k.reserved + k.copies * k.fatSectors + k.rootEntries * 32 / k.bps⟩

theorem image_sector {k : Disk} (h : k.Ok) : k.image.take 512 = k.sector := by
  unfold Disk.image
  rw [List.take_left' (sector_length h)]

theorem round_up {n b : Nat} (hb : 0 < b) (h : n % b = 0) : (n + (b - 1)) / b = n / b := by
  obtain ⟨m, rfl⟩ := Nat.dvd_of_mod_eq_zero h
  rw [Nat.mul_div_cancel_left _ hb]
  have : (b * m + (b - 1)) / b = m + (b - 1) / b := by
    rw [Nat.add_comm, Nat.add_mul_div_left _ _ hb, Nat.add_comm]
  rw [this, Nat.div_eq_of_lt (by omega)]
  omega

theorem header_image {k : Disk} (h : k.Ok) : Fat.parseHeader k.image = .ok k.volume := by
  have hl := sector_length h
  have hlen : 512 ≤ k.image.length := by
    unfold Disk.image
    rw [List.length_append, hl]
    omega
  unfold Fat.parseHeader
  simp only
  rw [image_sector h, fields_sector h, verify_bpb h, if_neg (by rw [List.length_take]; omega), if_neg (by decide),
    if_neg (by rw [hl]; unfold Fat.headerLength; split <;> omega)]
  have hu : uint 2 k.image 510 = some 0xAA55 := by
    unfold uint
    rw [if_pos (by rw [List.length_take, List.length_drop]; omega)]
    have : Fat.field 2 k.image 510 = Fat.field 2 k.sector 510 := field_prefix _ _ _ _ (by omega)
    unfold Fat.field at this
    rw [this]
    exact congrArg some (signature_sector h)
  rw [hu]
  simp only
  rw [if_pos trivial, type_bpb h, fatSize_bpb h]
  unfold Disk.volume
  have hr := round_up (n := k.rootEntries * 32) (b := k.bps) (by have := bps_pos h; omega) h.rootEntries.2
  show Except.ok (Fat.Volume.mk k.bpb (typeOf k.kind) ((k.rootEntries * 32 + (k.bps - 1)) / k.bps) (k.reserved + k.fatSectors * k.copies)
    (k.reserved + k.copies * k.fatSectors + (k.rootEntries * 32 + (k.bps - 1)) / k.bps)) = _
  rw [hr]

/-! ## the table -/

theorem front_length {k : Disk} (h : k.Ok) : (k.sector ++ k.more).length = k.reserved * k.bps := by
  rw [List.length_append, sector_length h]
  exact h.more

theorem table_image {k : Disk} (h : k.Ok) :
    (k.image.drop (k.reserved * k.bps)).take (k.bps * k.fatSectors) = tableBytes k.kind k.fat ++ k.filler := by
  unfold Disk.image
  rw [← List.append_assoc, List.drop_left' (front_length h), List.take_left' (by rw [h.table, Nat.mul_comm])]

theorem loopWide_append (n mask : Nat) (hn : 0 < n) : ∀ (fat : List Nat) (rest : Data) (r : List Nat),
    (∀ e ∈ fat, e < 256 ^ n) → (∀ e ∈ fat, e &&& mask = e) → FatTable.loopWide n mask hn rest = .ok r →
    FatTable.loopWide n mask hn (fat.flatMap (toLE · n) ++ rest) = .ok (fat ++ r) := by
  intro fat rest r
  induction fat with
  | nil => intro _ _ h; exact h
  | cons e es ih =>
    intro h1 h2 h
    have hr := ih (fun x hx => h1 x (List.mem_cons_of_mem _ hx)) (fun x hx => h2 x (List.mem_cons_of_mem _ hx)) h
    rw [List.flatMap_cons, List.append_assoc, FatTable.loopWide]
    rw [dif_neg, if_neg, List.drop_left' (length_toLE e n), hr, List.take_left' (length_toLE e n),
      leNat_toLE e n (h1 e List.mem_cons_self), h2 e List.mem_cons_self]
    · rfl
    · rw [List.length_append, length_toLE]
      omega
    · intro he
      have := congrArg List.length he
      rw [List.length_append, length_toLE, List.length_nil] at this
      omega

/-- Tables of whole entries are read completely. -/
theorem loopWide_total (n mask : Nat) (hn : 0 < n) : ∀ (m : Nat) (d : Data), d.length = n * m →
    ∃ r, FatTable.loopWide n mask hn d = .ok r ∧ r.length = m := by
  intro m
  induction m with
  | zero =>
    intro d hd
    have : d = [] := List.length_eq_zero_iff.mp (by omega)
    subst this
    exact ⟨[], by rw [FatTable.loopWide, dif_pos rfl], rfl⟩
  | succ m ih =>
    intro d hd
    rw [Nat.mul_succ] at hd
    obtain ⟨r, hr, hrl⟩ := ih (d.drop n) (by rw [List.length_drop]; omega)
    refine ⟨(leNat (d.take n) &&& mask) :: r, ?_, ?_⟩
    · rw [FatTable.loopWide, dif_neg (fun e => by rw [e, List.length_nil] at hd; omega), if_neg (by omega), hr]
    · rw [List.length_cons, hrl]

theorem entry12_prefix (a b : Data) (c : Nat) (h : FatTable.ceil15 (c + 1) ≤ a.length) :
    FatTable.entry12 (a ++ b) c = FatTable.entry12 a c := by
  unfold FatTable.entry12
  have h1 : 3 * c / 2 ≤ FatTable.ceil15 (c + 1) := by unfold FatTable.ceil15; omega
  rw [List.drop_append_of_le_length (by omega), List.take_append_of_le_length (by rw [List.length_drop]; omega)]

theorem wide_length (n : Nat) (fat : List Nat) : (fat.flatMap (toLE · n)).length = n * fat.length := by
  induction fat with
  | nil => rfl
  | cons e es ih =>
    rw [List.flatMap_cons, List.length_append, length_toLE, ih, List.length_cons, Nat.mul_succ]
    omega

/-- The entries that were written are read, and more behind them. -/
theorem table_read {k : Disk} (h : k.Ok) :
    ∃ r, parseFat k.kind (tableBytes k.kind k.fat ++ k.filler) = .ok (k.fat ++ r) ∧ 2 ≤ (k.fat ++ r).length := by
  have ht := h.table
  have he := h.entries
  have hs := h.fatSectors.1
  have hlen : 512 ≤ k.fatSectors * k.bps := Nat.le_trans (bps_pos h) (Nat.le_mul_of_pos_left _ hs)
  have hmod : k.fatSectors * k.bps % 4 = 0 := by
    rcases h.bps with e | e | e | e <;> rw [e] <;> omega
  cases hk : k.kind with
  | fat12 =>
    have hodd := h.odd hk
    rw [hk] at ht he
    simp only [tableBytes] at ht ⊢
    rw [FatTable.parse12_eq, ht]
    have hc : k.fat.length ≤ FatTable.count12 (k.fatSectors * k.bps) := by
      unfold FatTable.count12
      split <;> omega
    have h2c : 2 ≤ FatTable.count12 (k.fatSectors * k.bps) := by
      unfold FatTable.count12
      split <;> omega
    obtain ⟨m, hm⟩ : ∃ m, FatTable.count12 (k.fatSectors * k.bps) = k.fat.length + m := ⟨_, (Nat.add_sub_cancel' hc).symm⟩
    have e1 : (List.range (FatTable.count12 (k.fatSectors * k.bps))).map (FatTable.entry12 (FatTable.pairs12 k.fat ++ k.filler)) =
        k.fat ++ ((List.range m).map (k.fat.length + ·)).map (FatTable.entry12 (FatTable.pairs12 k.fat ++ k.filler)) := by
      rw [hm, List.range_add, List.map_append]
      congr 1
      have := FatTable.entries_range k.fat he k.fat.length (Nat.le_refl _)
      rw [List.take_length] at this
      rw [← this]
      have hgen : ∀ l : List Nat, (∀ c ∈ l, c < k.fat.length) → l.map (FatTable.entry12 (FatTable.pairs12 k.fat ++ k.filler)) =
          l.map (FatTable.entry12 (FatTable.pairs12 k.fat)) := by
        intro l hl
        apply List.map_congr_left
        intro c hcl
        apply entry12_prefix
        rw [FatTable.pairs12_length]
        have := hl c hcl
        unfold FatTable.ceil15
        omega
      have hl : (List.map (FatTable.entry12 (FatTable.pairs12 k.fat)) (List.range k.fat.length)).length = k.fat.length := by simp
      rw [this]
      rw [hgen _ (by intro c hc; simpa using hc), this]
    refine ⟨_, congrArg Except.ok e1, ?_⟩
    rw [← e1, List.length_map, List.length_range]
    exact h2c
  | fat16 =>
    rw [hk] at ht he
    simp only [tableBytes] at ht ⊢
    rw [List.length_append, wide_length] at ht
    obtain ⟨r, hr, hrl⟩ := loopWide_total 2 0xFFFF (by decide) (k.filler.length / 2) k.filler (by omega)
    refine ⟨r, ?_, ?_⟩
    · unfold parseFat
      refine loopWide_append 2 0xFFFF (by decide) k.fat k.filler r he ?_ hr
      intro e hm
      have := he e hm
      simp only [FatTable.limit] at this
      rw [show (0xFFFF : Nat) = 2 ^ 16 - 1 by decide, FatTable.and_mask, Nat.mod_eq_of_lt this]
    · rw [List.length_append, hrl]
      omega
  | fat32 =>
    rw [hk] at ht he
    simp only [tableBytes] at ht ⊢
    rw [List.length_append, wide_length] at ht
    obtain ⟨r, hr, hrl⟩ := loopWide_total 4 0x0FFFFFFF (by decide) (k.filler.length / 4) k.filler (by omega)
    have he' : ∀ e ∈ k.fat, e < 2 ^ 28 := he
    refine ⟨r, ?_, ?_⟩
    · unfold parseFat
      refine loopWide_append 4 0x0FFFFFFF (by decide) k.fat k.filler r (fun e hm => ?_) ?_ hr
      · have := he' e hm
        omega
      · intro e hm
        rw [show (0x0FFFFFFF : Nat) = 2 ^ 28 - 1 by decide, FatTable.and_mask, Nat.mod_eq_of_lt (he' e hm)]
    · rw [List.length_append, hrl]
      omega

theorem readTable_image {k : Disk} (h : k.Ok) : ∃ r, readTable k.volume k.image = .ok (k.fat ++ r) ∧ 2 ≤ (k.fat ++ r).length := by
  obtain ⟨r, hr, hl⟩ := table_read h
  refine ⟨r, ?_, hl⟩
  unfold readTable
  show (if ((k.image.drop (k.reserved * k.bps)).take (k.bps * Fat.fatSize k.bpb)).length ≠ k.bps * Fat.fatSize k.bpb then
    Except.error PyErr.fat else parseFat (kindOf (typeOf k.kind)) ((k.image.drop (k.reserved * k.bps)).take (k.bps * Fat.fatSize k.bpb))) = _
  rw [fatSize_bpb h, table_image h, h.table, Nat.mul_comm k.bps, if_neg (by simp), kindOf_typeOf, hr]

theorem dirty_image {k : Disk} (fat : List Nat) (h : 2 ≤ fat.length) : ∃ b, isDirty k.volume fat k.image = .ok b := by
  unfold isDirty
  split
  · exact ⟨_, rfl⟩
  · rw [List.getElem?_eq_getElem (by omega)]
    exact ⟨_, rfl⟩

theorem chain_append {kind : Kind} {fat : List Nat} (r : List Nat) {i : Nat} {cs : List Nat} (h : FatChain.Chain kind fat i cs) :
    FatChain.Chain kind (fat ++ r) i cs := by
  have hget : ∀ {j v : Nat}, fat[j]? = some v → (fat ++ r)[j]? = some v := by
    intro j v hj
    rw [List.getElem?_append_left (List.getElem?_eq_some_iff.mp hj).1]
    exact hj
  induction h with
  | last h1 h2 => exact .last (hget h1) h2
  | next h1 h2 _ ih => exact .next (hget h1) h2 ih

/-! ## the clusters -/

theorem flatten_drop (w : Nat) : ∀ (cs : List Data) (j : Nat) (c : Data) (rest : Data), (∀ c ∈ cs, c.length = w) → cs[j]? = some c →
    ((cs.flatten ++ rest).drop (j * w)).take w = c := by
  intro cs
  induction cs with
  | nil => intro j c rest _ h; simp at h
  | cons a cs ih =>
    intro j c rest hall hj
    have ha := hall a List.mem_cons_self
    cases j with
    | zero =>
      rw [List.getElem?_cons_zero, Option.some.injEq] at hj
      subst hj
      rw [Nat.zero_mul, List.drop_zero, List.flatten_cons, List.append_assoc, List.take_left' ha]
    | succ j =>
      rw [List.getElem?_cons_succ] at hj
      rw [Nat.succ_mul, Nat.add_comm, ← List.drop_drop, List.flatten_cons, List.append_assoc, List.drop_left' ha]
      exact ih j c rest (fun x hx => hall x (List.mem_cons_of_mem _ hx)) hj

theorem before_length {k : Disk} (h : k.Ok) :
    (k.sector ++ (k.more ++ ((tableBytes k.kind k.fat ++ k.filler) ++ k.others))).length = (k.reserved + k.fatSectors * k.copies) * k.bps := by
  have h1 := front_length h
  rw [List.length_append] at h1
  rw [List.length_append, List.length_append, List.length_append, h.table, h.others, Nat.add_mul, ← h1, ← Nat.add_assoc]
  obtain ⟨m, hm⟩ : ∃ m, k.copies = m + 1 := ⟨k.copies - 1, by have := h.copies.1; omega⟩
  rw [hm, Nat.add_sub_cancel, Nat.mul_succ, Nat.add_mul, Nat.mul_right_comm, Nat.mul_comm (k.fatSectors * k.bps) m]
  omega

theorem root_image {k : Disk} (h : k.Ok) :
    k.image.drop ((k.reserved + k.fatSectors * k.copies) * k.bps) = k.rootArea ++ (k.clusters.flatten ++ k.rest) := by
  have : k.image = (k.sector ++ (k.more ++ ((tableBytes k.kind k.fat ++ k.filler) ++ k.others))) ++
      (k.rootArea ++ (k.clusters.flatten ++ k.rest)) := by
    unfold Disk.image
    simp only [List.append_assoc]
  rw [this, List.drop_left' (before_length h)]

theorem address_image {k : Disk} (h : k.Ok) {c : Nat} (hc : 2 ≤ c) :
    clusterAddress k.volume c = (((k.reserved + k.fatSectors * k.copies) * k.bps + (k.rootEntries * 32 + (c - 2) * (k.bps * k.spc)) : Nat) : Int) := by
  unfold clusterAddress
  show (((c : Int) - 2) * k.spc + ((k.reserved + k.copies * k.fatSectors + k.rootEntries * 32 / k.bps : Nat) : Int)) * k.bps = _
  obtain ⟨m, rfl⟩ : ∃ m, c = m + 2 := ⟨c - 2, by omega⟩
  have hr : k.rootEntries * 32 / k.bps * k.bps = k.rootEntries * 32 := Nat.div_mul_cancel (Nat.dvd_of_mod_eq_zero h.rootEntries.2)
  have : ((m + 2 : Nat) : Int) - 2 = (m : Int) := by omega
  rw [this]
  have e : (m * k.spc + (k.reserved + k.copies * k.fatSectors + k.rootEntries * 32 / k.bps)) * k.bps =
      (k.reserved + k.fatSectors * k.copies) * k.bps + (k.rootEntries * 32 + (m + 2 - 2) * (k.bps * k.spc)) := by
    rw [Nat.add_mul, Nat.add_mul (k.reserved + _), hr, Nat.add_sub_cancel, Nat.mul_comm k.copies, Nat.mul_assoc m, Nat.mul_comm k.spc]
    omega
  rw [← e]
  simp

theorem cluster_length {k : Disk} (h : k.Ok) {c : Nat} (hc : 2 ≤ c ∧ c < k.clusters.length + 2) : (k.cluster c).length = k.bps * k.spc := by
  unfold Disk.cluster
  rw [List.getElem?_eq_getElem (by omega)]
  exact h.clusters _ (List.getElem_mem _)

/-- The bytes of a cluster are where the code looks for them. -/
theorem cluster_image {k : Disk} (h : k.Ok) {c : Nat} (hc : 2 ≤ c ∧ c < k.clusters.length + 2) :
    ¬ clusterAddress k.volume c < 0 ∧ (k.image.drop (clusterAddress k.volume c).toNat).take (k.bps * k.spc) = k.cluster c := by
  rw [address_image h hc.1]
  refine ⟨by omega, ?_⟩
  rw [Int.toNat_natCast, ← List.drop_drop, root_image h, ← List.drop_drop, List.drop_left' h.rootArea]
  unfold Disk.cluster
  rw [List.getElem?_eq_getElem (by omega)]
  exact flatten_drop _ _ _ _ _ h.clusters (List.getElem?_eq_getElem (by omega))

end Verif.FatImage
