import Verif.Py
import Verif.Bytes
import Verif.Sort

/-!
# C72, C101 – C103: directories and long names of FAT volumes
(core/ratarmountcore/_external/pyfatfs/PyFat.py:423-532; FATDirectoryEntry.py:193-219, 581-710; EightDotThree.py:71-119)

A directory is a list of slots of 32 bytes. Names are lists of UTF-16 code units: decoding them to characters, which fails for lone
surrogates, is not modelled. Folders are read when they are needed (`lazy_load`), so the entries of subfolders are not part of it.
-/

namespace Verif.FatNames

open Verif.Py Verif.Bin

/-- The 32 bytes of an entry (PyFat.py:440-450). -/
abbrev Slot := Data

/-- A byte of an entry (PyFat.py:440-450). -/
def byteAt (s : Slot) (i : Nat) : Nat := (s[i]?.getD 0).toNat

/-- One entry of `lfn_entries`, without the fields that are not used (FATDirectoryEntry.py:663-699). -/
structure Piece where
  ord : Nat
  chksum : Nat
  name : Data
  deriving DecidableEq, Repr

/-- `EightDotThree.checksum` (EightDotThree.py:110-119). -/
def checksum (name : Data) : Nat :=
  name.foldl (fun s c => (((s >>> 1) ||| (s &&& 1) <<< 7) + c.toNat) &&& 0xFF) 0

/-- `is_lfn_entry` (FATDirectoryEntry.py:649-661). -/
def isLfn (s : Slot) : Bool := (byteAt s 11 &&& 0x3F) == 0x0F && byteAt s 0 != 0xE5

/-- The layout `<B10sBBB12sH4s` (FATDirectoryEntry.py:585). -/
def pieceOf (s : Slot) : Piece :=
  ⟨byteAt s 0, byteAt s 13, (s.drop 1).take 10 ++ (s.drop 14).take 12 ++ (s.drop 28).take 4⟩

/-- `add_lfn_entry` (FATDirectoryEntry.py:664-698). -/
def addPiece (ps : List Piece) (s : Slot) : Except PyErr (List Piece) :=
  if byteAt s 26 + 256 * byteAt s 27 ≠ 0 then .error .fat
  else if ps.any (fun p => p.ord == byteAt s 0) then .error .fat
  else .ok (ps ++ [pieceOf s])

/-- `is_lfn_entry_complete` (FATDirectoryEntry.py:700-710). -/
def complete (ps : List Piece) : Bool := ps.any (fun p => p.ord &&& 0x40 == 0x40)

/-- `while name.endswith(b'\xFF\xFF'): name = name[:-2]` (FATDirectoryEntry.py:634-635), on the reversed bytes. -/
def stripRev : Data → Data
  | a :: b :: r => if a = 0xFF ∧ b = 0xFF then stripRev r else a :: b :: r
  | l => l

/-- `rstrip(b' ')` on bytes (EightDotThree.py:53-56). -/
def strip (d : Data) : Data := (stripRev d.reverse).reverse

/-- UTF-16 in little endian, as code units (FATDirectoryEntry.py:627-646). -/
def units : Data → List Nat
  | a :: b :: r => (a.toNat + 256 * b.toNat) :: units r
  | _ => []

/-- `FATLongDirectoryEntry.__str__` (FATDirectoryEntry.py:627-646). -/
def longName (ps : List Piece) : List Nat :=
  let u := units (strip ((sortBy (fun a b : Piece => decide (a.ord ≤ b.ord)) ps).flatMap Piece.name))
  if u.getLast? = some 0 then u.dropLast else u

/-- `FATDirectoryEntry` (FATDirectoryEntry.py:60-116): the slot with the other fields and the long name. -/
structure DirEntry where
  slot : Slot
  long : Option (List Nat)
  deriving DecidableEq, Repr

/-- The entry for a slot and the pieces before it (PyFat.py:495-505, `set_lfn_entry` FATDirectoryEntry.py:201-219): pieces that are not complete or have another
checksum are omitted. -/
def mkEntry (s : Slot) (tmp : List Piece) : DirEntry :=
  ⟨s, if complete tmp ∧ tmp.all (fun p => p.chksum == checksum (s.take 11)) = true then some (longName tmp) else none⟩

/-- `parse_dir_entries_in_address` (PyFat.py:455-516): the entries and the pieces that are left over. -/
def parseSlots : List Slot → List Piece → Except PyErr (List DirEntry × List Piece)
  | [], tmp => .ok ([], tmp)
  | s :: rest, tmp =>
    if byteAt s 0 = 0xE5 then parseSlots rest []
    else if byteAt s 0 = 0 then .ok ([], [])
    else if isLfn s then
      match addPiece tmp s with
      | .error e => .error e
      | .ok tmp => parseSlots rest tmp
    else match parseSlots rest [] with
      | .error e => .error e
      | .ok (es, t) => .ok (mkEntry s tmp :: es, t)

/-- `parse_dir_entries_in_cluster_chain` (PyFat.py:518-532). -/
def parseClusters : List (List Slot) → List Piece → Except PyErr (List DirEntry)
  | [], _ => .ok []
  | c :: cs, tmp => match parseSlots c tmp with
    | .error e => .error e
    | .ok (es, tmp) => match parseClusters cs tmp with
      | .error e => .error e
      | .ok es' => .ok (es ++ es')

/-! ## specification -/

def unitBytes (us : List Nat) : Data := us.flatMap (fun u => toLE u 2)

/-- A name is ended by a zero and filled up with 0xFFFF, unless it fills its last piece. -/
def pad (name : List Nat) : List Nat :=
  if name.length % 13 = 0 then name else name ++ 0 :: List.replicate (12 - name.length % 13) 0xFFFF

/-- The slot of one piece. -/
def slotOf (ord chk : Nat) (us : List Nat) : Slot :=
  [UInt8.ofNat ord] ++ (unitBytes us).take 10 ++ [0x0F, 0, UInt8.ofNat chk] ++ ((unitBytes us).drop 10).take 12 ++ [0, 0] ++
    (unitBytes us).drop 22

/-- The slots of the pieces, numbered from `i`; the last one is marked with 0x40. -/
def lfnSlots (chk : Nat) : Nat → List (List Nat) → List Slot
  | _, [] => []
  | i, c :: cs => if cs.isEmpty then [slotOf (i + 0x40) chk c] else slotOf i chk c :: lfnSlots chk (i + 1) cs

/-- Names that can be stored: up to 20 pieces, the last unit is neither the end mark nor the filling. -/
def Storable (name : List Nat) : Prop :=
  name ≠ [] ∧ (∀ u ∈ name, u < 65536) ∧ name.getLast? ≠ some 0 ∧ name.getLast? ≠ some 0xFFFF

/-- The pieces a name is split into. -/
def Split (name : List Nat) (cs : List (List Nat)) : Prop :=
  (∀ c ∈ cs, c.length = 13) ∧ cs.flatten = pad name ∧ cs.length ≤ 20

/-- A slot with a short name. -/
def Short (s : Slot) : Prop := byteAt s 0 ≠ 0 ∧ byteAt s 0 ≠ 0xE5 ∧ isLfn s = false

/-- A name with its slots on disk. -/
structure File where
  name : List Nat
  pieces : List (List Nat)
  slots : List Slot
  short : Slot

/-- The slots of the long name may be in any order. -/
structure File.Ok (f : File) : Prop where
  storable : Storable f.name
  split : Split f.name f.pieces
  slots : f.slots.Perm (lfnSlots (checksum (f.short.take 11)) 1 f.pieces)
  short : Short f.short

/-- An incomplete set of pieces is not shown as if it were a name. -/
def C101_statement : Prop :=
  ∀ (name : List Nat) (cs : List (List Nat)) (short : Slot) (slots : List Slot), Storable name → Split name cs → Short short →
    slots.Sublist (lfnSlots (checksum (short.take 11)) 1 cs) → slots.length < cs.length →
    parseSlots (slots ++ [short]) [] = .ok ([⟨short, none⟩], [])

/-- Whatever the slots are, the folder can be listed. -/
def C102_statement : Prop := ∀ slots : List Slot, ∃ r, parseSlots slots [] = .ok r

/-- The slots of a directory are those of its clusters, up to the end mark. -/
def C103_statement : Prop :=
  ∀ clusters : List (List Slot), (parseClusters clusters []).toOption = (parseSlots clusters.flatten []).toOption.map Prod.fst

/-! ## proofs: names -/

theorem strip_pair (d : Data) : strip (d ++ [0xFF, 0xFF]) = strip d := by
  simp [strip, stripRev]

theorem strip_other (d : Data) (a b : UInt8) (h : ¬ (a = 0xFF ∧ b = 0xFF)) : strip (d ++ [a, b]) = d ++ [a, b] := by
  have h' : ¬ (b = 0xFF ∧ a = 0xFF) := fun hh => h ⟨hh.2, hh.1⟩
  simp only [strip, List.reverse_append, List.reverse_cons, List.reverse_nil, List.nil_append, List.cons_append, stripRev, if_neg h']
  simp

theorem toLE_two (u : Nat) : toLE u 2 = [UInt8.ofNat (u % 256), UInt8.ofNat (u / 256 % 256)] := rfl

theorem toLE_ff (u : Nat) (hu : u < 65536) (h : u ≠ 0xFFFF) :
    ¬ (UInt8.ofNat (u % 256) = 0xFF ∧ UInt8.ofNat (u / 256 % 256) = 0xFF) := by
  intro ⟨h1, h2⟩
  have h1 := congrArg UInt8.toNat h1
  have h2 := congrArg UInt8.toNat h2
  simp only [UInt8.toNat_ofNat'] at h1 h2
  have e : (255 : UInt8).toNat = 255 := rfl
  rw [e] at h1 h2
  omega

theorem unitBytes_append (a b : List Nat) : unitBytes (a ++ b) = unitBytes a ++ unitBytes b := List.flatMap_append

theorem strip_filling (d : Data) (k : Nat) : strip (d ++ unitBytes (List.replicate k 0xFFFF)) = strip d := by
  induction k with
  | zero => simp [unitBytes]
  | succ k ih =>
    rw [List.replicate_succ', unitBytes_append, ← List.append_assoc]
    have : unitBytes [0xFFFF] = [0xFF, 0xFF] := by decide
    rw [this, strip_pair, ih]

theorem units_unitBytes (us : List Nat) (h : ∀ u ∈ us, u < 65536) : units (unitBytes us) = us := by
  induction us with
  | nil => rfl
  | cons u us ih =>
    have hu := h u List.mem_cons_self
    have : unitBytes (u :: us) = UInt8.ofNat (u % 256) :: UInt8.ofNat (u / 256 % 256) :: unitBytes us := rfl
    rw [this, units, ih (fun x hx => h x (List.mem_cons_of_mem _ hx))]
    congr 1
    simp only [UInt8.toNat_ofNat']
    omega

/-- Stripping and decoding undo the padding. -/
theorem decode_pad (name : List Nat) (h : Storable name) :
    (let u := units (strip (unitBytes (pad name))); if u.getLast? = some 0 then u.dropLast else u) = name := by
  obtain ⟨hne, hlt, h0, hf⟩ := h
  have hlast := List.dropLast_concat_getLast hne
  have hl : name.getLast? = some (name.getLast hne) := List.getLast?_eq_some_getLast hne
  unfold pad
  split
  · have hmem := hlt _ (List.getLast_mem hne)
    have hs : strip (unitBytes name) = unitBytes name := by
      rw [← hlast, unitBytes_append]
      have : unitBytes [name.getLast hne] = [UInt8.ofNat (name.getLast hne % 256), UInt8.ofNat (name.getLast hne / 256 % 256)] := rfl
      rw [this]
      exact strip_other _ _ _ (toLE_ff _ hmem (fun e => hf (by rw [hl, e])))
    simp only [hs, units_unitBytes name hlt, if_neg h0]
  · have hs : strip (unitBytes (name ++ 0 :: List.replicate (12 - name.length % 13) 0xFFFF)) = unitBytes (name ++ [0]) := by
      rw [show name ++ 0 :: List.replicate (12 - name.length % 13) 0xFFFF = (name ++ [0]) ++ List.replicate (12 - name.length % 13) 0xFFFF by
        simp, unitBytes_append, strip_filling, unitBytes_append]
      exact strip_other _ _ _ (by decide)
    have hu : units (unitBytes (name ++ [0])) = name ++ [0] := units_unitBytes _ (by
      intro u hu
      rcases List.mem_append.mp hu with hu | hu
      · exact hlt u hu
      · simp at hu; omega)
    simp only [hs, hu]
    simp

theorem unitBytes_length (us : List Nat) : (unitBytes us).length = 2 * us.length := by
  induction us with
  | nil => rfl
  | cons u us ih =>
    have : unitBytes (u :: us) = toLE u 2 ++ unitBytes us := rfl
    rw [this, List.length_append, ih, length_toLE, List.length_cons]
    omega

theorem slot_length (ord chk : Nat) (us : List Nat) (h : us.length = 13) : (slotOf ord chk us).length = 32 := by
  have := unitBytes_length us
  simp only [slotOf, List.length_append, List.length_take, List.length_drop, List.length_cons, List.length_nil]
  omega

theorem byteAt_append_right (a b : Data) (i : Nat) : byteAt (a ++ b) (a.length + i) = byteAt b i := by
  simp [byteAt, List.getElem?_append_right]

/-- What the layout gives for a slot that was written. -/
theorem slot_fields (ord chk : Nat) (us : List Nat) (h : us.length = 13) (ho : ord < 256) (hc : chk < 256) :
    pieceOf (slotOf ord chk us) = ⟨ord, chk, unitBytes us⟩ ∧ byteAt (slotOf ord chk us) 0 = ord ∧
      byteAt (slotOf ord chk us) 11 = 0x0F ∧ byteAt (slotOf ord chk us) 26 = 0 ∧ byteAt (slotOf ord chk us) 27 = 0 := by
  have hl := unitBytes_length us
  rw [h] at hl
  generalize hb : unitBytes us = b at *
  have h1 : (b.take 10).length = 10 := by simp; omega
  have h2 : ((b.drop 10).take 12).length = 12 := by simp; omega
  have hbb : b = b.take 10 ++ ((b.drop 10).take 12 ++ b.drop 22) := by
    rw [show b.drop 22 = (b.drop 10).drop 12 by rw [List.drop_drop], List.take_append_drop, List.take_append_drop]
  have hs : slotOf ord chk us = UInt8.ofNat ord :: (b.take 10 ++ ([0x0F, 0, UInt8.ofNat chk] ++ ((b.drop 10).take 12 ++ ([0, 0] ++ b.drop 22)))) := by
    simp only [slotOf, hb, List.append_assoc]
    rfl
  have b0 : byteAt (slotOf ord chk us) 0 = ord := by
    rw [hs]
    simp only [byteAt, List.getElem?_cons_zero, Option.getD_some, UInt8.toNat_ofNat']
    omega
  have d1 : (slotOf ord chk us).drop 1 = b.take 10 ++ ([0x0F, 0, UInt8.ofNat chk] ++ ((b.drop 10).take 12 ++ ([0, 0] ++ b.drop 22))) := by
    rw [hs]; rfl
  have d11 : (slotOf ord chk us).drop 11 = [0x0F, 0, UInt8.ofNat chk] ++ ((b.drop 10).take 12 ++ ([0, 0] ++ b.drop 22)) := by
    rw [show (11 : Nat) = 1 + 10 from rfl, ← List.drop_drop, d1, List.drop_left' h1]
  have d14 : (slotOf ord chk us).drop 14 = (b.drop 10).take 12 ++ ([0, 0] ++ b.drop 22) := by
    rw [show (14 : Nat) = 11 + 3 from rfl, ← List.drop_drop, d11]; rfl
  have d26 : (slotOf ord chk us).drop 26 = [0, 0] ++ b.drop 22 := by
    rw [show (26 : Nat) = 14 + 12 from rfl, ← List.drop_drop, d14, List.drop_left' h2]
  have d28 : (slotOf ord chk us).drop 28 = b.drop 22 := by
    rw [show (28 : Nat) = 26 + 2 from rfl, ← List.drop_drop, d26]; rfl
  have get : ∀ i k, byteAt (slotOf ord chk us) (i + k) = byteAt ((slotOf ord chk us).drop i) k := by
    intro i k
    simp [byteAt, List.getElem?_drop]
  have b13 : byteAt (slotOf ord chk us) 13 = chk := by
    rw [show (13 : Nat) = 11 + 2 from rfl, get, d11]
    simp only [byteAt, List.cons_append, List.getElem?_cons_succ, List.getElem?_cons_zero, Option.getD_some, UInt8.toNat_ofNat']
    omega
  refine ⟨?_, b0, ?_, ?_, ?_⟩
  · unfold pieceOf
    rw [b0, b13, d1, d14, d28, List.take_left' h1, List.take_left' h2,
      List.take_of_length_le (l := b.drop 22) (by rw [List.length_drop]; omega)]
    congr 1
    rw [List.append_assoc]
    exact hbb.symm
  · rw [show (11 : Nat) = 11 + 0 from rfl, get, d11]; rfl
  · rw [show (26 : Nat) = 26 + 0 from rfl, get, d26]; rfl
  · rw [show (27 : Nat) = 26 + 1 from rfl, get, d26]; rfl

/-- Slots that hold a piece as the format wants it. -/
def Proper (s : Slot) : Prop :=
  isLfn s = true ∧ byteAt s 0 ≠ 0 ∧ byteAt s 0 ≠ 0xE5 ∧ byteAt s 26 + 256 * byteAt s 27 = 0

theorem parse_pieces (rest : List Slot) : ∀ (ss : List Slot) (tmp : List Piece), (∀ s ∈ ss, Proper s) →
    (tmp.map Piece.ord ++ ss.map (fun s => byteAt s 0)).Nodup →
    parseSlots (ss ++ rest) tmp = parseSlots rest (tmp ++ ss.map pieceOf) := by
  intro ss
  induction ss with
  | nil => intro tmp _ _; simp
  | cons s ss ih =>
    intro tmp hp hn
    obtain ⟨h1, h2, h3, h4⟩ := hp s List.mem_cons_self
    rw [List.cons_append, parseSlots, if_neg h3, if_neg h2, if_pos h1]
    have hany : tmp.any (fun p => p.ord == byteAt s 0) = false := by
      rw [List.any_eq_false]
      intro p hp he
      rw [List.map_cons] at hn
      have := (List.nodup_append.mp hn).2.2 p.ord (List.mem_map.mpr ⟨p, hp, rfl⟩) (byteAt s 0) List.mem_cons_self
      exact this (by simpa using he)
    have : addPiece tmp s = .ok (tmp ++ [pieceOf s]) := by
      unfold addPiece
      rw [if_neg (by omega), hany]
      simp
    rw [this]
    simp only
    rw [ih _ (fun x hx => hp x (List.mem_cons_of_mem _ hx)) (by
      simp only [List.map_append, List.map_cons, List.map_nil, List.append_assoc, List.cons_append, List.nil_append] at hn ⊢
      exact hn)]
    simp

/-- The pieces of the slots that were written. -/
def canon (chk : Nat) : Nat → List (List Nat) → List Piece
  | _, [] => []
  | i, c :: cs => if cs.isEmpty then [⟨i + 0x40, chk, unitBytes c⟩] else ⟨i, chk, unitBytes c⟩ :: canon chk (i + 1) cs

theorem canon_name (chk : Nat) : ∀ (cs : List (List Nat)) (i : Nat), (canon chk i cs).flatMap Piece.name = unitBytes cs.flatten := by
  intro cs
  induction cs with
  | nil => intro i; rfl
  | cons c cs ih =>
    intro i
    rw [canon]
    split
    · next h =>
      rw [List.isEmpty_iff] at h
      subst h
      simp
    · rw [List.flatMap_cons, ih, List.flatten_cons, unitBytes_append]

theorem canon_facts (chk : Nat) : ∀ (cs : List (List Nat)) (i : Nat), i + cs.length ≤ 0x40 →
    (canon chk i cs).Pairwise (fun a b => a.ord < b.ord) ∧ (∀ p ∈ canon chk i cs, i ≤ p.ord ∧ p.chksum = chk) ∧
    (cs ≠ [] → complete (canon chk i cs) = true) := by
  intro cs
  induction cs with
  | nil => intro i _; exact ⟨List.Pairwise.nil, by simp [canon], by simp⟩
  | cons c cs ih =>
    intro i hi
    rw [List.length_cons] at hi
    have hbit : ∀ i < 64, (i + 0x40) &&& 0x40 = 0x40 := by decide
    rw [canon]
    split
    · refine ⟨by simp, by simp, ?_⟩
      intro _
      simp only [complete, List.any_cons, List.any_nil, Bool.or_false, hbit i (by omega)]
      rfl
    · next hne =>
      obtain ⟨h1, h2, h3⟩ := ih (i + 1) (by omega)
      refine ⟨?_, ?_, ?_⟩
      · refine List.Pairwise.cons ?_ h1
        intro p hp
        have := (h2 p hp).1
        simp only
        omega
      · intro p hp
        rcases List.mem_cons.mp hp with rfl | hp
        · exact ⟨Nat.le_refl _, rfl⟩
        · have := h2 p hp; exact ⟨by omega, this.2⟩
      · intro _
        have := h3 (by intro h; rw [h] at hne; simp at hne)
        simp only [complete, List.any_cons, Bool.or_eq_true] at this ⊢
        exact Or.inr this

theorem lfnSlots_facts (chk : Nat) (hc : chk < 256) : ∀ (cs : List (List Nat)) (i : Nat), (∀ c ∈ cs, c.length = 13) → 0 < i →
    i + cs.length ≤ 0x40 → (lfnSlots chk i cs).map pieceOf = canon chk i cs ∧ ∀ s ∈ lfnSlots chk i cs, Proper s := by
  have proper : ∀ (o : Nat) (us : List Nat), us.length = 13 → 0 < o → o < 0x80 → Proper (slotOf o chk us) := by
    intro o us hu h1 h2
    obtain ⟨_, b0, b11, b26, b27⟩ := slot_fields o chk us hu (by omega) hc
    refine ⟨?_, by omega, by omega, by omega⟩
    unfold isLfn
    rw [b0, b11]
    have : o ≠ 0xE5 := by omega
    simp [this]
  intro cs
  induction cs with
  | nil => intro i _ _ _; exact ⟨rfl, by simp [lfnSlots]⟩
  | cons c cs ih =>
    intro i hl hi hb
    have hcl := hl c List.mem_cons_self
    rw [List.length_cons] at hb
    rw [lfnSlots, canon]
    split
    · refine ⟨?_, ?_⟩
      · rw [List.map_cons, List.map_nil, (slot_fields (i + 0x40) chk c hcl (by omega) hc).1]
      · intro s hs
        rw [List.mem_singleton] at hs
        subst hs
        exact proper _ _ hcl (by omega) (by omega)
    · obtain ⟨h1, h2⟩ := ih (i + 1) (fun x hx => hl x (List.mem_cons_of_mem _ hx)) (by omega) (by omega)
      refine ⟨?_, ?_⟩
      · rw [List.map_cons, h1, (slot_fields i chk c hcl (by omega) hc).1]
      · intro s hs
        rcases List.mem_cons.mp hs with rfl | hs
        · exact proper _ _ hcl hi (by omega)
        · exact h2 s hs

theorem checksum_lt (d : Data) : checksum d < 256 := by
  have key : ∀ (d : Data) (s : Nat), s < 256 → d.foldl (fun s c => (((s >>> 1) ||| (s &&& 1) <<< 7) + c.toNat) &&& 0xFF) s < 256 := by
    intro d
    induction d with
    | nil => intro s hs; exact hs
    | cons c d ih =>
      intro s _
      rw [List.foldl_cons]
      apply ih
      rw [show (0xFF : Nat) = 2 ^ 8 - 1 from rfl, Nat.and_two_pow_sub_one_eq_mod]
      omega
  exact key d 0 (by omega)

/-- **C72**: the checksum is the one of the format: in eight bits, rotate to the right by one and add the next character. -/
theorem C72_sum (name : Data) : checksum name = name.foldl (fun s c => (s / 2 + 128 * (s % 2) + c.toNat) % 256) 0 := by
  have key : ∀ (d : Data) (s : Nat), s < 256 → d.foldl (fun s c => (((s >>> 1) ||| (s &&& 1) <<< 7) + c.toNat) &&& 0xFF) s =
      d.foldl (fun s c => (s / 2 + 128 * (s % 2) + c.toNat) % 256) s := by
    intro d
    induction d with
    | nil => intro s _; rfl
    | cons c d ih =>
      intro s hs
      have h1 : (s >>> 1) ||| (s &&& 1) <<< 7 = s / 2 + 128 * (s % 2) := by
        have h := Nat.shiftLeft_add_eq_or_of_lt (i := 7) (a := s &&& 1) (b := s >>> 1) (by
          rw [Nat.shiftRight_eq_div_pow]; omega)
        rw [Nat.or_comm, ← h, Nat.shiftLeft_eq, Nat.shiftRight_eq_div_pow, Nat.and_one_is_mod]
        omega
      have h2 : ∀ n : Nat, n &&& 0xFF = n % 256 := fun n => Nat.and_two_pow_sub_one_eq_mod n 8
      rw [List.foldl_cons, List.foldl_cons, h1, h2]
      exact ih _ (Nat.mod_lt _ (by omega))
  exact key name 0 (by omega)

/-- Sorting pieces in any order gives them in the order of their numbers. -/
theorem sort_canon {l m : List Piece} (h : l.Perm m) (hs : m.Pairwise (fun a b => a.ord < b.ord)) :
    sortBy (fun a b : Piece => decide (a.ord ≤ b.ord)) l = m := by
  have h1 : (sortBy (fun a b : Piece => decide (a.ord ≤ b.ord)) l).Pairwise (fun a b => a.ord ≤ b.ord) := by
    have := sortBy_pairwise (le := fun a b : Piece => decide (a.ord ≤ b.ord))
      (by intro a b c; simp only [decide_eq_true_eq]; omega) (by intro a b; simp only [decide_eq_true_eq]; omega) l
    exact this.imp (by intro a b; simp)
  have hp := (sortBy_perm (fun a b : Piece => decide (a.ord ≤ b.ord)) l).trans h
  have hinj : ∀ a b : Piece, a ∈ m → b ∈ m → a.ord = b.ord → a = b := by
    intro a b ha hb he
    clear hp h h1
    induction m with
    | nil => cases ha
    | cons x m ih =>
      rw [List.pairwise_cons] at hs
      rcases List.mem_cons.mp ha with rfl | ha'
      · rcases List.mem_cons.mp hb with rfl | hb'
        · rfl
        · have := hs.1 b hb'; omega
      · rcases List.mem_cons.mp hb with rfl | hb'
        · have := hs.1 a ha'; omega
        · exact ih hs.2 ha' hb'
  refine List.Perm.eq_of_pairwise (le := fun a b : Piece => a.ord ≤ b.ord) ?_ h1 (hs.imp (by intro a b; omega)) hp
  intro a b ha hb h1 h2
  exact hinj a b ((hp.mem_iff).mp ha) hb (by omega)

theorem nodup_of_increasing {l m : List Piece} (h : l.Perm m) (hs : m.Pairwise (fun a b => a.ord < b.ord)) :
    (l.map Piece.ord).Nodup := by
  refine ((h.map Piece.ord).nodup_iff).mpr ?_
  rw [List.Nodup, List.pairwise_map]
  exact hs.imp (by intro a b; omega)

/-- Slots of pieces with any checksum, in any order, and the short name behind them. -/
theorem parse_file (name : List Nat) (cs : List (List Nat)) (chk : Nat) (hc : chk < 256) (slots : List Slot) (short : Slot)
    (hsplit : Split name cs) (hslots : slots.Perm (lfnSlots chk 1 cs)) (hshort : Short short) (rest : List Slot) :
    ∃ ps : List Piece, ps.Perm (canon chk 1 cs) ∧ parseSlots (slots ++ short :: rest) [] = match parseSlots rest [] with
      | .error e => .error e
      | .ok (es, t) => .ok (mkEntry short ps :: es, t) := by
  obtain ⟨hl, hflat, hlen⟩ := hsplit
  obtain ⟨hs1, hs2⟩ := lfnSlots_facts chk hc cs 1 hl (by omega) (by omega)
  obtain ⟨hinc, hall, hcomp⟩ := canon_facts chk cs 1 (by omega)
  have hperm : (slots.map pieceOf).Perm (canon chk 1 cs) := hs1 ▸ hslots.map pieceOf
  refine ⟨slots.map pieceOf, hperm, ?_⟩
  rw [parse_pieces (short :: rest) slots [] (fun s hs => hs2 s (hslots.mem_iff.mp hs)) (by
    have := nodup_of_increasing hperm hinc
    rw [List.map_map] at this
    exact this)]
  rw [parseSlots, if_neg hshort.2.1, if_neg hshort.1, if_neg (by rw [hshort.2.2]; simp), List.nil_append]

theorem pieces_ne_nil {name : List Nat} {cs : List (List Nat)} (h : Storable name) (hs : Split name cs) : cs ≠ [] := by
  intro he
  have := hs.2.1
  rw [he] at this
  simp only [List.flatten_nil] at this
  unfold pad at this
  split at this
  · exact h.1 this.symm
  · simp at this

/-- **C72**: the slots of a long name, in any order, give back the name. -/
theorem C72_name (f : File) (h : f.Ok) (rest : List Slot) :
    parseSlots (f.slots ++ f.short :: rest) [] = match parseSlots rest [] with
      | .error e => .error e
      | .ok (es, t) => .ok (⟨f.short, some f.name⟩ :: es, t) := by
  obtain ⟨ps, hp, hparse⟩ := parse_file f.name f.pieces _ (checksum_lt _) f.slots f.short h.split h.slots h.short rest
  rw [hparse]
  obtain ⟨hinc, hall, hcomp⟩ := canon_facts (checksum (f.short.take 11)) f.pieces 1 (by have := h.split.2.2; omega)
  have h1 : complete ps = true := by
    have := hcomp (pieces_ne_nil h.storable h.split)
    rw [complete, List.any_eq_true] at this ⊢
    obtain ⟨p, hpm, hpo⟩ := this
    exact ⟨p, hp.mem_iff.mpr hpm, hpo⟩
  have h2 : ps.all (fun p => p.chksum == checksum (f.short.take 11)) = true := by
    rw [List.all_eq_true]
    intro p hpm
    rw [(hall p (hp.mem_iff.mp hpm)).2]
    simp
  have h3 : longName ps = f.name := by
    unfold longName
    rw [sort_canon hp hinc, canon_name, h.split.2.1]
    exact decode_pad f.name h.storable
  have : mkEntry f.short ps = ⟨f.short, some f.name⟩ := by
    unfold mkEntry
    rw [if_pos ⟨h1, h2⟩, h3]
  rw [this]

/-- **C72** for whole directories: all names, in the order of the directory. -/
theorem C72_directory (fs : List File) (h : ∀ f ∈ fs, f.Ok) :
    parseSlots (fs.flatMap (fun f => f.slots ++ [f.short])) [] =
      .ok (fs.map (fun f => ⟨f.short, some f.name⟩), []) := by
  induction fs with
  | nil => rfl
  | cons f fs ih =>
    rw [List.flatMap_cons, List.append_assoc, List.singleton_append, C72_name f (h f List.mem_cons_self),
      ih (fun x hx => h x (List.mem_cons_of_mem _ hx))]
    rfl

/-- **C72**: pieces that belong to another short name are ignored. -/
theorem C72_checksum (name : List Nat) (cs : List (List Nat)) (chk : Nat) (hc : chk < 256) (slots : List Slot) (short : Slot)
    (hsplit : Split name cs) (hslots : slots.Perm (lfnSlots chk 1 cs)) (hshort : Short short)
    (hne : chk ≠ checksum (short.take 11)) (rest : List Slot) :
    parseSlots (slots ++ short :: rest) [] = match parseSlots rest [] with
      | .error e => .error e
      | .ok (es, t) => .ok (⟨short, none⟩ :: es, t) := by
  obtain ⟨ps, hp, hparse⟩ := parse_file name cs chk hc slots short hsplit hslots hshort rest
  rw [hparse]
  obtain ⟨_, hall, hcomp⟩ := canon_facts chk cs 1 (by have := hsplit.2.2; omega)
  have : mkEntry short ps = ⟨short, none⟩ := by
    unfold mkEntry
    rw [if_neg]
    intro ⟨hc1, h2⟩
    rw [complete, List.any_eq_true] at hc1
    obtain ⟨p, hpm, _⟩ := hc1
    rw [List.all_eq_true] at h2
    have := h2 p hpm
    rw [(hall p (hp.mem_iff.mp hpm)).2] at this
    exact hne (by simpa using this)
  rw [this]

/-- `AVERYL~1TXT` with the attribute of a file. -/
def sampleShort : Slot := [65, 86, 69, 82, 89, 76, 126, 49, 84, 88, 84, 0x20] ++ List.replicate 20 0

/-- `a very long name.txt`. -/
def sampleName : List Nat := [97, 32, 118, 101, 114, 121, 32, 108, 111, 110, 103, 32, 110, 97, 109, 101, 46, 116, 120, 116]

def samplePieces : List (List Nat) := [(pad sampleName).take 13, (pad sampleName).drop 13]

theorem sample_storable : Storable sampleName := by
  refine ⟨by decide, by decide, by decide, by decide⟩

theorem sample_split : Split sampleName samplePieces := ⟨by decide, by decide, by decide⟩

theorem sample_short : Short sampleShort := ⟨by decide, by decide, by decide⟩

example : File.Ok ⟨sampleName, samplePieces, (lfnSlots (checksum (sampleShort.take 11)) 1 samplePieces).reverse, sampleShort⟩ :=
  ⟨sample_storable, sample_split, List.reverse_perm _, sample_short⟩

example : parseSlots ((lfnSlots (checksum (sampleShort.take 11)) 1 samplePieces).reverse ++ [sampleShort]) [] =
    .ok ([⟨sampleShort, some sampleName⟩], []) := by decide +kernel

/-! ## proofs: damaged directories -/

/-- **C101**, provable part: without the last piece there is no long name. Missing: other pieces that are not there. -/
theorem C101_last_partial (slots : List Slot) (short : Slot) (hs : ∀ s ∈ slots, Proper s)
    (hn : (slots.map (fun s => byteAt s 0)).Nodup) (hlast : ∀ s ∈ slots, byteAt s 0 &&& 0x40 ≠ 0x40) (hshort : Short short) :
    parseSlots (slots ++ [short]) [] = .ok ([⟨short, none⟩], []) := by
  rw [parse_pieces [short] slots [] hs (by simpa using hn), parseSlots, if_neg hshort.2.1, if_neg hshort.1,
    if_neg (by rw [hshort.2.2]; simp)]
  simp only [parseSlots, List.nil_append]
  have : mkEntry short (slots.map pieceOf) = ⟨short, none⟩ := by
    unfold mkEntry
    rw [if_neg]
    intro ⟨h, _⟩
    rw [complete, List.any_eq_true] at h
    obtain ⟨p, hp, ho⟩ := h
    obtain ⟨s, hsm, rfl⟩ := List.mem_map.mp hp
    exact hlast s hsm (by simpa [pieceOf] using ho)
  rw [this]

example : Proper (slotOf 1 0 (samplePieces.headD [])) ∧ byteAt (slotOf 1 0 (samplePieces.headD [])) 0 &&& 0x40 ≠ 0x40 := by
  refine ⟨⟨by decide, by decide, by decide, by decide⟩, by decide⟩

/-- C101 is violated: a file whose first piece is lost is shown with the end of its name as its name. -/
theorem C101_violated : ¬ C101_statement := by
  intro h
  have := h sampleName samplePieces sampleShort ((lfnSlots (checksum (sampleShort.take 11)) 1 samplePieces).drop 1)
    sample_storable sample_split sample_short (List.drop_sublist _ _) (by decide +kernel)
  revert this
  decide +kernel

/-- **C102**, provable part: folders can be listed if no run of long name slots has the same number twice and all of them have the
field for the cluster empty. Missing: all other folders. -/
theorem C102_partial (slots : List Slot) (hc : ∀ s ∈ slots, isLfn s = true → byteAt s 26 + 256 * byteAt s 27 = 0)
    (hn : ∀ a run b, slots = a ++ run ++ b → (∀ s ∈ run, isLfn s = true) → (run.map (fun s => byteAt s 0)).Nodup) :
    ∃ r, parseSlots slots [] = .ok r := by
  have key : ∀ (rest a run : List Slot), slots = a ++ run ++ rest → (∀ s ∈ run, isLfn s = true) →
      ∃ r, parseSlots rest (run.map pieceOf) = .ok r := by
    intro rest
    induction rest with
    | nil => intro a run _ _; exact ⟨_, rfl⟩
    | cons s rest ih =>
      intro a run he hrun
      have hnext : slots = (a ++ run ++ [s]) ++ [] ++ rest := by rw [he]; simp
      rw [parseSlots]
      split
      · exact ih _ [] hnext (by simp)
      · split
        · exact ⟨_, rfl⟩
        · split
          · next hl =>
            have h1 := hc s (by rw [he]; simp) hl
            have hrun' : ∀ x ∈ run ++ [s], isLfn x = true := by
              intro x hx
              rcases List.mem_append.mp hx with hx | hx
              · exact hrun x hx
              · rw [List.mem_singleton.mp hx]; exact hl
            have h2 := hn a (run ++ [s]) rest (by rw [he]; simp) hrun'
            have hany : (run.map pieceOf).any (fun p => p.ord == byteAt s 0) = false := by
              rw [List.any_eq_false]
              intro p hp he
              obtain ⟨x, hx, rfl⟩ := List.mem_map.mp hp
              rw [List.map_append] at h2
              exact (List.nodup_append.mp h2).2.2 (byteAt x 0) (List.mem_map.mpr ⟨x, hx, rfl⟩) (byteAt s 0) (by simp)
                (by simpa [pieceOf] using he)
            have : addPiece (run.map pieceOf) s = .ok ((run ++ [s]).map pieceOf) := by
              unfold addPiece
              rw [if_neg (by omega), hany]
              simp
            rw [this]
            exact ih a (run ++ [s]) (by rw [he]; simp) hrun'
          · obtain ⟨⟨es, t⟩, hr⟩ := ih _ [] hnext (by simp)
            rw [List.map_nil] at hr
            rw [hr]
            exact ⟨_, rfl⟩
  exact key slots [] [] (by simp) (by simp)

/-- C102 is violated: pieces that belong to no file and have the numbers of the next name hide the whole folder. -/
theorem C102_violated : ¬ C102_statement := by
  intro h
  obtain ⟨r, hr⟩ := h [slotOf 0x41 1 (samplePieces.headD []), slotOf 0x41 2 (samplePieces.headD []), sampleShort]
  have : parseSlots [slotOf 0x41 1 (samplePieces.headD []), slotOf 0x41 2 (samplePieces.headD []), sampleShort] [] = .error .fat := by
    decide +kernel
  rw [this] at hr
  cases hr

theorem parse_append (rest : List Slot) : ∀ (c : List Slot) (tmp : List Piece),
    parseSlots (c ++ rest) tmp = if c.any (fun s => byteAt s 0 == 0) then parseSlots c tmp else
      match parseSlots c tmp with
      | .error e => .error e
      | .ok (es, t) => match parseSlots rest t with
        | .error e => .error e
        | .ok (es', t') => .ok (es ++ es', t') := by
  intro c
  induction c with
  | nil =>
    intro tmp
    simp only [List.nil_append, List.any_nil, parseSlots]
    cases parseSlots rest tmp with
    | error e => rfl
    | ok r => rfl
  | cons s c ih =>
    intro tmp
    rw [List.cons_append, parseSlots, parseSlots, List.any_cons]
    by_cases h1 : byteAt s 0 = 0xE5
    · have h2 : ¬ byteAt s 0 = 0 := by omega
      rw [if_pos h1, if_pos h1, ih]
      simp [h1]
    · rw [if_neg h1, if_neg h1]
      by_cases h2 : byteAt s 0 = 0
      · rw [if_pos h2, if_pos h2]
        simp [h2]
      · rw [if_neg h2, if_neg h2]
        have h3 : (byteAt s 0 == 0) = false := by simpa using h2
        rw [h3, Bool.false_or]
        by_cases h4 : isLfn s = true
        · rw [if_pos h4, if_pos h4]
          cases addPiece tmp s with
          | error e => simp
          | ok t => exact ih t
        · rw [if_neg h4, if_neg h4, ih]
          by_cases ha : (c.any fun s => byteAt s 0 == 0) = true
          · rw [if_pos ha, if_pos ha]
          · rw [if_neg ha, if_neg ha]
            cases parseSlots c [] with
            | error e => rfl
            | ok r =>
              obtain ⟨es, t⟩ := r
              simp only
              cases parseSlots rest t with
              | error e => rfl
              | ok r => rfl

theorem parse_empty_clusters : ∀ (cs : List (List Slot)) (tmp : List Piece),
    (∀ c ∈ cs, ∃ s, c.head? = some s ∧ byteAt s 0 = 0) → parseClusters cs tmp = .ok [] := by
  intro cs
  induction cs with
  | nil => intro tmp _; rfl
  | cons c cs ih =>
    intro tmp h
    obtain ⟨s, hs, h0⟩ := h c List.mem_cons_self
    cases c with
    | nil => simp at hs
    | cons x c =>
      simp only [List.head?_cons, Option.some.injEq] at hs
      subst hs
      rw [parseClusters, parseSlots, if_neg (by omega), if_pos h0]
      simp only [ih [] (fun y hy => h y (List.mem_cons_of_mem _ hy))]
      rfl

/-- A cluster with an end mark leaves no pieces over. -/
theorem parse_end : ∀ (c : List Slot) (tmp : List Piece), (c.any fun s => byteAt s 0 == 0) = true → ∀ es t,
    parseSlots c tmp = .ok (es, t) → t = [] := by
  intro c
  induction c with
  | nil => intro tmp h; simp at h
  | cons s c ih =>
    intro tmp h es t hp
    rw [List.any_cons, Bool.or_eq_true] at h
    rw [parseSlots] at hp
    split at hp
    · next h1 =>
      rcases h with h | h
      · have : byteAt s 0 = 0 := by simpa using h
        omega
      · exact ih _ h _ _ hp
    · split at hp
      · injection hp with hp; injection hp with _ hp; exact hp.symm
      · next h2 =>
        have h : (c.any fun s => byteAt s 0 == 0) = true := by
          rcases h with h | h
          · exact absurd (by simpa using h) h2
          · exact h
        split at hp
        · split at hp
          · cases hp
          · exact ih _ h _ _ hp
        · split at hp
          · cases hp
          · next es' t' hr =>
            injection hp with hp
            injection hp with _ hp
            subst hp
            exact ih _ h _ _ hr

/-- **C103**, provable part: the end mark holds if the clusters behind it begin with end marks too, as those of new folders do.
Missing: clusters with other contents behind the end mark. -/
theorem C103_partial : ∀ (clusters : List (List Slot)) (tmp : List Piece),
    (∀ a c b, clusters = a ++ c :: b → (∃ s ∈ c, byteAt s 0 = 0) → ∀ d ∈ b, ∃ s, d.head? = some s ∧ byteAt s 0 = 0) →
    (parseClusters clusters tmp).toOption = (parseSlots clusters.flatten tmp).toOption.map Prod.fst := by
  intro clusters
  induction clusters with
  | nil => intro tmp _; rfl
  | cons c cs ih =>
    intro tmp h
    rw [List.flatten_cons, parse_append, parseClusters]
    by_cases hend : (c.any fun s => byteAt s 0 == 0) = true
    · rw [if_pos hend]
      have hrest : ∀ d ∈ cs, ∃ s, d.head? = some s ∧ byteAt s 0 = 0 := h [] c cs rfl (by
        rw [List.any_eq_true] at hend
        obtain ⟨s, hs, h0⟩ := hend
        exact ⟨s, hs, by simpa using h0⟩)
      cases hp : parseSlots c tmp with
      | error e => rfl
      | ok r =>
        obtain ⟨es, t⟩ := r
        simp only [parse_empty_clusters cs t hrest, List.append_nil]
        rfl
    · rw [if_neg hend]
      cases hp : parseSlots c tmp with
      | error e => rfl
      | ok r =>
        obtain ⟨es, t⟩ := r
        have := ih t (by
          intro a c' b he
          exact h (c :: a) c' b (by rw [he]; rfl))
        simp only
        cases h1 : parseClusters cs t with
        | error e =>
          rw [h1] at this
          cases h2 : parseSlots cs.flatten t with
          | error e' => rfl
          | ok r => rw [h2] at this; simp [Except.toOption] at this
        | ok r1 =>
          rw [h1] at this
          cases h2 : parseSlots cs.flatten t with
          | error e' => rw [h2] at this; simp [Except.toOption] at this
          | ok r =>
            rw [h2] at this
            simp only [Except.toOption, Option.map_some, Option.some.injEq] at this ⊢
            rw [this]

/-- C103 is violated: slots in the clusters behind the end mark are shown. -/
theorem C103_violated : ¬ C103_statement := by
  intro h
  have := h [[sampleShort, List.replicate 32 0], [sampleShort]]
  revert this
  decide +kernel

end Verif.FatNames
