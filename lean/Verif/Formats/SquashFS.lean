import Verif.Py
import Verif.FileSpec

/-!
# C66, C67: files of SquashFS images
(core/ratarmountcore/mountsource/formats/squashfs.py:141-267, 329-336)

The library PySquashfsImage is represented by the inode it gives and by `_read_data_block`, any function of the address and the
word of a block.
-/

namespace Verif.SquashFS

open Verif.Py Verif.FileSpec

/-- The fields of an inode the code uses. `blocks` is the block list without invalid entries (squashfs.py:154-159), `fragment` the address
and the word of the block that the fragment is in (`_read_fragment`, 174). -/
structure Inode where
  size : Nat
  start : Nat
  blocks : List Nat
  fragment : Nat × Nat
  fragOffset : Nat
  fragBytes : Nat
  deriving DecidableEq, Repr

/-- The image: the block size, the size of a stored block from its word (`SQUASHFS_COMPRESSED_SIZE_BLOCK`), `_read_data_block`,
and the zero byte (squashfs.py:142-203). -/
structure Image (α : Type) where
  blockSize : Nat
  compressedSize : Nat → Nat
  readDataBlock : Nat → Nat → List α
  zero : α

/-- `_compressedBlockOffsets` (squashfs.py:161-171) from address `pos`, for the blocks from number `i`. -/
def compressedOffsets (blockSize size : Nat) (csize : Nat → Nat) (pos : Nat) : Nat → List Nat → Except PyErr (List Int)
  | _, [] => .ok []
  | i, b :: bs =>
    let n := if i = size / blockSize then size % blockSize else blockSize
    if n = 0 then .error .assertionError
    else if b ≠ 0 then match compressedOffsets blockSize size csize (pos + csize b) (i + 1) bs with
      | .error e => .error e
      | .ok r => .ok ((pos : Int) :: r)
    else match compressedOffsets blockSize size csize pos (i + 1) bs with
      | .error e => .error e
      | .ok r => .ok (-(n : Int) :: r)

/-- `SquashFSFile` (squashfs.py:141-180): `io` is the position of `_bufferIO`, whose contents are the buffer. -/
structure SqFile (α : Type) where
  offset : Nat
  blockIndex : Nat
  buffer : List α
  io : Nat
  deriving DecidableEq, Repr

/-- `_refill_buffer` (squashfs.py:182-202): the new buffer. -/
def block {α : Type} (img : Image α) (ino : Inode) (offsets : List Int) (i : Nat) : List α :=
  match ino.blocks[i]? with
  | some b =>
    if b ≠ 0 then img.readDataBlock ((offsets[i]?).getD 0).toNat b
    else List.replicate (if (i + 1) * img.blockSize ≥ ino.size then ino.size - i * img.blockSize else img.blockSize) img.zero
  | none =>
    if ino.fragBytes ≠ 0 ∧ i = ino.blocks.length then
      ((img.readDataBlock ino.fragment.1 ino.fragment.2).drop ino.fragOffset).take ino.fragBytes
    else []

/-- The constructor (squashfs.py:142-180). -/
def openFile {α : Type} (img : Image α) (ino : Inode) : Except PyErr (List Int × SqFile α) :=
  match compressedOffsets img.blockSize ino.size img.compressedSize ino.start 0 ino.blocks with
  | .error e => .error e
  | .ok offsets => .ok (offsets, ⟨0, 0, block img ino offsets 0, 0⟩)

/-- `_buffer.read(size)` (squashfs.py:212-223). -/
def ioRead {α : Type} (buffer : List α) (pos : Nat) (n : Int) : List α :=
  if n < 0 then buffer.drop pos else (buffer.drop pos).take n.toNat

/-- `read1` (squashfs.py:212-222). -/
def SqFile.read1 {α : Type} (img : Image α) (ino : Inode) (offsets : List Int) (f : SqFile α) (n : Int) : List α × SqFile α :=
  let result := ioRead f.buffer f.io n
  if result ≠ [] ∨ f.buffer = [] then (result, { f with io := f.io + result.length })
  else
    let buffer := block img ino offsets (f.blockIndex + 1)
    let result := ioRead buffer 0 n
    (result, { f with blockIndex := f.blockIndex + 1, buffer := buffer, io := result.length })

theorem ioRead_length {α : Type} (buffer : List α) (pos : Nat) (n : Int) :
    (ioRead buffer pos n).length ≤ buffer.length - pos := by
  unfold ioRead
  split
  · simp
  · simp only [List.length_take, List.length_drop]; omega

theorem ioRead_nil {α : Type} (pos : Nat) (n : Int) : ioRead ([] : List α) pos n = [] := by
  simp [ioRead]

/-- What can still be read. -/
def SqFile.left {α : Type} (img : Image α) (ino : Inode) (offsets : List Int) (f : SqFile α) : Nat :=
  (f.buffer.length - f.io) +
    ((List.range' (f.blockIndex + 1) (ino.blocks.length - f.blockIndex)).map (fun i => (block img ino offsets i).length)).sum

theorem read1_less {α : Type} {img : Image α} {ino : Inode} {offsets : List Int} {f f' : SqFile α} {n : Int} {data : List α}
    (h : f.read1 img ino offsets n = (data, f')) (hd : ¬ data = []) : f'.left img ino offsets < f.left img ino offsets := by
  have hpos := List.length_pos_iff.mpr hd
  unfold SqFile.read1 at h
  simp only at h
  unfold SqFile.left
  split at h
  · injection h with h1 h2
    rw [h1] at h2
    subst h2
    have := ioRead_length f.buffer f.io n
    rw [h1] at this
    simp only
    omega
  · injection h with h1 h2
    subst h2
    simp only
    have hlt : f.blockIndex < ino.blocks.length := by
      rcases Nat.lt_or_ge f.blockIndex ino.blocks.length with h | h
      · exact h
      · exfalso
        apply hd
        rw [← h1]
        have hb : block img ino offsets (f.blockIndex + 1) = [] := by
          unfold block
          rw [List.getElem?_eq_none_iff.mpr (by omega)]
          simp only
          rw [if_neg (by omega)]
        rw [hb, ioRead_nil]
    have hr : ino.blocks.length - f.blockIndex = (ino.blocks.length - (f.blockIndex + 1)) + 1 := by omega
    rw [hr, List.range'_succ, List.map_cons, List.sum_cons]
    have := ioRead_length (block img ino offsets (f.blockIndex + 1)) 0 n
    rw [h1] at this ⊢
    omega

/-- The loop of `read` (squashfs.py:225-232) with `result` already read. -/
def SqFile.readLoop {α : Type} (img : Image α) (ino : Inode) (offsets : List Int) (n : Int) (f : SqFile α) (result : List α) :
    List α × SqFile α :=
  if n < 0 ∨ (result.length : Int) < n then
    match _h : f.read1 img ino offsets (if n < 0 then n else n - result.length) with
    | (data, f') => if _hd : data = [] then (result, f') else f'.readLoop img ino offsets n (result ++ data)
  else (result, f)
  termination_by f.left img ino offsets
  decreasing_by exact read1_less _h _hd

/-- `read` (squashfs.py:225-232). -/
def SqFile.read {α : Type} (img : Image α) (ino : Inode) (offsets : List Int) (f : SqFile α) (n : Int) : List α × SqFile α :=
  f.readLoop img ino offsets n []

/-- The position `seek` is asked for (squashfs.py:255-259). -/
def seekTarget (here size : Nat) (offset : Int) : Whence → Int
  | .set => offset
  | .cur => offset + here
  | .end_ => offset + size

/-- `seek` (squashfs.py:252-268). The assertion in `_refill_buffer` (squashfs.py:186) fails exactly for negative positions; what it leaves of the file is
not modelled. -/
def SqFile.seek {α : Type} (img : Image α) (ino : Inode) (offsets : List Int) (f : SqFile α) (offset : Int) (whence : Whence) :
    Except PyErr (Nat × SqFile α) :=
  let offset := seekTarget f.offset ino.size offset whence
  if offset < 0 then .error .assertionError
  else
    let o := offset.toNat
    let bufferOffset := f.blockIndex * img.blockSize
    let f' : SqFile α := if o < bufferOffset ∨ o ≥ bufferOffset + f.buffer.length then
        { f with blockIndex := o / img.blockSize, buffer := block img ino offsets (o / img.blockSize) }
      else f
    .ok (min o ino.size, { f' with offset := min o ino.size, io := o - f'.blockIndex * img.blockSize })

/-- `_join_inode_offset` (squashfs.py:329-332). -/
def joinInode (startBlock offset : Nat) : Except PyErr Nat :=
  if ¬ startBlock < 2 ^ 32 then .error .assertionError
  else if ¬ offset < 2 ^ 16 then .error .assertionError
  else .ok (startBlock <<< 16 + offset)

/-- `_split_inode_offset` (squashfs.py:334-336). -/
def splitInode (n : Nat) : Nat × Nat := (n >>> 16, n &&& 0xFFFF)

/-! ## specification -/

def SqFile.step {α : Type} (img : Image α) (ino : Inode) (offsets : List Int) (f : SqFile α) : FileOp → SqFile α × FileOut α
  | .read n => ((f.read img ino offsets n).2, .bytes (f.read img ino offsets n).1)
  | .seek o w => match f.seek img ino offsets o w with
    | .error e => (f, .err e)
    | .ok (r, f') => (f', .num r)
  | .tell => (f, .num f.offset)

def SqFile.run {α : Type} (img : Image α) (ino : Inode) (offsets : List Int) (f : SqFile α) : List FileOp → List (FileOut α)
  | [] => []
  | op :: ops => (f.step img ino offsets op).2 :: (f.step img ino offsets op).1.run img ino offsets ops

/-- Block number `i` of a file. -/
def chunk {α : Type} (bs : Nat) (content : List α) (i : Nat) : List α := (content.drop (i * bs)).take bs

/-- Where a block is stored: behind those before it, those without data left out. -/
def address (img : Image α) (ino : Inode) (i : Nat) : Nat :=
  ino.start + (((ino.blocks.take i).filter (· ≠ 0)).map img.compressedSize).sum

/-- The image holds this file, according to the format: full blocks, then a last shorter block or a fragment. Blocks of zeros
may be left out. -/
structure Stored {α : Type} (img : Image α) (ino : Inode) (content : List α) : Prop where
  size : ino.size = content.length
  bs : 0 < img.blockSize
  count : ino.blocks.length =
    if ino.fragBytes ≠ 0 then content.length / img.blockSize else (content.length + img.blockSize - 1) / img.blockSize
  fragment : ino.fragBytes ≠ 0 → ino.fragBytes = content.length % img.blockSize ∧
    ((img.readDataBlock ino.fragment.1 ino.fragment.2).drop ino.fragOffset).take ino.fragBytes =
      chunk img.blockSize content ino.blocks.length
  data : ∀ i b, ino.blocks[i]? = some b → b ≠ 0 → img.readDataBlock (address img ino i) b = chunk img.blockSize content i
  sparse : ∀ i, ino.blocks[i]? = some 0 → ∀ x ∈ chunk img.blockSize content i, x = img.zero

/-- The file gives what an in-memory file with the same contents gives. -/
def C66_statement (α : Type) : Prop :=
  ∀ (img : Image α) (ino : Inode) (content : List α) (ops : List FileOp), Stored img ino content →
    (BytesIO.mk content 0).accepts ops = true →
    ∃ offsets f, openFile img ino = .ok (offsets, f) ∧ f.run img ino offsets ops = (BytesIO.mk content 0).run ops

/-- Positions are asked for or used for a relative seek only if nothing was read since the last seek (`fresh`), and lie inside of
the file. -/
def Asks {α : Type} (m : BytesIO α) (fresh : Bool) : List FileOp → Bool
  | [] => true
  | .read n :: ops => Asks (m.step (.read n)).1 (fresh && n == 0) ops
  | .tell :: ops => fresh && Asks m fresh ops
  | .seek o w :: ops => (w != .cur || fresh) && decide (0 ≤ m.target o w) && decide (m.target o w ≤ m.content.length) &&
    Asks (m.step (.seek o w)).1 true ops

/-- No relative seeks. -/
def Absolute : FileOp → Bool
  | .seek _ .cur => false
  | _ => true

def FileOut.data? {α : Type} : FileOut α → Option (List α)
  | .bytes d => some d
  | _ => none

/-! ## proofs -/

/-- **C67** -/
theorem C67_roundtrip (startBlock offset : Nat) (h1 : startBlock < 2 ^ 32) (h2 : offset < 2 ^ 16) :
    ∃ n, joinInode startBlock offset = .ok n ∧ n < 2 ^ 48 ∧ splitInode n = (startBlock, offset) := by
  refine ⟨startBlock <<< 16 + offset, ?_, ?_, ?_⟩
  · unfold joinInode
    rw [if_neg (by omega), if_neg (by omega)]
  · rw [Nat.shiftLeft_eq]; omega
  · unfold splitInode
    have h3 : (startBlock <<< 16 + offset) &&& 0xFFFF = (startBlock <<< 16 + offset) % 2 ^ 16 :=
      Nat.and_two_pow_sub_one_eq_mod _ 16
    rw [h3, Nat.shiftRight_eq_div_pow, Nat.shiftLeft_eq]
    congr 1 <;> omega

example : joinInode 70000 65535 = .ok 4587585535 ∧ splitInode 4587585535 = (70000, 65535) := by decide

/-- Numbers that were not made from a block and an offset are rejected, so no two places share a number. -/
theorem C67_injective (b1 o1 b2 o2 n : Nat) (h1 : joinInode b1 o1 = .ok n) (h2 : joinInode b2 o2 = .ok n) : b1 = b2 ∧ o1 = o2 := by
  have key : ∀ b o, joinInode b o = .ok n → splitInode n = (b, o) := by
    intro b o h
    unfold joinInode at h
    split at h
    · cases h
    · next hb =>
      split at h
      · cases h
      · next ho =>
        injection h with h
        obtain ⟨n', e1, -, e2⟩ := C67_roundtrip b o (by omega) (by omega)
        unfold joinInode at e1
        rw [if_neg hb, if_neg ho] at e1
        injection e1 with e1
        rw [← h, e1]
        exact e2
  have := (key _ _ h1).symm.trans (key _ _ h2)
  injection this with e1 e2
  exact ⟨e1, e2⟩

theorem chunk_length {α : Type} (bs : Nat) (content : List α) (i : Nat) :
    (chunk bs content i).length = min bs (content.length - i * bs) := by
  simp [chunk]

/-- The addresses of the blocks are right and no assertion fails. -/
theorem offsets_spec {α : Type} {img : Image α} {ino : Inode} {content : List α} (h : Stored img ino content) :
    ∃ offsets, compressedOffsets img.blockSize ino.size img.compressedSize ino.start 0 ino.blocks = .ok offsets ∧
      ∀ i b, ino.blocks[i]? = some b → b ≠ 0 → offsets[i]? = some ((address img ino i : Nat) : Int) := by
  have hcount : ∀ i, i < ino.blocks.length → i = ino.size / img.blockSize → ino.size % img.blockSize ≠ 0 := by
    intro i hi he hm
    have hc := h.count
    have hbs := h.bs
    rw [h.size] at he hm
    split at hc
    · omega
    · have hd := Nat.div_add_mod content.length img.blockSize
      rw [hm, Nat.add_zero] at hd
      have : (content.length + img.blockSize - 1) / img.blockSize = content.length / img.blockSize := by
        generalize content.length / img.blockSize = q at *
        rw [← hd, Nat.add_sub_assoc hbs, Nat.mul_add_div hbs, Nat.div_eq_of_lt (Nat.sub_lt hbs Nat.one_pos), Nat.add_zero]
      omega
  have key : ∀ (bs : List Nat) (i pos : Nat), i + bs.length = ino.blocks.length →
      ∃ offsets, compressedOffsets img.blockSize ino.size img.compressedSize pos i bs = .ok offsets ∧
        ∀ j b, bs[j]? = some b → b ≠ 0 →
          offsets[j]? = some (((pos + (((bs.take j).filter (· ≠ 0)).map img.compressedSize).sum : Nat)) : Int) := by
    intro bs
    induction bs with
    | nil => intro i pos _; exact ⟨[], rfl, by simp⟩
    | cons b bs ih =>
      intro i pos hi
      rw [List.length_cons] at hi
      have hn : (if i = ino.size / img.blockSize then ino.size % img.blockSize else img.blockSize) ≠ 0 := by
        split
        · next he => exact hcount i (by omega) he
        · have := h.bs; omega
      unfold compressedOffsets
      simp only
      rw [if_neg hn]
      by_cases hb : b ≠ 0
      · rw [if_pos hb]
        obtain ⟨r, e1, e2⟩ := ih (i + 1) (pos + img.compressedSize b) (by omega)
        rw [e1]
        refine ⟨_, rfl, ?_⟩
        intro j c hj hc
        cases j with
        | zero => simp
        | succ j =>
          rw [List.getElem?_cons_succ] at hj ⊢
          rw [e2 j c hj hc, List.take_succ_cons, List.filter_cons, if_pos (by simpa using hb), List.map_cons, List.sum_cons,
            Nat.add_assoc]
      · rw [if_neg hb]
        obtain ⟨r, e1, e2⟩ := ih (i + 1) pos (by omega)
        rw [e1]
        refine ⟨_, rfl, ?_⟩
        intro j c hj hc
        cases j with
        | zero =>
          rw [List.getElem?_cons_zero] at hj
          injection hj with hj
          exact absurd (hj ▸ hc) hb
        | succ j =>
          rw [List.getElem?_cons_succ] at hj ⊢
          rw [e2 j c hj hc, List.take_succ_cons, List.filter_cons, if_neg (by simpa using hb)]
  exact key ino.blocks 0 ino.start (by omega)

/-- Every buffer is the block of the file with its number. -/
theorem block_spec {α : Type} {img : Image α} {ino : Inode} {content : List α} (h : Stored img ino content) {offsets : List Int}
    (ho : ∀ i b, ino.blocks[i]? = some b → b ≠ 0 → offsets[i]? = some ((address img ino i : Nat) : Int)) (i : Nat) :
    block img ino offsets i = chunk img.blockSize content i := by
  have hbs := h.bs
  unfold block
  cases hb : ino.blocks[i]? with
  | some b =>
    simp only
    by_cases h0 : b ≠ 0
    · rw [if_pos h0, ho i b hb h0]
      exact h.data i b hb h0
    · rw [if_neg h0]
      have h0' : b = 0 := by omega
      rw [h0'] at hb
      symm
      rw [List.eq_replicate_iff]
      refine ⟨?_, h.sparse i hb⟩
      rw [chunk_length, h.size, Nat.add_mul, Nat.one_mul]
      split <;> omega
  | none =>
    simp only
    rw [List.getElem?_eq_none_iff] at hb
    have hc := h.count
    by_cases hf : ino.fragBytes ≠ 0
    · rw [if_pos hf] at hc
      by_cases hi : i = ino.blocks.length
      · rw [if_pos ⟨hf, hi⟩, (h.fragment hf).2, hi]
      · rw [if_neg (fun h => hi h.2)]
        symm
        rw [← List.length_eq_zero_iff, chunk_length]
        have h1 : content.length < (content.length / img.blockSize + 1) * img.blockSize := by
          have := Nat.div_add_mod content.length img.blockSize
          have := Nat.mod_lt content.length hbs
          rw [Nat.add_mul, Nat.one_mul, Nat.mul_comm]
          omega
        have h2 : (content.length / img.blockSize + 1) * img.blockSize ≤ i * img.blockSize := Nat.mul_le_mul_right _ (by omega)
        omega
    · rw [if_neg (fun h => hf h.1)]
      rw [if_neg hf] at hc
      symm
      rw [← List.length_eq_zero_iff, chunk_length]
      have h1 : content.length ≤ (content.length + img.blockSize - 1) / img.blockSize * img.blockSize := by
        have := Nat.div_add_mod (content.length + img.blockSize - 1) img.blockSize
        have := Nat.mod_lt (content.length + img.blockSize - 1) hbs
        rw [Nat.mul_comm]
        omega
      have h2 : (content.length + img.blockSize - 1) / img.blockSize * img.blockSize ≤ i * img.blockSize :=
        Nat.mul_le_mul_right _ (by omega)
      omega

/-- The next byte the file reads is the one at position `p`. -/
structure At {α : Type} (bs : Nat) (content : List α) (f : SqFile α) (p : Nat) : Prop where
  buffer : f.buffer = chunk bs content f.blockIndex
  io : f.io ≤ bs
  drop : content.drop (f.blockIndex * bs + f.io) = content.drop p

theorem drop_chunk {α : Type} (bs : Nat) (content : List α) (i q : Nat) :
    (chunk bs content i).drop q = (content.drop (i * bs + q)).take (bs - q) := by
  unfold chunk
  rw [List.drop_take, List.drop_drop]

theorem ioRead_eq {α : Type} (bs : Nat) (content : List α) (i q : Nat) (n : Int) :
    ioRead (chunk bs content i) q n = (content.drop (i * bs + q)).take (if n < 0 then bs - q else min n.toNat (bs - q)) := by
  unfold ioRead
  rw [drop_chunk]
  split
  · rfl
  · rw [List.take_take]

/-- `read1` gives a part of what comes next, and only at the end nothing. -/
theorem read1_at {α : Type} {img : Image α} {ino : Inode} {content : List α} {offsets : List Int} (hbs : 0 < img.blockSize)
    (hblock : ∀ i, block img ino offsets i = chunk img.blockSize content i) {f : SqFile α} {p : Nat}
    (h : At img.blockSize content f p) (n : Int) (hn : n ≠ 0) :
    ∃ k f', f.read1 img ino offsets n = ((content.drop p).take k, f') ∧ k ≤ content.length - p ∧ (0 ≤ n → k ≤ n.toNat) ∧
      (p < content.length → 0 < k) ∧ At img.blockSize content f' (p + k) ∧ f'.offset = f.offset := by
  have hread : ioRead f.buffer f.io n =
      (content.drop p).take (if n < 0 then img.blockSize - f.io else min n.toNat (img.blockSize - f.io)) := by
    rw [h.buffer, ioRead_eq, h.drop]
  unfold SqFile.read1
  simp only
  by_cases hres : ioRead f.buffer f.io n ≠ [] ∨ f.buffer = []
  · rw [if_pos hres]
    refine ⟨(ioRead f.buffer f.io n).length, { f with io := f.io + (ioRead f.buffer f.io n).length }, ?_, ?_, ?_, ?_,
      ⟨h.buffer, ?_, ?_⟩, rfl⟩
    · congr 1
      conv => lhs; rw [hread]
      rw [hread, List.length_take, List.take_eq_take_iff]
      omega
    · rw [hread]; simp only [List.length_take, List.length_drop]; omega
    · intro hp
      rw [hread, if_neg (by omega)]
      simp only [List.length_take]
      omega
    · intro hp
      rcases hres with hres | hres
      · exact List.length_pos_iff.mpr hres
      · exfalso
        have hb := h.buffer
        rw [hres] at hb
        have hl := chunk_length img.blockSize content f.blockIndex
        rw [← hb, List.length_nil] at hl
        have hd := congrArg List.length h.drop
        simp only [List.length_drop] at hd
        omega
    · simp only
      have := ioRead_length f.buffer f.io n
      have hb := congrArg List.length h.buffer
      rw [chunk_length] at hb
      have := h.io
      rcases Nat.lt_or_ge f.io img.blockSize with h1 | h1 <;> omega
    · simp only
      rw [← Nat.add_assoc, ← List.drop_drop, h.drop, List.drop_drop]
  · rw [if_neg hres]
    have hres' : ioRead f.buffer f.io n = [] ∧ f.buffer ≠ [] := by
      constructor
      · apply Classical.byContradiction
        intro hc; exact hres (Or.inl hc)
      · intro hc; exact hres (Or.inr hc)
    -- what is left begins with the next block
    have hnext : content.drop ((f.blockIndex + 1) * img.blockSize) = content.drop p := by
      have hlen := congrArg List.length hres'.1
      rw [hread, List.length_take, List.length_drop, List.length_nil] at hlen
      rcases Nat.lt_or_ge p content.length with hp | hp
      · have hio : f.io = img.blockSize := by
          have := h.io
          split at hlen <;> omega
        rw [Nat.add_mul, Nat.one_mul]
        have := h.drop
        rw [hio] at this
        exact this
      · rw [List.drop_eq_nil_of_le hp, List.drop_eq_nil_of_le]
        have hd := congrArg List.length h.drop
        simp only [List.length_drop] at hd
        have := h.io
        rw [Nat.add_mul, Nat.one_mul]
        omega
    have hread2 : ioRead (block img ino offsets (f.blockIndex + 1)) 0 n =
        (content.drop p).take (if n < 0 then img.blockSize else min n.toNat img.blockSize) := by
      rw [hblock, ioRead_eq, Nat.add_zero, hnext, Nat.sub_zero]
    refine ⟨(ioRead (block img ino offsets (f.blockIndex + 1)) 0 n).length,
      { f with
        blockIndex := f.blockIndex + 1
        buffer := block img ino offsets (f.blockIndex + 1)
        io := (ioRead (block img ino offsets (f.blockIndex + 1)) 0 n).length }, ?_, ?_, ?_, ?_, ⟨hblock _, ?_, ?_⟩, rfl⟩
    · congr 1
      conv => lhs; rw [hread2]
      rw [hread2, List.length_take, List.take_eq_take_iff]
      omega
    · rw [hread2]; simp only [List.length_take, List.length_drop]; omega
    · intro hp
      rw [hread2, if_neg (by omega)]
      simp only [List.length_take]
      omega
    · intro hp
      rw [hread2, List.length_take, List.length_drop]
      split <;> omega
    · simp only
      rw [hread2, List.length_take]
      split <;> omega
    · simp only
      rw [← List.drop_drop, hnext, List.drop_drop]

theorem readLoop_at {α : Type} {img : Image α} {ino : Inode} {content : List α} {offsets : List Int} (hbs : 0 < img.blockSize)
    (hblock : ∀ i, block img ino offsets i = chunk img.blockSize content i) (n : Int) (p : Nat) :
    ∀ (left : Nat) (f : SqFile α) (j : Nat), content.length - (p + j) ≤ left → At img.blockSize content f (p + j) →
    (0 ≤ n → j ≤ n.toNat) → j ≤ content.length - p →
    ∃ f', f.readLoop img ino offsets n ((content.drop p).take j) =
      (if n < 0 then content.drop p else (content.drop p).take n.toNat, f') ∧
      At img.blockSize content f' (p + (if n < 0 then content.length - p else min n.toNat (content.length - p))) ∧
      f'.offset = f.offset := by
  intro left
  induction left with
  | zero =>
    intro f j hl hat hjn hj
    have hlen : ((content.drop p).take j).length = j := by simp; omega
    rw [SqFile.readLoop]
    by_cases hcond : n < 0 ∨ (((content.drop p).take j).length : Int) < n
    · rw [if_pos hcond]
      rw [hlen] at hcond ⊢
      obtain ⟨k, f', h1, h2, h3, h4, h5, h6⟩ := read1_at hbs hblock hat (if n < 0 then n else n - j) (by split <;> omega)
      have hk : k = 0 := by omega
      split
      next data f2 he =>
      rw [h1] at he
      injection he with he1 he2
      rw [dif_pos (by rw [← he1, hk]; rfl)]
      subst he2
      refine ⟨f', ?_, ?_, h6⟩
      · congr 1
        split
        · rw [List.take_of_length_le (by simp; omega)]
        · rw [List.take_of_length_le (by simp; omega), List.take_of_length_le (by simp; omega)]
      · rw [hk] at h5
        have : p + j + 0 = p + (if n < 0 then content.length - p else min n.toNat (content.length - p)) := by
          split <;> omega
        rw [this] at h5
        exact h5
    · rw [if_neg hcond]
      rw [hlen] at hcond
      have hn : ¬ n < 0 := fun h => hcond (Or.inl h)
      refine ⟨f, ?_, ?_, rfl⟩
      · rw [if_neg hn]
        congr 2
        omega
      · rw [if_neg hn]
        have : p + j = p + min n.toNat (content.length - p) := by omega
        rw [this] at hat
        exact hat
  | succ left ih =>
    intro f j hl hat hjn hj
    have hlen : ((content.drop p).take j).length = j := by simp; omega
    rw [SqFile.readLoop]
    by_cases hcond : n < 0 ∨ (((content.drop p).take j).length : Int) < n
    · rw [if_pos hcond]
      rw [hlen] at hcond ⊢
      obtain ⟨k, f', h1, h2, h3, h4, h5, h6⟩ := read1_at hbs hblock hat (if n < 0 then n else n - j) (by split <;> omega)
      split
      next data f2 he =>
      rw [h1] at he
      injection he with he1 he2
      subst he2
      by_cases hk : k = 0
      · rw [dif_pos (by rw [← he1, hk]; rfl)]
        have hend : content.length ≤ p + j := by
          rcases Nat.lt_or_ge (p + j) content.length with hlt | hge
          · have := h4 hlt; omega
          · exact hge
        refine ⟨f', ?_, ?_, h6⟩
        · congr 1
          split
          · rw [List.take_of_length_le (by simp; omega)]
          · rw [List.take_of_length_le (by simp; omega), List.take_of_length_le (by simp; omega)]
        · rw [hk] at h5
          have : p + j + 0 = p + (if n < 0 then content.length - p else min n.toNat (content.length - p)) := by
            split <;> omega
          rw [this] at h5
          exact h5
      · have hdl : data.length = k := by
          rw [← he1, List.length_take, List.length_drop]; omega
        rw [dif_neg (by intro h; rw [h] at hdl; exact hk hdl.symm)]
        have hcat : (content.drop p).take j ++ data = (content.drop p).take (j + k) := by
          rw [← he1, ← List.drop_drop, List.take_add]
        rw [hcat]
        obtain ⟨f3, e1, e2, e3⟩ := ih f' (j + k) (by omega) (by rw [← Nat.add_assoc]; exact h5) (by
          intro hn
          have hnn : ¬ n < 0 := by omega
          rw [if_neg hnn] at h3
          have hlt : (j : Int) < n := by
            rcases hcond with h | h
            · exact absurd h hnn
            · exact h
          have := h3 (by omega)
          omega) (by omega)
        exact ⟨f3, e1, e2, e3.trans h6⟩
    · rw [if_neg hcond]
      rw [hlen] at hcond
      have hn : ¬ n < 0 := fun h => hcond (Or.inl h)
      refine ⟨f, ?_, ?_, rfl⟩
      · rw [if_neg hn]
        congr 2
        omega
      · rw [if_neg hn]
        have : p + j = p + min n.toNat (content.length - p) := by omega
        rw [this] at hat
        exact hat

/-- A read: the bytes, and the position. -/
theorem read_at {α : Type} {img : Image α} {ino : Inode} {content : List α} {offsets : List Int} (hbs : 0 < img.blockSize)
    (hblock : ∀ i, block img ino offsets i = chunk img.blockSize content i) {f : SqFile α} {p : Nat}
    (h : At img.blockSize content f p) (n : Int) :
    f.step img ino offsets (.read n) = ((f.read img ino offsets n).2, ((BytesIO.mk content p).step (.read n)).2) ∧
      At img.blockSize content (f.read img ino offsets n).2 ((BytesIO.mk content p).step (.read n)).1.pos ∧
      (f.read img ino offsets n).2.offset = f.offset := by
  obtain ⟨f', e1, e2, e3⟩ := readLoop_at hbs hblock n p _ f 0 (Nat.le_refl _) h (by omega) (by omega)
  have hread : f.read img ino offsets n = (if n < 0 then content.drop p else (content.drop p).take n.toNat, f') := e1
  simp only [SqFile.step, hread, BytesIO.step, true_and]
  have : p + (if n < 0 then content.length - p else min n.toNat (content.length - p)) =
      p + (if n < 0 then content.drop p else (content.drop p).take n.toNat).length := by
    split <;> simp
  rw [this] at e2
  exact ⟨e2, e3⟩

/-- A seek to any position that is not negative. -/
theorem seek_at {α : Type} {img : Image α} {ino : Inode} {content : List α} {offsets : List Int} (hbs : 0 < img.blockSize)
    (hblock : ∀ i, block img ino offsets i = chunk img.blockSize content i) (hsize : ino.size = content.length) {f : SqFile α} {p : Nat}
    (h : At img.blockSize content f p) (o : Int) (w : Whence) (hw : w = .cur → f.offset = p)
    (h0 : 0 ≤ (BytesIO.mk content p).target o w) :
    ∃ f', f.seek img ino offsets o w = .ok (min ((BytesIO.mk content p).target o w).toNat content.length, f') ∧
      At img.blockSize content f' ((BytesIO.mk content p).target o w).toNat ∧
      f'.offset = min ((BytesIO.mk content p).target o w).toNat content.length := by
  have htarget : seekTarget f.offset ino.size o w = (BytesIO.mk content p).target o w := by
    cases w with
    | set => rfl
    | cur => simp only [seekTarget, BytesIO.target, hw rfl]; omega
    | end_ => simp only [seekTarget, BytesIO.target, hsize]; omega
  unfold SqFile.seek
  simp only [htarget]
  generalize (BytesIO.mk content p).target o w = t at *
  rw [if_neg (by omega), hsize]
  by_cases hc : t.toNat < f.blockIndex * img.blockSize ∨ t.toNat ≥ f.blockIndex * img.blockSize + f.buffer.length
  · simp only [if_pos hc]
    have hdm := Nat.div_add_mod t.toNat img.blockSize
    have hmod := Nat.mod_lt t.toNat hbs
    rw [Nat.mul_comm] at hdm
    refine ⟨_, rfl, ⟨hblock _, ?_, ?_⟩, rfl⟩
    · simp only; omega
    · simp only
      congr 1
      omega
  · simp only [if_neg hc]
    have hl := congrArg List.length h.buffer
    rw [chunk_length] at hl
    refine ⟨_, rfl, ⟨h.buffer, ?_, ?_⟩, rfl⟩
    · simp only; omega
    · simp only
      congr 1
      omega

theorem open_at {α : Type} {img : Image α} {ino : Inode} {content : List α} (h : Stored img ino content) :
    ∃ offsets f, openFile img ino = .ok (offsets, f) ∧ (∀ i, block img ino offsets i = chunk img.blockSize content i) ∧
      At img.blockSize content f 0 ∧ f.offset = 0 := by
  obtain ⟨offsets, e1, e2⟩ := offsets_spec h
  have hb := block_spec h e2
  unfold openFile
  rw [e1]
  exact ⟨offsets, _, rfl, hb, ⟨hb 0, Nat.zero_le _, by simp⟩, rfl⟩

/-- **C66**, provable part: positions are only used if nothing was read since the last seek, and stay inside of the file. Missing:
`tell` and relative seeks after a read, positions behind the end. -/
theorem C66_positions_partial {α : Type} (img : Image α) (ino : Inode) (content : List α) (ops : List FileOp)
    (h : Stored img ino content) (hops : Asks (BytesIO.mk content 0) true ops = true) :
    ∃ offsets f, openFile img ino = .ok (offsets, f) ∧ f.run img ino offsets ops = (BytesIO.mk content 0).run ops := by
  obtain ⟨offsets, f, e1, hblock, e2, e3⟩ := open_at h
  refine ⟨offsets, f, e1, ?_⟩
  have key : ∀ (ops : List FileOp) (f : SqFile α) (p : Nat) (fresh : Bool), At img.blockSize content f p →
      (fresh = true → f.offset = p) → Asks (BytesIO.mk content p) fresh ops = true →
      f.run img ino offsets ops = (BytesIO.mk content p).run ops := by
    intro ops
    induction ops with
    | nil => intros; rfl
    | cons op ops ih =>
      intro f p fresh hat hfresh hops
      cases op with
      | read n =>
        obtain ⟨g1, g2, g3⟩ := read_at h.bs hblock hat n
        rw [SqFile.run, BytesIO.run, g1]
        congr 1
        refine ih _ _ (fresh && n == 0) g2 ?_ hops
        intro hb
        rw [Bool.and_eq_true, beq_iff_eq] at hb
        rw [g3, hfresh hb.1, hb.2]
        simp
      | seek o w =>
        simp only [Asks, Bool.and_eq_true, decide_eq_true_eq, Bool.or_eq_true, bne_iff_ne, ne_eq] at hops
        obtain ⟨⟨⟨hw, h0⟩, h1⟩, hrest⟩ := hops
        obtain ⟨f', g1, g2, g3⟩ := seek_at h.bs hblock h.size hat o w (by
          intro hc
          rcases hw with hw | hw
          · exact absurd hc hw
          · exact hfresh hw) h0
        have hnn : ¬ (BytesIO.mk content p).target o w < 0 := by omega
        have hmin : min ((BytesIO.mk content p).target o w).toNat content.length = ((BytesIO.mk content p).target o w).toNat := by
          omega
        rw [hmin] at g1 g3
        simp only [SqFile.run, SqFile.step, g1, BytesIO.run, BytesIO.step, if_neg hnn]
        simp only [BytesIO.step, if_neg hnn] at hrest
        rw [Int.toNat_of_nonneg h0]
        congr 1
        exact ih f' _ true g2 (fun _ => g3) hrest
      | tell =>
        simp only [Asks, Bool.and_eq_true] at hops
        simp only [SqFile.run, SqFile.step, BytesIO.run, BytesIO.step, hfresh hops.1]
        congr 1
        exact ih f p fresh hat hfresh hops.2
  exact key ops f 0 true e2 (fun _ => e3) hops

/-- **C66**, provable part: without relative seeks every read gives the right bytes, also behind the end. Missing: relative seeks. -/
theorem C66_bytes_partial {α : Type} (img : Image α) (ino : Inode) (content : List α) (ops : List FileOp)
    (h : Stored img ino content) (hops : (BytesIO.mk content 0).accepts ops = true) (habs : ops.all Absolute = true) :
    ∃ offsets f, openFile img ino = .ok (offsets, f) ∧
      (f.run img ino offsets ops).filterMap FileOut.data? = ((BytesIO.mk content 0).run ops).filterMap FileOut.data? := by
  obtain ⟨offsets, f, e1, hblock, e2, -⟩ := open_at h
  refine ⟨offsets, f, e1, ?_⟩
  have key : ∀ (ops : List FileOp) (f : SqFile α) (p : Nat), At img.blockSize content f p →
      (BytesIO.mk content p).accepts ops = true → ops.all Absolute = true →
      (f.run img ino offsets ops).filterMap FileOut.data? = ((BytesIO.mk content p).run ops).filterMap FileOut.data? := by
    intro ops
    induction ops with
    | nil => intros; rfl
    | cons op ops ih =>
      intro f p hat hacc habs
      rw [List.all_cons, Bool.and_eq_true] at habs
      cases op with
      | read n =>
        simp only [BytesIO.accepts, Bool.true_and] at hacc
        obtain ⟨g1, g2, g3⟩ := read_at h.bs hblock hat n
        rw [SqFile.run, BytesIO.run, g1, List.filterMap_cons, List.filterMap_cons]
        have := ih _ _ g2 hacc habs.2
        simp only [BytesIO.step, FileOut.data?] at this ⊢
        rw [this]
      | seek o w =>
        simp only [BytesIO.accepts, Bool.and_eq_true, decide_eq_true_eq] at hacc
        have h0 := hacc.1
        obtain ⟨f', g1, g2, -⟩ := seek_at h.bs hblock h.size hat o w (by
          intro hc
          rw [hc] at habs
          exact absurd habs.1 Bool.false_ne_true) h0
        have hnn : ¬ (BytesIO.mk content p).target o w < 0 := by omega
        have hrest := hacc.2
        simp only [BytesIO.step, if_neg hnn] at hrest
        simp only [SqFile.run, SqFile.step, g1, BytesIO.run, BytesIO.step, if_neg hnn, List.filterMap_cons, FileOut.data?]
        exact ih f' _ g2 hrest habs.2
      | tell =>
        simp only [BytesIO.accepts, Bool.true_and] at hacc
        simp only [SqFile.run, SqFile.step, BytesIO.run, BytesIO.step, List.filterMap_cons, FileOut.data?]
        exact ih f p hat hacc habs.2
  exact key ops f 0 e2 hops habs

/-- A file of ten bytes with blocks of four: one stored, one of zeros, the rest in a fragment. -/
def demoImage : Image Nat :=
  ⟨4, (· % 100), fun a b => if a = 50 ∧ b = 103 then [1, 2, 3, 4] else if a = 9 ∧ b = 7 then [8, 8, 5, 6, 8] else [], 0⟩

def demoInode : Inode := ⟨10, 50, [103, 0], (9, 7), 2, 2⟩

theorem demo_stored : Stored demoImage demoInode [1, 2, 3, 4, 0, 0, 0, 0, 5, 6] where
  size := rfl
  bs := by decide
  count := by decide
  fragment := by decide
  data := by
    intro i b hb h0
    have hi := (List.getElem?_eq_some_iff.mp hb).1
    have : i = 0 ∨ i = 1 := by
      have : demoInode.blocks.length = 2 := rfl
      omega
    rcases this with rfl | rfl
    · injection hb with hb; subst hb; decide
    · injection hb with hb; exact absurd hb.symm h0
  sparse := by
    intro i hb
    have hi := (List.getElem?_eq_some_iff.mp hb).1
    have : i = 0 ∨ i = 1 := by
      have : demoInode.blocks.length = 2 := rfl
      omega
    rcases this with rfl | rfl
    · exact absurd hb (by decide)
    · decide

example : Asks (BytesIO.mk [1, 2, 3, 4, 0, 0, 0, 0, 5, 6] 0) true
    [.seek 2 .set, .tell, .seek 1 .cur, .read 3, .seek (-1) .end_, .read 9] = true := by decide

example : (openFile demoImage demoInode).toOption.map (fun r => r.2.run demoImage demoInode r.1
    [.seek 2 .set, .tell, .seek 1 .cur, .read 6, .seek (-1) .end_, .read 9]) =
    some [.num 2, .num 2, .num 3, .bytes [4, 0, 0, 0, 0, 5], .num 9, .bytes [6]] := by decide +kernel

/-- C66 is violated: `tell` does not know about reads. -/
theorem C66_violated : ¬ C66_statement Nat := by
  intro h
  obtain ⟨offsets, f, h1, h2⟩ := h demoImage demoInode _ [.read 3, .tell] demo_stored (by decide)
  have : openFile demoImage demoInode = .ok ([50, -4], ⟨0, 0, [1, 2, 3, 4], 0⟩) := by decide +kernel
  rw [this] at h1
  injection h1 with h1
  injection h1 with h3 h4
  subst h3 h4
  exact absurd h2 (by decide +kernel)

/-- C66 is violated: relative seeks go to the wrong place. -/
theorem C66_relative_violated : ∃ offsets f, openFile demoImage demoInode = .ok (offsets, f) ∧
    f.run demoImage demoInode offsets [.read 3, .seek 0 .cur, .read 1] = [.bytes [1, 2, 3], .num 0, .bytes [1]] ∧
    (BytesIO.mk [1, 2, 3, 4, 0, 0, 0, 0, 5, 6] 0).run [.read 3, .seek 0 .cur, .read 1] = [.bytes [1, 2, 3], .num 3, .bytes [4]] :=
  ⟨[50, -4], ⟨0, 0, [1, 2, 3, 4], 0⟩, by decide +kernel, by decide +kernel, by decide +kernel⟩

end Verif.SquashFS
