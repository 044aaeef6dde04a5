import Verif.Bytes

/-!
# C59: recognising Zstandard and LZ4 files behind skippable frames (core/ratarmountcore/formats.py:327-357)
-/

namespace Verif.Detect

open Verif.Bin

/-- `magic & 0xFFFF_FFF0 == SKIPPABLE_FRAME_MAGIC` (formats.py:333, 350). -/
def isSkippable (magic : Nat) : Bool := magic &&& 0xFFFFFFF0 == 0x184D2A50

theorem uint_progress {k : Nat} {d : Data} {pos n : Nat} (hk : 0 < k) (h : uint k d pos = some n) : pos < d.length := by
  rcases uint_some h with h | h <;> omega

/-- `_check_lz4_header` and `_check_zstandard_header` (formats.py:327-357), which differ in the last number only. Seeking beyond the end
is possible; reading there gives nothing. -/
def checkFrames (wanted : Nat) (d : Data) (pos : Nat) : Bool :=
  match _h : uint 4 d pos with
  | none => false                                   -- struct.error
  | some magic =>
    if isSkippable magic then
      match uint 4 d (pos + 4) with
      | none => false                               -- struct.error
      | some size => checkFrames wanted d (pos + 8 + size)
    else magic == wanted
  termination_by d.length - pos
  decreasing_by have := uint_progress (by decide) _h; omega

/-- The magic bytes of LZ4 frames (formats.py:340). -/
def lz4Magic : Nat := 0x184D2204
/-- The magic bytes of Zstandard frames (formats.py:356). -/
def zstdMagic : Nat := 0xFD2FB528

/-- `_check_lz4_header` (formats.py:327-341). -/
def checkLz4 (d : Data) (pos : Nat) : Bool := checkFrames lz4Magic d pos
/-- `_check_zstandard_header` (formats.py:344-357). -/
def checkZstandard (d : Data) (pos : Nat) : Bool := checkFrames zstdMagic d pos

/-! ## specification (zstd_compression_format.md, lz4_Frame_format.md) -/

/-- A skippable frame: one of sixteen magic numbers, the size, any content. -/
def skippable (k : Nat) (content : Data) : Data := toLE (0x184D2A50 + k) 4 ++ toLE content.length 4 ++ content

/-- Any number of skippable frames and then the magic number of a proper frame. -/
def Begins (wanted : Nat) (d : Data) : Prop :=
  ∃ (frames : List (Nat × Data)) (rest : Data), (∀ f ∈ frames, f.1 < 16 ∧ f.2.length < 2 ^ 32) ∧
    d = (frames.map (fun f : Nat × Data => skippable f.1 f.2)).flatten ++ toLE wanted 4 ++ rest

/-! ## proofs -/

theorem isSkippable_iff (m : Nat) (h : m < 2 ^ 32) : isSkippable m = true ↔ ∃ k, k < 16 ∧ m = 0x184D2A50 + k := by
  have key : m &&& 0xFFFFFFF0 = m / 16 * 16 := by
    rw [show (16 : Nat) = 2 ^ 4 from rfl, ← Nat.shiftRight_eq_div_pow, ← Nat.shiftLeft_eq]
    apply Nat.eq_of_testBit_eq
    intro i
    rw [Nat.testBit_and, Nat.testBit_shiftLeft, Nat.testBit_shiftRight,
      show (0xFFFFFFF0 : Nat) = (2 ^ 28 - 1) <<< 4 from rfl, Nat.testBit_shiftLeft, Nat.testBit_two_pow_sub_one]
    by_cases hi : 4 ≤ i
    · simp only [hi, decide_true, Bool.true_and]
      rw [show 4 + (i - 4) = i from by omega]
      by_cases h2 : i - 4 < 28
      · simp [h2]
      · have : m.testBit i = false := Nat.testBit_lt_two_pow (Nat.lt_of_lt_of_le h (Nat.pow_le_pow_right (by decide) (by omega)))
        simp [this]
    · simp [hi]
  unfold isSkippable
  rw [key]
  simp only [beq_iff_eq]
  constructor
  · intro h; exact ⟨m % 16, by omega, by omega⟩
  · rintro ⟨k, hk, rfl⟩; omega

theorem checkFrames_sound (wanted : Nat) (d : Data) (pos : Nat) :
    checkFrames wanted d pos = true → Begins wanted (d.drop pos) := by
  fun_induction checkFrames wanted d pos with
  | case1 pos h => intro hc; cases hc
  | case2 pos magic h hs hn => intro hc; cases hc
  | case3 pos magic h hs size hn ih =>
    intro hc
    obtain ⟨frames, rest, hf, hd⟩ := ih hc
    obtain ⟨h1, h2⟩ := uint_split h
    obtain ⟨h3, h4⟩ := uint_split hn
    obtain ⟨k, hk, rfl⟩ := (isSkippable_iff magic h1).mp hs
    -- The content is complete because something follows it.
    have hlen : pos + 8 + size ≤ d.length := by
      have := congrArg List.length hd
      simp at this
      omega
    have hsz : ((d.drop (pos + 8)).take size).length = size := by simp; omega
    refine ⟨(k, (d.drop (pos + 8)).take size) :: frames, rest, ?_, ?_⟩
    · intro f hf'
      rcases List.mem_cons.mp hf' with rfl | hf'
      · exact ⟨hk, by rw [hsz]; exact h3⟩
      · exact hf f hf'
    · rw [h2, h4]
      simp only [List.map_cons, List.flatten_cons, skippable, hsz, List.append_assoc] at hd ⊢
      rw [show pos + 4 + 4 = pos + 8 by omega, ← hd, ← List.drop_drop (i := size) (j := pos + 8), List.take_append_drop]
  | case4 pos magic h hs =>
    intro hc
    obtain ⟨h1, h2⟩ := uint_split h
    have : magic = wanted := by simpa using hc
    exact ⟨[], d.drop (pos + 4), by simp, by simp [h2, this]⟩

theorem uint_front (k n pos : Nat) (d rest : Data) (hn : n < 256 ^ k) (hd : d.drop pos = toLE n k ++ rest) :
    uint k d pos = some n := by
  unfold uint
  rw [hd, List.take_append_of_le_length (by simp), List.take_of_length_le (by simp), if_pos (by simp), leNat_toLE n k hn]

theorem drop_front {α : Type} (a : List α) (n pos : Nat) (d rest : List α) (ha : a.length = n)
    (hd : d.drop pos = a ++ rest) : d.drop (pos + n) = rest := by
  rw [← List.drop_drop, hd, ← ha, List.drop_left]

theorem checkFrames_complete (wanted : Nat) (hw : wanted < 2 ^ 32) (hns : isSkippable wanted = false) (d : Data)
    (frames : List (Nat × Data)) : ∀ (pos : Nat) (rest : Data), (∀ f ∈ frames, f.1 < 16 ∧ f.2.length < 2 ^ 32) →
    d.drop pos = (frames.map (fun f : Nat × Data => skippable f.1 f.2)).flatten ++ toLE wanted 4 ++ rest →
    checkFrames wanted d pos = true := by
  induction frames with
  | nil =>
    intro pos rest _ hd
    simp only [List.map_nil, List.flatten_nil, List.nil_append] at hd
    have hu := uint_front 4 wanted pos d rest hw hd
    rw [checkFrames]
    split
    · next h => cases h.symm.trans hu
    · next m h =>
      obtain rfl : m = wanted := by have := h.symm.trans hu; injection this
      rw [hns]
      simp
  | cons f frames ih =>
    intro pos rest hf hd
    obtain ⟨hk, hl⟩ := hf f (by simp)
    simp only [List.map_cons, List.flatten_cons, skippable, List.append_assoc] at hd
    have hm : 0x184D2A50 + f.1 < 256 ^ 4 := by omega
    have hu := uint_front 4 (0x184D2A50 + f.1) pos d _ hm hd
    have h4 := drop_front _ 4 pos d _ (by simp) hd
    have hu2 := uint_front 4 f.2.length (pos + 4) d _ hl h4
    have h8 := drop_front _ 4 (pos + 4) d _ (by simp) h4
    have h9 := drop_front _ f.2.length (pos + 4 + 4) d _ rfl h8
    have hs : isSkippable (0x184D2A50 + f.1) = true := (isSkippable_iff _ hm).mpr ⟨f.1, hk, rfl⟩
    rw [checkFrames]
    split
    · next h => cases h.symm.trans hu
    · next m h =>
      obtain rfl : m = 0x184D2A50 + f.1 := by have := h.symm.trans hu; injection this
      rw [if_pos hs, hu2]
      simp only
      exact ih _ rest (fun g hg => hf g (by simp [hg])) (by
        rw [show pos + 8 + f.2.length = pos + 4 + 4 + f.2.length by omega, h9]
        simp [skippable])

/-- **C59**: a file is recognised exactly if, after any number of complete skippable frames, the magic number of a proper
frame follows. -/
theorem C59_zstandard (d : Data) (pos : Nat) : checkZstandard d pos = true ↔ Begins 0xFD2FB528 (d.drop pos) :=
  ⟨checkFrames_sound _ d pos, fun ⟨frames, rest, h1, h2⟩ =>
    checkFrames_complete _ (by decide) (by decide) d frames pos rest h1 h2⟩

theorem C59_lz4 (d : Data) (pos : Nat) : checkLz4 d pos = true ↔ Begins 0x184D2204 (d.drop pos) :=
  ⟨checkFrames_sound _ d pos, fun ⟨frames, rest, h1, h2⟩ =>
    checkFrames_complete _ (by decide) (by decide) d frames pos rest h1 h2⟩

/-- Two skippable frames, one of them empty, and a Zstandard frame: it is not LZ4; without its last byte it is neither. -/
example : let d := skippable 3 [1, 2, 3] ++ skippable 15 [] ++ toLE zstdMagic 4
    checkZstandard d 0 = true ∧ checkLz4 d 0 = false ∧ checkZstandard d.dropLast 0 = false := by decide +kernel

end Verif.Detect
