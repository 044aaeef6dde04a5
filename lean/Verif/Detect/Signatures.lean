import Verif.Detect.Formats
import Verif.Detect.Frames

/-!
# C95, C98: archives behind other data
(core/ratarmountcore/formats.py:205-263, 419, 607-643, core/ratarmountcore/mountsource/formats/rar.py:19-39)
-/

namespace Verif.Detect

open Verif.Py Verif.Bin

/-! ## C95: self-extracting RAR archives -/

/-- `b'Rar!\x1a\x07'` (rar.py:29). -/
def rarMagic : Data := [0x52, 0x61, 0x72, 0x21, 0x1A, 0x07]

/-- `is_rar_file` (rar.py:19-36). The search of the module `rarfile`, if it is installed, is a function of the file and the
position. -/
def isRarFile (sfx : Option (Data → Nat → Bool)) (d : Data) (pos : Nat) : Except PyErr Bool × Nat :=
  if (d.drop pos).take 6 = rarMagic then (.ok true, pos + 6)
  else match sfx with
    | none => (.ok false, d.length)
    | some search => (.ok (search d pos), d.length)

/-- The entry of the format (formats.py:419) after `replace_format_check(FileFormatID.RAR, is_rar_file)` (rar.py:39). -/
def rarRegistry (rar : Fid) (sfx : Option (Data → Nat → Bool)) : Registry :=
  replaceCheck (recompute ⟨[(rar, ⟨some rarMagic, none⟩)], [], []⟩) rar (some (isRarFile sfx))

/-- What the check accepts is recognised as RAR. -/
def C95_statement : Prop :=
  ∀ (rar : Fid) (sfx : Option (Data → Nat → Bool)) (f : File),
    (isRarFile sfx f.data f.pos).1 = .ok true → (mightBeId (rarRegistry rar sfx) rar f).1 = .ok true

theorem rar_info (rar : Fid) (sfx : Option (Data → Nat → Bool)) :
    Dict.get? (rarRegistry rar sfx).formats rar = some ⟨some rarMagic, some (isRarFile sfx)⟩ := by
  have h : (recompute ⟨[(rar, ⟨some rarMagic, none⟩)], [], []⟩).formats = [(rar, (⟨some rarMagic, none⟩ : Info))] := rfl
  have hg : Dict.get? [(rar, (⟨some rarMagic, none⟩ : Info))] rar = some ⟨some rarMagic, none⟩ := by simp [Dict.get?]
  unfold rarRegistry replaceCheck
  rw [h, hg]
  simp only
  rw [Dict.get?_set, if_pos rfl]

/-- **C95** as far as it holds: exactly the files that begin with the signature are recognised. Missing: archives behind
other data; the code violates the claim for them. -/
theorem C95_signature_partial (rar : Fid) (sfx : Option (Data → Nat → Bool)) (f : File) :
    (mightBeId (rarRegistry rar sfx) rar f).1 = .ok true ↔ [0x52, 0x61, 0x72, 0x21, 0x1A, 0x07] <+: f.data.drop f.pos := by
  show _ ↔ rarMagic <+: f.data.drop f.pos
  unfold mightBeId
  rw [rar_info]
  simp only
  unfold mightBe
  have hm : Info.hasMagic ⟨some rarMagic, some (isRarFile sfx)⟩ = true := rfl
  simp only [hm, Bool.true_and, Option.getD_some, File.read, show rarMagic.length = 6 from rfl]
  by_cases h : (f.data.drop f.pos).take 6 = rarMagic
  · rw [if_neg (by simp [h])]
    simp only [if_true, File.seek, isRarFile]
    rw [if_pos h]
    simp only [true_iff]
    exact ⟨(f.data.drop f.pos).drop 6, by rw [← h, List.take_append_drop]⟩
  · rw [if_pos (by simpa using h)]
    simp only
    constructor
    · intro hx; injection hx with hx; cases hx
    · rintro ⟨t, ht⟩
      exact absurd (by rw [← ht]; rfl) h

/-- C95 is violated: an archive behind one other byte, which the module `rarfile` finds. -/
theorem C95_violated : ¬ C95_statement := by
  intro h
  have := (C95_signature_partial 1 (some (fun d _ => (d.drop 1).take 6 = rarMagic)) ⟨77 :: rarMagic, 0⟩).mp
    (h 1 (some (fun d _ => (d.drop 1).take 6 = rarMagic)) ⟨77 :: rarMagic, 0⟩ (by decide +kernel))
  exact absurd this (by decide)

/-! ## C98: finding a SquashFS image -/

/-- `b"hsqs"` (formats.py:239-262). -/
def squashMagic : Data := [0x68, 0x73, 0x71, 0x73]

/-- `is_squashfs` (formats.py:205-236). -/
def isSquashfs (d : Data) (pos : Nat) : Bool :=
  if (d.drop pos).take 4 ≠ squashMagic then false
  else match uint 4 d (pos + 4), uint 4 d (pos + 8), uint 4 d (pos + 12), uint 4 d (pos + 16) with
    | some _, some _, some blockSize, some _ =>
      match uint 2 d (pos + 20), uint 2 d (pos + 22), uint 2 d (pos + 24), uint 2 d (pos + 26), uint 2 d (pos + 28),
        uint 2 d (pos + 30) with
      | some compressor, some log, some _, some _, some major, some minor =>
        if log < 12 || log > 20 || 2 ^ log != blockSize then false
        else if major != 4 || minor != 0 then false
        else if compressor > 6 then false
        else true
      | _, _, _, _, _, _ => false
    | _, _, _, _ => false

/-- `data.find(magic, start)` (Python library, used at formats.py:239-262). -/
def findFrom (pattern d : Data) (start : Nat) : Option Nat :=
  if d.length < start + pattern.length then none
  else if (d.drop start).take pattern.length = pattern then some start
  else if d.length ≤ start then none
  else findFrom pattern d (start + 1)
  termination_by d.length - start

theorem findFrom_some {pattern d : Data} {start i : Nat} (h : findFrom pattern d start = some i) :
    start ≤ i ∧ i + pattern.length ≤ d.length ∧ (d.drop i).take pattern.length = pattern ∧
      ∀ j, start ≤ j → j < i → (d.drop j).take pattern.length ≠ pattern := by
  fun_induction findFrom pattern d start with
  | case1 start hl => cases h
  | case2 start hl hp => injection h with h; subst h; exact ⟨Nat.le_refl _, by omega, hp, fun j h1 h2 => by omega⟩
  | case3 start hl hp he => cases h
  | case4 start hl hp he ih =>
    obtain ⟨h1, h2, h3, h4⟩ := ih h
    refine ⟨by omega, h2, h3, fun j hj1 hj2 => ?_⟩
    by_cases hj : j = start
    · rw [hj]; exact hp
    · exact h4 j (by omega) hj2

theorem findFrom_none {pattern d : Data} {start : Nat} (hp : pattern ≠ []) (h : findFrom pattern d start = none) :
    ∀ j, start ≤ j → (d.drop j).take pattern.length ≠ pattern := by
  have hpos := List.length_pos_iff.mpr hp
  have short : ∀ j, d.length < j + pattern.length → (d.drop j).take pattern.length ≠ pattern := by
    intro j hj he
    have := congrArg List.length he
    simp only [List.length_take, List.length_drop] at this
    omega
  fun_induction findFrom pattern d start with
  | case1 start hl => intro j hj; exact short j (by omega)
  | case2 start hl hp => cases h
  | case3 start hl hp' he => intro j hj; exact short j (by omega)
  | case4 start hl hp' he ih =>
    intro j hj
    by_cases hj' : j = start
    · rw [hj']; exact hp'
    · exact ih h j (by omega)

/-- The loop of `find_squashfs_offset` (formats.py:252-258); `start` is `magicOffset + 1`. -/
def searchSquashfs (d data : Data) (start : Nat) : Option Nat :=
  match h : findFrom squashMagic data start with
  | none => none
  | some i => if isSquashfs d i then some i else searchSquashfs d data (i + 1)
  termination_by data.length - start
  decreasing_by
    have := findFrom_some h
    have h4 : squashMagic.length = 4 := rfl
    omega

/-- `find_squashfs_offset` (formats.py:239-262); `none` stands for -1. -/
def findSquashfs (d : Data) (pos maxSkip : Nat) : Option Nat :=
  if isSquashfs d pos then some 0
  else searchSquashfs d ((d.drop pos).take (maxSkip + 4)) 1

/-! ### specification (https://dr-emann.github.io/squashfs/squashfs.html#_the_superblock) -/

/-- A SquashFS image begins here: version 4.0, a block size between 4 KiB and 1 MiB, a known compression. -/
def Superblock (d : Data) : Prop :=
  ∃ inodes mtime fragments compressor log flags ids rest, 12 ≤ log ∧ log ≤ 20 ∧ compressor ≤ 6 ∧
    inodes < 2 ^ 32 ∧ mtime < 2 ^ 32 ∧ fragments < 2 ^ 32 ∧ flags < 2 ^ 16 ∧ ids < 2 ^ 16 ∧
    d = [0x68, 0x73, 0x71, 0x73] ++ (toLE inodes 4 ++ (toLE mtime 4 ++ (toLE (2 ^ log) 4 ++ (toLE fragments 4 ++ (toLE compressor 2 ++
      (toLE log 2 ++ (toLE flags 2 ++ (toLE ids 2 ++ (toLE 4 2 ++ (toLE 0 2 ++ rest))))))))))

/-- The offset of the first image, relative to the position, if it is not too far away. -/
def IsOffset (d : Data) (pos maxSkip : Nat) : Option Nat → Prop
  | some o => o ≤ maxSkip ∧ Superblock (d.drop (pos + o)) ∧ ∀ o' < o, ¬ Superblock (d.drop (pos + o'))
  | none => ∀ o ≤ maxSkip, ¬ Superblock (d.drop (pos + o))

def C98_statement : Prop := ∀ (d : Data) (pos maxSkip : Nat), IsOffset d pos maxSkip (findSquashfs d pos maxSkip)

/-! ### proofs -/

theorem isSquashfs_iff (d : Data) (pos : Nat) : isSquashfs d pos = true ↔ Superblock (d.drop pos) := by
  constructor
  · intro h
    unfold isSquashfs at h
    split at h
    · cases h
    · next hm =>
      split at h
      · next a1 a2 a3 a4 h1 h2 h3 h4 =>
        split at h
        · next b1 b2 b3 b4 b5 b6 g1 g2 g3 g4 g5 g6 =>
          split at h
          · cases h
          · next hl =>
            split at h
            · cases h
            · next hv =>
              split at h
              · cases h
              · next hc =>
                obtain ⟨r1, e1⟩ := uint_split h1
                obtain ⟨r2, e2⟩ := uint_split h2
                obtain ⟨r3, e3⟩ := uint_split h3
                obtain ⟨r4, e4⟩ := uint_split h4
                obtain ⟨s1, f1⟩ := uint_split g1
                obtain ⟨s2, f2⟩ := uint_split g2
                obtain ⟨s3, f3⟩ := uint_split g3
                obtain ⟨s4, f4⟩ := uint_split g4
                obtain ⟨s5, f5⟩ := uint_split g5
                obtain ⟨s6, f6⟩ := uint_split g6
                simp only [Bool.or_eq_true, decide_eq_true_eq, bne_iff_ne, not_or, ne_eq, Classical.not_not] at hl hv
                have hm' : (d.drop pos).take 4 = squashMagic := Classical.not_not.mp hm
                have e0 : d.drop pos = squashMagic ++ d.drop (pos + 4) := by
                  rw [← hm', ← List.drop_drop, List.take_append_drop]
                refine ⟨a1, a2, a4, b1, b2, b3, b4, d.drop (pos + 32), by omega, by omega, by omega, r1, r2, r4, s3, s4, ?_⟩
                rw [e0, e1, e2, e3, e4, f1, f2, f3, f4, f5, f6, hl.2, hv.1, hv.2]
                rfl
        · cases h
      · cases h
  · rintro ⟨inodes, mtime, fragments, compressor, log, flags, ids, rest, hl1, hl2, hc, hi, hmt, hfr, hfl, hid, hd⟩
    have hlog : (2 : Nat) ^ log < 2 ^ 32 := Nat.pow_lt_pow_right (by decide) (by omega)
    have t0 := drop_front squashMagic 4 pos d _ rfl hd
    have u1 := uint_front 4 inodes (pos + 4) d _ hi t0
    have t1 := drop_front _ 4 (pos + 4) d _ (by simp) t0
    have u2 := uint_front 4 mtime (pos + 4 + 4) d _ hmt t1
    have t2 := drop_front _ 4 (pos + 4 + 4) d _ (by simp) t1
    have u3 := uint_front 4 (2 ^ log) (pos + 4 + 4 + 4) d _ hlog t2
    have t3 := drop_front _ 4 (pos + 4 + 4 + 4) d _ (by simp) t2
    have u4 := uint_front 4 fragments (pos + 4 + 4 + 4 + 4) d _ hfr t3
    have t4 := drop_front _ 4 (pos + 4 + 4 + 4 + 4) d _ (by simp) t3
    have u5 := uint_front 2 compressor (pos + 4 + 4 + 4 + 4 + 4) d _ (by omega) t4
    have t5 := drop_front _ 2 (pos + 4 + 4 + 4 + 4 + 4) d _ (by simp) t4
    have u6 := uint_front 2 log (pos + 4 + 4 + 4 + 4 + 4 + 2) d _ (by omega) t5
    have t6 := drop_front _ 2 (pos + 4 + 4 + 4 + 4 + 4 + 2) d _ (by simp) t5
    have u7 := uint_front 2 flags (pos + 4 + 4 + 4 + 4 + 4 + 2 + 2) d _ hfl t6
    have t7 := drop_front _ 2 (pos + 4 + 4 + 4 + 4 + 4 + 2 + 2) d _ (by simp) t6
    have u8 := uint_front 2 ids (pos + 4 + 4 + 4 + 4 + 4 + 2 + 2 + 2) d _ hid t7
    have t8 := drop_front _ 2 (pos + 4 + 4 + 4 + 4 + 4 + 2 + 2 + 2) d _ (by simp) t7
    have u9 := uint_front 2 4 (pos + 4 + 4 + 4 + 4 + 4 + 2 + 2 + 2 + 2) d _ (by decide) t8
    have t9 := drop_front _ 2 (pos + 4 + 4 + 4 + 4 + 4 + 2 + 2 + 2 + 2) d _ (by simp) t8
    have u10 := uint_front 2 0 (pos + 4 + 4 + 4 + 4 + 4 + 2 + 2 + 2 + 2 + 2) d _ (by decide) t9
    simp only [Nat.add_assoc, Nat.reduceAdd] at u1 u2 u3 u4 u5 u6 u7 u8 u9 u10
    unfold isSquashfs
    rw [u1, u2, u3, u4, u5, u6, u7, u8, u9, u10, if_neg (by rw [hd]; exact fun hx => hx rfl)]
    simp only
    rw [if_neg (by simp; omega), if_neg (by simp), if_neg (by omega)]

theorem superblock_magic {d : Data} (h : Superblock d) : d.take 4 = squashMagic := by
  obtain ⟨_, _, _, _, _, _, _, _, _, _, _, _, _, _, _, _, rfl⟩ := h
  rfl

theorem searchSquashfs_spec (d data : Data) (start : Nat) :
    match searchSquashfs d data start with
    | some o => start ≤ o ∧ (data.drop o).take 4 = squashMagic ∧ isSquashfs d o = true ∧
        ∀ o', start ≤ o' → o' < o → (data.drop o').take 4 = squashMagic → isSquashfs d o' = false
    | none => ∀ o, start ≤ o → (data.drop o).take 4 = squashMagic → isSquashfs d o = false := by
  fun_induction searchSquashfs d data start with
  | case1 start h =>
    intro o ho hm
    exact absurd hm (findFrom_none (by decide) h o ho)
  | case2 start i h hs =>
    obtain ⟨h1, h2, h3, h4⟩ := findFrom_some h
    exact ⟨h1, h3, hs, fun o' ho1 ho2 hm => absurd hm (h4 o' ho1 ho2)⟩
  | case3 start i h hs ih =>
    obtain ⟨h1, h2, h3, h4⟩ := findFrom_some h
    have hs' : isSquashfs d i = false := by simpa using hs
    have skip : ∀ o', start ≤ o' → ¬ i + 1 ≤ o' → (data.drop o').take 4 = squashMagic → isSquashfs d o' = false := by
      intro o' ho1 ho2 hm
      by_cases he : o' = i
      · rw [he]; exact hs'
      · exact absurd hm (h4 o' ho1 (by omega))
    generalize searchSquashfs d data (i + 1) = r at ih ⊢
    cases r with
    | none =>
      simp only at ih ⊢
      intro o ho hm
      by_cases hi : i + 1 ≤ o
      · exact ih o hi hm
      · exact skip o ho hi hm
    | some o =>
      simp only at ih ⊢
      refine ⟨by omega, ih.2.1, ih.2.2.1, fun o' ho1 ho2 hm => ?_⟩
      by_cases hi : i + 1 ≤ o'
      · exact ih.2.2.2 o' hi ho2 hm
      · exact skip o' ho1 hi hm

/-- **C98** for files at position 0. Missing: other positions; the code violates the claim for them. -/
theorem C98_first_partial (d : Data) (maxSkip : Nat) : IsOffset d 0 maxSkip (findSquashfs d 0 maxSkip) := by
  have win : ∀ o, o ≤ maxSkip → ((d.take (maxSkip + 4)).drop o).take 4 = (d.drop o).take 4 := by
    intro o ho
    rw [List.drop_take, List.take_take]
    congr 1
    omega
  have far : ∀ o, ((d.take (maxSkip + 4)).drop o).take 4 = squashMagic → o ≤ maxSkip := by
    intro o hm
    have := congrArg List.length hm
    simp only [List.length_take, List.length_drop, show squashMagic.length = 4 from rfl] at this
    omega
  have no : ∀ o, isSquashfs d o = false → ¬ Superblock (d.drop o) := by
    intro o h hs
    rw [(isSquashfs_iff d o).mpr hs] at h
    cases h
  unfold findSquashfs
  by_cases h0 : isSquashfs d 0 = true
  · rw [if_pos h0]
    exact ⟨by omega, (isSquashfs_iff d 0).mp h0, fun o' ho => by omega⟩
  · rw [if_neg h0]
    have h0' : isSquashfs d 0 = false := by simpa using h0
    have := searchSquashfs_spec d ((d.drop 0).take (maxSkip + 4)) 1
    rw [List.drop_zero] at this ⊢
    generalize searchSquashfs d (d.take (maxSkip + 4)) 1 = r at this
    cases r with
    | none =>
      intro o ho hs
      simp only [Nat.zero_add] at hs
      by_cases hz : o = 0
      · subst hz; exact no 0 h0' hs
      · exact no o (this o (by omega) (by rw [win o ho]; exact superblock_magic hs)) hs
    | some o =>
      simp only at this
      refine ⟨far o this.2.1, by rw [Nat.zero_add]; exact (isSquashfs_iff d o).mp this.2.2.1, fun o' ho' hs => ?_⟩
      have ho := far o this.2.1
      simp only [Nat.zero_add] at hs
      by_cases hz : o' = 0
      · subst hz; exact no 0 h0' hs
      · exact no o' (this.2.2.2 o' (by omega) ho' (by rw [win o' (by omega)]; exact superblock_magic hs)) hs

/-- A header: blocks of 128 KiB, GZIP. -/
def squashHeader : Data :=
  squashMagic ++ toLE 1 4 ++ toLE 0 4 ++ toLE (2 ^ 17) 4 ++ toLE 0 4 ++ toLE 1 2 ++ toLE 17 2 ++ toLE 0 2 ++ toLE 1 2 ++
    toLE 4 2 ++ toLE 0 2

/-- Behind something that only looks like a header, within reach and out of reach. -/
example : findSquashfs ([1, 2] ++ squashMagic ++ squashHeader) 0 6 = some 6 ∧
    findSquashfs ([1, 2] ++ squashMagic ++ squashHeader) 0 5 = none := by decide +kernel

/-- C98 is violated: at position 1, an image that begins at position 2 is not found. -/
theorem C98_violated : ¬ C98_statement := by
  intro h
  have h1 := h ([0, 0] ++ squashHeader) 1 10
  have h2 : findSquashfs ([0, 0] ++ squashHeader) 1 10 = none := by decide +kernel
  rw [h2] at h1
  exact h1 1 (by decide) ((isSquashfs_iff _ _).mp (by decide +kernel))

end Verif.Detect
