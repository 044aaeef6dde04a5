import Verif.Bytes
import Verif.Dict
import Verif.PyStr

/-!
# C80: hashes of files (core/ratarmountcore/hashing.py)

The algorithms of hashlib are arbitrary hashers whose result depends only on the bytes, not on how they are split. A file gives between
one and the requested number of bytes for every read; for the movie hash, reads are complete.
-/

namespace Verif.Hashing

open Verif.Py Verif.Bin

/-! ## CRC32 -/

/-- One bit of CRC32 (zlib) (used at hashing.py:21). -/
def crcBit (c : UInt32) : UInt32 := if c &&& 1 = 1 then (c >>> 1) ^^^ 0xEDB88320 else c >>> 1

/-- One byte of CRC32 (used at hashing.py:21). -/
def crcByte (c : UInt32) (b : UInt8) : UInt32 :=
  crcBit (crcBit (crcBit (crcBit (crcBit (crcBit (crcBit (crcBit (c ^^^ b.toUInt32))))))))

/-- `zlib.crc32(data, value)` (Python library, used at hashing.py:21). -/
def crc32 (data : Data) (value : UInt32) : UInt32 := ~~~ (data.foldl crcByte (~~~ value))

example : crc32 [0x31, 0x32, 0x33, 0x34, 0x35, 0x36, 0x37, 0x38, 0x39] 0 = 0xCBF43926 := by decide +kernel

/-- A hexadecimal digit (hashing.py:24). -/
def hexDigit (n : Nat) : Char := "0123456789abcdef".toList.getD n '?'

/-- `f"{n:0wx}"` for numbers of at most `w` digits (hashing.py:24, 76). -/
def hex : Nat → Nat → Str
  | 0, _ => []
  | w + 1, n => hex w (n / 16) ++ [hexDigit (n % 16)]

/-! ## hashers -/

/-- An object with `update` and `hexdigest` (hashing.py:16-24, 105). -/
structure Hasher (σ : Type) where
  init : σ
  update : σ → Data → σ
  digest : σ → Str

/-- `_CRC32Hasher` (hashing.py:16-24); `value & 0xFFFFFFFF` is `value`. -/
def crc32Hasher : Hasher UInt32 := ⟨0, fun v d => crc32 d v, fun v => hex 8 v.toNat⟩

/-! ## movie hash -/

/-- `_zero_pad` (hashing.py:43-44). -/
def zeroPad (data : Data) (size : Nat) : Data := data.take size ++ List.replicate (size - data.length) 0

/-- `_smplayer_hash_accumulate` (hashing.py:47-51). -/
def accumulate (data : Data) : Nat :=
  if _h : data = [] then 0 else leNat (zeroPad (data.take 8) 8) + accumulate (data.drop 8)
termination_by data.length
decreasing_by
  rw [List.length_drop]
  have := List.length_pos_iff.mpr _h
  omega

/-- `chunk_size` (hashing.py:61). -/
def chunkSize : Nat := 64 * 1024

theorem chunkSize_eq : chunkSize = 65536 := by decide

/-- `smplayer_hash` before the mask (hashing.py:63-74), for chunks of `c` bytes. -/
def movieSum (c : Nat) (content : Data) : Nat :=
  accumulate (content.take c) + content.length +
    accumulate ((content.drop (min (max c (content.length - c)) content.length)).take c)

/-- The number of `smplayer_hash` (hashing.py:54-76) for a file. -/
def movieNumber (content : Data) : Nat := movieSum chunkSize content &&& 0xFFFFFFFFFFFFFFFF

/-- `smplayer_hash` (hashing.py:54-76). -/
def smplayer (content : Data) : Str := hex 16 (movieNumber content)

/-! ## reading -/

/-- The chunks that `read(1024 * 1024)` gives (hashing.py:113); `short` is the number of bytes the file has ready at a position. -/
def chunks (short : Nat → Nat) (content : Data) (pos : Nat) : List Data :=
  if pos < content.length then
    let n := min (max 1 (short pos)) (1024 * 1024)
    (content.drop pos).take n :: chunks short content (pos + n)
  else []
termination_by content.length - pos

/-! ## compute_hashes -/

/-- What is known: `HASH_REGISTRY` and `hashlib.new` (hashing.py:27-40, 105). -/
structure World (σ : Type) where
  /-- Whether the algorithm is sparse. -/
  registry : Str → Option Bool
  new : Str → Option (Hasher σ)

/-- One hasher over all chunks (hashing.py:111-122). -/
def Hasher.run {σ : Type} (h : Hasher σ) (cs : List Data) : Str := h.digest (cs.foldl h.update h.init)

/-- An object of `hashers` (hashing.py:88-107). -/
inductive AnyHasher (σ : Type) where
  | crc
  | lib (h : Hasher σ)

/-- Hashing the chunks (hashing.py:110-122). -/
def AnyHasher.run {σ : Type} : AnyHasher σ → List Data → Str
  | .crc, cs => crc32Hasher.run cs
  | .lib h, cs => h.run cs

/-- The first loop (hashing.py:88-107). -/
def select {σ : Type} (w : World σ) : List Str → Dict Str (AnyHasher σ) → List Str → Dict Str (AnyHasher σ) × List Str
  | [], hs, sparse => (hs, sparse)
  | a :: as, hs, sparse =>
    if a = [] then select w as hs sparse
    else match w.registry a with
      | none => select w as hs sparse
      | some true => select w as hs (sparse ++ [a])
      | some false =>
        if a = "crc32".toList then select w as (hs.set a .crc) sparse
        else match w.new a with
          | none => select w as hs sparse
          | some h => select w as (hs.set a (.lib h)) sparse

/-- The last loop (hashing.py:124-126). -/
def addSparse (content : Data) : List Str → Dict Str Str → Dict Str Str
  | [], d => d
  | a :: as, d => addSparse content as (if a = "smplayer".toList then d.set a (smplayer content) else d)

/-- `compute_hashes` (hashing.py:79-128). -/
def computeHashes {σ : Type} (w : World σ) (short : Nat → Nat) (content : Data) (algorithms : List Str) : Dict Str Str :=
  let s := select w algorithms [] []
  let cs := if s.1.isEmpty then [] else chunks short content 0
  addSparse content s.2 (s.1.map (fun kv => (kv.1, kv.2.run cs)))

/-! ## specification -/

/-- The hash of a whole file. -/
def Hasher.whole {σ : Type} (h : Hasher σ) (content : Data) : Str := h.digest (h.update h.init content)

/-- It does not matter how the bytes are split. -/
def Hasher.Streams {σ : Type} (h : Hasher σ) : Prop :=
  ∀ s, h.update s [] = s ∧ ∀ a b, h.update s (a ++ b) = h.update (h.update s a) b

/-- The hash of a known algorithm. -/
def hashOf {σ : Type} (w : World σ) (content : Data) (a : Str) : Option Str :=
  if a = [] then none
  else if w.registry a = some true then (if a = "smplayer".toList then some (smplayer content) else none)
  else if w.registry a = some false then
    (if a = "crc32".toList then some (hex 8 (crc32 content 0).toNat) else (w.new a).map (fun h => h.whole content))
  else none

/-- The sum of the bytes, each times its place in a word of eight bytes. -/
def wordSum : Nat → Data → Nat
  | _, [] => 0
  | i, b :: bs => b.toNat * 256 ^ (i % 8) + wordSum (i + 1) bs

/-- The last `n` bytes. -/
def lastBytes (n : Nat) (d : Data) : Data := d.drop (d.length - n)

/-- The movie hash is the size plus the words of the first and last 64 KiB. -/
def C80_movie_statement : Prop :=
  ∀ content : Data, 65536 ≤ content.length →
    movieNumber content = (content.length + wordSum 0 (content.take 65536) + wordSum 0 (lastBytes 65536 content)) % 2 ^ 64

/-! ## proofs: reading -/

theorem chunks_flatten (short : Nat → Nat) (content : Data) (pos : Nat) : (chunks short content pos).flatten = content.drop pos := by
  fun_induction chunks short content pos with
  | case1 pos h n ih =>
    rw [List.flatten_cons, ih, ← List.drop_drop, List.take_append_drop]
  | case2 pos h => rw [List.drop_eq_nil_of_le (by omega)]; rfl

theorem run_whole {σ : Type} (h : Hasher σ) (hs : h.Streams) (cs : List Data) : h.run cs = h.whole cs.flatten := by
  unfold Hasher.run Hasher.whole
  congr 1
  have : ∀ (cs : List Data) (s : σ), cs.foldl h.update s = h.update s cs.flatten := by
    intro cs
    induction cs with
    | nil => intro s; rw [List.flatten_nil, (hs s).1]; rfl
    | cons c cs ih => intro s; rw [List.foldl_cons, ih, List.flatten_cons, (hs s).2]
  exact this cs h.init

theorem not_not_32 (x : UInt32) : ~~~ (~~~ x) = x := by
  simp

/-- **C80**: CRC32 can be computed in pieces. -/
theorem C80_crc32 : crc32Hasher.Streams := by
  intro s
  constructor
  · show ~~~ (List.foldl crcByte (~~~ s) []) = s
    exact not_not_32 s
  · intro a b
    show crc32 (a ++ b) s = crc32 b (crc32 a s)
    unfold crc32
    rw [List.foldl_append, not_not_32]

/-! ## proofs: all algorithms -/

theorem get?_map {V W : Type} (f : V → W) : ∀ (d : Dict Str V) (k : Str),
    Dict.get? (d.map (fun kv => (kv.1, f kv.2))) k = (d.get? k).map f := by
  intro d
  induction d with
  | nil => intro k; rfl
  | cons x d ih =>
    intro k
    rw [List.map_cons, Dict.get?, Dict.get?]
    split
    · rfl
    · exact ih k

theorem get?_addSparse (content : Data) (k : Str) : ∀ (as : List Str) (d : Dict Str Str),
    (addSparse content as d).get? k = if k = "smplayer".toList ∧ k ∈ as then some (smplayer content) else d.get? k := by
  intro as
  induction as with
  | nil => intro d; rw [addSparse, if_neg (fun h => by cases h.2)]
  | cons a as ih =>
    intro d
    rw [addSparse, ih]
    by_cases ha : a = "smplayer".toList
    · rw [if_pos ha, Dict.get?_set]
      by_cases hk : k = "smplayer".toList
      · have hak : a = k := by rw [ha, hk]
        rw [if_pos hak, ite_self, if_pos ⟨hk, by rw [hak]; exact List.mem_cons_self⟩]
      · rw [if_neg (fun h => hk h.1), if_neg (fun h => hk (by rw [← h, ha])), if_neg (fun h => hk h.1)]
    · rw [if_neg ha]
      by_cases hk : k = "smplayer".toList
      · have : (k ∈ a :: as) ↔ k ∈ as := by
          rw [List.mem_cons]
          constructor
          · rintro (h | h)
            · exact absurd (h ▸ hk) ha
            · exact h
          · exact Or.inr
        simp only [this]
      · rw [if_neg (fun h => hk h.1), if_neg (fun h => hk h.1)]

/-- The hasher for an algorithm, if it is known and not sparse. -/
def hasherOf {σ : Type} (w : World σ) (a : Str) : Option (AnyHasher σ) :=
  if a = [] then none
  else if w.registry a = some false then (if a = "crc32".toList then some .crc else (w.new a).map .lib)
  else none

theorem select_spec {σ : Type} (w : World σ) : ∀ (as : List Str) (hs : Dict Str (AnyHasher σ)) (sparse : List Str) (k : Str),
    ((select w as hs sparse).1.get? k = (if k ∈ as then (hasherOf w k).or (hs.get? k) else hs.get? k)) ∧
    (k ∈ (select w as hs sparse).2 ↔ k ∈ sparse ∨ (k ∈ as ∧ k ≠ [] ∧ w.registry k = some true)) := by
  intro as
  induction as with
  | nil => intro hs sparse k; simp [select]
  | cons a as ih =>
    intro hs sparse k
    have skip : hasherOf w a = none → (¬ (a ≠ [] ∧ w.registry a = some true)) →
        (((select w as hs sparse).1.get? k = (if k ∈ a :: as then (hasherOf w k).or (hs.get? k) else hs.get? k)) ∧
        (k ∈ (select w as hs sparse).2 ↔ k ∈ sparse ∨ (k ∈ a :: as ∧ k ≠ [] ∧ w.registry k = some true))) := by
      intro h1 h2
      obtain ⟨i1, i2⟩ := ih hs sparse k
      rw [i1, i2]
      by_cases hk : k = a
      · subst hk
        refine ⟨?_, ?_⟩
        · simp [h1]
        · constructor
          · rintro (h | h)
            · exact Or.inl h
            · exact absurd h.2 h2
          · rintro (h | h)
            · exact Or.inl h
            · exact absurd h.2 h2
      · simp [List.mem_cons, hk]
    rw [select]
    split
    · next h0 => exact skip (by simp [hasherOf, h0]) (fun h => h.1 h0)
    · next h0 =>
      cases hr : w.registry a with
      | none => exact skip (by simp [hasherOf, hr]) (by rw [hr]; simp)
      | some b =>
        cases b with
        | true =>
          simp only
          obtain ⟨i1, i2⟩ := ih hs (sparse ++ [a]) k
          rw [i1, i2]
          have hn : hasherOf w a = none := by simp [hasherOf, hr]
          by_cases hk : k = a
          · subst hk
            refine ⟨by simp [hn], ?_⟩
            simp [h0, hr]
          · refine ⟨by simp [List.mem_cons, hk], by simp [List.mem_cons, hk]⟩
        | false =>
          have step : ∀ h, hasherOf w a = some h →
              (((select w as (hs.set a h) sparse).1.get? k = (if k ∈ a :: as then (hasherOf w k).or (hs.get? k) else hs.get? k)) ∧
              (k ∈ (select w as (hs.set a h) sparse).2 ↔ k ∈ sparse ∨ (k ∈ a :: as ∧ k ≠ [] ∧ w.registry k = some true))) := by
            intro h hh
            obtain ⟨i1, i2⟩ := ih (hs.set a h) sparse k
            rw [i1, i2, Dict.get?_set]
            by_cases hk : k = a
            · subst hk
              refine ⟨by simp [hh], ?_⟩
              simp [hr]
            · have hk' : ¬ a = k := fun h => hk h.symm
              refine ⟨by simp [List.mem_cons, hk, hk'], by simp [List.mem_cons, hk]⟩
          simp only
          split
          · next hc => exact step _ (by rw [hasherOf, if_neg h0, if_pos hr, if_pos hc])
          · next hc =>
            cases hw : w.new a with
            | none => exact skip (by rw [hasherOf, if_neg h0, if_pos hr, if_neg hc, hw]; rfl) (by rw [hr]; simp)
            | some h => exact step _ (by rw [hasherOf, if_neg h0, if_pos hr, if_neg hc, hw]; rfl)

/-- **C80**: exactly the requested known algorithms are in the result, each with the hash of the whole content, however the reads are
split. -/
theorem C80_hashes {σ : Type} (w : World σ) (hw : ∀ a h, w.new a = some h → h.Streams) (short : Nat → Nat) (content : Data) (algorithms : List Str) (a : Str) :
    (computeHashes w short content algorithms).get? a = if a ∈ algorithms then hashOf w content a else none := by
  obtain ⟨i1, i2⟩ := select_spec w algorithms [] [] a
  unfold computeHashes
  simp only
  rw [get?_addSparse, get?_map (fun h : AnyHasher σ => h.run (if List.isEmpty (select w algorithms [] []).1 = true then [] else chunks short content 0)), i1]
  have hi2 : a ∈ (select w algorithms [] []).2 ↔ a ∈ algorithms ∧ a ≠ [] ∧ w.registry a = some true := by
    rw [i2]; simp
  simp only [hi2]
  by_cases ha : a ∈ algorithms
  · rw [if_pos ha]
    simp only [ha, true_and, if_true]
    by_cases hr : w.registry a = some true
    · have hn : hasherOf w a = none := by simp [hasherOf, hr]
      rw [hn]
      unfold hashOf
      by_cases h0 : a = []
      · rw [if_neg (fun h => h.2.1 h0), if_pos h0]; rfl
      · rw [if_neg h0, if_pos hr]
        by_cases hs : a = "smplayer".toList
        · rw [if_pos ⟨hs, h0, hr⟩, if_pos hs]
        · rw [if_neg (fun h => hs h.1), if_neg hs]; rfl
    · rw [if_neg (fun h => hr h.2.2)]
      unfold hashOf
      have hor : (hasherOf w a).or (Dict.get? ([] : Dict Str (AnyHasher σ)) a) = hasherOf w a := by
        cases hasherOf w a <;> rfl
      rw [hor]
      cases hh : hasherOf w a with
      | none =>
        unfold hasherOf at hh
        split at hh
        · next h0 => rw [if_pos h0]; rfl
        · next h0 =>
          rw [if_neg h0, if_neg hr]
          split at hh
          · next hf =>
            rw [if_pos hf]
            split at hh
            · cases hh
            · next hc => rw [if_neg hc, Option.map_eq_none_iff.mp hh]; rfl
          · next hf => rw [if_neg hf]; rfl
      | some h =>
        have hne : (select w algorithms [] []).1.isEmpty = false := by
          rw [Bool.eq_false_iff]
          intro he
          rw [List.isEmpty_iff.mp he, if_pos ha, hh] at i1
          cases i1
        simp only [hne, Bool.false_eq_true, if_false, Option.map_some]
        unfold hasherOf at hh
        split at hh
        · cases hh
        · next h0 =>
          rw [if_neg h0, if_neg hr]
          split at hh
          · next hf =>
            rw [if_pos hf]
            split at hh
            · next hc =>
              injection hh with hh; subst hh
              rw [if_pos hc, AnyHasher.run, run_whole _ C80_crc32, chunks_flatten, List.drop_zero]; rfl
            · next hc =>
              obtain ⟨h', h1, rfl⟩ := Option.map_eq_some_iff.mp hh
              rw [if_neg hc, h1, AnyHasher.run, run_whole _ (hw a h' h1), chunks_flatten, List.drop_zero]; rfl
          · cases hh
  · rw [if_neg ha, if_neg (fun h => ha h.2.1), if_neg ha]; rfl

/-- **C80**: different values have different digits. -/
theorem C80_digits : ∀ (w n m : Nat), n < 16 ^ w → m < 16 ^ w → hex w n = hex w m → n = m := by
  intro w
  induction w with
  | zero => intro n m hn hm _; simp at hn hm; omega
  | succ w ih =>
    intro n m hn hm h
    rw [hex, hex] at h
    have hl : ∀ w n, (hex w n).length = w := by
      intro w
      induction w with
      | zero => intro n; rfl
      | succ w ih => intro n; rw [hex, List.length_append, ih]; rfl
    obtain ⟨h1, h2⟩ := List.append_inj h (by rw [hl, hl])
    have h3 := ih _ _ (by rw [Nat.pow_succ] at hn; omega) (by rw [Nat.pow_succ] at hm; omega) h1
    have h4 : n % 16 = m % 16 := by
      have hd : ∀ a b : Fin 16, hexDigit a = hexDigit b → a = b := by decide
      have := hd ⟨n % 16, Nat.mod_lt _ (by decide)⟩ ⟨m % 16, Nat.mod_lt _ (by decide)⟩ (List.cons.inj h2).1
      exact congrArg Fin.val this
    omega

/-! ## proofs: movie hash -/

theorem leNat_replicate_zero (k : Nat) : leNat (List.replicate k 0) = 0 := by
  induction k with
  | zero => rfl
  | succ k ih => rw [List.replicate_succ, leNat, ih]; rfl

theorem wordSum_append (a b : Data) : ∀ i, wordSum i (a ++ b) = wordSum i a + wordSum (i + a.length) b := by
  induction a with
  | nil => intro i; simp [wordSum]
  | cons x a ih =>
    intro i
    rw [List.cons_append, wordSum, wordSum, ih, List.length_cons, show i + 1 + a.length = i + (a.length + 1) by omega]
    omega

theorem wordSum_mod (d : Data) : ∀ i j, i % 8 = j % 8 → wordSum i d = wordSum j d := by
  induction d with
  | nil => intro i j _; rfl
  | cons b d ih =>
    intro i j h
    rw [wordSum, wordSum, h, ih (i + 1) (j + 1) (by omega)]

theorem leNat_wordSum (d : Data) : ∀ i, i + d.length ≤ 8 → 256 ^ i * leNat d = wordSum i d := by
  induction d with
  | nil => intro i _; simp [leNat, wordSum]
  | cons b d ih =>
    intro i h
    rw [List.length_cons] at h
    rw [leNat, wordSum, ← ih (i + 1) (by omega), Nat.mod_eq_of_lt (by omega), Nat.mul_add, Nat.mul_comm b.toNat, Nat.pow_succ,
      Nat.mul_assoc]

theorem accumulate_spec (d : Data) : accumulate d = wordSum 0 d := by
  fun_induction accumulate d with
  | case1 => rfl
  | case2 d h ih =>
    rw [ih]
    have h1 : leNat (zeroPad (d.take 8) 8) = wordSum 0 (d.take 8) := by
      unfold zeroPad
      rw [List.take_take, Nat.min_self, leNat_append, leNat_replicate_zero, Nat.mul_zero, Nat.add_zero]
      have := leNat_wordSum (d.take 8) 0 (by rw [List.length_take]; omega)
      rw [Nat.pow_zero, Nat.one_mul] at this
      exact this
    rw [h1]
    conv => rhs; rw [← List.take_append_drop 8 d, wordSum_append]
    congr 1
    by_cases hl : 8 ≤ d.length
    · rw [List.length_take, Nat.min_eq_left hl]
      exact wordSum_mod _ _ _ rfl
    · rw [List.drop_eq_nil_of_le (by omega)]; rfl

theorem sum_large (c : Nat) (content : Data) (h : 2 * c ≤ content.length) :
    movieSum c content = content.length + wordSum 0 (content.take c) + wordSum 0 (lastBytes c content) := by
  unfold movieSum lastBytes
  rw [Nat.max_eq_right (by omega), Nat.min_eq_left (by omega),
    List.take_of_length_le (l := content.drop (content.length - c)) (by rw [List.length_drop]; omega), accumulate_spec, accumulate_spec]
  omega

theorem sum_small (c : Nat) (hc : c % 8 = 0) (content : Data) (h : content.length < 2 * c) :
    movieSum c content = content.length + wordSum 0 content := by
  have hw : wordSum 0 content = wordSum 0 (content.take c) + wordSum 0 (content.drop c) := by
    conv => lhs; rw [← List.take_append_drop c content, wordSum_append]
    congr 1
    by_cases hl : c ≤ content.length
    · rw [List.length_take, Nat.min_eq_left hl]
      exact wordSum_mod _ _ _ (by omega)
    · rw [List.drop_eq_nil_of_le (by omega)]; rfl
  have hd : content.drop (min c content.length) = content.drop c := by
    by_cases hl : c ≤ content.length
    · rw [Nat.min_eq_left hl]
    · rw [Nat.min_eq_right (by omega), List.drop_eq_nil_of_le (Nat.le_refl _), List.drop_eq_nil_of_le (by omega)]
  unfold movieSum
  rw [Nat.max_eq_left (by omega), hd, List.take_of_length_le (l := content.drop c) (by rw [List.length_drop]; omega), accumulate_spec,
    accumulate_spec, hw]
  omega

theorem movieNumber_mod (content : Data) : movieNumber content = movieSum chunkSize content % 2 ^ 64 := by
  unfold movieNumber
  exact Nat.and_two_pow_sub_one_eq_mod _ 64

/-- **C80**, provable part for the movie hash: files of at least 128 KiB. Missing: files between 64 KiB and 128 KiB. -/
theorem C80_movie_partial (content : Data) (h : 131072 ≤ content.length) :
    movieNumber content = (content.length + wordSum 0 (content.take 65536) + wordSum 0 (lastBytes 65536 content)) % 2 ^ 64 := by
  rw [movieNumber_mod, sum_large _ _ (show 2 * chunkSize ≤ content.length from h), chunkSize_eq]

/-- **C80**: for files of less than 128 KiB, every word is counted once. -/
theorem C80_movie_small (content : Data) (h : content.length < 131072) :
    movieNumber content = (content.length + wordSum 0 content) % 2 ^ 64 := by
  rw [movieNumber_mod, sum_small _ (by decide) _ (show content.length < 2 * chunkSize from h)]

theorem wordSum_zeros (k : Nat) : ∀ i, wordSum i (List.replicate k 0) = 0 := by
  induction k with
  | zero => intro i; rfl
  | succ k ih => intro i; rw [List.replicate_succ, wordSum, ih]; simp

theorem sample_sums (c : Nat) : ∃ content : Data, content.length = c + 2 ∧ wordSum 0 content = 256 ^ ((c + 1) % 8) ∧
    wordSum 0 (content.take (c + 1)) = 0 ∧ wordSum 0 (lastBytes (c + 1) content) = 256 ^ (c % 8) := by
  refine ⟨List.replicate (c + 1) (0 : UInt8) ++ [1], by simp, ?_, ?_, ?_⟩
  · rw [wordSum_append, wordSum_zeros, List.length_replicate, wordSum, wordSum]; simp
  · rw [List.take_left' List.length_replicate, wordSum_zeros]
  · unfold lastBytes
    have e : ∀ n, n = c + 2 → n - (c + 1) = 1 := by intro n h; omega
    rw [e _ (by simp), List.replicate_succ, List.cons_append,
      List.drop_one, List.tail_cons, wordSum_append, wordSum_zeros, List.length_replicate, wordSum, wordSum]
    simp

/-- C80 is violated for the movie hash: in a file of 64 KiB and one byte, the overlapping words are not counted twice. -/
theorem C80_movie_violated : ¬ C80_movie_statement := by
  intro h
  obtain ⟨content, h1, h2, h3, h4⟩ := sample_sums 65535
  have h5 := h content (by rw [h1]; omega)
  rw [C80_movie_small _ (by rw [h1]; omega), h1, h2] at h5
  have e : (65535 : Nat) + 1 = 65536 := by omega
  rw [e] at h3 h4 h5
  rw [h3, h4] at h5
  exact absurd h5 (by decide)

/-- A file that gives at most three bytes at a time. -/
example : chunks (fun _ => 3) [1, 2, 3, 4, 5, 6, 7] 0 = [[1, 2, 3], [4, 5, 6], [7]] := by decide +kernel

/-- The world without hashlib. -/
def sampleWorld : World Unit := ⟨fun a => if a = "crc32".toList then some false else if a = "smplayer".toList then some true else none, fun _ => none⟩

example : computeHashes sampleWorld (fun _ => 2) [0x31, 0x32, 0x33] ["smplayer".toList, "x".toList, "crc32".toList] =
    [("crc32".toList, "884863d2".toList), ("smplayer".toList, "0000000000333234".toList)] := by decide +kernel

end Verif.Hashing
