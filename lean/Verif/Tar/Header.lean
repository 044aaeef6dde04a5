import Verif.Tar.Scan
import Verif.Tar.Offsets
import Verif.PyStr

/-!
# The headers of TAR archives, as Python reads them (used at core/ratarmountcore/mountsource/formats/tar.py:379-477)

`Verif.Tar.Scan` has the meaning of a header block as a parameter. Here it is given as in the library: `TarInfo.frombuf`, `nti`,
`nts`, `calc_chksums`, `_proc_gnulong`, `_proc_pax` and `_apply_pax_info` of CPython 3.11. What TAR programs write, in the formats
of GNU, ustar and PAX, is specified, and read back correctly.

Simplifications: a negative size or mode, which current versions refuse in other places, is an invalid header; bytes that are not UTF-8 are
decoded by an arbitrary function (`surrogateescape` gives characters that Lean does not have); a PAX record of length 0 ends
the records instead of raising an error; a size in a PAX record that is not a sequence of digits is 0. The records for sparse members
and owners, times and devices are not used here.
-/

namespace Verif.Tar.Header

open Verif.Py Verif.Tar
open Verif.Tar.Offsets (isDigit decNat octDigit octDigits octUnsigned octSigned strip IsRecord decimal)

/-! ## model -/

/-- `s.encode("utf-8")` (Python library, used at tar.py:386, where the encoding is given). -/
def encodeStr (s : Str) : Bytes := s.flatMap String.utf8EncodeChar

/-- `s.decode("utf-8", "surrogateescape")` (Python library, used at tar.py:386). -/
def decodeStr (esc : Bytes → Str) (b : Bytes) : Str :=
  match b.toByteArray.utf8Decode? with
  | some a => a.toList
  | none => esc b

/-- `nts` (Python library, `tarfile`, used at tar.py:382-387): the string ends at the first zero. -/
def nts (esc : Bytes → Str) (b : Bytes) : Str := decodeStr esc (b.takeWhile (fun x => decide (x ≠ 0)))

/-- Bytes as a number, the highest first (Python library, `nti`, used at tar.py:382-387). -/
def base256 (b : Bytes) : Nat := b.foldl (fun a x => a * 256 + x.toNat) 0

/-- The white space of ASCII that `str.strip` removes (Python library, used at tar.py:382-387). -/
def isWhite (b : UInt8) : Bool := b = 32 || (9 ≤ b && b ≤ 13) || (28 ≤ b && b ≤ 31)

/-- `int(s.strip() or "0", 8)` (Python library, `nti`, used at tar.py:382-387). -/
def octalField (b : Bytes) : Option Int := if b = [] then some 0 else octSigned b

/-- `nti` (Python library, `tarfile`, used at tar.py:382-387). `none` is `InvalidHeaderError`. -/
def nti (b : Bytes) : Option Int :=
  if b.head? = some 128 then some (base256 b.tail)
  else if b.head? = some 255 then some (base256 b.tail - 256 ^ b.tail.length)
  else octalField (strip isWhite (b.takeWhile (fun x => decide (x ≠ 0))))

/-- The sum of bytes without sign (Python library, `calc_chksums`, used at tar.py:382-387). -/
def total (b : Bytes) : Nat := (b.map (fun x => x.toNat)).sum

/-- The value of a byte with sign (Python library, `calc_chksums`, used at tar.py:382-387). -/
def signed (x : UInt8) : Int := if x.toNat < 128 then x.toNat else (x.toNat : Int) - 256

/-- `256 + sum(struct.unpack_from("148B8x356B", buf))` (Python library, `calc_chksums`, used at tar.py:382-387). -/
def unsignedSum (b : Bytes) : Int := 256 + total (b.take 148) + total (readAt b 156 356)

/-- `256 + sum(struct.unpack_from("148b8x356b", buf))` (Python library, `calc_chksums`, used at tar.py:382-387). -/
def signedSum (b : Bytes) : Int := 256 + ((b.take 148).map signed).sum + ((readAt b 156 356).map signed).sum

/-- `if chksum not in calc_chksums(buf): raise InvalidHeaderError` (Python library, `frombuf`, used at tar.py:382-387). -/
def checked (b : Bytes) : Bool :=
  match nti (readAt b 148 8) with
  | none => false
  | some c => decide (c = unsignedSum b) || decide (c = signedSum b)

/-- The numbers that are read but not used here: uid, gid, mtime, devmajor, devminor (Python library, `frombuf`, used at tar.py:382-387). -/
def numbersOk (b : Bytes) : Bool :=
  (nti (readAt b 108 8)).isSome && (nti (readAt b 116 8)).isSome && (nti (readAt b 136 12)).isSome && (nti (readAt b 329 8)).isSome &&
    (nti (readAt b 337 8)).isSome

/-- A number that is not negative (Python library, `frombuf`, used at tar.py:382-387). -/
def natural : Option Int → Option Nat
  | some (.ofNat n) => some n
  | _ => none

/-- `obj.type = buf[156:157]` (Python library, `frombuf`, used at tar.py:382-387). -/
def flag (b : Bytes) : Char := Char.ofNat (b.getD 156 0).toNat

/-- "Old V7 tar format represents a directory as a regular file with a trailing slash" (Python library, `frombuf`, used at tar.py:382-387). -/
def kindOf (t : Char) (name : Str) : Char := if t = '\x00' ∧ endsWith ['/'] name = true then '5' else t

/-- "Remove redundant slashes from directories" (Python library, `frombuf`, used at tar.py:382-387). -/
def trimmed (t : Char) (name : Str) : Str := if t = '5' then rstrip '/' name else name

/-- "Reconstruct a ustar longname" (Python library, `frombuf`, used at tar.py:382-387). -/
def longName (t : Char) (pre name : Str) : Str := if pre ≠ [] ∧ t ∉ ['L', 'K', 'S'] then pre ++ '/' :: name else name

/-- The fields of the header (Python library, `frombuf`, used at tar.py:382-387). -/
def toHdr (t : Char) (name pre : Str) (size mode : Nat) (link : Str) : Hdr :=
  ⟨longName (kindOf t name) pre (trimmed (kindOf t name) name), size, kindOf t name, mode, link⟩

/-- `TarInfo.frombuf` (Python library, `tarfile`, used at tar.py:382-387) for a block that is not all zero. -/
def parse (esc : Bytes → Str) (b : Bytes) : Option Hdr :=
  if checked b && numbersOk b then
    (natural (nti (readAt b 100 8))).bind (fun mode => (natural (nti (readAt b 124 12))).map (fun size =>
      toHdr (flag b) (nts esc (readAt b 0 100)) (nts esc (readAt b 345 155)) size mode (nts esc (readAt b 157 100))))
  else none

/-- `name.removesuffix("/")` of folders (Python library, `_proc_gnulong`, used at tar.py:410). -/
def withoutSlash (t : Char) (name : Str) : Str := if t = '5' ∧ endsWith ['/'] name = true then name.dropLast else name

/-- The text before the separator (Python library, `_proc_pax`, used at tar.py:410): keyword and value of the record `rest`, whose length is `n` and
begins with `ds`. -/
def keyValue (rest : Bytes) (n ds : Nat) : Option (Bytes × Bytes) :=
  if (rest.drop (ds + 1)).takeWhile (fun x => decide (x ≠ 61)) = [] then none
  else if ((rest.drop (ds + 1)).dropWhile (fun x => decide (x ≠ 61))) = [] then none
  else some ((rest.drop (ds + 1)).takeWhile (fun x => decide (x ≠ 61)),
    (rest.take (n - 1)).drop (ds + 1 + ((rest.drop (ds + 1)).takeWhile (fun x => decide (x ≠ 61))).length + 1))

/-- One match of `(\d+) ([^=]+)=` (Python library, `_proc_pax`, used at tar.py:410): the length, the keyword and the value. -/
def paxMatch (rest : Bytes) : Option (Nat × Bytes × Bytes) :=
  if rest.takeWhile isDigit = [] then none
  else if (rest.drop (rest.takeWhile isDigit).length).head? ≠ some 32 then none
  else if decNat (rest.takeWhile isDigit) = 0 then none
  else (keyValue rest (decNat (rest.takeWhile isDigit)) (rest.takeWhile isDigit).length).map (fun kv => (decNat (rest.takeWhile isDigit), kv))

theorem paxMatch_length {rest : Bytes} {n : Nat} {kv : Bytes × Bytes} (h : paxMatch rest = some (n, kv)) : 0 < n ∧ 0 < rest.length := by
  unfold paxMatch at h
  split at h
  · cases h
  · next h1 =>
    split at h
    · cases h
    · split at h
      · cases h
      · next h3 =>
        rw [Option.map_eq_some_iff] at h
        obtain ⟨kv', -, he⟩ := h
        cases he
        refine ⟨by omega, ?_⟩
        cases rest with
        | nil => exact absurd rfl h1
        | cons x xs => simp

/-- The records of a PAX header (Python library, `_proc_pax`, used at tar.py:410). -/
def paxRecords (rest : Bytes) : List (Bytes × Bytes) :=
  match _h : paxMatch rest with
  | none => []
  | some (n, kv) => kv :: paxRecords (rest.drop n)
termination_by rest.length
decreasing_by
  have := paxMatch_length _h
  simp only [List.length_drop]
  omega

/-- `pax_headers[keyword]` (Python library, `_proc_pax`, used at tar.py:410): the last record counts. -/
def lastValue (key : Bytes) (rs : List (Bytes × Bytes)) : Option Bytes := ((rs.filter (fun p => decide (p.1 = key))).getLast?).map (fun p => p.2)

/-- `b"path"` -/
def keyPath : Bytes := [112, 97, 116, 104]
/-- `b"linkpath"` -/
def keyLink : Bytes := [108, 105, 110, 107, 112, 97, 116, 104]
/-- `b"size"` -/
def keySize : Bytes := [115, 105, 122, 101]

/-- `int(value)`, or 0 (Python library, `_apply_pax_info`, used at tar.py:410). -/
def paxNumber (v : Bytes) : Nat := if v.all isDigit then decNat v else 0

/-- `_apply_pax_info` (Python library, used at tar.py:410). -/
def applyPax (esc : Bytes → Str) (rs : List (Bytes × Bytes)) (h : Hdr) : Hdr :=
  ⟨((lastValue keyPath rs).map (fun v => rstrip '/' (decodeStr esc v))).getD h.name, ((lastValue keySize rs).map paxNumber).getD h.size, h.type, h.mode,
    ((lastValue keyLink rs).map (decodeStr esc)).getD h.link⟩

/-- `_proc_gnulong` and `_proc_pax` (Python library, used at tar.py:410). -/
def amend (esc : Bytes → Str) (aux : Hdr) (content : Bytes) (h : Hdr) : Hdr :=
  if aux.type = 'L' then ⟨withoutSlash h.type (nts esc content), h.size, h.type, h.mode, h.link⟩
  else if aux.type = 'K' then ⟨withoutSlash h.type h.name, h.size, h.type, h.mode, nts esc content⟩
  else applyPax esc (paxRecords content) h

/-- The codec of the library (used at tar.py:379-477). -/
def codec (esc : Bytes → Str) : Codec := ⟨parse esc, amend esc⟩

/-! ## specification: what TAR programs write -/

/-- A text in a field of `n` bytes. -/
def padded (n : Nat) (b : Bytes) : Bytes := b.take n ++ List.replicate (n - b.length) 0

/-- `k` octal digits. -/
def octs : Nat → Nat → Bytes
  | 0, _ => []
  | k + 1, n => octs k (n / 8) ++ [UInt8.ofNat (48 + n % 8)]

/-- `k` bytes, the highest first. -/
def bigEndian : Nat → Nat → Bytes
  | 0, _ => []
  | k + 1, n => bigEndian k (n / 256) ++ [UInt8.ofNat (n % 256)]

/-- A number in a field of `k + 1` bytes: octal with a zero at the end, or if it is too large, in bytes as GNU tar does. -/
def numeric (k n : Nat) : Bytes := if n < 8 ^ k then octs k n ++ [0] else 128 :: bigEndian k n

/-- What is put into a header. -/
structure Raw where
  name : Bytes
  mode : Nat
  uid : Nat
  gid : Nat
  size : Nat
  mtime : Nat
  type : UInt8
  link : Bytes
  magic : Bytes
  uname : Bytes
  gname : Bytes
  pre : Bytes

/-- The fields before the checksum. -/
def front (r : Raw) : List Bytes :=
  [padded 100 r.name, numeric 7 r.mode, numeric 7 r.uid, numeric 7 r.gid, numeric 11 r.size, numeric 11 r.mtime]

/-- The fields behind the checksum. The numbers of devices are not set. -/
def back (r : Raw) : List Bytes :=
  [[r.type], padded 100 r.link, padded 8 r.magic, padded 32 r.uname, padded 32 r.gname, List.replicate 8 0, List.replicate 8 0,
    padded 155 r.pre, List.replicate 12 0]

/-- The checksum: the sum of all bytes if there were spaces in its place. -/
def checksum (r : Raw) : Nat := 8 * 32 + total (front r).flatten + total (back r).flatten

/-- The block of a header. -/
def block (r : Raw) : Bytes := (front r).flatten ++ (octs 6 (checksum r) ++ [0, 32]) ++ (back r).flatten

/-- The numbers can be stored. -/
structure Fits (r : Raw) : Prop where
  mode : r.mode < 256 ^ 7
  uid : r.uid < 256 ^ 7
  gid : r.gid < 256 ^ 7
  size : r.size < 256 ^ 11
  mtime : r.mtime < 256 ^ 11

/-! ## lemmas: text -/

theorem decode_encode (esc : Bytes → Str) (s : Str) : decodeStr esc (encodeStr s) = s := by
  have h : (encodeStr s).toByteArray = s.utf8Encode := rfl
  unfold decodeStr
  rw [h, List.utf8Decode?_utf8Encode]

theorem zero_char (c : Char) (h : (0 : UInt8) ∈ String.utf8EncodeChar c) : c = '\x00' := by
  unfold String.utf8EncodeChar at h
  have key : ∀ n : Nat, 0 < n % 256 → (0 : UInt8) ≠ UInt8.ofNat n := by
    intro n hn he
    have := congrArg UInt8.toNat he
    rw [UInt8.toNat_ofNat'] at this
    simp at this
    omega
  simp only at h
  split at h
  · next hv =>
    rw [List.mem_singleton] at h
    have : c.val.toNat = 0 := by
      rcases Nat.eq_zero_or_pos c.val.toNat with h0 | h0
      · exact h0
      · exact absurd h (key _ (by omega))
    apply Char.ext
    exact UInt32.toNat_inj.mp this
  · split at h
    · simp only [List.mem_cons, List.not_mem_nil, or_false] at h
      rcases h with h | h <;> exact absurd h (key _ (by omega))
    · split at h
      · simp only [List.mem_cons, List.not_mem_nil, or_false] at h
        rcases h with h | h | h <;> exact absurd h (key _ (by omega))
      · simp only [List.mem_cons, List.not_mem_nil, or_false] at h
        rcases h with h | h | h | h <;> exact absurd h (key _ (by omega))

theorem zero_str {s : Str} (h : '\x00' ∉ s) : (0 : UInt8) ∉ encodeStr s := by
  intro h0
  unfold encodeStr at h0
  rw [List.mem_flatMap] at h0
  obtain ⟨c, hc, h1⟩ := h0
  rw [zero_char c h1] at hc
  exact h hc

theorem takeWhile_zeros (b : Bytes) (n : Nat) (h : (0 : UInt8) ∉ b) :
    (b ++ List.replicate n 0).takeWhile (fun x => decide (x ≠ 0)) = b := by
  induction b with
  | nil => cases n <;> simp [List.replicate]
  | cons x b ih =>
    have hx : x ≠ 0 := fun he => h (by simp [he])
    rw [List.cons_append, List.takeWhile_cons, if_pos (by simp [hx]), ih (fun h' => h (List.mem_cons_of_mem _ h'))]

theorem nts_padded (esc : Bytes → Str) (n : Nat) (b : Bytes) (h : (0 : UInt8) ∉ b) : nts esc (padded n b) = decodeStr esc (b.take n) := by
  unfold nts padded
  rw [takeWhile_zeros _ _ (fun h' => h (List.mem_of_mem_take h'))]

theorem padded_length (n : Nat) (b : Bytes) : (padded n b).length = n := by
  unfold padded
  simp
  omega

/-! ## lemmas: numbers -/

theorem octs_length : ∀ k n, (octs k n).length = k
  | 0, _ => rfl
  | k + 1, n => by unfold octs; rw [List.length_append, octs_length k]; rfl

theorem bigEndian_length : ∀ k n, (bigEndian k n).length = k
  | 0, _ => rfl
  | k + 1, n => by unfold bigEndian; rw [List.length_append, bigEndian_length k]; rfl

theorem numeric_length (k n : Nat) : (numeric k n).length = k + 1 := by
  unfold numeric
  split
  · rw [List.length_append, octs_length]; rfl
  · rw [List.length_cons, bigEndian_length]

theorem oct_digit (n : Nat) (h : n < 8) :
    octDigit (UInt8.ofNat (48 + n)) = some n ∧ 48 ≤ UInt8.ofNat (48 + n) ∧ UInt8.ofNat (48 + n) ≤ 55 := by
  have : n = 0 ∨ n = 1 ∨ n = 2 ∨ n = 3 ∨ n = 4 ∨ n = 5 ∨ n = 6 ∨ n = 7 := by omega
  rcases this with rfl | rfl | rfl | rfl | rfl | rfl | rfl | rfl <;> decide

theorem octs_digits : ∀ k n, ∀ b ∈ octs k n, ∃ v, v < 8 ∧ b = UInt8.ofNat (48 + v)
  | 0, _, b, hb => by cases hb
  | k + 1, n, b, hb => by
    unfold octs at hb
    rcases List.mem_append.mp hb with hb | hb
    · exact octs_digits k _ b hb
    · rw [List.mem_singleton] at hb
      exact ⟨n % 8, Nat.mod_lt _ (by omega), hb⟩

theorem octDigits_snoc (l : Bytes) (v : Nat) (hv : v < 8) (hl : ∀ b ∈ l, ∃ w, w < 8 ∧ b = UInt8.ofNat (48 + w)) :
    ∀ (acc : Nat) (last : Bool) (m : Nat), (l = [] → m = acc) → (l ≠ [] → octDigits acc last l = some m) →
      octDigits acc last (l ++ [UInt8.ofNat (48 + v)]) = some (m * 8 + v) := by
  have hd := oct_digit v hv
  have hne : UInt8.ofNat (48 + v) ≠ 95 := by
    intro he
    rw [he] at hd
    exact absurd hd.2.2 (by decide)
  induction l with
  | nil =>
    intro acc last m h0 _
    rw [h0 rfl, List.nil_append, octDigits, if_neg hne, hd.1]
    rfl
  | cons b l ih =>
    intro acc last m _ h1
    obtain ⟨w, hw, rfl⟩ := hl b List.mem_cons_self
    have hdw := oct_digit w hw
    have hnew : UInt8.ofNat (48 + w) ≠ 95 := by
      intro he
      rw [he] at hdw
      exact absurd hdw.2.2 (by decide)
    have h2 := h1 (by simp)
    rw [octDigits, if_neg hnew, hdw.1] at h2
    rw [List.cons_append, octDigits, if_neg hnew, hdw.1]
    refine ih (fun b hb => hl b (List.mem_cons_of_mem _ hb)) _ true m ?_ (fun _ => h2)
    rintro rfl
    simp only [octDigits, if_true, Option.some.injEq] at h2
    exact h2.symm

theorem octDigits_octs : ∀ (k n : Nat), n < 8 ^ k → k ≠ 0 → octDigits 0 false (octs k n) = some n
  | 0, _, _, h => absurd rfl h
  | k + 1, n, hn, _ => by
    unfold octs
    have h8 : n / 8 < 8 ^ k := by rw [Nat.pow_succ] at hn; omega
    have := octDigits_snoc (octs k (n / 8)) (n % 8) (Nat.mod_lt _ (by omega)) (octs_digits _ _) 0 false (n / 8) (by
      intro h0
      have h1 := congrArg List.length h0
      rw [octs_length] at h1
      have h2 : k = 0 := h1
      subst h2
      simp at h8
      omega) (by
      intro h0
      refine octDigits_octs k (n / 8) h8 ?_
      rintro rfl
      exact h0 rfl)
    rw [this]
    congr 1
    omega

theorem octSigned_octs (k n : Nat) (hn : n < 8 ^ k) (hk : k ≠ 0) : octSigned (octs k n) = some (n : Int) := by
  have hd := octs_digits k n
  have h1 : octUnsigned (octs k n) = octDigits 0 false (octs k n) := by
    generalize octs k n = l at hd ⊢
    have hbad : ∀ (x : UInt8), 55 < x → ¬ x ∈ l := by
      intro x hx hm
      obtain ⟨v, hv, rfl⟩ := hd x hm
      have := (oct_digit v hv).2.2
      exact absurd hx (by rw [UInt8.not_lt]; exact this)
    unfold octUnsigned
    split
    · exact absurd (show (111 : UInt8) ∈ _ by simp) (hbad 111 (by decide))
    · exact absurd (show (79 : UInt8) ∈ _ by simp) (hbad 79 (by decide))
    · rfl
  have h2 : octSigned (octs k n) = (octUnsigned (octs k n)).map (fun n => (n : Int)) := by
    generalize octs k n = l at hd ⊢
    have hbad : ∀ (x : UInt8), x < 48 → ¬ x ∈ l := by
      intro x hx hm
      obtain ⟨v, hv, rfl⟩ := hd x hm
      have := (oct_digit v hv).2.1
      exact absurd hx (by rw [UInt8.not_lt]; exact this)
    unfold octSigned
    split
    · exact absurd (show (45 : UInt8) ∈ _ by simp) (hbad 45 (by decide))
    · exact absurd (show (43 : UInt8) ∈ _ by simp) (hbad 43 (by decide))
    · rfl
  rw [h2, h1, octDigits_octs k n hn hk]
  rfl

theorem strip_none (p : UInt8 → Bool) (l : Bytes) (h : ∀ b ∈ l, p b = false) : strip p l = l := by
  have hd : ∀ l : Bytes, (∀ b ∈ l, p b = false) → l.dropWhile p = l := by
    intro l hl
    cases l with
    | nil => rfl
    | cons b l => rw [List.dropWhile_cons, if_neg (by rw [hl b List.mem_cons_self]; decide)]
  unfold strip
  rw [hd l h, hd l.reverse (fun b hb => h b (List.mem_reverse.mp hb)), List.reverse_reverse]

theorem nti_octs (k n : Nat) (rest : Bytes) (hn : n < 8 ^ k) (hk : k ≠ 0) : nti (octs k n ++ 0 :: rest) = some (n : Int) := by
  have hd := octs_digits k n
  have hlen := octs_length k n
  have hval : ∀ b ∈ octs k n, b ≠ 0 ∧ isWhite b = false ∧ b ≠ 128 ∧ b ≠ 255 := by
    intro b hb
    obtain ⟨v, hv, rfl⟩ := hd b hb
    have : v = 0 ∨ v = 1 ∨ v = 2 ∨ v = 3 ∨ v = 4 ∨ v = 5 ∨ v = 6 ∨ v = 7 := by omega
    rcases this with rfl | rfl | rfl | rfl | rfl | rfl | rfl | rfl <;> decide
  have htw : (octs k n ++ 0 :: rest).takeWhile (fun x => decide (x ≠ 0)) = octs k n := by
    have : ∀ l : Bytes, (∀ b ∈ l, b ≠ 0) → (l ++ 0 :: rest).takeWhile (fun x => decide (x ≠ 0)) = l := by
      intro l
      induction l with
      | nil => intro _; simp
      | cons x l ih =>
        intro h
        rw [List.cons_append, List.takeWhile_cons, if_pos (by simp [h x]), ih (fun b hb => h b (List.mem_cons_of_mem _ hb))]
    exact this _ (fun b hb => (hval b hb).1)
  have hne : octs k n ≠ [] := by
    intro h0
    rw [h0] at hlen
    exact hk hlen.symm
  unfold nti
  rw [htw, strip_none _ _ (fun b hb => (hval b hb).2.1)]
  obtain ⟨x, l, hxl⟩ := List.exists_cons_of_ne_nil hne
  have hx := hval x (by rw [hxl]; simp)
  have hh : (octs k n ++ 0 :: rest).head? = some x := by rw [hxl]; rfl
  rw [hh, if_neg (by simp [hx.2.2.1]), if_neg (by simp [hx.2.2.2])]
  unfold octalField
  rw [if_neg hne]
  exact octSigned_octs k n hn hk

theorem base256_bigEndian : ∀ (k n : Nat), n < 256 ^ k → base256 (bigEndian k n) = n
  | 0, n, h => by simp at h; subst h; rfl
  | k + 1, n, h => by
    have h1 : n / 256 < 256 ^ k := by rw [Nat.pow_succ] at h; omega
    have ih := base256_bigEndian k (n / 256) h1
    unfold bigEndian
    unfold base256 at ih ⊢
    rw [List.foldl_append, ih]
    simp only [List.foldl_cons, List.foldl_nil]
    rw [UInt8.toNat_ofNat']
    simp
    omega

theorem nti_numeric (k n : Nat) (hk : k ≠ 0) (h : n < 256 ^ k) : nti (numeric k n) = some (n : Int) := by
  unfold numeric
  split
  · next h8 => exact nti_octs k n [] h8 hk
  · unfold nti
    rw [if_pos (show (128 :: bigEndian k n).head? = some 128 from rfl)]
    show some ((base256 (bigEndian k n) : Nat) : Int) = _
    rw [base256_bigEndian k n h]

theorem nti_zeros (n : Nat) : nti (List.replicate n 0) = some 0 := by
  have htw : (List.replicate n (0 : UInt8)).takeWhile (fun x => decide (x ≠ 0)) = [] := by
    cases n <;> simp [List.replicate]
  unfold nti
  rw [htw]
  cases n with
  | zero => rfl
  | succ n => rfl

/-! ## lemmas: the block -/

theorem readAt_flatten : ∀ (fs : List Bytes) (i : Nat) (x : Bytes), fs[i]? = some x →
    readAt fs.flatten ((fs.take i).map List.length).sum x.length = x
  | [], i, x, h => by simp at h
  | f :: fs, 0, x, h => by
    simp only [List.getElem?_cons_zero, Option.some.injEq] at h
    subst h
    unfold readAt
    simp
  | f :: fs, i + 1, x, h => by
    rw [List.getElem?_cons_succ] at h
    have ih := readAt_flatten fs i x h
    unfold readAt at ih ⊢
    rw [List.take_succ_cons, List.map_cons, List.sum_cons, List.flatten_cons, List.drop_append, List.drop_eq_nil_of_le (by omega), List.nil_append,
      Nat.add_sub_cancel_left]
    exact ih

/-- All fields. -/
def fields (r : Raw) : List Bytes := front r ++ [octs 6 (checksum r) ++ [0, 32]] ++ back r

theorem block_fields (r : Raw) : block r = (fields r).flatten := by
  unfold block fields
  simp [List.flatten_append]

theorem front_length (r : Raw) : (front r).flatten.length = 148 := by
  unfold front
  simp [padded_length, numeric_length]

theorem back_length (r : Raw) : (back r).flatten.length = 356 := by
  unfold back
  simp [padded_length]

theorem block_length (r : Raw) : (block r).length = 512 := by
  unfold block
  simp only [List.length_append, front_length, back_length, octs_length]
  rfl

theorem total_le (b : Bytes) : total b ≤ 255 * b.length := by
  unfold total
  induction b with
  | nil => simp
  | cons x b ih =>
    rw [List.map_cons, List.sum_cons, List.length_cons]
    have := x.toNat_lt
    omega

theorem checksum_lt (r : Raw) : checksum r < 8 ^ 6 := by
  unfold checksum
  have h1 := total_le (front r).flatten
  have h2 := total_le (back r).flatten
  rw [front_length] at h1
  rw [back_length] at h2
  omega

theorem at_field (r : Raw) (i : Nat) (x : Bytes) (o n : Nat) (h : (fields r)[i]? = some x) (ho : (((fields r).take i).map List.length).sum = o)
    (hn : x.length = n) : readAt (block r) o n = x := by
  rw [block_fields, ← ho, ← hn]
  exact readAt_flatten _ i x h

theorem sum_block (r : Raw) : unsignedSum (block r) = (checksum r : Int) := by
  unfold unsignedSum checksum
  have h1 : (block r).take 148 = (front r).flatten := by
    unfold block
    rw [List.append_assoc]
    exact List.take_left' (front_length r)
  have h2 : readAt (block r) 156 356 = (back r).flatten := by
    unfold readAt block
    rw [List.drop_left' (by rw [List.length_append, front_length, List.length_append, octs_length]; rfl), ← back_length r, List.take_length]
  rw [h1, h2]
  omega

theorem checked_block (r : Raw) : checked (block r) = true := by
  unfold checked
  have h1 : readAt (block r) 148 8 = octs 6 (checksum r) ++ [0, 32] :=
    at_field r 6 _ _ _ rfl (by simp [fields, front, padded_length, numeric_length]) (by simp [octs_length])
  rw [h1, nti_octs 6 _ [32] (checksum_lt r) (by decide)]
  simp only [sum_block, decide_true, Bool.true_or]

theorem parse_block (esc : Bytes → Str) (r : Raw) (hf : Fits r) (hn : (0 : UInt8) ∉ r.name) (hl : (0 : UInt8) ∉ r.link) (hp : (0 : UInt8) ∉ r.pre) :
    parse esc (block r) = some (toHdr (Char.ofNat r.type.toNat) (decodeStr esc (r.name.take 100)) (decodeStr esc (r.pre.take 155)) r.size r.mode
      (decodeStr esc (r.link.take 100))) := by
  have a0 : readAt (block r) 0 100 = padded 100 r.name := at_field r 0 _ _ _ rfl rfl (padded_length _ _)
  have a1 : readAt (block r) 100 8 = numeric 7 r.mode :=
    at_field r 1 _ _ _ rfl (by simp [fields, front, padded_length]) (numeric_length _ _)
  have a2 : readAt (block r) 108 8 = numeric 7 r.uid :=
    at_field r 2 _ _ _ rfl (by simp [fields, front, padded_length, numeric_length]) (numeric_length _ _)
  have a3 : readAt (block r) 116 8 = numeric 7 r.gid :=
    at_field r 3 _ _ _ rfl (by simp [fields, front, padded_length, numeric_length]) (numeric_length _ _)
  have a4 : readAt (block r) 124 12 = numeric 11 r.size :=
    at_field r 4 _ _ _ rfl (by simp [fields, front, padded_length, numeric_length]) (numeric_length _ _)
  have a5 : readAt (block r) 136 12 = numeric 11 r.mtime :=
    at_field r 5 _ _ _ rfl (by simp [fields, front, padded_length, numeric_length]) (numeric_length _ _)
  have a7 : readAt (block r) 156 1 = [r.type] :=
    at_field r 7 _ _ _ rfl (by simp [fields, front, padded_length, numeric_length, octs_length]) rfl
  have a8 : readAt (block r) 157 100 = padded 100 r.link :=
    at_field r 8 _ _ _ rfl (by simp [fields, front, back, padded_length, numeric_length, octs_length]) (padded_length _ _)
  have a12 : readAt (block r) 329 8 = List.replicate 8 0 :=
    at_field r 12 _ _ _ rfl (by simp [fields, front, back, padded_length, numeric_length, octs_length]) rfl
  have a13 : readAt (block r) 337 8 = List.replicate 8 0 :=
    at_field r 13 _ _ _ rfl (by simp [fields, front, back, padded_length, numeric_length, octs_length]) rfl
  have a14 : readAt (block r) 345 155 = padded 155 r.pre :=
    at_field r 14 _ _ _ rfl (by simp [fields, front, back, padded_length, numeric_length, octs_length]) (padded_length _ _)
  have hflag : flag (block r) = Char.ofNat r.type.toNat := by
    unfold flag
    unfold readAt at a7
    have h1 : (block r)[156]? = some r.type := by
      have h2 := congrArg List.head? a7
      rw [List.head?_take, if_neg (by decide), List.head?_drop] at h2
      exact h2
    rw [List.getD_eq_getElem?_getD, h1]
    rfl
  have hnum : numbersOk (block r) = true := by
    unfold numbersOk
    rw [a2, a3, a5, a12, a13, nti_numeric 7 _ (by decide) hf.uid, nti_numeric 7 _ (by decide) hf.gid, nti_numeric 11 _ (by decide) hf.mtime,
      nti_zeros]
    rfl
  unfold parse
  rw [checked_block, hnum, a0, a1, a4, a8, a14, nti_numeric 7 _ (by decide) hf.mode, nti_numeric 11 _ (by decide) hf.size, hflag,
    nts_padded esc 100 _ hn, nts_padded esc 100 _ hl, nts_padded esc 155 _ hp]
  rfl

/-- A block with a type is not zero. -/
theorem block_set (r : Raw) (h : r.type ≠ 0) : ∃ x ∈ block r, x ≠ 0 := by
  refine ⟨r.type, ?_, h⟩
  rw [block_fields]
  rw [List.mem_flatten]
  exact ⟨[r.type], by simp [fields, back], by simp⟩

/-! ## specification: the formats -/

/-- What is packed. -/
inductive Kind where
  | file
  | folder
  | symlink
  | hardlink
  deriving DecidableEq, Repr

/-- The type in the header. -/
def Kind.byte : Kind → UInt8
  | .file => 48
  | .folder => 53
  | .symlink => 50
  | .hardlink => 49

/-- The same as a character. -/
def Kind.char : Kind → Char
  | .file => '0'
  | .folder => '5'
  | .symlink => '2'
  | .hardlink => '1'

/-- Something that is packed. -/
structure File where
  kind : Kind
  name : Str
  mode : Nat
  data : Bytes
  link : Str
  deriving DecidableEq, Repr

/-- The header it should be read as. -/
def File.hdr (f : File) : Hdr := ⟨f.name, f.data.length, f.kind.char, f.mode, f.link⟩

/-- Names have no zeros and no slash at the end, only files have data, and sizes can be stored. -/
structure File.Ok (f : File) : Prop where
  name : '\x00' ∉ f.name ∧ f.name.getLast? ≠ some '/'
  link : '\x00' ∉ f.link
  mode : f.mode < 4096
  data : f.kind ≠ .file → f.data = []
  size : f.data.length < 256 ^ 11
  folder : f.kind = .folder → f.link = []

/-- The name as it is written: folders have a slash at the end. -/
def File.written (f : File) : Str := if f.kind = .folder then f.name ++ ['/'] else f.name

/-- Owners, time and the other fields that programs fill in. -/
structure Extra where
  uid : Nat
  gid : Nat
  mtime : Nat
  magic : Bytes
  uname : Bytes
  gname : Bytes

/-- The numbers can be stored. -/
structure Extra.Ok (x : Extra) : Prop where
  uid : x.uid < 256 ^ 7
  gid : x.gid < 256 ^ 7
  mtime : x.mtime < 256 ^ 11

/-- The zeros that fill the last block. -/
def filling (b : Bytes) : Bytes := List.replicate (roundUp b.length - b.length) 0

/-- The header with the fields of a file and the given name, link, size and prefix. -/
def rawOf (x : Extra) (t : UInt8) (mode : Nat) (name link pre : Bytes) (size : Nat) : Raw :=
  ⟨name, mode, x.uid, x.gid, size, x.mtime, t, link, x.magic, x.uname, x.gname, pre⟩

/-- `././@LongLink` -/
def longLink : Bytes := encodeStr "././@LongLink".toList

/-- A header of GNU tar for a long name (type `L`) or link (type `K`), followed by the name. -/
def gnuLong (x : Extra) (t : UInt8) (s : Str) : Aux :=
  ⟨block (rawOf x t 0o644 longLink [] [] (encodeStr s ++ [0]).length), (encodeStr s ++ [0]) ++ filling (encodeStr s ++ [0])⟩

/-- The header for a long link, if it is needed. -/
def gnuLink (x : Extra) (f : File) : List Aux := if 100 < (encodeStr f.link).length then [gnuLong x 75 f.link] else []

/-- The header for a long name, if it is needed. -/
def gnuName (x : Extra) (f : File) : List Aux := if 100 < (encodeStr f.written).length then [gnuLong x 76 f.written] else []

/-- The member in the format of GNU tar. -/
def gnu (x : Extra) (f : File) : Member :=
  ⟨gnuLink x f ++ gnuName x f, block (rawOf x f.kind.byte f.mode (encodeStr f.written) (encodeStr f.link) [] f.data.length), f.data, filling f.data⟩

/-- The member in the format ustar, with the name cut at a slash into prefix and name, or without a prefix. -/
def ustar (x : Extra) (f : File) (pre name : Str) : Member :=
  ⟨[], block (rawOf x f.kind.byte f.mode (encodeStr name) (encodeStr f.link) (encodeStr pre) f.data.length), f.data, filling f.data⟩

/-- The format ustar can store the file. -/
structure UstarOk (f : File) (pre name : Str) : Prop where
  cut : f.written = if pre = [] then name else pre ++ '/' :: name
  begin : name.getLast? ≠ none
  name : (encodeStr name).length ≤ 100
  pre : (encodeStr pre).length ≤ 155
  link : (encodeStr f.link).length ≤ 100

/-- The member in the format PAX: an extended header with records, then a header whose fields may be cut. -/
def pax (x y : Extra) (f : File) (rs : List (Bytes × Bytes × Bytes)) (title name link : Bytes) (size : Nat) : Member :=
  ⟨[⟨block (rawOf y 120 0o644 title [] [] (rs.flatMap (fun p => p.1)).length), rs.flatMap (fun p => p.1) ++ filling (rs.flatMap (fun p => p.1))⟩],
    block (rawOf x f.kind.byte f.mode name link [] size), f.data, filling f.data⟩

/-- Keyword and value of records. -/
def pairs (rs : List (Bytes × Bytes × Bytes)) : List (Bytes × Bytes) := rs.map (fun p => p.2)

/-- The bytes of a keyword. -/
def ascii (s : String) : Bytes := s.toList.map (fun c => UInt8.ofNat c.toNat)

/-- The last record with this keyword has this value. -/
def Last (key value : Bytes) (rs : List (Bytes × Bytes)) : Prop := ∃ a b, rs = a ++ (key, value) :: b ∧ ∀ p ∈ b, p.1 ≠ key

/-- There is no record with this keyword. -/
def NoRecord (key : Bytes) (rs : List (Bytes × Bytes)) : Prop := ∀ p ∈ rs, p.1 ≠ key

theorem lastValue_last {key value : Bytes} {rs : List (Bytes × Bytes)} (h : Last key value rs) : lastValue key rs = some value := by
  obtain ⟨a, b, rfl, hb⟩ := h
  unfold lastValue
  have hn : b.filter (fun p => decide (p.1 = key)) = [] := by
    rw [List.filter_eq_nil_iff]
    intro p hp
    simp [hb p hp]
  rw [List.filter_append, List.filter_cons, if_pos (by simp), hn]
  simp

theorem lastValue_none {key : Bytes} {rs : List (Bytes × Bytes)} (h : NoRecord key rs) : lastValue key rs = none := by
  unfold lastValue
  have hn : rs.filter (fun p => decide (p.1 = key)) = [] := by
    rw [List.filter_eq_nil_iff]
    intro p hp
    simp [h p hp]
  rw [hn]
  rfl

theorem keyPath_eq : ascii "path" = keyPath := by decide
theorem keyLink_eq : ascii "linkpath" = keyLink := by decide
theorem keySize_eq : ascii "size" = keySize := by decide

/-- The records and the fields tell name, link and size: each is in the last record for it, or in its field if there is no such record. -/
structure PaxOk (f : File) (rs : List (Bytes × Bytes × Bytes)) (title name link : Bytes) (size : Nat) : Prop where
  records : ∀ p ∈ rs, IsRecord p.1 p.2.1 p.2.2 ∧ p.2.1 ≠ [] ∧ 61 ∉ p.2.1
  short : (rs.flatMap (fun p => p.1)).length < 256 ^ 11
  title : (0 : UInt8) ∉ title
  plain : (0 : UInt8) ∉ name ∧ (0 : UInt8) ∉ link ∧ size < 256 ^ 11
  path : Last (ascii "path") (encodeStr f.written) (pairs rs) ∨
    (NoRecord (ascii "path") (pairs rs) ∧ name = encodeStr f.written ∧ name.length ≤ 100)
  target : Last (ascii "linkpath") (encodeStr f.link) (pairs rs) ∨
    (NoRecord (ascii "linkpath") (pairs rs) ∧ link = encodeStr f.link ∧ link.length ≤ 100)
  size : Last (ascii "size") (decimal f.data.length) (pairs rs) ∨ (NoRecord (ascii "size") (pairs rs) ∧ size = f.data.length)

/-- A member is a file in one of the formats. -/
inductive Written : File → Member → Prop where
  | gnu (x : Extra) (hx : x.Ok) (f : File) : Written f (gnu x f)
  | ustar (x : Extra) (hx : x.Ok) (f : File) (pre name : Str) (h : UstarOk f pre name) : Written f (ustar x f pre name)
  | pax (x y : Extra) (hx : x.Ok) (hy : y.Ok) (f : File) (rs : List (Bytes × Bytes × Bytes)) (title name link : Bytes) (size : Nat)
      (h : PaxOk f rs title name link size) : Written f (pax x y f rs title name link size)

/-! ## lemmas: the formats -/

theorem roundUp_le (n : Nat) : n ≤ roundUp n := by unfold roundUp; omega

theorem filled_length (b : Bytes) : (b ++ filling b).length = roundUp b.length := by
  unfold filling
  have := roundUp_le b.length
  rw [List.length_append, List.length_replicate]
  omega

theorem kind_char (k : Kind) : Char.ofNat k.byte.toNat = k.char := by cases k <;> rfl

theorem kind_byte (k : Kind) : k.byte ≠ 0 := by cases k <;> decide

theorem kind_aux (k : Kind) : announces k.char = false := by cases k <;> decide

theorem kind_zero (k : Kind) : k.char ≠ '\x00' := by cases k <;> decide

theorem kindOf_kind (k : Kind) (name : Str) : kindOf k.char name = k.char := by
  unfold kindOf
  rw [if_neg (fun h => kind_zero k h.1)]

theorem rstrip_slash {s : Str} (h : s.getLast? ≠ some '/') : rstrip '/' (s ++ ['/']) = s := by
  unfold rstrip
  rw [List.reverse_append]
  simp only [List.reverse_cons, List.reverse_nil, List.nil_append, List.cons_append]
  rw [List.dropWhile_cons, if_pos (by decide)]
  have : s.reverse.dropWhile (fun x => decide (x = '/')) = s.reverse := by
    cases hs : s.reverse with
    | nil => rfl
    | cons c r =>
      rw [List.dropWhile_cons, if_neg]
      have hc : s.getLast? = some c := by rw [List.getLast?_eq_head?_reverse, hs]; rfl
      intro he
      rw [of_decide_eq_true he] at hc
      exact h hc
  rw [this, List.reverse_reverse]

theorem rstrip_id {s : Str} (h : s.getLast? ≠ some '/') : rstrip '/' s = s := by
  have h1 := rstrip_slash h
  unfold rstrip at h1 ⊢
  rw [List.reverse_append] at h1
  simp only [List.reverse_cons, List.reverse_nil, List.nil_append, List.cons_append] at h1
  rw [List.dropWhile_cons, if_pos (by decide)] at h1
  exact h1

theorem trimmed_written (f : File) (h : f.name.getLast? ≠ some '/') : trimmed f.kind.char f.written = f.name := by
  unfold trimmed File.written
  by_cases hk : f.kind = .folder
  · rw [if_pos hk, if_pos (by rw [hk]; rfl)]
    exact rstrip_slash h
  · rw [if_neg hk, if_neg]
    intro hc
    revert hk hc
    cases f.kind <;> decide

theorem rstrip_written (f : File) (h : f.name.getLast? ≠ some '/') : rstrip '/' f.written = f.name := by
  unfold File.written
  split
  · exact rstrip_slash h
  · exact rstrip_id h

theorem withoutSlash_written (f : File) : withoutSlash f.kind.char f.written = f.name := by
  unfold withoutSlash File.written
  by_cases hk : f.kind = .folder
  · rw [if_pos hk, if_pos]
    · exact List.dropLast_concat
    · refine ⟨by rw [hk]; rfl, ?_⟩
      unfold endsWith
      simp
  · rw [if_neg hk, if_neg]
    rintro ⟨hc, -⟩
    revert hk hc
    cases f.kind <;> decide

theorem withoutSlash_name (f : File) (h : f.name.getLast? ≠ some '/') : withoutSlash f.kind.char f.name = f.name := by
  unfold withoutSlash
  rw [if_neg]
  rintro ⟨-, he⟩
  unfold endsWith at he
  rw [List.isSuffixOf_iff_suffix] at he
  obtain ⟨t, ht⟩ := he
  rw [← ht] at h
  simp at h

theorem written_zero (f : File) (h : '\x00' ∉ f.name) : '\x00' ∉ f.written := by
  unfold File.written
  split
  · rw [List.mem_append]
    rintro (h1 | h1)
    · exact h h1
    · rw [List.mem_singleton] at h1
      revert h1
      decide
  · exact h

/-- The header of a member as it is read, whatever is in the fields for name and link. -/
theorem own_block (esc : Bytes → Str) (x : Extra) (hx : x.Ok) (f : File) (hf : f.Ok) (name link pre : Bytes) (size : Nat)
    (hn : (0 : UInt8) ∉ name) (hl : (0 : UInt8) ∉ link) (hp : (0 : UInt8) ∉ pre) (hs : size < 256 ^ 11) :
    IsBlock (codec esc) (block (rawOf x f.kind.byte f.mode name link pre size))
      ⟨longName f.kind.char (decodeStr esc (pre.take 155)) (trimmed f.kind.char (decodeStr esc (name.take 100))), size, f.kind.char, f.mode,
        decodeStr esc (link.take 100)⟩ := by
  refine ⟨block_length _, block_set _ (kind_byte f.kind), ?_⟩
  show parse esc _ = _
  rw [parse_block esc _ ⟨Nat.lt_trans hf.mode (by decide), hx.uid, hx.gid, hs, hx.mtime⟩ hn hl hp]
  unfold toHdr
  show some (Hdr.mk (longName (kindOf (Char.ofNat f.kind.byte.toNat) _) _ _) size (kindOf (Char.ofNat f.kind.byte.toNat) _) f.mode _) = _
  have hk : ∀ n : Str, kindOf (Char.ofNat (rawOf x f.kind.byte f.mode name link pre size).type.toNat) n = f.kind.char := by
    intro n
    show kindOf (Char.ofNat f.kind.byte.toNat) n = _
    rw [kind_char, kindOf_kind]
  rw [hk, kind_char, kindOf_kind]
  rfl

/-- A header of another type, without prefix. -/
theorem aux_block (esc : Bytes → Str) (x : Extra) (hx : x.Ok) (t : UInt8) (ht : t = 75 ∨ t = 76 ∨ t = 120) (name : Bytes) (size : Nat)
    (hn : (0 : UInt8) ∉ name) (hs : size < 256 ^ 11) :
    ∃ h, IsBlock (codec esc) (block (rawOf x t 0o644 name [] [] size)) h ∧ h.type = Char.ofNat t.toNat ∧ h.size = size := by
  refine ⟨_, ⟨block_length _, block_set _ ?_, parse_block esc _ ⟨show (420 : Nat) < _ by decide, hx.uid, hx.gid, hs, hx.mtime⟩ hn
    (fun h => by cases h) (fun h => by cases h)⟩, ?_, rfl⟩
  · show t ≠ 0
    rcases ht with rfl | rfl | rfl <;> decide
  · show kindOf (Char.ofNat t.toNat) _ = _
    unfold kindOf
    rw [if_neg]
    rintro ⟨h, -⟩
    rcases ht with rfl | rfl | rfl <;> revert h <;> decide

theorem nts_filled (esc : Bytes → Str) (s : Str) (h : '\x00' ∉ s) :
    nts esc ((encodeStr s ++ [0]) ++ filling (encodeStr s ++ [0])) = s := by
  unfold nts filling
  have : ∀ n, (encodeStr s ++ [0]) ++ List.replicate n 0 = encodeStr s ++ List.replicate (n + 1) 0 := by
    intro n
    rw [List.append_assoc]
    rfl
  rw [this, takeWhile_zeros _ _ (zero_str h), decode_encode]

theorem longLink_zero : (0 : UInt8) ∉ longLink := zero_str (by decide)

theorem encodeStr_append (a b : Str) : encodeStr (a ++ b) = encodeStr a ++ encodeStr b := by
  unfold encodeStr
  rw [List.flatMap_append]

theorem decode_short (esc : Bytes → Str) (s : Str) (n : Nat) (h : (encodeStr s).length ≤ n) : decodeStr esc ((encodeStr s).take n) = s := by
  rw [List.take_of_length_le h, decode_encode]

theorem decode_nil (esc : Bytes → Str) (n : Nat) : decodeStr esc (([] : Bytes).take n) = [] := by
  have := decode_encode esc []
  rw [List.take_nil]
  exact this

/-- The length of a name can be stored. -/
def Storable (s : Str) : Prop := (encodeStr s).length + 1 < 256 ^ 11

/-- The header for a long name or link. -/
theorem gnuLong_ok (esc : Bytes → Str) (x : Extra) (hx : x.Ok) (t : UInt8) (ht : t = 75 ∨ t = 76) (s : Str) (hs : Storable s) :
    ∃ ah, IsBlock (codec esc) (gnuLong x t s).block ah ∧ announces ah.type = true ∧ (gnuLong x t s).content.length = roundUp ah.size ∧
      ah.type = Char.ofNat t.toNat := by
  obtain ⟨h, h1, h2, h3⟩ := aux_block esc x hx t (by rcases ht with h | h; exact .inl h; exact .inr (.inl h)) longLink (encodeStr s ++ [0]).length
    longLink_zero (by rw [List.length_append]; exact hs)
  refine ⟨h, h1, ?_, ?_, h2⟩
  · rw [h2]; rcases ht with rfl | rfl <;> decide
  · rw [h3]; exact filled_length _

/-- Names that are stored in files exist, so their lengths are not astronomical. -/
theorem gnu_head (esc : Bytes → Str) (x : Extra) (hx : x.Ok) (f : File) (hf : f.Ok) (hw : Storable f.written) (hl : Storable f.link) :
    ∃ own, HeadOk (codec esc) (gnu x f).aux (gnu x f).block own f.hdr := by
  have hown := own_block esc x hx f hf (encodeStr f.written) (encodeStr f.link) [] f.data.length (zero_str (written_zero f hf.name.1))
    (zero_str hf.link) (fun h => by cases h) hf.size
  have hpre : ∀ n : Str, longName f.kind.char (decodeStr esc (([] : Bytes).take 155)) n = n := by
    intro n
    unfold longName
    rw [decode_nil, if_neg (fun h => h.1 rfl)]
  rw [hpre] at hown
  -- the name
  have hname : ∃ own h', HeadOk (codec esc) (gnuName x f) (gnu x f).block own h' ∧
      h' = ⟨f.name, f.data.length, f.kind.char, f.mode, decodeStr esc ((encodeStr f.link).take 100)⟩ := by
    by_cases h100 : 100 < (encodeStr f.written).length
    · obtain ⟨ah, a1, a2, a3, a4⟩ := gnuLong_ok esc x hx 76 (.inr rfl) f.written hw
      unfold gnuName
      rw [if_pos h100]
      refine ⟨_, _, ⟨ah, _, a1, a2, a3, ⟨hown, kind_aux f.kind, rfl⟩, rfl⟩, ?_⟩
      show amend esc ah _ _ = _
      unfold amend
      rw [if_pos (by rw [a4]; decide)]
      show Hdr.mk (withoutSlash f.kind.char (nts esc ((encodeStr f.written ++ [0]) ++ filling (encodeStr f.written ++ [0])))) _ _ _ _ = _
      rw [nts_filled esc _ (written_zero f hf.name.1), withoutSlash_written f]
    · unfold gnuName
      rw [if_neg h100]
      refine ⟨_, _, ⟨hown, kind_aux f.kind, rfl⟩, ?_⟩
      rw [decode_short esc f.written 100 (by omega), trimmed_written f hf.name.2]
  obtain ⟨own, h', hok, hh'⟩ := hname
  by_cases h100 : 100 < (encodeStr f.link).length
  · obtain ⟨ah, a1, a2, a3, a4⟩ := gnuLong_ok esc x hx 75 (.inl rfl) f.link hl
    have haux : (gnu x f).aux = gnuLong x 75 f.link :: gnuName x f := by
      show gnuLink x f ++ gnuName x f = _
      unfold gnuLink
      rw [if_pos h100]
      rfl
    rw [haux]
    refine ⟨own, ah, h', a1, a2, a3, hok, ?_⟩
    show f.hdr = amend esc ah _ h'
    unfold amend
    rw [if_neg (by rw [a4]; decide), if_pos (by rw [a4]; decide), hh']
    show f.hdr = Hdr.mk (withoutSlash f.kind.char f.name) f.data.length f.kind.char f.mode
      (nts esc ((encodeStr f.link ++ [0]) ++ filling (encodeStr f.link ++ [0])))
    rw [nts_filled esc _ hf.link, withoutSlash_name f hf.name.2]
    rfl
  · have haux : (gnu x f).aux = gnuName x f := by
      show gnuLink x f ++ gnuName x f = _
      unfold gnuLink
      rw [if_neg h100]
      rfl
    rw [haux]
    rw [decode_short esc f.link 100 (by omega)] at hh'
    refine ⟨own, ?_⟩
    rw [hh'] at hok
    exact hok

theorem hasData_kind (k : Kind) : hasData k.char = false → k ≠ .file := by cases k <;> decide

theorem ok_of_head {c : Codec} {f : File} (hf : f.Ok) (aux : List Aux) (b : Bytes) (h : ∃ own, HeadOk c aux b own f.hdr) :
    (Member.mk aux b f.data (filling f.data)).Ok c f.hdr :=
  ⟨h, rfl, fun hd => hf.data (hasData_kind f.kind hd), by
    have := filled_length f.data
    rw [List.length_append] at this
    exact this⟩

theorem ustar_ok (esc : Bytes → Str) (x : Extra) (hx : x.Ok) (f : File) (hf : f.Ok) (pre name : Str) (h : UstarOk f pre name) :
    (ustar x f pre name).Ok (codec esc) f.hdr := by
  have hz : '\x00' ∉ pre ∧ '\x00' ∉ name := by
    have h0 := written_zero f hf.name.1
    rw [h.cut] at h0
    split at h0
    · next hp => exact ⟨by rw [hp]; simp, h0⟩
    · rw [List.mem_append, List.mem_cons] at h0
      exact ⟨fun h1 => h0 (.inl h1), fun h1 => h0 (.inr (.inr h1))⟩
  have hown := own_block esc x hx f hf (encodeStr name) (encodeStr f.link) (encodeStr pre) f.data.length (zero_str hz.2)
    (zero_str hf.link) (zero_str hz.1) hf.size
  rw [decode_short esc _ _ h.name, decode_short esc _ _ h.link, decode_short esc _ _ h.pre] at hown
  refine ok_of_head hf [] _ ⟨_, hown, kind_aux f.kind, ?_⟩
  unfold File.hdr
  congr 1
  have ht : f.kind.char ∉ ['L', 'K', 'S'] := by cases f.kind <;> decide
  have hcut := h.cut
  unfold longName
  by_cases hp : pre = []
  · rw [if_pos hp] at hcut
    rw [if_neg (fun h' => h'.1 hp), ← hcut, trimmed_written f hf.name.2]
  · rw [if_neg hp] at hcut
    rw [if_pos ⟨hp, ht⟩]
    have hlast := h.begin
    -- cutting the slash at the end commutes with putting the prefix in front
    by_cases hk : f.kind = .folder
    · unfold File.written at hcut
      rw [if_pos hk] at hcut
      obtain ⟨n, rfl⟩ : ∃ n, name = n ++ ['/'] := by
        rcases List.eq_nil_or_concat name with h0 | ⟨n, c, h0⟩
        · rw [h0] at hlast; exact absurd rfl hlast
        · rw [List.concat_eq_append] at h0
          subst h0
          have h1 := congrArg List.getLast? hcut
          rw [List.getLast?_concat] at h1
          rw [show pre ++ '/' :: (n ++ [c]) = (pre ++ '/' :: n) ++ [c] by simp, List.getLast?_concat] at h1
          exact ⟨n, by rw [Option.some.inj h1]⟩
      have h2 : f.name = pre ++ '/' :: n := by
        rw [show pre ++ '/' :: (n ++ ['/']) = (pre ++ '/' :: n) ++ ['/'] by simp] at hcut
        exact List.append_cancel_right hcut
      unfold trimmed
      rw [hk, if_pos (show Kind.folder.char = '5' from rfl)]
      rcases List.eq_nil_or_concat n with h0 | ⟨m, c, h0⟩
      · exfalso
        subst h0
        apply hf.name.2
        rw [h2]
        simp
      · rw [List.concat_eq_append] at h0
        subst h0
        have hc : (m ++ [c]).getLast? ≠ some '/' := by
          intro hc
          apply hf.name.2
          rw [h2, show pre ++ '/' :: (m ++ [c]) = (pre ++ '/' :: m) ++ [c] by simp, List.getLast?_concat]
          rw [List.getLast?_concat] at hc
          exact hc
        rw [rstrip_slash hc, h2]
    · unfold File.written at hcut
      rw [if_neg hk] at hcut
      unfold trimmed
      rw [if_neg, hcut]
      intro hc
      revert hk hc
      cases f.kind <;> decide

/-! ## lemmas: PAX records -/

theorem takeWhile_key (k : Bytes) (rest : Bytes) (h : (61 : UInt8) ∉ k) :
    (k ++ 61 :: rest).takeWhile (fun x => decide (x ≠ 61)) = k ∧ (k ++ 61 :: rest).dropWhile (fun x => decide (x ≠ 61)) = 61 :: rest := by
  induction k with
  | nil => simp
  | cons x k ih =>
    have hx : x ≠ 61 := fun he => h (by simp [he])
    have := ih (fun h' => h (List.mem_cons_of_mem _ h'))
    rw [List.cons_append, List.takeWhile_cons, List.dropWhile_cons, if_pos (by simp [hx]), if_pos (by simp [hx]), this.1, this.2]
    exact ⟨rfl, rfl⟩

theorem paxMatch_record (r k v rest : Bytes) (hr : IsRecord r k v) (hk0 : k ≠ []) (hk : (61 : UInt8) ∉ k) :
    paxMatch (r ++ rest) = some (r.length, k, v) := by
  obtain ⟨ds, he, hds, h1, -, hn⟩ := hr
  have e1 : r ++ rest = ds ++ 32 :: (k ++ 61 :: (v ++ 10 :: rest)) := by rw [he]; simp
  have htw : (r ++ rest).takeWhile isDigit = ds := by
    rw [e1]
    exact Offsets.takeWhile_digits ds 32 _ (fun b hb => (Offsets.isDigit_iff b).mpr (hds b hb)) (by decide)
  have hds0 : ds ≠ [] := by rintro rfl; simp at h1
  have hd1 : (r ++ rest).drop (ds.length + 1) = k ++ 61 :: (v ++ 10 :: rest) := by
    rw [e1, show ds ++ 32 :: (k ++ 61 :: (v ++ 10 :: rest)) = (ds ++ [32]) ++ (k ++ 61 :: (v ++ 10 :: rest)) by simp]
    exact List.drop_left' (by simp)
  have hlen : r.length = ds.length + 1 + k.length + 1 + v.length + 1 := by
    rw [he]; simp; omega
  have hval : ((r ++ rest).take (r.length - 1)).drop (ds.length + 1 + k.length + 1) = v := by
    have e2 : r ++ rest = (ds ++ 32 :: (k ++ [61])) ++ (v ++ 10 :: rest) := by rw [e1]; simp
    rw [e2, List.take_append, List.take_of_length_le (by simp; omega), List.drop_left' (by simp; omega)]
    have : r.length - 1 - (ds ++ 32 :: (k ++ [61])).length = v.length := by simp; omega
    rw [this, List.take_append_of_le_length (Nat.le_refl _), List.take_length]
  unfold paxMatch
  rw [htw, if_neg hds0, if_neg (by rw [e1, List.drop_left' rfl]; simp), if_neg (by rw [hn]; omega), hn]
  unfold keyValue
  rw [hd1, (takeWhile_key k _ hk).1, (takeWhile_key k _ hk).2, if_neg hk0, if_neg (by simp), hval]
  rfl

theorem paxMatch_zeros (n : Nat) : paxMatch (List.replicate n 0) = none := by
  unfold paxMatch
  rw [if_pos]
  cases n with
  | zero => rfl
  | succ n => rw [List.replicate_succ, List.takeWhile_cons, if_neg (by decide)]

theorem paxRecords_none {rest : Bytes} (h : paxMatch rest = none) : paxRecords rest = [] := by
  rw [paxRecords]
  split
  · rfl
  · next hs => rw [h] at hs; cases hs

theorem paxRecords_some {rest : Bytes} {n : Nat} {kv : Bytes × Bytes} (h : paxMatch rest = some (n, kv)) :
    paxRecords rest = kv :: paxRecords (rest.drop n) := by
  rw [paxRecords]
  split
  · next hs => rw [h] at hs; cases hs
  · next hs => rw [h] at hs; cases hs; rfl

theorem paxRecords_eq (rs : List (Bytes × Bytes × Bytes)) (n : Nat) (h : ∀ p ∈ rs, IsRecord p.1 p.2.1 p.2.2 ∧ p.2.1 ≠ [] ∧ 61 ∉ p.2.1) :
    paxRecords (rs.flatMap (fun p => p.1) ++ List.replicate n 0) = pairs rs := by
  induction rs with
  | nil => exact paxRecords_none (paxMatch_zeros n)
  | cons p rs ih =>
    obtain ⟨h1, h2, h3⟩ := h p List.mem_cons_self
    rw [List.flatMap_cons, List.append_assoc, paxRecords_some (paxMatch_record p.1 p.2.1 p.2.2 _ h1 h2 h3), List.drop_left' rfl,
      ih (fun q hq => h q (List.mem_cons_of_mem _ hq))]
    rfl

theorem paxNumber_decimal (n : Nat) : paxNumber (decimal n) = n := by
  have := Offsets.C107_decimal 0 n
  unfold paxNumber
  rw [if_pos (by rw [List.all_eq_true]; exact fun b hb => (Offsets.isDigit_iff b).mpr (this.2 b hb))]
  simpa using this.1

theorem pax_ok (esc : Bytes → Str) (x y : Extra) (hx : x.Ok) (hy : y.Ok) (f : File) (hf : f.Ok) (rs : List (Bytes × Bytes × Bytes))
    (title name link : Bytes) (size : Nat) (h : PaxOk f rs title name link size) :
    (pax x y f rs title name link size).Ok (codec esc) f.hdr := by
  have hown := own_block esc x hx f hf name link [] size h.plain.1 h.plain.2.1 (fun h => by cases h) h.plain.2.2
  have hpre : ∀ n : Str, longName f.kind.char (decodeStr esc (([] : Bytes).take 155)) n = n := by
    intro n
    unfold longName
    rw [decode_nil, if_neg (fun h => h.1 rfl)]
  rw [hpre] at hown
  obtain ⟨ah, a1, a2, a3⟩ := aux_block esc y hy 120 (.inr (.inr rfl)) title (rs.flatMap (fun p => p.1)).length h.title h.short
  refine ok_of_head hf _ _ ⟨_, ah, _, a1, by rw [a2]; decide, ?_, ⟨hown, kind_aux f.kind, rfl⟩, ?_⟩
  · rw [a3]; exact filled_length _
  · show f.hdr = amend esc ah (rs.flatMap (fun p => p.1) ++ filling (rs.flatMap (fun p => p.1))) _
    unfold amend
    rw [if_neg (by rw [a2]; decide), if_neg (by rw [a2]; decide)]
    unfold filling
    rw [paxRecords_eq rs _ h.records]
    unfold applyPax File.hdr
    simp only
    congr 1
    · rcases h.path with hp | ⟨hp, hn, hl⟩
      · rw [lastValue_last (keyPath_eq ▸ hp)]
        show f.name = rstrip '/' (decodeStr esc (encodeStr f.written))
        rw [decode_encode, rstrip_written f hf.name.2]
      · rw [lastValue_none (keyPath_eq ▸ hp)]
        show f.name = trimmed f.kind.char (decodeStr esc (name.take 100))
        rw [hn] at hl ⊢
        rw [decode_short esc _ _ hl, trimmed_written f hf.name.2]
    · rcases h.size with hp | ⟨hp, hn⟩
      · rw [lastValue_last (keySize_eq ▸ hp)]
        exact (paxNumber_decimal _).symm
      · rw [lastValue_none (keySize_eq ▸ hp)]
        exact hn.symm
    · rcases h.target with hp | ⟨hp, hn, hl⟩
      · rw [lastValue_last (keyLink_eq ▸ hp)]
        exact (decode_encode esc _).symm
      · rw [lastValue_none (keyLink_eq ▸ hp)]
        show f.link = decodeStr esc (link.take 100)
        rw [hn] at hl ⊢
        rw [decode_short esc _ _ hl]

/-- Every member that is written in one of the formats is read as the file that was packed. -/
theorem written_ok (esc : Bytes → Str) {f : File} {m : Member} (hf : f.Ok) (hw : Storable f.written) (hl : Storable f.link) (h : Written f m) :
    m.Ok (codec esc) f.hdr := by
  cases h with
  | gnu x hx => exact ok_of_head hf _ _ (gnu_head esc x hx f hf hw hl)
  | ustar x hx _ pre name h => exact ustar_ok esc x hx f hf pre name h
  | pax x y hx hy _ rs title name link size h => exact pax_ok esc x y hx hy f hf rs title name link size h

end Verif.Tar.Header
