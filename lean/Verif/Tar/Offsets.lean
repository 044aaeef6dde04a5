import Verif.Py
import Verif.Bytes

/-!
# C104, C105, C106: the fast scan over TAR headers (core/ratarmountcore/mountsource/formats/tar.py:281-364, 756-784)

`find_tar_file_offsets` walks over the headers of a TAR without `tarfile`. `_detect_gnu_incremental` runs it when an
archive is indexed for the first time. The file is a list of bytes. Reads at a position past the end are empty.

Simplifications: the limit of three seconds (tar.py:773) is the same as a smaller limit on the number of headers,
and the limit is a parameter of every statement. The generator is run for a number of steps. Everything it yields in
those steps is a prefix of everything it yields.
-/

namespace Verif.Tar.Offsets

open Verif.Py Verif.Bin

/-- `b"0" <= b <= b"9"` (tar.py:44). -/
def isDigit (b : UInt8) : Bool := 48 ≤ b && b ≤ 57

/-- `int(digits)` for decimal digits (tar.py:294, 301). -/
def decNat (ds : Data) : Nat := ds.foldl (fun a b => a * 10 + (b.toNat - 48)) 0

/-- The regular expression `([0-9]{1,20})` followed by one byte (tar.py:44-45): the digits, if it matches at the start.
Digits are not the following byte, so the expression cannot match fewer digits than there are. -/
def digitsThen (sep : UInt8) (d : Data) : Option Data :=
  let ds := d.takeWhile isDigit
  if 1 ≤ ds.length ∧ ds.length ≤ 20 ∧ (d.drop ds.length).head? = some sep then some ds else none

/-- `b" size="` (tar.py:45). -/
def sizeKey : Data := [32, 115, 105, 122, 101, 61]

/-- `_PAX_HEADER_SIZE_KEYWORD.match` (tar.py:45, 299-301). -/
def sizeMatch (d : Data) : Option Nat :=
  if sizeKey.isPrefixOf d then (digitsThen 10 (d.drop 6)).map decNat else none

/-- One round of the loop of `_get_pax_size` (tar.py:289-303): the length of the record and its size, if it is a size
record. `none` ends the loop. `rest` is `block[offset:]`. -/
def paxRecord (rest : Data) : Option (Nat × Option Nat) :=
  if rest.head? = none ∨ rest.head? = some 0 then none
  else
    match digitsThen 32 rest with
    | none => none
    | some ds =>
      if decNat ds < 5 ∨ rest.length < decNat ds then none
      else some (decNat ds, sizeMatch ((rest.take (decNat ds)).drop ds.length))

theorem paxRecord_length {rest : Data} {n : Nat} {s : Option Nat} (h : paxRecord rest = some (n, s)) :
    5 ≤ n ∧ n ≤ rest.length := by
  unfold paxRecord at h
  split at h
  · exact absurd h (by simp)
  · split at h
    · exact absurd h (by simp)
    · split at h
      · exact absurd h (by simp)
      · next hn =>
        simp only [Option.some.injEq, Prod.mk.injEq] at h
        omega

/-- `if match_size: pax_size = int(match_size.group(1))` (tar.py:300-301). -/
def setSize : Option Nat → Int → Int
  | some v, _ => v
  | none, size => size

/-- The loop of `_get_pax_size` (tar.py:289-304). -/
def paxLoop (rest : Data) (size : Int) : Int :=
  match _h : paxRecord rest with
  | none => size
  | some (n, s) => paxLoop (rest.drop n) (setSize s size)
termination_by rest.length
decreasing_by
  have := paxRecord_length _h
  simp only [List.length_drop]
  omega

/-- `_get_pax_size` (tar.py:281-304). -/
def getPaxSize (block : Data) : Int := paxLoop block (-1)

/-- The value of an octal digit (tar.py:344). -/
def octDigit (b : UInt8) : Option Nat := if 48 ≤ b ∧ b ≤ 55 then some (b.toNat - 48) else none

/-- The digits of an octal number with single underscores between them (Python library, `int(…, 8)`, used at
tar.py:344). `last`: the byte before is a digit or the prefix `0o`. -/
def octDigits (acc : Nat) (last : Bool) : Data → Option Nat
  | [] => if last then some acc else none
  | b :: r =>
    if b = 95 then (if last then octDigits acc false r else none)
    else
      match octDigit b with
      | some v => octDigits (acc * 8 + v) true r
      | none => none

/-- An octal number without a sign (Python library, `int(…, 8)`, used at tar.py:344). -/
def octUnsigned : Data → Option Nat
  | 48 :: 111 :: r => if r = [] then none else octDigits 0 true r
  | 48 :: 79 :: r => if r = [] then none else octDigits 0 true r
  | d => octDigits 0 false d

/-- The white space that `int` strips from bytes (Python library, used at tar.py:344). -/
def isSpace (b : UInt8) : Bool := b = 32 || (9 ≤ b && b ≤ 13)

/-- `d.strip(…)` (tar.py:343, and `int` at tar.py:344). -/
def strip (p : UInt8 → Bool) (d : Data) : Data := ((d.dropWhile p).reverse.dropWhile p).reverse

/-- An octal number with an optional sign (Python library, `int(…, 8)`, used at tar.py:344). -/
def octSigned : Data → Option Int
  | 45 :: r => (octUnsigned r).map (fun n => -(n : Int))
  | 43 :: r => (octUnsigned r).map (fun n => (n : Int))
  | d => (octUnsigned d).map (fun n => (n : Int))

/-- `raw_size = block_contents[124 : 124 + 12].strip(b"\0")` (tar.py:343). -/
def rawSize (block : Data) : Data := strip (· = 0) ((block.drop 124).take 12)

/-- `size = int(raw_size, 8) if raw_size else 0` (tar.py:344). -/
def sizeOf (block : Data) : Except PyErr Int :=
  if rawSize block = [] then .ok 0
  else
    match octSigned (strip isSpace (rawSize block)) with
    | some n => .ok n
    | none => .error .valueError

/-- `type_flag = block_contents[156:157]` (tar.py:336). -/
def typeFlag (block : Data) : Data := (block.drop 156).take 1

/-- `ceil_div` (utils.py:74-75). -/
def ceilDiv (a b : Int) : Int := -(a.fdiv (-b))

/-- `fileObject.read(BLOCK_SIZE)` at a block (tar.py:319, 326). -/
def readBlock (d : Data) (n : Nat) : Data := (d.drop (n * 512)).take 512

/-- `any(block_contents)` (tar.py:325, 328). -/
def anySet (b : Data) : Bool := b.any (· ≠ 0)

/-- What the first part of a round finds: the end, nothing, or a header and the number of the block after it. -/
inductive Found where
  | stop
  | again (n : Nat)
  | header (block : Data) (n : Nat)
  deriving DecidableEq

/-- The first part of a round (tar.py:318-334), beginning at block `n`. -/
def findHeader (d : Data) (ignoreZeros : Bool) (n : Nat) : Found :=
  if (readBlock d n).length < 512 then .stop
  else if anySet (readBlock d n) then .header (readBlock d n) (n + 1)
  else if anySet (readBlock d (n + 1)) then
    if (readBlock d (n + 1)).length < 512 then .stop else .header (readBlock d (n + 1)) (n + 2)
  else if ignoreZeros then .again (n + 2) else .stop

/-- The variables of the loop (tar.py:313-315). -/
structure St where
  block : Nat
  skip : Nat
  pax : Int
  deriving DecidableEq

/-- `if size == 0 and pax_size > 0: size = pax_size` (tar.py:345-346). -/
def effective (size pax : Int) : Int := if size = 0 ∧ pax > 0 then pax else size

/-- `type_flag in (b"x", b"g", b"X")` (tar.py:350). -/
def isPax (t : Data) : Bool := t = [120] || t = [103] || t = [88]

/-- `fileObject.read(data_block_count * BLOCK_SIZE)` (tar.py:351): a negative number reads everything. -/
def readBlocks (d : Data) (n : Nat) (count : Int) : Data :=
  if count < 0 then d.drop (n * 512) else (d.drop (n * 512)).take (count.toNat * 512)

/-- `block_number += data_block_count; fileObject.seek(block_number * BLOCK_SIZE)` (tar.py:353-354). -/
def seekTo (n : Nat) (count : Int) : Except PyErr Nat :=
  if (n : Int) + count < 0 then .error .valueError else .ok ((n : Int) + count).toNat

/-- `if skip_next_blocks > 0: … else: yield (block_number - 1) * BLOCK_SIZE, type_flag` (tar.py:338-341). -/
def yielded (s : St) (b : Data) (n : Nat) : List (Nat × Data) :=
  if s.skip > 0 then [] else [((n - 1) * 512, typeFlag b)]

/-- The part of a round after the header was found (tar.py:336-364): what it yields and how it goes on. -/
def visit (d : Data) (s : St) (b : Data) (n : Nat) : List (Nat × Data) × Except PyErr (Option St) :=
  match sizeOf b with
  | .error e => (yielded s b n, .error e)
  | .ok size =>
    match seekTo n (ceilDiv (effective size s.pax) 512) with
    | .error e => (yielded s b n, .error e)
    | .ok next =>
      (yielded s b n, .ok (some
        { block := next
          skip := if typeFlag b = [48] then s.skip - 1 else s.skip - 1 + 1
          pax := if isPax (typeFlag b) then getPaxSize (readBlocks d n (ceilDiv (effective size s.pax) 512)) else -1 }))

/-- One round of the loop (tar.py:318-364). `.ok none` is the end. -/
def step (d : Data) (ignoreZeros : Bool) (s : St) : List (Nat × Data) × Except PyErr (Option St) :=
  match findHeader d ignoreZeros s.block with
  | .stop => ([], .ok none)
  | .again n => ([], .ok (some { s with block := n }))
  | .header b n => visit d s b n

/-- How a number of rounds ended. -/
inductive End where
  | finished
  | raised (e : PyErr)
  | running
  deriving DecidableEq

/-- `find_tar_file_offsets` (tar.py:307-364) for a number of rounds: what it yields and whether it has ended. -/
def run (d : Data) (ignoreZeros : Bool) : Nat → St → List (Nat × Data) × End
  | 0, _ => ([], .running)
  | k + 1, s =>
    match step d ignoreZeros s with
    | (ys, .error e) => (ys, .raised e)
    | (ys, .ok none) => (ys, .finished)
    | (ys, .ok (some s')) => (ys ++ (run d ignoreZeros k s').1, (run d ignoreZeros k s').2)

/-- The start (tar.py:313-316). -/
def init : St := ⟨0, 0, -1⟩

/-- `_detect_gnu_incremental` (tar.py:756-784) when at most `limit` headers are looked at and the generator has done
`k` rounds. `none`: it is still busy. Exceptions are logged and give `False`. -/
def detect (d : Data) (ignoreZeros : Bool) (limit k : Nat) : Option Bool :=
  let r := run d ignoreZeros k init
  if (r.1.take limit).any (fun y => y.2 = [68]) then some true
  else if limit ≤ r.1.length then some false
  else if r.2 = .running then none else some false

/-! ## C104: the check ends -/

/-- C104 as claimed: for every file, the check comes to an answer. -/
def C104_statement : Prop :=
  ∀ (d : Data) (ignoreZeros : Bool) (limit : Nat), 1 ≤ limit → ∃ k b, detect d ignoreZeros limit k = some b

/-- A header of a folder (type `5`) with the size field `-1000`, which `int(…, 8)` reads as -512. -/
def loopHeader : Data :=
  [97] ++ List.replicate 123 0 ++ [45, 49, 48, 48, 48] ++ List.replicate 27 0 ++ [53] ++ List.replicate 355 0

set_option maxRecDepth 8000 in
theorem loopHeader_first (t : Data) (iz : Bool) : step (loopHeader ++ t) iz init = ([(0, [53])], .ok (some ⟨0, 1, -1⟩)) := by
  have hb : readBlock (loopHeader ++ t) 0 = loopHeader := by
    unfold readBlock
    rw [Nat.zero_mul, List.drop_zero]
    exact List.take_left' (by decide +kernel)
  have hf : findHeader (loopHeader ++ t) iz 0 = .header loopHeader 1 := by
    unfold findHeader
    rw [hb, if_neg (by decide +kernel), if_pos (by decide +kernel)]
  unfold step
  rw [show init.block = 0 from rfl, hf]
  simp only
  have hs : sizeOf loopHeader = .ok (-512) := by decide +kernel
  have ht : typeFlag loopHeader = [53] := by decide +kernel
  unfold visit
  rw [hs, ht]
  rfl

set_option maxRecDepth 8000 in
theorem loopHeader_again (t : Data) (iz : Bool) : step (loopHeader ++ t) iz ⟨0, 1, -1⟩ = ([], .ok (some ⟨0, 1, -1⟩)) := by
  have hb : readBlock (loopHeader ++ t) 0 = loopHeader := by
    unfold readBlock
    rw [Nat.zero_mul, List.drop_zero]
    exact List.take_left' (by decide +kernel)
  have hf : findHeader (loopHeader ++ t) iz 0 = .header loopHeader 1 := by
    unfold findHeader
    rw [hb, if_neg (by decide +kernel), if_pos (by decide +kernel)]
  unfold step
  rw [hf]
  simp only
  have hs : sizeOf loopHeader = .ok (-512) := by decide +kernel
  have ht : typeFlag loopHeader = [53] := by decide +kernel
  unfold visit
  rw [hs, ht]
  rfl

theorem loopHeader_run (t : Data) (iz : Bool) (k : Nat) : run (loopHeader ++ t) iz k ⟨0, 1, -1⟩ = ([], .running) := by
  induction k with
  | zero => rfl
  | succ k ih => simp [run, loopHeader_again, ih]

/-- C104 is violated: every file beginning with a folder of size `-1000` keeps the check busy for ever, whatever
follows. The round goes back to the same header and never yields again, so neither limit is looked at. -/
theorem C104_hangs (t : Data) (iz : Bool) (limit k : Nat) (hl : 2 ≤ limit) : detect (loopHeader ++ t) iz limit k = none := by
  cases k with
  | zero =>
    unfold detect
    rw [show run (loopHeader ++ t) iz 0 init = ([], .running) from rfl]
    simp only [List.take_nil, List.any_nil, List.length_nil, if_true]
    rw [if_neg (by simp), if_neg (by omega)]
  | succ k =>
    have h : run (loopHeader ++ t) iz (k + 1) init = ([(0, [53])], .running) := by
      simp [run, loopHeader_first, loopHeader_run]
    unfold detect
    rw [h]
    obtain ⟨l, rfl⟩ : ∃ l, limit = l + 2 := ⟨limit - 2, by omega⟩
    simp

theorem C104_violated : ¬ C104_statement := by
  intro h
  obtain ⟨k, b, hb⟩ := h (loopHeader ++ []) false 10000 (by omega)
  rw [C104_hangs [] false 10000 k (by omega)] at hb
  exact absurd hb (by simp)

theorem ceilDiv_512 (a : Int) : ceilDiv a 512 = (a + 511) / 512 := by
  unfold ceilDiv
  rw [Int.fdiv_neg (by omega), Int.fdiv_eq_ediv_of_nonneg _ (by omega)]
  split <;> omega

theorem findHeader_header {d : Data} {iz : Bool} {n m : Nat} {b : Data} (h : findHeader d iz n = .header b m) :
    n + 1 ≤ m ∧ b = readBlock d (m - 1) ∧ b.length = 512 := by
  have hl (n) : (readBlock d n).length ≤ 512 := by simp [readBlock]; omega
  unfold findHeader at h
  split at h
  · exact absurd h (by simp)
  · split at h
    · simp only [Found.header.injEq] at h
      obtain ⟨rfl, rfl⟩ := h
      have := hl n
      exact ⟨by omega, rfl, by omega⟩
    · split at h
      · split at h
        · exact absurd h (by simp)
        · simp only [Found.header.injEq] at h
          obtain ⟨rfl, rfl⟩ := h
          have := hl (n + 1)
          exact ⟨by omega, rfl, by omega⟩
      · split at h <;> exact absurd h (by simp)

theorem findHeader_again {d : Data} {iz : Bool} {n m : Nat} (h : findHeader d iz n = .again m) : m = n + 2 := by
  unfold findHeader at h
  split at h
  · exact absurd h (by simp)
  · split at h
    · exact absurd h (by simp)
    · split at h
      · split at h <;> exact absurd h (by simp)
      · split at h
        · simpa using h.symm
        · exact absurd h (by simp)

theorem effective_nonneg {size pax : Int} (h : 0 ≤ size) : 0 ≤ effective size pax := by
  unfold effective
  split <;> omega

/-- Every round goes forward unless a size is negative. -/
theorem step_forward {d : Data} {iz : Bool} {s s' : St} {ys : List (Nat × Data)}
    (hpos : ∀ k size, sizeOf (readBlock d k) = .ok size → 0 ≤ size) (h : step d iz s = (ys, .ok (some s'))) :
    s.block + 1 ≤ s'.block := by
  unfold step at h
  split at h
  · exact absurd h (by simp)
  · next n hf =>
    have := findHeader_again hf
    simp only [Prod.mk.injEq, Except.ok.injEq, Option.some.injEq] at h
    rw [← h.2]
    simp only
    omega
  · next b n hf =>
    obtain ⟨hn, hb, -⟩ := findHeader_header hf
    unfold visit at h
    split at h
    · exact absurd h (by simp)
    · next size hs =>
      rw [hb] at hs
      have h0 := effective_nonneg (pax := s.pax) (hpos _ _ hs)
      split at h
      · exact absurd h (by simp)
      · next next hk =>
        simp only [Prod.mk.injEq, Except.ok.injEq, Option.some.injEq] at h
        rw [← h.2]
        simp only
        rw [ceilDiv_512] at hk
        unfold seekTo at hk
        split at hk
        · exact absurd hk (by simp)
        · simp only [Except.ok.injEq] at hk
          omega

theorem run_ends {d : Data} {iz : Bool} (hpos : ∀ k size, sizeOf (readBlock d k) = .ok size → 0 ≤ size) (k : Nat) (s : St)
    (h : d.length < 512 * (s.block + k + 1)) : (run d iz (k + 1) s).2 ≠ .running := by
  induction k generalizing s with
  | zero =>
    have : findHeader d iz s.block = .stop := by
      unfold findHeader
      rw [if_pos]
      simp only [readBlock, List.length_take, List.length_drop]
      omega
    simp [run, step, this]
  | succ k ih =>
    rw [run]
    split
    · simp
    · simp
    · next ys s' hs =>
      have := step_forward hpos hs
      exact ih s' (by omega)

/-- C104 for files without a negative size: the check ends, after no more rounds than there are blocks and one. Missing
from the full claim: `C104_hangs`. -/
theorem C104_ends_partial (d : Data) (iz : Bool) (limit : Nat)
    (hpos : ∀ k size, sizeOf (readBlock d k) = .ok size → 0 ≤ size) :
    ∃ b, detect d iz limit (d.length / 512 + 1) = some b := by
  have h := run_ends (iz := iz) hpos (d.length / 512) init (by simp [init]; omega)
  unfold detect
  simp only
  split
  · exact ⟨_, rfl⟩
  · split
    · exact ⟨_, rfl⟩
    · exact ⟨_, rfl⟩

theorem dropWhile_all (p : UInt8 → Bool) (d : Data) (h : ∀ x ∈ d, p x = true) : d.dropWhile p = [] := by
  induction d with
  | nil => rfl
  | cons x d ih =>
    rw [List.dropWhile_cons, h x List.mem_cons_self, if_pos rfl, ih (fun y hy => h y (List.mem_cons_of_mem _ hy))]

/-- The hypothesis is met by two blocks of zeros. -/
example : ∀ k size, sizeOf (readBlock (List.replicate 1024 0) k) = .ok size → 0 ≤ size := by
  intro k size h
  have : sizeOf (readBlock (List.replicate 1024 0) k) = .ok 0 := by
    unfold sizeOf
    rw [if_pos]
    unfold rawSize strip
    have hz : ∀ x ∈ ((readBlock (List.replicate 1024 0) k).drop 124).take 12, decide (x = 0) = true := by
      intro x hx
      have := List.mem_of_mem_drop (List.mem_of_mem_take hx)
      have := List.mem_of_mem_drop (List.mem_of_mem_take (show x ∈ readBlock (List.replicate 1024 0) k from this))
      simpa using List.eq_of_mem_replicate this
    rw [dropWhile_all _ _ hz]
    rfl
  rw [this] at h
  injection h with h
  omega

/-! ## C105: which headers are looked at -/

/-- A header with its data. -/
structure Ent where
  hdr : Data
  data : Data

/-- The bytes of headers with data. -/
def bytes (es : List Ent) : Data := es.flatMap (fun e => e.hdr ++ e.data)

/-- The types of extended headers: `x` and `g` of POSIX, `X` of Solaris. -/
def extended : List Data := [[120], [103], [88]]

/-- The size record in the data of an extended header, for the next header. -/
def paxOf (e : Ent) : Int := if typeFlag e.hdr ∈ extended then getPaxSize e.data else -1

theorem isPax_eq (t : Data) : isPax t = decide (t ∈ extended) := by
  simp [isPax, extended, Bool.or_assoc]

theorem paxOf_eq (e : Ent) : paxOf e = if isPax (typeFlag e.hdr) then getPaxSize e.data else -1 := by
  rw [paxOf, isPax_eq]
  simp

/-- The headers are whole blocks and followed by as many whole blocks as their sizes say. -/
def Laid : Int → List Ent → Prop
  | _, [] => True
  | pax, e :: es =>
    e.hdr.length = 512 ∧ anySet e.hdr = true ∧
      (∃ size, sizeOf e.hdr = .ok size ∧ 0 ≤ size ∧ (e.data.length : Int) = 512 * ((effective size pax + 511) / 512)) ∧
      Laid (paxOf e) es

/-- The headers that are the first or come after the header of a plain file (type `0`), with their positions. -/
def starts : Nat → Bool → List Ent → List (Nat × Data)
  | _, _, [] => []
  | off, plain, e :: es =>
    (if plain then [(off, typeFlag e.hdr)] else []) ++
      starts (off + e.hdr.length + e.data.length) (typeFlag e.hdr = [48]) es

theorem readBlock_at (pre b post : Data) (n : Nat) (hn : pre.length = n * 512) (hb : b.length = 512) :
    readBlock (pre ++ (b ++ post)) n = b := by
  unfold readBlock
  rw [List.drop_left' hn]
  exact List.take_left' hb

theorem readBlock_zeros (pre : Data) (n z k : Nat) (hn : pre.length = n * 512) :
    anySet (readBlock (pre ++ List.replicate z 0) (n + k)) = false := by
  unfold readBlock anySet
  rw [List.any_eq_false]
  intro x hx
  have hd : (pre ++ List.replicate z 0).drop ((n + k) * 512) = (List.replicate z 0).drop (k * 512) := by
    rw [show (n + k) * 512 = pre.length + k * 512 by rw [hn, Nat.add_mul], List.drop_append]
    simp
  rw [hd] at hx
  have := List.mem_of_mem_drop (List.mem_of_mem_take hx)
  simp [List.eq_of_mem_replicate this]

theorem run_zeros (d : Data) (iz : Bool) (sk : Nat) (pax : Int) (m n : Nat) (hd : d.length < 512 * (n + m + 1))
    (hz : ∀ k, anySet (readBlock d (n + k)) = false) (j : Nat) : run d iz (m + 1 + j) ⟨n, sk, pax⟩ = ([], .finished) := by
  induction m using Nat.strongRecOn generalizing n j with
  | _ m ih =>
    have h0 := hz 0
    have h1 := hz 1
    rw [show m + 1 + j = (m + j) + 1 by omega, run, step]
    by_cases hl : (readBlock d n).length < 512
    · have : findHeader d iz n = .stop := by
        unfold findHeader
        rw [if_pos hl]
      simp [this]
    · cases iz with
      | false =>
        have : findHeader d false n = .stop := by
          unfold findHeader
          rw [if_neg hl, if_neg (by simpa using h0), if_neg (by simpa using h1)]
          simp
        simp [this]
      | true =>
        have : findHeader d true n = .again (n + 2) := by
          unfold findHeader
          rw [if_neg hl, if_neg (by simpa using h0), if_neg (by simpa using h1)]
          simp
        have hm : 1 ≤ m := by
          simp only [readBlock, List.length_take, List.length_drop] at hl
          omega
        simp only [this]
        have hz' : ∀ k, anySet (readBlock d (n + 2 + k)) = false := fun k => by
          rw [Nat.add_assoc]
          exact hz _
        have := ih (m - 1) (by omega) (n + 2) (by omega) hz' j
        rw [show m - 1 + 1 + j = m + j by omega] at this
        rw [this]
        simp

/-- The scan of headers that are laid out properly yields exactly `starts`, then ends. -/
theorem run_laid (es : List Ent) (pre : Data) (z n sk : Nat) (pax : Int) (iz : Bool) (hn : pre.length = n * 512)
    (hs : sk ≤ 1) (h : Laid pax es) :
    ∃ k, ∀ j, run (pre ++ (bytes es ++ List.replicate z 0)) iz (k + j) ⟨n, sk, pax⟩ =
      (starts (n * 512) (sk = 0) es, .finished) := by
  induction es generalizing pre n sk pax with
  | nil =>
    refine ⟨z + 1, fun j => ?_⟩
    have := run_zeros (pre ++ List.replicate z 0) iz sk pax z n (by simp; omega)
      (fun k => readBlock_zeros pre n z k hn) j
    simpa [bytes, starts] using this
  | cons e es ih =>
    obtain ⟨hl, ha, ⟨size, hsz, h0, hd⟩, ht⟩ := h
    obtain ⟨c, hc⟩ : ∃ c : Nat, (effective size pax + 511) / 512 = c :=
      ⟨((effective size pax + 511) / 512).toNat, by
        have := effective_nonneg (pax := pax) h0
        omega⟩
    have hdl : e.data.length = c * 512 := by omega
    have hall : pre ++ (bytes (e :: es) ++ List.replicate z 0) =
        (pre ++ (e.hdr ++ e.data)) ++ (bytes es ++ List.replicate z 0) := by
      simp [bytes]
    have hpre : (pre ++ (e.hdr ++ e.data)).length = (n + 1 + c) * 512 := by
      simp only [List.length_append, hn, hl, hdl]
      omega
    obtain ⟨k, hk⟩ := ih (pre ++ (e.hdr ++ e.data)) (n + 1 + c) (if typeFlag e.hdr = [48] then sk - 1 else sk - 1 + 1)
      (paxOf e) hpre (by split <;> omega) ht
    have hb : readBlock (pre ++ (bytes (e :: es) ++ List.replicate z 0)) n = e.hdr := by
      rw [show pre ++ (bytes (e :: es) ++ List.replicate z 0) =
        pre ++ (e.hdr ++ (e.data ++ (bytes es ++ List.replicate z 0))) by simp [bytes]]
      exact readBlock_at pre e.hdr _ n hn hl
    have hf : findHeader (pre ++ (bytes (e :: es) ++ List.replicate z 0)) iz n = .header e.hdr (n + 1) := by
      unfold findHeader
      rw [hb, if_neg (by omega), if_pos ha]
    have hr : readBlocks (pre ++ (bytes (e :: es) ++ List.replicate z 0)) (n + 1) (c : Int) = e.data := by
      unfold readBlocks
      rw [if_neg (by omega), show pre ++ (bytes (e :: es) ++ List.replicate z 0) =
        (pre ++ e.hdr) ++ (e.data ++ (bytes es ++ List.replicate z 0)) by simp [bytes],
        List.drop_left' (by simp [hn, hl]; omega)]
      exact List.take_left' (by simp [hdl])
    have hstep : step (pre ++ (bytes (e :: es) ++ List.replicate z 0)) iz ⟨n, sk, pax⟩ =
        (if sk > 0 then [] else [(n * 512, typeFlag e.hdr)],
          .ok (some ⟨n + 1 + c, if typeFlag e.hdr = [48] then sk - 1 else sk - 1 + 1, paxOf e⟩)) := by
      unfold step
      simp only [hf]
      unfold visit
      rw [hsz]
      simp only [ceilDiv_512, hc]
      have hk : seekTo (n + 1) (c : Int) = .ok (n + 1 + c) := by
        unfold seekTo
        rw [if_neg (by omega)]
        congr 1
      rw [hk, hr]
      rw [paxOf_eq]
      rfl
    refine ⟨k + 1, fun j => ?_⟩
    rw [show k + 1 + j = (k + j) + 1 by omega, run, hstep]
    simp only
    rw [hall, hk j]
    have hp : (n + 1 + c) * 512 = n * 512 + e.hdr.length + e.data.length := by omega
    rw [hp]
    simp only [starts]
    congr 1
    have h1 : (if sk > 0 then ([] : List (Nat × Data)) else [(n * 512, typeFlag e.hdr)]) =
        if sk = 0 then [(n * 512, typeFlag e.hdr)] else [] := by
      by_cases h : sk = 0
      · subst h; rfl
      · rw [if_pos (by omega), if_neg h]
    have h2 : decide ((if typeFlag e.hdr = [48] then sk - 1 else sk - 1 + 1) = 0) = decide (typeFlag e.hdr = [48]) := by
      by_cases h : typeFlag e.hdr = [48]
      · rw [if_pos h]; simp [h]; omega
      · rw [if_neg h]; simp [h]
    rw [h1, h2]
    simp

/-- What is yielded is the type and position of a header which is the first or comes after a plain file. -/
theorem mem_starts {es : List Ent} {off o : Nat} {plain : Bool} {t : Data} :
    (o, t) ∈ starts off plain es ↔
      ∃ es₁ e es₂, es = es₁ ++ e :: es₂ ∧ o = off + (bytes es₁).length ∧ t = typeFlag e.hdr ∧
        (∀ p, es₁.getLast? = some p → typeFlag p.hdr = [48]) ∧ (es₁ = [] → plain = true) := by
  induction es generalizing off plain with
  | nil => simp [starts]
  | cons e es ih =>
    simp only [starts, List.mem_append, ih]
    constructor
    · rintro (h | ⟨es₁, e', es₂, rfl, rfl, rfl, hp, hn⟩)
      · cases plain with
        | false => simp at h
        | true =>
          simp only [if_true, List.mem_singleton, Prod.mk.injEq] at h
          exact ⟨[], e, es, rfl, by simp [bytes, h.1], h.2, by simp, by simp⟩
      · refine ⟨e :: es₁, e', es₂, rfl, by simp [bytes]; omega, rfl, ?_, by simp⟩
        intro p hg
        cases es₁ with
        | nil =>
          simp only [List.getLast?_singleton, Option.some.injEq] at hg
          subst hg
          simpa using hn rfl
        | cons q qs =>
          rw [List.getLast?_cons_cons] at hg
          exact hp p hg
    · rintro ⟨es₁, e', es₂, he, rfl, rfl, hp, hn⟩
      cases es₁ with
      | nil =>
        simp only [List.nil_append, List.cons.injEq] at he
        obtain ⟨rfl, rfl⟩ := he
        left
        rw [hn rfl]
        simp [bytes]
      | cons q qs =>
        simp only [List.cons_append, List.cons.injEq] at he
        obtain ⟨rfl, rfl⟩ := he
        right
        refine ⟨qs, e', es₂, rfl, by simp [bytes]; omega, rfl, ?_, ?_⟩
        · intro p hg
          refine hp p ?_
          cases qs with
          | nil => simp at hg
          | cons r rs => rw [List.getLast?_cons_cons]; exact hg
        · rintro rfl
          simpa using hp e rfl

/-- C106: the offsets of a well-formed TAR, zero padded at will, are found completely: the scan ends without an error
and yields the offset of a header if and only if it is the first header or follows a plain file. In particular no
offset lies between a long name, long link or extended header and the member it belongs to. -/
theorem C106_offsets (es : List Ent) (z : Nat) (iz : Bool) (h : Laid (-1) es) :
    ∃ k, ∀ j, (run (bytes es ++ List.replicate z 0) iz (k + j) init).2 = .finished ∧
      ∀ o t, (o, t) ∈ (run (bytes es ++ List.replicate z 0) iz (k + j) init).1 ↔
        ∃ es₁ e es₂, es = es₁ ++ e :: es₂ ∧ o = (bytes es₁).length ∧ t = typeFlag e.hdr ∧
          ∀ p, es₁.getLast? = some p → typeFlag p.hdr = [48] := by
  obtain ⟨k, hk⟩ := run_laid es [] z 0 0 (-1) iz rfl (by omega) h
  refine ⟨k, fun j => ?_⟩
  have := hk j
  simp only [List.nil_append] at this
  rw [init, this]
  refine ⟨rfl, fun o t => ?_⟩
  rw [mem_starts]
  simp

/-- The offsets are in order. -/
theorem starts_sorted (es : List Ent) (off : Nat) (plain : Bool) (hl : ∀ e ∈ es, e.hdr.length = 512) :
    (starts off plain es).Pairwise (fun a b => a.1 < b.1) ∧ ∀ y ∈ starts off plain es, off ≤ y.1 := by
  induction es generalizing off plain with
  | nil => simp [starts]
  | cons e es ih =>
    have ⟨h1, h2⟩ := ih (off + e.hdr.length + e.data.length) (typeFlag e.hdr = [48]) (fun x hx => hl x (List.mem_cons_of_mem _ hx))
    have he := hl e List.mem_cons_self
    simp only [starts]
    constructor
    · rw [List.pairwise_append]
      refine ⟨by split <;> simp, h1, ?_⟩
      intro a ha b hb
      have := h2 b hb
      split at ha
      · rw [List.mem_singleton.mp ha]
        simp only
        omega
      · simp at ha
    · intro y hy
      rcases List.mem_append.mp hy with hy | hy
      · split at hy
        · rw [List.mem_singleton.mp hy]
          exact Nat.le_refl _
        · simp at hy
      · have := h2 y hy
        omega

theorem laid_length : ∀ (pax : Int) (es : List Ent), Laid pax es → ∀ e ∈ es, e.hdr.length = 512
  | _, [], _ => by simp
  | _, e :: es, h => by
    intro x hx
    rcases List.mem_cons.mp hx with rfl | hx
    · exact h.1
    · exact laid_length _ es h.2.2.2 x hx

/-- C106: the offsets come in increasing order, so none is yielded twice. -/
theorem C106_order (es : List Ent) (z : Nat) (iz : Bool) (h : Laid (-1) es) :
    ∃ k, ∀ j, (run (bytes es ++ List.replicate z 0) iz (k + j) init).1.Pairwise (fun a b => a.1 < b.1) := by
  obtain ⟨k, hk⟩ := run_laid es [] z 0 0 (-1) iz rfl (by omega) h
  refine ⟨k, fun j => ?_⟩
  have := hk j
  simp only [List.nil_append] at this
  rw [init, this]
  exact (starts_sorted es _ _ (laid_length _ _ h)).1

/-- C105 as claimed: an archive with a folder of an incremental backup (type `D`) is recognised, if it has no more
headers than the limit. -/
def C105_statement : Prop :=
  ∀ (es : List Ent) (z : Nat) (iz : Bool) (limit : Nat), Laid (-1) es → es.length ≤ limit →
    (∃ e ∈ es, typeFlag e.hdr = [68]) → ∃ k, detect (bytes es ++ List.replicate z 0) iz limit k = some true

/-- A header with a type and nothing else set, and no data. -/
def bare (t : UInt8) : Ent := ⟨[97] ++ List.replicate 155 0 ++ [t] ++ List.replicate 355 0, []⟩

theorem bare_type (t : UInt8) : typeFlag (bare t).hdr = [t] := by
  unfold typeFlag bare
  simp only
  rw [show [97] ++ List.replicate 155 (0 : UInt8) ++ [t] ++ List.replicate 355 0 =
    ([97] ++ List.replicate 155 0) ++ ([t] ++ List.replicate 355 0) by simp only [List.append_assoc],
    List.drop_left' (by simp only [List.length_append, List.length_replicate, List.length_singleton])]
  exact List.take_left' rfl

theorem bare_laid (t : UInt8) (es : List Ent) (pax : Int) (hp : pax ≤ 0) (ht : isPax [t] = false) (h : Laid (-1) es) :
    Laid pax (bare t :: es) := by
  have htf := bare_type t
  have hsz : sizeOf (bare t).hdr = .ok 0 := by
    unfold sizeOf
    rw [if_pos]
    unfold rawSize bare
    simp only
    rw [show [97] ++ List.replicate 155 (0 : UInt8) ++ [t] ++ List.replicate 355 0 =
      (([97] ++ List.replicate 123 0) ++ (List.replicate 12 0 ++ (List.replicate 20 0 ++ [t] ++ List.replicate 355 0))) by
        rw [show (155 : Nat) = 123 + (12 + 20) by omega, ← List.replicate_append_replicate, ← List.replicate_append_replicate]
        simp only [List.append_assoc],
      List.drop_left' (by simp only [List.length_append, List.length_replicate, List.length_singleton]),
      List.take_left' (by simp only [List.length_replicate])]
    decide
  refine ⟨by simp only [bare, List.length_append, List.length_replicate, List.length_singleton], rfl, ⟨0, hsz, by omega, ?_⟩, ?_⟩
  · have : effective 0 pax = 0 := by
      unfold effective
      rw [if_neg (by omega)]
    rw [this]
    simp [bare]
  · rw [paxOf_eq, htf, ht]
    exact h

/-- The answer of the check for a well-formed archive, once the scan has done enough rounds: whether a header of type
`D` that is the first header or follows a plain file is among the first `limit` of such headers. -/
theorem detect_laid (es : List Ent) (z : Nat) (iz : Bool) (limit : Nat) (h : Laid (-1) es) :
    ∃ k, ∀ j, detect (bytes es ++ List.replicate z 0) iz limit (k + j) =
      some (((starts 0 true es).take limit).any (fun y => y.2 = [68])) := by
  obtain ⟨k, hk⟩ := run_laid es [] z 0 0 (-1) iz rfl (by omega) h
  refine ⟨k, fun j => ?_⟩
  have := hk j
  simp only [List.nil_append] at this
  unfold detect
  rw [init, this]
  simp only [Nat.zero_mul, decide_true]
  split
  · next ha => rw [ha]
  · next ha =>
    rw [Bool.eq_false_iff.mpr ha]
    split
    · rfl
    · rw [if_neg (by simp)]

theorem run_more (d : Data) (iz : Bool) (k j : Nat) (s : St) :
    (run d iz k s).1 <+: (run d iz (k + j) s).1 ∧
      ((run d iz k s).2 ≠ .running → run d iz (k + j) s = run d iz k s) := by
  induction k generalizing s with
  | zero => simp [run]
  | succ k ih =>
    rw [show k + 1 + j = (k + j) + 1 by omega, run, run]
    split
    · simp
    · simp
    · next ys s' hs =>
      have ⟨h1, h2⟩ := ih s'
      refine ⟨(List.prefix_append_right_inj ys).mpr h1, fun hr => ?_⟩
      simp only at hr
      rw [h2 hr]

/-- An answer of the check does not change with more rounds. -/
theorem detect_more (d : Data) (iz : Bool) (limit k j : Nat) (b : Bool) (h : detect d iz limit k = some b) :
    detect d iz limit (k + j) = some b := by
  have ⟨h1, h2⟩ := run_more d iz k j init
  by_cases hr : (run d iz k init).2 = .running
  · unfold detect at h ⊢
    simp only at h ⊢
    obtain ⟨t, ht⟩ := h1
    rw [← ht]
    split at h
    · next ha =>
      rw [if_pos, h]
      rw [List.take_append, List.any_append, ha, Bool.true_or]
    · next ha =>
      split at h
      · next hl =>
        have : ((run d iz k init).1 ++ t).take limit = (run d iz k init).1.take limit := by
          rw [List.take_append_of_le_length hl]
        rw [this, if_neg ha, if_pos (by simp; omega), h]
      · exact absurd h (by simp)
  · unfold detect at h ⊢
    rw [h2 hr]
    exact h

theorem C105_violated : ¬ C105_statement := by
  intro h
  have hl : Laid (-1) [bare 86, bare 68] :=
    bare_laid _ _ _ (by omega) (by decide) (bare_laid _ _ _ (by omega) (by decide) trivial)
  obtain ⟨k, hk⟩ := h [bare 86, bare 68] 1024 false 10000 hl (by simp) ⟨bare 68, by simp, bare_type 68⟩
  obtain ⟨k', hk'⟩ := detect_laid [bare 86, bare 68] 1024 false 10000 hl
  have h1 := detect_more _ _ _ k k' true hk
  rw [Nat.add_comm, hk' k] at h1
  simp [starts, bare_type] at h1

/-- C105 for archives whose first folder of a backup is the first header or follows a plain file: they are recognised.
Missing from the full claim: a folder after another kind of header, as after the label of a volume (`C105_violated`). -/
theorem C105_recognised_partial (es₁ es₂ : List Ent) (e : Ent) (z : Nat) (iz : Bool) (limit : Nat)
    (h : Laid (-1) (es₁ ++ e :: es₂)) (hl : es₁.length < limit) (hD : typeFlag e.hdr = [68])
    (hp : ∀ p, es₁.getLast? = some p → typeFlag p.hdr = [48]) :
    ∃ k, ∀ j, detect (bytes (es₁ ++ e :: es₂) ++ List.replicate z 0) iz limit (k + j) = some true := by
  obtain ⟨k, hk⟩ := detect_laid (es₁ ++ e :: es₂) z iz limit h
  refine ⟨k, fun j => ?_⟩
  rw [hk j]
  congr 1
  have key : ∀ (es₁ : List Ent) (off : Nat) (plain : Bool) (limit : Nat), es₁.length < limit →
      (∀ p, es₁.getLast? = some p → typeFlag p.hdr = [48]) → (es₁ = [] → plain = true) →
      ((starts off plain (es₁ ++ e :: es₂)).take limit).any (fun y => y.2 = [68]) = true := by
    intro es₁
    induction es₁ with
    | nil =>
      intro off plain limit hl _ hn
      obtain ⟨l, rfl⟩ : ∃ l, limit = l + 1 := ⟨limit - 1, by simp at hl; omega⟩
      simp [starts, hn rfl, hD]
    | cons q qs ih =>
      intro off plain limit hl hp hn
      obtain ⟨l, rfl⟩ : ∃ l, limit = l + 1 := ⟨limit - 1, by simp at hl; omega⟩
      have hr := ih (off + q.hdr.length + q.data.length) (typeFlag q.hdr = [48]) l (by simp at hl; omega) (by
          intro p hg
          refine hp p ?_
          cases qs with
          | nil => simp at hg
          | cons r rs => rw [List.getLast?_cons_cons]; exact hg) (by
          rintro rfl
          simpa using hp q rfl)
      simp only [List.cons_append, starts]
      cases plain with
      | true =>
        simp only [if_true, List.singleton_append, List.take_succ_cons, List.any_cons, hr, Bool.or_true]
      | false =>
        simp only [Bool.false_eq_true, if_false, List.nil_append]
        obtain ⟨y, hy, hy2⟩ := List.any_eq_true.mp hr
        exact List.any_eq_true.mpr ⟨y, List.take_subset_take_left _ (by omega) hy, hy2⟩
  exact key es₁ 0 true limit hl hp (fun _ => rfl)

/-- C105, the other direction: only archives with a header of type `D` are taken for incremental backups. -/
theorem C105_sound (es : List Ent) (z : Nat) (iz : Bool) (limit k : Nat) (h : Laid (-1) es)
    (hd : detect (bytes es ++ List.replicate z 0) iz limit k = some true) : ∃ e ∈ es, typeFlag e.hdr = [68] := by
  obtain ⟨k', hk'⟩ := detect_laid es z iz limit h
  have h1 := detect_more _ _ _ k k' true hd
  rw [Nat.add_comm, hk' k, Option.some.injEq] at h1
  obtain ⟨⟨o, t⟩, hy, hy2⟩ := List.any_eq_true.mp h1
  obtain ⟨es₁, e, es₂, rfl, -, ht, -, -⟩ := mem_starts.mp (List.mem_of_mem_take hy)
  exact ⟨e, by simp, by simpa [← ht] using hy2⟩

/-- The hypotheses are met by a backup with a folder, a file in it and another folder. -/
example : Laid (-1) [bare 68, bare 48, bare 68] ∧
    ∃ k, ∀ j, detect (bytes ([bare 68, bare 48] ++ bare 68 :: []) ++ List.replicate 1024 0) false 10000 (k + j) = some true := by
  have hl : Laid (-1) [bare 68, bare 48, bare 68] :=
    bare_laid _ _ _ (by omega) (by decide) (bare_laid _ _ _ (by omega) (by decide) (bare_laid _ _ _ (by omega) (by decide) trivial))
  exact ⟨hl, C105_recognised_partial [bare 68, bare 48] [] (bare 68) 1024 false 10000 hl (by simp) (bare_type 68)
    (by simp [bare_type])⟩

/-! ## C104: sizes that are not octal -/

theorem octDigits_bad (x : UInt8) (h1 : 56 ≤ x) (h2 : x ≠ 95) : ∀ (l : Data) (acc : Nat) (last : Bool), x ∈ l → octDigits acc last l = none
  | [], _, _, h => absurd h List.not_mem_nil
  | b :: r, acc, last, h => by
    unfold octDigits
    by_cases hb : b = x
    · subst hb
      have : octDigit b = none := if_neg fun hc => absurd (UInt8.le_trans h1 hc.2) (by decide)
      rw [if_neg h2, this]
    · have hr : x ∈ r := (List.mem_cons.mp h).resolve_left (fun e => hb e.symm)
      split
      · split
        · exact octDigits_bad x h1 h2 r _ _ hr
        · rfl
      · split
        · exact octDigits_bad x h1 h2 r _ _ hr
        · rfl

theorem octUnsigned_bad (x : UInt8) (h1 : 56 ≤ x) (h2 : x ≠ 95) (h3 : x ≠ 79) (h4 : x ≠ 111) (l : Data) (h : x ∈ l) :
    octUnsigned l = none := by
  have h0 : x ≠ 48 := fun e => absurd (e ▸ h1) (by decide)
  unfold octUnsigned
  split
  · split
    · rfl
    · exact octDigits_bad x h1 h2 _ _ _ (by simpa [h0, h4] using h)
  · split
    · rfl
    · exact octDigits_bad x h1 h2 _ _ _ (by simpa [h0, h3] using h)
  · exact octDigits_bad x h1 h2 _ _ _ h

theorem octSigned_bad (x : UInt8) (h1 : 56 ≤ x) (h2 : x ≠ 95) (h3 : x ≠ 79) (h4 : x ≠ 111) (l : Data) (h : x ∈ l) :
    octSigned l = none := by
  have h45 : x ≠ 45 := fun e => absurd (e ▸ h1) (by decide)
  have h43 : x ≠ 43 := fun e => absurd (e ▸ h1) (by decide)
  unfold octSigned
  split
  · rw [octUnsigned_bad x h1 h2 h3 h4 _ (by simpa [h45] using h)]; rfl
  · rw [octUnsigned_bad x h1 h2 h3 h4 _ (by simpa [h43] using h)]; rfl
  · rw [octUnsigned_bad x h1 h2 h3 h4 _ h]; rfl

theorem mem_dropWhile_of (p : UInt8 → Bool) (x : UInt8) (hx : p x = false) (l : Data) (h : x ∈ l) : x ∈ l.dropWhile p := by
  induction l with
  | nil => exact h
  | cons b l ih =>
    rw [List.dropWhile_cons]
    split
    · next hb =>
      refine ih ((List.mem_cons.mp h).resolve_left ?_)
      rintro rfl
      rw [hx] at hb
      cases hb
    · exact h

theorem mem_strip (p : UInt8 → Bool) (x : UInt8) (hx : p x = false) (l : Data) (h : x ∈ l) : x ∈ strip p l := by
  unfold strip
  rw [List.mem_reverse]
  exact mem_dropWhile_of p x hx _ (List.mem_reverse.mpr (mem_dropWhile_of p x hx l h))

/-- C104: a size field with the digit 8 or 9 is not read as a number. Looking for the kind of archive raises a `ValueError`. -/
theorem C104_not_octal (block : Data) (h : 56 ∈ (block.drop 124).take 12 ∨ 57 ∈ (block.drop 124).take 12) :
    sizeOf block = .error .valueError := by
  obtain ⟨x, hx, hm⟩ : ∃ x : UInt8, (x = 56 ∨ x = 57) ∧ x ∈ (block.drop 124).take 12 := by
    rcases h with h | h
    · exact ⟨56, .inl rfl, h⟩
    · exact ⟨57, .inr rfl, h⟩
  have hc : x ≠ 0 ∧ isSpace x = false ∧ 56 ≤ x ∧ x ≠ 95 ∧ x ≠ 79 ∧ x ≠ 111 := by rcases hx with rfl | rfl <;> decide
  have h1 : x ∈ rawSize block := mem_strip _ x (by simp [hc.1]) _ hm
  have h2 := mem_strip isSpace x hc.2.1 _ h1
  unfold sizeOf
  rw [if_neg (List.ne_nil_of_mem h1), octSigned_bad x hc.2.2.1 hc.2.2.2.1 hc.2.2.2.2.1 hc.2.2.2.2.2 _ h2]

example : (57 : UInt8) ∈ (((List.replicate 130 0 ++ [49, 57] ++ List.replicate 380 0 : Data)).drop 124).take 12 := by decide +kernel

/-! ## C107: the size in an extended header -/

/-- A record of an extended header: length in decimal, space, keyword, equals sign, value, end of line, where the
length counts all of these. -/
def IsRecord (r k v : Data) : Prop :=
  ∃ ds, r = ds ++ 32 :: (k ++ 61 :: (v ++ [10])) ∧ (∀ b ∈ ds, 48 ≤ b ∧ b ≤ 57) ∧ 1 ≤ ds.length ∧ ds.length ≤ 20 ∧
    decNat ds = r.length

theorem isDigit_iff (b : UInt8) : isDigit b = true ↔ 48 ≤ b ∧ b ≤ 57 := by
  unfold isDigit
  rw [Bool.and_eq_true, decide_eq_true_iff, decide_eq_true_iff]

theorem takeWhile_digits (ds : Data) (b : UInt8) (r : Data) (h : ∀ x ∈ ds, isDigit x = true) (hb : isDigit b = false) :
    (ds ++ b :: r).takeWhile isDigit = ds := by
  induction ds with
  | nil => simp [hb]
  | cons x ds ih =>
    rw [List.cons_append, List.takeWhile_cons, h x List.mem_cons_self, if_pos rfl, ih (fun y hy => h y (List.mem_cons_of_mem _ hy))]

theorem digitsThen_eq (ds : Data) (b : UInt8) (r : Data) (h : ∀ x ∈ ds, isDigit x = true) (hb : isDigit b = false)
    (h1 : 1 ≤ ds.length) (h2 : ds.length ≤ 20) : digitsThen b (ds ++ b :: r) = some ds := by
  unfold digitsThen
  simp only [takeWhile_digits ds b r h hb]
  rw [if_pos ⟨h1, h2, by simp⟩]

/-- `b"size"` -/
def sizeName : Data := [115, 105, 122, 101]

/-- The number in a value of decimal digits. -/
def IsNumber (v : Data) : Prop := (∀ b ∈ v, 48 ≤ b ∧ b ≤ 57) ∧ 1 ≤ v.length ∧ v.length ≤ 20

theorem sizeMatch_record (k v : Data) (hk : 61 ∉ k) (hv : k = sizeName → IsNumber v) :
    sizeMatch (32 :: (k ++ 61 :: (v ++ [10]))) = if k = sizeName then some (decNat v) else none := by
  by_cases h : k = sizeName
  · rw [if_pos h]
    obtain ⟨h1, h2, h3⟩ := hv h
    subst h
    unfold sizeMatch
    have : 32 :: (sizeName ++ 61 :: (v ++ [10])) = sizeKey ++ (v ++ [10]) := by simp [sizeName, sizeKey]
    have hdr : (sizeKey ++ (v ++ [10])).drop 6 = v ++ 10 :: [] := List.drop_left' (l₁ := sizeKey) rfl
    rw [this, if_pos (by simp), hdr,
      digitsThen_eq v 10 [] (fun b hb => (isDigit_iff b).mpr (h1 b hb)) (by decide) h2 h3]
    rfl
  · rw [if_neg h]
    unfold sizeMatch
    rw [if_neg]
    intro hp
    rw [List.isPrefixOf_iff_prefix] at hp
    obtain ⟨t, ht⟩ := hp
    simp only [sizeKey, List.cons_append, List.nil_append, List.cons.injEq, true_and] at ht
    apply h
    clear h hv
    match k, hk, ht with
    | [], _, ht => simp at ht
    | [a], _, ht => simp at ht
    | [a, b], _, ht => simp at ht
    | [a, b, c], _, ht => simp at ht
    | [a, b, c, d], _, ht =>
      simp only [List.cons_append, List.cons.injEq] at ht
      simp [sizeName, ← ht.1, ← ht.2.1, ← ht.2.2.1, ← ht.2.2.2.1]
    | a :: b :: c :: d :: e :: k, hk, ht =>
      simp only [List.cons_append, List.cons.injEq] at ht
      exact absurd ht.2.2.2.2.1 (fun he => hk (by simp [← he]))

theorem paxRecord_eq (r k v rest : Data) (hr : IsRecord r k v) (hk0 : k ≠ []) (hk : 61 ∉ k) (hv : k = sizeName → IsNumber v) :
    paxRecord (r ++ rest) = some (r.length, if k = sizeName then some (decNat v) else none) := by
  obtain ⟨ds, he, hds, h1, h2, hn⟩ := hr
  have hlen : 5 ≤ r.length := by
    have : 1 ≤ k.length := List.length_pos_iff.mpr hk0
    rw [he]
    simp
    omega
  unfold paxRecord
  have hh : ∃ b t, r ++ rest = b :: t ∧ isDigit b = true := by
    cases ds with
    | nil => simp at h1
    | cons b ds => exact ⟨b, _, by rw [he]; rfl, (isDigit_iff b).mpr (hds b List.mem_cons_self)⟩
  obtain ⟨b, t, hbt, hb⟩ := hh
  have h0 : b ≠ 0 := by
    rintro rfl
    exact absurd hb (by decide)
  rw [if_neg (by rw [hbt]; simp [h0])]
  have hd : digitsThen 32 (r ++ rest) = some ds := by
    rw [he, List.append_assoc, List.cons_append]
    exact digitsThen_eq ds 32 _ (fun b hb => (isDigit_iff b).mpr (hds b hb)) (by decide) h1 h2
  rw [hd]
  simp only
  rw [hn, if_neg (by simp; omega), List.take_left' rfl]
  have : r.drop ds.length = 32 :: (k ++ 61 :: (v ++ [10])) := by
    rw [he]
    exact List.drop_left' rfl
  rw [this, sizeMatch_record k v hk hv]

/-- C107: the size found in an extended header is the value of its last size record, and -1 if it has none, for every
list of records with any other keywords and any values, padded with zeros or not. -/
theorem C107_size (rs : List (Data × Data × Data)) (pad : Data)
    (h : ∀ p ∈ rs, IsRecord p.1 p.2.1 p.2.2 ∧ p.2.1 ≠ [] ∧ 61 ∉ p.2.1 ∧ (p.2.1 = sizeName → IsNumber p.2.2))
    (hp : pad.head? = none ∨ pad.head? = some 0) :
    getPaxSize (rs.flatMap (fun p => p.1) ++ pad) =
      match (rs.filter (fun p => p.2.1 = sizeName)).getLast? with
      | some p => (decNat p.2.2 : Int)
      | none => -1 := by
  have key : ∀ (acc : Int), paxLoop (rs.flatMap (fun p => p.1) ++ pad) acc =
      match (rs.filter (fun p => p.2.1 = sizeName)).getLast? with
      | some p => (decNat p.2.2 : Int)
      | none => acc := by
    induction rs with
    | nil =>
      intro acc
      rw [List.flatMap_nil, List.nil_append, paxLoop]
      have : paxRecord pad = none := by
        unfold paxRecord
        rw [if_pos hp]
      split
      · rfl
      · next n s hs => rw [this] at hs; exact absurd hs (by simp)
    | cons p rs ih =>
      intro acc
      have ih := ih (fun q hq => h q (List.mem_cons_of_mem _ hq))
      obtain ⟨hr, hk0, hk, hv⟩ := h p List.mem_cons_self
      have hrec := paxRecord_eq p.1 p.2.1 p.2.2 (rs.flatMap (fun p => p.1) ++ pad) hr hk0 hk hv
      rw [List.flatMap_cons, List.append_assoc, paxLoop]
      split
      · next hs => rw [hrec] at hs; exact absurd hs (by simp)
      · next n s hs =>
        rw [hrec, Option.some.injEq, Prod.mk.injEq] at hs
        obtain ⟨rfl, rfl⟩ := hs
        rw [List.drop_left' rfl, ih]
        by_cases hks : p.2.1 = sizeName
        · rw [if_pos hks, List.filter_cons, if_pos (by simpa using hks), List.getLast?_cons]
          cases (rs.filter (fun p => p.2.1 = sizeName)).getLast? <;> rfl
        · rw [if_neg hks, List.filter_cons, if_neg (by simpa using hks)]
          rfl
  exact key (-1)

/-- The decimal digits of a number, without leading zeros except for 0 itself. -/
def decimal (n : Nat) : Data := if n < 10 then [UInt8.ofNat (48 + n)] else decimal (n / 10) ++ [UInt8.ofNat (48 + n % 10)]

theorem digit_value (n : Nat) (h : n < 10) : (UInt8.ofNat (48 + n)).toNat - 48 = n ∧ isDigit (UInt8.ofNat (48 + n)) = true := by
  have : n = 0 ∨ n = 1 ∨ n = 2 ∨ n = 3 ∨ n = 4 ∨ n = 5 ∨ n = 6 ∨ n = 7 ∨ n = 8 ∨ n = 9 := by omega
  rcases this with rfl | rfl | rfl | rfl | rfl | rfl | rfl | rfl | rfl | rfl <;> decide

/-- C107: values and lengths are read as decimal numbers, with any leading zeros. -/
theorem C107_decimal (z n : Nat) : decNat (List.replicate z 48 ++ decimal n) = n ∧ ∀ b ∈ decimal n, 48 ≤ b ∧ b ≤ 57 := by
  have hz : decNat (List.replicate z 48 ++ decimal n) = decNat (decimal n) := by
    unfold decNat
    rw [List.foldl_append]
    congr 1
    induction z with
    | zero => rfl
    | succ z ih => exact ih
  rw [hz]
  clear hz
  induction n using Nat.strongRecOn with
  | _ n ih =>
    rw [decimal]
    split
    · next h =>
      refine ⟨?_, ?_⟩
      · simp only [decNat, List.foldl_cons, List.foldl_nil, (digit_value n h).1]
        omega
      · intro b hb
        rw [List.mem_singleton.mp hb]
        exact (isDigit_iff _).mp (digit_value n h).2
    · next h =>
      have ⟨h1, h2⟩ := ih (n / 10) (by omega)
      have hm := digit_value (n % 10) (by omega)
      refine ⟨?_, ?_⟩
      · unfold decNat at h1 ⊢
        rw [List.foldl_append, h1]
        simp only [List.foldl_cons, List.foldl_nil, hm.1]
        omega
      · intro b hb
        rcases List.mem_append.mp hb with hb | hb
        · exact h2 b hb
        · rw [List.mem_singleton.mp hb]
          exact (isDigit_iff _).mp hm.2

example : decimal 512 = [53, 49, 50] := by decide +kernel

/-- `"12 size=512\n"` is a size record, and `"11 path=ab\n"` is another record. -/
example : IsRecord [49, 50, 32, 115, 105, 122, 101, 61, 53, 49, 50, 10] sizeName [53, 49, 50] ∧
    IsRecord [49, 49, 32, 112, 97, 116, 104, 61, 97, 98, 10] [112, 97, 116, 104] [97, 98] :=
  ⟨⟨[49, 50], by decide, by decide, by decide, by decide, by decide⟩, ⟨[49, 49], by decide, by decide, by decide, by decide, by decide⟩⟩

/-- The last of two size records counts, the one before and a path do not, and neither do the zeros behind. -/
example : getPaxSize ([49, 50, 32, 115, 105, 122, 101, 61, 53, 49, 50, 10] ++ [49, 49, 32, 112, 97, 116, 104, 61, 97, 98, 10] ++
    [49, 48, 32, 115, 105, 122, 101, 61, 55, 10] ++ [0, 0]) = 7 := by decide +kernel

end Verif.Tar.Offsets
