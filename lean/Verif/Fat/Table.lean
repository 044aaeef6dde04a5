import Verif.Py
import Verif.Bytes

/-!
# C69: the allocation table of a FAT volume
(core/ratarmountcore/_external/pyfatfs/PyFat.py:262-351)

The positions in a 12-bit table are multiples of 1.5, which floating point numbers hold exactly; here they are doubled.
-/

namespace Verif.FatTable

open Verif.Py Verif.Bin

/-- FAT12, FAT16 and FAT32 (PyFat.py:33-41). -/
inductive Kind where
  | fat12
  | fat16
  | fat32
  deriving DecidableEq, Repr

/-- `math.ceil(offset)` with `offset = 1.5 * m` (PyFat.py:240-324). -/
def ceil15 (m : Nat) : Nat := (3 * m + 1) / 2

/-- One 12-bit entry (PyFat.py:282-297): the word from byte `int(curr)` to `ceil(offset)`, then its low or high 12 bits. -/
def entry12 (d : Data) (c : Nat) : Nat :=
  let w := leNat ((d.drop (3 * c / 2)).take (ceil15 (c + 1) - 3 * c / 2))
  if c % 2 = 0 then w &&& 0x0FFF else w >>> 4

/-- The loop for 12-bit tables (PyFat.py:279-302) at cluster `c`. `fat` has all slots from the beginning (PyFat.py:273-274). -/
def loop12 (d : Data) (fat : List (Option Nat)) (c : Nat) : List (Option Nat) :=
  if 3 * c < 2 * d.length then
    if c < fat.length then
      let fat := fat.set c (some (entry12 d c))
      if ceil15 (c + 1) = d.length - 1 then fat.dropLast
      else loop12 d fat (c + 1)
    else fat
  else fat
  termination_by 2 * d.length - 3 * c

/-- The loop for wider tables (PyFat.py:304-319): `k` bytes per entry. -/
def loopWide (k mask : Nat) (hk : 0 < k) (d : Data) : Except PyErr (List Nat) :=
  if _h : d = [] then .ok []
  else if d.length < k then .error .structError
  else match loopWide k mask hk (d.drop k) with
    | .error e => .error e
    | .ok r => .ok ((leNat (d.take k) &&& mask) :: r)
  termination_by d.length
  decreasing_by
    have := List.length_pos_iff.mpr _h
    simp only [List.length_drop]
    omega

/-- `_parse_fat` (PyFat.py:262-323) from the bytes of the first table. -/
def parseFat (kind : Kind) (d : Data) : Except PyErr (List Nat) :=
  match kind with
  | .fat12 =>
    let fat := loop12 d (List.replicate (2 * d.length / 3) none) 0
    if none ∈ fat then .error .assertionError else .ok (fat.filterMap id)
  | .fat16 => loopWide 2 0xFFFF (by decide) d
  | .fat32 => loopWide 4 0x0FFFFFFF (by decide) d

/-- `__bytes__` for 12-bit tables (PyFat.py:332-340): `i` is the index of the next entry, `b` what is there already. -/
def bytes12 : Nat → Data → List Nat → Except PyErr Data
  | _, b, [] => .ok b
  | i, b, e :: es =>
    if i % 2 = 0 then
      if e < 65536 then bytes12 (i + 1) (b ++ toLE e 2) es else .error .structError
    else match b.getLast? with
      | none => .error .structError
      | some nibble =>
        let low := ((e &&& 0xF) <<< 4) ||| nibble.toNat
        if low < 256 ∧ e >>> 4 < 256 then
          bytes12 (i + 1) (b.dropLast ++ [UInt8.ofNat low, UInt8.ofNat (e >>> 4)]) es
        else .error .structError

/-- `struct.pack` of all entries (PyFat.py:342-350). -/
def bytesWide (k : Nat) : List Nat → Except PyErr Data
  | [] => .ok []
  | e :: es => if e < 256 ^ k then match bytesWide k es with
      | .error x => .error x
      | .ok r => .ok (toLE e k ++ r)
    else .error .structError

/-- `__bytes__` (PyFat.py:326-351). -/
def fatBytes (kind : Kind) (fat : List Nat) : Except PyErr Data :=
  match kind with
  | .fat12 => bytes12 0 [] fat
  | .fat16 => bytesWide 2 fat
  | .fat32 => bytesWide 4 fat

/-! ## specification -/

/-- The numbers that fit into an entry. -/
def limit : Kind → Nat
  | .fat12 => 2 ^ 12
  | .fat16 => 2 ^ 16
  | .fat32 => 2 ^ 28

/-- Encoding and decoding a table gives it back. -/
def C69_statement : Prop :=
  ∀ (kind : Kind) (fat : List Nat), (∀ e ∈ fat, e < limit kind) →
    ∃ d, fatBytes kind fat = .ok d ∧ parseFat kind d = .ok fat

/-- A 12-bit table according to the specification of the format: two entries in three bytes. -/
def pairs12 : List Nat → Data
  | [] => []
  | [a] => [UInt8.ofNat (a % 256), UInt8.ofNat (a / 256)]
  | a :: b :: es => UInt8.ofNat (a % 256) :: UInt8.ofNat (a / 256 + 16 * (b % 16)) :: UInt8.ofNat (b / 16) :: pairs12 es

/-! ## proofs -/

theorem and_mask (n k : Nat) : n &&& (2 ^ k - 1) = n % 2 ^ k := Nat.and_two_pow_sub_one_eq_mod n k

theorem wide_roundtrip (k mask : Nat) (hk : 0 < k) (fat : List Nat) (h : ∀ e ∈ fat, e < 256 ^ k)
    (hmask : ∀ e ∈ fat, e &&& mask = e) : ∃ d, bytesWide k fat = .ok d ∧ loopWide k mask hk d = .ok fat := by
  induction fat with
  | nil => exact ⟨[], rfl, by rw [loopWide, dif_pos rfl]⟩
  | cons e es ih =>
    obtain ⟨d, h1, h2⟩ := ih (fun x hx => h x (List.mem_cons_of_mem _ hx)) (fun x hx => hmask x (List.mem_cons_of_mem _ hx))
    have he := h e List.mem_cons_self
    refine ⟨toLE e k ++ d, ?_, ?_⟩
    · rw [bytesWide, if_pos he, h1]
    · rw [loopWide]
      rw [dif_neg, if_neg, List.drop_left' (by simp), h2, List.take_left' (by simp), leNat_toLE e k he,
        hmask e List.mem_cons_self]
      · simp only [List.length_append, length_toLE]; omega
      · intro hn
        have := congrArg List.length hn
        simp only [List.length_append, length_toLE, List.length_nil] at this
        omega

/-- **C69** for 16-bit and 32-bit tables. -/
theorem C69_wide_partial (kind : Kind) (hkind : kind ≠ .fat12) (fat : List Nat) (h : ∀ e ∈ fat, e < limit kind) :
    ∃ d, fatBytes kind fat = .ok d ∧ parseFat kind d = .ok fat := by
  cases kind with
  | fat12 => exact absurd rfl hkind
  | fat16 =>
    refine wide_roundtrip 2 0xFFFF (by decide) fat h ?_
    intro e he
    have := h e he
    simp only [limit] at this
    rw [show (0xFFFF : Nat) = 2 ^ 16 - 1 by decide, and_mask, Nat.mod_eq_of_lt this]
  | fat32 =>
    refine wide_roundtrip 4 0x0FFFFFFF (by decide) fat ?_ ?_
    · intro e he
      have := h e he
      simp only [limit] at this
      omega
    · intro e he
      have := h e he
      simp only [limit] at this
      rw [show (0x0FFFFFFF : Nat) = 2 ^ 28 - 1 by decide, and_mask, Nat.mod_eq_of_lt this]

example : ∀ e ∈ [0xFFFFFF8, 0xFFFFFFF, 3, 0xFFFFFFF], e < limit .fat32 := by decide

/-- The reserved bits of a 32-bit entry do not count. -/
example : parseFat .fat32 [1, 2, 3, 0xF4] = .ok [0x04030201] := by decide +kernel

theorem or_shift4 (x n : Nat) (hn : n < 16) : (x <<< 4) ||| n = 16 * x + n := by
  rw [← Nat.shiftLeft_add_eq_or_of_lt (by simpa using hn), Nat.shiftLeft_eq]
  omega

/-- `__bytes__` writes the format. -/
theorem bytes12_pairs (es : List Nat) (h : ∀ e ∈ es, e < 4096) : ∀ (i : Nat) (b : Data), i % 2 = 0 →
    bytes12 i b es = .ok (b ++ pairs12 es) := by
  induction es using pairs12.induct with
  | case1 => intro i b _; simp [bytes12, pairs12]
  | case2 a =>
    intro i b hi
    have ha := h a (by simp)
    rw [bytes12, if_pos hi, if_pos (by omega), bytes12]
    simp only [toLE, pairs12]
    rw [Nat.mod_eq_of_lt (show a / 256 < 256 by omega)]
  | case3 a c es ih =>
    intro i b hi
    have ha := h a (by simp)
    have hc := h c (by simp)
    rw [bytes12, if_pos hi, if_pos (by omega), bytes12, if_neg (by omega)]
    have hb : b ++ toLE a 2 = (b ++ [UInt8.ofNat (a % 256)]) ++ [UInt8.ofNat (a / 256)] := by
      simp only [toLE, List.append_assoc, List.cons_append, List.nil_append]
      rw [Nat.mod_eq_of_lt (show a / 256 < 256 by omega)]
    rw [hb, List.getLast?_concat]
    simp only [List.dropLast_concat]
    have h1 : (UInt8.ofNat (a / 256)).toNat = a / 256 := by
      rw [UInt8.toNat_ofNat']; omega
    have h2 : c &&& 0xF = c % 16 := and_mask c 4
    have h3 : c >>> 4 = c / 16 := Nat.shiftRight_eq_div_pow c 4
    rw [h1, h2, h3, or_shift4 _ _ (by omega), if_pos (by omega)]
    rw [ih (fun e he => h e (by simp [he])) (i + 1 + 1) _ (by omega)]
    simp only [pairs12, List.append_assoc, List.cons_append, List.nil_append]
    rw [Nat.add_comm (16 * (c % 16))]

theorem pairs12_length (es : List Nat) : (pairs12 es).length = ceil15 es.length := by
  unfold ceil15
  induction es using pairs12.induct with
  | case1 => rfl
  | case2 a => simp [pairs12]
  | case3 a c es ih =>
    simp only [pairs12, List.length_cons, ih]
    omega

theorem entry12_shift (x y z : UInt8) (d : Data) (c : Nat) : entry12 (x :: y :: z :: d) (c + 2) = entry12 d c := by
  unfold entry12
  have h1 : 3 * (c + 2) / 2 = 3 * c / 2 + 3 := by omega
  have h2 : ceil15 (c + 2 + 1) = ceil15 (c + 1) + 3 := by unfold ceil15; omega
  have h3 : (c + 2) % 2 = c % 2 := by omega
  rw [h1, h2, h3, Nat.add_sub_add_right]
  rfl

/-- The entries of a table in the format. -/
theorem entry12_pairs (es : List Nat) (h : ∀ e ∈ es, e < 4096) : ∀ c e, es[c]? = some e → entry12 (pairs12 es) c = e := by
  induction es using pairs12.induct with
  | case1 => intro c e he; simp at he
  | case2 a =>
    intro c e he
    have ha := h a (by simp)
    cases c with
    | succ c => simp at he
    | zero =>
      simp only [List.getElem?_cons_zero, Option.some.injEq] at he
      subst he
      have h2 : leNat ((List.drop (3 * 0 / 2) (pairs12 [a])).take (ceil15 (0 + 1) - 3 * 0 / 2)) = a := by
        simp only [pairs12, ceil15, List.drop_zero, Nat.mul_zero, Nat.zero_div, List.take, leNat, UInt8.toNat_ofNat']
        omega
      unfold entry12
      simp only [h2]
      rw [if_pos (by decide), show (0x0FFF : Nat) = 2 ^ 12 - 1 by decide, and_mask]
      omega
  | case3 a b es ih =>
    intro c e he
    have ha := h a (by simp)
    have hb := h b (by simp)
    match c with
    | 0 =>
      simp only [List.getElem?_cons_zero, Option.some.injEq] at he
      subst he
      have h2 : leNat ((List.drop (3 * 0 / 2) (pairs12 (a :: b :: es))).take (ceil15 (0 + 1) - 3 * 0 / 2)) =
          a + 4096 * (b % 16) := by
        simp only [pairs12, ceil15, List.drop_zero, Nat.mul_zero, Nat.zero_div, List.take, leNat, UInt8.toNat_ofNat']
        omega
      unfold entry12
      simp only [h2]
      rw [if_pos (by decide), show (0x0FFF : Nat) = 2 ^ 12 - 1 by decide, and_mask]
      omega
    | 1 =>
      simp only [List.getElem?_cons_succ, List.getElem?_cons_zero, Option.some.injEq] at he
      subst he
      have h2 : leNat ((List.drop (3 * 1 / 2) (pairs12 (a :: b :: es))).take (ceil15 (1 + 1) - 3 * 1 / 2)) =
          a / 256 + 16 * b := by
        have : 3 * 1 / 2 = 1 := by decide
        simp only [pairs12, ceil15, this, List.drop_succ_cons, List.drop_zero, List.take, leNat, UInt8.toNat_ofNat']
        omega
      unfold entry12
      simp only [h2]
      rw [if_neg (by decide), Nat.shiftRight_eq_div_pow]
      omega
    | c + 2 =>
      simp only [List.getElem?_cons_succ] at he
      rw [pairs12, entry12_shift]
      exact ih (fun e he => h e (by simp [he])) c e he

/-- How many entries are read from a table of `s` bytes. -/
def count12 (s : Nat) : Nat := if s % 3 = 2 then 2 * s / 3 else 2 * s / 3 - 1

/-- The table with the first `c` entries read. -/
def filled (d : Data) (c n : Nat) : List (Option Nat) :=
  (List.range c).map (fun i => some (entry12 d i)) ++ List.replicate n none

theorem filled_length (d : Data) (c n : Nat) : (filled d c n).length = c + n := by simp [filled]

theorem filled_set (d : Data) (c n : Nat) : (filled d c (n + 1)).set c (some (entry12 d c)) = filled d (c + 1) n := by
  unfold filled
  rw [List.set_append_right _ _ (by simp), List.length_map, List.length_range, Nat.sub_self, List.replicate_succ, List.set_cons_zero,
    List.range_succ, List.map_append, List.append_assoc]
  rfl

theorem filled_dropLast_none (d : Data) (c n : Nat) : (filled d c (n + 1)).dropLast = filled d c n := by
  unfold filled
  rw [List.replicate_succ', ← List.append_assoc, List.dropLast_concat]

theorem filled_dropLast (d : Data) (c : Nat) : (filled d (c + 1) 0).dropLast = filled d c 0 := by
  unfold filled
  simp only [List.replicate_zero, List.append_nil]
  rw [List.range_succ, List.map_append, List.map_singleton, List.dropLast_concat]

theorem loop12_spec (d : Data) : ∀ (left c : Nat), 2 * d.length / 3 - c ≤ left → c ≤ 2 * d.length / 3 →
    (d.length % 3 = 0 → 0 < d.length → c + 2 ≤ 2 * d.length / 3) →
    (d.length % 3 = 1 → 1 < d.length → c + 1 ≤ 2 * d.length / 3) →
    loop12 d (filled d c (2 * d.length / 3 - c)) c = filled d (count12 d.length) 0 := by
  intro left
  induction left with
  | zero =>
    intro c hl hc h0 h1
    have hcc : c = 2 * d.length / 3 := by omega
    rw [loop12, filled_length]
    have hn : 2 * d.length / 3 - c = 0 := by omega
    have hcount : count12 d.length = c := by
      unfold count12
      split <;> omega
    rw [hn, hcount]
    by_cases hlt : 3 * c < 2 * d.length
    · rw [if_pos hlt, if_neg (by omega)]
    · rw [if_neg hlt]
  | succ left ih =>
    intro c hl hc h0 h1
    by_cases hcc : c = 2 * d.length / 3
    · exact ih c (by omega) hc h0 h1
    · have hn : 2 * d.length / 3 - c = (2 * d.length / 3 - (c + 1)) + 1 := by omega
      rw [loop12, filled_length, if_pos (by omega), if_pos (by omega)]
      simp only
      rw [hn, filled_set]
      by_cases hend : ceil15 (c + 1) = d.length - 1
      · rw [if_pos hend]
        unfold ceil15 at hend
        have hmod : d.length % 3 = 0 ∨ d.length % 3 = 1 := by omega
        have hcount : count12 d.length = 2 * d.length / 3 - 1 := by
          unfold count12
          rw [if_neg (by omega)]
        rw [hcount]
        rcases hmod with hmod | hmod
        · have e1 : 2 * d.length / 3 - (c + 1) = 0 + 1 := by omega
          have e2 : 2 * d.length / 3 - 1 = c + 1 := by omega
          rw [e1, e2, filled_dropLast_none]
        · have e1 : 2 * d.length / 3 - (c + 1) = 0 := by omega
          have e2 : 2 * d.length / 3 - 1 = c := by omega
          rw [e1, e2, filled_dropLast]
      · rw [if_neg hend]
        unfold ceil15 at hend
        exact ih (c + 1) (by omega) (by omega) (by omega) (by omega)

/-- What is read from a 12-bit table of any size. -/
theorem parse12_eq (d : Data) : parseFat .fat12 d = .ok ((List.range (count12 d.length)).map (entry12 d)) := by
  have h : loop12 d (List.replicate (2 * d.length / 3) none) 0 = filled d (count12 d.length) 0 :=
    loop12_spec d _ 0 (Nat.le_refl _) (Nat.zero_le _) (by omega) (by omega)
  unfold parseFat
  simp only
  rw [h]
  rw [if_neg]
  · congr 1
    unfold filled
    generalize count12 d.length = n
    simp only [List.replicate_zero, List.append_nil]
    induction List.range n with
    | nil => rfl
    | cons x l ih => simp only [List.map_cons, List.filterMap_cons, id, ih]
  · unfold filled
    simp

theorem entries_range (es : List Nat) (h : ∀ e ∈ es, e < 4096) (n : Nat) (hn : n ≤ es.length) :
    (List.range n).map (entry12 (pairs12 es)) = es.take n := by
  apply List.ext_getElem?
  intro i
  rw [List.getElem?_map, List.getElem?_take]
  by_cases hi : i < n
  · rw [if_pos hi, List.getElem?_range hi, List.getElem?_eq_getElem (by omega), Option.map_some]
    congr 1
    exact entry12_pairs es h i _ (List.getElem?_eq_getElem (by omega))
  · rw [if_neg hi, List.getElem?_eq_none_iff.mpr (by simpa using hi)]
    rfl

/-- **C69** for 12-bit tables with an odd number of entries. -/
theorem C69_odd_partial (fat : List Nat) (h : ∀ e ∈ fat, e < limit .fat12) (hodd : fat.length % 2 = 1) :
    ∃ d, fatBytes .fat12 fat = .ok d ∧ parseFat .fat12 d = .ok fat := by
  refine ⟨pairs12 fat, bytes12_pairs fat h 0 [] rfl, ?_⟩
  have hcount : count12 (ceil15 fat.length) = fat.length := by
    unfold count12 ceil15
    rw [if_pos (by omega)]
    omega
  rw [parse12_eq, pairs12_length, hcount, entries_range fat h _ (Nat.le_refl _), List.take_length]

example : ∀ e ∈ [0xFF8, 0xFFF, 3, 4, 0xFFF], e < limit .fat12 := by decide

example : (fatBytes .fat12 [0xFF8, 0xFFF, 3, 4, 0xFFF]).toOption = some [0xF8, 0xFF, 0xFF, 3, 0x40, 0, 0xFF, 0x0F] := by
  decide

/-- With an even number of entries the last one is always lost. -/
theorem C69_even (fat : List Nat) (h : ∀ e ∈ fat, e < limit .fat12) (heven : fat.length % 2 = 0) :
    ∃ d, fatBytes .fat12 fat = .ok d ∧ parseFat .fat12 d = .ok fat.dropLast := by
  refine ⟨pairs12 fat, bytes12_pairs fat h 0 [] rfl, ?_⟩
  have hcount : count12 (ceil15 fat.length) = fat.length - 1 := by
    unfold count12 ceil15
    rw [if_neg (by omega)]
    omega
  rw [parse12_eq, pairs12_length, hcount, entries_range fat h _ (by omega), List.dropLast_eq_take]

/-- C69 is violated: the last entry of a table with two entries is lost. -/
theorem C69_violated : ¬ C69_statement := by
  intro h
  obtain ⟨d, h1, h2⟩ := h .fat12 [0xFF8, 0xFFF] (by decide)
  have e1 : fatBytes .fat12 [0xFF8, 0xFFF] = .ok [0xF8, 0xFF, 0xFF] := by decide
  rw [e1] at h1
  injection h1 with h1
  subst h1
  have e2 : parseFat .fat12 [0xF8, 0xFF, 0xFF] = .ok [0xFF8] := by decide +kernel
  rw [e2] at h2
  exact absurd h2 (by decide)

/-- The tables of a floppy disk: nine sectors hold 3072 entries, of which 3071 are read. -/
example : count12 (9 * 512) = 3071 := by decide

end Verif.FatTable
