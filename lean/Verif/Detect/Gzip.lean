import Verif.Bytes
import Verif.Py

/-!
# C94: the name stored in a gzip file (core/ratarmountcore/compressions.py:388-404, `get_gzip_info`)

The name is a list of bytes here; the final `name.decode()` is left out.
-/

namespace Verif.Detect

open Verif.Py Verif.Bin

/-- How far the function gets: a result, an exception, or the loop over the characters of the name (compressions.py:397-400), which goes on as
long as the character is not the zero byte; `read(1)` at the end of the file gives no character. -/
inductive Gzip where
  | result (r : Option (Data × Nat))
  | raised (e : PyErr)
  | loop (rest name : Data) (mtime : Nat)
  deriving DecidableEq, Repr

/-- One turn of the loop; `rest` is what the file still has from the character `c` on (compressions.py:398-403). -/
def turn : Gzip → Gzip
  | .loop [] name mtime => .loop [] name mtime              -- c = b'': `name += c`, `c = fileobj.read(1)`
  | .loop (c :: rest) name mtime => if c = 0 then .result (some (name, mtime)) else .loop rest (name ++ [c]) mtime
  | r => r

/-- All turns of the loop (compressions.py:398-403). -/
def turns : Nat → Gzip → Gzip
  | 0, g => g
  | n + 1, g => turns n (turn g)

/-- `get_gzip_info` (compressions.py:388-404) up to the loop. `struct.unpack` raises for less than 10 bytes, and always for the format `<U`,
which does not exist. -/
def gzipInfo (d : Data) : Gzip :=
  if d.length < 10 then .raised .structError
  else
    let byte (i : Nat) : Nat := leNat ((d.drop i).take 1)
    let mtime := leNat ((d.drop 4).take 4)
    if byte 0 ≠ 0x1F ∨ byte 1 ≠ 0x8B ∨ byte 2 ≠ 0x08 then .result none
    else if byte 3 &&& (1 <<< 2) ≠ 0 then .raised .structError
    else if byte 3 &&& (1 <<< 3) ≠ 0 then .loop (d.drop 10) [] mtime
    else .result none

/-- The function ends with the result. -/
def Returns (d : Data) (r : Option (Data × Nat)) : Prop := ∃ n, turns n (gzipInfo d) = .result r

/-! ## specification (RFC 1952) -/

/-- The optional fields in front of the compressed data. The flags of the other fields (text, checksum of the header, comment)
are the number `others`; what they stand for comes after the name. -/
structure Header where
  extra : Option Data
  name : Option Data
  mtime : Nat
  others : Nat
  xfl : UInt8
  os : UInt8

def Header.Valid (h : Header) : Prop :=
  (∀ e, h.extra = some e → e.length < 2 ^ 16) ∧ (∀ n, h.name = some n → 0 ∉ n) ∧ h.mtime < 2 ^ 32 ∧ h.others < 256 ∧
    h.others &&& 0x0C = 0

def Header.flags (h : Header) : Nat := h.others + (if h.extra.isSome then 4 else 0) + (if h.name.isSome then 8 else 0)

/-- The bytes of the header up to the name. -/
def Header.bytes (h : Header) : Data :=
  [0x1F, 0x8B, 0x08] ++ toLE h.flags 1 ++ toLE h.mtime 4 ++ [h.xfl, h.os] ++
    (match h.extra with | some e => toLE e.length 2 ++ e | none => []) ++
    (match h.name with | some n => n ++ [0] | none => [])

/-- Every header gives its name. -/
def C94_statement : Prop :=
  ∀ (h : Header) (rest : Data), h.Valid → Returns (h.bytes ++ rest) (h.name.map (fun n : Data => (n, h.mtime)))

/-! ## proofs -/

theorem turns_name (n rest name : Data) (mtime : Nat) (h : 0 ∉ n) :
    turns (n.length + 1) (.loop (n ++ 0 :: rest) name mtime) = .result (some (name ++ n, mtime)) := by
  induction n generalizing name with
  | nil => simp [turns, turn]
  | cons c n ih =>
    have hc : c ≠ 0 := fun hc => h (by simp [hc])
    have hn : 0 ∉ n := fun hn => h (List.mem_cons_of_mem _ hn)
    rw [List.length_cons, turns]
    simp only [List.cons_append, turn, if_neg hc]
    rw [ih (name ++ [c]) hn]
    simp

/-- The fixed part of the header. -/
theorem gzipInfo_fixed (flags mtime : Nat) (a b : UInt8) (tail : Data) (hf : flags < 256) (hm : mtime < 2 ^ 32) :
    gzipInfo ([0x1F, 0x8B, 0x08] ++ toLE flags 1 ++ toLE mtime 4 ++ [a, b] ++ tail) =
      if flags &&& 4 ≠ 0 then .raised .structError else if flags &&& 8 ≠ 0 then .loop tail [] mtime else .result none := by
  obtain ⟨f0, hf0⟩ : ∃ x, toLE flags 1 = [x] := ⟨_, rfl⟩
  obtain ⟨m0, m1, m2, m3, hm0⟩ : ∃ w x y z, toLE mtime 4 = [w, x, y, z] := ⟨_, _, _, _, rfl⟩
  have h1 : leNat [f0] = flags := by rw [← hf0]; exact leNat_toLE flags 1 hf
  have h2 : leNat [m0, m1, m2, m3] = mtime := by rw [← hm0]; exact leNat_toLE mtime 4 hm
  rw [hf0, hm0]
  unfold gzipInfo
  rw [if_neg (by simp)]
  simp only [List.cons_append, List.nil_append, List.drop_succ_cons, List.drop_zero, List.take_succ_cons, List.take_zero, h1, h2]
  rw [if_neg (by decide)]
  rfl

theorem and_bits (others : Nat) (h : others < 256) (h0 : others &&& 0x0C = 0) (e n : Bool) :
    (others + (if e then 4 else 0) + (if n then 8 else 0) < 256) ∧
      ((others + (if e then 4 else 0) + (if n then 8 else 0)) &&& 4 ≠ 0 ↔ e = true) ∧
      ((others + (if e then 4 else 0) + (if n then 8 else 0)) &&& 8 ≠ 0 ↔ n = true) := by
  have : ∀ o, o < 256 → o &&& 0x0C = 0 → ∀ e n : Bool,
    (o + (if e then 4 else 0) + (if n then 8 else 0) < 256) ∧
      ((o + (if e then 4 else 0) + (if n then 8 else 0)) &&& 4 ≠ 0 ↔ e = true) ∧
      ((o + (if e then 4 else 0) + (if n then 8 else 0)) &&& 8 ≠ 0 ↔ n = true) := by decide +kernel
  exact this others h h0 e n

/-- **C94** for headers without the extra field. Missing: headers with it; the code violates the claim for them. -/
theorem C94_name_partial (h : Header) (rest : Data) (hv : h.Valid) (he : h.extra = none) :
    Returns (h.bytes ++ rest) (h.name.map (fun n : Data => (n, h.mtime))) := by
  obtain ⟨-, hn, hm, ho, ho2⟩ := hv
  obtain ⟨b1, b2, b3⟩ := and_bits h.others ho ho2 h.extra.isSome h.name.isSome
  have hfl : h.flags = h.others + (if h.extra.isSome then 4 else 0) + (if h.name.isSome then 8 else 0) := rfl
  rw [← hfl] at b1 b2 b3
  have heq : h.bytes ++ rest = [0x1F, 0x8B, 0x08] ++ toLE h.flags 1 ++ toLE h.mtime 4 ++ [h.xfl, h.os] ++
      ((match h.name with | some n => n ++ [0] | none => []) ++ rest) := by
    unfold Header.bytes; rw [he]; simp only [List.append_nil, List.append_assoc]
  have hb := gzipInfo_fixed h.flags h.mtime h.xfl h.os ((match h.name with | some n => n ++ [0] | none => []) ++ rest) b1 hm
  rw [← heq] at hb
  unfold Returns
  rw [hb, if_neg (fun hx => by have := b2.mp hx; rw [he] at this; cases this)]
  cases hname : h.name with
  | none =>
    rw [if_neg (fun hx => by have := b3.mp hx; rw [hname] at this; cases this)]
    exact ⟨0, rfl⟩
  | some n =>
    rw [if_pos (b3.mpr (by rw [hname]; rfl))]
    refine ⟨n.length + 1, ?_⟩
    have := turns_name n rest [] h.mtime (hn n hname)
    simp only [List.nil_append] at this
    simpa using this

/-- A header with a name, a comment and a checksum. -/
example : let h : Header := ⟨none, some [102, 46, 116], 1700000000, 0x12, 0, 3⟩
    h.Valid ∧ Returns (h.bytes ++ [99, 0, 1, 2, 3]) (some ([102, 46, 116], 1700000000)) := by
  refine ⟨by unfold Header.Valid; simp, 4, by decide +kernel⟩

/-- C94 is violated: with the extra field the name is not read. -/
theorem C94_violated : ¬ C94_statement := by
  intro h
  obtain ⟨n, hn⟩ := h ⟨some [], some [102], 0, 0, 0, 0⟩ [] (by unfold Header.Valid; simp)
  have hr : ∀ n, turns n (gzipInfo ((⟨some [], some [102], 0, 0, 0, 0⟩ : Header).bytes ++ [])) = .raised .structError := by
    intro n
    have h0 : gzipInfo ((⟨some [], some [102], 0, 0, 0, 0⟩ : Header).bytes ++ []) = .raised .structError := by decide +kernel
    rw [h0]
    clear hn
    induction n with
    | zero => rfl
    | succ n ih => exact ih
  rw [hr] at hn
  cases hn

/-- The loop goes on as long as there was no zero byte. -/
theorem turns_forever (n : Nat) : ∀ (rest name : Data) (mtime : Nat), 0 ∉ rest →
    ∃ rest' name', turns n (.loop rest name mtime) = .loop rest' name' mtime := by
  induction n with
  | zero => intro rest name mtime _; exact ⟨rest, name, rfl⟩
  | succ n ih =>
    intro rest name mtime h
    cases rest with
    | nil => exact ih [] name mtime h
    | cons c rest =>
      have hc : c ≠ 0 := fun hc => h (by simp [hc])
      simp only [turns, turn, if_neg hc]
      exact ih rest (name ++ [c]) mtime (fun hx => h (List.mem_cons_of_mem _ hx))

/-- The function ends for every file. -/
def C94_ends_statement : Prop := ∀ d : Data, (∃ r, Returns d r) ∨ ∃ n e, turns n (gzipInfo d) = .raised e

/-- That is violated as well: for a file that ends inside of the name the loop never ends. -/
theorem C94_ends_violated : ¬ C94_ends_statement := by
  intro h
  have h0 : gzipInfo [0x1F, 0x8B, 0x08, 0x08, 0, 0, 0, 0, 0, 3, 102, 46] = .loop [102, 46] [] 0 := by decide +kernel
  rcases h [0x1F, 0x8B, 0x08, 0x08, 0, 0, 0, 0, 0, 3, 102, 46] with ⟨r, n, hr⟩ | ⟨n, e, he⟩
  · rw [h0] at hr
    obtain ⟨a, b, hab⟩ := turns_forever n [102, 46] [] 0 (by decide)
    rw [hab] at hr; cases hr
  · rw [h0] at he
    obtain ⟨a, b, hab⟩ := turns_forever n [102, 46] [] 0 (by decide)
    rw [hab] at he; cases he

end Verif.Detect
