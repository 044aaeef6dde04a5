/-!
Little-endian and big-endian numbers in bytes: `struct.unpack`, `int.from_bytes`, `int.to_bytes`.
-/

namespace Verif.Bin

abbrev Data := List UInt8

/-- `int.from_bytes(d, 'little')`. -/
def leNat : Data → Nat
  | [] => 0
  | b :: bs => b.toNat + 256 * leNat bs

/-- `n.to_bytes(k, 'little')`, modulo `256 ^ k`. -/
def toLE (n : Nat) : Nat → Data
  | 0 => []
  | k + 1 => UInt8.ofNat (n % 256) :: toLE (n / 256) k

/-- `int.from_bytes(d, 'big')`. -/
def beNat (d : Data) : Nat := leNat d.reverse

def toBE (n k : Nat) : Data := (toLE n k).reverse

/-- `struct.unpack` of an unsigned number of `k` bytes at a position: `none` is `struct.error` for too few bytes. -/
def uint (k : Nat) (d : Data) (pos : Nat) : Option Nat :=
  if ((d.drop pos).take k).length = k then some (leNat ((d.drop pos).take k)) else none

@[simp] theorem length_toLE (n k : Nat) : (toLE n k).length = k := by
  induction k generalizing n with
  | zero => rfl
  | succ k ih => simp [toLE, ih]

@[simp] theorem length_toBE (n k : Nat) : (toBE n k).length = k := by simp [toBE]

theorem leNat_lt (d : Data) : leNat d < 256 ^ d.length := by
  induction d with
  | nil => simp [leNat]
  | cons b bs ih =>
    have hb : b.toNat < 256 := b.toNat_lt
    simp only [leNat, List.length_cons, Nat.pow_succ]
    omega

theorem leNat_toLE (n k : Nat) (h : n < 256 ^ k) : leNat (toLE n k) = n := by
  induction k generalizing n with
  | zero => simp at h; simp [toLE, leNat, h]
  | succ k ih =>
    simp only [toLE, leNat]
    rw [ih (n / 256) (by rw [Nat.pow_succ] at h; omega)]
    simp only [UInt8.toNat_ofNat']
    omega

theorem toLE_leNat (d : Data) : toLE (leNat d) d.length = d := by
  induction d with
  | nil => rfl
  | cons b bs ih =>
    have hb : b.toNat < 256 := b.toNat_lt
    simp only [leNat, List.length_cons, toLE]
    rw [show (b.toNat + 256 * leNat bs) % 256 = b.toNat by omega, show (b.toNat + 256 * leNat bs) / 256 = leNat bs by omega,
      ih]
    congr 1
    exact UInt8.ofNat_toNat

theorem leNat_append (a b : Data) : leNat (a ++ b) = leNat a + 256 ^ a.length * leNat b := by
  induction a with
  | nil => simp [leNat]
  | cons x a ih =>
    simp only [List.cons_append, leNat, ih, List.length_cons, Nat.pow_succ]
    rw [Nat.mul_add, show 256 ^ a.length * 256 * leNat b = 256 * (256 ^ a.length * leNat b) by
      rw [Nat.mul_comm (256 ^ a.length) 256, Nat.mul_assoc]]
    omega

theorem leNat_inj {a b : Data} (hl : a.length = b.length) (h : leNat a = leNat b) : a = b := by
  rw [← toLE_leNat a, ← toLE_leNat b, h, hl]

theorem beNat_toBE (n k : Nat) (h : n < 256 ^ k) : beNat (toBE n k) = n := by
  simp [beNat, toBE, leNat_toLE n k h]

theorem uint_some {k : Nat} {d : Data} {pos n : Nat} (h : uint k d pos = some n) :
    pos + k ≤ d.length ∨ k = 0 := by
  unfold uint at h
  split at h
  · next hl => simp at hl; omega
  · cases h

/-- A number that is there. -/
theorem uint_at (k : Nat) (a b : Data) (n : Nat) (h : n < 256 ^ k) :
    uint k (a ++ toLE n k ++ b) a.length = some n := by
  unfold uint
  rw [List.append_assoc, List.drop_left, List.take_append_of_le_length (by simp), List.take_of_length_le (by simp)]
  rw [if_pos (by simp), leNat_toLE n k h]

/-- What stands at the position of a number that was read. -/
theorem uint_split {k : Nat} {d : Data} {pos n : Nat} (h : uint k d pos = some n) :
    n < 256 ^ k ∧ d.drop pos = toLE n k ++ d.drop (pos + k) := by
  unfold uint at h
  split at h
  · next hl =>
    injection h with h
    subst h
    constructor
    · have := leNat_lt ((d.drop pos).take k); rw [hl] at this; exact this
    · have := toLE_leNat ((d.drop pos).take k)
      rw [hl] at this
      rw [this, ← List.drop_drop, List.take_append_drop]
  · cases h

end Verif.Bin
