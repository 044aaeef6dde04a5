import Verif.Py

/-!
# C71: dates and times of FAT volumes
(core/ratarmountcore/_external/pyfatfs/DosDateTime.py:21-54, FATDirectoryEntry.py:177-192)
-/

namespace Verif.FatDates

open Verif.Py

/-- A `date`: year, month and day (DosDateTime.py:33-42). -/
structure Date where
  year : Nat
  month : Nat
  day : Nat
  deriving DecidableEq, Repr

/-- A `time`: hour, minute and second (DosDateTime.py:45-54). -/
structure Time where
  hour : Nat
  minute : Nat
  second : Nat
  deriving DecidableEq, Repr

/-- Leap years (Python library, `datetime`, used at DosDateTime.py:38-42). -/
def leap (y : Nat) : Bool := y % 4 == 0 && (y % 100 != 0 || y % 400 == 0)

/-- Days of a month (Python library, `datetime`, used at DosDateTime.py:38-42). -/
def daysIn (y m : Nat) : Nat :=
  if m = 2 then (if leap y then 29 else 28) else if m = 4 ∨ m = 6 ∨ m = 9 ∨ m = 11 then 30 else 31

/-- The dates Python's `datetime` accepts; others are a `ValueError` (used at DosDateTime.py:38-42). -/
def Date.valid (d : Date) : Bool :=
  decide (1 ≤ d.year) && decide (d.year ≤ 9999) && decide (1 ≤ d.month) && decide (d.month ≤ 12) && decide (1 ≤ d.day) &&
    decide (d.day ≤ daysIn d.year d.month)

/-- The times Python's `time` accepts (used at DosDateTime.py:45-54). -/
def Time.valid (t : Time) : Bool := decide (t.hour < 24) && decide (t.minute < 60) && decide (t.second < 60)

/-- `serialize_date` (DosDateTime.py:21-24); for years before 1980 Python gives a negative number, which is not modelled. -/
def serializeDate (d : Date) : Nat := (d.year - 1980) <<< 9 ||| d.month <<< 5 ||| d.day

/-- `serialize_time` (DosDateTime.py:26-30). -/
def serializeTime (t : Time) : Nat := t.hour <<< 11 ||| t.minute <<< 5 ||| (t.second - t.second % 2) / 2

/-- `deserialize_date` (DosDateTime.py:32-42). -/
def deserializeDate (dt : Nat) : Date :=
  let d : Date := ⟨((dt >>> 9) &&& (1 <<< 7) - 1) + 1980, (dt >>> 5) &&& ((1 <<< 4) - 1), dt &&& (1 <<< 5) - 1⟩
  if d.valid then d else ⟨1980, 1, 1⟩

/-- `deserialize_time` (DosDateTime.py:44-54). -/
def deserializeTime (tm : Nat) : Time :=
  let t : Time := ⟨(tm >>> 11) &&& ((1 <<< 5) - 1), (tm >>> 5) &&& ((1 <<< 6) - 1), (tm &&& (1 <<< 5) - 1) * 2⟩
  if t.valid then t else ⟨0, 0, 0⟩

/-! ## proofs -/

theorem and_mask (n k : Nat) : n &&& (1 <<< k - 1) = n % 2 ^ k := by
  rw [Nat.shiftLeft_eq, Nat.one_mul]
  exact Nat.and_two_pow_sub_one_eq_mod n k

theorem or_shift (a k b : Nat) (hb : b < 2 ^ k) : a <<< k ||| b = a * 2 ^ k + b := by
  rw [← Nat.shiftLeft_add_eq_or_of_lt hb, Nat.shiftLeft_eq]

theorem date_number (d : Date) (hm : d.month < 16) (hd : d.day < 32) :
    serializeDate d = (d.year - 1980) * 512 + d.month * 32 + d.day := by
  unfold serializeDate
  have h1 : d.month <<< 5 ||| d.day = d.month * 32 + d.day := or_shift _ 5 _ hd
  rw [Nat.or_assoc, h1, or_shift _ 9 _ (by omega)]
  omega

theorem time_number (t : Time) (hm : t.minute < 64) (hs : t.second < 64) :
    serializeTime t = t.hour * 2048 + t.minute * 32 + t.second / 2 := by
  unfold serializeTime
  have h0 : (t.second - t.second % 2) / 2 = t.second / 2 := by omega
  have h1 : t.minute <<< 5 ||| t.second / 2 = t.minute * 32 + t.second / 2 := or_shift _ 5 _ (by omega)
  rw [h0, Nat.or_assoc, h1, or_shift _ 11 _ (by omega)]
  omega

theorem daysIn_le (y m : Nat) : daysIn y m ≤ 31 := by
  unfold daysIn
  split
  · split <;> omega
  · split <;> omega

/-- **C71**, dates: every date of the years 1980 to 2107 comes back, and is stored in 16 bits. -/
theorem C71_date (d : Date) (hv : d.valid = true) (h1 : 1980 ≤ d.year) (h2 : d.year ≤ 2107) :
    serializeDate d < 2 ^ 16 ∧ deserializeDate (serializeDate d) = d := by
  have hv' := hv
  simp only [Date.valid, Bool.and_eq_true, decide_eq_true_eq] at hv'
  have hdays := daysIn_le d.year d.month
  rw [date_number d (by omega) (by omega)]
  refine ⟨by omega, ?_⟩
  unfold deserializeDate
  simp only [and_mask, Nat.shiftRight_eq_div_pow]
  have e1 : ((d.year - 1980) * 512 + d.month * 32 + d.day) / 2 ^ 9 % 2 ^ 7 + 1980 = d.year := by omega
  have e2 : ((d.year - 1980) * 512 + d.month * 32 + d.day) / 2 ^ 5 % 2 ^ 4 = d.month := by omega
  have e3 : ((d.year - 1980) * 512 + d.month * 32 + d.day) % 2 ^ 5 = d.day := by omega
  rw [e1, e2, e3, if_pos hv]

/-- **C71**, times: every time comes back with its seconds rounded down to an even number. -/
theorem C71_time (t : Time) (hv : t.valid = true) :
    serializeTime t < 2 ^ 16 ∧ deserializeTime (serializeTime t) = { t with second := t.second / 2 * 2 } := by
  have hv' := hv
  simp only [Time.valid, Bool.and_eq_true, decide_eq_true_eq] at hv'
  rw [time_number t (by omega) (by omega)]
  refine ⟨by omega, ?_⟩
  unfold deserializeTime
  simp only [and_mask, Nat.shiftRight_eq_div_pow]
  have e1 : (t.hour * 2048 + t.minute * 32 + t.second / 2) / 2 ^ 11 % 2 ^ 5 = t.hour := by omega
  have e2 : (t.hour * 2048 + t.minute * 32 + t.second / 2) / 2 ^ 5 % 2 ^ 6 = t.minute := by omega
  have e3 : (t.hour * 2048 + t.minute * 32 + t.second / 2) % 2 ^ 5 * 2 = t.second / 2 * 2 := by omega
  rw [e1, e2, e3, if_pos]
  simp only [Time.valid, Bool.and_eq_true, decide_eq_true_eq]
  omega

/-- **C71**: with even seconds nothing is lost. -/
theorem C71_even (t : Time) (hv : t.valid = true) (h : t.second % 2 = 0) : deserializeTime (serializeTime t) = t := by
  rw [(C71_time t hv).2]
  have : t.second / 2 * 2 = t.second := by omega
  rw [this]

/-- **C71**: every pattern gives a valid date and a valid time; those that are a date are decoded by their fields. -/
theorem C71_total (n : Nat) : (deserializeDate n).valid = true ∧ (deserializeTime n).valid = true ∧
    1980 ≤ (deserializeDate n).year ∧ (deserializeDate n).year ≤ 2107 := by
  have hy : (n >>> 9 &&& 1 <<< 7 - 1) < 128 := by
    rw [and_mask]; exact Nat.mod_lt _ (by decide)
  refine ⟨?_, ?_, ?_, ?_⟩
  · unfold deserializeDate
    simp only
    split
    · next h => exact h
    · decide
  · unfold deserializeTime
    simp only
    split
    · next h => exact h
    · decide
  · unfold deserializeDate
    simp only
    split
    · simp only; omega
    · decide
  · unfold deserializeDate
    simp only
    split
    · simp only; omega
    · decide

/-- Later dates have larger numbers. -/
theorem C71_order (a b : Date) (ha : a.valid = true) (hb : b.valid = true) (ha1 : 1980 ≤ a.year) (hb1 : 1980 ≤ b.year)
    (h : a.year < b.year ∨ (a.year = b.year ∧ (a.month < b.month ∨ (a.month = b.month ∧ a.day < b.day)))) :
    serializeDate a < serializeDate b := by
  simp only [Date.valid, Bool.and_eq_true, decide_eq_true_eq] at ha hb
  have := daysIn_le a.year a.month
  have := daysIn_le b.year b.month
  rw [date_number a (by omega) (by omega), date_number b (by omega) (by omega)]
  omega

example : (Date.mk 2024 2 29).valid = true ∧ serializeDate ⟨2024, 2, 29⟩ = 22621 ∧ deserializeDate 22621 = ⟨2024, 2, 29⟩ := by decide

example : (Date.mk 2023 2 29).valid = false ∧ deserializeDate 0 = ⟨1980, 1, 1⟩ ∧ deserializeTime 0xFFFF = ⟨0, 0, 0⟩ := by decide

example : serializeTime ⟨23, 59, 58⟩ = 49021 ∧ deserializeTime 49021 = ⟨23, 59, 58⟩ := by decide

/-- **C71**: the dates that are accepted are those of the calendar: it repeats after 400 years, which have 146097 days. -/
theorem C71_calendar : (∀ y m, daysIn (y + 400) m = daysIn y m) ∧
    ((List.range 400).map (fun y => ((List.range 12).map (fun m => daysIn y (m + 1))).sum)).sum = 146097 ∧
    (⟨2100, 2, 29⟩ : Date).valid = false ∧ (⟨2000, 2, 29⟩ : Date).valid = true := by
  refine ⟨?_, by decide +kernel, by decide, by decide⟩
  intro y m
  have h : leap (y + 400) = leap y := by
    unfold leap
    rw [show (y + 400) % 4 = y % 4 by omega, show (y + 400) % 100 = y % 100 by omega, show (y + 400) % 400 = y % 400 by omega]
  unfold daysIn
  rw [h]

end Verif.FatDates
