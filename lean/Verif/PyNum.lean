import Verif.PyStr

/-!
# Decimal numbers as strings

`str(n)` and the check that a string is `str` of a number.
-/

namespace Verif.Py

/-- A decimal digit as a character. -/
def digitChar (d : Nat) : Char := Char.ofNat (48 + d)

/-- `str(n)` of a natural number. -/
def natStr (n : Nat) : Str :=
  if _h : n < 10 then [digitChar n] else natStr (n / 10) ++ [digitChar (n % 10)]
termination_by n
decreasing_by omega

/-- `str(i)` of an integer. -/
def intStr : Int → Str
  | .ofNat n => natStr n
  | .negSucc n => '-' :: natStr (n + 1)

/-- `int(s)` of a string of decimal digits; `none` for other strings. -/
def parseNat (s : Str) : Option Nat :=
  if s ≠ [] ∧ s.all (fun c => 48 ≤ c.toNat && c.toNat ≤ 57) then some (s.foldl (fun a c => a * 10 + (c.toNat - 48)) 0)
  else none

/-- `i = int(s); assert str(i) == s`: the number a string is the decimal representation of. Other forms that `int`
accepts (spaces, underscores, leading zeros, a plus sign, other digits) fail the assertion. -/
def canonInt : Str → Option Int
  | '-' :: ds =>
    match parseNat ds with
    | some n => if natStr n = ds ∧ n ≠ 0 then some (-(n : Int)) else none
    | none => none
  | ds =>
    match parseNat ds with
    | some n => if natStr n = ds then some n else none
    | none => none

theorem digitChar_toNat (d : Nat) (h : d < 10) : (digitChar d).toNat = 48 + d := by
  unfold digitChar
  match d, h with
  | 0, _ => rfl
  | 1, _ => rfl
  | 2, _ => rfl
  | 3, _ => rfl
  | 4, _ => rfl
  | 5, _ => rfl
  | 6, _ => rfl
  | 7, _ => rfl
  | 8, _ => rfl
  | 9, _ => rfl

theorem natStr_ne_nil (n : Nat) : natStr n ≠ [] := by
  unfold natStr
  split <;> simp

theorem natStr_digits (n : Nat) : ∀ c ∈ natStr n, 48 ≤ c.toNat ∧ c.toNat ≤ 57 := by
  induction n using Nat.strongRecOn with
  | _ n ih =>
    intro c hc
    rw [natStr] at hc
    split at hc
    · next h =>
      rw [List.mem_singleton.mp hc, digitChar_toNat n h]
      omega
    · next h =>
      rcases List.mem_append.mp hc with hc | hc
      · exact ih (n / 10) (by omega) c hc
      · rw [List.mem_singleton.mp hc, digitChar_toNat _ (by omega)]
        omega

theorem natStr_value (n : Nat) : (natStr n).foldl (fun a c => a * 10 + (c.toNat - 48)) 0 = n := by
  induction n using Nat.strongRecOn with
  | _ n ih =>
    rw [natStr]
    split
    · next h =>
      simp only [List.foldl_cons, List.foldl_nil]
      rw [digitChar_toNat n h]
      omega
    · next h =>
      rw [List.foldl_append, ih (n / 10) (by omega)]
      simp only [List.foldl_cons, List.foldl_nil]
      rw [digitChar_toNat _ (by omega)]
      omega

theorem parseNat_natStr (n : Nat) : parseNat (natStr n) = some n := by
  unfold parseNat
  rw [if_pos, natStr_value]
  refine ⟨natStr_ne_nil n, ?_⟩
  rw [List.all_eq_true]
  intro c hc
  have := natStr_digits n c hc
  simp [this]

theorem natStr_inj {a b : Nat} (h : natStr a = natStr b) : a = b := by
  have := parseNat_natStr a
  rw [h, parseNat_natStr] at this
  exact (Option.some.inj this).symm

theorem natStr_no_minus (n : Nat) (ds : Str) : natStr n ≠ '-' :: ds := by
  intro h
  have := natStr_digits n '-' (by rw [h]; simp)
  have e : '-'.toNat = 45 := rfl
  omega

theorem natStr_no_slash (n : Nat) : '/' ∉ natStr n := by
  intro h
  have := natStr_digits n '/' h
  have e : '/'.toNat = 47 := rfl
  omega

theorem intStr_no_slash (i : Int) : '/' ∉ intStr i := by
  cases i with
  | ofNat n => exact natStr_no_slash n
  | negSucc n =>
    intro h
    simp only [intStr, List.mem_cons] at h
    rcases h with h | h
    · exact absurd h (by decide)
    · exact natStr_no_slash _ h

theorem intStr_ne_nil (i : Int) : intStr i ≠ [] := by
  cases i with
  | ofNat n => exact natStr_ne_nil n
  | negSucc n => simp [intStr]

theorem canonInt_of_ne (ds : Str) (h : ∀ t, ds ≠ '-' :: t) :
    canonInt ds = match parseNat ds with
      | some n => if natStr n = ds then some (n : Int) else none
      | none => none := by
  unfold canonInt
  split
  · next t => exact absurd rfl (h t)
  · rfl

/-- Exactly the decimal representations are accepted. -/
theorem canonInt_iff (s : Str) (i : Int) : canonInt s = some i ↔ s = intStr i := by
  constructor
  · intro h
    unfold canonInt at h
    split at h
    · next ds =>
      split at h
      · next n hp =>
        split at h
        · next hn =>
          simp only [Option.some.injEq] at h
          obtain ⟨k, rfl⟩ : ∃ k, n = k + 1 := ⟨n - 1, by omega⟩
          rw [← h, ← hn.1]
          rfl
        · cases h
      · cases h
    · split at h
      · next n hp =>
        split at h
        · next hn =>
          simp only [Option.some.injEq] at h
          rw [← h, ← hn]
          rfl
        · cases h
      · cases h
  · rintro rfl
    cases i with
    | ofNat n =>
      show canonInt (natStr n) = _
      rw [canonInt_of_ne _ (natStr_no_minus n), parseNat_natStr]
      simp
    | negSucc n =>
      show canonInt ('-' :: natStr (n + 1)) = _
      simp only [canonInt, parseNat_natStr]
      rw [if_pos (by simp)]
      rfl

end Verif.Py
