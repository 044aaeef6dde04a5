import Mathlib.Analysis.SpecialFunctions.Log.Base
import Mathlib.Algebra.BigOperators.Group.Finset.Basic
import Mathlib.Tactic.Linarith
import Mathlib.Tactic.FieldSimp
import Mathlib.Tactic.NormNum

/-!
# C186: which data is taken for encrypted (core/ratarmountcore/utils.py:341-401)

An encrypted SQLAR has no magic bytes. It is accepted on the command line if its first bytes look random (CLIHelpers.py:108, see
Verif.Cli.InputFile). The test computes the entropy of the bytes and of the differences of neighbouring bytes.

Simplification: floating point numbers are modelled by real numbers, i.e., rounding is not modelled.
-/

namespace Verif.Random

/-! ## Model -/

/-- `byteFrequency / len(data)` (utils.py:376). -/
noncomputable def share (data : List UInt8) (b : UInt8) : ℝ := (data.count b : ℝ) / (data.length : ℝ)

/-- `compute_entropy` (utils.py:341-377). `Counter(data)` has one entry for every byte that occurs. -/
noncomputable def entropy (data : List UInt8) : ℝ :=
  if data = [] then 0 else -∑ b ∈ data.toFinset, share data b * Real.logb 2 (share data b)

/-- `m = 40` (utils.py:392). -/
def m : ℕ := 40

/-- `convergence_rate` (utils.py:394-395). -/
noncomputable def convergenceRate (n : ℕ) : ℝ := 8 * (1 + (m : ℝ)) / ((n : ℝ) + (m : ℝ))

/-- `is_in_threshold` (utils.py:397-398). -/
def InThreshold (data : List UInt8) : Prop := 8 - entropy data < convergenceRate data.length

/-- `(data[i + 1] - data[i] + 256) % 256` (utils.py:400). -/
def difference (a b : UInt8) : UInt8 := UInt8.ofNat ((b.toNat + 256 - a.toNat) % 256)

/-- `diffData` (utils.py:400). -/
def differences : List UInt8 → List UInt8
  | [] => []
  | [_] => []
  | a :: b :: rest => difference a b :: differences (b :: rest)

/-- `is_random` (utils.py:380-401). -/
def IsRandom (data : List UInt8) : Prop := 1 < data.length ∧ InThreshold data ∧ InThreshold (differences data)

/-! ## Lemmas -/

theorem share_sum (data : List UInt8) (h : data ≠ []) : ∑ b ∈ data.toFinset, share data b = 1 := by
  have hl : (data.length : ℝ) ≠ 0 := by
    have := List.length_pos_iff.mpr h
    positivity
  unfold share
  rw [← Finset.sum_div, ← Nat.cast_sum, List.sum_toFinset_count_eq_length, div_self hl]

theorem share_pos (data : List UInt8) (b : UInt8) (h : b ∈ data) : 0 < share data b := by
  unfold share
  have h1 : 0 < data.count b := List.count_pos_iff.2 h
  have h2 : 0 < data.length := List.length_pos_of_mem h
  positivity

/-- The entropy is at most the logarithm of the number of different bytes. -/
theorem entropy_le (data : List UInt8) (h : data ≠ []) : entropy data ≤ Real.logb 2 (data.toFinset.card : ℝ) := by
  have hne : data.toFinset.Nonempty := by
    rw [List.toFinset_nonempty_iff]; exact h
  have hk : (0 : ℝ) < (data.toFinset.card : ℝ) := by
    have := Finset.card_pos.2 hne
    exact_mod_cast this
  unfold entropy
  rw [if_neg h]
  have h2 : (0 : ℝ) < Real.log 2 := Real.log_pos (by norm_num)
  have key : ∀ b ∈ data.toFinset, -(share data b * Real.logb 2 (share data b)) ≤
      share data b * Real.logb 2 (data.toFinset.card : ℝ) + (1 / (data.toFinset.card : ℝ) - share data b) / Real.log 2 := by
    intro b hb
    have hp := share_pos data b (List.mem_toFinset.1 hb)
    have hpk : 0 < 1 / (share data b * (data.toFinset.card : ℝ)) := by positivity
    have hlog := Real.log_le_sub_one_of_pos hpk
    rw [one_div, Real.log_inv, Real.log_mul hp.ne' hk.ne'] at hlog
    have hmul := mul_le_mul_of_nonneg_left hlog hp.le
    have e1 : share data b * ((share data b * (data.toFinset.card : ℝ))⁻¹ - 1) = 1 / (data.toFinset.card : ℝ) - share data b := by
      field_simp
    rw [e1] at hmul
    unfold Real.logb
    have e2 : share data b * (Real.log (data.toFinset.card : ℝ) / Real.log 2) + (1 / (data.toFinset.card : ℝ) - share data b) / Real.log 2
        - -(share data b * (Real.log (share data b) / Real.log 2)) =
        ((1 / (data.toFinset.card : ℝ) - share data b) -
          share data b * (-(Real.log (share data b) + Real.log (data.toFinset.card : ℝ)))) / Real.log 2 := by
      field_simp
      ring
    have e3 : 0 ≤ ((1 / (data.toFinset.card : ℝ) - share data b) -
          share data b * (-(Real.log (share data b) + Real.log (data.toFinset.card : ℝ)))) / Real.log 2 :=
      div_nonneg (by linarith) h2.le
    linarith
  have hsum := Finset.sum_le_sum key
  rw [Finset.sum_neg_distrib, Finset.sum_add_distrib, ← Finset.sum_mul, share_sum data h, ← Finset.sum_div, Finset.sum_sub_distrib,
    share_sum data h, Finset.sum_const, nsmul_eq_mul, mul_one_div, div_self hk.ne', sub_self, zero_div, add_zero, one_mul] at hsum
  exact hsum

/-- If no byte has a larger share than `q`, then the entropy is at least `-log2 q`. -/
theorem entropy_ge (data : List UInt8) (h : data ≠ []) (q : ℝ) (hq : ∀ b ∈ data, share data b ≤ q) : -Real.logb 2 q ≤ entropy data := by
  unfold entropy
  rw [if_neg h]
  have key : ∀ b ∈ data.toFinset, share data b * Real.logb 2 (share data b) ≤ share data b * Real.logb 2 q := by
    intro b hb
    have hp := share_pos data b (List.mem_toFinset.1 hb)
    refine mul_le_mul_of_nonneg_left ?_ hp.le
    exact (Real.logb_le_logb (by norm_num) hp (lt_of_lt_of_le hp (hq b (List.mem_toFinset.1 hb)))).2 (hq b (List.mem_toFinset.1 hb))
  have hsum := Finset.sum_le_sum key
  rw [← Finset.sum_mul, share_sum data h, one_mul] at hsum
  linarith

/-- The entropy of bytes is between 0 and 8 bits. -/
theorem C186_range (data : List UInt8) : 0 ≤ entropy data ∧ entropy data ≤ 8 := by
  rcases Classical.em (data = []) with h | h
  · unfold entropy
    rw [if_pos h]
    exact ⟨le_refl _, by norm_num⟩
  · constructor
    · have := entropy_ge data h 1 (fun b hb => by
        unfold share
        have h1 : data.count b ≤ data.length := List.count_le_length
        have h2 : 0 < data.length := List.length_pos_of_mem hb
        rw [div_le_one (by exact_mod_cast h2)]
        exact_mod_cast h1)
      rw [Real.logb_one, neg_zero] at this
      exact this
    · refine (entropy_le data h).trans ?_
      have hne : data.toFinset.Nonempty := by
        rw [List.toFinset_nonempty_iff]; exact h
      have hpos : (0 : ℝ) < (data.toFinset.card : ℝ) := by exact_mod_cast Finset.card_pos.2 hne
      have hcard : data.toFinset.card ≤ 256 := by
        have hinj : Set.InjOn UInt8.toNat (data.toFinset : Set UInt8) := fun a _ b _ e => UInt8.toNat_inj.1 e
        have := Finset.card_le_card_of_injOn (s := data.toFinset) (t := Finset.range 256) UInt8.toNat
          (fun b _ => by simpa using UInt8.toNat_lt b) hinj
        simpa using this
      rw [Real.logb_le_iff_le_rpow (by norm_num) hpos]
      have e : (2 : ℝ) ^ (8 : ℝ) = 256 := by
        rw [show (8 : ℝ) = ((8 : ℕ) : ℝ) by norm_num, Real.rpow_natCast]; norm_num
      rw [e]
      exact_mod_cast hcard

/-- `differences` of at least two bytes has one element less. -/
theorem length_differences : ∀ data : List UInt8, (differences data).length = data.length - 1
  | [] => rfl
  | [_] => rfl
  | a :: b :: rest => by
    rw [differences, List.length_cons, length_differences (b :: rest)]
    simp

/-! ## C186 -/

/-- **C186**, few different bytes: data with at most `k` different bytes is not taken for random if it is long enough for `k`. -/
theorem C186_few (data : List UInt8) (k : ℕ) (hcard : data.toFinset.card ≤ k)
    (hlong : Real.logb 2 (k : ℝ) + convergenceRate data.length ≤ 8) : ¬ IsRandom data := by
  rintro ⟨hlen, hin, -⟩
  have hne : data ≠ [] := fun e => by rw [e] at hlen; simp at hlen
  have hnonempty : data.toFinset.Nonempty := by
    rw [List.toFinset_nonempty_iff]; exact hne
  have hpos : (0 : ℝ) < (data.toFinset.card : ℝ) := by exact_mod_cast Finset.card_pos.2 hnonempty
  have h1 := entropy_le data hne
  have h2 : Real.logb 2 (data.toFinset.card : ℝ) ≤ Real.logb 2 (k : ℝ) := by
    refine (Real.logb_le_logb (by norm_num) hpos (lt_of_lt_of_le hpos ?_)).2 ?_ <;> exact_mod_cast hcard
  unfold InThreshold at hin
  linarith

/-- **C186**, text: ASCII text of at least 288 bytes is never taken for encrypted data. -/
theorem C186_text (data : List UInt8) (hlen : 288 ≤ data.length) (htext : ∀ b ∈ data, b.toNat < 128) : ¬ IsRandom data := by
  refine C186_few data 128 ?_ ?_
  · have hinj : Set.InjOn UInt8.toNat (data.toFinset : Set UInt8) := fun a _ b _ e => UInt8.toNat_inj.1 e
    have := Finset.card_le_card_of_injOn (s := data.toFinset) (t := Finset.range 128) UInt8.toNat
      (fun b hb => by simpa using htext b (by simpa using hb)) hinj
    simpa using this
  · have e : Real.logb 2 ((128 : ℕ) : ℝ) = 7 := by
      rw [show ((128 : ℕ) : ℝ) = (2 : ℝ) ^ (7 : ℕ) by norm_num, Real.logb_pow, Real.logb_self_eq_one (by norm_num)]
      norm_num
    rw [e]
    have hl : (288 : ℝ) ≤ (data.length : ℝ) := by exact_mod_cast hlen
    have : convergenceRate data.length ≤ 1 := by
      unfold convergenceRate m
      rw [div_le_one (by push_cast; linarith)]
      push_cast
      linarith
    linarith

/-- Bytes with constant steps: `start, start + step, start + 2 * step, …` modulo 256. -/
def progression (start step : ℕ) : ℕ → List UInt8
  | 0 => []
  | n + 1 => UInt8.ofNat start :: progression (start + step) step n

theorem differences_progression (step : ℕ) : ∀ (n start : ℕ), ∀ d ∈ differences (progression start step n), d = UInt8.ofNat step
  | 0, _, d, h => by cases h
  | 1, _, d, h => by cases h
  | n + 2, start, d, h => by
    replace h : d ∈ difference (UInt8.ofNat start) (UInt8.ofNat (start + step)) ::
        differences (progression (start + step) step (n + 1)) := h
    rcases List.mem_cons.1 h with h | h
    · rw [h]
      unfold difference
      apply UInt8.toNat_inj.1
      simp only [UInt8.toNat_ofNat']
      omega
    · exact differences_progression step (n + 1) (start + step) d h

/-- **C186**, regular data: bytes that grow by a constant step, e.g., constant data, are never taken for encrypted data, no matter how
many they are. -/
theorem C186_progression (start step n : ℕ) : ¬ IsRandom (progression start step n) := by
  rintro ⟨hlen, -, hin⟩
  have hl := length_differences (progression start step n)
  have hne : differences (progression start step n) ≠ [] := by
    intro e
    rw [e] at hl
    simp only [List.length_nil] at hl
    omega
  have hall := differences_progression step n start
  generalize differences (progression start step n) = diff at hl hne hall hin
  have hcard : diff.toFinset.card ≤ 1 := by
    rw [Finset.card_le_one]
    intro a ha b hb
    rw [hall a (List.mem_toFinset.1 ha), hall b (List.mem_toFinset.1 hb)]
  have hnonempty : diff.toFinset.Nonempty := by
    rw [List.toFinset_nonempty_iff]; exact hne
  have hpos : (0 : ℝ) < (diff.toFinset.card : ℝ) := by exact_mod_cast Finset.card_pos.2 hnonempty
  have h1 := entropy_le diff hne
  have h2 : Real.logb 2 (diff.toFinset.card : ℝ) ≤ 0 := Real.logb_nonpos (by norm_num) hpos.le (by exact_mod_cast hcard)
  have h3 : convergenceRate diff.length ≤ 8 := by
    unfold convergenceRate m
    have hd : (1 : ℝ) ≤ (diff.length : ℝ) := by exact_mod_cast List.length_pos_iff.mpr hne
    rw [div_le_iff₀ (by push_cast; linarith)]
    push_cast
    linarith
  unfold InThreshold at hin
  linarith

/-- No byte occurs more often than `c` times, where `c` is small enough for the length. -/
def Spread (data : List UInt8) (c : ℕ) : Prop :=
  data ≠ [] ∧ (∀ b ∈ data, data.count b ≤ c) ∧ 8 - convergenceRate data.length < Real.logb 2 ((data.length : ℝ) / (c : ℝ))

theorem spread_in (data : List UInt8) (c : ℕ) (h : Spread data c) : InThreshold data := by
  obtain ⟨hne, hc, hlog⟩ := h
  have hlen : (0 : ℝ) < (data.length : ℝ) := by exact_mod_cast List.length_pos_iff.mpr hne
  have h1 := entropy_ge data hne ((c : ℝ) / (data.length : ℝ)) (fun b hb => by
    unfold share
    exact div_le_div_of_nonneg_right (by exact_mod_cast hc b hb) hlen.le)
  have e : Real.logb 2 ((data.length : ℝ) / (c : ℝ)) = -Real.logb 2 ((c : ℝ) / (data.length : ℝ)) := by
    rw [← Real.logb_inv, inv_div]
  unfold InThreshold
  rw [e] at hlog
  linarith

/-- **C186**, evenly spread data: if neither the bytes nor their differences prefer any value, then the data is taken for encrypted. -/
theorem C186_spread (data : List UInt8) (c d : ℕ) (hc : Spread data c) (hd : Spread (differences data) d) : IsRandom data := by
  refine ⟨?_, spread_in data c hc, spread_in _ d hd⟩
  have h1 := List.length_pos_iff.mpr hd.1
  rw [length_differences] at h1
  omega

/-- The order of the bytes does not matter for the entropy, that is why the differences are tested, too. -/
theorem C186_order (a b : List UInt8) (h : a.Perm b) : entropy a = entropy b := by
  rcases Classical.em (a = []) with ha | ha
  · subst ha
    rw [List.nil_perm.1 h]
  · have hb : b ≠ [] := fun e => by
      subst e
      exact ha (List.perm_nil.1 h)
    unfold entropy
    rw [if_neg ha, if_neg hb]
    have e : a.toFinset = b.toFinset := List.toFinset_eq_of_perm _ _ h
    rw [e]
    refine congrArg Neg.neg (Finset.sum_congr rfl (fun x _ => ?_))
    unfold share
    rw [h.count_eq x, h.length_eq]

/-! ## Examples -/

/-- Three bytes can be enough: all bytes and all differences are different. -/
theorem C186_three : IsRandom [0, 1, 3] := by
  refine C186_spread [0, 1, 3] 1 1 ⟨by decide, by decide, ?_⟩ ⟨by decide, by decide, ?_⟩
  · have e : convergenceRate ([0, 1, 3] : List UInt8).length = 328 / 43 := by
      unfold convergenceRate m; norm_num
    rw [e]
    refine lt_of_lt_of_le (b := 1) (by norm_num) ?_
    rw [Real.le_logb_iff_rpow_le (by norm_num) (by norm_num)]
    norm_num
  · have e : convergenceRate (differences [0, 1, 3]).length = 328 / 42 := by
      unfold convergenceRate m; norm_num [differences]
    rw [e]
    refine lt_of_lt_of_le (b := 1) (by norm_num) ?_
    rw [Real.le_logb_iff_rpow_le (by norm_num) (by norm_num [differences])]
    norm_num [differences]

/-- Text: the hypotheses of `C186_text` can be met. -/
example : ¬ IsRandom (List.replicate 300 65) := by
  refine C186_text _ (by rw [List.length_replicate]; decide) (fun b hb => ?_)
  rw [List.eq_of_mem_replicate hb]
  decide

/-- All bytes in order, repeated: the entropy is 8 bits, but the differences are all the same. -/
example : progression 0 1 4 = [0, 1, 2, 3] := by decide

end Verif.Random
