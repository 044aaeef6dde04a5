import Verif.Py

/-!
# C12: `format_number` (core/ratarmountcore/utils.py:200-209)

Strings are lists of characters; the function only indexes the alphabet, so the type of characters is
arbitrary. Called with natural numbers only.
-/

namespace Verif.Names

open Verif.Py

variable {α : Type}

/-- The loop (utils.py:204-208); digits come out least significant first. `first` is `not result`. -/
def formatLoop (base : List α) (hb : 2 ≤ base.length) (i length : Nat) (first : Bool) : List α :=
  if h : i > 0 ∨ length > 0 ∨ first = true then
    base[i % base.length]'(Nat.mod_lt _ (by omega)) ::
      formatLoop base hb (i / base.length) (length - 1) false
  else []
termination_by i + length + (if first then 1 else 0)
decreasing_by
  have hdiv : i > 0 → i / base.length < i := fun hi => Nat.div_lt_self hi (by omega)
  have hle : i / base.length ≤ i := Nat.div_le_self _ _
  simp only [if_false]
  rcases h with h | h | h
  · have := hdiv h; omega
  · omega
  · rw [if_pos h]; omega

/-- `format_number(i, base, length)` (utils.py:200-210). -/
def formatNumber (i : Nat) (base : List α) (length : Nat) : Except PyErr (List α) :=
  if hb : base.length ≤ 1 then .error .valueError                    -- 201-202
  else .ok (formatLoop base (by omega) i length true).reverse        -- 209

/-! ## specification: positional notation -/

/-- The number a digit string stands for. -/
def parse [DecidableEq α] (base : List α) (s : List α) : Nat :=
  s.foldl (fun acc d => acc * base.length + base.idxOf d) 0

/-- Lexicographic order of strings of equal length by the position of their symbols in the alphabet. -/
def before [DecidableEq α] (base : List α) : List α → List α → Prop
  | a :: s, b :: t => base.idxOf a < base.idxOf b ∨ (a = b ∧ before base s t)
  | _, _ => False

/-! ## proofs -/

/-- Value of digits given least significant first. -/
def parseLE [DecidableEq α] (base : List α) : List α → Nat
  | [] => 0
  | d :: ds => base.idxOf d + base.length * parseLE base ds

theorem parse_reverse [DecidableEq α] (base : List α) (ds : List α) : parse base ds.reverse = parseLE base ds := by
  unfold parse
  induction ds with
  | nil => rfl
  | cons d ds ih =>
    rw [List.reverse_cons, List.foldl_append, ih]
    simp only [List.foldl_cons, List.foldl_nil, parseLE]
    rw [Nat.mul_comm, Nat.add_comm]

theorem parse_cons_aux [DecidableEq α] (base : List α) (s : List α) : ∀ acc : Nat,
    s.foldl (fun acc d => acc * base.length + base.idxOf d) acc
      = acc * base.length ^ s.length + s.foldl (fun acc d => acc * base.length + base.idxOf d) 0 := by
  induction s with
  | nil => intro acc; simp
  | cons d s ih =>
    intro acc
    simp only [List.foldl_cons, List.length_cons, Nat.zero_mul, Nat.zero_add]
    rw [ih (acc * base.length + base.idxOf d), ih (base.idxOf d), Nat.add_mul, Nat.pow_succ, Nat.mul_assoc,
      Nat.mul_comm base.length, Nat.add_assoc]

theorem parse_cons [DecidableEq α] (base : List α) (d : α) (s : List α) :
    parse base (d :: s) = base.idxOf d * base.length ^ s.length + parse base s := by
  unfold parse
  rw [List.foldl_cons, Nat.zero_mul, Nat.zero_add]
  exact parse_cons_aux base s _

theorem parse_lt [DecidableEq α] (base : List α) (s : List α) (h : ∀ d ∈ s, d ∈ base) :
    parse base s < base.length ^ s.length := by
  induction s with
  | nil => simp [parse]
  | cons d s ih =>
    rw [parse_cons, List.length_cons, Nat.pow_succ]
    have h1 := ih (fun x hx => h x (List.mem_cons_of_mem _ hx))
    have h2 : base.idxOf d < base.length := List.idxOf_lt_length_iff.mpr (h d (by simp))
    calc base.idxOf d * base.length ^ s.length + parse base s
        < base.idxOf d * base.length ^ s.length + base.length ^ s.length := by omega
      _ = (base.idxOf d + 1) * base.length ^ s.length := by rw [Nat.add_mul, Nat.one_mul]
      _ ≤ base.length * base.length ^ s.length := Nat.mul_le_mul_right _ h2
      _ = base.length ^ s.length * base.length := Nat.mul_comm _ _

theorem formatLoop_spec [DecidableEq α] (base : List α) (hb : 2 ≤ base.length) (hn : base.Nodup) :
    ∀ (m i length : Nat) (first : Bool), i + length + (if first then 1 else 0) = m →
      parseLE base (formatLoop base hb i length first) = i ∧
      length ≤ (formatLoop base hb i length first).length ∧
      (first = true → 1 ≤ (formatLoop base hb i length first).length) ∧
      (∀ d ∈ formatLoop base hb i length first, d ∈ base) ∧
      (length + (if first ∧ length = 0 then 1 else 0) < (formatLoop base hb i length first).length →
        ∃ d, (formatLoop base hb i length first).getLast? = some d ∧ 0 < base.idxOf d) := by
  intro m
  induction m using Nat.strongRecOn with
  | _ m ih =>
    intro i length first hm
    unfold formatLoop
    by_cases h : i > 0 ∨ length > 0 ∨ first = true
    · rw [dif_pos h]
      have hdiv : i > 0 → i / base.length < i := fun hi => Nat.div_lt_self hi (by omega)
      have hle : i / base.length ≤ i := Nat.div_le_self _ _
      have hlt : i / base.length + (length - 1) + (if (false : Bool) = true then 1 else 0) < m := by
        simp only [Bool.false_eq_true, if_false]
        rcases h with h | h | h
        · have := hdiv h; split at hm <;> omega
        · split at hm <;> omega
        · rw [if_pos h] at hm; omega
      obtain ⟨h1, h2, h3, h4, h5⟩ := ih _ hlt (i / base.length) (length - 1) false rfl
      have hidx : base.idxOf (base[i % base.length]'(Nat.mod_lt _ (by omega))) = i % base.length :=
        hn.idxOf_getElem _ _
      refine ⟨?_, ?_, ?_, ?_, ?_⟩
      · simp only [parseLE, h1, hidx]
        exact Nat.mod_add_div i base.length
      · simp only [List.length_cons]; omega
      · intro; simp
      · intro d hd
        rcases List.mem_cons.mp hd with rfl | hd
        · exact List.getElem_mem _
        · exact h4 d hd
      · intro hlen
        simp only [List.length_cons] at hlen
        by_cases hlen0 : formatLoop base hb (i / base.length) (length - 1) false = []
        · rw [hlen0] at hlen ⊢
          simp only [List.length_nil, Nat.zero_add] at hlen
          have hl0 : length = 0 := by omega
          subst hl0
          have hf : first = false := by
            cases first
            · rfl
            · simp at hlen
          subst hf
          simp only [gt_iff_lt, Nat.lt_irrefl, Bool.false_eq_true, or_false] at h
          rw [hlen0] at h1
          simp only [parseLE] at h1
          refine ⟨base[i % base.length]'(Nat.mod_lt _ (by omega)), rfl, ?_⟩
          rw [hidx]
          have := Nat.mod_add_div i base.length
          rw [← h1] at this; omega
        · have hne := List.length_pos_iff.mpr hlen0
          obtain ⟨d, hd, hpos⟩ := h5 (by
            simp only [Bool.false_eq_true, false_and, if_false, Nat.add_zero]
            by_cases hl : length = 0
            · subst hl; simpa using hne
            · simp only [hl, and_false, if_false, Nat.add_zero] at hlen; omega)
          refine ⟨d, ?_, hpos⟩
          rw [List.getLast?_cons, hd]; rfl
    · rw [dif_neg h]
      simp only [not_or, gt_iff_lt, Nat.not_lt, Nat.le_zero, Bool.not_eq_true] at h
      obtain ⟨rfl, rfl, rfl⟩ := h
      simp [parseLE]

/-! ## C12 -/

/-- **C12.** For every alphabet of at least two distinct symbols the formatted number is its positional
notation: it uses only symbols of the alphabet, reads back as the number, has at least the minimum length and at
least one symbol, and is longer than that only without a leading zero symbol. -/
theorem C12_positional [DecidableEq α] (base : List α) (hb : 2 ≤ base.length) (hn : base.Nodup) (i length : Nat) :
    ∃ s, formatNumber i base length = .ok s ∧ (∀ d ∈ s, d ∈ base) ∧ parse base s = i ∧
      max length 1 ≤ s.length ∧
      (max length 1 < s.length → ∃ d t, s = d :: t ∧ 0 < base.idxOf d) := by
  unfold formatNumber
  rw [dif_neg (by omega)]
  obtain ⟨h1, h2, h3, h4, h5⟩ := formatLoop_spec base hb hn _ i length true rfl
  generalize formatLoop base hb i length true = l at *
  refine ⟨l.reverse, rfl, ?_, ?_, ?_, ?_⟩
  · intro d hd; exact h4 d (List.mem_reverse.mp hd)
  · rw [parse_reverse, h1]
  · rw [List.length_reverse]; have := h3 rfl; omega
  · intro hlen
    rw [List.length_reverse] at hlen
    obtain ⟨d, hd, hpos⟩ := h5 (by
      simp only [true_and]
      split <;> omega)
    rw [List.getLast?_eq_some_iff] at hd
    obtain ⟨ys, rfl⟩ := hd
    exact ⟨d, ys.reverse, by simp, hpos⟩

/-- **C12**: different numbers have different strings, even with different minimum lengths. -/
theorem C12_injective [DecidableEq α] (base : List α) (hb : 2 ≤ base.length) (hn : base.Nodup)
    (i j length length' : Nat) (h : formatNumber i base length = formatNumber j base length') : i = j := by
  obtain ⟨s, hs, -, hp, -⟩ := C12_positional base hb hn i length
  obtain ⟨t, ht, -, hq, -⟩ := C12_positional base hb hn j length'
  rw [hs, ht] at h
  cases h
  rw [← hp, ← hq]

theorem before_iff [DecidableEq α] (base : List α) : ∀ (s t : List α), s.length = t.length →
    (∀ d ∈ s, d ∈ base) → (∀ d ∈ t, d ∈ base) → (before base s t ↔ parse base s < parse base t) := by
  intro s
  induction s with
  | nil => intro t hl _ _; cases t <;> simp [before, parse] at *
  | cons a s ih =>
    intro t hl hs ht
    cases t with
    | nil => simp at hl
    | cons b t =>
      simp only [List.length_cons, Nat.add_right_cancel_iff] at hl
      have hs' := fun x hx => hs x (List.mem_cons_of_mem a hx)
      have ht' := fun x hx => ht x (List.mem_cons_of_mem b hx)
      have i1 := ih t hl hs' ht'
      have l1 := parse_lt base s hs'
      have l2 := parse_lt base t ht'
      rw [parse_cons, parse_cons, ← hl]
      rw [← hl] at l2
      simp only [before, i1]
      have hstep : ∀ x y : Nat, x < y → x * base.length ^ s.length + base.length ^ s.length ≤ y * base.length ^ s.length := by
        intro x y hxy
        have : (x + 1) * base.length ^ s.length ≤ y * base.length ^ s.length := Nat.mul_le_mul_right _ hxy
        rwa [Nat.add_mul, Nat.one_mul] at this
      constructor
      · rintro (h | ⟨rfl, h⟩)
        · have := hstep _ _ h; omega
        · omega
      · intro h
        rcases Nat.lt_trichotomy (base.idxOf a) (base.idxOf b) with h1 | h1 | h1
        · exact .inl h1
        · right
          have hab : a = b := by
            have ha := List.idxOf_lt_length_iff.mpr (hs a (by simp))
            have hbb := List.idxOf_lt_length_iff.mpr (ht b (by simp))
            have e1 := List.getElem_idxOf ha
            have e2 := List.getElem_idxOf hbb
            rw [← e1, ← e2]
            simp only [h1]
          subst hab
          exact ⟨rfl, by omega⟩
        · have := hstep _ _ h1; omega

/-- **C12**: among strings of equal length, the alphabetical order is the numeric order. -/
theorem C12_order [DecidableEq α] (base : List α) (hb : 2 ≤ base.length) (hn : base.Nodup) (i j length : Nat)
    (s t : List α) (hs : formatNumber i base length = .ok s) (ht : formatNumber j base length = .ok t)
    (hl : s.length = t.length) : before base s t ↔ i < j := by
  obtain ⟨s', hs', hm, hp, -⟩ := C12_positional base hb hn i length
  obtain ⟨t', ht', hm', hq, -⟩ := C12_positional base hb hn j length
  rw [hs] at hs'; cases hs'
  rw [ht] at ht'; cases ht'
  rw [before_iff base s t hl hm hm', hp, hq]

/-- Alphabets of fewer than two symbols are refused. -/
theorem C12_small_alphabet (base : List α) (hb : base.length ≤ 1) (i length : Nat) :
    formatNumber i base length = .error .valueError := by
  unfold formatNumber; rw [dif_pos hb]

example : 2 ≤ "0123456789".toList.length ∧ "0123456789".toList.Nodup := by decide

example : formatNumber 42 "0123456789".toList 4 = .ok "0042".toList ∧
    formatNumber 100 "0123456789".toList 2 = .ok "100".toList := by decide +kernel

end Verif.Names
