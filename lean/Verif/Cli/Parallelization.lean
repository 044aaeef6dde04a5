import Verif.PyStr
import Verif.Py
import Verif.Dict

/-!
# The option for parallelization (C81)

`parse_parallelization` of ratarmount/CLIHelpers.py:152-171. Simplified: `str.isdigit` and `int` know the ASCII digits only (Python
accepts further Unicode digits); the number of usable cores is a parameter.
-/

namespace Verif.Parallelization

open Verif.Py (Str split join)

/-- The exceptions of the function (CLIHelpers.py:152-171). -/
inductive Error where
  /-- `ValueError` of `dict` for an element that does not have two parts. -/
  | value
  /-- `argparse.ArgumentTypeError` -/
  | argument
  deriving DecidableEq

/-- `str.isdigit` for ASCII (CLIHelpers.py:153). -/
def isDigits (s : Str) : Bool := !s.isEmpty && s.all Char.isDigit

/-- `int` of a string of digits (CLIHelpers.py:153-155). -/
def toInt (s : Str) : Nat := s.foldl (fun n c => n * 10 + (c.toNat - 48)) 0

/-- `kv.split(':')` must have two parts (CLIHelpers.py:154). -/
def pairOf (kv : Str) : Option (Str × Str) :=
  match split ':' kv with
  | [k, v] => some (k, v)
  | _ => none

/-- All pairs (CLIHelpers.py:154). -/
def pairsOf : List Str → Option (List (Str × Str))
  | [] => some []
  | kv :: kvs =>
    match pairOf kv with
    | none => none
    | some p => match pairsOf kvs with
      | none => none
      | some ps => some (p :: ps)

/-- `parallelizations` (CLIHelpers.py:153-155). -/
def strings (s : Str) : Except Error (Dict Str Str) :=
  if isDigits s then .ok [([], s)]
  else match pairsOf (split ',' s) with
    | none => .error .value
    | some ps => .ok (Dict.update [] ps)

/-- The number for one string (CLIHelpers.py:167). -/
def numberOf (cores : Nat) (v : Str) : Nat := if toInt v = 0 then cores else toInt v

/-- The loop (CLIHelpers.py:161-167). -/
def convert (cores : Nat) : Dict Str Str → Dict Str Nat → Except Error (Dict Str Nat)
  | [], d => .ok d
  | (k, v) :: rest, d => if isDigits v then convert cores rest (d.set k (numberOf cores v)) else .error .argument

/-- `parse_parallelization` (CLIHelpers.py:152-171). -/
def parse (cores : Nat) (s : Str) : Except Error (Dict Str Nat) :=
  match strings s with
  | .error e => .error e
  | .ok d =>
    match convert cores d [] with
    | .error e => .error e
    | .ok r => .ok (if r.has [] then r else r.set [] cores)

/-! ## specification -/

/-- The value of a numeral: each digit counts by its place. -/
def value : Str → Nat
  | [] => 0
  | c :: cs => (c.toNat - '0'.toNat) * 10 ^ cs.length + value cs

/-- A numeral: at least one character, only digits. -/
def Numeral (s : Str) : Prop := s ≠ [] ∧ ∀ c ∈ s, '0' ≤ c ∧ c ≤ '9'

/-- The number of threads meant by a numeral: zero means all cores. -/
def threads (cores : Nat) (v : Str) : Nat := if value v = 0 then cores else value v

/-- How a list of assignments is written. -/
def written (ps : List (Str × Str)) : Str := join ',' (ps.map (fun p => p.1 ++ ':' :: p.2))

/-- The assignments can be written: there is one and neither side contains a separator. -/
def Writable (ps : List (Str × Str)) : Prop :=
  ps ≠ [] ∧ ∀ p ∈ ps, (':' ∉ p.1 ∧ ',' ∉ p.1) ∧ (':' ∉ p.2 ∧ ',' ∉ p.2)

/-- What is assigned to a name last. -/
def assigned : List (Str × Str) → Str → Option Str
  | [], _ => none
  | p :: ps, k => match assigned ps k with
    | some v => some v
    | none => if p.1 = k then some p.2 else none

/-- The second part of C81: only a number and a list of assignments of numbers are accepted. -/
def C81_errors_statement : Prop :=
  ∀ (cores : Nat) (s : Str) (d : Dict Str Nat), parse cores s = .ok d →
    Numeral s ∨ ∃ ps, Writable ps ∧ s = written ps ∧ ∀ p ∈ ps, Numeral p.2

/-! ## proofs: numbers -/

theorem toInt_foldl (s : Str) : ∀ n, s.foldl (fun n c => n * 10 + (c.toNat - 48)) n = n * 10 ^ s.length + value s := by
  induction s with
  | nil => intro n; simp [value]
  | cons c s ih =>
    intro n
    rw [List.foldl_cons, ih, value, List.length_cons, Nat.pow_succ, Nat.add_mul, show '0'.toNat = 48 by decide, Nat.mul_assoc,
      Nat.mul_comm 10]
    omega

theorem toInt_value (s : Str) : toInt s = value s := by
  unfold toInt
  rw [toInt_foldl]; omega

theorem isDigits_iff (s : Str) : isDigits s = true ↔ Numeral s := by
  unfold isDigits Numeral
  rw [Bool.and_eq_true, List.all_eq_true]
  have h1 : ∀ c : Char, c.isDigit = true ↔ ('0' ≤ c ∧ c ≤ '9') := by
    intro c
    unfold Char.isDigit
    rw [Bool.and_eq_true, decide_eq_true_iff, decide_eq_true_iff]
    exact Iff.rfl
  constructor
  · rintro ⟨ha, hb⟩
    refine ⟨?_, fun c hc => (h1 c).mp (hb c hc)⟩
    intro h0; rw [h0] at ha; cases ha
  · rintro ⟨ha, hb⟩
    refine ⟨?_, fun c hc => (h1 c).mpr (hb c hc)⟩
    cases s with
    | nil => exact absurd rfl ha
    | cons _ _ => rfl

theorem numberOf_threads (cores : Nat) (v : Str) : numberOf cores v = threads cores v := by
  unfold numberOf threads
  rw [toInt_value]

/-! ## proofs: assignments -/

theorem pairOf_some {kv : Str} {p : Str × Str} (h : pairOf kv = some p) : kv = p.1 ++ ':' :: p.2 ∧ ':' ∉ p.1 ∧ ':' ∉ p.2 := by
  have h1 := Verif.Py.join_split ':' kv
  have h2 := Verif.Py.not_mem_of_mem_split ':' kv
  unfold pairOf at h
  split at h
  · next k v he =>
    cases h
    rw [he] at h1 h2
    exact ⟨h1.symm, h2 _ (by simp), h2 _ (by simp)⟩
  · cases h

theorem pairOf_written (p : Str × Str) (h1 : ':' ∉ p.1) (h2 : ':' ∉ p.2) : pairOf (p.1 ++ ':' :: p.2) = some p := by
  unfold pairOf
  rw [Verif.Py.split_append_cons _ _ _ h1, Verif.Py.split_of_not_mem _ _ h2]

theorem pairsOf_some : ∀ (l : List Str) (ps : List (Str × Str)), pairsOf l = some ps →
    l = ps.map (fun p => p.1 ++ ':' :: p.2) ∧ ∀ p ∈ ps, ':' ∉ p.1 ∧ ':' ∉ p.2 := by
  intro l
  induction l with
  | nil => intro ps h; cases h; exact ⟨rfl, fun _ hp => by cases hp⟩
  | cons kv l ih =>
    intro ps h
    rw [pairsOf] at h
    cases hp : pairOf kv with
    | none => rw [hp] at h; cases h
    | some p =>
      rw [hp] at h
      cases hl : pairsOf l with
      | none => rw [hl] at h; cases h
      | some qs =>
        rw [hl] at h
        cases h
        obtain ⟨i1, i2⟩ := ih qs hl
        obtain ⟨j1, j2⟩ := pairOf_some hp
        refine ⟨by rw [List.map_cons, ← i1, ← j1], ?_⟩
        intro q hq
        rcases List.mem_cons.mp hq with rfl | hq
        · exact j2
        · exact i2 q hq

theorem pairsOf_written : ∀ (ps : List (Str × Str)), (∀ p ∈ ps, ':' ∉ p.1 ∧ ':' ∉ p.2) →
    pairsOf (ps.map (fun p => p.1 ++ ':' :: p.2)) = some ps := by
  intro ps
  induction ps with
  | nil => intro _; rfl
  | cons p ps ih =>
    intro h
    have hp := h p List.mem_cons_self
    rw [List.map_cons, pairsOf, pairOf_written p hp.1 hp.2, ih (fun q hq => h q (List.mem_cons_of_mem _ hq))]

theorem written_colon (ps : List (Str × Str)) (h : ps ≠ []) : ':' ∈ written ps := by
  cases ps with
  | nil => exact absurd rfl h
  | cons p ps =>
    cases ps with
    | nil => simp [written, join]
    | cons q qs => simp [written, join]

theorem not_numeral_written (ps : List (Str × Str)) (h : ps ≠ []) : isDigits (written ps) = false := by
  rw [Bool.eq_false_iff]
  intro hd
  have := ((isDigits_iff _).mp hd).2 ':' (written_colon ps h)
  exact absurd this (by decide)

theorem strings_written (ps : List (Str × Str)) (h : Writable ps) : strings (written ps) = .ok (Dict.update [] ps) := by
  unfold strings
  rw [not_numeral_written ps h.1]
  have : split ',' (written ps) = ps.map (fun p => p.1 ++ ':' :: p.2) := by
    unfold written
    rw [Verif.Py.split_join _ _ (by simpa using h.1)]
    intro s hs
    obtain ⟨p, hp, rfl⟩ := List.mem_map.mp hs
    obtain ⟨⟨_, h1⟩, _, h2⟩ := h.2 p hp
    simp [h1, h2]
  rw [this, pairsOf_written ps (fun p hp => ⟨(h.2 p hp).1.1, (h.2 p hp).2.1⟩)]
  rfl

theorem strings_ok {s : Str} {d : Dict Str Str} (h : strings s = .ok d) :
    (Numeral s ∧ d = [([], s)]) ∨ ∃ ps, Writable ps ∧ s = written ps ∧ d = Dict.update [] ps := by
  unfold strings at h
  by_cases hd : isDigits s = true
  · rw [if_pos hd] at h
    cases h
    exact Or.inl ⟨(isDigits_iff s).mp hd, rfl⟩
  · rw [if_neg hd] at h
    cases hp : pairsOf (split ',' s) with
    | none => rw [hp] at h; cases h
    | some ps =>
      rw [hp] at h
      cases h
      obtain ⟨h1, h2⟩ := pairsOf_some _ _ hp
      have hs := Verif.Py.join_split ',' s
      have hc := Verif.Py.not_mem_of_mem_split ',' s
      rw [h1] at hs hc
      refine Or.inr ⟨ps, ⟨?_, ?_⟩, hs.symm, rfl⟩
      · intro h0
        rw [h0] at h1
        exact Verif.Py.split_ne_nil ',' s h1
      · intro p hp
        have := hc _ (List.mem_map.mpr ⟨p, hp, rfl⟩)
        simp only [List.mem_append, List.mem_cons, not_or] at this
        exact ⟨⟨(h2 p hp).1, this.1⟩, (h2 p hp).2, this.2.2⟩

theorem get?_update_assigned (ps : List (Str × Str)) : ∀ (d : Dict Str Str) (k : Str),
    (Dict.update d ps).get? k = (assigned ps k).or (d.get? k) := by
  induction ps with
  | nil => intro d k; rfl
  | cons p ps ih =>
    intro d k
    have := ih (d.set p.1 p.2) k
    show (Dict.update (d.set p.1 p.2) ps).get? k = _
    rw [this, assigned, Dict.get?_set]
    cases assigned ps k with
    | some v => rfl
    | none =>
      by_cases hk : p.1 = k
      · simp [hk]
      · simp [hk]

/-! ## proofs: the loop -/

theorem convert_ok (cores : Nat) : ∀ (l : Dict Str Str) (d r : Dict Str Nat), l.keys.Nodup → convert cores l d = .ok r →
    (∀ p ∈ l, isDigits p.2 = true) ∧
    (∀ k, r.get? k = ((l.get? k).map (numberOf cores)).or (d.get? k)) := by
  intro l
  induction l with
  | nil => intro d r _ h; cases h; exact ⟨fun _ hp => (by cases hp), fun k => rfl⟩
  | cons p l ih =>
    intro d r hn h
    obtain ⟨k, v⟩ := p
    rw [convert] at h
    by_cases hv : isDigits v = true
    · rw [if_pos hv] at h
      rw [Dict.keys_cons] at hn
      obtain ⟨hn1, hn2⟩ := List.nodup_cons.mp hn
      obtain ⟨i1, i2⟩ := ih _ _ hn2 h
      refine ⟨?_, ?_⟩
      · intro q hq
        rcases List.mem_cons.mp hq with rfl | hq
        · exact hv
        · exact i1 q hq
      · intro k'
        rw [i2 k', Dict.get?_set, Dict.get?]
        by_cases hk : k = k'
        · rw [if_pos hk, if_pos hk]
          have : Dict.get? l k' = none := by
            cases hg : Dict.get? l k' with
            | none => rfl
            | some w => exact absurd ((Dict.mem_keys_iff l k').mpr (by rw [hg]; rfl)) (hk ▸ hn1)
          rw [this]; rfl
        · rw [if_neg hk, if_neg hk]
    · rw [if_neg hv] at h; cases h

theorem convert_some (cores : Nat) : ∀ (l : Dict Str Str) (d : Dict Str Nat), (∀ p ∈ l, isDigits p.2 = true) →
    ∃ r, convert cores l d = .ok r := by
  intro l
  induction l with
  | nil => intro d _; exact ⟨d, rfl⟩
  | cons p l ih =>
    intro d h
    obtain ⟨k, v⟩ := p
    rw [convert, if_pos (h (k, v) List.mem_cons_self)]
    exact ih _ (fun q hq => h q (List.mem_cons_of_mem _ hq))

theorem get?_default (cores : Nat) (r : Dict Str Nat) (k : Str) :
    Dict.get? (if r.has [] then r else r.set [] cores) k = (r.get? k).or (if k = [] then some cores else none) := by
  by_cases h : r.has [] = true
  · rw [if_pos h]
    by_cases hk : k = []
    · rw [hk]
      unfold Dict.has at h
      cases hg : r.get? [] with
      | none => rw [hg] at h; cases h
      | some _ => rfl
    · rw [if_neg hk]; cases r.get? k <;> rfl
  · rw [if_neg h, Dict.get?_set]
    by_cases hk : [] = k
    · rw [if_pos hk, if_pos hk.symm]
      unfold Dict.has at h
      rw [← hk]
      cases hg : r.get? ([] : Str) with
      | none => rfl
      | some _ => rw [hg] at h; exact absurd rfl h
    · rw [if_neg hk, if_neg (fun h => hk h.symm)]; cases r.get? k <;> rfl

theorem assigned_mem {ps : List (Str × Str)} {k v : Str} (h : assigned ps k = some v) : (k, v) ∈ ps := by
  induction ps with
  | nil => cases h
  | cons p ps ih =>
    rw [assigned] at h
    cases ha : assigned ps k with
    | some w => rw [ha] at h; cases h; exact List.mem_cons_of_mem _ (ih ha)
    | none =>
      rw [ha] at h
      by_cases hk : p.1 = k
      · rw [if_pos hk] at h
        cases h
        rw [← hk]
        exact List.mem_cons_self
      · simp only [if_neg hk] at h; cases h

/-- **C81**: a number sets the default and nothing else; zero means all cores. -/
theorem C81_number (cores : Nat) (s : Str) (h : Numeral s) : parse cores s = .ok [([], threads cores s)] := by
  have hd := (isDigits_iff s).mpr h
  unfold parse strings
  rw [if_pos hd]
  simp only [convert, hd, if_true, Dict.set, numberOf_threads]
  rfl

/-- **C81**: a list of assignments of numbers is accepted; each name gets what was assigned to it last, zero meaning all cores, and
the default is all cores if it was not assigned. -/
theorem C81_list (cores : Nat) (ps : List (Str × Str)) (hw : Writable ps) (hn : ∀ p ∈ ps, Numeral p.2) :
    ∃ d, parse cores (written ps) = .ok d ∧
      ∀ k, d.get? k = ((assigned ps k).map (threads cores)).or (if k = [] then some cores else none) := by
  have hnd : (Dict.update ([] : Dict Str Str) ps).keys.Nodup := Dict.nodup_update ps [] List.nodup_nil
  have hdig : ∀ p ∈ Dict.update ([] : Dict Str Str) ps, isDigits p.2 = true := by
    intro p hp
    have hg := Dict.get?_eq_some_of_mem _ hnd (k := p.1) (v := p.2) hp
    rw [get?_update_assigned] at hg
    cases ha : assigned ps p.1 with
    | none => rw [ha] at hg; cases hg
    | some v =>
      rw [ha] at hg
      cases hg
      exact (isDigits_iff _).mpr (hn _ (assigned_mem ha))
  obtain ⟨r, hr⟩ := convert_some cores (Dict.update [] ps) [] hdig
  obtain ⟨_, hg⟩ := convert_ok cores _ _ _ hnd hr
  refine ⟨if r.has [] then r else r.set [] cores, ?_, ?_⟩
  · unfold parse
    rw [strings_written ps hw]
    simp only [hr]
  · intro k
    rw [get?_default, hg, get?_update_assigned]
    cases assigned ps k with
    | none => rfl
    | some v =>
      show (some (numberOf cores v)).or _ = _
      rw [numberOf_threads]; rfl

/-- **C81**: there is always a default. -/
theorem C81_default (cores : Nat) (s : Str) (d : Dict Str Nat) (h : parse cores s = .ok d) : (d.get? []).isSome = true := by
  unfold parse at h
  cases hs : strings s with
  | error e => rw [hs] at h; cases h
  | ok l =>
    rw [hs] at h
    cases hc : convert cores l [] with
    | error e => simp only [hc] at h; cases h
    | ok r =>
      simp only [hc] at h
      cases h
      rw [get?_default, if_pos rfl]
      cases r.get? ([] : Str) <;> rfl

/-- **C81**, provable part for errors: what is accepted is a number or a list of assignments in which the last assignment to each name
is a number. Missing: an assignment that is overridden by a later one is not checked. -/
theorem C81_errors_partial (cores : Nat) (s : Str) (d : Dict Str Nat) (h : parse cores s = .ok d) :
    Numeral s ∨ ∃ ps, Writable ps ∧ s = written ps ∧ ∀ k v, assigned ps k = some v → Numeral v := by
  unfold parse at h
  cases hs : strings s with
  | error e => rw [hs] at h; cases h
  | ok l =>
    rw [hs] at h
    cases hc : convert cores l [] with
    | error e => simp only [hc] at h; cases h
    | ok r =>
      rcases strings_ok hs with ⟨h1, _⟩ | ⟨ps, hw, hsw, hl⟩
      · exact Or.inl h1
      · refine Or.inr ⟨ps, hw, hsw, ?_⟩
        intro k v ha
        rw [hl] at hc
        obtain ⟨hdig, _⟩ := convert_ok cores _ _ _ (Dict.nodup_update ps [] List.nodup_nil) hc
        have hg : (Dict.update ([] : Dict Str Str) ps).get? k = some v := by rw [get?_update_assigned, ha]; rfl
        exact (isDigits_iff v).mp (hdig _ (Dict.mem_of_get? _ hg))

/-- C81 is violated: the text "a:x,a:2" is accepted although "x" is no number. -/
theorem C81_violated : ¬ C81_errors_statement := by
  intro h
  have hp : parse 4 "a:x,a:2".toList = .ok [("a".toList, 2), ([], 4)] := by decide +kernel
  rcases h 4 _ _ hp with h1 | ⟨ps, hw, hs, hn⟩
  · exact absurd ((isDigits_iff _).mpr h1) (by decide)
  · have h2 := strings_written ps hw
    have h3 : pairsOf (split ',' (written ps)) = some ps := by
      have : split ',' (written ps) = ps.map (fun p => p.1 ++ ':' :: p.2) := by
        unfold written
        rw [Verif.Py.split_join _ _ (by simpa using hw.1)]
        intro s hs
        obtain ⟨p, hp, rfl⟩ := List.mem_map.mp hs
        obtain ⟨⟨_, h1⟩, _, h2⟩ := hw.2 p hp
        simp [h1, h2]
      rw [this, pairsOf_written ps (fun p hp => ⟨(hw.2 p hp).1.1, (hw.2 p hp).2.1⟩)]
    rw [← hs] at h3
    have h4 : pairsOf (split ',' "a:x,a:2".toList) = some [("a".toList, "x".toList), ("a".toList, "2".toList)] := by decide +kernel
    rw [h4] at h3
    cases h3
    exact absurd ((isDigits_iff _).mpr (hn ("a".toList, "x".toList) (by simp))) (by decide)

/-- "gz:0,:3,xz:12" for eight cores. -/
example : parse 8 "gz:0,:3,xz:12".toList = .ok [("gz".toList, 8), ([], 3), ("xz".toList, 12)] := by decide +kernel

example : Writable [("gz".toList, "0".toList), ([], "3".toList)] ∧ Numeral "0".toList ∧ Numeral "3".toList := by
  unfold Writable Numeral
  decide

example : parse 8 "-1".toList = .error .value ∧ parse 8 "gz:-1".toList = .error .argument ∧ parse 8 [] = .error .value := by
  decide +kernel

end Verif.Parallelization
