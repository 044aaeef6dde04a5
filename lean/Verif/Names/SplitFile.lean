import Verif.Names.FormatNumber
import Verif.PyStr

/-!
# C13, C86, C87: split-file detection (core/ratarmountcore/compressions.py:267-349)

`filename` is the last component of `os.path.realpath(path)` (line 322), which is outside the model and
therefore a parameter: without symbolic links it is the last component of `path`.
-/

namespace Verif.Names

open Verif.Py

/-- `is_latin_alpha`, `is_latin_digit`, `is_latin_hex_alpha` (utils.py:188-197). -/
def isAlpha (s : Str) : Bool := !s.isEmpty && s.all (fun c => 'a' ≤ c && c ≤ 'z')
def isDigit (s : Str) : Bool := !s.isEmpty && s.all (fun c => '0' ≤ c && c ≤ '9')
def isHex (s : Str) : Bool := !s.isEmpty && s.all (fun c => ('0' ≤ c && c ≤ '9') || ('a' ≤ c && c ≤ 'f'))

/-- `has_matching_alphabets` (compressions.py:267-272). -/
def matching (a b : Str) : Bool := (isAlpha a && isAlpha b) || (isDigit a && isDigit b) || (isHex a && isHex b)

/-- The loop of `check_for_sequence` (compressions.py:280-288). The loop has no bound in Python; `none` means that `fuel`
ran out, which `sequence_ends` excludes. -/
def seqLoop (exts : List Str) (fmt : Nat → Str) (suffixLength : Nat) : Nat → Nat → Option (List Str)
  | 0, _ => none
  | fuel + 1, i =>
    if fmt i ∈ exts then (seqLoop exts fmt suffixLength fuel (i + 1)).map (fmt i :: ·)   -- 282-283
    else if i > 0 ∨ (fmt i).length ≠ suffixLength then some []                           -- 284-287
    else seqLoop exts fmt suffixLength fuel (i + 1)

/-- `check_for_sequence` (compressions.py:275-290). -/
def checkForSequence (exts : List Str) (fmt : Nat → Str) : Option (List Str) :=
  seqLoop exts fmt (fmt 0).length (exts.length + 2) 0

/-- The lambda (compressions.py:339): `format_number(i, baseDigits, len(extension))`; never fails for these alphabets. -/
def number (base : Str) (length i : Nat) : Str :=
  match formatNumber i base length with
  | .ok s => s
  | .error _ => []

/-- Line 337; `HEX` is utils.py:185. -/
def numberings : List (Char × Str) :=
  [('a', "abcdefghijklmnopqrstuvwxyz".toList), ('0', "0123456789".toList), ('x', "0123456789abcdef".toList)]

/-- The loop over the numberings (compressions.py:337-343): the first longest sequence. -/
def longest (exts : List Str) (length : Nat) : List (Char × Str) → Option Char × List Str → Option (Option Char × List Str)
  | [], best => some best
  | (c, base) :: rest, best =>
    match checkForSequence exts (number base length) with
    | none => none
    | some s => longest exts length rest (if s.length > best.2.length then (some c, s) else best)

/-- `check_for_split_file_in` (compressions.py:293-349). The outer `Option` of the result is the Python `None`; `none`
inside `Except` cannot happen for the loop bound, see `C13_terminates`. -/
def checkSplit (path filename : Str) (candidates : List Str) : Except PyErr (Option (List Str × Char)) :=
  match rsplit1 '.' filename with
  | none => .ok none                                                                -- 323-324
  | some (basename, extension) =>                                                   -- 325
    let exts := (candidates.filter (fun n => startsWith (basename ++ ['.']) n)).map
      (fun n => n.drop (basename.length + 1))                                       -- 328
    let exts := exts.filter (fun e => matching e extension)                         -- 329
    if exts = [] then .ok none                                                      -- 330-331
    else if extension ∉ exts then .error .assertionError                            -- 332
    else
      match longest exts extension.length numberings (none, []) with
      | none => .error .runtimeError
      | some (some c, seq) =>
        if seq.length > 1 then                                                      -- 345
          let stem := match rsplit1 '.' path with | some (a, _) => a | none => path
          .ok (some (seq.map (fun e => stem ++ '.' :: e), c))                       -- 346-347
        else .ok none
      | some (none, _) => .ok none

/-! ## lemmas -/

theorem numberings_ok : ∀ b ∈ numberings, 2 ≤ b.2.length ∧ b.2.Nodup := by decide

theorem number_spec {base : Str} (hb : 2 ≤ base.length) (hn : base.Nodup) (length i : Nat) :
    formatNumber i base length = .ok (number base length i) ∧ (∀ d ∈ number base length i, d ∈ base) ∧
      parse base (number base length i) = i ∧ length ≤ (number base length i).length := by
  obtain ⟨s, hs, h1, h2, h3, -⟩ := C12_positional base hb hn i length
  unfold number
  rw [hs]
  exact ⟨rfl, h1, h2, Nat.le_trans (Nat.le_max_left _ _) h3⟩

theorem seqLoop_pos (exts : List Str) (fmt : Nat → Str) (l : Nat) : ∀ (fuel i : Nat), 0 < i →
    (∃ m, m < fuel ∧ fmt (i + m) ∉ exts) →
    ∃ n, seqLoop exts fmt l fuel i = some ((List.range' i n).map fmt) ∧
      (∀ j, i ≤ j → j < i + n → fmt j ∈ exts) ∧ fmt (i + n) ∉ exts := by
  intro fuel
  induction fuel with
  | zero => rintro i _ ⟨m, hm, _⟩; omega
  | succ fuel ih =>
    rintro i hi ⟨m, hm, hne⟩
    unfold seqLoop
    by_cases h : fmt i ∈ exts
    · rw [if_pos h]
      have hm0 : m ≠ 0 := by rintro rfl; exact hne (by simpa using h)
      obtain ⟨n, h1, h2, h3⟩ := ih (i + 1) (by omega) ⟨m - 1, by omega, by
        rw [show i + 1 + (m - 1) = i + m by omega]; exact hne⟩
      refine ⟨n + 1, ?_, ?_, ?_⟩
      · rw [h1]; simp [List.range'_succ]
      · intro j hj1 hj2
        rcases Nat.eq_or_lt_of_le hj1 with rfl | hlt
        · exact h
        · exact h2 j (by omega) (by omega)
      · rw [show i + (n + 1) = i + 1 + n by omega]; exact h3
    · rw [if_neg h, if_pos (.inl hi)]
      exact ⟨0, by simp, by intro j h1 h2; omega, by simpa using h⟩

/-- The sequence loop ends within the bound. -/
theorem sequence_ends (exts : List Str) (fmt : Nat → Str) (hinj : ∀ i j, fmt i = fmt j → i = j) :
    ∃ start n, start ≤ 1 ∧ checkForSequence exts fmt = some ((List.range' start n).map fmt) ∧
      (∀ j, start ≤ j → j < start + n → fmt j ∈ exts) ∧ fmt (start + n) ∉ exts ∧
      (start = 1 → fmt 0 ∉ exts) ∧ (start = 0 → fmt 0 ∈ exts) := by
  have hole : ∃ m, m < exts.length + 1 ∧ fmt (1 + m) ∉ exts := by
    refine Classical.byContradiction fun hno => ?_
    have hall : ∀ m, m < exts.length + 1 → fmt (1 + m) ∈ exts := fun m hm =>
      Classical.byContradiction fun hx => hno ⟨m, hm, hx⟩
    have hsub : (List.range' 1 (exts.length + 1)).map fmt ⊆ exts := by
      intro s hs
      rw [List.mem_map] at hs
      obtain ⟨j, hj, rfl⟩ := hs
      rw [List.mem_range'_1] at hj
      have := hall (j - 1) (by omega)
      rwa [show 1 + (j - 1) = j by omega] at this
    have hnd : ((List.range' 1 (exts.length + 1)).map fmt).Nodup := by
      refine List.Pairwise.map fmt ?_ (List.nodup_range' (s := 1) (n := exts.length + 1))
      intro a b hab heq; exact hab (hinj a b heq)
    have := List.Nodup.length_le_of_subset hnd hsub
    simp at this; omega
  obtain ⟨n, h1, h2, h3⟩ := seqLoop_pos exts fmt (fmt 0).length (exts.length + 1) 1 (by omega) hole
  unfold checkForSequence seqLoop
  by_cases h : fmt 0 ∈ exts
  · rw [if_pos h, Nat.zero_add, h1]
    refine ⟨0, n + 1, by omega, ?_, ?_, by rw [show 0 + (n + 1) = 1 + n by omega]; exact h3, by omega, fun _ => h⟩
    · simp [List.range'_succ]
    · intro j _ hj
      rcases Nat.eq_zero_or_pos j with rfl | hj0
      · exact h
      · exact h2 j hj0 (by omega)
  · rw [if_neg h, if_neg (by simp), Nat.zero_add, h1]
    exact ⟨1, n, by omega, rfl, h2, h3, fun _ => h, by omega⟩

/-- A sequence of numbered suffixes found among `exts`. -/
def Found (exts : List Str) (length : Nat) (c : Char) (seq : List Str) : Prop :=
  ∃ base start n, (c, base) ∈ numberings ∧ start ≤ 1 ∧ seq = (List.range' start n).map (number base length) ∧
    (∀ j, start ≤ j → j < start + n → number base length j ∈ exts) ∧
    number base length (start + n) ∉ exts ∧ (start = 1 → number base length 0 ∉ exts)

theorem longest_spec (exts : List Str) (length : Nat) : ∀ (l : List (Char × Str)) (best : Option Char × List Str),
    (∀ b ∈ l, b ∈ numberings) → (∀ c, best.1 = some c → Found exts length c best.2) →
    ∃ r, longest exts length l best = some r ∧ (∀ c, r.1 = some c → Found exts length c r.2) := by
  intro l
  induction l with
  | nil => intro best _ h; exact ⟨best, rfl, h⟩
  | cons x l ih =>
    intro best hl h
    obtain ⟨c, base⟩ := x
    have hmem := hl (c, base) (by simp)
    obtain ⟨hb, hn⟩ := numberings_ok _ hmem
    obtain ⟨start, n, h1, h2, h3, h4, h5, -⟩ := sequence_ends exts (number base length) (by
      intro i j hij
      have hi := number_spec hb hn length i
      have hj := number_spec hb hn length j
      rw [← hi.2.2.1, ← hj.2.2.1, hij])
    simp only [longest, h2]
    refine ih _ (fun b hb => hl b (List.mem_cons_of_mem _ hb)) ?_
    intro d hd
    split at hd
    · next hgt =>
      rw [if_pos hgt]
      simp only [Option.some.injEq] at hd
      subst hd
      exact ⟨base, start, n, hmem, h1, rfl, h3, h4, h5⟩
    · next hgt => rw [if_neg hgt]; exact h d hd

theorem mem_exts {basename extension : Str} {candidates : List Str} {e : Str} :
    e ∈ ((candidates.filter (fun n => startsWith (basename ++ ['.']) n)).map
      (fun n => n.drop (basename.length + 1))).filter (fun e => matching e extension)
    ↔ (basename ++ '.' :: e) ∈ candidates ∧ matching e extension = true := by
  rw [List.mem_filter, List.mem_map]
  constructor
  · rintro ⟨⟨n, hn, rfl⟩, hm⟩
    rw [List.mem_filter] at hn
    obtain ⟨hc, hp⟩ := hn
    simp only [startsWith, List.isPrefixOf_iff_prefix] at hp
    obtain ⟨t, rfl⟩ := hp
    refine ⟨?_, hm⟩
    have : (basename ++ ['.'] ++ t).drop (basename.length + 1) = t := by
      rw [List.drop_left' (by simp)]
    rw [this]
    simpa using hc
  · rintro ⟨hc, hm⟩
    refine ⟨⟨basename ++ '.' :: e, ?_, ?_⟩, hm⟩
    · rw [List.mem_filter]
      refine ⟨hc, ?_⟩
      simp only [startsWith, List.isPrefixOf_iff_prefix]
      exact ⟨e, by simp⟩
    · rw [show basename ++ '.' :: e = (basename ++ ['.']) ++ e by simp, List.drop_left' (by simp)]

/-! ## C13 -/

/-- Specification: `parts` are the files `prefix.NUMBER` for consecutive numbers from 0 or 1 in increasing order,
numbers written with the symbols of `base`, all of them among the candidates; neither the next number nor
number 0 before a start at 1 is a candidate whose suffix uses the same kind of symbols as `extension`. -/
structure GapFree (dir basename extension : Str) (candidates : List Str) (parts : List Str) : Prop where
  ex : ∃ (base : Str) (start : Nat) (suffixes : List Str),
    base ∈ numberings.map (·.2) ∧ start ≤ 1 ∧ 2 ≤ suffixes.length ∧
    parts = suffixes.map (fun s => dir ++ basename ++ '.' :: s) ∧
    (∀ s ∈ suffixes, (basename ++ '.' :: s) ∈ candidates ∧ matching s extension = true ∧
      extension.length ≤ s.length ∧ ∀ d ∈ s, d ∈ base) ∧
    suffixes.map (parse base) = List.range' start suffixes.length ∧
    suffixes.map .ok = (List.range' start suffixes.length).map (fun i => formatNumber i base extension.length) ∧
    (∀ s, formatNumber (start + suffixes.length) base extension.length = .ok s →
      matching s extension = true → (basename ++ '.' :: s) ∉ candidates) ∧
    (start = 1 → ∀ s, formatNumber 0 base extension.length = .ok s →
      matching s extension = true → (basename ++ '.' :: s) ∉ candidates)

/-- The full statement of C13, with all parts having suffixes of one length. -/
def C13_statement : Prop :=
  ∀ (dir basename extension : Str) (candidates parts : List Str) (c : Char), '.' ∉ extension →
    checkSplit (dir ++ (basename ++ '.' :: extension)) (basename ++ '.' :: extension) candidates = .ok (some (parts, c)) →
    GapFree dir basename extension candidates parts ∧
      ∀ p ∈ parts, p.length = (dir ++ (basename ++ '.' :: extension)).length

/-- **C13 is violated by the code** in the part about the suffix length: from `f.1` the detection runs on
from `f.9` to `f.10`. -/
theorem C13_violated : ¬ C13_statement := by
  intro h
  have := (h [] "f".toList "1".toList
    ["f.1".toList, "f.2".toList, "f.3".toList, "f.4".toList, "f.5".toList, "f.6".toList, "f.7".toList,
      "f.8".toList, "f.9".toList, "f.10".toList]
    ["f.1".toList, "f.2".toList, "f.3".toList, "f.4".toList, "f.5".toList, "f.6".toList, "f.7".toList,
      "f.8".toList, "f.9".toList, "f.10".toList] '0' (by decide) (by decide +kernel)).2 "f.10".toList (by decide)
  exact absurd this (by decide)

/-- **C13, provable part**: everything but the equal suffix length, for every folder listing and every file
that is not a symbolic link to a file of another name. Missing: equal suffix lengths. -/
theorem C13_gap_free_partial (dir basename extension : Str) (candidates parts : List Str) (c : Char)
    (hdot : '.' ∉ extension)
    (h : checkSplit (dir ++ (basename ++ '.' :: extension)) (basename ++ '.' :: extension) candidates
      = .ok (some (parts, c))) :
    GapFree dir basename extension candidates parts := by
  unfold checkSplit at h
  rw [rsplit1_append basename extension hdot] at h
  simp only at h
  generalize hexts : ((candidates.filter (fun n => startsWith (basename ++ ['.']) n)).map
      (fun n => n.drop (basename.length + 1))).filter (fun e => matching e extension) = exts at h
  have hmem : ∀ e, e ∈ exts ↔ (basename ++ '.' :: e) ∈ candidates ∧ matching e extension = true := by
    intro e; rw [← hexts]; exact mem_exts
  by_cases h0 : exts = []
  · rw [if_pos h0] at h; cases h
  rw [if_neg h0] at h
  by_cases h1 : extension ∉ exts
  · rw [if_pos h1] at h; cases h
  rw [if_neg h1] at h
  obtain ⟨r, hr, hfound⟩ := longest_spec exts extension.length numberings (none, []) (fun b hb => hb) (by simp)
  rw [hr] at h
  obtain ⟨o, seq⟩ := r
  cases o with
  | none => simp at h
  | some c' =>
    simp only at h
    by_cases hlen : seq.length > 1
    · rw [if_pos hlen, show dir ++ (basename ++ '.' :: extension) = (dir ++ basename) ++ '.' :: extension by simp,
        rsplit1_append (dir ++ basename) extension hdot] at h
      simp only [Except.ok.injEq, Option.some.injEq, Prod.mk.injEq] at h
      obtain ⟨hp, rfl⟩ := h
      obtain ⟨base, start, n, hb, hs, hseq, hall, hnext, hzero⟩ := hfound _ rfl
      simp only at hseq
      obtain ⟨hb2, hn⟩ := numberings_ok _ hb
      have hnlen : seq.length = n := by rw [hseq]; simp
      refine ⟨base, start, seq, List.mem_map.mpr ⟨_, hb, rfl⟩, hs, hlen, hp.symm, ?_, ?_, ?_, ?_, ?_⟩
      · intro s hs'
        rw [hseq, List.mem_map] at hs'
        obtain ⟨j, hj, rfl⟩ := hs'
        rw [List.mem_range'_1] at hj
        obtain ⟨h2, h3⟩ := (hmem _).mp (hall j hj.1 (by omega))
        have hsp := number_spec hb2 hn extension.length j
        exact ⟨h2, h3, hsp.2.2.2, hsp.2.1⟩
      · rw [hnlen, hseq, List.map_map]
        conv => rhs; rw [← List.map_id (List.range' start n)]
        apply List.map_congr_left
        intro j _
        exact (number_spec hb2 hn extension.length j).2.2.1
      · rw [hnlen, hseq, List.map_map]
        apply List.map_congr_left
        intro j _
        exact (number_spec hb2 hn extension.length j).1.symm
      · intro s hs' hm hc
        rw [hnlen, (number_spec hb2 hn extension.length (start + n)).1] at hs'
        simp only [Except.ok.injEq] at hs'
        subst hs'
        exact hnext ((hmem _).mpr ⟨hc, hm⟩)
      · intro h1 s hs' hm hc
        rw [(number_spec hb2 hn extension.length 0).1] at hs'
        simp only [Except.ok.injEq] at hs'
        subst hs'
        exact hzero h1 ((hmem _).mpr ⟨hc, hm⟩)
    · rw [if_neg hlen] at h; simp at h

example : '.' ∉ "002".toList ∧ checkSplit "/d/a.002".toList "a.002".toList
    ["a.001".toList, "b".toList, "a.003".toList, "a.002".toList, "a.005".toList]
    = .ok (some (["/d/a.001".toList, "/d/a.002".toList, "/d/a.003".toList], '0')) := by decide +kernel

/-- The loop over the numberings keeps a sequence at least as long as each of those it looked at. -/
theorem longest_ge (exts : List Str) (length : Nat) : ∀ (l : List (Char × Str)) (best r : Option Char × List Str),
    longest exts length l best = some r → (best.1 = none → best.2 = []) →
    best.2.length ≤ r.2.length ∧ (r.1 = none → r.2 = []) ∧
      ∀ b ∈ l, ∀ s, checkForSequence exts (number b.2 length) = some s → s.length ≤ r.2.length := by
  intro l
  induction l with
  | nil =>
    intro best r h h0
    cases h
    exact ⟨Nat.le_refl _, h0, by simp⟩
  | cons x l ih =>
    intro best r h h0
    obtain ⟨c, base⟩ := x
    simp only [longest] at h
    cases hs : checkForSequence exts (number base length) with
    | none => rw [hs] at h; cases h
    | some s =>
      rw [hs] at h
      simp only at h
      obtain ⟨h1, h2, h3⟩ := ih _ r h (by split <;> simp_all)
      have hb : best.2.length ≤ r.2.length ∧ s.length ≤ r.2.length := by
        split at h1 <;> (try simp only at h1) <;> omega
      refine ⟨hb.1, h2, ?_⟩
      intro b hmem t ht
      rcases List.mem_cons.mp hmem with rfl | hmem
      · rw [hs] at ht; cases ht; exact hb.2
      · exact h3 b hmem t ht

/-- **C13, no split file is overlooked**: if the parts with the first two numbers (from 0 or from 1) are
listed in one of the three numberings, with the padding of the opened file, the file is taken as split. -/
theorem C13_detected (path basename extension : Str) (candidates : List Str) (hdot : '.' ∉ extension)
    (hself : (basename ++ '.' :: extension) ∈ candidates) (hkind : matching extension extension = true)
    (base : Str) (hbase : base ∈ numberings.map (·.2)) (start : Nat) (hstart : start ≤ 1) (s₀ s₁ : Str)
    (hf₀ : formatNumber start base extension.length = .ok s₀)
    (hf₁ : formatNumber (start + 1) base extension.length = .ok s₁)
    (h₀ : (basename ++ '.' :: s₀) ∈ candidates ∧ matching s₀ extension = true)
    (h₁ : (basename ++ '.' :: s₁) ∈ candidates ∧ matching s₁ extension = true) :
    ∃ parts c, checkSplit path (basename ++ '.' :: extension) candidates = .ok (some (parts, c)) := by
  unfold checkSplit
  rw [rsplit1_append basename extension hdot]
  simp only
  generalize hexts : ((candidates.filter (fun n => startsWith (basename ++ ['.']) n)).map
      (fun n => n.drop (basename.length + 1))).filter (fun e => matching e extension) = exts
  have hmem : ∀ e, e ∈ exts ↔ (basename ++ '.' :: e) ∈ candidates ∧ matching e extension = true := by
    intro e; rw [← hexts]; exact mem_exts
  have hext := (hmem extension).mpr ⟨hself, hkind⟩
  rw [if_neg (List.ne_nil_of_mem hext), if_neg (by simpa using hext)]
  obtain ⟨r, hr, -⟩ := longest_spec exts extension.length numberings (none, []) (fun b hb => hb) (by simp)
  obtain ⟨-, hnone, hge⟩ := longest_ge exts extension.length numberings (none, []) r hr (by simp)
  rw [hr]
  rw [List.mem_map] at hbase
  obtain ⟨b, hb, rfl⟩ := hbase
  obtain ⟨hb2, hn⟩ := numberings_ok _ hb
  obtain ⟨st, n, h1, h2, h3, h4, h5, h6⟩ := sequence_ends exts (number b.2 extension.length) (by
    intro i j hij
    rw [← (number_spec hb2 hn extension.length i).2.2.1, ← (number_spec hb2 hn extension.length j).2.2.1, hij])
  have e₀ : number b.2 extension.length start ∈ exts := by
    rw [(number_spec hb2 hn extension.length start).1] at hf₀
    cases hf₀; exact (hmem _).mpr h₀
  have e₁ : number b.2 extension.length (start + 1) ∈ exts := by
    rw [(number_spec hb2 hn extension.length (start + 1)).1] at hf₁
    cases hf₁; exact (hmem _).mpr h₁
  have hlen := hge b hb _ h2
  rw [List.length_map, List.length_range'] at hlen
  have hn2 : 2 ≤ n := by
    rcases (show start = 0 ∨ start = 1 by omega) with rfl | rfl <;>
    rcases (show st = 0 ∨ st = 1 by omega) with rfl | rfl <;>
    rcases (show n = 0 ∨ n = 1 ∨ 2 ≤ n by omega) with rfl | rfl | hn <;> first
      | exact hn
      | (exfalso; simp_all)
  obtain ⟨o, seq⟩ := r
  cases o with
  | none => have := hnone rfl; simp only at this hlen; subst this; simp at hlen; omega
  | some c => simp only at hlen ⊢; rw [if_pos (by omega)]; exact ⟨_, _, rfl⟩

/-- Nonempty names written with one of the alphabets belong together. -/
theorem matching_of_mem {base a b : Str} (hbase : base ∈ ["abcdefghijklmnopqrstuvwxyz".toList, "0123456789".toList,
    "0123456789abcdef".toList]) (ha : ∀ c ∈ a, c ∈ base) (hb : ∀ c ∈ b, c ∈ base) (ha0 : a ≠ []) (hb0 : b ≠ []) :
    matching a b = true := by
  have ea : a.isEmpty = false := by cases a <;> simp_all
  have eb : b.isEmpty = false := by cases b <;> simp_all
  have alpha : ∀ c ∈ "abcdefghijklmnopqrstuvwxyz".toList, (decide ('a' ≤ c) && decide (c ≤ 'z')) = true := by decide +kernel
  have digit : ∀ c ∈ "0123456789".toList, (decide ('0' ≤ c) && decide (c ≤ '9')) = true := by decide +kernel
  have hex : ∀ c ∈ "0123456789abcdef".toList,
      ((decide ('0' ≤ c) && decide (c ≤ '9')) || (decide ('a' ≤ c) && decide (c ≤ 'f'))) = true := by decide +kernel
  unfold matching
  rcases List.mem_cons.mp hbase with rfl | hbase
  · have h1 : isAlpha a = true := by
      unfold isAlpha; rw [ea, Bool.not_false, Bool.true_and, List.all_eq_true]; exact fun c h => alpha c (ha c h)
    have h2 : isAlpha b = true := by
      unfold isAlpha; rw [eb, Bool.not_false, Bool.true_and, List.all_eq_true]; exact fun c h => alpha c (hb c h)
    rw [h1, h2]; rfl
  rcases List.mem_cons.mp hbase with rfl | hbase
  · have h1 : isDigit a = true := by
      unfold isDigit; rw [ea, Bool.not_false, Bool.true_and, List.all_eq_true]; exact fun c h => digit c (ha c h)
    have h2 : isDigit b = true := by
      unfold isDigit; rw [eb, Bool.not_false, Bool.true_and, List.all_eq_true]; exact fun c h => digit c (hb c h)
    rw [h1, h2]; cases isAlpha a <;> cases isAlpha b <;> rfl
  · rcases List.mem_cons.mp hbase with rfl | hbase
    · have h1 : isHex a = true := by
        unfold isHex; rw [ea, Bool.not_false, Bool.true_and, List.all_eq_true]; exact fun c h => hex c (ha c h)
      have h2 : isHex b = true := by
        unfold isHex; rw [eb, Bool.not_false, Bool.true_and, List.all_eq_true]; exact fun c h => hex c (hb c h)
      rw [h1, h2]; simp
    · cases hbase

/-- **C13, the numberings**: the parts with the first two numbers, in letters, digits or hexadecimal digits, are enough. -/
theorem C13_numbered (path basename extension : Str) (candidates : List Str) (hne : extension ≠ [])
    (base : Str) (hbase : base ∈ ["abcdefghijklmnopqrstuvwxyz".toList, "0123456789".toList, "0123456789abcdef".toList])
    (hext : ∀ c ∈ extension, c ∈ base) (hself : (basename ++ '.' :: extension) ∈ candidates)
    (start : Nat) (hstart : start ≤ 1) (s₀ s₁ : Str)
    (hf₀ : formatNumber start base extension.length = .ok s₀)
    (hf₁ : formatNumber (start + 1) base extension.length = .ok s₁)
    (h₀ : (basename ++ '.' :: s₀) ∈ candidates) (h₁ : (basename ++ '.' :: s₁) ∈ candidates) :
    ∃ parts c, checkSplit path (basename ++ '.' :: extension) candidates = .ok (some (parts, c)) := by
  have hok : 2 ≤ base.length ∧ base.Nodup := by
    have : ∀ b ∈ ["abcdefghijklmnopqrstuvwxyz".toList, "0123456789".toList, "0123456789abcdef".toList],
        2 ≤ b.length ∧ b.Nodup := by decide +kernel
    exact this base hbase
  have hdot : '.' ∉ extension := by
    intro h
    have : ∀ b ∈ ["abcdefghijklmnopqrstuvwxyz".toList, "0123456789".toList, "0123456789abcdef".toList], '.' ∉ b := by
      decide +kernel
    exact this base hbase (hext _ h)
  have part : ∀ i s, formatNumber i base extension.length = .ok s → matching s extension = true := by
    intro i s hs
    obtain ⟨e, h1, -, h3⟩ := number_spec hok.1 hok.2 extension.length i
    rw [e] at hs
    cases hs
    refine matching_of_mem hbase h1 hext (fun h0 => ?_) hne
    rw [h0] at h3
    cases extension with
    | nil => exact hne rfl
    | cons c r => simp at h3
  refine C13_detected path basename extension candidates hdot hself (matching_of_mem hbase hext hext hne hne) base ?_ start
    hstart s₀ s₁ hf₀ hf₁ ⟨h₀, part _ _ hf₀⟩ ⟨h₁, part _ _ hf₁⟩
  have : ∀ b ∈ ["abcdefghijklmnopqrstuvwxyz".toList, "0123456789".toList, "0123456789abcdef".toList],
      b ∈ numberings.map (·.2) := by decide +kernel
  exact this base hbase

/-- **C13, other extensions**: a file whose extension is written with none of the alphabets is not split. -/
theorem C13_other (path basename extension : Str) (candidates : List Str) (hdot : '.' ∉ extension)
    (halpha : ∃ c ∈ extension, c ∉ "abcdefghijklmnopqrstuvwxyz".toList)
    (hhex : ∃ c ∈ extension, c ∉ "0123456789abcdef".toList) :
    checkSplit path (basename ++ '.' :: extension) candidates = .ok none := by
  have range : ∀ (c : Char), (decide ('a' ≤ c) && decide (c ≤ 'z')) = true → c ∈ "abcdefghijklmnopqrstuvwxyz".toList := by
    intro c h
    simp only [Bool.and_eq_true, decide_eq_true_eq, Char.le_def, UInt32.le_iff_toNat_le] at h
    have h1 : 97 ≤ c.toNat ∧ c.toNat ≤ 122 := h
    have h2 : ∀ n : Fin 26, Char.ofNat (n.val + 97) ∈ "abcdefghijklmnopqrstuvwxyz".toList := by decide +kernel
    have h3 := h2 ⟨c.toNat - 97, by omega⟩
    rw [Nat.sub_add_cancel h1.1, Char.ofNat_toNat] at h3
    exact h3
  have digits : ∀ (c : Char), (decide ('0' ≤ c) && decide (c ≤ '9')) = true → c ∈ "0123456789abcdef".toList := by
    intro c h
    simp only [Bool.and_eq_true, decide_eq_true_eq, Char.le_def, UInt32.le_iff_toNat_le] at h
    have h1 : 48 ≤ c.toNat ∧ c.toNat ≤ 57 := h
    have h2 : ∀ n : Fin 10, Char.ofNat (n.val + 48) ∈ "0123456789abcdef".toList := by decide +kernel
    have h3 := h2 ⟨c.toNat - 48, by omega⟩
    rw [Nat.sub_add_cancel h1.1, Char.ofNat_toNat] at h3
    exact h3
  have letters : ∀ (c : Char), (decide ('a' ≤ c) && decide (c ≤ 'f')) = true → c ∈ "0123456789abcdef".toList := by
    intro c h
    simp only [Bool.and_eq_true, decide_eq_true_eq, Char.le_def, UInt32.le_iff_toNat_le] at h
    have h1 : 97 ≤ c.toNat ∧ c.toNat ≤ 102 := h
    have h2 : ∀ n : Fin 6, Char.ofNat (n.val + 97) ∈ "0123456789abcdef".toList := by decide +kernel
    have h3 := h2 ⟨c.toNat - 97, by omega⟩
    rw [Nat.sub_add_cancel h1.1, Char.ofNat_toNat] at h3
    exact h3
  have no : ∀ e, matching e extension = false := by
    intro e
    obtain ⟨c, hc, hc'⟩ := halpha
    obtain ⟨d, hd, hd'⟩ := hhex
    have n1 : isAlpha extension = false := by
      rw [Bool.eq_false_iff]
      intro h
      unfold isAlpha at h
      rw [Bool.and_eq_true, List.all_eq_true] at h
      exact hc' (range c (h.2 c hc))
    have n2 : isDigit extension = false := by
      rw [Bool.eq_false_iff]
      intro h
      unfold isDigit at h
      rw [Bool.and_eq_true, List.all_eq_true] at h
      exact hd' (digits d (h.2 d hd))
    have n3 : isHex extension = false := by
      rw [Bool.eq_false_iff]
      intro h
      unfold isHex at h
      rw [Bool.and_eq_true, List.all_eq_true] at h
      rcases Bool.or_eq_true_iff.mp (h.2 d hd) with h | h
      · exact hd' (digits d h)
      · exact hd' (letters d h)
    unfold matching
    rw [n1, n2, n3]
    simp
  unfold checkSplit
  rw [rsplit1_append basename extension hdot]
  simp only [no]
  exact if_pos (List.filter_eq_nil_iff.mpr (fun _ _ h => by cases h))

example : checkSplit "x/f.7z".toList "f.7z".toList ["f.7z".toList, "f.aa".toList, "f.ab".toList] = .ok none := by decide +kernel

example : matching "ab".toList "ab".toList = true ∧ (numberings.map (·.2)).head? = some "abcdefghijklmnopqrstuvwxyz".toList ∧
    formatNumber 0 "abcdefghijklmnopqrstuvwxyz".toList 2 = .ok "aa".toList ∧
    formatNumber 1 "abcdefghijklmnopqrstuvwxyz".toList 2 = .ok "ab".toList ∧
    checkSplit "x/f.ab".toList "f.ab".toList ["f.ab".toList, "f.aa".toList]
      = .ok (some (["x/f.aa".toList, "x/f.ab".toList], 'a')) := by decide +kernel

/-- The detection always ends: the bound of the model is never reached. -/
theorem C13_terminates (path filename : Str) (candidates : List Str) :
    checkSplit path filename candidates ≠ .error .runtimeError := by
  unfold checkSplit
  split
  · simp
  · next basename extension _ =>
    simp only
    split
    · simp
    · split
      · simp
      · obtain ⟨r, hr, -⟩ := longest_spec
          (((candidates.filter (fun n => startsWith (basename ++ ['.']) n)).map
            (fun n => n.drop (basename.length + 1))).filter (fun e => matching e extension)) extension.length
          numberings (none, []) (fun b hb => hb) (by simp)
        rw [hr]
        obtain ⟨o, seq⟩ := r
        cases o <;> simp only <;> (try split) <;> simp

/-! ## C86: the file asked for is one of the parts -/

/-- The full statement of C86. -/
def C86_statement : Prop :=
  ∀ (path : Str) (filename : Str) (candidates parts : List Str) (c : Char), filename ∈ candidates →
    (∃ dir, path = dir ++ filename) → checkSplit path filename candidates = .ok (some (parts, c)) → path ∈ parts

/-- **C86 is violated by the code**: with `f.00`, `f.01` and `f.07`, opening `f.07` gives the other two. -/
theorem C86_violated : ¬ C86_statement := by
  intro h
  have := h "f.07".toList "f.07".toList ["f.00".toList, "f.01".toList, "f.07".toList]
    ["f.00".toList, "f.01".toList] '0' (by decide) ⟨[], rfl⟩ (by decide +kernel)
  exact absurd this (by decide)

/-- **C86, provable part**: the file is one of the parts if its suffix is a number of the numbering that was
chosen, written with exactly the padding used, and not beyond the last part. Missing: suffixes that are not
part of the gap-free sequence. -/
theorem C86_included_partial (dir basename extension : Str) (candidates parts : List Str) (c : Char)
    (hdot : '.' ∉ extension)
    (h : checkSplit (dir ++ (basename ++ '.' :: extension)) (basename ++ '.' :: extension) candidates
      = .ok (some (parts, c))) :
    ∃ base start, base ∈ numberings.map (·.2) ∧ start ≤ 1 ∧
      ∀ i, start ≤ i → i < start + parts.length → formatNumber i base extension.length = .ok extension →
        dir ++ (basename ++ '.' :: extension) ∈ parts := by
  obtain ⟨⟨base, start, suffixes, hb, hs, -, hp, hall, -, hnum, -, -⟩⟩ :=
    C13_gap_free_partial dir basename extension candidates parts c hdot h
  refine ⟨base, start, hb, hs, ?_⟩
  intro i hi1 hi2 hf
  rw [hp, List.length_map] at hi2
  rw [hp, List.mem_map]
  refine ⟨extension, ?_, by simp⟩
  have : (Except.ok extension : Except PyErr Str) ∈ suffixes.map .ok := by
    rw [hnum, List.mem_map]
    exact ⟨i, by rw [List.mem_range'_1]; omega, hf⟩
  rw [List.mem_map] at this
  obtain ⟨s, hs', he⟩ := this
  cases he
  exact hs'

example : '.' ∉ "01".toList ∧ checkSplit "f.01".toList "f.01".toList ["f.01".toList, "f.00".toList]
    = .ok (some (["f.00".toList, "f.01".toList], '0')) ∧
    formatNumber 1 "0123456789".toList 2 = .ok "01".toList := by decide +kernel

/-! ## C87: returned parts exist -/

/-- The full statement of C87: whatever the path resolves to, every returned part is a listed file of the
folder of the path. -/
def C87_statement : Prop :=
  ∀ (dir name : Str) (filename : Str) (candidates parts : List Str) (c : Char), '/' ∉ name → name ∈ candidates →
    checkSplit (dir ++ name) filename candidates = .ok (some (parts, c)) →
    ∀ p ∈ parts, ∃ n ∈ candidates, p = dir ++ n

/-- **C87 is violated by the code** for a symbolic link: the numbers come from the target's siblings, the
names from the link. -/
theorem C87_violated : ¬ C87_statement := by
  intro h
  obtain ⟨n, hn, he⟩ := h [] "link.1".toList "f.1".toList ["link.1".toList, "f.1".toList, "f.2".toList]
    ["link.1".toList, "link.2".toList] '0' (by decide) (by decide) (by decide +kernel) "link.2".toList (by decide)
  rw [List.nil_append] at he
  subst he
  exact absurd hn (by decide)

/-- **C87, provable part**: without symbolic links every returned part is listed. Missing: links whose target
has another name. -/
theorem C87_parts_listed_partial (dir basename extension : Str) (candidates parts : List Str) (c : Char)
    (hdot : '.' ∉ extension)
    (h : checkSplit (dir ++ (basename ++ '.' :: extension)) (basename ++ '.' :: extension) candidates
      = .ok (some (parts, c))) : ∀ p ∈ parts, ∃ n ∈ candidates, p = dir ++ n := by
  obtain ⟨⟨base, start, suffixes, -, -, -, hp, hall, -⟩⟩ :=
    C13_gap_free_partial dir basename extension candidates parts c hdot h
  intro p hpp
  rw [hp, List.mem_map] at hpp
  obtain ⟨s, hs, rfl⟩ := hpp
  exact ⟨_, (hall s hs).1, by simp⟩

example : '.' ∉ "1".toList ∧ checkSplit "d/f.1".toList "f.1".toList ["f.1".toList, "f.2".toList]
    = .ok (some (["d/f.1".toList, "d/f.2".toList], '0')) := by decide +kernel

end Verif.Names
