import Verif.PyStr
import Verif.Py
import Verif.Dict

/-!
# Stripping suffixes (C84)

`compile_suffix_rules` and `strip_suffix` of core/ratarmountcore/compressions.py:180-264.

Simplified: of the syntax of `fnmatch`, `*` and `?` are modelled, character classes in brackets are not (a bracket stands for itself);
`re.IGNORECASE` compares ASCII letters only; the table `EXTENSIONS_BY_CATEGORY` is a parameter.
-/

namespace Verif.Suffix

open Verif.Py (Str rsplit1)

/-! ## globs -/

/-- A piece of a translated glob (Python library, `fnmatch.translate`, used at compressions.py:195). -/
inductive Tok where
  | lit (c : Char)
  | one
  | many
  deriving DecidableEq

/-- `fnmatch.translate` without character classes (used at compressions.py:195). -/
def tokens : Str → List Tok
  | [] => []
  | c :: cs => (if c = '*' then .many else if c = '?' then .one else .lit c) :: tokens cs

/-- Equality with `re.IGNORECASE`, ASCII only (compressions.py:195-197). -/
def sameLetter (a b : Char) : Bool := a.toLower == b.toLower

/-- All ends of a string, longest first (for `.*` in compressions.py:195). -/
def ends : Str → List Str
  | [] => [[]]
  | c :: cs => (c :: cs) :: ends cs

/-- Whether the translated glob, followed by `\Z`, matches at the begin of a string (compressions.py:191-199). -/
def globMatch : List Tok → Str → Bool
  | [], s => s.isEmpty
  | .lit c :: ts, s => match s with
    | [] => false
    | d :: s => sameLetter c d && globMatch ts s
  | .one :: ts, s => match s with
    | [] => false
    | _ :: s => globMatch ts s
  | .many :: ts, s => (ends s).any (fun t => globMatch ts t)

/-- The dot is added if it is missing (compressions.py:195). -/
def dotted (p : Str) : Str := if p.head? = some '.' then p else '.' :: p

/-! ## regular expressions of rules -/

/-- The regular expressions of rules (compressions.py:187-199). -/
inductive Regex where
  /-- `glob_patterns_to_regex` (compressions.py:191-199). -/
  | globs (ps : List Str)
  /-- `FIRST_SPLIT_EXTENSION_REGEX` (compressions.py:187). -/
  | splitExt
  deriving DecidableEq

/-- `ExtensionRule` (compressions.py:181-184). -/
structure Rule where
  incl : Bool
  regex : Regex
  deriving DecidableEq

/-- The first position at which a condition holds for the rest (Python library, `re.search`, used at compressions.py:247-262). -/
def leftmost (P : Str → Bool) : Str → Option Nat
  | [] => if P [] then some 0 else none
  | c :: cs => if P (c :: cs) then some 0 else (leftmost P cs).map (· + 1)

/-- The length of what `([a]+|[A]+|0*[01])` matches at the begin of a string (compressions.py:187). -/
def splitExtLen (s : Str) : Option Nat :=
  let a := (s.takeWhile (· = 'a')).length
  let b := (s.takeWhile (· = 'A')).length
  let z := (s.takeWhile (· = '0')).length
  if a ≠ 0 then some a
  else if b ≠ 0 then some b
  else if (s.drop z).head? = some '1' then some (z + 1)
  else if z ≠ 0 then some z
  else none

/-- `finditer` of `FIRST_SPLIT_EXTENSION_REGEX`: begins and ends of the matches (compressions.py:187, 247-262). -/
def splitScan (pos : Nat) : Str → List (Nat × Nat)
  | [] => []
  | c :: cs =>
    if c = '.' then
      match splitExtLen cs with
      | some n => (pos, pos + 1 + n) :: splitScan (pos + 1 + n) (cs.drop n)
      | none => splitScan (pos + 1) cs
    else splitScan (pos + 1) cs
termination_by s => s.length
decreasing_by
  all_goals simp only [List.length_cons, List.length_drop]; omega

/-- The last match of `finditer` (compressions.py:247-262). A glob ends with `\Z` and begins with a dot. So it has at most one match, the leftmost. -/
def lastMatch (r : Regex) (name : Str) : Option (Nat × Nat) :=
  match r with
  | .globs ps => (leftmost (fun s => ps.any (fun p => globMatch (tokens (dotted p)) s)) name).map (fun st => (st, name.length))
  | .splitExt => (splitScan 0 name).getLast?

/-! ## `compile_suffix_rules` (compressions.py:190-234) -/

/-- Removing the endings that negate a pattern, a slash and a minus sign (compressions.py:207-211), on the reversed pattern. -/
def negations : Str → Bool × Str
  | '-' :: '/' :: rest => (!(negations rest).1, (negations rest).2)
  | rest => (true, rest)

/-- Whether a pattern includes, and the pattern without the negations (compressions.py:207-213). -/
def polarity (pattern : Str) : Bool × Str :=
  let r := negations pattern.reverse
  (r.1, r.2.reverse)

/-- The category (compressions.py:213). -/
def category (pattern : Str) : Str :=
  if pattern.head? = some '/' then Verif.Py.rstrip '/' (Verif.Py.lstrip '/' pattern) else []

/-- The state of the loop: the rules, `last_include` and `last_patterns` (compressions.py:200-203). -/
structure Compiler where
  rules : List Rule
  inc : Bool
  patterns : List Str

/-- Closing a group (compressions.py:216-219, 232-233). -/
def Compiler.flush (c : Compiler) : List Rule := if c.patterns = [] then c.rules else c.rules ++ [⟨c.inc, .globs c.patterns⟩]

/-- One round of the loop (compressions.py:204-230). -/
def Compiler.add (categories : Dict Str (List Str)) (c : Compiler) (pattern : Str) : Compiler :=
  let inc := (polarity pattern).1
  let pattern := (polarity pattern).2
  let cat := category pattern
  let c := if inc ≠ c.inc ∨ cat = "split".toList then ⟨c.flush, inc, []⟩ else c
  if cat ≠ [] then
    if cat = "split".toList then { c with rules := c.rules ++ [⟨inc, .splitExt⟩] }
    else match categories.get? cat with
      | some es => { c with patterns := c.patterns ++ es }
      | none => c
  else { c with patterns := c.patterns ++ [pattern] }

/-- `compile_suffix_rules` (compressions.py:190-234). -/
def compile (categories : Dict Str (List Str)) (patterns : List Str) : List Rule :=
  (patterns.foldl (Compiler.add categories) ⟨[], true, []⟩).flush

/-! ## `strip_suffix` (compressions.py:237-264) -/

/-- One round of the loop (compressions.py:243-262). -/
def step (original name : Str) (r : Rule) : Str :=
  match lastMatch r.regex original with
  | none => name
  | some (start, stop) =>
    if stop = original.length then
      if r.incl then
        let new := original.take start
        if name = original ∨ (name = [] ∧ new ≠ original) ∨ (new ≠ [] ∧ new.length < name.length) then new else name
      else original
    else name

/-- The new name (compressions.py:242-262). -/
def stripName (rules : List Rule) (original : Str) : Str := rules.foldl (step original) original

/-- `strip_suffix` (compressions.py:237-264). -/
def stripSuffix (path : Str) (rules : List Rule) : Str :=
  match rsplit1 '/' path with
  | none => stripName rules path
  | some (folder, name) => folder ++ '/' :: stripName rules name

/-! ## specification -/

/-- What a glob stands for. -/
inductive GlobMatches : Str → Str → Prop
  | nil : GlobMatches [] []
  | star (p s t : Str) : GlobMatches p t → GlobMatches ('*' :: p) (s ++ t)
  | any (p s : Str) (c : Char) : GlobMatches p s → GlobMatches ('?' :: p) (c :: s)
  | lit (p s : Str) (c d : Char) : c ≠ '*' → c ≠ '?' → c.toLower = d.toLower → GlobMatches p s → GlobMatches (c :: p) (d :: s)

/-- A kind of suffix. -/
inductive Item where
  | glob (p : Str)
  | split

/-- The names of the first part of a split file: `aa`, `AA`, `000`, `001`. -/
def FirstPart (ext : Str) : Prop :=
  (ext ≠ [] ∧ ∀ c ∈ ext, c = 'a') ∨ (ext ≠ [] ∧ ∀ c ∈ ext, c = 'A') ∨
  ∃ zeros last, ext = zeros ++ [last] ∧ (∀ c ∈ zeros, c = '0') ∧ (last = '0' ∨ last = '1')

/-- The suffixes of a kind, each beginning with a dot. -/
def Item.Is : Item → Str → Prop
  | .glob p, suffix => GlobMatches (if ['.'] <+: p then p else '.' :: p) suffix
  | .split, suffix => ∃ ext, suffix = '.' :: ext ∧ FirstPart ext

/-- A name has a suffix of a kind. -/
def Item.Ends (it : Item) (name : Str) : Prop := ∃ keep suffix, name = keep ++ suffix ∧ it.Is suffix

/-- What one pattern means: the kinds of suffixes and whether they are included or excluded. -/
def meaning (categories : Dict Str (List Str)) (pattern : Str) : List (Bool × Item) :=
  let inc := (polarity pattern).1
  let cat := category (polarity pattern).2
  if cat = "split".toList then [(inc, .split)]
  else if cat = [] then [(inc, .glob (polarity pattern).2)]
  else ((categories.get? cat).getD []).map (fun e => (inc, .glob e))

/-- A kind of suffix that is included, that the name has, and that is not excluded by a later pattern matching the name. -/
def Active (items : List (Bool × Item)) (name : Str) (it : Item) : Prop :=
  it.Ends name ∧ ∃ before after, items = before ++ (true, it) :: after ∧ ∀ x, (false, x) ∈ after → ¬ x.Ends name

/-- The third part of C84: a name never becomes empty. -/
def C84_nonempty_statement : Prop :=
  ∀ (categories : Dict Str (List Str)) (patterns : List Str) (name : Str), name ≠ [] → '/' ∉ name →
    stripSuffix name (compile categories patterns) ≠ []

/-! ## proofs: globs -/

theorem mem_ends (s : Str) : ∀ t, t ∈ ends s ↔ ∃ pre, s = pre ++ t := by
  induction s with
  | nil => intro t; simp [ends]
  | cons c s ih =>
    intro t
    rw [ends, List.mem_cons, ih]
    constructor
    · rintro (rfl | ⟨pre, rfl⟩)
      · exact ⟨[], rfl⟩
      · exact ⟨c :: pre, rfl⟩
    · rintro ⟨pre, h⟩
      cases pre with
      | nil => exact Or.inl h.symm
      | cons x pre => exact Or.inr ⟨pre, by cases h; rfl⟩

theorem globMatch_iff : ∀ (p s : Str), globMatch (tokens p) s = true ↔ GlobMatches p s := by
  intro p
  induction p with
  | nil =>
    intro s
    rw [tokens, globMatch, List.isEmpty_iff]
    constructor
    · rintro rfl; exact .nil
    · intro h; cases h; rfl
  | cons c p ih =>
    intro s
    rw [tokens]
    by_cases hs : c = '*'
    · rw [if_pos hs, globMatch, List.any_eq_true]
      subst hs
      constructor
      · rintro ⟨t, ht, hg⟩
        obtain ⟨pre, rfl⟩ := (mem_ends s t).mp ht
        exact .star p pre t ((ih t).mp hg)
      · intro h
        cases h with
        | star _ s t h => exact ⟨t, (mem_ends _ t).mpr ⟨s, rfl⟩, (ih t).mpr h⟩
        | lit _ _ _ _ h1 => exact absurd rfl h1
    · rw [if_neg hs]
      by_cases hq : c = '?'
      · rw [if_pos hq]
        subst hq
        cases s with
        | nil => constructor <;> intro h <;> cases h
        | cons d s =>
          rw [globMatch]
          constructor
          · intro h; exact .any p s d ((ih s).mp h)
          · intro h
            cases h with
            | any _ _ _ h => exact (ih s).mpr h
            | lit _ _ _ _ _ h2 => exact absurd rfl h2
      · rw [if_neg hq]
        cases s with
        | nil =>
          constructor
          · intro h; cases h
          · intro h
            generalize hl : ([] : Str) = l at h
            cases h with
            | star => exact absurd rfl hs
            | any => cases hl
            | lit => cases hl
        | cons d s =>
          rw [globMatch, Bool.and_eq_true]
          unfold sameLetter
          rw [beq_iff_eq]
          constructor
          · rintro ⟨h1, h2⟩; exact .lit p s c d hs hq h1 ((ih s).mp h2)
          · intro h
            generalize hl : d :: s = l at h
            cases h with
            | star => exact absurd rfl hs
            | any => exact absurd rfl hq
            | lit _ s' _ d' _ _ h1 h2 =>
              cases hl
              exact ⟨h1, (ih s).mpr h2⟩

theorem dotted_eq (p : Str) : dotted p = if ['.'] <+: p then p else '.' :: p := by
  unfold dotted
  cases p with
  | nil => rfl
  | cons c p =>
    by_cases h : c = '.'
    · rw [if_pos (by rw [h]; rfl), if_pos ⟨p, by rw [h]; rfl⟩]
    · rw [if_neg (by simpa using h), if_neg]
      rintro ⟨t, ht⟩
      cases ht
      exact h rfl

theorem glob_is (p s : Str) : globMatch (tokens (dotted p)) s = true ↔ (Item.glob p).Is s := by
  rw [globMatch_iff, dotted_eq]
  exact Iff.rfl

theorem glob_nonempty (p : Str) : ¬ (Item.glob p).Is [] := by
  intro h
  have h : GlobMatches (if ['.'] <+: p then p else '.' :: p) [] := h
  have : ∃ q, (if ['.'] <+: p then p else '.' :: p) = '.' :: q := by
    split
    · next hp => obtain ⟨q, hq⟩ := hp; exact ⟨q, hq.symm⟩
    · exact ⟨p, rfl⟩
  obtain ⟨q, hq⟩ := this
  rw [hq] at h
  cases h

theorem item_nonempty (it : Item) : ¬ it.Is [] := by
  cases it with
  | glob p => exact glob_nonempty p
  | split => rintro ⟨ext, h, _⟩; cases h

/-! ## proofs: regular expressions -/

theorem leftmost_some (P : Str → Bool) : ∀ (s : Str) (n : Nat), leftmost P s = some n →
    n ≤ s.length ∧ P (s.drop n) = true ∧ ∀ keep suffix, s = keep ++ suffix → P suffix = true → n ≤ keep.length := by
  intro s
  induction s with
  | nil =>
    intro n h
    rw [leftmost] at h
    split at h
    · next hp => cases h; exact ⟨Nat.le_refl _, hp, fun _ _ _ _ => Nat.zero_le _⟩
    · cases h
  | cons c s ih =>
    intro n h
    rw [leftmost] at h
    split at h
    · next hp => cases h; exact ⟨Nat.zero_le _, hp, fun _ _ _ _ => Nat.zero_le _⟩
    · next hp =>
      cases hl : leftmost P s with
      | none => rw [hl] at h; cases h
      | some m =>
        rw [hl] at h
        cases h
        obtain ⟨h1, h2, h3⟩ := ih m hl
        refine ⟨Nat.succ_le_succ h1, h2, ?_⟩
        intro keep suffix he hs
        cases keep with
        | nil =>
          rw [List.nil_append] at he
          rw [he] at hp
          exact absurd hs hp
        | cons x keep =>
          cases he
          exact Nat.succ_le_succ (h3 keep suffix rfl hs)

theorem leftmost_none (P : Str → Bool) : ∀ (s : Str), leftmost P s = none → ∀ keep suffix, s = keep ++ suffix → P suffix = false := by
  intro s
  induction s with
  | nil =>
    intro h keep suffix he
    obtain ⟨_, rfl⟩ := List.append_eq_nil_iff.mp he.symm
    rw [leftmost] at h
    split at h
    · cases h
    · next hp => exact Bool.eq_false_iff.mpr hp
  | cons c s ih =>
    intro h keep suffix he
    rw [leftmost] at h
    split at h
    · cases h
    · next hp =>
      cases hl : leftmost P s with
      | some m => rw [hl] at h; cases h
      | none =>
        cases keep with
        | nil =>
          rw [List.nil_append] at he
          rw [← he]
          exact Bool.eq_false_iff.mpr hp
        | cons x keep =>
          cases he
          exact ih hl keep suffix rfl

theorem takeWhile_all {α : Type} (P : α → Bool) : ∀ (s : List α), (s.takeWhile P).length = s.length → ∀ c ∈ s, P c = true := by
  intro s
  induction s with
  | nil => intro _ c hc; cases hc
  | cons x s ih =>
    intro h c hc
    rw [List.takeWhile_cons] at h
    split at h
    · next hx =>
      rcases List.mem_cons.mp hc with rfl | hc
      · exact hx
      · exact ih (by simpa using h) c hc
    · simp at h

theorem takeWhile_of_all {α : Type} (P : α → Bool) (s : List α) (h : ∀ c ∈ s, P c = true) : s.takeWhile P = s := by
  induction s with
  | nil => rfl
  | cons x s ih =>
    rw [List.takeWhile_cons, if_pos (h x List.mem_cons_self), ih (fun c hc => h c (List.mem_cons_of_mem _ hc))]

theorem takeWhile_append_stop {α : Type} (P : α → Bool) (a : List α) (c : α) (b : List α) (ha : ∀ x ∈ a, P x = true) (hc : P c = false) :
    (a ++ c :: b).takeWhile P = a := by
  induction a with
  | nil => rw [List.nil_append, List.takeWhile_cons, hc]; rfl
  | cons x a ih =>
    rw [List.cons_append, List.takeWhile_cons, if_pos (ha x List.mem_cons_self), ih (fun y hy => ha y (List.mem_cons_of_mem _ hy))]

/-- What is matched after a dot is the begin of the text and is the name of a first part. -/
theorem splitExtLen_some (s : Str) (n : Nat) (h : splitExtLen s = some n) : n ≤ s.length ∧ FirstPart (s.take n) := by
  have hpre : ∀ P : Char → Bool, (s.takeWhile P).length ≤ s.length ∧ s.take (s.takeWhile P).length = s.takeWhile P := by
    intro P
    have := List.takeWhile_prefix P (l := s)
    exact ⟨this.length_le, (List.prefix_iff_eq_take.mp this).symm⟩
  have hall : ∀ P : Char → Bool, ∀ c ∈ s.takeWhile P, P c = true := by
    intro P c hc
    exact (List.all_eq_true.mp (List.all_takeWhile (p := P) (l := s))) c hc
  unfold splitExtLen at h
  simp only at h
  split at h
  · next ha =>
    cases h
    obtain ⟨h1, h2⟩ := hpre (· = 'a')
    refine ⟨h1, Or.inl ⟨?_, ?_⟩⟩
    · rw [h2]; intro h0; rw [h0] at ha; exact ha rfl
    · rw [h2]; intro c hc; simpa using hall _ c hc
  · split at h
    · next hb =>
      cases h
      obtain ⟨h1, h2⟩ := hpre (· = 'A')
      refine ⟨h1, Or.inr (Or.inl ⟨?_, ?_⟩)⟩
      · rw [h2]; intro h0; rw [h0] at hb; exact hb rfl
      · rw [h2]; intro c hc; simpa using hall _ c hc
    · obtain ⟨h1, h2⟩ := hpre (· = '0')
      split at h
      · next hd =>
        cases h
        generalize hz : (s.takeWhile (fun x => decide (x = '0'))).length = z at *
        have hlt : z < s.length := by
          rcases Nat.lt_or_ge z s.length with hl | hl
          · exact hl
          · rw [List.drop_eq_nil_of_le hl] at hd; cases hd
        refine ⟨hlt, Or.inr (Or.inr ⟨s.take z, '1', ?_, ?_, Or.inr rfl⟩)⟩
        · rw [List.take_add_one, ← List.head?_drop, hd]; rfl
        · rw [h2]; intro c hc; simpa using hall _ c hc
      · split at h
        · next hz0 =>
          cases h
          refine ⟨h1, Or.inr (Or.inr ?_)⟩
          rw [h2]
          have hne : s.takeWhile (fun x => decide (x = '0')) ≠ [] := by
            intro h0; rw [h0] at hz0; exact hz0 rfl
          refine ⟨(s.takeWhile (fun x => decide (x = '0'))).dropLast, '0', ?_, ?_, Or.inl rfl⟩
          · have hl : (s.takeWhile (fun x => decide (x = '0'))).getLast hne = '0' := by
              simpa using hall _ _ (List.getLast_mem hne)
            conv => lhs; rw [← List.dropLast_concat_getLast hne, hl]
          · intro c hc; simpa using hall _ c (List.dropLast_subset _ hc)
        · cases h

theorem firstPart_all {s : Str} (h : FirstPart s) : splitExtLen s = some s.length := by
  unfold splitExtLen
  simp only
  rcases h with ⟨hne, h⟩ | ⟨hne, h⟩ | ⟨zeros, last, rfl, hz, hl⟩
  · rw [takeWhile_of_all _ s (by simpa using h), if_pos (by simpa using hne)]
  · have h0 : s.takeWhile (fun x => decide (x = 'a')) = [] := by
      cases s with
      | nil => rfl
      | cons c s => rw [List.takeWhile_cons, h c List.mem_cons_self]; rfl
    rw [h0, if_neg (by simp), takeWhile_of_all _ s (by simpa using h), if_pos (by simpa using hne)]
  · have h0 : ∀ d : Char, d ≠ '0' → d ≠ '1' → (zeros ++ [last]).takeWhile (fun x => decide (x = d)) = [] := by
      intro d h0 h1
      cases zeros with
      | nil =>
        rw [List.nil_append, List.takeWhile_cons]
        have : last ≠ d := by rcases hl with rfl | rfl <;> intro h; exact h0 h.symm; exact h1 h.symm
        rw [if_neg (by simpa using this)]
      | cons c zeros =>
        rw [List.cons_append, List.takeWhile_cons, hz c List.mem_cons_self]
        rw [if_neg (by simpa using fun h : '0' = d => h0 h.symm)]
    rw [h0 'a' (by decide) (by decide), if_neg (by simp), h0 'A' (by decide) (by decide), if_neg (by simp)]
    rcases hl with rfl | rfl
    · rw [takeWhile_of_all _ (zeros ++ ['0']) (by intro c hc; rcases List.mem_append.mp hc with h | h; exact decide_eq_true (hz c h); exact decide_eq_true (List.mem_singleton.mp h)), List.drop_length]
      simp
    · rw [takeWhile_append_stop _ zeros '1' [] (by simpa using hz) (by decide), List.drop_left' rfl]
      simp

theorem firstPart_noDot {s : Str} (h : FirstPart s) : '.' ∉ s := by
  intro hm
  rcases h with ⟨_, h⟩ | ⟨_, h⟩ | ⟨zeros, last, rfl, hz, hl⟩
  · exact absurd (h _ hm) (by decide)
  · exact absurd (h _ hm) (by decide)
  · rcases List.mem_append.mp hm with hm | hm
    · exact absurd (hz _ hm) (by decide)
    · rw [List.mem_singleton] at hm
      rcases hl with rfl | rfl <;> exact absurd hm (by decide)

theorem firstPart_nonempty {s : Str} (h : FirstPart s) : s ≠ [] := by
  rcases h with ⟨h, _⟩ | ⟨h, _⟩ | ⟨zeros, last, rfl, _⟩
  · exact h
  · exact h
  · simp

theorem take_noDot (keep ext : Str) (n : Nat) (h : '.' ∉ (keep ++ '.' :: ext).take n) : n ≤ keep.length := by
  rcases Nat.lt_or_ge keep.length n with hl | hl
  · exfalso
    apply h
    rw [List.take_append, List.mem_append]
    right
    obtain ⟨m, hm⟩ : ∃ m, n - keep.length = m + 1 := ⟨n - keep.length - 1, by omega⟩
    rw [hm, List.take_succ_cons]
    exact List.mem_cons_self
  · exact hl

/-- Every match lies in the text, begins with a dot and has the name of a first part. -/
theorem splitScan_mem (pos : Nat) (s : Str) : ∀ m ∈ splitScan pos s, pos ≤ m.1 ∧ m.2 ≤ pos + s.length ∧
    ∃ ext rest, s.drop (m.1 - pos) = '.' :: (ext ++ rest) ∧ FirstPart ext ∧ m.2 = m.1 + 1 + ext.length := by
  fun_induction splitScan pos s with
  | case1 => intro m hm; cases hm
  | case2 pos cs n hn ih =>
    intro m hm
    obtain ⟨h1, h2⟩ := splitExtLen_some cs n hn
    rcases List.mem_cons.mp hm with rfl | hm
    · refine ⟨Nat.le_refl _, by simp only [List.length_cons]; omega, cs.take n, cs.drop n, ?_, h2, ?_⟩
      · simp
      · simp only [List.length_take]; omega
    · obtain ⟨i1, i2, ext, rest, i3, i4, i5⟩ := ih m hm
      rw [List.length_drop] at i2
      refine ⟨by omega, by simp only [List.length_cons]; omega, ext, rest, ?_, i4, i5⟩
      rw [List.drop_drop] at i3
      rw [show m.1 - pos = (n + (m.1 - (pos + 1 + n))) + 1 by omega, List.drop_succ_cons]
      exact i3
  | case3 pos cs hn ih =>
    intro m hm
    obtain ⟨i1, i2, ext, rest, i3, i4, i5⟩ := ih m hm
    refine ⟨by omega, by simp only [List.length_cons]; omega, ext, rest, ?_, i4, i5⟩
    rw [show m.1 - pos = (m.1 - (pos + 1)) + 1 by omega, List.drop_succ_cons]
    exact i3
  | case4 pos c cs hc ih =>
    intro m hm
    obtain ⟨i1, i2, ext, rest, i3, i4, i5⟩ := ih m hm
    refine ⟨by omega, by simp only [List.length_cons]; omega, ext, rest, ?_, i4, i5⟩
    rw [show m.1 - pos = (m.1 - (pos + 1)) + 1 by omega, List.drop_succ_cons]
    exact i3

/-- A first part at the end is the last match. -/
theorem splitScan_end (pos : Nat) (s : Str) : ∀ keep ext, s = keep ++ '.' :: ext → FirstPart ext →
    (splitScan pos s).getLast? = some (pos + keep.length, pos + s.length) := by
  have last_cons : ∀ (x : Nat × Nat) (l : List (Nat × Nat)) (y : Nat × Nat), l.getLast? = some y → (x :: l).getLast? = some y := by
    intro x l y h
    cases l with
    | nil => cases h
    | cons z l => rw [List.getLast?_cons_cons]; exact h
  fun_induction splitScan pos s with
  | case1 => intro keep ext h; simp at h
  | case2 pos cs n hn ih =>
    intro keep ext h hf
    cases keep with
    | nil =>
      cases h
      rw [firstPart_all hf] at hn
      cases hn
      rw [List.drop_length, splitScan]
      simp only [List.getLast?_singleton, List.length_nil, List.length_cons, Option.some.injEq, Prod.mk.injEq]
      omega
    | cons x keep =>
      cases h
      obtain ⟨h1, h2⟩ := splitExtLen_some _ n hn
      have hle : n ≤ keep.length := take_noDot keep ext n (firstPart_noDot h2)
      apply last_cons
      rw [ih (keep.drop n) ext (List.drop_append_of_le_length hle) hf]
      simp only [List.length_drop, List.length_cons, Option.some.injEq, Prod.mk.injEq]
      omega
  | case3 pos cs hn ih =>
    intro keep ext h hf
    cases keep with
    | nil =>
      cases h
      rw [firstPart_all hf] at hn
      cases hn
    | cons x keep =>
      cases h
      rw [ih keep ext rfl hf]
      simp only [List.length_cons, Option.some.injEq, Prod.mk.injEq]
      omega
  | case4 pos c cs hc ih =>
    intro keep ext h hf
    cases keep with
    | nil => cases h; exact absurd rfl hc
    | cons x keep =>
      cases h
      rw [ih keep ext rfl hf]
      simp only [List.length_cons, Option.some.injEq, Prod.mk.injEq]
      omega

/-- The kinds of suffixes of a regular expression. -/
def Regex.items : Regex → List Item
  | .globs ps => ps.map .glob
  | .splitExt => [.split]

/-- The begin of the last match if it ends at the end. -/
def hit (r : Regex) (name : Str) : Option Nat :=
  match lastMatch r name with
  | none => none
  | some (start, stop) => if stop = name.length then some start else none

theorem hit_some (r : Regex) (name : Str) (n : Nat) (h : hit r name = some n) :
    (∃ it ∈ r.items, it.Is (name.drop n)) ∧ n < name.length ∧
    ∀ it ∈ r.items, ∀ keep suffix, name = keep ++ suffix → it.Is suffix → n ≤ keep.length := by
  unfold hit at h
  cases r with
  | globs ps =>
    simp only [lastMatch] at h
    cases hl : leftmost (fun s => ps.any (fun p => globMatch (tokens (dotted p)) s)) name with
    | none => rw [hl] at h; cases h
    | some m =>
      rw [hl] at h
      simp only [Option.map_some, if_true] at h
      cases h
      obtain ⟨h1, h2, h3⟩ := leftmost_some _ _ _ hl
      obtain ⟨p, hp, hg⟩ := List.any_eq_true.mp h2
      have his := (glob_is p _).mp hg
      refine ⟨⟨.glob p, List.mem_map.mpr ⟨p, hp, rfl⟩, his⟩, ?_, ?_⟩
      · rcases Nat.lt_or_ge n name.length with hlt | hge
        · exact hlt
        · rw [List.drop_eq_nil_of_le hge] at his
          exact absurd his (glob_nonempty p)
      · intro it hit keep suffix he hs
        obtain ⟨q, hq, rfl⟩ := List.mem_map.mp hit
        exact h3 keep suffix he (List.any_eq_true.mpr ⟨q, hq, (glob_is q _).mpr hs⟩)
  | splitExt =>
    simp only [lastMatch] at h
    cases hl : (splitScan 0 name).getLast? with
    | none => rw [hl] at h; cases h
    | some m =>
      obtain ⟨st, en⟩ := m
      rw [hl] at h
      simp only at h
      split at h
      · next hen =>
        cases h
        obtain ⟨_, h2, ext, rest, h3, h4, h5⟩ := splitScan_mem 0 name _ (List.mem_of_getLast? hl)
        simp only [Nat.sub_zero] at h3 h5
        have hlen := congrArg List.length h3
        rw [List.length_drop, List.length_cons, List.length_append] at hlen
        have hrest : rest = [] := List.length_eq_zero_iff.mp (by omega)
        rw [hrest, List.append_nil] at h3
        refine ⟨⟨.split, List.mem_singleton.mpr rfl, ext, h3, h4⟩, by omega, ?_⟩
        intro it hit keep suffix he hs
        rw [List.mem_singleton.mp hit] at hs
        obtain ⟨ext', rfl, hf⟩ := hs
        have := splitScan_end 0 name keep ext' he hf
        rw [hl] at this
        simp only [Option.some.injEq, Prod.mk.injEq] at this
        omega
      · cases h

theorem hit_none (r : Regex) (name : Str) (h : hit r name = none) : ∀ it ∈ r.items, ¬ it.Ends name := by
  rintro it hit' ⟨keep, suffix, he, hs⟩
  unfold hit at h
  cases r with
  | globs ps =>
    simp only [lastMatch] at h
    cases hl : leftmost (fun s => ps.any (fun p => globMatch (tokens (dotted p)) s)) name with
    | some m =>
      rw [hl] at h
      simp only [Option.map_some, if_true] at h
      cases h
    | none =>
      obtain ⟨q, hq, rfl⟩ := List.mem_map.mp hit'
      have h1 := leftmost_none _ _ hl keep suffix he
      have h2 : ps.any (fun p => globMatch (tokens (dotted p)) suffix) = true :=
        List.any_eq_true.mpr ⟨q, hq, (glob_is q _).mpr hs⟩
      rw [h2] at h1
      cases h1
  | splitExt =>
    simp only [lastMatch] at h
    rw [List.mem_singleton.mp hit'] at hs
    obtain ⟨ext', rfl, hf⟩ := hs
    rw [splitScan_end 0 name keep ext' he hf] at h
    simp only [Nat.zero_add, if_true] at h
    cases h

theorem step_none (original name : Str) (r : Rule) (h : hit r.regex original = none) : step original name r = name := by
  unfold hit at h
  unfold step
  cases hl : lastMatch r.regex original with
  | none => rfl
  | some m =>
    obtain ⟨st, en⟩ := m
    rw [hl] at h
    simp only at h ⊢
    split at h
    · cases h
    · next hne => rw [if_neg hne]

theorem step_some (original name : Str) (r : Rule) (n : Nat) (h : hit r.regex original = some n) :
    step original name r = if r.incl then
      (if name = original ∨ (name = [] ∧ original.take n ≠ original) ∨ (original.take n ≠ [] ∧ (original.take n).length < name.length)
        then original.take n else name)
      else original := by
  unfold hit at h
  unfold step
  cases hl : lastMatch r.regex original with
  | none => rw [hl] at h; cases h
  | some m =>
    obtain ⟨st, en⟩ := m
    rw [hl] at h
    simp only at h ⊢
    split at h
    · next he => cases h; rw [if_pos he]
    · cases h

/-! ## proofs: the compiled rules keep the order of the patterns -/

/-- The kinds of suffixes of rules, in order. -/
def ruleItems (rs : List Rule) : List (Bool × Item) := rs.flatMap (fun r => r.regex.items.map (fun it => (r.incl, it)))

theorem ruleItems_append (a b : List Rule) : ruleItems (a ++ b) = ruleItems a ++ ruleItems b := by
  unfold ruleItems; exact List.flatMap_append

theorem ruleItems_flush (c : Compiler) : ruleItems c.flush = ruleItems c.rules ++ c.patterns.map (fun p => (c.inc, .glob p)) := by
  unfold Compiler.flush
  split
  · next h => rw [h, List.map_nil, List.append_nil]
  · rw [ruleItems_append]
    simp [ruleItems, Regex.items]

theorem ruleItems_add (categories : Dict Str (List Str)) (c : Compiler) (pattern : Str) :
    ruleItems (c.add categories pattern).flush = ruleItems c.flush ++ meaning categories pattern := by
  unfold Compiler.add meaning
  simp only
  generalize (polarity pattern).1 = inc
  generalize (polarity pattern).2 = pat
  generalize category pat = cat
  by_cases hs : cat = "split".toList
  · have hne : cat ≠ [] := by rw [hs]; decide
    rw [if_pos (Or.inr hs), if_pos hne, if_pos hs, if_pos hs, ruleItems_flush]
    simp only [List.map_nil, List.append_nil]
    rw [ruleItems_append]
    simp [ruleItems, Regex.items]
  · rw [if_neg hs, if_neg hs]
    have hopen : ∀ c' : Compiler, c' = (if inc ≠ c.inc ∨ cat = "split".toList then ⟨c.flush, inc, []⟩ else c) →
        c'.inc = inc ∧ ruleItems c.flush = ruleItems c'.rules ++ c'.patterns.map (fun p => (inc, .glob p)) := by
      intro c' hc'
      by_cases hi : inc ≠ c.inc
      · rw [if_pos (Or.inl hi)] at hc'
        rw [hc']
        exact ⟨rfl, by simp⟩
      · rw [if_neg (by rintro (h | h); exact hi h; exact hs h)] at hc'
        rw [hc']
        have hi' : inc = c.inc := Classical.not_not.mp hi
        exact ⟨hi'.symm, by rw [ruleItems_flush, hi']⟩
    obtain ⟨h1, h2⟩ := hopen _ rfl
    revert h1 h2
    generalize (if inc ≠ c.inc ∨ cat = "split".toList then (⟨c.flush, inc, []⟩ : Compiler) else c) = c'
    intro h1 h2
    rw [h2]
    by_cases hn : cat = []
    · rw [if_neg (Classical.not_not.mpr hn), if_pos hn, ruleItems_flush]
      simp [h1]
    · rw [if_pos hn, if_neg hn]
      cases hg : categories.get? cat with
      | none =>
        simp only [Option.getD_none, List.map_nil, List.append_nil]
        rw [ruleItems_flush, h1]
      | some es =>
        simp only [Option.getD_some]
        rw [ruleItems_flush]
        simp [h1]

theorem ruleItems_compile (categories : Dict Str (List Str)) (patterns : List Str) :
    ruleItems (compile categories patterns) = patterns.flatMap (meaning categories) := by
  unfold compile
  have : ∀ (ps : List Str) (c : Compiler),
      ruleItems (ps.foldl (Compiler.add categories) c).flush = ruleItems c.flush ++ ps.flatMap (meaning categories) := by
    intro ps
    induction ps with
    | nil => intro c; simp
    | cons p ps ih =>
      intro c
      rw [List.foldl_cons, ih, ruleItems_add, List.flatMap_cons, List.append_assoc]
  rw [this]
  rfl

/-! ## proofs: the loop -/

theorem not_active_nil (name : Str) (it : Item) : ¬ Active [] name it := by
  rintro ⟨_, before, after, h, _⟩
  have := congrArg List.length h
  simp at this

theorem active_exclude (items : List (Bool × Item)) (its : List Item) (name : Str) (it : Item) :
    Active (items ++ its.map (fun x => (false, x))) name it ↔ Active items name it ∧ ∀ x ∈ its, ¬ x.Ends name := by
  constructor
  · rintro ⟨he, before, after, h, hx⟩
    rcases List.append_eq_append_iff.mp h with ⟨m, rfl, hm⟩ | ⟨m, rfl, hm⟩
    · exfalso
      have : (true, it) ∈ its.map (fun x => (false, x)) := by rw [hm]; simp
      obtain ⟨y, _, hy⟩ := List.mem_map.mp this
      cases hy
    · cases m with
      | nil =>
        exfalso
        rw [List.nil_append] at hm
        have : (true, it) ∈ its.map (fun x => (false, x)) := by rw [← hm]; simp
        obtain ⟨y, _, hy⟩ := List.mem_map.mp this
        cases hy
      | cons a m =>
        rw [List.cons_append] at hm
        obtain ⟨ha, hm2⟩ := List.cons.inj hm
        subst ha
        refine ⟨⟨he, before, m, rfl, ?_⟩, ?_⟩
        · intro x hxm
          exact hx x (by rw [hm2]; exact List.mem_append_left _ hxm)
        · intro x hxi
          exact hx x (by rw [hm2]; exact List.mem_append_right _ (List.mem_map.mpr ⟨x, hxi, rfl⟩))
  · rintro ⟨⟨he, before, after, rfl, hx⟩, hn⟩
    refine ⟨he, before, after ++ its.map (fun x => (false, x)), by simp, ?_⟩
    intro x hxm
    rcases List.mem_append.mp hxm with h | h
    · exact hx x h
    · obtain ⟨y, hy, he⟩ := List.mem_map.mp h
      cases he
      exact hn x hy

theorem active_include (items : List (Bool × Item)) (its : List Item) (name : Str) (it : Item) :
    Active (items ++ its.map (fun x => (true, x))) name it ↔ Active items name it ∨ (it ∈ its ∧ it.Ends name) := by
  constructor
  · rintro ⟨he, before, after, h, hx⟩
    rcases List.append_eq_append_iff.mp h with ⟨m, rfl, hm⟩ | ⟨m, rfl, hm⟩
    · right
      refine ⟨?_, he⟩
      have : (true, it) ∈ its.map (fun x => (true, x)) := by rw [hm]; simp
      obtain ⟨y, hy, he⟩ := List.mem_map.mp this
      cases he
      exact hy
    · cases m with
      | nil =>
        right
        refine ⟨?_, he⟩
        rw [List.nil_append] at hm
        have : (true, it) ∈ its.map (fun x => (true, x)) := by rw [← hm]; simp
        obtain ⟨y, hy, he⟩ := List.mem_map.mp this
        cases he
        exact hy
      | cons a m =>
        rw [List.cons_append] at hm
        obtain ⟨ha, hm2⟩ := List.cons.inj hm
        subst ha
        left
        refine ⟨he, before, m, rfl, ?_⟩
        intro x hxm
        exact hx x (by rw [hm2]; exact List.mem_append_left _ hxm)
  · rintro (⟨he, before, after, rfl, hx⟩ | ⟨hm, he⟩)
    · refine ⟨he, before, after ++ its.map (fun x => (true, x)), by simp, ?_⟩
      intro x hxm
      rcases List.mem_append.mp hxm with h | h
      · exact hx x h
      · obtain ⟨y, _, hy⟩ := List.mem_map.mp h
        cases hy
    · obtain ⟨a, b, rfl⟩ := List.append_of_mem hm
      refine ⟨he, items ++ a.map (fun x => (true, x)), b.map (fun x => (true, x)), by simp, ?_⟩
      intro x hx
      obtain ⟨y, _, hy⟩ := List.mem_map.mp hx
      cases hy

/-- What is known about the name after some rules. -/
structure Inv (items : List (Bool × Item)) (original name : Str) : Prop where
  /-- Without an active kind, nothing changed. -/
  unchanged : (∀ it, ¬ Active items original it) → name = original
  /-- With an active kind, a suffix was removed. -/
  stripped : (∃ it, Active items original it) → ∃ it suffix, Active items original it ∧ original = name ++ suffix ∧ it.Is suffix
  /-- It is the longest one, unless a kind covers the whole name. -/
  longest : (∀ it, Active items original it → ¬ it.Is original) →
    ∀ it, Active items original it → ∀ keep suffix, original = keep ++ suffix → it.Is suffix → name.length ≤ keep.length

theorem take_ne {s : Str} {n : Nat} (h : n < s.length) : s.take n ≠ s := by
  intro he
  have := congrArg List.length he
  rw [List.length_take] at this
  omega

theorem inv_step (items : List (Bool × Item)) (original name : Str) (r : Rule) (h : Inv items original name) :
    Inv (items ++ r.regex.items.map (fun it => (r.incl, it))) original (step original name r) := by
  cases hh : hit r.regex original with
  | none =>
    rw [step_none _ _ _ hh]
    have hno := hit_none _ _ hh
    have hact : ∀ it, Active (items ++ r.regex.items.map (fun it => (r.incl, it))) original it ↔ Active items original it := by
      intro it
      cases r.incl with
      | true =>
        rw [active_include]
        exact ⟨fun h => h.elim id (fun h => absurd h.2 (hno it h.1)), Or.inl⟩
      | false =>
        rw [active_exclude]
        exact ⟨fun h => h.1, fun h => ⟨h, hno⟩⟩
    exact ⟨fun hn => h.unchanged (fun it hi => hn it ((hact it).mpr hi)),
      fun ⟨it, hi⟩ => by
        obtain ⟨it', s, h1, h2, h3⟩ := h.stripped ⟨it, (hact it).mp hi⟩
        exact ⟨it', s, (hact it').mpr h1, h2, h3⟩,
      fun hne it hi => h.longest (fun it hi => hne it ((hact it).mpr hi)) it ((hact it).mp hi)⟩
  | some n =>
    rw [step_some _ _ _ _ hh]
    obtain ⟨⟨it0, hm0, his0⟩, hlt, hmin⟩ := hit_some _ _ _ hh
    have hends : it0.Ends original := ⟨original.take n, original.drop n, (List.take_append_drop n original).symm, his0⟩
    cases hi : r.incl with
    | false =>
      rw [if_neg (by simp)]
      have hact : ∀ it, ¬ Active (items ++ r.regex.items.map (fun it => (false, it))) original it := by
        intro it h
        exact ((active_exclude _ _ _ _).mp h).2 it0 hm0 hends
      exact ⟨fun _ => rfl, fun ⟨it, h⟩ => absurd h (hact it), fun _ it h => absurd h (hact it)⟩
    | true =>
      rw [if_pos rfl]
      have hact0 : Active (items ++ r.regex.items.map (fun it => (true, it))) original it0 :=
        (active_include _ _ _ _).mpr (Or.inr ⟨hm0, hends⟩)
      have hnew : ∃ it suffix, Active (items ++ r.regex.items.map (fun it => (true, it))) original it ∧
          original = original.take n ++ suffix ∧ it.Is suffix :=
        ⟨it0, original.drop n, hact0, (List.take_append_drop n original).symm, his0⟩
      have hlen : (original.take n).length = n := by rw [List.length_take]; omega
      have hold : ∀ it, Active items original it → Active (items ++ r.regex.items.map (fun it => (true, it))) original it :=
        fun it h => (active_include _ _ _ _).mpr (Or.inl h)
      have hproper : (∃ it, Active items original it) → name ≠ original := by
        intro hex hc
        obtain ⟨it', s, _, h2, h3⟩ := h.stripped hex
        rw [hc] at h2
        have : s = [] := by
          have := congrArg List.length h2
          rw [List.length_append] at this
          exact List.length_eq_zero_iff.mp (by omega)
        rw [this] at h3
        exact item_nonempty it' h3
      by_cases hc : name = original ∨ (name = [] ∧ original.take n ≠ original) ∨
          (original.take n ≠ [] ∧ (original.take n).length < name.length)
      · rw [if_pos hc]
        refine ⟨fun hn => absurd hact0 (hn it0), fun _ => hnew, ?_⟩
        intro hne it hit keep suffix he hs
        rcases (active_include _ _ _ _).mp hit with ha | ⟨hm, _⟩
        · rcases hc with hc | ⟨hc, _⟩ | ⟨_, hc⟩
          · exact absurd hc (hproper ⟨it, ha⟩)
          · exfalso
            obtain ⟨it', s, h1, h2, h3⟩ := h.stripped ⟨it, ha⟩
            rw [hc, List.nil_append] at h2
            rw [← h2] at h3
            exact hne it' (hold it' h1) h3
          · have := h.longest (fun it hi => hne it (hold it hi)) it ha keep suffix he hs
            omega
        · rw [hlen]
          exact hmin it hm keep suffix he hs
      · rw [if_neg hc]
        simp only [not_or, not_and] at hc
        obtain ⟨hc1, hc2, hc3⟩ := hc
        have hex : ∃ it, Active items original it := by
          apply Classical.byContradiction
          intro hno
          exact hc1 (h.unchanged (fun it hi => hno ⟨it, hi⟩))
        refine ⟨fun hn => absurd hact0 (hn it0), ?_, ?_⟩
        · intro _
          obtain ⟨it', s, h1, h2, h3⟩ := h.stripped hex
          exact ⟨it', s, hold it' h1, h2, h3⟩
        · intro hne it hit keep suffix he hs
          rcases (active_include _ _ _ _).mp hit with ha | ⟨hm, _⟩
          · exact h.longest (fun it hi => hne it (hold it hi)) it ha keep suffix he hs
          · have h1 := hmin it hm keep suffix he hs
            have h2 : original.take n ≠ [] := by
              intro h0
              apply hne it0 hact0
              have : n = 0 := by rw [← hlen, h0]; rfl
              rw [this, List.drop_zero] at his0
              exact his0
            have h3 := hc3 h2
            omega

theorem inv_rules (original : Str) : ∀ (rs : List Rule) (items : List (Bool × Item)) (name : Str), Inv items original name →
    Inv (items ++ ruleItems rs) original (rs.foldl (step original) name) := by
  intro rs
  induction rs with
  | nil => intro items name h; simpa [ruleItems] using h
  | cons r rs ih =>
    intro items name h
    have := ih _ _ (inv_step items original name r h)
    rw [List.append_assoc] at this
    exact this

theorem inv_compiled (categories : Dict Str (List Str)) (patterns : List Str) (original : Str) :
    Inv (patterns.flatMap (meaning categories)) original (stripName (compile categories patterns) original) := by
  have := inv_rules original (compile categories patterns) [] original
    ⟨fun _ => rfl, fun ⟨it, h⟩ => absurd h (not_active_nil _ it), fun _ it h => absurd h (not_active_nil _ it)⟩
  rw [ruleItems_compile, List.nil_append] at this
  exact this

theorem strip_folder (rules : List Rule) (folder name : Str) (h : '/' ∉ name) :
    stripSuffix (folder ++ '/' :: name) rules = folder ++ '/' :: stripSuffix name rules := by
  unfold stripSuffix
  rw [Verif.Py.rsplit1_append folder name h, Verif.Py.rsplit1_none.mpr h]

/-- **C84**: folders are left alone. -/
theorem C84_folder (rules : List Rule) (folder name : Str) (h : '/' ∉ name) :
    stripSuffix (folder ++ '/' :: name) rules = folder ++ '/' :: stripSuffix name rules := strip_folder rules folder name h

/-- **C84**: a name without a suffix that is included (and not excluded by a later pattern) is unchanged. -/
theorem C84_unchanged (categories : Dict Str (List Str)) (patterns : List Str) (name : Str) (hs : '/' ∉ name)
    (h : ∀ it, ¬ Active (patterns.flatMap (meaning categories)) name it) :
    stripSuffix name (compile categories patterns) = name := by
  unfold stripSuffix
  rw [Verif.Py.rsplit1_none.mpr hs]
  exact (inv_compiled categories patterns name).unchanged h

/-- **C84**: of any other name, a suffix of an active kind is removed, beginning with a dot. -/
theorem C84_stripped (categories : Dict Str (List Str)) (patterns : List Str) (name : Str) (hs : '/' ∉ name)
    (h : ∃ it, Active (patterns.flatMap (meaning categories)) name it) :
    ∃ it suffix, Active (patterns.flatMap (meaning categories)) name it ∧ it.Is suffix ∧ suffix ≠ [] ∧
      name = stripSuffix name (compile categories patterns) ++ suffix := by
  obtain ⟨it, suffix, h1, h2, h3⟩ := (inv_compiled categories patterns name).stripped h
  refine ⟨it, suffix, h1, h3, ?_, ?_⟩
  · intro h0; rw [h0] at h3; exact item_nonempty it h3
  · unfold stripSuffix
    rw [Verif.Py.rsplit1_none.mpr hs]
    exact h2

/-- **C84**, provable part: unless the whole name is a suffix, the longest suffix is removed and the name does not become empty. Missing:
names which are suffixes as a whole. -/
theorem C84_longest_partial (categories : Dict Str (List Str)) (patterns : List Str) (name : Str) (hs : '/' ∉ name) (hn : name ≠ [])
    (hw : ∀ it, Active (patterns.flatMap (meaning categories)) name it → ¬ it.Is name) :
    stripSuffix name (compile categories patterns) ≠ [] ∧
    ∀ it, Active (patterns.flatMap (meaning categories)) name it → ∀ keep suffix, name = keep ++ suffix → it.Is suffix →
      (stripSuffix name (compile categories patterns)).length ≤ keep.length := by
  have hi := inv_compiled categories patterns name
  unfold stripSuffix
  rw [Verif.Py.rsplit1_none.mpr hs]
  refine ⟨?_, hi.longest hw⟩
  intro h0
  by_cases hex : ∃ it, Active (patterns.flatMap (meaning categories)) name it
  · obtain ⟨it, suffix, h1, h2, h3⟩ := hi.stripped hex
    simp only at h0
    rw [h0, List.nil_append] at h2
    rw [← h2] at h3
    exact hw it h1 h3
  · exact hn ((hi.unchanged (fun it h => hex ⟨it, h⟩)).symm.trans h0)

/-- **C84**: each ending of a slash and a minus sign negates a pattern. -/
theorem C84_negation (pattern : Str) :
    polarity (pattern ++ ['/', '-']) = (!(polarity pattern).1, (polarity pattern).2) ∧
    (¬ ['/', '-'] <:+ pattern → polarity pattern = (true, pattern)) := by
  constructor
  · unfold polarity
    rw [List.reverse_append]
    show ((negations ('-' :: '/' :: pattern.reverse)).1, (negations ('-' :: '/' :: pattern.reverse)).2.reverse) = _
    rw [negations]
  · intro h
    unfold polarity
    have : negations pattern.reverse = (true, pattern.reverse) := by
      unfold negations
      split
      · next rest he =>
        exfalso
        apply h
        refine ⟨rest.reverse, ?_⟩
        have := congrArg List.reverse he
        rw [List.reverse_reverse] at this
        rw [this]
        simp
      · rfl
    rw [this]
    simp

/-- **C84**: a word between slashes is a category, any other pattern is a glob. -/
theorem C84_category (word : Str) (h : '/' ∉ word) :
    category ('/' :: word ++ ['/']) = word ∧ category ('/' :: word) = word ∧ category word = [] := by
  have hl : ∀ t, Verif.Py.lstrip '/' ('/' :: word ++ t) = Verif.Py.lstrip '/' (word ++ t) := by
    intro t; unfold Verif.Py.lstrip; rw [List.cons_append, List.dropWhile_cons]; simp
  have h1 : ∀ (w t : Str), '/' ∉ w → w ≠ [] → Verif.Py.lstrip '/' (w ++ t) = w ++ t := by
    intro w t hw hne
    cases w with
    | nil => exact absurd rfl hne
    | cons c w =>
      unfold Verif.Py.lstrip
      rw [List.cons_append, List.dropWhile_cons, if_neg]
      simp only [decide_eq_true_eq]
      rintro rfl
      exact hw List.mem_cons_self
  have h2 : Verif.Py.rstrip '/' word = word := by
    unfold Verif.Py.rstrip
    by_cases hne : word = []
    · rw [hne]; rfl
    · have := h1 word.reverse [] (by simpa using h) (by simpa using hne)
      rw [List.append_nil] at this
      unfold Verif.Py.lstrip at this
      rw [this, List.reverse_reverse]
  have h3 : Verif.Py.rstrip '/' (word ++ ['/']) = word := by
    have : Verif.Py.rstrip '/' (word ++ ['/']) = Verif.Py.rstrip '/' word := by
      unfold Verif.Py.rstrip
      rw [List.reverse_append, List.reverse_singleton, List.singleton_append, List.dropWhile_cons]
      simp
    rw [this, h2]
  refine ⟨?_, ?_, ?_⟩
  · unfold category
    rw [if_pos (show List.head? ('/' :: word ++ ['/']) = some '/' from rfl), hl]
    by_cases hne : word = []
    · rw [hne]; rfl
    · rw [h1 word _ h hne, h3]
  · unfold category
    rw [if_pos (show List.head? ('/' :: word) = some '/' from rfl)]
    have := hl []
    rw [List.append_nil, List.append_nil] at this
    rw [this]
    by_cases hne : word = []
    · rw [hne]; rfl
    · have := h1 word [] h hne
      rw [List.append_nil] at this
      rw [this, h2]
  · unfold category
    rw [if_neg]
    intro h0
    exact h (List.mem_of_mem_head? h0)

/-- C84 is violated: the name ".gz" becomes empty. -/
theorem C84_violated : ¬ C84_nonempty_statement := by
  intro h
  exact h [] ["gz".toList] ".gz".toList (by decide) (by decide) (by decide +kernel)

/-- It also becomes empty if a shorter suffix could be removed. -/
example : stripSuffix ".tar.gz".toList (compile [] ["gz".toList, "tar.gz".toList]) = [] := by decide +kernel

/-- With a rule between them, the shorter suffix is removed. -/
example : stripSuffix ".tar.gz".toList (compile [] ["gz".toList, "x".toList ++ ['/', '-'], "tar.gz".toList]) = ".tar".toList := by
  decide +kernel

/-- Categories, split files, negations. -/
def sampleCategories : Dict Str (List Str) := [("all".toList, ["gz".toList, "tar.gz".toList, "bz2".toList])]

example : stripSuffix "a.b/c.d.TAR.gz".toList (compile sampleCategories ["/all/".toList]) = "a.b/c.d".toList := by decide +kernel

example : stripSuffix "c.bz2".toList (compile sampleCategories ["/all/".toList, "b*".toList ++ ['/', '-']]) = "c.bz2".toList := by
  decide +kernel

example : stripSuffix "c.aa.001".toList (compile sampleCategories ["/all/".toList, "/split/".toList]) = "c.aa".toList := by
  decide +kernel

/-- The suffix ".gz" of "c.gz" is active. -/
example : ∃ it, Active (["gz".toList].flatMap (meaning [])) "c.gz".toList it := by
  refine ⟨.glob "gz".toList, ⟨"c".toList, ".gz".toList, by decide, ?_⟩, [], [], ?_, fun x hx => by cases hx⟩
  · exact (glob_is _ _).mp (by decide +kernel)
  · have h : polarity "gz".toList = (true, "gz".toList) := by decide
    have h2 : category "gz".toList = [] := by decide
    rw [List.flatMap_cons, List.flatMap_nil, List.append_nil, List.nil_append]
    unfold meaning
    simp only [h, h2]
    rfl

end Verif.Suffix
