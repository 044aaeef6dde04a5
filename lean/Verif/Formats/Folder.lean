import Verif.Py
import Verif.PyStr

/-!
# C73, C74: mounted folders
(core/ratarmountcore/mountsource/formats/folder.py:15-28, 66-142, 183-187)

The file system is represented by what the system calls give for a path of the mount; joining paths with the root (66-68) is part of
that.
-/

namespace Verif.Folder

open Verif.Py

/-- The fields of `os.stat_result` that are used (folder.py:71-82). -/
structure Stat where
  size : Nat
  mtime : Int
  mode : Nat
  uid : Nat
  gid : Nat
  deriving DecidableEq, Repr

/-- `FileInfo`; the last field is the path in `userdata` (folder.py:71-82). -/
structure Info where
  stat : Stat
  linkname : Str
  path : Str
  deriving DecidableEq, Repr

/-- What the system calls give for a path of the mount (folder.py:98-172). -/
structure Host where
  /-- `os.lstat`. -/
  lstat : Str → Option Stat
  /-- `os.readlink`, nothing for an `OSError`. -/
  readlink : Str → Option Str
  /-- `os.path.realpath` and `os.stat` of it, if it exists. -/
  resolve : Str → Option (Str × Stat)
  /-- `os.scandir` with the stats of the entries, if it is a folder. -/
  scandir : Str → Option (List (Str × Stat))

/-- `os.path.isabs` (used at folder.py:15-28). -/
def isabs (s : Str) : Bool := startsWith ['/'] s

/-- The loop of `max_up_count` (folder.py:20-27). -/
def upLoop : List Str → Int → Int → Int
  | [], result, _ => result
  | part :: parts, result, up =>
    if part = ['.', '.'] then upLoop parts (max result (up + 1)) (up + 1)
    else if part = ['.'] ∨ part = [] then upLoop parts result up
    else upLoop parts result (up - 1)

/-- `max_up_count` (folder.py:15-28). -/
def maxUpCount (path : Str) : Int := if isabs path then 0 else upLoop (split '/' path) 0 0

/-- `path.strip('/').count('/')` (folder.py:15-28). -/
def depth (path : Str) : Nat := (rstrip '/' (lstrip '/' path)).count '/'

/-- `lookup` (folder.py:101-128). -/
def lookup (h : Host) (path : Str) (version : Int) : Option Info :=
  if version ≠ 0 ∧ version ≠ 1 then none
  else match h.lstat path with
    | none => none
    | some st => match h.readlink path with
      | none => some ⟨st, [], lstrip '/' path⟩
      | some link =>
        if isabs link = false ∧ maxUpCount link > depth path then
          match h.resolve path with
          | some (real, st') => some ⟨st', [], real⟩
          | none => some ⟨st, link, lstrip '/' path⟩
        else some ⟨st, link, lstrip '/' path⟩

/-- `_stats_to_file_info` (folder.py:71-81). -/
def statsToInfo (st : Stat) (path linkname : Str) : Info := ⟨st, linkname, path⟩

/-- `_dir_entry_to_file_info` (folder.py:85-91): `path` and its real path are those of the folder. -/
def dirEntryToInfo (h : Host) (path : Str) (name : Str) (st : Stat) : Info :=
  let linkname := if (h.readlink (path ++ '/' :: name)).isSome then (h.readlink path).getD [] else []
  statsToInfo st linkname path

/-- `list` (folder.py:131-139). -/
def list (h : Host) (path : Str) : Option (List (Str × Info)) :=
  (h.scandir path).map (fun es => es.map (fun e => (e.1, dirEntryToInfo h path e.1 e.2)))

/-! ## specification -/

/-- The entries of a folder are what `os.lstat` gives for them. -/
structure Consistent (h : Host) : Prop where
  entry : ∀ p es n st, h.scandir p = some es → (n, st) ∈ es → h.lstat (p ++ '/' :: n) = some st
  all : ∀ p es n, h.scandir p = some es → (h.lstat (p ++ '/' :: n)).isSome → n ≠ [] → '/' ∉ n → ∃ st, (n, st) ∈ es

/-- What a listing says about an entry is what a lookup says. -/
def C73_statement : Prop :=
  ∀ (h : Host), Consistent h → ∀ p es n i, list h p = some es → (n, i) ∈ es → lookup h (p ++ '/' :: n) 0 = some i

/-- Walking along the components of a path from a folder that is `d` levels below the root: does it leave the root? -/
def leaves : Nat → List Str → Bool
  | _, [] => false
  | d, part :: parts =>
    if part = ['.', '.'] then decide (d = 0) || leaves (d - 1) parts
    else if part = ['.'] ∨ part = [] then leaves d parts
    else leaves (d + 1) parts

/-- The link at this path points outside of the folder and something is there. -/
def Outside (h : Host) (path : Str) : Prop :=
  ∃ link, h.readlink path = some link ∧ isabs link = false ∧ maxUpCount link > depth path ∧ (h.resolve path).isSome

/-! ## proofs -/

theorem upLoop_spec : ∀ (parts : List Str) (result up : Int) (d : Nat), 0 ≤ result →
    (upLoop parts result up > (d : Int) + up ↔ result > (d : Int) + up ∨ leaves d parts = true) := by
  intro parts
  induction parts with
  | nil => intro result up d _; simp [upLoop, leaves]
  | cons part parts ih =>
    intro result up d hr
    rw [upLoop, leaves]
    by_cases h1 : part = ['.', '.']
    · rw [if_pos h1, if_pos h1]
      cases d with
      | zero =>
        have mono : ∀ (ps : List Str) (r u : Int), upLoop ps r u ≥ r := by
          intro ps
          induction ps with
          | nil => intro r u; exact Int.le_refl _
          | cons q ps ih =>
            intro r u
            rw [upLoop]
            split
            · have := ih (max r (u + 1)) (u + 1); omega
            · split
              · exact ih r u
              · exact ih r (u - 1)
        have := mono parts (max result (up + 1)) (up + 1)
        constructor
        · intro _; exact Or.inr (by simp)
        · intro _; simp only [Int.natCast_zero]; omega
      | succ d =>
        have := ih (max result (up + 1)) (up + 1) d (by omega)
        rw [show ((d + 1 : Nat) : Int) + up = (d : Int) + (up + 1) by omega]
        have hd : (decide (d + 1 = 0) || leaves (d + 1 - 1) parts) = leaves d parts := by simp
        rw [hd, this]
        constructor
        · rintro (h | h)
          · exact Or.inl (by omega)
          · exact Or.inr h
        · rintro (h | h)
          · exact Or.inl (by omega)
          · exact Or.inr h
    · rw [if_neg h1, if_neg h1]
      by_cases h2 : part = ['.'] ∨ part = []
      · rw [if_pos h2, if_pos h2]
        exact ih result up d hr
      · rw [if_neg h2, if_neg h2]
        have := ih result (up - 1) (d + 1) hr
        rw [show ((d + 1 : Nat) : Int) + (up - 1) = (d : Int) + up by omega] at this
        exact this

theorem isabs_iff (s : Str) : isabs s = false ↔ s.head? ≠ some '/' := by
  unfold isabs startsWith
  cases s with
  | nil => simp [List.isPrefixOf]
  | cons c s =>
    simp only [List.isPrefixOf_cons_cons, List.isPrefixOf_nil_left, Bool.and_true, List.head?_cons, ne_eq, Option.some.injEq]
    rw [beq_eq_false_iff_ne]
    exact ⟨fun h e => h e.symm, fun h e => h e.symm⟩

/-- **C74**: for a relative target, the count is above the depth exactly if walking along it leaves the root. -/
theorem C74_exact (target : Str) (d : Nat) (h : target.head? ≠ some '/') :
    maxUpCount target > (d : Int) ↔ leaves d (split '/' target) = true := by
  replace h := (isabs_iff target).mpr h
  unfold maxUpCount
  rw [if_neg (by rw [h]; simp)]
  have := upLoop_spec (split '/' target) 0 0 d (by omega)
  simp only [Int.add_zero] at this
  rw [this]
  constructor
  · rintro (h | h)
    · omega
    · exact h
  · exact Or.inr

/-- **C74**: the count is the smallest depth that is enough. -/
theorem C74_count (target : Str) (h : target.head? ≠ some '/') :
    0 ≤ maxUpCount target ∧ ∀ d : Nat, leaves d (split '/' target) = false ↔ maxUpCount target ≤ (d : Int) := by
  constructor
  · unfold maxUpCount
    rw [if_neg (by rw [(isabs_iff target).mpr h]; simp)]
    have mono : ∀ (ps : List Str) (r u : Int), upLoop ps r u ≥ r := by
      intro ps
      induction ps with
      | nil => intro r u; exact Int.le_refl _
      | cons q ps ih =>
        intro r u
        rw [upLoop]
        split
        · have := ih (max r (u + 1)) (u + 1); omega
        · split
          · exact ih r u
          · exact ih r (u - 1)
    exact mono _ _ _
  · intro d
    have := C74_exact target d h
    constructor
    · intro hf
      rcases Int.lt_or_le (d : Int) (maxUpCount target) with hlt | hle
      · rw [this.mp hlt] at hf; cases hf
      · exact hle
    · intro hle
      cases hl : leaves d (split '/' target) with
      | false => rfl
      | true => have := this.mpr hl; omega

example : maxUpCount "a/../../b/./..//../x".toList = 2 ∧ leaves 1 (split '/' "a/../../b/./..//../x".toList) = true := by decide

theorem count_join (ps : List Str) (hne : ps ≠ []) (h : ∀ p ∈ ps, '/' ∉ p) : (join '/' ps).count '/' = ps.length - 1 := by
  induction ps with
  | nil => exact absurd rfl hne
  | cons p ps ih =>
    have hp : p.count '/' = 0 := List.count_eq_zero.mpr (h p List.mem_cons_self)
    cases ps with
    | nil => simpa [join] using hp
    | cons q qs =>
      have := ih (by simp) (fun x hx => h x (List.mem_cons_of_mem _ hx))
      rw [join]
      rw [List.count_append, hp, List.count_cons, this]
      simp

theorem strip_join (ps : List Str) (hne : ps ≠ []) (h : ∀ p ∈ ps, '/' ∉ p ∧ p ≠ []) :
    rstrip '/' (lstrip '/' ('/' :: join '/' ps)) = join '/' ps := by
  have hhead : ∀ c, (join '/' ps).head? = some c → c ≠ '/' := by
    intro c hc
    cases ps with
    | nil => exact absurd rfl hne
    | cons p ps =>
      obtain ⟨hp, hpe⟩ := h p List.mem_cons_self
      cases p with
      | nil => exact absurd rfl hpe
      | cons x p =>
        have : (join '/' ((x :: p) :: ps)).head? = some x := by
          cases ps <;> simp [join]
        rw [this] at hc
        injection hc with hc
        subst hc
        intro he
        exact hp (by rw [he]; exact List.mem_cons_self)
  have hlast : ∀ c, (join '/' ps).getLast? = some c → c ≠ '/' := by
    clear hhead
    intro c hc
    induction ps with
    | nil => exact absurd rfl hne
    | cons p ps ih =>
      obtain ⟨hp, hpe⟩ := h p List.mem_cons_self
      cases ps with
      | nil =>
        simp only [join] at hc
        intro he
        exact hp (he ▸ List.mem_of_getLast? hc)
      | cons q qs =>
        have hqs := h q (List.mem_cons_of_mem _ List.mem_cons_self)
        rw [join] at hc
        have hne' : join '/' (q :: qs) ≠ [] := by
          cases qs with
          | nil => simpa [join] using hqs.2
          | cons r rs => simp [join]
        have hl : (p ++ '/' :: join '/' (q :: qs)).getLast? = (join '/' (q :: qs)).getLast? := by
          rw [show p ++ '/' :: join '/' (q :: qs) = (p ++ ['/']) ++ join '/' (q :: qs) by simp, List.getLast?_append,
            List.getLast?_eq_some_getLast hne']
          rfl
        rw [hl] at hc
        exact ih (by simp) (fun x hx => h x (List.mem_cons_of_mem _ hx)) hc
  have h1 : lstrip '/' ('/' :: join '/' ps) = join '/' ps := by
    unfold lstrip
    rw [List.dropWhile_cons_of_pos (by simp)]
    cases hj : join '/' ps with
    | nil => rfl
    | cons x xs =>
      have := hhead x (by rw [hj]; rfl)
      rw [List.dropWhile_cons_of_neg (by simpa using this)]
  rw [h1]
  unfold rstrip
  have h2 : (join '/' ps).reverse.dropWhile (· = '/') = (join '/' ps).reverse := by
    cases hj : (join '/' ps).reverse with
    | nil => rfl
    | cons x xs =>
      have := hlast x (by rw [← List.head?_reverse, hj]; rfl)
      rw [List.dropWhile_cons_of_neg (by simpa using this)]
  rw [h2, List.reverse_reverse]

/-- **C74** in lookups: a link at a path with these components is replaced by what it points to exactly if it leaves the folder and
something is there. -/
theorem C74_lookup (h : Host) (ps : List Str) (hne : ps ≠ []) (hps : ∀ p ∈ ps, '/' ∉ p ∧ p ≠ []) (st : Stat) (link : Str)
    (hst : h.lstat ('/' :: join '/' ps) = some st) (hlink : h.readlink ('/' :: join '/' ps) = some link) (hrel : link.head? ≠ some '/') :
    lookup h ('/' :: join '/' ps) 0 = match leaves (ps.length - 1) (split '/' link), h.resolve ('/' :: join '/' ps) with
      | true, some (real, st') => some ⟨st', [], real⟩
      | _, _ => some ⟨st, link, join '/' ps⟩ := by
  have hd : depth ('/' :: join '/' ps) = ps.length - 1 := by
    unfold depth
    rw [strip_join ps hne hps, count_join ps hne (fun p hp => (hps p hp).1)]
  have hl : lstrip '/' ('/' :: join '/' ps) = join '/' ps := by
    have := strip_join ps hne hps
    unfold lstrip
    rw [List.dropWhile_cons_of_pos (by simp)]
    cases hj : join '/' ps with
    | nil => rfl
    | cons x xs =>
      have hx : x ≠ '/' := by
        cases ps with
        | nil => exact absurd rfl hne
        | cons p ps =>
          obtain ⟨hp, hpe⟩ := hps p List.mem_cons_self
          cases p with
          | nil => exact absurd rfl hpe
          | cons y p =>
            have h1 : (join '/' ((y :: p) :: ps)).head? = some y := by cases ps <;> simp [join]
            rw [hj] at h1
            simp only [List.head?_cons, Option.some.injEq] at h1
            subst h1
            intro he
            exact hp (by rw [he]; exact List.mem_cons_self)
      rw [List.dropWhile_cons_of_neg (by simpa using hx)]
  unfold lookup
  rw [if_neg (by simp), hst]
  simp only [hlink, (isabs_iff link).mpr hrel, true_and, hl]
  have := C74_exact link (depth ('/' :: join '/' ps)) hrel
  rw [hd] at this ⊢
  cases hlv : leaves (ps.length - 1) (split '/' link) with
  | true =>
    rw [if_pos (this.mpr hlv)]
    cases h.resolve ('/' :: join '/' ps) with
    | none => rfl
    | some r => rfl
  | false =>
    rw [if_neg (fun hgt => by rw [this.mp hgt] at hlv; cases hlv)]

/-- **C74**: links to absolute paths are shown as they are, and nothing counts as leaving the folder. -/
theorem C74_absolute (h : Host) (path : Str) (st : Stat) (rest : Str) (hst : h.lstat path = some st) (hlink : h.readlink path = some ('/' :: rest)) :
    lookup h path 0 = some ⟨st, '/' :: rest, lstrip '/' path⟩ ∧ maxUpCount ('/' :: rest) = 0 := by
  have ha : isabs ('/' :: rest) = true := by simp [isabs, startsWith, List.isPrefixOf]
  unfold lookup maxUpCount
  rw [if_neg (by simp), hst]
  simp only [hlink, ha, Bool.true_eq_false, false_and, if_false, if_true]
  exact ⟨trivial, trivial⟩

/-- **C73**, provable part: sizes, times, modes and owners of a listing are those of lookups, except for links that point outside.
Missing: link targets, what is needed to open the file, and links that point outside. -/
theorem C73_stat_partial (h : Host) (hc : Consistent h) (p : Str) (es : List (Str × Info)) (n : Str) (i : Info)
    (hl : list h p = some es) (hm : (n, i) ∈ es) (hout : ¬ Outside h (p ++ '/' :: n)) :
    ∃ j, lookup h (p ++ '/' :: n) 0 = some j ∧ j.stat = i.stat := by
  unfold list at hl
  cases hs : h.scandir p with
  | none => rw [hs] at hl; cases hl
  | some raw =>
    rw [hs] at hl
    simp only [Option.map_some, Option.some.injEq] at hl
    subst hl
    obtain ⟨⟨n', st⟩, hmem, he⟩ := List.mem_map.mp hm
    simp only [Prod.mk.injEq] at he
    obtain ⟨rfl, rfl⟩ := he
    have hst := hc.entry p raw n' st hs hmem
    unfold lookup
    rw [if_neg (by simp), hst]
    simp only
    cases hr : h.readlink (p ++ '/' :: n') with
    | none => exact ⟨_, rfl, rfl⟩
    | some link =>
      simp only
      split
      · next hcond =>
        cases hres : h.resolve (p ++ '/' :: n') with
        | none => exact ⟨_, rfl, rfl⟩
        | some r => exact absurd ⟨link, hr, hcond.1, hcond.2, by rw [hres]; rfl⟩ hout
      · exact ⟨_, rfl, rfl⟩

/-- **C73**: a listing has exactly the names that exist. -/
theorem C73_names (h : Host) (hc : Consistent h) (p : Str) (es : List (Str × Info)) (hl : list h p = some es) (n : Str)
    (hn : n ≠ []) (hs : '/' ∉ n) : (∃ i, (n, i) ∈ es) ↔ (lookup h (p ++ '/' :: n) 0).isSome := by
  have hlook : (lookup h (p ++ '/' :: n) 0).isSome = (h.lstat (p ++ '/' :: n)).isSome := by
    unfold lookup
    rw [if_neg (by simp)]
    cases h.lstat (p ++ '/' :: n) with
    | none => rfl
    | some st =>
      simp only
      cases h.readlink (p ++ '/' :: n) with
      | none => rfl
      | some link =>
        simp only
        split
        · cases h.resolve (p ++ '/' :: n) <;> rfl
        · rfl
  rw [hlook]
  unfold list at hl
  cases hsc : h.scandir p with
  | none => rw [hsc] at hl; cases hl
  | some raw =>
    rw [hsc] at hl
    simp only [Option.map_some, Option.some.injEq] at hl
    subst hl
    constructor
    · rintro ⟨i, hm⟩
      obtain ⟨⟨n', st⟩, hmem, he⟩ := List.mem_map.mp hm
      simp only [Prod.mk.injEq] at he
      obtain ⟨rfl, _⟩ := he
      rw [hc.entry p raw n' st hsc hmem]
      rfl
    · intro hsome
      obtain ⟨st, hm⟩ := hc.all p raw n hsc hsome hn hs
      exact ⟨_, List.mem_map.mpr ⟨(n, st), hm, rfl⟩⟩

/-- C73: in every listing, every entry has the path of the folder as its link target, and entries that are no links have an empty
path, with which the folder would be opened instead of the file. -/
theorem C73_always (h : Host) (p : Str) (es : List (Str × Info)) (n : Str) (i : Info) (hl : list h p = some es) (hm : (n, i) ∈ es) :
    i.linkname = p ∧ (h.readlink (p ++ '/' :: n) = none → i.path = []) := by
  unfold list at hl
  cases hs : h.scandir p with
  | none => rw [hs] at hl; cases hl
  | some raw =>
    rw [hs] at hl
    simp only [Option.map_some, Option.some.injEq] at hl
    subst hl
    obtain ⟨⟨n', st⟩, hmem, he⟩ := List.mem_map.mp hm
    simp only [Prod.mk.injEq] at he
    obtain ⟨rfl, rfl⟩ := he
    refine ⟨rfl, ?_⟩
    intro hr
    simp only [dirEntryToInfo, hr]
    rfl

/-- The folder `/d` with the file `f`. -/
def sample : Host where
  lstat p := if p = "/d/f".toList then some ⟨3, 0, 0o100644, 0, 0⟩ else none
  readlink _ := none
  resolve _ := none
  scandir p := if p = "/d".toList then some [("f".toList, ⟨3, 0, 0o100644, 0, 0⟩)] else none

theorem sample_consistent : Consistent sample where
  entry := by
    intro p es n st hs hm
    simp only [sample] at hs
    split at hs
    · next hp =>
      injection hs with hs
      subst hs
      simp only [List.mem_singleton, Prod.mk.injEq] at hm
      obtain ⟨rfl, rfl⟩ := hm
      subst hp
      decide
    · cases hs
  all := by
    intro p es n hs hl hn hns
    simp only [sample] at hs hl
    split at hs
    · next hp =>
      injection hs with hs
      subst hs
      subst hp
      split at hl
      · next he =>
        have : n = "f".toList := by
          have h2 := congrArg (List.drop 3) he
          simpa using h2
        exact ⟨_, by rw [this]; exact List.mem_singleton.mpr rfl⟩
      · cases hl
    · cases hs

/-- C73 is violated: what a listing says about any file is wrong. -/
theorem C73_violated : ¬ C73_statement := by
  intro h
  have := h sample sample_consistent "/d".toList [("f".toList, ⟨⟨3, 0, 0o100644, 0, 0⟩, "/d".toList, []⟩)] "f".toList _ (by decide)
    (List.mem_singleton.mpr rfl)
  revert this
  decide

end Verif.Folder
