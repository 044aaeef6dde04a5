import Verif.Formats.Rar

/-!
# C79: listings of SQLAR archives
(core/ratarmountcore/mountsource/formats/sqlar.py:190-198, 276-342)

The table is the list of its rows; `name` is its primary key. The operator GLOB is modelled after `patternCompare` of SQLite (func.c).
-/

namespace Verif.Sqlar

open Verif.Py Verif.Index Verif.Compose Verif.Rar

/-! ## GLOB -/

/-- The characters between the brackets of a set, up to the closing one: whether `c` was seen, and the rest of the pattern
(`patternCompare` of SQLite, `prior` is `prior_c`) (SQLite, `patternCompare`, used at sqlar.py:276-345). Nothing if the set is not closed. -/
def setLoop (c : Char) (prior : Option Char) (seen : Bool) : Str → Option (Bool × Str)
  | [] => none
  | ']' :: p => some (seen, p)
  | '-' :: [] => none
  | '-' :: x :: p =>
    match decide (x ≠ ']'), prior with
    | true, some lo => setLoop c none (seen || (decide (lo ≤ c) && decide (c ≤ x))) p
    | _, _ => setLoop c (some '-') (seen || decide (c = '-')) (x :: p)
  | x :: p => setLoop c (some x) (seen || decide (c = x)) p

/-- A set, behind the opening bracket (SQLite, `patternCompare`, used at sqlar.py:276-345). -/
def setMatch (c : Char) (p : Str) : Option (Bool × Str) :=
  let invert := decide (p.head? = some '^')
  let p := if invert then p.drop 1 else p
  let first := decide (p.head? = some ']')
  (setLoop c none (first && decide (c = ']')) (if first then p.drop 1 else p)).map (fun r => (r.1 ^^ invert, r.2))

theorem setLoop_less (c : Char) (prior : Option Char) (seen : Bool) (p : Str) : ∀ r, setLoop c prior seen p = some r → r.2.length < p.length := by
  fun_induction setLoop c prior seen p with
  | case1 => intro r h; cases h
  | case2 => intro r h; injection h with h; subst h; simp
  | case3 => intro r h; cases h
  | case4 seen x p lo hx ih => intro r h; have := ih r h; simp only [List.length_cons]; omega
  | case5 prior seen x p hx ih => intro r h; have := ih r h; simp only [List.length_cons] at *; omega
  | case6 prior seen x p h1 h2 h3 ih => intro r h; have := ih r h; simp only [List.length_cons]; omega

theorem setMatch_less (c : Char) (p : Str) (r : Bool × Str) (h : setMatch c p = some r) : r.2.length < p.length := by
  unfold setMatch at h
  simp only [Option.map_eq_some_iff] at h
  obtain ⟨q, hq, rfl⟩ := h
  have := setLoop_less _ _ _ _ _ hq
  simp only
  refine Nat.lt_of_lt_of_le this ?_
  split <;> split <;> simp [List.length_drop] <;> omega

/-- `string GLOB pattern` (SQLite, used at sqlar.py:276-345). -/
def glob : Str → Str → Bool
  | [], s => s.isEmpty
  | '*' :: p, [] => glob p []
  | '*' :: p, c :: s => glob p (c :: s) || glob ('*' :: p) s
  | '?' :: _, [] => false
  | '?' :: p, _ :: s => glob p s
  | '[' :: _, [] => false
  | '[' :: p, c :: s => match _h : setMatch c p with
    | none => false
    | some r => r.1 && glob r.2 s
  | _ :: _, [] => false
  | x :: p, c :: s => decide (x = c) && glob p s
termination_by p s => p.length + s.length
decreasing_by
  all_goals simp only [List.length_cons, List.length_nil]
  all_goals try omega
  have := setMatch_less c p r _h
  omega

example : glob "a[b-d]?*".toList "acxyz".toList = true ∧ glob "[^a]".toList "a".toList = false ∧ glob "[]]".toList "]".toList = true ∧
    glob "[a]/*".toList "[a]/x".toList = false := by decide +kernel

/-! ## the mount source -/

/-- A row of the table "sqlar" (sqlar.py:259-270). -/
structure Row where
  rowid : Nat
  name : Str
  /-- Stands for mode, time, size and link target. -/
  info : Nat
  deriving DecidableEq, Repr

/-- The normalisation of the constructor (sqlar.py:193, 196). -/
def norm (name : Str) : Str := posixNormpath (lstrip '/' name)

/-- `self._files` (sqlar.py:190-198); the rows are in the order of their ids. -/
def filesOf (rows : List Row) : Dict Str Nat :=
  if rows.any (fun r => decide (norm r.name ≠ r.name)) then Dict.update [] (rows.map (fun r => (norm r.name, r.rowid))) else []

/-- The loop of `_list_names` (sqlar.py:284-292). -/
def namesLoop (path : Str) : List Str → List Str → List Str
  | names, [] => names
  | names, name :: rest =>
    if startsWith path name then
      let n := (name.drop path.length).takeWhile (fun c => decide (c ≠ '/'))
      namesLoop path (if n ∈ names then names else names ++ [n]) rest
    else namesLoop path names rest

/-- `_list_names` (sqlar.py:276-292). -/
def listNames (files : Dict Str Nat) (path : Str) : List Str :=
  let path := lstrip '/' path
  namesLoop (if path ≠ [] ∧ endsWith ['/'] path = false then path ++ ['/'] else path) [] files.keys

/-- The pattern (sqlar.py:299, 314). -/
def pathGlob (path : Str) : Str := if path = ['/'] then ['*'] else stripSlashes path ++ ['/', '*']

/-- The names of `list` and `list_mode` (sqlar.py:294-320). `substr(name, k)` leaves `k - 1` characters out. -/
def list (rows : List Row) (path : Str) : Option (List Str) :=
  if filesOf rows = [] then
    some ((rows.filter (fun r => glob (pathGlob path) r.name && !glob ['*', '/', '*'] (r.name.drop ((pathGlob path).length - 1)))).map
      (fun r => r.name.drop ((pathGlob path).length - 1)))
  else some (listNames (filesOf rows) path)

/-- What a lookup finds (sqlar.py:323-342). -/
inductive Found where
  | root
  | row (rowid : Nat)
  deriving DecidableEq, Repr

/-- `lookup` (sqlar.py:322-342). -/
def lookup (rows : List Row) (path : Str) : Option Found :=
  if path = ['/'] then some .root
  else if filesOf rows = [] then (rows.find? (fun r => decide (r.name = stripSlashes path))).map (fun r => .row r.rowid)
  else match (filesOf rows).get? (lstrip '/' path) with
    | none => none
    | some i => (rows.find? (fun r => decide (r.rowid = i))).map (fun r => .row r.rowid)

/-! ## specification -/

/-- All names are relative paths of proper names. -/
def Proper (rows : List Row) : Prop := ∀ r ∈ rows, ∃ ms, ms ≠ [] ∧ (∀ m ∈ ms, IsName m) ∧ r.name = join '/' ms

/-- A listing shows exactly the children; there is none for paths that do not exist. -/
def C79_statement : Prop :=
  ∀ (rows : List Row), Proper rows → (rows.map Row.name).Nodup → ∀ ns : List Str, (∀ n ∈ ns, IsName n) →
    if ns = [] ∨ ∃ r ∈ rows, r.name = join '/' ns then
      ∃ l, list rows (canonical ns) = some l ∧ ∀ n, n ∈ l ↔ ∃ r ∈ rows, r.name = join '/' (ns ++ [n]) ∧ IsName n
    else list rows (canonical ns) = none

/-- A text without characters that have a meaning in patterns. -/
def Plain (s : Str) : Prop := '*' ∉ s ∧ '?' ∉ s ∧ '[' ∉ s

/-! ## lemmas: GLOB -/

theorem glob_star (p : Str) : ∀ s : Str, glob ('*' :: p) s = true ↔ ∃ a b, s = a ++ b ∧ glob p b = true := by
  intro s
  induction s with
  | nil =>
    rw [glob]
    constructor
    · intro h; exact ⟨[], [], rfl, h⟩
    · rintro ⟨a, b, h, hb⟩
      have h' := h.symm
      rw [List.append_eq_nil_iff] at h'
      rw [h'.2] at hb
      exact hb
  | cons c s ih =>
    rw [glob, Bool.or_eq_true, ih]
    constructor
    · rintro (h | ⟨a, b, rfl, h⟩)
      · exact ⟨[], c :: s, rfl, h⟩
      · exact ⟨c :: a, b, rfl, h⟩
    · rintro ⟨a, b, h, hb⟩
      cases a with
      | nil => left; rw [h]; exact hb
      | cons x a =>
        right
        obtain ⟨rfl, rfl⟩ := List.cons.inj h
        exact ⟨a, b, rfl, hb⟩

theorem glob_literal (x : Char) (p : Str) (h1 : x ≠ '*') (h2 : x ≠ '?') (h3 : x ≠ '[') (s : Str) :
    glob (x :: p) s = true ↔ ∃ t, s = x :: t ∧ glob p t = true := by
  cases s with
  | nil =>
    rw [glob]
    · simp
    all_goals assumption
  | cons c s =>
    rw [glob]
    · rw [Bool.and_eq_true, decide_eq_true_eq]
      constructor
      · rintro ⟨rfl, h⟩; exact ⟨s, rfl, h⟩
      · rintro ⟨t, h, hg⟩
        obtain ⟨rfl, rfl⟩ := List.cons.inj h
        exact ⟨rfl, hg⟩
    all_goals assumption

theorem glob_plain (q : Str) : ∀ (p : Str), Plain p → ∀ s, (glob (p ++ q) s = true ↔ ∃ t, s = p ++ t ∧ glob q t = true) := by
  intro p
  induction p with
  | nil => intro _ s; simp
  | cons x p ih =>
    intro hp s
    obtain ⟨h1, h2, h3⟩ := hp
    simp only [List.mem_cons, not_or] at h1 h2 h3
    rw [List.cons_append, glob_literal x (p ++ q) (Ne.symm h1.1) (Ne.symm h2.1) (Ne.symm h3.1)]
    constructor
    · rintro ⟨t, rfl, h⟩
      obtain ⟨u, rfl, hu⟩ := (ih ⟨h1.2, h2.2, h3.2⟩ t).mp h
      exact ⟨u, rfl, hu⟩
    · rintro ⟨t, rfl, h⟩
      exact ⟨p ++ t, rfl, (ih ⟨h1.2, h2.2, h3.2⟩ _).mpr ⟨t, rfl, h⟩⟩

theorem glob_all (s : Str) : glob ['*'] s = true := (glob_star [] s).mpr ⟨s, [], by simp, by rw [glob]; rfl⟩

theorem glob_slash (s : Str) : glob ['*', '/', '*'] s = true ↔ '/' ∈ s := by
  rw [glob_star]
  constructor
  · rintro ⟨a, b, rfl, h⟩
    obtain ⟨t, rfl, _⟩ := (glob_literal '/' ['*'] (by decide) (by decide) (by decide) b).mp h
    simp
  · intro h
    obtain ⟨a, b, rfl⟩ := List.append_of_mem h
    exact ⟨a, '/' :: b, rfl, (glob_literal '/' ['*'] (by decide) (by decide) (by decide) _).mpr ⟨b, rfl, glob_all b⟩⟩

/-! ## lemmas: paths -/

theorem pathGlob_canonical (ns : List Str) (h : ∀ n ∈ ns, IsName n) : pathGlob (canonical ns) = pathOf ns true ++ ['*'] := by
  cases ns with
  | nil => rfl
  | cons n ns =>
    unfold pathGlob
    rw [if_neg, strip_canonical _ h, pathOf_true _ (by simp)]
    · simp
    · intro he
      have := congrArg (lstrip '/') he
      rw [lstrip_canonical _ (fun n hn => ⟨(h n hn).1, (h n hn).2.1⟩)] at this
      exact join_ne_nil _ (by simp) h this

theorem posixNormpath_join (ms : List Str) (hne : ms ≠ []) (h : ∀ m ∈ ms, IsName m) : norm (join '/' ms) = join '/' ms := by
  have hl : lstrip '/' (join '/' ms) = join '/' ms := by
    have := lstrip_slashes 0 (join '/' ms) (join_head ms (fun n hn => ⟨(h n hn).1, (h n hn).2.1⟩))
    simpa using this
  unfold norm
  rw [hl, ← pathOf_false]
  exact posixNormpath_pathOf ms false hne h ▸ (pathOf_false ms).symm

theorem filesOf_proper (rows : List Row) (hp : Proper rows) : filesOf rows = [] := by
  unfold filesOf
  rw [if_neg]
  rw [List.any_eq_true]
  rintro ⟨r, hr, hd⟩
  obtain ⟨ms, hne, hms, he⟩ := hp r hr
  rw [he, posixNormpath_join ms hne hms] at hd
  simp at hd

theorem no_slash_join (ms : List Str) (hne : ms ≠ []) : '/' ∉ join '/' ms ↔ ∃ n, ms = [n] ∧ '/' ∉ n := by
  cases ms with
  | nil => exact absurd rfl hne
  | cons n ms =>
    cases ms with
    | nil =>
      show '/' ∉ n ↔ _
      constructor
      · intro h; exact ⟨n, rfl, h⟩
      · rintro ⟨m, hm, h⟩
        rw [(List.cons.inj hm).1]; exact h
    | cons m ms =>
      constructor
      · intro h; exact absurd (by show '/' ∈ n ++ '/' :: join '/' (m :: ms); simp) h
      · rintro ⟨k, hk, _⟩; cases hk

/-! ## C79 -/

/-- **C79**, provable part: if the names on the path have no pattern characters, exactly the children are listed. Missing: other paths, and
that there is no listing for paths that do not exist. -/
theorem C79_children_partial (rows : List Row) (hp : Proper rows) (ns : List Str) (hns : ∀ n ∈ ns, IsName n) (hplain : ∀ n ∈ ns, Plain n) :
    ∃ l, list rows (canonical ns) = some l ∧ ∀ n, n ∈ l ↔ ∃ r ∈ rows, r.name = join '/' (ns ++ [n]) ∧ IsName n := by
  have hpl : Plain (pathOf ns true) := by
    unfold Plain
    have : ∀ c : Char, c ≠ '/' → (∀ n ∈ ns, c ∉ n) → c ∉ pathOf ns true := by
      intro c hc hn
      clear hp hns hplain
      induction ns with
      | nil => simp [pathOf]
      | cons n ns ih =>
        rw [pathOf, if_neg (fun h => by cases h.2)]
        intro hm
        rcases List.mem_append.mp hm with hm | hm
        · exact hn n List.mem_cons_self hm
        · rcases List.mem_cons.mp hm with hm | hm
          · exact hc hm
          · exact ih (fun m hm => hn m (List.mem_cons_of_mem _ hm)) hm
    exact ⟨this _ (by decide) (fun n hn => (hplain n hn).1), this _ (by decide) (fun n hn => (hplain n hn).2.1),
      this _ (by decide) (fun n hn => (hplain n hn).2.2)⟩
  unfold list
  rw [if_pos (filesOf_proper rows hp), pathGlob_canonical ns hns]
  refine ⟨_, rfl, ?_⟩
  intro n
  have hlen : (pathOf ns true ++ ['*']).length - 1 = (pathOf ns true).length := by simp
  rw [hlen]
  simp only [List.mem_map, List.mem_filter, Bool.and_eq_true, Bool.not_eq_true']
  constructor
  · rintro ⟨r, ⟨hr, hg, hs⟩, rfl⟩
    refine ⟨r, hr, ?_⟩
    obtain ⟨ms, hne, hms, he⟩ := hp r hr
    obtain ⟨t, ht, _⟩ := (glob_plain ['*'] _ hpl _).mp hg
    rw [ht, List.drop_left' rfl] at hs ⊢
    have hpre : pathOf ns true ++ t = pathOf ms false := by rw [← ht, pathOf_false, he]
    obtain ⟨rest, h1, h2, h3⟩ := (prefix_iff ns ms false t hns hms).mp hpre
    have hrest : rest ≠ [] := by
      rcases h2 with h2 | h2 | h2
      · exact h2
      · cases h2
      · subst h2; intro hr0; exact hne (by rw [h1, hr0]; rfl)
    have hns' : '/' ∉ t := by
      intro hm
      rw [(glob_slash t).mpr hm] at hs
      cases hs
    rw [h3, pathOf_false] at hns'
    obtain ⟨k, hk, _⟩ := (no_slash_join rest hrest).mp hns'
    subst hk
    have ht' : t = k := by rw [h3]; rfl
    subst ht'
    refine ⟨by rw [← ht, he, h1], ?_⟩
    exact hms t (by rw [h1]; simp)
  · rintro ⟨r, hr, he, hn⟩
    have hall : ∀ m ∈ ns ++ [n], IsName m := by
      intro m hm
      rcases List.mem_append.mp hm with hm | hm
      · exact hns m hm
      · rw [List.mem_singleton.mp hm]; exact hn
    have hpre : pathOf ns true ++ n = pathOf (ns ++ [n]) false :=
      (prefix_iff ns (ns ++ [n]) false n hns hall).mpr ⟨[n], rfl, Or.inl (by simp), rfl⟩
    have hname : r.name = pathOf ns true ++ n := by rw [hpre, pathOf_false, he]
    refine ⟨r, ⟨hr, ?_, ?_⟩, ?_⟩
    · exact (glob_plain ['*'] _ hpl _).mpr ⟨n, hname, glob_all n⟩
    · rw [hname, List.drop_left' rfl, Bool.eq_false_iff]
      intro hg
      exact hn.2.1 ((glob_slash n).mp hg)
    · rw [hname, List.drop_left' rfl]

/-- **C79**: a lookup finds exactly the rows, and the root. -/
theorem C79_lookup (rows : List Row) (hp : Proper rows) (ns : List Str) (hne : ns ≠ []) (hns : ∀ n ∈ ns, IsName n) (i : Nat)
    (hi : (rows.map Row.name).Nodup) :
    lookup rows (canonical ns) = some (.row i) ↔ ∃ r ∈ rows, r.name = join '/' ns ∧ r.rowid = i := by
  have hroot : canonical ns ≠ ['/'] := by
    intro he
    have := congrArg (lstrip '/') he
    rw [lstrip_canonical _ (fun n hn => ⟨(hns n hn).1, (hns n hn).2.1⟩)] at this
    exact join_ne_nil _ hne hns this
  unfold lookup
  rw [if_neg hroot, if_pos (filesOf_proper rows hp), strip_canonical ns hns]
  clear hp
  induction rows with
  | nil => simp
  | cons r rows ih =>
    rw [List.map_cons, List.nodup_cons] at hi
    by_cases h : r.name = join '/' ns
    · rw [List.find?_cons_of_pos (by simpa using h)]
      simp only [Option.map_some, Option.some.injEq, Found.row.injEq]
      constructor
      · intro he; exact ⟨r, List.mem_cons_self, h, he⟩
      · rintro ⟨q, hq, hqn, rfl⟩
        rcases List.mem_cons.mp hq with rfl | hq
        · rfl
        · exact absurd (List.mem_map.mpr ⟨q, hq, by rw [hqn, h]⟩) hi.1
    · rw [List.find?_cons_of_neg (by simpa using h)]
      refine (ih hi.2).trans ?_
      constructor
      · rintro ⟨q, hq, h1⟩; exact ⟨q, List.mem_cons_of_mem _ hq, h1⟩
      · rintro ⟨q, hq, h1⟩
        rcases List.mem_cons.mp hq with rfl | hq
        · exact absurd h1.1 h
        · exact ⟨q, hq, h1⟩

theorem mem_namesLoop (path : Str) : ∀ (l names : List Str) (n : Str), n ∈ namesLoop path names l ↔
    n ∈ names ∨ ∃ x ∈ l, startsWith path x = true ∧ (x.drop path.length).takeWhile (fun c => decide (c ≠ '/')) = n := by
  intro l
  induction l with
  | nil => intro names n; simp [namesLoop]
  | cons x l ih =>
    intro names n
    rw [namesLoop]
    split
    · next hs =>
      simp only
      rw [ih]
      have hm : n ∈ (if (x.drop path.length).takeWhile (fun c => decide (c ≠ '/')) ∈ names then names
          else names ++ [(x.drop path.length).takeWhile (fun c => decide (c ≠ '/'))]) ↔
          n ∈ names ∨ (x.drop path.length).takeWhile (fun c => decide (c ≠ '/')) = n := by
        split
        · next hin =>
          constructor
          · exact Or.inl
          · rintro (h | rfl)
            · exact h
            · exact hin
        · rw [List.mem_append, List.mem_singleton]
          constructor
          · rintro (h | h)
            · exact Or.inl h
            · exact Or.inr h.symm
          · rintro (h | h)
            · exact Or.inl h
            · exact Or.inr h.symm
      rw [hm]
      constructor
      · rintro ((h | h) | ⟨y, hy, h⟩)
        · exact Or.inl h
        · exact Or.inr ⟨x, List.mem_cons_self, hs, h⟩
        · exact Or.inr ⟨y, List.mem_cons_of_mem _ hy, h⟩
      · rintro (h | ⟨y, hy, h⟩)
        · exact Or.inl (Or.inl h)
        · rcases List.mem_cons.mp hy with rfl | hy
          · exact Or.inl (Or.inr h.2)
          · exact Or.inr ⟨y, hy, h⟩
    · next hs =>
      rw [ih]
      constructor
      · rintro (h | ⟨y, hy, h⟩)
        · exact Or.inl h
        · exact Or.inr ⟨y, List.mem_cons_of_mem _ hy, h⟩
      · rintro (h | ⟨y, hy, h⟩)
        · exact Or.inl h
        · rcases List.mem_cons.mp hy with rfl | hy
          · exact absurd h.1 hs
          · exact Or.inr ⟨y, hy, h⟩

/-- **C79**, provable part for archives with names that are not normal: exactly the names below the folder are listed, for all names.
The root entry `.` is left out here. -/
theorem C79_denormal_partial (files : Dict Str Nat) (hp : ∀ k ∈ files.keys, ∃ ms, ms ≠ [] ∧ (∀ m ∈ ms, IsName m) ∧ k = join '/' ms)
    (ns : List Str) (hns : ∀ n ∈ ns, IsName n) (n : Str) :
    n ∈ listNames files (canonical ns) ↔ ∃ rest, join '/' (ns ++ n :: rest) ∈ files.keys ∧ ∀ m ∈ n :: rest, IsName m := by
  have hpath : (if lstrip '/' (canonical ns) ≠ [] ∧ endsWith ['/'] (lstrip '/' (canonical ns)) = false then lstrip '/' (canonical ns) ++ ['/']
      else lstrip '/' (canonical ns)) = pathOf ns true := by
    rw [lstrip_canonical _ (fun n hn => ⟨(hns n hn).1, (hns n hn).2.1⟩)]
    by_cases hne : ns = []
    · subst hne; rfl
    · rw [if_pos, pathOf_true ns hne]
      refine ⟨join_ne_nil ns hne hns, ?_⟩
      rw [Bool.eq_false_iff]
      intro hs
      obtain ⟨t, ht⟩ := List.isSuffixOf_iff_suffix.mp hs
      have := getLast_join ns hne hns
      rw [← ht] at this
      simp at this
  unfold listNames
  simp only
  rw [hpath, mem_namesLoop]
  constructor
  · rintro (h | ⟨x, hx, hs, hn⟩)
    · cases h
    · obtain ⟨ms, hne, hms, rfl⟩ := hp x hx
      obtain ⟨t, ht⟩ := (startsWith_iff _ _).mp hs
      rw [← ht, List.drop_left' rfl] at hn
      obtain ⟨rest, h1, h2, h3⟩ := (prefix_iff ns ms false t hns hms).mp (by rw [pathOf_false]; exact ht)
      have hrest : rest ≠ [] := by
        rcases h2 with h2 | h2 | h2
        · exact h2
        · cases h2
        · subst h2; intro hr0; exact hne (by rw [h1, hr0]; rfl)
      cases rest with
      | nil => exact absurd rfl hrest
      | cons r rest =>
        have hr : ∀ m ∈ r :: rest, IsName m := fun m hm => hms m (by rw [h1]; exact List.mem_append_right _ hm)
        rw [h3, pathOf_false, takeWhile_join r rest (hr r List.mem_cons_self).2.1] at hn
        subst hn
        exact ⟨rest, by rw [← h1]; exact hx, hr⟩
  · rintro ⟨rest, hk, hr⟩
    right
    have hall : ∀ m ∈ ns ++ n :: rest, IsName m := by
      intro m hm
      rcases List.mem_append.mp hm with hm | hm
      · exact hns m hm
      · exact hr m hm
    have hpre := (prefix_iff ns (ns ++ n :: rest) false (pathOf (n :: rest) false) hns hall).mpr ⟨n :: rest, rfl, Or.inl (by simp), rfl⟩
    rw [pathOf_false (ns ++ n :: rest)] at hpre
    refine ⟨_, hk, (startsWith_iff _ _).mpr ⟨_, hpre⟩, ?_⟩
    rw [← hpre, List.drop_left' rfl, pathOf_false]
    exact takeWhile_join n rest (hr n List.mem_cons_self).2.1

/-! ## examples and violations -/

def sample : List Row := [⟨1, "d".toList, 0⟩, ⟨2, "d/e".toList, 0⟩, ⟨3, "d/e/f".toList, 0⟩, ⟨4, "d/g".toList, 0⟩]

example : list sample "/d".toList = some ["e".toList, "g".toList] ∧ list sample ['/'] = some ["d".toList] := by decide +kernel

example : list [⟨1, "./a/b".toList, 0⟩] ['/'] = some ["a".toList] ∧ lookup [⟨1, "./a/b".toList, 0⟩] "/a/b".toList = some (.row 1) := by
  decide +kernel

theorem sample_name (s : Str) (h : s ≠ [] ∧ '/' ∉ s ∧ s ≠ ['.'] ∧ s ≠ ['.', '.']) : IsName s := h

/-- C79 is violated: the file in a folder called `[a]` is not listed. -/
theorem C79_violated : ¬ C79_statement := by
  intro h
  have hp : Proper [⟨1, "[a]".toList, 0⟩, ⟨2, "[a]/x".toList, 0⟩] := by
    intro r hr
    simp only [List.mem_cons, List.not_mem_nil, or_false] at hr
    rcases hr with rfl | rfl
    · refine ⟨["[a]".toList], by decide, ?_, by decide⟩
      intro m hm
      simp only [List.mem_cons, List.not_mem_nil, or_false] at hm
      subst hm; exact sample_name _ (by decide)
    · refine ⟨["[a]".toList, "x".toList], by decide, ?_, by decide⟩
      intro m hm
      simp only [List.mem_cons, List.not_mem_nil, or_false] at hm
      rcases hm with rfl | rfl <;> exact sample_name _ (by decide)
  have := h _ hp (by decide) ["[a]".toList] (by
    intro m hm
    rw [List.mem_singleton] at hm
    subst hm; exact sample_name _ (by decide))
  rw [if_pos (Or.inr ⟨_, List.mem_cons_self, by decide⟩)] at this
  obtain ⟨l, hl, hn⟩ := this
  have hx := (hn "x".toList).mpr ⟨⟨2, "[a]/x".toList, 0⟩, by decide, by decide, sample_name _ (by decide)⟩
  have : list [⟨1, "[a]".toList, 0⟩, ⟨2, "[a]/x".toList, 0⟩] (canonical ["[a]".toList]) = some [] := by decide +kernel
  rw [this] at hl
  injection hl with hl
  subst hl
  cases hx

/-- C79 is violated: a folder called `a*` shows the files of the folder `ab` as well. -/
theorem C79_foreign_violated :
    list [⟨1, "a*".toList, 0⟩, ⟨2, "ab".toList, 0⟩, ⟨3, "ab/x".toList, 0⟩] "/a*".toList = some ["x".toList] := by decide +kernel

/-- C79 is violated: there is a listing for every path, whether it exists or not. -/
theorem C79_absent_violated : ∀ rows path, list rows path ≠ none := by
  intro rows path
  unfold list
  split <;> simp

end Verif.Sqlar
