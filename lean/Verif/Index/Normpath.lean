import Verif.PyStr

/-!
# C14: path normalisation (core/ratarmountcore/SQLiteIndex.py:802-817)
-/

namespace Verif.Index

open Verif.Py

/-- The component loop of CPython's `posixpath.normpath` (Lib/posixpath.py, used by SQLiteIndex.py:810, 817).
`initial` is `initial_slashes`, `new` is `new_comps`. -/
def normLoop (initial : Nat) : List Str → List Str → List Str
  | new, [] => new
  | new, comp :: comps =>
    if comp = [] ∨ comp = ['.'] then normLoop initial new comps
    else if comp ≠ ['.', '.'] ∨ (initial = 0 ∧ new = []) ∨ new.getLast? = some ['.', '.'] then
      normLoop initial (new ++ [comp]) comps
    else normLoop initial new.dropLast comps

/-- `initial_slashes` of `posixpath.normpath`: exactly two leading slashes are kept, any other number
counts as one (Python library, used at SQLiteIndex.py:803-817). -/
def initialSlashes (path : Str) : Nat :=
  if startsWith ['/', '/'] path ∧ ¬ startsWith ['/', '/', '/'] path then 2
  else if startsWith ['/'] path then 1 else 0

/-- `posixpath.normpath(path)` (Python library, used at SQLiteIndex.py:803-817). -/
def posixNormpath (path : Str) : Str :=
  if path = [] then ['.']
  else
    let r := List.replicate (initialSlashes path) '/' ++ join '/' (normLoop (initialSlashes path) [] (split '/' path))
    if r = [] then ['.'] else r

/-- `SQLiteIndex.normpath` (SQLiteIndex.py:802-810). -/
def normpath (path : Str) : Str := '/' :: lstrip '/' (posixNormpath ('/' :: path))

/-- `SQLiteIndex._query_normpath` (SQLiteIndex.py:812-817). -/
def queryNormpath (path : Str) : Str :=
  '/' :: lstrip '/' (posixNormpath (if startsWith "../".toList path then path else '/' :: path))

/-! ## specification -/

/-- A name of a file or folder: not empty, no slash, neither `.` nor `..`. -/
def IsName (n : Str) : Prop := n ≠ [] ∧ '/' ∉ n ∧ n ≠ ['.'] ∧ n ≠ ['.', '.']

/-- The canonical path of a list of names: a slash before every name, the root is one slash. -/
def canonical : List Str → Str
  | [] => ['/']
  | n :: ns => '/' :: join '/' (n :: ns)

/-- Walking from the folder `at_` along components: stay for an empty one and `.`, go to the parent for `..`
(the parent of the root is the root), otherwise go down. -/
def walk : List Str → List Str → List Str
  | at_, [] => at_
  | at_, c :: cs =>
    walk (if c = [] ∨ c = ['.'] then at_ else if c = ['.', '.'] then at_.dropLast else at_ ++ [c]) cs

/-! ## lemmas -/

theorem normLoop_walk (k : Nat) (hk : 0 < k) (comps : List Str) : ∀ new : List Str, (∀ n ∈ new, IsName n) →
    (∀ c ∈ comps, '/' ∉ c) →
    normLoop k new comps = walk new comps ∧ ∀ n ∈ walk new comps, IsName n := by
  induction comps with
  | nil => intro new h _; exact ⟨rfl, h⟩
  | cons c cs ih =>
    intro new h hc
    have hcs : ∀ c ∈ cs, '/' ∉ c := fun x hx => hc x (List.mem_cons_of_mem _ hx)
    unfold normLoop walk
    by_cases h1 : c = [] ∨ c = ['.']
    · rw [if_pos h1, if_pos h1]; exact ih new h hcs
    · rw [if_neg h1, if_neg h1]
      have hlast : new.getLast? ≠ some ['.', '.'] := by
        intro hl
        exact (h _ (List.mem_of_getLast? hl)).2.2.2 rfl
      by_cases h2 : c = ['.', '.']
      · rw [if_pos h2, if_neg (by simp only [h2, ne_eq, not_true_eq_false, false_or, not_or]; exact ⟨by omega, hlast⟩)]
        exact ih _ (fun n hn => h n (List.dropLast_subset _ hn)) hcs
      · rw [if_neg h2, if_pos (.inl h2)]
        refine ih _ ?_ hcs
        intro n hn
        rcases List.mem_append.mp hn with hn | hn
        · exact h n hn
        · rw [List.mem_singleton] at hn
          subst hn
          rw [not_or] at h1
          exact ⟨h1.1, hc n (by simp), h1.2, h2⟩

/-- Relative paths: `..` may pile up at the front. -/
theorem lstrip_slashes (k : Nat) (s : Str) (h : s.head? ≠ some '/') :
    lstrip '/' (List.replicate k '/' ++ s) = s := by
  induction k with
  | zero =>
    cases s with
    | nil => rfl
    | cons x xs =>
      have hx : x ≠ '/' := by intro hx; exact h (by rw [hx]; rfl)
      simp [lstrip, hx]
  | succ k ih => simpa [lstrip, List.replicate_succ] using ih

theorem join_head (ns : List Str) (h : ∀ n ∈ ns, n ≠ [] ∧ '/' ∉ n) : (join '/' ns).head? ≠ some '/' := by
  cases ns with
  | nil => simp [join]
  | cons n ns =>
    obtain ⟨h1, h2⟩ := h n (by simp)
    cases n with
    | nil => exact absurd rfl h1
    | cons x xs =>
      simp only [List.mem_cons, not_or] at h2
      cases ns <;> simp [join] <;> exact fun hx => h2.1 hx.symm

theorem initialSlashes_slash (path : Str) : 0 < initialSlashes ('/' :: path) := by
  unfold initialSlashes
  split
  · omega
  · rw [if_pos (by simp [startsWith])]; omega

theorem canonical_eq (ns : List Str) : canonical ns = '/' :: join '/' ns := by
  cases ns <;> rfl

theorem normpath_slash (path : Str) :
    '/' :: lstrip '/' (posixNormpath ('/' :: path)) = canonical (walk [] (split '/' path)) ∧
      ∀ n ∈ walk [] (split '/' path), IsName n := by
  have hk := initialSlashes_slash path
  have hw := normLoop_walk _ hk (split '/' ('/' :: path)) [] (by simp) (not_mem_of_mem_split '/' _)
  have hskip : walk [] (split '/' ('/' :: path)) = walk [] (split '/' path) := by
    rw [split_cons_eq]; simp [walk]
  rw [hskip] at hw
  refine ⟨?_, hw.2⟩
  unfold posixNormpath
  rw [if_neg (by simp), hw.1]
  have hne : List.replicate (initialSlashes ('/' :: path)) '/' ++ join '/' (walk [] (split '/' path)) ≠ [] := by
    intro h
    have := congrArg List.length h
    simp at this; omega
  simp only [if_neg hne]
  rw [lstrip_slashes _ _ (join_head _ fun n hn => ⟨(hw.2 n hn).1, (hw.2 n hn).2.1⟩), canonical_eq]

theorem walk_names (ns : List Str) : ∀ at_ : List Str, (∀ n ∈ ns, IsName n) → walk at_ ns = at_ ++ ns := by
  induction ns with
  | nil => intro at_ _; simp [walk]
  | cons n ns ih =>
    intro at_ h
    obtain ⟨h1, -, h3, h4⟩ := h n (by simp)
    unfold walk
    rw [if_neg (by simp [h1, h3]), if_neg h4, ih _ (fun x hx => h x (List.mem_cons_of_mem _ hx))]
    simp

theorem split_canonical (ns : List Str) (h : ∀ n ∈ ns, IsName n) :
    walk [] (split '/' (canonical ns)) = ns := by
  rw [canonical_eq, split_cons_eq]
  cases ns with
  | nil => simp [join, split, walk]
  | cons n ns =>
    rw [split_join '/' (n :: ns) (by simp) (fun p hp => (h p hp).2.1)]
    rw [show walk [] ([] :: n :: ns) = walk [] (n :: ns) by simp [walk], walk_names _ _ h]
    rfl

/-! ## C14 -/

/-- **C14**: normalising gives the canonical path of the place reached by walking along the path from the
root. In particular it starts with one slash, has only names as components and never leaves the root. -/
theorem C14_canonical (path : Str) :
    normpath path = canonical (walk [] (split '/' path)) ∧ ∀ n ∈ walk [] (split '/' path), IsName n :=
  normpath_slash path

/-- **C14**, the library: `normpath` never gives an empty string. -/
theorem C14_nonempty (path : Str) : posixNormpath path ≠ [] := by
  unfold posixNormpath
  split
  · simp
  · simp only
    split
    · simp
    · assumption

/-- **C14**, the library: two slashes at the beginning stay, any other number becomes one. -/
theorem C14_slashes (k : Nat) (s : Str) (hk : 0 < k) (h : s.head? ≠ some '/') :
    posixNormpath (List.replicate k '/' ++ s) = List.replicate (if k = 2 then 2 else 1) '/' ++ join '/' (walk [] (split '/' s)) := by
  have hi : initialSlashes (List.replicate k '/' ++ s) = if k = 2 then 2 else 1 := by
    unfold initialSlashes startsWith
    match k, hk with
    | 1, _ =>
      cases s with
      | nil => rfl
      | cons c s =>
        have : '/' ≠ c := by intro e; apply h; rw [← e]; rfl
        simp [List.isPrefixOf, List.replicate, this]
    | 2, _ =>
      cases s with
      | nil => rfl
      | cons c s =>
        have : '/' ≠ c := by intro e; apply h; rw [← e]; rfl
        simp [List.isPrefixOf, List.replicate, this]
    | k + 3, _ => simp [List.isPrefixOf, List.replicate_succ]
  have hskip : ∀ k : Nat, walk [] (split '/' (List.replicate k '/' ++ s)) = walk [] (split '/' s) := by
    intro k
    induction k with
    | zero => rfl
    | succ k ih => rw [List.replicate_succ, List.cons_append, split_cons_eq]; simp [walk, ih]
  have hw := (normLoop_walk (if k = 2 then 2 else 1) (by split <;> decide) (split '/' (List.replicate k '/' ++ s)) [] (by simp) (not_mem_of_mem_split '/' _)).1
  unfold posixNormpath
  rw [if_neg (by intro he; have := congrArg List.length he; simp at this; omega), hi, hw, hskip]
  simp only
  rw [if_neg]
  intro he
  have := congrArg List.length he
  rw [List.length_append, List.length_replicate] at this
  split at this <;> simp at this

/-- **C14**: canonical paths are unchanged. -/
theorem C14_fixed (ns : List Str) (h : ∀ n ∈ ns, IsName n) : normpath (canonical ns) = canonical ns := by
  rw [(C14_canonical _).1, split_canonical ns h]

example : normpath "a/./b//../../../c d/".toList = "/c d".toList ∧ normpath "//x".toList = "/x".toList := by
  decide +kernel
example : ∀ n ∈ ["usr".toList, "...".toList], IsName n := by
  intro n hn
  simp only [List.mem_cons, List.not_mem_nil, or_false] at hn
  rcases hn with rfl | rfl <;> (unfold IsName; decide)

/-- **C14**: normalising twice changes nothing. -/
theorem C14_idempotent (path : Str) : normpath (normpath path) = normpath path := by
  obtain ⟨h1, h2⟩ := C14_canonical path
  rw [h1]
  exact C14_fixed _ h2

/-- **C14**: normal forms have no trailing slash (except the root), no doubled slash. -/
theorem C14_shape (path : Str) : normpath path = ['/'] ∨
    (∃ ns : List Str, ns ≠ [] ∧ normpath path = '/' :: join '/' ns ∧ split '/' (normpath path) = [] :: ns ∧
      ∀ n ∈ ns, IsName n) := by
  obtain ⟨h1, h2⟩ := C14_canonical path
  rw [h1]
  cases hw : walk [] (split '/' path) with
  | nil => left; rfl
  | cons n ns =>
    rw [hw] at h2
    refine .inr ⟨n :: ns, by simp, rfl, ?_, h2⟩
    simp only [canonical]
    rw [split_cons_eq, split_join '/' _ (by simp) (fun p hp => (h2 p hp).2.1)]

/-- **C14** for queries: the same as for stored paths unless the query starts with `../`. -/
theorem C14_query (path : Str) (h : startsWith "../".toList path = false) : queryNormpath path = normpath path := by
  unfold queryNormpath normpath
  rw [if_neg (by rw [h]; simp)]

example : startsWith "../".toList "a/../b".toList = false := by decide

theorem normLoop_dotdot (comps : List Str) : ∀ (new : List Str), (∃ k, new = List.replicate (k + 1) ['.', '.'] ∨
      ∃ ns, new = List.replicate (k + 1) ['.', '.'] ++ ns ∧ ∀ n ∈ ns, IsName n) → (∀ c ∈ comps, '/' ∉ c) →
    ∃ (k : Nat) (ns : List Str), normLoop 0 new comps = List.replicate (k + 1) ['.', '.'] ++ ns ∧ ∀ n ∈ ns, IsName n := by
  induction comps with
  | nil =>
    rintro new ⟨k, rfl | ⟨ns, rfl, h⟩⟩ _
    · exact ⟨k, [], by simp [normLoop], by simp⟩
    · exact ⟨k, ns, rfl, h⟩
  | cons c cs ih =>
    intro new hnew hc
    have hcs : ∀ c ∈ cs, '/' ∉ c := fun x hx => hc x (List.mem_cons_of_mem _ hx)
    obtain ⟨k, ns, hnew, hns⟩ : ∃ (k : Nat) (ns : List Str), new = List.replicate (k + 1) ['.', '.'] ++ ns ∧
        ∀ n ∈ ns, IsName n := by
      obtain ⟨k, h | ⟨ns, h, h'⟩⟩ := hnew
      · exact ⟨k, [], by simp [h], by simp⟩
      · exact ⟨k, ns, h, h'⟩
    unfold normLoop
    by_cases h1 : c = [] ∨ c = ['.']
    · rw [if_pos h1]
      exact ih new ⟨k, .inr ⟨ns, hnew, hns⟩⟩ hcs
    rw [if_neg h1]
    rw [not_or] at h1
    by_cases h2 : c = ['.', '.']
    · cases hl : ns.getLast? with
      | none =>
        have hn : ns = [] := List.getLast?_eq_none_iff.mp hl
        subst hn
        have hlast : new.getLast? = some ['.', '.'] := by
          rw [hnew, List.append_nil]; simp [List.getLast?_replicate]
        rw [if_pos (.inr (.inr hlast))]
        refine ih _ ⟨k + 1, .inl ?_⟩ hcs
        rw [hnew, List.append_nil, h2, List.replicate_succ' (n := k + 1)]
      | some x =>
        have hx := hns x (List.mem_of_getLast? hl)
        have hnn : ns ≠ [] := by rintro rfl; simp at hl
        have hlast : new.getLast? ≠ some ['.', '.'] := by
          rw [hnew, List.getLast?_append, hl]
          simp only [Option.some_or, ne_eq, Option.some.injEq]
          exact hx.2.2.2
        have hne : new ≠ [] := by rw [hnew]; simp
        rw [if_neg (by simp [h2, hlast, hne])]
        refine ih _ ⟨k, .inr ⟨ns.dropLast, ?_, fun n hn => hns n (List.dropLast_subset _ hn)⟩⟩ hcs
        rw [hnew, List.dropLast_append_of_ne_nil hnn]
    · rw [if_pos (.inl h2)]
      refine ih _ ⟨k, .inr ⟨ns ++ [c], by rw [hnew]; simp, ?_⟩⟩ hcs
      intro n hn
      rcases List.mem_append.mp hn with hn | hn
      · exact hns n hn
      · rw [List.mem_singleton] at hn; subst hn; exact ⟨h1.1, hc n (by simp), h1.2, h2⟩

/-- **C14** for the remaining queries: a query that starts with `../` is never the normal form of any path, so
it names nothing that can be stored. -/
theorem C14_query_above_root (rest stored : Str) : queryNormpath ("../".toList ++ rest) ≠ normpath stored := by
  intro h
  have hs : startsWith "../".toList ("../".toList ++ rest) = true := by simp [startsWith]
  have hsplit : split '/' ("../".toList ++ rest) = ['.', '.'] :: split '/' rest := by
    rw [show "../".toList ++ rest = ['.', '.'] ++ '/' :: rest by simp]
    exact split_append_cons '/' _ _ (by decide)
  unfold queryNormpath at h
  rw [if_pos hs] at h
  unfold posixNormpath at h
  rw [if_neg (by simp), hsplit] at h
  have h0 : initialSlashes ("../".toList ++ rest) = 0 := by
    unfold initialSlashes
    rw [if_neg (by simp [startsWith]), if_neg (by simp [startsWith])]
  rw [h0] at h
  have h1 : normLoop 0 [] (['.', '.'] :: split '/' rest) = normLoop 0 [['.', '.']] (split '/' rest) := by
    conv => lhs; unfold normLoop
    simp
  obtain ⟨k, ns, h2, h3⟩ := normLoop_dotdot (split '/' rest) [['.', '.']] ⟨0, .inl rfl⟩ (not_mem_of_mem_split '/' rest)
  rw [h1, h2] at h
  have hmem : ∀ n ∈ List.replicate (k + 1) ['.', '.'] ++ ns, n ≠ [] ∧ '/' ∉ n := by
    intro n hn
    rcases List.mem_append.mp hn with hn | hn
    · rw [(List.mem_replicate.mp hn).2]; decide
    · exact ⟨(h3 n hn).1, (h3 n hn).2.1⟩
  have hne : List.replicate 0 '/' ++ join '/' (List.replicate (k + 1) ['.', '.'] ++ ns) ≠ [] := by
    rw [List.replicate_succ, List.cons_append]
    cases List.replicate k ['.', '.'] ++ ns <;> simp [join]
  simp only [if_neg hne] at h
  rw [lstrip_slashes 0 _ (join_head _ hmem)] at h
  have hs2 := congrArg (split '/') h
  rw [split_cons_eq, split_join '/' _ (by simp) (fun p hp => (hmem p hp).2)] at hs2
  rcases C14_shape stored with he | ⟨ms, hms, -, he, hN⟩
  · rw [he, split_cons_eq] at hs2
    rw [List.replicate_succ] at hs2
    simp [split] at hs2
  · rw [he] at hs2
    simp only [List.cons.injEq, true_and] at hs2
    exact (hN ['.', '.'] (by rw [← hs2]; simp [List.replicate_succ])).2.2.2 rfl

example : queryNormpath "../a".toList = "/../a".toList := by decide +kernel

end Verif.Index
