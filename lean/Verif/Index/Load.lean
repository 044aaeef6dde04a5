import Verif.PyStr

/-!
# C22: removing index files that cannot be loaded (core/ratarmountcore/SQLiteIndex.py:367-371, 1338-1384)
-/

namespace Verif.Index

open Verif.Py

/-- What `_load_index` (SQLiteIndex.py:1175-1336) does with one path. -/
inductive LoadResult where
  /-- The index passed all checks. -/
  | loaded
  /-- There is no such file: returns without loading (SQLiteIndex.py:1239-1240). -/
  | absent
  /-- `MismatchingIndexError` from `check_metadata_backend` (SQLiteIndex.py:579-591) or the callback. -/
  | mismatch
  /-- Any other exception. -/
  | failed
  deriving DecidableEq

/-- `sub in s` (SQLiteIndex.py:1338-1384). -/
def contains (sub : Str) : Str → Bool
  | [] => startsWith sub []
  | c :: s => startsWith sub (c :: s) || contains sub s

/-- Result of `_try_load_index` (SQLiteIndex.py:1338-1384). -/
inductive TryResult where
  | returns (loaded : Bool)
  | raises
  deriving DecidableEq

/-- `_try_load_index` (SQLiteIndex.py:1338-1384) when nothing is loaded yet. `canRemove` tells whether `os.remove` succeeds, an
`OSError` is swallowed (SQLiteIndex.py:1376-1382). The second component is the removed file. -/
def tryLoadIndex (readOnly : Bool) (path : Str) (r : LoadResult) (canRemove : Bool) : TryResult × List Str :=
  match r with
  | .loaded => (.returns true, [])
  | .absent => (.returns false, [])
  | .mismatch => (.raises, [])
  | .failed =>
    if !readOnly && !contains "://".toList path then (.returns false, if canRemove then [path] else [])
    else (.returns false, [])

/-- `open_existing` (SQLiteIndex.py:366-370) over the possible paths; the result is whether it raised, and the removed files. -/
def openExisting (readOnly : Bool) : List (Str × LoadResult × Bool) → TryResult × List Str
  | [] => (.returns false, [])
  | (path, r, canRemove) :: rest =>
    match tryLoadIndex readOnly path r canRemove with
    | (.raises, removed) => (.raises, removed)
    | (.returns true, removed) => (.returns true, removed)
    | (.returns false, removed) =>
      let (res, removed') := openExisting readOnly rest
      (res, removed ++ removed')

/-! ## C22 -/

/-- **C22**, removals: a file is removed only if loading it failed with something other than a mismatch, the index
may be written, and the path is not a URL; and it comes after only candidates that were absent or failed too. -/
theorem C22_removed (readOnly : Bool) (cands : List (Str × LoadResult × Bool)) (p : Str)
    (h : p ∈ (openExisting readOnly cands).2) :
    readOnly = false ∧ (∀ a b, p ≠ a ++ "://".toList ++ b) ∧
    ∃ before after, ∃ removable, cands = before ++ (p, .failed, removable) :: after ∧
      ∀ c ∈ before, c.2.1 = .failed ∨ c.2.1 = .absent := by
  have sub : ∀ s a b : Str, s = a ++ "://".toList ++ b → contains "://".toList s = true := by
    intro s a b hs
    subst hs
    induction a with
    | nil => cases b <;> simp [contains, startsWith]
    | cons x a ih =>
      show (_ || contains "://".toList (a ++ "://".toList ++ b)) = true
      rw [ih, Bool.or_true]
  induction cands with
  | nil => simp [openExisting] at h
  | cons c cands ih =>
    obtain ⟨path, r, canRemove⟩ := c
    have rest : p ∈ (openExisting readOnly cands).2 → (r = .failed ∨ r = .absent) →
        readOnly = false ∧ (∀ a b, p ≠ a ++ "://".toList ++ b) ∧
        ∃ before after, ∃ removable, (path, r, canRemove) :: cands = before ++ (p, .failed, removable) :: after ∧
          ∀ c ∈ before, c.2.1 = .failed ∨ c.2.1 = .absent := by
      intro hp hr
      obtain ⟨h1, h2, b, a, rm, he, hb⟩ := ih hp
      refine ⟨h1, h2, (path, r, canRemove) :: b, a, rm, by rw [he]; rfl, ?_⟩
      intro c hc
      rcases List.mem_cons.mp hc with rfl | hc
      · exact hr
      · exact hb c hc
    cases r with
    | loaded => simp [openExisting, tryLoadIndex] at h
    | mismatch => simp [openExisting, tryLoadIndex] at h
    | absent => exact rest (by simpa [openExisting, tryLoadIndex] using h) (.inr rfl)
    | failed =>
      unfold openExisting tryLoadIndex at h
      by_cases hw : (!readOnly && !contains "://".toList path) = true
      · simp only [if_pos hw] at h
        rcases List.mem_append.mp h with h | h
        · cases hc : canRemove with
          | false => rw [hc] at h; cases h
          | true =>
            rw [hc, if_pos rfl, List.mem_singleton] at h
            subst h
            simp only [Bool.and_eq_true, Bool.not_eq_true'] at hw
            refine ⟨hw.1, ?_, [], cands, true, rfl, by simp⟩
            intro a b he
            rw [sub _ a b he] at hw
            cases hw.2
        · exact rest h (.inl rfl)
      · simp only [if_neg hw, List.nil_append] at h
        exact rest h (.inl rfl)

/-- **C22**, mismatches: the first candidate that is neither absent nor failing decides. If it mismatches the caller
gets the error, and neither it nor any later candidate is removed. -/
theorem C22_mismatch (readOnly : Bool) (before after : List (Str × LoadResult × Bool)) (path : Str) (rm : Bool)
    (hb : ∀ c ∈ before, c.2.1 = .failed ∨ c.2.1 = .absent) :
    (openExisting readOnly (before ++ (path, .mismatch, rm) :: after)).1 = .raises ∧
    ∀ p ∈ (openExisting readOnly (before ++ (path, .mismatch, rm) :: after)).2, p ∈ before.map (·.1) := by
  induction before with
  | nil => simp [openExisting, tryLoadIndex]
  | cons c before ih =>
    obtain ⟨p, r, cr⟩ := c
    obtain ⟨h1, h2⟩ := ih (fun c hc => hb c (List.mem_cons_of_mem _ hc))
    have hr := hb (p, r, cr) (by simp)
    rw [List.cons_append]
    unfold openExisting
    rcases hr with hr | hr <;> simp only at hr <;> subst hr
    · unfold tryLoadIndex
      by_cases hw : (!readOnly && !contains "://".toList p) = true
      · simp only [if_pos hw]
        refine ⟨h1, fun q hq => ?_⟩
        rcases List.mem_append.mp hq with hq | hq
        · have : q = p := by cases cr <;> simp_all
          simp [this]
        · exact List.mem_cons_of_mem _ (h2 q hq)
      · simp only [if_neg hw, List.nil_append]
        exact ⟨h1, fun q hq => List.mem_cons_of_mem _ (h2 q hq)⟩
    · unfold tryLoadIndex
      simp only [List.nil_append]
      exact ⟨h1, fun q hq => List.mem_cons_of_mem _ (h2 q hq)⟩

/-- **C22**, the other direction: a failing local index is removed when the index may be written, so that it can be
recreated. -/
theorem C22_cleared (before after : List (Str × LoadResult × Bool)) (path : Str)
    (hb : ∀ c ∈ before, c.2.1 = .failed ∨ c.2.1 = .absent) (hl : contains "://".toList path = false) :
    path ∈ (openExisting false (before ++ (path, .failed, true) :: after)).2 := by
  induction before with
  | nil =>
    rw [List.nil_append]
    unfold openExisting tryLoadIndex
    rw [hl]
    exact List.mem_append_left _ (List.mem_singleton.mpr rfl)
  | cons c before ih =>
    obtain ⟨p, r, cr⟩ := c
    have := ih (fun c hc => hb c (List.mem_cons_of_mem _ hc))
    have hr := hb (p, r, cr) (by simp)
    rw [List.cons_append]
    unfold openExisting
    rcases hr with hr | hr <;> simp only at hr <;> subst hr
    · unfold tryLoadIndex
      by_cases hw : (!false && !contains "://".toList p) = true
      · simp only [if_pos hw]
        exact List.mem_append_right _ this
      · simp only [if_neg hw]
        exact List.mem_append_right _ this
    · unfold tryLoadIndex
      simpa using this

example : openExisting false
    [("/a".toList, .absent, true), ("/b".toList, .failed, true), ("http://c".toList, .failed, true),
     ("/d".toList, .mismatch, true), ("/e".toList, .failed, true)] = (.raises, ["/b".toList]) := by decide

end Verif.Index
