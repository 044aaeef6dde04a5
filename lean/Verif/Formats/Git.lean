import Verif.Py
import Verif.PyStr

/-!
# C75: mounted git trees
(core/ratarmountcore/mountsource/formats/git.py:51-58, 83-118)

`prefix` is always empty. Objects are files (or links) and folders; submodules are not modelled. Two objects of a folder never have
the same name, and names are neither empty nor contain a slash.
-/

namespace Verif.Git

open Verif.Py

/-- A git object: a blob or a tree (git.py:52-60). -/
inductive Obj where
  | blob (id : Nat)
  | tree (entries : List (Str × Obj))

/-- `isinstance(obj, pygit2.Tree)` (git.py:62-65). -/
def Obj.isTree : Obj → Bool
  | .tree _ => true
  | .blob _ => false

/-- `tree[name]`, if `name in tree` (git.py:52-60). -/
def Obj.child : Obj → Str → Option Obj
  | .blob _, _ => none
  | .tree es, n => (es.find? (fun e => decide (e.1 = n))).map Prod.snd

/-- The loop of `_look_up_path` (git.py:52-58). -/
def lookLoop : Obj → List Str → Option Obj
  | o, [] => some o
  | o, n :: ns =>
    if n ≠ [] ∧ o.isTree = true then
      match o.child n with
      | none => none
      | some o' => lookLoop o' ns
    else lookLoop o ns

/-- `_look_up_path`; the empty name of `"".split("/")` comes first (git.py:52-60). -/
def lookUp (root : Obj) (path : Str) : Option Obj := lookLoop root ([] :: split '/' path)

/-- The names `_list` gives (git.py:87-99). -/
def listNames (root : Obj) (path : Str) : Option (List Str) :=
  match lookUp root path with
  | some (.tree es) => some ((es.map Prod.fst).filter (fun n => decide (n ≠ [])))
  | _ => none

/-! ## specification -/

/-- Walking down: every name has to be there. -/
def walk : Obj → List Str → Option Obj
  | o, [] => some o
  | o, n :: ns => match o.child n with
    | none => none
    | some o' => walk o' ns

/-- The names of a path. -/
def names (path : Str) : List Str := (split '/' path).filter (fun n => decide (n ≠ []))

/-- A path is found exactly if all its names are there. -/
def C75_statement : Prop := ∀ root path, lookUp root path = walk root (names path)

/-! ## proofs -/

theorem lookLoop_filter : ∀ (ns : List Str) (o : Obj), lookLoop o ns = lookLoop o (ns.filter (fun n => decide (n ≠ []))) := by
  intro ns
  induction ns with
  | nil => intro o; rfl
  | cons n ns ih =>
    intro o
    by_cases h : n = []
    · rw [List.filter_cons_of_neg (by simpa using h), lookLoop, if_neg (fun hh => hh.1 h)]
      exact ih o
    · rw [List.filter_cons_of_pos (by simpa using h), lookLoop, lookLoop]
      split
      · cases o.child n with
        | none => rfl
        | some o' => exact ih o'
      · exact ih o

theorem lookUp_names (root : Obj) (path : Str) : lookUp root path = lookLoop root (names path) := by
  unfold lookUp names
  rw [lookLoop, if_neg (fun h => h.1 rfl)]
  exact lookLoop_filter _ _

theorem lookLoop_blob (id : Nat) : ∀ ns : List Str, lookLoop (.blob id) ns = some (.blob id) := by
  intro ns
  induction ns with
  | nil => rfl
  | cons n ns ih => rw [lookLoop, if_neg (fun h => by cases h.2)]; exact ih

/-- **C75**: everything that is there is found. -/
theorem C75_found : ∀ (ns : List Str) (root o : Obj), (∀ n ∈ ns, n ≠ []) → walk root ns = some o → lookLoop root ns = some o := by
  intro ns
  induction ns with
  | nil => intro root o _ h; exact h
  | cons n ns ih =>
    intro root o hne h
    rw [walk] at h
    cases hc : root.child n with
    | none => rw [hc] at h; cases h
    | some o' =>
      rw [hc] at h
      have ht : root.isTree = true := by
        cases root with
        | blob id => simp [Obj.child] at hc
        | tree es => rfl
      rw [lookLoop, if_pos ⟨hne n List.mem_cons_self, ht⟩, hc]
      exact ih o' o (fun x hx => hne x (List.mem_cons_of_mem _ hx)) h

/-- **C75**: what lookups give exactly: the object, or the file a beginning of the path leads to. -/
theorem C75_exact : ∀ (ns : List Str) (root : Obj), (∀ n ∈ ns, n ≠ []) → ∀ o,
    lookLoop root ns = some o ↔ walk root ns = some o ∨ ∃ pre post, ns = pre ++ post ∧ post ≠ [] ∧ walk root pre = some o ∧ o.isTree = false := by
  intro ns
  induction ns with
  | nil =>
    intro root _ o
    constructor
    · intro h; exact Or.inl h
    · rintro (h | ⟨pre, post, he, hp, _⟩)
      · exact h
      · exfalso
        cases pre <;> simp at he
        exact hp he
  | cons n ns ih =>
    intro root hne o
    have hn := hne n List.mem_cons_self
    have hns : ∀ m ∈ ns, m ≠ [] := fun x hx => hne x (List.mem_cons_of_mem _ hx)
    cases root with
    | blob id =>
      rw [lookLoop_blob]
      constructor
      · intro h
        injection h with h
        subst h
        exact Or.inr ⟨[], n :: ns, rfl, by simp, rfl, rfl⟩
      · rintro (h | ⟨pre, post, he, hp, hw, _⟩)
        · simp [walk, Obj.child] at h
        · cases pre with
          | nil => exact hw
          | cons m pre => simp [walk, Obj.child] at hw
    | tree es =>
      rw [lookLoop, if_pos ⟨hn, rfl⟩, walk]
      cases hc : (Obj.tree es).child n with
      | none =>
        simp only
        constructor
        · intro h; cases h
        · rintro (h | ⟨pre, post, he, hp, hw, ht⟩)
          · cases h
          · cases pre with
            | nil =>
              simp only [walk, Option.some.injEq] at hw
              subst hw
              cases ht
            | cons m pre =>
              simp only [List.cons_append, List.cons.injEq] at he
              obtain ⟨rfl, _⟩ := he
              rw [walk, hc] at hw
              cases hw
      | some o' =>
        simp only
        rw [ih o' hns o]
        constructor
        · rintro (h | ⟨pre, post, rfl, hp, hw, ht⟩)
          · exact Or.inl h
          · refine Or.inr ⟨n :: pre, post, rfl, hp, ?_, ht⟩
            rw [walk, hc]
            exact hw
        · rintro (h | ⟨pre, post, he, hp, hw, ht⟩)
          · exact Or.inl h
          · cases pre with
            | nil =>
              simp only [walk, Option.some.injEq] at hw
              subst hw
              cases ht
            | cons m pre =>
              simp only [List.cons_append, List.cons.injEq] at he
              obtain ⟨rfl, rfl⟩ := he
              rw [walk, hc] at hw
              exact Or.inr ⟨pre, post, rfl, hp, hw, ht⟩

/-- **C75**, provable part: paths that do not go on below a file are found exactly if they are there. Missing: paths below files. -/
theorem C75_partial (root : Obj) (path : Str)
    (h : ∀ pre post id, names path = pre ++ post → post ≠ [] → walk root pre ≠ some (.blob id)) :
    lookUp root path = walk root (names path) := by
  have hne : ∀ n ∈ names path, n ≠ [] := by
    intro n hn
    simpa using (List.mem_filter.mp hn).2
  rw [lookUp_names]
  have key := C75_exact (names path) root hne
  cases hw : walk root (names path) with
  | some o => exact C75_found _ _ _ hne hw
  | none =>
    cases hl : lookLoop root (names path) with
    | none => rfl
    | some o =>
      exfalso
      rcases (key o).mp hl with hh | ⟨pre, post, he, hp, hpre, ht⟩
      · rw [hw] at hh; cases hh
      · cases o with
        | blob id => exact h pre post id he hp hpre
        | tree es => cases ht

/-- **C75**: the names of a listing are those that a lookup finds in the folder. -/
theorem C75_listing (root : Obj) (path : Str) (es : List (Str × Obj)) (h : lookUp root path = some (.tree es)) (n : Str) (hn : n ≠ []) :
    n ∈ (listNames root path).getD [] ↔ ((Obj.tree es).child n).isSome := by
  unfold listNames
  rw [h]
  simp only [Option.getD_some, List.mem_filter, List.mem_map, decide_eq_true_eq, Obj.child, Option.isSome_map, List.find?_isSome]
  constructor
  · rintro ⟨⟨e, he, rfl⟩, _⟩
    exact ⟨e, he, rfl⟩
  · rintro ⟨e, he, rfl⟩
    exact ⟨⟨e, he, rfl⟩, hn⟩

/-- A folder `d` with the file `f`. -/
def sample : Obj := .tree [("d".toList, .tree [("f".toList, .blob 7)])]

example : lookUp sample "/d/f".toList = some (.blob 7) ∧ walk sample (names "/d/f".toList) = some (.blob 7) ∧
    lookUp sample "/d/g".toList = none := ⟨rfl, rfl, rfl⟩

/-- C75 is violated: below a file every path exists. -/
theorem C75_violated : ¬ C75_statement := by
  intro h
  have h1 : lookUp sample "/d/f/x/y".toList = some (.blob 7) := rfl
  have h2 : walk sample (names "/d/f/x/y".toList) = none := rfl
  rw [h, h2] at h1
  cases h1

end Verif.Git
