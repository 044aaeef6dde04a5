import Verif.Compose.Subvolumes
import Verif.Stencil.Concurrent

/-!
# C42: a mount of one file (core/ratarmountcore/mountsource/compositing/singlefile.py)

Only the case of a given file object (50-81) is modelled, not the one of a function that opens the file. User and group
ids and the time of creation are one number `who`: they do not change after the construction (125-130).
-/

namespace Verif.Compose

open Verif.Py Verif.Index Verif.Stencil

/-- The metadata (singlefile.py:99-132). -/
structure PlainInfo where
  size : Nat
  mode : Nat
  link : Str
  who : Nat
  userdata : List Tag
  deriving DecidableEq, Repr

/-- The state after `__init__` (singlefile.py:32-97). -/
structure SingleFile where
  name : Str
  size : Nat
  mode : Nat
  who : Nat
  deriving DecidableEq, Repr

/-- `_get_mode` (singlefile.py:16-17). -/
def fileMode (writable readable : Bool) : Nat := 0o111 ||| (if writable then 0o222 else 0) ||| (if readable then 0o444 else 0)

/-- `_create_file_info` (singlefile.py:99-132) with all values known. -/
def createInfo (s : SingleFile) (isdir : Bool) (size mode : Nat) : PlainInfo :=
  ⟨size, mode ||| (if isdir then 0o40000 else 0o100000), [], s.who, []⟩

/-- `__init__` (singlefile.py:32-56). -/
def SingleFile.init (path : Str) (size : Nat) (writable readable : Bool) (who : Nat) : Except PyErr SingleFile :=
  if lstrip '/' (posixNormpath ('/' :: path)) = [] ∨ '/' ∈ lstrip '/' (posixNormpath ('/' :: path)) then .error .valueError
  else .ok ⟨lstrip '/' (posixNormpath ('/' :: path)), size, fileMode writable readable, who⟩

/-- `list` (singlefile.py:136-137). -/
def SingleFile.list (s : SingleFile) (path : Str) : Option (List Str) := if path = [] ∨ path = ['/'] then some [s.name] else none

/-- `lookup` (singlefile.py:140-145); `self._file_info.mode & 0o777` is the mode again (singlefile.py:104). -/
def SingleFile.lookup (s : SingleFile) (path : Str) : Option PlainInfo :=
  if path = [] ∨ path = ['/'] then some (createInfo s true 0 (s.mode &&& 0o777))
  else if stripSlashes path = s.name then some (createInfo s false s.size (s.mode &&& 0o777))
  else none

/-- `open` (singlefile.py:148-151): the range of the shared file object that the handle shows (singlefile.py:64-79). -/
def SingleFile.open (s : SingleFile) (i : PlainInfo) : Except PyErr (List (Nat × Int × Int)) :=
  if i ≠ createInfo s false i.size (i.mode &&& 0o777) then .error .valueError
  else .ok [(0, 0, s.size)]

/-! ## C42 -/

theorem lstrip_normpath (path : Str) : lstrip '/' (posixNormpath ('/' :: path)) = join '/' (namesOf path) := by
  obtain ⟨h1, -⟩ := normpath_slash path
  rw [canonical_eq] at h1
  exact (List.cons.inj h1).2

theorem join_eq_nil (cs : List Str) (h : ∀ n ∈ cs, n ≠ []) : join '/' cs = [] ↔ cs = [] := by
  cases cs with
  | nil => simp [join]
  | cons c cs =>
    cases cs with
    | nil => simp only [join, reduceCtorEq, iff_false]; exact h c (by simp)
    | cons b bs => simp [join]

/-- **C42**, construction: the path must be a single name; that is the name of the file. -/
theorem C42_init (path : Str) (size : Nat) (w r : Bool) (who : Nat) :
    (∀ n, namesOf path = [n] → SingleFile.init path size w r who = .ok ⟨n, size, fileMode w r, who⟩) ∧
    ((∀ n, namesOf path ≠ [n]) → SingleFile.init path size w r who = .error .valueError) := by
  unfold SingleFile.init
  rw [lstrip_normpath]
  have hn := namesOf_names path
  constructor
  · intro n h
    rw [h] at hn ⊢
    have := hn n (by simp)
    rw [show join '/' [n] = n from rfl, if_neg]
    rintro (h | h)
    · exact this.1 h
    · exact this.2.1 h
  · intro h
    rw [if_pos]
    cases hp : namesOf path with
    | nil => left; rfl
    | cons a as =>
      cases as with
      | nil => exact absurd hp (h a)
      | cons b bs => right; simp [join]

/-- **C42**, the tree: the root is a folder with exactly one entry, that entry is a regular file of the given size, and nothing
else exists. -/
theorem C42_tree (s : SingleFile) (hn : IsName s.name) (cs : List Str) (hcs : ∀ n ∈ cs, IsName n) :
    (cs = [] → s.list (canonical cs) = some [s.name] ∧ ∃ i, s.lookup (canonical cs) = some i ∧ isDir i.mode = true) ∧
    (cs = [s.name] → s.list (canonical cs) = none ∧ ∃ i, s.lookup (canonical cs) = some i ∧ i.size = s.size ∧
      i.mode &&& 0xF000 = 0o100000) ∧
    (cs ≠ [] → cs ≠ [s.name] → s.list (canonical cs) = none ∧ s.lookup (canonical cs) = none) := by
  have hroot : cs ≠ [] → ¬ (canonical cs = [] ∨ canonical cs = ['/']) := by
    intro hne h
    rcases h with h | h
    · simp [canonical_eq] at h
    · exact hne (canonical_inj cs [] hcs (by simp) h)
  refine ⟨?_, ?_, ?_⟩
  · rintro rfl
    refine ⟨rfl, _, rfl, ?_⟩
    show isDir (s.mode &&& 0o777 ||| 0o40000) = true
    unfold isDir
    rw [Nat.and_or_distrib_right, Nat.and_assoc]
    simp
  · intro hc
    have h1 := hroot (by rw [hc]; simp)
    unfold SingleFile.list SingleFile.lookup
    rw [if_neg h1, if_neg h1, strip_canonical cs hcs, hc, show join '/' [s.name] = s.name from rfl, if_pos rfl]
    refine ⟨rfl, _, rfl, rfl, ?_⟩
    show (s.mode &&& 0o777 ||| 0o100000) &&& 0xF000 = 0o100000
    rw [Nat.and_or_distrib_right, Nat.and_assoc]
    simp
  · intro hne hne'
    have h1 := hroot hne
    unfold SingleFile.list SingleFile.lookup
    rw [if_neg h1, if_neg h1, strip_canonical cs hcs, if_neg]
    · exact ⟨rfl, rfl⟩
    · intro e
      apply hne'
      have hs := split_join '/' cs hne (fun n h => (hcs n h).2.1)
      rw [e, split_of_not_mem _ _ hn.2.1] at hs
      exact hs.symm

/-- **C42**, opening: the file can be opened, the folder cannot. -/
theorem C42_open (s : SingleFile) (path : Str) (i : PlainInfo) (hi : s.lookup path = some i) :
    s.open i = if isDir i.mode then .error .valueError else .ok [(0, 0, s.size)] := by
  have h1 : ∀ m : Nat, (m &&& 0o777 ||| 0o100000) &&& 0o777 = m &&& 0o777 := by
    intro m
    rw [Nat.and_or_distrib_right, Nat.and_assoc]
    simp
  have h2 : ∀ m : Nat, isDir (m &&& 0o777 ||| 0o100000) = false := by
    intro m
    unfold isDir
    rw [Nat.and_or_distrib_right, Nat.and_assoc]
    simp
  have h3 : ∀ m : Nat, isDir (m &&& 0o777 ||| 0o40000) = true := by
    intro m
    unfold isDir
    rw [Nat.and_or_distrib_right, Nat.and_assoc]
    simp
  have h4 : ∀ m : Nat, (m &&& 0o777 ||| 0o40000) &&& 0o777 = m &&& 0o777 := by
    intro m
    rw [Nat.and_or_distrib_right, Nat.and_assoc]
    simp
  unfold SingleFile.lookup at hi
  unfold SingleFile.open
  split at hi
  · cases hi
    simp only [createInfo, if_true, h3]
    rw [if_pos]
    simp only [h4, Bool.false_eq_true, if_false]
    intro e
    have e := congrArg PlainInfo.mode e
    simp only at e
    have := h3 s.mode
    rw [e, h2] at this
    cases this
  · split at hi
    · cases hi
      simp only [createInfo, Bool.false_eq_true, if_false, h1, h2]
      simp
    · cases hi

/-- **C42**, handles: any number of handles are used at the same time, in any interleaving of their steps; each behaves
like an in-memory file of its own with the whole contents, and always some schedule lets all of them finish. -/
theorem C42_handles {α} (s : SingleFile) (i : PlainInfo) (h : List (Nat × Int × Int)) (ho : s.open i = .ok h) (f : FileObj α)
    (hf : f.closed = false) (hs : s.size = f.content.length) (progs : Nat → List Op)
    (hacc : ∀ t, (MemFile.mk f.content 0).accepts (progs t) = true) (schedule : List Nat) :
    let s := fun sch => Sys.exec { store := fun _ => f, threads := fun t => Thread.start h (progs t), lock := none, useLock := true } sch
    (∀ t, ((s schedule).threads t).outs <+: (MemFile.mk f.content 0).run (progs t) ∧
      (((s schedule).threads t).todo = [] → ((s schedule).threads t).pc matches .idle →
        ((s schedule).threads t).outs = (MemFile.mk f.content 0).run (progs t))) ∧
    ∀ N, (∀ t ∈ schedule, t < N) → ∃ rest, ∀ t, t < N → (s (schedule ++ rest)).done t := by
  have hh : h = [(0, 0, (s.size : Int))] := by
    unfold SingleFile.open at ho
    split at ho
    · cases ho
    · cases ho; rfl
  subst hh
  have hj : joined (fun _ => f) [(0, 0, (s.size : Int))] = f.content := by
    unfold joined
    simp [hs]
  have hin : ∀ _t : Nat, Inside (fun _ => f) [(0, 0, (s.size : Int))] := by
    intro _ x hx
    rw [List.mem_singleton] at hx
    subst hx
    exact ⟨Int.le_refl _, Int.natCast_nonneg _, by simp [hs], hf⟩
  have hacc' : ∀ t, (MemFile.mk (joined (fun _ => f) [(0, 0, (s.size : Int))]) 0).accepts (progs t) = true := by rw [hj]; exact hacc
  intro sys
  refine ⟨?_, ?_⟩
  · intro t
    have := C04_concurrent_reads (fun _ => f) (fun t => ([(0, 0, (s.size : Int))], progs t)) hin hacc' schedule t
    rw [hj] at this
    exact this
  · intro N hN
    exact C04_no_deadlock (fun _ => f) (fun t => ([(0, 0, (s.size : Int))], progs t)) hin hacc' schedule N hN

/-- A case of the theorems above. -/
example : SingleFile.init "/a.iso".toList 3 false true 0 = .ok ⟨"a.iso".toList, 3, 0o555, 0⟩ ∧
    (SingleFile.mk "a.iso".toList 3 0o555 0).lookup "/a.iso".toList = some ⟨3, 0o100555, [], 0, []⟩ ∧
    (SingleFile.mk "a.iso".toList 3 0o555 0).open ⟨3, 0o100555, [], 0, []⟩ = .ok [(0, 0, 3)] ∧
    (MemFile.mk [1, 2, 3] 0).accepts [.read 2, .seek 0 .set, .read (-1)] = true := by decide

end Verif.Compose
