import Verif.Formats.Git
import Verif.Compose.Source

/-!
# C152, C153: URLs of git repositories
(core/ratarmountcore/mountsource/factory.py:73-106, core/ratarmountcore/mountsource/formats/git.py:28-60)

What the library finds in a repository is given. Names of branches are in the order of the library.
-/

namespace Verif.GitUrl

open Verif.Py Verif.Git Verif.Compose

/-- A commit: its tree and its time (git.py:31-33). -/
structure Commit where
  tree : Obj
  time : Nat

/-- A repository (git.py:28-50): the option `init.defaultBranch`, the branches and whether they are checked out, what references mean and the
commit that is checked out. -/
structure Repo where
  defaultBranch : Option Str
  branches : List (Str × Bool)
  resolve : Str → Option Commit
  head : Option Commit

/-- The branches tried last (git.py:46-50). -/
def usualBranch (r : Repo) : Str :=
  match ["master".toList, "main".toList].find? (fun b => (r.branches.map Prod.fst).contains b) with
  | some b => b
  | none => "master".toList

/-- `_get_default_reference` (git.py:36-50). -/
def defaultReference (r : Repo) : Str :=
  match r.defaultBranch with
  | some b => b
  | none => match r.branches.find? Prod.snd with
    | some b => b.1
    | none => usualBranch r

/-- `reference or self._get_default_reference(...)` (git.py:30). -/
def reference (r : Repo) : Option Str → Str
  | none => defaultReference r
  | some [] => defaultReference r
  | some s => s

/-- `GitMountSource.__init__` (git.py:28-34): the tree and the time of all files. -/
def open_ (r : Repo) (ref : Option Str) : Except PyErr (Obj × Nat) :=
  match r.resolve (reference r ref) with
  | none => .error .keyError
  | some c => match r.head with
    | none => .error .runtimeError
    | some h => .ok (c.tree, h.time)

/-- `s.split(c, 1)` as the part before, if there is one, and the rest (factory.py:83-89). -/
def cut (c : Char) (s : Str) : Option Str × Str :=
  match splitMax c s 1 with
  | [a, b] => (some a, b)
  | _ => (none, s)

/-- The parts of a URL after `git://`: repository, reference and path (factory.py:83-89). -/
def parse (s : Str) : Option Str × Option Str × Str := ((cut ':' s).1, (cut '@' (cut ':' s).2).1, (cut '@' (cut ':' s).2).2)

/-- `_look_up_path` with the prefix (git.py:52-59). -/
def lookUpBelow (tree : Obj) (pre path : Str) : Option Obj := lookLoop tree (split '/' pre ++ split '/' path)

/-- What a URL gives: a mounted tree with the prefix and the time, or an open file (factory.py:91-106). -/
inductive Opened where
  | mounted (tree : Obj) (time : Nat) (pre : Str)
  | file (id : Nat)

/-- Finding the path inside the repository (factory.py:91-106). -/
def openPath (tree : Obj) (time : Nat) (path : Str) : Except PyErr Opened :=
  if path = [] then .ok (.mounted tree time [])
  else match lookUpBelow tree [] path with
    | none => .error .ratarmount
    | some (.tree _) => .ok (.mounted tree time path)
    | some (.blob i) => .ok (.file i)

/-- `_open_git_mount_source` (factory.py:73-106); `repos` opens the repository at a path, or in the working directory. -/
def openUrl (repos : Option Str → Option Repo) (s : Str) : Except PyErr Opened :=
  match repos (parse s).1 with
  | none => .error .runtimeError
  | some r => match open_ r (parse s).2.1 with
    | .error e => .error e
    | .ok (tree, time) => openPath tree time (parse s).2.2

/-! ## Specification -/

/-- How a URL is written, after `git://`: `repository:reference@path`, where the first two parts may be left out. -/
def written (repo ref : Option Str) (path : Str) : Str :=
  (match repo with | some p => p ++ [':'] | none => []) ++ (match ref with | some x => x ++ ['@'] | none => []) ++ path

/-- Every URL means its parts. -/
def C152_statement : Prop := ∀ (repo ref : Option Str) (path : Str), parse (written repo ref path) = (repo, ref, path)

/-- The branch that is checked out is mounted if no reference is given. -/
def C153_statement : Prop :=
  ∀ (r : Repo) (b : Str) (c : Commit), (b, true) ∈ r.branches → (∀ x ∈ r.branches, x.2 = true → x = (b, true)) → r.resolve b = some c →
    r.head = some c → open_ r none = .ok (c.tree, c.time)

/-- The files of a commit have its time. -/
def C153_time_statement : Prop :=
  ∀ (r : Repo) (ref : Str) (c h : Commit), ref ≠ [] → r.resolve ref = some c → r.head = some h → open_ r (some ref) = .ok (c.tree, c.time)

/-! ## Proofs -/

theorem cut_found (c : Char) (a b : Str) (h : c ∉ a) : cut c (a ++ c :: b) = (some a, b) := by
  unfold cut
  rw [splitMax_append_cons c a b 0 h]
  cases b <;> rfl

theorem cut_missing (c : Char) (s : Str) (h : c ∉ s) : cut c s = (none, s) := by
  unfold cut
  rw [splitMax_of_not_mem c s 1 h]

/-- C152 for repositories without colons and references without at signs, if no part that is left out can be mistaken: without a repository
there is no colon, without a reference there is no at sign. What is missing: other paths. -/
theorem C152_partial (repo ref : Option Str) (path : Str) (h1 : ∀ p, repo = some p → ':' ∉ p) (h2 : repo = none → ':' ∉ written none ref path)
    (h3 : ∀ x, ref = some x → '@' ∉ x) (h4 : ref = none → '@' ∉ path) : parse (written repo ref path) = (repo, ref, path) := by
  have hin : cut '@' (written none ref path) = (ref, path) := by
    cases ref with
    | none => exact cut_missing '@' path (h4 rfl)
    | some x =>
      have : written none (some x) path = x ++ '@' :: path := by simp [written]
      rw [this]
      exact cut_found '@' x path (h3 x rfl)
  have hout : cut ':' (written repo ref path) = (repo, written none ref path) := by
    cases repo with
    | none => exact cut_missing ':' _ (h2 rfl)
    | some p =>
      have : written (some p) ref path = p ++ ':' :: written none ref path := by simp [written]
      rw [this]
      exact cut_found ':' p _ (h1 p rfl)
  unfold parse
  rw [hout, hin]

/-- C152 is violated: a path with an at sign is taken for a reference. -/
theorem C152_violated : ¬ C152_statement := by
  intro h
  have := h none none "icon@2x.png".toList
  exact absurd this (by decide)

theorem lookLoop_append : ∀ (a b : List Str) (o o' : Obj), walk o (a.filter (fun n => decide (n ≠ []))) = some o' → lookLoop o (a ++ b) = lookLoop o' b := by
  intro a
  induction a with
  | nil => intro b o o' h; cases h; rfl
  | cons n a ih =>
    intro b o o' h
    by_cases hn : n = []
    · rw [List.filter_cons_of_neg (by simpa using hn)] at h
      rw [List.cons_append, lookLoop, if_neg (fun hh => hh.1 hn)]
      exact ih b o o' h
    · rw [List.filter_cons_of_pos (by simpa using hn), walk] at h
      cases hc : o.child n with
      | none => rw [hc] at h; cases h
      | some x =>
        rw [hc] at h
        have ht : o.isTree = true := by
          cases o with
          | blob i => simp [Obj.child] at hc
          | tree es => rfl
        rw [List.cons_append, lookLoop, if_pos ⟨hn, ht⟩, hc]
        exact ih b x o' h

/-- C152, folders: a path to a folder mounts this folder, every path below it is found as in the folder. -/
theorem C152_folder (tree : Obj) (time : Nat) (pre : Str) (es : List (Str × Obj)) (hne : pre ≠ []) (h : walk tree (names pre) = some (.tree es)) :
    openPath tree time pre = .ok (.mounted tree time pre) ∧ ∀ path, lookUpBelow tree pre path = lookUp (.tree es) path := by
  have hw : lookUpBelow tree [] pre = some (.tree es) := by
    show lookLoop tree ([] :: split '/' pre) = _
    rw [lookLoop, if_neg (fun hh => hh.1 rfl)]
    have := lookLoop_append (split '/' pre) [] tree (.tree es) h
    rw [List.append_nil] at this
    exact this
  constructor
  · unfold openPath
    rw [if_neg hne, hw]
  · intro path
    unfold lookUpBelow lookUp
    rw [lookLoop_append (split '/' pre) (split '/' path) tree (.tree es) h, lookLoop, if_neg (fun hh => hh.1 rfl)]

/-- C152, files: a path to a file opens it. -/
theorem C152_file (tree : Obj) (time : Nat) (pre : Str) (i : Nat) (hne : pre ≠ []) (h : walk tree (names pre) = some (.blob i)) :
    openPath tree time pre = .ok (.file i) := by
  have hw : lookUpBelow tree [] pre = some (.blob i) := by
    show lookLoop tree ([] :: split '/' pre) = _
    rw [lookLoop, if_neg (fun hh => hh.1 rfl)]
    have := lookLoop_append (split '/' pre) [] tree (.blob i) h
    rw [List.append_nil] at this
    exact this
  unfold openPath
  rw [if_neg hne, hw]

/-- C152, other paths: a path that leads neither to something nor through a file is refused. -/
theorem C152_refused (tree : Obj) (time : Nat) (path : Str) (hne : path ≠ []) (h : walk tree (names path) = none)
    (hf : ∀ pre post id, names path = pre ++ post → post ≠ [] → walk tree pre ≠ some (.blob id)) : openPath tree time path = .error .ratarmount := by
  have hw : lookUpBelow tree [] path = none := (C75_partial tree path hf).trans h
  unfold openPath
  rw [if_neg hne, hw]

/-- C152, whole URLs: the path is opened in the tree of the reference, or of the default one, in this repository. -/
theorem C152_url (repos : Option Str → Option Repo) (repo ref : Option Str) (path : Str) (r : Repo) (c h : Commit)
    (h1 : ∀ p, repo = some p → ':' ∉ p) (h2 : repo = none → ':' ∉ written none ref path) (h3 : ∀ x, ref = some x → '@' ∉ x)
    (h4 : ref = none → '@' ∉ path) (hr : repos repo = some r)
    (hc : r.resolve (if ref = none ∨ ref = some [] then defaultReference r else ref.getD []) = some c) (hh : r.head = some h) :
    openUrl repos (written repo ref path) = openPath c.tree h.time path := by
  have ho : open_ r ref = .ok (c.tree, h.time) := by
    have : reference r ref = if ref = none ∨ ref = some [] then defaultReference r else ref.getD [] := by
      cases ref with
      | none => simp [reference]
      | some x => cases x <;> simp [reference]
    unfold open_
    rw [this, hc]
    simp only
    rw [hh]
  unfold openUrl
  rw [C152_partial repo ref path h1 h2 h3 h4]
  simp only
  rw [hr]
  simp only
  rw [ho]

/-- C153, the branch, if the option for new repositories is not set. What is missing: the option is taken for the name of a branch of this
repository. -/
theorem C153_partial (r : Repo) (b : Str) (c : Commit) (hb : (b, true) ∈ r.branches) (hu : ∀ x ∈ r.branches, x.2 = true → x = (b, true))
    (hr : r.resolve b = some c) (hh : r.head = some c) (ho : r.defaultBranch = none) : open_ r none = .ok (c.tree, c.time) := by
  have hf : r.branches.find? Prod.snd = some (b, true) := by
    cases hx : r.branches.find? Prod.snd with
    | none => exact absurd rfl (List.find?_eq_none.mp hx (b, true) hb)
    | some x => rw [hu x (List.mem_of_find?_eq_some hx) (List.find?_some hx)]
  unfold open_ reference defaultReference
  rw [ho]
  simp only
  rw [hf]
  simp only
  rw [hr]
  simp only
  rw [hh]

/-- C153: a reference is followed; the time is that of the commit that is checked out. -/
theorem C153_reference (r : Repo) (ref : Str) (c h : Commit) (hne : ref ≠ []) (hr : r.resolve ref = some c) (hh : r.head = some h) :
    open_ r (some ref) = .ok (c.tree, h.time) := by
  have : reference r (some ref) = ref := by
    cases ref with
    | nil => exact absurd rfl hne
    | cons x xs => rfl
  unfold open_
  rw [this, hr]
  simp only
  rw [hh]

/-- C153: with the option for new repositories, the branch with this name is mounted, whatever is checked out. -/
theorem C153_option (r : Repo) (b : Str) (c h : Commit) (ho : r.defaultBranch = some b) (hr : r.resolve b = some c) (hh : r.head = some h) :
    open_ r none = .ok (c.tree, h.time) := by
  unfold open_ reference defaultReference
  rw [ho]
  simp only
  rw [hr]
  simp only
  rw [hh]

/-- C153: if no branch is checked out, `master` is mounted, or `main` if there is only this one. -/
theorem C153_detached (r : Repo) (b : Str) (c h : Commit) (ho : r.defaultBranch = none) (hn : ∀ x ∈ r.branches, x.2 = false)
    (hb : b = "master".toList ∧ b ∈ r.branches.map Prod.fst ∨ b = "main".toList ∧ b ∈ r.branches.map Prod.fst ∧ "master".toList ∉ r.branches.map Prod.fst)
    (hr : r.resolve b = some c) (hh : r.head = some h) : open_ r none = .ok (c.tree, h.time) := by
  have hf : r.branches.find? Prod.snd = none := List.find?_eq_none.mpr (fun x hx => by rw [hn x hx]; simp)
  have hu : usualBranch r = b := by
    unfold usualBranch
    rcases hb with ⟨rfl, h1⟩ | ⟨rfl, h1, h2⟩
    · rw [List.find?_cons_of_pos (by simpa using h1)]
    · rw [List.find?_cons_of_neg (by simpa using h2), List.find?_cons_of_pos (by simpa using h1)]
  unfold open_ reference defaultReference
  rw [ho]
  simp only
  rw [hf]
  simp only
  rw [hu, hr]
  simp only
  rw [hh]

/-- C153: references that mean nothing are refused. -/
theorem C153_refused (r : Repo) (ref : Option Str) (h : r.resolve (reference r ref) = none) : open_ r ref = .error .keyError := by
  unfold open_
  rw [h]

/-- A repository with the branch `develop` checked out and an older tag, where new repositories would start with `main`. -/
def sampleRepo (option : Option Str) : Repo where
  defaultBranch := option
  branches := [("develop".toList, true), ("old".toList, false)]
  resolve := fun x => if x = "develop".toList then some ⟨sample, 20⟩ else if x = "old".toList then some ⟨.tree [], 10⟩ else none
  head := some ⟨sample, 20⟩

theorem sampleRepo_unique (option : Option Str) : ∀ x ∈ (sampleRepo option).branches, x.2 = true → x = ("develop".toList, true) := by
  show ∀ x ∈ [("develop".toList, true), ("old".toList, false)], x.2 = true → x = ("develop".toList, true)
  decide

/-- C153 is violated: with `init.defaultBranch` set to another name, nothing is mounted. -/
theorem C153_violated : ¬ C153_statement := by
  intro h
  have h1 := h (sampleRepo (some "main".toList)) "develop".toList ⟨sample, 20⟩ List.mem_cons_self (sampleRepo_unique _) rfl rfl
  have h2 : open_ (sampleRepo (some "main".toList)) none = .error .keyError := rfl
  rw [h2] at h1
  cases h1

/-- C153 is violated for times: an older commit is shown with the time of the one that is checked out. -/
theorem C153_time_violated : ¬ C153_time_statement := by
  intro h
  have h1 := h (sampleRepo none) "old".toList ⟨.tree [], 10⟩ ⟨sample, 20⟩ (by decide) rfl rfl
  have h2 : open_ (sampleRepo none) (some "old".toList) = .ok (.tree [], 20) := rfl
  rw [h2] at h1
  cases h1

/-- The hypotheses can be met. -/
example : open_ (sampleRepo none) none = .ok (sample, 20) :=
  C153_partial (sampleRepo none) "develop".toList ⟨sample, 20⟩ List.mem_cons_self (sampleRepo_unique _) rfl rfl rfl

/-- A whole URL. -/
example : openUrl (fun _ => some (sampleRepo none)) "/src/x:develop@d/f".toList = .ok (.file 7) := by rfl

example : parse (written (some "/a".toList) (some "v1".toList) "d:e".toList) = (some "/a".toList, some "v1".toList, "d:e".toList) :=
  C152_partial _ _ _ (by intro p h; cases h; decide) (by intro h; cases h) (by intro p h; cases h; decide) (by intro h; cases h)

/-- A folder in the repository. -/
example : lookUpBelow sample "d".toList "/f".toList = some (.blob 7) := by
  rw [(C152_folder sample 20 "d".toList [("f".toList, .blob 7)] (by decide) rfl).2]
  rfl

end Verif.GitUrl
