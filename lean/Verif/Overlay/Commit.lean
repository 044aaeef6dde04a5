import Verif.Overlay.Witness

/-!
# C49: committing an overlay (ratarmount/WriteOverlay.py:477-632)

GNU tar is specified here: an archive is a list of members, `tar --delete` removes every member whose name is one of the
given names or begins with one of them and a slash, `tar --append` adds members at the end, for a folder everything
below it. Names are given as the parts between slashes. Hard-link members and attributes are left out.
-/

namespace Verif.Overlay

open Verif.Py

variable {c : Cfg} {s : St}

/-- A member of an archive: the parts of its name, for example `./a//b/` is `['.', 'a', '', 'b', '']` (GNU tar, used at WriteOverlay.py:573-632). -/
structure Member where
  raw : List Str
  node : Shown
  deriving DecidableEq, Repr

/-- A part of a name that survives normalisation (SQLiteIndex.py:803-811). `..` is left out. -/
def properName (n : Str) : Bool := n ≠ [] ∧ n ≠ ['.']

/-- The path ratarmount shows a member at (SQLiteIndex.py:803-811). -/
def Member.path (m : Member) : Path := m.raw.filter properName

/-- What ratarmount shows for an archive: the last member of a path, and a folder if there is something below (tar.py:1023-1110). -/
def tarTree (ms : List Member) : Tree := fun p =>
  if p = [] then some .dir
  else match (ms.filter (fun m => m.path = p)).getLast? with
    | some m => some m.node
    | none => if ms.any (fun m => p.isPrefixOf m.path) then some .dir else none

/-- `tar --delete` (GNU tar, used at WriteOverlay.py:573-632). -/
def tarDelete (names : List (List Str)) (ms : List Member) : List Member :=
  ms.filter (fun m => !names.any (fun n => n.isPrefixOf m.raw))

/-- The member `tar --append` makes for an entry; folders get a slash at the end (GNU tar, used at WriteOverlay.py:573-632). -/
def memberOf (p : Path) (i : Inode) : Member := ⟨if i.kind = .dir then p ++ [[]] else p, i.shown⟩

/-- `tar --append` of one name: the entry and everything below (GNU tar, used at WriteOverlay.py:573-632). -/
def appendOne (h : Host) (p : Path) : List Member :=
  (Dict.keys h.entries).filterMap (fun q => if p.isPrefixOf q then (h.node q).map (memberOf q) else none)

/-- `add_to_deletion_file` (WriteOverlay.py:501-506). -/
def deletionNames (p : Path) : List (List Str) := [p, [] :: p, ['.'] :: p]

/-- `os.walk` reports an entry among the file names if it is no folder and no link to a folder (Python library, used at WriteOverlay.py:477-570). `toDir` says which link
targets are folders. -/
def isFileName (toDir : Str → Bool) (i : Inode) : Bool :=
  match i.kind with
  | .dir => false
  | .link => !toDir i.target
  | _ => true

/-- The names to be ignored (WriteOverlay.py:524-525). -/
def databasePaths : List Path := databaseNames.map (fun n => [n])

/-- The files found by the walk (WriteOverlay.py:531-543). -/
def walkFiles (toDir : Str → Bool) (h : Host) : List Path :=
  (Dict.keys h.entries).filter (fun p =>
    match h.node p with
    | some i => isFileName toDir i && !databasePaths.contains p
    | none => false)

/-- The folders other than the root in which the walk found no file names (WriteOverlay.py:545-547). -/
def walkFolders (toDir : Str → Bool) (h : Host) : List Path :=
  (Dict.keys h.entries).filter (fun p => p ≠ [] && h.isdir p && (h.children p).all (fun n =>
    match h.node (p ++ [n]) with
    | some i => !isFileName toDir i
    | none => true))

/-- The paths in the deletion list (WriteOverlay.py:508-543). -/
def deletions (toDir : Str → Bool) (s : St) : List Path :=
  (Dict.keys s.rows).filter (isDeleted s) ++ walkFiles toDir s.host

/-- `commit_overlay` (WriteOverlay.py:477-632) after the confirmation. -/
def commit (toDir : Str → Bool) (s : St) (ms : List Member) : List Member :=
  tarDelete ((deletions toDir s).flatMap deletionNames) ms
    ++ (walkFiles toDir s.host ++ walkFolders toDir s.host).flatMap (appendOne s.host)

/-! ## C49 -/

/-- After committing the overlay into the TAR, mounting the TAR shows the same files with the same content as archive
plus overlay showed before. -/
def C49_statement : Prop :=
  ∀ (c : Cfg) (s : St) (toDir : Str → Bool) (ms : List Member), Inv c s → tarTree ms = lowerTree c →
    ∀ p, p ∉ databasePaths → tarTree (commit toDir s ms) p = shown c s p

/-- Names as `tar` writes them: nothing, a slash or `./` before the path, at most one slash after it. -/
def Canon (m : Member) : Prop :=
  ∃ pre post, (pre = [] ∨ pre = [[]] ∨ pre = [['.']]) ∧ (post = [] ∨ post = [[]]) ∧ m.raw = pre ++ m.path ++ post

/-- A path without empty parts and dots. -/
def Proper (p : Path) : Prop := ∀ n ∈ p, properName n = true

theorem path_proper (m : Member) : Proper m.path := fun _ hn => (List.mem_filter.mp hn).2

theorem filter_proper {p : Path} (h : Proper p) : p.filter properName = p := List.filter_eq_self.mpr h

theorem match_iff {m : Member} (hm : Canon m) {q : Path} (hq : Proper q) (hne : q ≠ []) :
    (deletionNames q).any (fun n => n.isPrefixOf m.raw) = true ↔ q <+: m.path := by
  obtain ⟨pre, post, hpre, hpost, hraw⟩ := hm
  cases q with
  | nil => exact absurd rfl hne
  | cons a q' =>
  have ha : a ≠ [] ∧ a ≠ ['.'] := by
    have := hq a (by simp); unfold properName at this; simpa using this
  have hend : (a :: q') <+: m.path ++ post ↔ (a :: q') <+: m.path := by
    constructor
    · intro h
      rcases hpost with rfl | rfl
      · simpa using h
      · rcases prefix_concat h with h | h
        · exact h
        · have := hq [] (by rw [h]; simp)
          simp [properName] at this
    · intro h; exact h.trans (List.prefix_append _ _)
  have hbad : ∀ (x y : Str) (l l' : List Str), x ≠ y → ¬ (x :: l) <+: (y :: l') := by
    intro x y l l' hxy h
    rw [List.cons_prefix_cons] at h
    exact hxy h.1
  have hpath : ∀ (x : Str), (x = [] ∨ x = ['.']) → ¬ (x :: a :: q') <+: m.path ++ post := by
    intro x hx h
    cases hp : m.path with
    | nil =>
      rw [hp] at h
      rcases hpost with rfl | rfl
      · simp at h
      · have hl := h.length_le
        simp at hl
    | cons b p' =>
      rw [hp, List.cons_append, List.cons_prefix_cons] at h
      have hb := path_proper m b (by rw [hp]; simp)
      rw [← h.1] at hb
      rcases hx with rfl | rfl <;> simp [properName] at hb
  simp only [deletionNames, List.any_cons, List.any_nil, Bool.or_false, Bool.or_eq_true, List.isPrefixOf_iff_prefix]
  rw [hraw]
  rcases hpre with rfl | rfl | rfl
  · simp only [List.nil_append]
    constructor
    · rintro (h | h | h)
      · exact hend.mp h
      · exact absurd h (hpath _ (.inl rfl))
      · exact absurd h (hpath _ (.inr rfl))
    · intro h; exact .inl (hend.mpr h)
  · simp only [List.cons_append, List.nil_append]
    constructor
    · rintro (h | h | h)
      · exact absurd h (hbad _ _ _ _ ha.1)
      · exact hend.mp ((List.cons_prefix_cons.mp h).2)
      · exact absurd h (hbad _ _ _ _ (by simp))
    · intro h; exact .inr (.inl (List.cons_prefix_cons.mpr ⟨rfl, hend.mpr h⟩))
  · simp only [List.cons_append, List.nil_append]
    constructor
    · rintro (h | h | h)
      · exact absurd h (hbad _ _ _ _ ha.2)
      · exact absurd h (hbad _ _ _ _ (by simp))
      · exact hend.mp ((List.cons_prefix_cons.mp h).2)
    · intro h; exact .inr (.inr (List.cons_prefix_cons.mpr ⟨rfl, hend.mpr h⟩))

/-- What C49 needs: members with names as `tar` writes them, no special parts in the overlay's paths, no links to
folders in the overlay, and no folder of the overlay in the place of a file of the archive. -/
structure Plain (c : Cfg) (s : St) (toDir : Str → Bool) (ms : List Member) : Prop where
  canon : ∀ m ∈ ms, Canon m
  rows : ∀ p, isDeleted s p = true → Proper p
  host : ∀ p, s.host.node p ≠ none → Proper p
  links : ∀ p i, s.host.node p = some i → i.kind = .link → toDir i.target = false
  folders : ∀ p, s.host.isdir p = true → lowerTree c p = none ∨ lowerTree c p = some .dir

section
variable {toDir : Str → Bool} {members : List Member}

theorem mem_keys_node (h : Host) (p : Path) : p ∈ Dict.keys h.entries ↔ h.node p ≠ none := by
  rw [Dict.mem_keys_iff]
  unfold Host.node
  cases Dict.get? h.entries p <;> simp

theorem mem_walkFiles (hP : Plain c s toDir members) (p : Path) :
    p ∈ walkFiles toDir s.host ↔ ∃ i, s.host.node p = some i ∧ i.kind ≠ .dir ∧ p ∉ databasePaths := by
  unfold walkFiles
  rw [List.mem_filter, mem_keys_node]
  cases hn : s.host.node p with
  | none => simp
  | some i =>
    simp only [ne_eq, reduceCtorEq, not_false_eq_true, true_and, Option.some.injEq, exists_eq_left', Bool.and_eq_true,
      Bool.not_eq_true']
    have : isFileName toDir i = true ↔ i.kind ≠ .dir := by
      unfold isFileName
      cases hk : i.kind with
      | link => simp [hP.links p i hn hk]
      | _ => simp
    rw [this]
    simp

theorem mem_deletions (hP : Plain c s toDir members) (q : Path) :
    q ∈ deletions toDir s ↔ isDeleted s q = true ∨ ∃ i, s.host.node q = some i ∧ i.kind ≠ .dir ∧ q ∉ databasePaths := by
  unfold deletions
  rw [List.mem_append, mem_walkFiles hP, List.mem_filter]
  constructor
  · rintro (⟨-, h⟩ | h)
    · exact .inl h
    · exact .inr h
  · rintro (h | h)
    · refine .inl ⟨?_, h⟩
      rw [Dict.mem_keys_iff]
      unfold isDeleted at h
      cases hg : Dict.get? s.rows q with
      | none => rw [hg] at h; simp at h
      | some r => rfl
    · exact .inr h

theorem deletion_ok (hI : Inv c s) (hP : Plain c s toDir members) {q : Path} (h : q ∈ deletions toDir s) :
    Proper q ∧ q ≠ [] ∧ shown c s q ≠ some .dir := by
  rcases (mem_deletions hP q).mp h with h | ⟨i, hi, hk, -⟩
  · have hn : shown c s q = none := by unfold shown view; rw [h]; rfl
    refine ⟨hP.rows q h, ?_, by rw [hn]; simp⟩
    rintro rfl
    rw [root_shown hI] at hn; simp at hn
  · have hs := shown_host hI hi
    have : shown c s q ≠ some .dir := by
      rw [hs]; intro he; exact hk ((shown_dir_iff i).mp (Option.some.inj he))
    refine ⟨hP.host q (by rw [hi]; simp), ?_, this⟩
    rintro rfl
    exact this (root_shown hI)

/-- The members that stay. -/
theorem mem_kept (hI : Inv c s) (hP : Plain c s toDir members) (m : Member) :
    m ∈ tarDelete ((deletions toDir s).flatMap deletionNames) members ↔
      m ∈ members ∧ ∀ q ∈ deletions toDir s, ¬ q <+: m.path := by
  unfold tarDelete
  rw [List.mem_filter]
  constructor
  · rintro ⟨hm, h⟩
    refine ⟨hm, ?_⟩
    intro q hq hpre
    obtain ⟨h1, h2, -⟩ := deletion_ok hI hP hq
    have := (match_iff (hP.canon m hm) h1 h2).mpr hpre
    simp only [Bool.not_eq_true', List.any_eq_false, List.mem_flatMap] at h
    obtain ⟨n, hn, hn'⟩ := List.any_eq_true.mp this
    exact h n ⟨q, hq, hn⟩ hn'
  · rintro ⟨hm, h⟩
    refine ⟨hm, ?_⟩
    simp only [Bool.not_eq_true', List.any_eq_false, List.mem_flatMap]
    rintro n ⟨q, hq, hn⟩ hn'
    obtain ⟨h1, h2, -⟩ := deletion_ok hI hP hq
    exact h q hq ((match_iff (hP.canon m hm) h1 h2).mp (List.any_eq_true.mpr ⟨n, hn, hn'⟩))

abbrev appended (toDir : Str → Bool) (s : St) : List Member :=
  (walkFiles toDir s.host ++ walkFolders toDir s.host).flatMap (appendOne s.host)

theorem memberOf_path {p : Path} (hp : Proper p) (i : Inode) : (memberOf p i).path = p := by
  unfold memberOf Member.path
  split
  · simp only [List.filter_append, filter_proper hp]
    simp [properName]
  · exact filter_proper hp

theorem mem_appendOne {h : Host} (hp : ∀ p, h.node p ≠ none → Proper p) {p : Path} {m : Member} (hm : m ∈ appendOne h p) :
    ∃ i, h.node m.path = some i ∧ m.node = i.shown ∧ p <+: m.path := by
  unfold appendOne at hm
  obtain ⟨q, -, hq⟩ := List.mem_filterMap.mp hm
  split at hq
  · next hpre =>
    obtain ⟨i, hi, rfl⟩ := Option.map_eq_some_iff.mp hq
    rw [memberOf_path (hp q (by rw [hi]; simp))]
    exact ⟨i, hi, rfl, List.isPrefixOf_iff_prefix.mp hpre⟩
  · cases hq

theorem appendOne_mem {h : Host} (hp : ∀ p, h.node p ≠ none → Proper p) {p : Path} {i : Inode} (hi : h.node p = some i) :
    ∃ m ∈ appendOne h p, m.path = p := by
  refine ⟨memberOf p i, ?_, memberOf_path (hp p (by rw [hi]; simp)) i⟩
  unfold appendOne
  refine List.mem_filterMap.mpr ⟨p, (mem_keys_node h p).mpr (by rw [hi]; simp), ?_⟩
  rw [if_pos (List.isPrefixOf_iff_prefix.mpr (List.prefix_refl p)), hi]; rfl

theorem mem_appended (hP : Plain c s toDir members) {m : Member} (hm : m ∈ appended toDir s) :
    ∃ i, s.host.node m.path = some i ∧ m.node = i.shown := by
  obtain ⟨p, -, hp⟩ := List.mem_flatMap.mp hm
  obtain ⟨i, h1, h2, -⟩ := mem_appendOne hP.host hp
  exact ⟨i, h1, h2⟩

theorem appended_file (hP : Plain c s toDir members) {p : Path} {i : Inode} (hi : s.host.node p = some i)
    (hk : i.kind ≠ .dir) (hdb : p ∉ databasePaths) : ∃ m ∈ appended toDir s, m.path = p := by
  obtain ⟨m, hm, hmp⟩ := appendOne_mem hP.host hi
  exact ⟨m, List.mem_flatMap.mpr ⟨p, List.mem_append_left _ ((mem_walkFiles hP p).mpr ⟨i, hi, hk, hdb⟩), hm⟩, hmp⟩

theorem appended_dir (hP : Plain c s toDir members) {p : Path} (hp : p ≠ []) (hd : s.host.isdir p = true) :
    ∃ m ∈ appended toDir s, p <+: m.path := by
  obtain ⟨i, hi, hk⟩ := (isdir_iff _ _).mp hd
  by_cases hw : p ∈ walkFolders toDir s.host
  · obtain ⟨m, hm, hmp⟩ := appendOne_mem hP.host hi
    exact ⟨m, List.mem_flatMap.mpr ⟨p, List.mem_append_right _ hw, hm⟩, by rw [hmp]; exact List.prefix_refl p⟩
  · -- some file name is in the folder
    unfold walkFolders at hw
    rw [List.mem_filter, mem_keys_node] at hw
    simp only [hi, ne_eq, reduceCtorEq, not_false_eq_true, true_and, hp, hd, decide_true, Bool.true_and,
      List.all_eq_true, Classical.not_forall] at hw
    obtain ⟨n, hn, hx⟩ := hw
    obtain ⟨j, hj⟩ : ∃ j, s.host.node (p ++ [n]) = some j := by
      have := (mem_children _ _ _).mp hn
      cases h : s.host.node (p ++ [n]) with
      | none => exact absurd h this
      | some j => exact ⟨j, rfl⟩
    rw [hj] at hx
    simp only [Bool.not_eq_true', Bool.not_eq_false] at hx
    have hjk : j.kind ≠ .dir := by
      intro h; unfold isFileName at hx; rw [h] at hx; simp at hx
    have hdb : p ++ [n] ∉ databasePaths := by
      intro h
      unfold databasePaths at h
      obtain ⟨x, -, hx'⟩ := List.mem_map.mp h
      have h2 := congrArg List.length hx'
      simp only [List.length_append, List.length_cons, List.length_nil] at h2
      exact hp (List.length_eq_zero_iff.mp (by omega))
    obtain ⟨m, hm, hmp⟩ := appended_file hP hj hjk hdb
    exact ⟨m, hm, by rw [hmp]; exact List.prefix_append p [n]⟩

theorem host_below (hw : s.host.WF) {p q : Path} (hn : s.host.node p = none) (hpq : p <+: q) : s.host.node q = none := by
  obtain ⟨t, rfl⟩ := hpq
  generalize hlen : t.length = len
  induction len generalizing t with
  | zero => have : t = [] := List.length_eq_zero_iff.mp hlen
            subst this; simpa using hn
  | succ k ih =>
    have hne : t ≠ [] := by rintro rfl; simp at hlen
    obtain ⟨n, htn⟩ := split_path t hne
    have h1 := ih t.dropLast (by simp [hlen])
    cases hx : s.host.node (p ++ t) with
    | none => rfl
    | some i =>
      rw [htn, ← List.append_assoc] at hx
      have := hw.closed (p ++ t.dropLast) n (by rw [hx]; simp)
      obtain ⟨j, hj, -⟩ := (isdir_iff _ _).mp this
      rw [h1] at hj; cases hj

theorem getLast?_append_right {α : Type} (a : List α) {b : List α} (h : b ≠ []) : (a ++ b).getLast? = b.getLast? := by
  rw [List.getLast?_append]
  cases hb : b.getLast? with
  | none => exact absurd (List.getLast?_eq_none_iff.mp hb) h
  | some x => rfl

theorem tarTree_last {ms : List Member} {p : Path} {x : Shown} (hp : p ≠ []) (hex : ∃ m ∈ ms, m.path = p)
    (hall : ∀ m, (ms.filter (fun m => m.path = p)).getLast? = some m → m.node = x) : tarTree ms p = some x := by
  unfold tarTree
  rw [if_neg hp]
  cases hl : (ms.filter (fun m => m.path = p)).getLast? with
  | some m => exact congrArg some (hall m hl)
  | none =>
    rw [List.getLast?_eq_none_iff, List.filter_eq_nil_iff] at hl
    obtain ⟨m, hm, hmp⟩ := hex
    exact absurd hmp (by simpa using hl m hm)

theorem tarTree_none {ms : List Member} {p : Path} (hp : p ≠ []) (h : ∀ m ∈ ms, ¬ p <+: m.path) : tarTree ms p = none := by
  unfold tarTree
  have : ms.filter (fun m => m.path = p) = [] := by
    rw [List.filter_eq_nil_iff]
    intro m hm hmp
    simp only [decide_eq_true_eq] at hmp
    exact h m hm (by rw [hmp]; exact List.prefix_refl p)
  rw [if_neg hp, this]
  simp only [List.getLast?_nil]
  rw [if_neg]
  rw [List.any_eq_true]
  rintro ⟨m, hm, hpre⟩
  exact h m hm (List.isPrefixOf_iff_prefix.mp hpre)

theorem tarTree_none_iff {ms : List Member} {p : Path} (hp : p ≠ []) : tarTree ms p = none ↔ ∀ m ∈ ms, ¬ p <+: m.path := by
  refine ⟨?_, tarTree_none hp⟩
  intro h m hm hpre
  unfold tarTree at h
  rw [if_neg hp] at h
  split at h
  · cases h
  · rw [if_pos (List.any_eq_true.mpr ⟨m, hm, List.isPrefixOf_iff_prefix.mpr hpre⟩)] at h; cases h

/-- Below a visible path nothing is removed above it. -/
theorem shown_above (hI : Inv c s) {p q : Path} (hx : shown c s p ≠ none) (hq : q <+: p) (hne : q ≠ p) :
    shown c s q = some .dir := by
  obtain ⟨t, rfl⟩ := hq
  have ht : t ≠ [] := by rintro rfl; simp at hne
  obtain ⟨n, htn⟩ := split_path t ht
  rw [htn, ← List.append_assoc] at hx
  exact prefix_dir hI.closed (hI.closed _ n hx) (List.prefix_append _ _)

/-- What the commit does to every path. -/
theorem commit_at (hI : Inv c s) (hP : Plain c s toDir members) (hT : tarTree members = lowerTree c) (p : Path)
    (hdb : p ∉ databasePaths) :
    tarTree (commit toDir s members) p = shown c s p ∨
      (shown c s p = some .dir ∧ tarTree (commit toDir s members) p = none ∧ ∀ m ∈ members, m.path ≠ p) := by
  by_cases hp : p = []
  · subst hp; left; rw [root_shown hI]; unfold tarTree; rw [if_pos rfl]
  unfold commit
  cases hn : s.host.node p with
  | some i =>
    left
    rw [shown_host hI hn]
    by_cases hk : i.kind = .dir
    · -- a folder of the overlay
      rw [(shown_dir_iff i).mpr hk]
      have hd : s.host.isdir p = true := (isdir_iff _ _).mpr ⟨i, hn, hk⟩
      obtain ⟨m, hm, hpre⟩ := appended_dir hP hp hd
      have hlow := hP.folders p hd
      by_cases hex : ∃ m' ∈ tarDelete ((deletions toDir s).flatMap deletionNames) members ++ appended toDir s, m'.path = p
      · refine tarTree_last hp hex ?_
        intro m' hm'
        rw [List.filter_append] at hm'
        by_cases hb : (appended toDir s).filter (fun m => m.path = p) = []
        · rw [hb, List.append_nil] at hm'
          have hmem := List.mem_of_getLast? hm'
          obtain ⟨h1, h2⟩ := List.mem_filter.mp hmem
          simp only [decide_eq_true_eq] at h2
          -- nothing at this path was removed
          have hkeep : (tarDelete ((deletions toDir s).flatMap deletionNames) members).filter (fun m => m.path = p)
              = members.filter (fun m => m.path = p) := by
            unfold tarDelete
            rw [List.filter_filter]
            apply List.filter_congr
            intro m'' hm''
            by_cases he : m''.path = p
            · have := ((mem_kept hI hP m').mp h1).2
              have hk' : m'' ∈ tarDelete ((deletions toDir s).flatMap deletionNames) members :=
                (mem_kept hI hP m'').mpr ⟨hm'', by rw [he, ← h2]; exact this⟩
              have := (List.mem_filter.mp hk').2
              simp only [he, decide_true, Bool.true_and]; exact this
            · simp [he]
          rw [hkeep] at hm'
          have ht : tarTree members p = some m'.node := by unfold tarTree; rw [if_neg hp, hm']
          rw [hT] at ht
          rcases hlow with hl | hl
          · rw [hl] at ht; cases ht
          · rw [hl] at ht; exact (Option.some.inj ht).symm
        · rw [getLast?_append_right _ hb] at hm'
          have hmem := List.mem_of_getLast? hm'
          obtain ⟨h1, h2⟩ := List.mem_filter.mp hmem
          simp only [decide_eq_true_eq] at h2
          obtain ⟨j, hj, hjn⟩ := mem_appended hP h1
          rw [h2, hn] at hj
          cases hj
          rw [hjn, (shown_dir_iff i).mpr hk]
      · unfold tarTree
        have : (tarDelete ((deletions toDir s).flatMap deletionNames) members ++ appended toDir s).filter (fun m => m.path = p) = [] := by
          rw [List.filter_eq_nil_iff]
          intro m' hm' he
          simp only [decide_eq_true_eq] at he
          exact hex ⟨m', hm', he⟩
        rw [if_neg hp, this]
        simp only [List.getLast?_nil]
        rw [if_pos]
        exact List.any_eq_true.mpr ⟨m, List.mem_append_right _ hm, List.isPrefixOf_iff_prefix.mpr hpre⟩
    · -- a file of the overlay
      obtain ⟨m, hm, hmp⟩ := appended_file hP hn hk hdb
      refine tarTree_last hp ⟨m, List.mem_append_right _ hm, hmp⟩ ?_
      intro m' hm'
      have hb : (appended toDir s).filter (fun m => m.path = p) ≠ [] := by
        intro he
        rw [List.filter_eq_nil_iff] at he
        exact he m hm (by simpa using hmp)
      rw [List.filter_append, getLast?_append_right _ hb] at hm'
      obtain ⟨h1, h2⟩ := List.mem_filter.mp (List.mem_of_getLast? hm')
      simp only [decide_eq_true_eq] at h2
      obtain ⟨j, hj, hjn⟩ := mem_appended hP h1
      rw [h2, hn] at hj
      cases hj
      exact hjn
  | none =>
    -- nothing at or below this path is appended
    have happ : ∀ m ∈ appended toDir s, ¬ p <+: m.path := by
      intro m hm hpre
      obtain ⟨i, hi, -⟩ := mem_appended hP hm
      rw [host_below hI.wf hn hpre] at hi
      cases hi
    by_cases hd : isDeleted s p = true
    · left
      have hs : shown c s p = none := by unfold shown view; rw [hd]; rfl
      rw [hs]
      apply tarTree_none hp
      intro m hm
      rcases List.mem_append.mp hm with hm | hm
      · exact ((mem_kept hI hP m).mp hm).2 p ((mem_deletions hP p).mpr (.inl hd))
      · exact happ m hm
    · have hd' : isDeleted s p = false := by simpa using hd
      have hs : shown c s p = tarTree members p := by
        rw [shown_host_none hn, hT, hd']; unfold lowerTree; rw [if_neg hp]; simp
      cases hx : shown c s p with
      | none =>
        left
        rw [hx] at hs
        have := (tarTree_none_iff hp).mp hs.symm
        apply tarTree_none hp
        intro m hm
        rcases List.mem_append.mp hm with hm | hm
        · exact this m ((mem_kept hI hP m).mp hm).1
        · exact happ m hm
      | some x =>
        -- nothing at this path is removed
        have hnot : ∀ q ∈ deletions toDir s, ¬ q <+: p := by
          intro q hq hpre
          obtain ⟨-, -, h3⟩ := deletion_ok hI hP hq
          by_cases hqp : q = p
          · subst hqp
            rcases (mem_deletions hP q).mp hq with h | ⟨i, hi, -⟩
            · rw [hd'] at h; cases h
            · rw [hn] at hi; cases hi
          · exact h3 (shown_above hI (by rw [hx]; simp) hpre hqp)
        have hkeep : (tarDelete ((deletions toDir s).flatMap deletionNames) members ++ appended toDir s).filter (fun m => m.path = p)
            = members.filter (fun m => m.path = p) := by
          have h2 : (appended toDir s).filter (fun m => m.path = p) = [] := by
            rw [List.filter_eq_nil_iff]
            intro m hm he
            simp only [decide_eq_true_eq] at he
            exact happ m hm (by rw [he]; exact List.prefix_refl p)
          rw [List.filter_append, h2, List.append_nil]
          unfold tarDelete
          rw [List.filter_filter]
          apply List.filter_congr
          intro m hm
          by_cases he : m.path = p
          · have hk' : m ∈ tarDelete ((deletions toDir s).flatMap deletionNames) members :=
              (mem_kept hI hP m).mpr ⟨hm, by rw [he]; exact hnot⟩
            have := (List.mem_filter.mp hk').2
            simp only [he, decide_true, Bool.true_and]; exact this
          · simp [he]
        cases hl : (members.filter (fun m => m.path = p)).getLast? with
        | some m =>
          left
          rw [← hx, hs]
          unfold tarTree
          rw [if_neg hp, if_neg hp, hkeep, hl]
        | none =>
          -- the folder is only implied
          have hxd : x = .dir := by
            rw [hx] at hs
            unfold tarTree at hs
            rw [if_neg hp, hl] at hs
            simp only at hs
            split at hs
            · exact Option.some.inj hs
            · cases hs
          have hno : ∀ m ∈ members, m.path ≠ p := by
            intro m hm he
            rw [List.getLast?_eq_none_iff, List.filter_eq_nil_iff] at hl
            exact hl m hm (by simpa using he)
          unfold tarTree
          rw [if_neg hp, hkeep, hl, hxd]
          simp only
          split
          · exact .inl rfl
          · exact .inr ⟨trivial, rfl, hno⟩

/-- C49 The database of the overlay and the files beside it do not get into the archive, and no member of these names is removed, unless it was
deleted through the mount. -/
theorem C49_database (wf : s.host.WF) (name : Str) (hname : name ∈ [".ratarmount.overlay.sqlite".toList,
    ".ratarmount.overlay.sqlite-journal".toList, ".ratarmount.overlay.sqlite-shm".toList, ".ratarmount.overlay.sqlite-wal".toList])
    (hdir : s.host.isdir [name] = false) (hdel : isDeleted s [name] = false) :
    [name] ∉ deletions toDir s ∧ ∀ m ∈ appended toDir s, m.raw ≠ [name] := by
  have hdb : [name] ∈ databasePaths := List.mem_map.mpr ⟨name, hname, rfl⟩
  have hwalk : [name] ∉ walkFiles toDir s.host := by
    intro h
    have h2 := (List.mem_filter.mp h).2
    split at h2
    · rw [Bool.and_eq_true, Bool.not_eq_true', List.contains_eq_mem, decide_eq_false_iff_not] at h2
      exact h2.2 hdb
    · cases h2
  refine ⟨fun h => ?_, ?_⟩
  · rcases List.mem_append.mp h with h | h
    · rw [(List.mem_filter.mp h).2] at hdel; cases hdel
    · exact hwalk h
  · intro m hm hr
    obtain ⟨p, hp, hm⟩ := List.mem_flatMap.mp hm
    obtain ⟨q, -, hq⟩ := List.mem_filterMap.mp hm
    have hpne : p ≠ [] := by
      rintro rfl
      rcases List.mem_append.mp hp with h | h
      · have h2 := (List.mem_filter.mp h).2
        obtain ⟨i, hi, hk⟩ := (isdir_iff _ _).mp wf.root
        rw [hi] at h2
        simp only [isFileName, hk, Bool.false_and] at h2
        cases h2
      · have h2 := (List.mem_filter.mp h).2
        simp at h2
    split at hq
    · next hpre =>
      obtain ⟨i, hi, rfl⟩ := Option.map_eq_some_iff.mp hq
      have hqn : q = [name] := by
        unfold memberOf at hr
        simp only at hr
        split at hr
        · cases q with
          | nil =>
            have hpn := List.isPrefixOf_iff_prefix.mp hpre
            exact absurd (List.prefix_nil.mp hpn) hpne
          | cons a r => simp at hr
        · exact hr
      have hpn : p = [name] := by
        have h1 := List.isPrefixOf_iff_prefix.mp hpre
        rw [hqn] at h1
        rcases prefix_concat (show p <+: ([] : Path) ++ [name] from h1) with h2 | h2
        · exact absurd (List.prefix_nil.mp h2) hpne
        · exact h2
      rw [hpn] at hp
      rcases List.mem_append.mp hp with h | h
      · exact hwalk h
      · have h2 := (List.mem_filter.mp h).2
        simp [hdir] at h2
    · cases hq

/-- C49 for files, links and nodes. Missing: what `Plain` excludes. -/
theorem C49_files_partial (hI : Inv c s) (hP : Plain c s toDir members) (hT : tarTree members = lowerTree c) (p : Path)
    (hdb : p ∉ databasePaths) (x : Shown) (hx : x ≠ .dir) :
    tarTree (commit toDir s members) p = some x ↔ shown c s p = some x := by
  rcases commit_at hI hP hT p hdb with h | ⟨h1, h2, -⟩
  · rw [h]
  · rw [h1, h2]
    constructor
    · intro h; cases h
    · intro h; exact absurd (Option.some.inj h).symm hx

/-- C49 for everything if the archive has a member for every folder. -/
theorem C49_folders_partial (hI : Inv c s) (hP : Plain c s toDir members) (hT : tarTree members = lowerTree c)
    (hF : ∀ p, p ≠ [] → lowerTree c p = some .dir → ∃ m ∈ members, m.path = p) (p : Path) (hdb : p ∉ databasePaths) :
    tarTree (commit toDir s members) p = shown c s p := by
  rcases commit_at hI hP hT p hdb with h | ⟨h1, h2, h3⟩
  · exact h
  · exfalso
    have hp : p ≠ [] := by rintro rfl; unfold tarTree at h2; rw [if_pos rfl] at h2; cases h2
    by_cases hl : lowerTree c p = some .dir
    · obtain ⟨m, hm, hmp⟩ := hF p hp hl
      exact h3 m hm hmp
    · cases hn : s.host.node p with
      | none =>
        apply hl
        rw [shown_host_none hn] at h1
        split at h1
        · cases h1
        · unfold lowerTree; rw [if_neg hp]; exact h1
      | some i =>
        have hk : i.kind = .dir := (shown_dir_iff i).mp (by rw [shown_host hI hn] at h1; exact Option.some.inj h1)
        obtain ⟨m, hm, hpre⟩ := appended_dir hP hp ((isdir_iff _ _).mpr ⟨i, hn, hk⟩)
        exact (tarTree_none_iff hp).mp h2 m (List.mem_append_right _ hm) hpre

end

/-! ## examples and violations -/

/-- The members of the archive of the witnesses. `raw` is the name of `/d/f` and `folder` the member for `/d`. -/
def demoMembers (folder : List Member) (raw : List Str) : List Member :=
  folder ++ [⟨raw, .file [1, 2, 3]⟩, ⟨[['x']], .file [9]⟩, ⟨[[], ['l']], .link ['x']⟩]

theorem demo_tree (folder : List Member) (raw : List Str) (hf : folder = [] ∨ folder = [⟨[['.'], ['d'], []], .dir⟩])
    (hr : raw.filter properName = [['d'], ['f']]) (f : Inode → Except PyErr Bytes) :
    tarTree (demoMembers folder raw) = lowerTree (demo f) := by
  have h3 : Member.path ⟨[['x']], .file [9]⟩ = [['x']] := by decide
  have h4 : Member.path ⟨[[], ['l']], .link ['x']⟩ = [['l']] := by decide
  have h1 : Member.path ⟨[['.'], ['d'], []], .dir⟩ = [['d']] := by decide
  have h2 : Member.path ⟨raw, .file [1, 2, 3]⟩ = [['d'], ['f']] := hr
  funext p
  unfold tarTree lowerTree
  by_cases hp : p = []
  · rw [if_pos hp, if_pos hp]
  rw [if_neg hp, if_neg hp]
  simp only [demo, Dict.get?, if_neg (Ne.symm hp)]
  rcases hf with rfl | rfl
  · simp only [demoMembers, List.nil_append, List.filter_cons, List.filter_nil, h2, h3, h4, List.any_cons, List.any_nil]
    by_cases p1 : p = [['d']]
    · subst p1; rfl
    by_cases p2 : p = [['d'], ['f']]
    · subst p2; rfl
    by_cases p3 : p = [['x']]
    · subst p3; rfl
    by_cases p4 : p = [['l']]
    · subst p4; rfl
    simp only [Ne.symm p1, Ne.symm p2, Ne.symm p3, Ne.symm p4, decide_false, Bool.false_eq_true, if_false,
      List.getLast?_nil, Option.map_none]
    rw [if_neg]
    simp only [Bool.or_false, Bool.or_eq_true, List.isPrefixOf_iff_prefix, not_or]
    refine ⟨?_, ?_, ?_⟩
    · intro h
      rcases prefix_concat (p := [['d']]) h with h | h
      · rcases prefix_concat (p := []) h with h | h
        · exact hp (List.prefix_nil.mp h)
        · exact p1 h
      · exact p2 h
    · intro h
      rcases prefix_concat (p := []) h with h | h
      · exact hp (List.prefix_nil.mp h)
      · exact p3 h
    · intro h
      rcases prefix_concat (p := []) h with h | h
      · exact hp (List.prefix_nil.mp h)
      · exact p4 h
  · simp only [demoMembers, List.cons_append, List.nil_append, List.filter_cons, List.filter_nil, h1, h2, h3, h4, List.any_cons, List.any_nil]
    by_cases p1 : p = [['d']]
    · subst p1; rfl
    by_cases p2 : p = [['d'], ['f']]
    · subst p2; rfl
    by_cases p3 : p = [['x']]
    · subst p3; rfl
    by_cases p4 : p = [['l']]
    · subst p4; rfl
    simp only [Ne.symm p1, Ne.symm p2, Ne.symm p3, Ne.symm p4, decide_false, Bool.false_eq_true, if_false,
      List.getLast?_nil, Option.map_none]
    rw [if_neg]
    simp only [Bool.or_false, Bool.or_eq_true, List.isPrefixOf_iff_prefix, not_or]
    refine ⟨?_, ?_, ?_, ?_⟩
    · intro h
      rcases prefix_concat (p := []) h with h | h
      · exact hp (List.prefix_nil.mp h)
      · exact p1 h
    · intro h
      rcases prefix_concat (p := [['d']]) h with h | h
      · rcases prefix_concat (p := []) h with h | h
        · exact hp (List.prefix_nil.mp h)
        · exact p1 h
      · exact p2 h
    · intro h
      rcases prefix_concat (p := []) h with h | h
      · exact hp (List.prefix_nil.mp h)
      · exact p3 h
    · intro h
      rcases prefix_concat (p := []) h with h | h
      · exact hp (List.prefix_nil.mp h)
      · exact p4 h

def demoFolder : List Member := [⟨[['.'], ['d'], []], .dir⟩]

/-- The overlay after `rm /x`, writing to `/d/f` and `mkdir /e`. -/
abbrev demoChanges : List Op := [.unlink [['x']], .write [['d'], ['f']] 1 [7], .mkdir [['e']] 0o755]

def demoChanged : St := demoChanges.foldl (fun s op => (step demoTar s op).1) demoStart

theorem demo_changed : Run demoTar demoStart demoChanges demoChanged := by
  refine .cons (op := .unlink [['x']]) ⟨.file [9], by decide +kernel, by decide⟩ trivial rfl ?_
  refine .cons (op := .write [['d'], ['f']] _ _) (show ∃ d, _ from ⟨[1, 2, 3], by decide +kernel⟩) trivial rfl ?_
  exact .cons (op := .mkdir _ _) (show Vacant _ _ from ⟨by decide, by decide +kernel, by decide +kernel⟩) trivial rfl (.nil _)

theorem demo_plain : Plain demoTar demoChanged (fun _ => false) (demoMembers demoFolder [['d'], ['f']]) := by
  have hent : demoChanged.host.entries = [([], 0), ([['d']], 1), ([['d'], ['f']], 2), ([['e']], 3)] := by decide +kernel
  have hrow : (Dict.keys demoChanged.rows).all (fun p => p.all properName) = true := by decide +kernel
  have hmem : ∀ p, demoChanged.host.node p ≠ none → p = [] ∨ p = [['d']] ∨ p = [['d'], ['f']] ∨ p = [['e']] := by
    intro p h
    have h := (mem_keys_node _ _).mpr h
    rw [hent] at h
    simpa [Dict.keys] using h
  refine ⟨?_, ?_, ?_, ?_, ?_⟩
  · intro m hm
    simp only [demoMembers, demoFolder, List.cons_append, List.nil_append, List.mem_cons, List.not_mem_nil, or_false] at hm
    rcases hm with rfl | rfl | rfl | rfl
    · exact ⟨[['.']], [[]], .inr (.inr rfl), .inr rfl, by decide⟩
    · exact ⟨[], [], .inl rfl, .inl rfl, by decide⟩
    · exact ⟨[], [], .inl rfl, .inl rfl, by decide⟩
    · exact ⟨[[]], [], .inr (.inl rfl), .inl rfl, by decide⟩
  · intro p h n hn
    have hk : p ∈ Dict.keys demoChanged.rows := by
      rw [Dict.mem_keys_iff]
      unfold isDeleted at h
      cases hg : Dict.get? demoChanged.rows p with
      | none => rw [hg] at h; simp at h
      | some r => rfl
    exact List.all_eq_true.mp (List.all_eq_true.mp hrow p hk) n hn
  · intro p h
    rcases hmem p h with rfl | rfl | rfl | rfl <;> (unfold Proper; decide)
  · intro p i hi hk
    rfl
  · intro p h
    obtain ⟨i, hi, -⟩ := (isdir_iff _ _).mp h
    rcases hmem p (by rw [hi]; simp) with rfl | rfl | rfl | rfl
    · exact .inr (by decide +kernel)
    · exact .inr (by decide +kernel)
    · revert h; decide +kernel
    · exact .inl (by decide +kernel)

example : tarTree (commit (fun _ => false) demoChanged (demoMembers demoFolder [['d'], ['f']])) [['d'], ['f']]
    = some (.file [1, 7, 3]) := by
  rw [C49_files_partial (run_refines (demo_inv (fun _ => .ok [])) demo_changed).1 demo_plain
    (demo_tree _ _ (.inr rfl) (by decide) (fun _ => .ok [])) _ (by decide) _ (by decide)]
  decide +kernel

/-- C49 is violated: the member `d//f` is not deleted, because GNU tar compares names and not paths. -/
theorem C49_violated : ¬ C49_statement := by
  intro h
  have hI := inv_step (demo_inv (fun _ => .ok [])) (.unlink [['d'], ['f']])
    ⟨.file [1, 2, 3], by decide +kernel, by decide⟩ trivial
  have := h demoTar _ (fun _ => false) (demoMembers demoFolder [['d'], [], ['f']]) hI
    (demo_tree _ _ (.inr rfl) (by decide) _) [['d'], ['f']] (by decide)
  revert this
  decide +kernel

/-- C49 is violated also with plain names: a symbolic link to a folder is not committed, because `os.walk` reports it
among the folders. -/
theorem C49_link_violated : ¬ ∀ (c : Cfg) (s : St) (toDir : Str → Bool) (ms : List Member), Inv c s → tarTree ms = lowerTree c →
    (∀ m ∈ ms, Canon m) → ∀ p, p ∉ databasePaths → tarTree (commit toDir s ms) p = shown c s p := by
  intro h
  have hI := inv_step (demo_inv (fun _ => .ok [])) (.symlink [['k']] ['d'])
    (show Vacant _ _ from ⟨by decide, by decide +kernel, by decide +kernel⟩) ⟨by decide +kernel, by decide +kernel⟩
  have := h demoTar _ (fun t => t = ['d']) (demoMembers demoFolder [['d'], ['f']]) hI
    (demo_tree _ _ (.inr rfl) (by decide) _) demo_plain.canon [['k']] (by decide)
  revert this
  decide +kernel

/-- C49 is violated also without links: removing the only file of a folder that has no member of its own. The folder was
visible before the commit, and is not after it. -/
theorem C49_folder_violated : ¬ ∀ (c : Cfg) (s : St) (toDir : Str → Bool) (ms : List Member), Inv c s → tarTree ms = lowerTree c →
    Plain c s toDir ms → ∀ p, p ∉ databasePaths → tarTree (commit toDir s ms) p = shown c s p := by
  intro h
  have hL : Legal (shown demoTar demoStart) (.unlink [['d'], ['f']]) := ⟨.file [1, 2, 3], by decide +kernel, by decide⟩
  have hI := inv_step (demo_inv (fun _ => .ok [])) (.unlink [['d'], ['f']]) hL trivial
  have hent : (step demoTar demoStart (.unlink [['d'], ['f']])).1.host.entries = [([], 0)] := by decide +kernel
  have hrow : (step demoTar demoStart (.unlink [['d'], ['f']])).1.rows = [([['d'], ['f']], ⟨none, none, none, none, true⟩)] := by
    decide +kernel
  have hmem : ∀ p, (step demoTar demoStart (.unlink [['d'], ['f']])).1.host.node p ≠ none → p = [] := by
    intro p h
    have h := (mem_keys_node _ _).mpr h
    rw [hent] at h
    simpa [Dict.keys] using h
  have := h demoTar _ (fun _ => false) (demoMembers [] [['d'], ['f']]) hI
    (demo_tree _ _ (.inl rfl) (by decide) _) ?_ [['d']] (by decide)
  · revert this
    decide +kernel
  · refine ⟨?_, ?_, ?_, fun _ _ _ _ => rfl, ?_⟩
    · intro m hm
      exact demo_plain.canon m (List.mem_cons_of_mem _ hm)
    · intro p hp
      unfold isDeleted at hp
      rw [show (step (demo (fun _ => .ok [])) demoStart (.unlink [['d'], ['f']])).1.rows = _ from hrow] at hp
      simp only [Dict.get?] at hp
      by_cases hq : [['d'], ['f']] = p
      · subst hq; unfold Proper; decide
      · rw [if_neg hq] at hp; simp at hp
    · intro p hp
      rw [hmem p hp]
      intro n hn; simp at hn
    · intro p hp
      obtain ⟨i, hi, -⟩ := (isdir_iff _ _).mp hp
      rw [hmem p (fun h => by cases h.symm.trans hi)]
      exact .inr rfl

/-- C49 is violated also if a file was replaced by a folder with a file: the member for the old file stays. -/
theorem C49_replaced_violated : ¬ ∀ (c : Cfg) (s : St) (toDir : Str → Bool) (ms : List Member), Inv c s →
    tarTree ms = lowerTree c → (∀ m ∈ ms, Canon m) → (∀ t, toDir t = false) → ∀ p, p ∉ databasePaths → ∀ x, x ≠ .dir →
    tarTree (commit toDir s ms) p = some x → shown c s p = some x := by
  intro h
  have r : Run demoTar demoStart [.unlink [['x']], .mkdir [['x']] 0o755, .create [['x'], ['y']] 0o644]
      ([.unlink [['x']], .mkdir [['x']] 0o755, .create [['x'], ['y']] 0o644].foldl (fun s op => (step demoTar s op).1) demoStart) := by
    refine .cons (op := .unlink [['x']]) ⟨.file [9], by decide +kernel, by decide⟩ trivial rfl ?_
    refine .cons (op := .mkdir _ _) (show Vacant _ _ from ⟨by decide, by decide +kernel, by decide +kernel⟩) trivial rfl ?_
    exact .cons (op := .create _ _) (show Vacant _ _ from ⟨by decide, by decide +kernel, by decide +kernel⟩) trivial rfl (.nil _)
  have := h demoTar _ (fun _ => false) (demoMembers demoFolder [['d'], ['f']]) (run_refines (demo_inv (fun _ => .ok [])) r).1
    (demo_tree _ _ (.inr rfl) (by decide) _) demo_plain.canon (fun _ => rfl) [['x']] (by decide) (.file [9]) (by decide)
  revert this
  decide +kernel

end Verif.Overlay
