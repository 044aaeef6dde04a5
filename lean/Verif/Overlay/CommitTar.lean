import Verif.Overlay.OverTar
import Verif.Overlay.Commit

/-!
# C194: packed files, changes through the overlay, a commit, and the next mount

The archive is mounted with an overlay (`Verif.Overlay.OverTar`), changed by any history of calls, committed (`Verif.Overlay.Commit`) and mounted again.
GNU tar writes the members of the commit in any of the formats of `Verif.Tar.Header`.
-/

namespace Verif.Overlay.CommitTar

open Verif.Py Verif.Index Verif.Overlay Verif.Overlay.OverTar
open Verif.Tar (Bytes)
open Verif.Fuse.TarMount (Mount Call mgetattr mreadlink mopen mread calls start place)
open Verif.Fuse.TarFiles (Packing Packed Batches mounted bytesOf Inside lastFile Leads bits)
open Verif.Tar.Header (File)
open Verif.Compose (Source dotVersions)

/-! ## specification -/

/-- The name as GNU tar sees it and what is stored. -/
def memberOf (f : File) : Member := ⟨split '/' f.written, shownAs f⟩

/-- The members of an archive. -/
def membersOf (ws : Packing) : List Member := ws.map (fun p => memberOf p.1)

/-- No hard links, no part `..` in a name, and no name that is special for the versions. -/
structure Simple (ws : Packing) : Prop where
  links : ∀ p ∈ ws, p.1.kind ≠ .hardlink
  dots : ∀ p ∈ ws, ['.', '.'] ∉ split '/' p.1.name
  names : ∀ p ∈ ws, ∀ n ∈ place p.1.name, endsWith dotVersions n = false

/-- What a mounted archive shows, by the calls of its mount after any other calls. -/
def mountedTree (esc : Bytes → Str) (ign : Bool) (ws : Packing) (zeros : Nat) (bs : List (List Index.Row)) (before : List Call) : Tree :=
  lowerTree (over (mounted esc ign (bytesOf ws zeros) bs) (calls (mounted esc ign (bytesOf ws zeros) bs) (start (bytesOf ws zeros)) before)
    (pathsOf (ws.map (fun p => p.1))) (fun _ => .ok []) (fun mode => ⟨mode, 0, 0, 0⟩))

/-! ## lemmas -/

theorem walk_filter : ∀ (parts at_ : List Str), ['.', '.'] ∉ parts → walk at_ parts = at_ ++ parts.filter properName
  | [], at_, _ => by simp [walk]
  | c :: cs, at_, h => by
    rw [List.mem_cons, not_or] at h
    rw [walk, walk_filter cs _ h.2, if_neg (c := c = ['.', '.']) (fun hc => h.1 hc.symm)]
    by_cases hc : c = [] ∨ c = ['.']
    · rw [if_pos hc, List.filter_cons_of_neg]
      unfold properName
      simpa using fun h1 => hc.resolve_left h1
    · rw [if_neg hc, List.filter_cons_of_pos]
      · simp
      · unfold properName
        simpa using hc

theorem split_slash (s : Str) : split '/' (s ++ ['/']) = split '/' s ++ [[]] := by
  induction s with
  | nil => rfl
  | cons x xs ih =>
    by_cases hx : x = '/'
    · subst hx
      rw [List.cons_append, split_cons_eq, split_cons_eq, ih]
      rfl
    · obtain ⟨p, ps, h1, h2⟩ := split_cons_ne '/' x (xs ++ ['/']) hx
      obtain ⟨q, qs, h3, h4⟩ := split_cons_ne '/' x xs hx
      rw [List.cons_append, h2, h4]
      rw [ih, h3, List.cons_append, List.cons.injEq] at h1
      rw [← h1.1, ← h1.2]
      rfl

theorem member_path {f : File} (h : ['.', '.'] ∉ split '/' f.name) : (memberOf f).path = place f.name := by
  unfold Member.path memberOf place File.written
  rw [walk_filter _ _ h, List.nil_append]
  show List.filter properName (split '/' (if f.kind = .folder then f.name ++ ['/'] else f.name)) = _
  split
  · rw [split_slash, List.filter_append]
    simp [properName]
  · rfl

theorem members_paths {ws : Packing} (hs : Simple ws) : ∀ f ∈ ws.map (fun p => p.1), (memberOf f).path = place f.name := by
  intro f hf
  obtain ⟨p, hp, rfl⟩ := List.mem_map.mp hf
  exact member_path (hs.dots p hp)

theorem members_filter {fs : List File} (h : ∀ f ∈ fs, (memberOf f).path = place f.name) (p : Path) :
    (fs.map memberOf).filter (fun m => m.path = p) = (fs.filter (fun f => decide (place f.name = p))).map memberOf := by
  rw [List.filter_map]
  congr 1
  apply List.filter_congr
  intro f hf
  simp [h f hf]

/-- Without hard links a place leads to the last file there. -/
theorem resolve_plain {fs : List File} {p : Path} {f : File} (hl : lastFile fs p = some f) (hk : f.kind ≠ .hardlink) (n : Nat) :
    resolve fs n p = some f := by
  cases n <;> simp [resolve, hl, hk]

theorem tree_members {ws : Packing} (hs : Simple ws) : tarTree (membersOf ws) = treeOf (ws.map (fun p => p.1)) := by
  have hm : membersOf ws = (ws.map (fun p => p.1)).map memberOf := by
    unfold membersOf; rw [List.map_map]; rfl
  have hpath := members_paths hs
  have hk : ∀ f ∈ ws.map (fun p => p.1), f.kind ≠ .hardlink := by
    intro f hf
    obtain ⟨p, hp, rfl⟩ := List.mem_map.mp hf
    exact hs.links p hp
  generalize ws.map (fun p => p.1) = fs at hm hpath hk
  rw [hm]
  funext p
  unfold tarTree treeOf
  by_cases hp : p = []
  · rw [if_pos hp, if_pos hp]
  rw [if_neg hp, if_neg hp, members_filter hpath, List.getLast?_map]
  show (match (lastFile fs p).map memberOf with | some m => some m.node | none => _) = _
  cases hl : lastFile fs p with
  | some f =>
    rw [if_pos Option.isSome_some, resolve_plain hl (hk f (lastFile_mem hl).1)]
    rfl
  | none =>
    have : (fs.map memberOf).any (fun m => p.isPrefixOf m.path) = fs.any (fun f => p.isPrefixOf (place f.name)) := by
      rw [Bool.eq_iff_iff, List.any_eq_true, List.any_eq_true]
      constructor
      · rintro ⟨m, hm, h⟩
        obtain ⟨f, hf, rfl⟩ := List.mem_map.mp hm
        exact ⟨f, hf, by rw [← hpath f hf]; exact h⟩
      · rintro ⟨f, hf, h⟩
        exact ⟨memberOf f, List.mem_map.mpr ⟨f, hf, rfl⟩, by rw [hpath f hf]; exact h⟩
    rw [if_neg (c := (none : Option File).isSome = true) (by simp), this]
    rfl

theorem simple_plain {ws : Packing} (hs : Simple ws) : OverTar.Plain (ws.map (fun p => p.1)) where
  names := by
    intro f hf
    obtain ⟨p, hp, rfl⟩ := List.mem_map.mp hf
    exact hs.names p hp
  links := by
    intro ns f hne hl
    refine ⟨0, f, Nat.zero_le _, .here _ _ hne hl ?_⟩
    obtain ⟨p, hp, rfl⟩ := List.mem_map.mp (lastFile_mem hl).1
    exact hs.links p hp

/-! ## C194 -/

section
variable {esc : Bytes → Str} {ign : Bool} {ws ws' : Packing} {zeros zeros' : Nat} {bs bs' : List (List Index.Row)}

/-- What is mounted is the tree of the members. -/
theorem mounted_members (hp : Packed ws) (hs : Simple ws) (hb : Batches esc ign (bytesOf ws zeros) bs) (before : List Call) :
    mountedTree esc ign ws zeros bs before = tarTree (membersOf ws) := by
  rw [tree_members hs]
  exact lower_tree hp (simple_plain hs) hb before _ _

/-- C194 for files and links: after any history of calls the committed archive is mounted, and what has a content is what the history gave on the packed files.
Missing: hard links, `..` in names, what the overlay refuses (`Run`), and what the commit gets wrong (`Overlay.Plain`). -/
theorem C194_files_partial (hp : Packed ws) (hs : Simple ws) (hb : Batches esc ign (bytesOf ws zeros) bs) (before after : List Call)
    (openOther : Inode → Except PyErr Bytes) (newAttrs : Nat → Meta) (a : Meta) {ops : List Op} {s' : St} {c : Cfg} {toDir : Str → Bool}
    (hc : c = over (mounted esc ign (bytesOf ws zeros) bs)
      (calls (mounted esc ign (bytesOf ws zeros) bs) (start (bytesOf ws zeros)) before) (pathsOf (ws.map (fun p => p.1))) openOther newAttrs)
    (hr : Run c (St.fresh a) ops s') (hP : Overlay.Plain c s' toDir (membersOf ws))
    (hcommit : membersOf ws' = commit toDir s' (membersOf ws)) (hp' : Packed ws') (hs' : Simple ws') (hb' : Batches esc ign (bytesOf ws' zeros') bs')
    (p : Path) (hdb : p ∉ databasePaths) (x : Shown) (hx : x ≠ .dir) :
    mountedTree esc ign ws' zeros' bs' after p = some x ↔ ops.foldl Tree.step (treeOf (ws.map (fun p => p.1))) p = some x := by
  have ht : lowerTree c = treeOf (ws.map (fun p => p.1)) := by rw [hc]; exact lower_tree hp (simple_plain hs) hb before openOther newAttrs
  have hcl : Closed (lowerTree c) := by rw [ht]; exact tree_closed hp
  obtain ⟨hI, hsh⟩ := run_refines (fresh_inv a hcl) hr
  rw [mounted_members hp' hs' hb', hcommit, C49_files_partial hI hP (by rw [tree_members hs, ht]) p hdb x hx, hsh, fresh_shown, ht]

/-- C194 for everything if the archive has a member for every folder. -/
theorem C194_folders_partial (hp : Packed ws) (hs : Simple ws) (hb : Batches esc ign (bytesOf ws zeros) bs) (before after : List Call)
    (openOther : Inode → Except PyErr Bytes) (newAttrs : Nat → Meta) (a : Meta) {ops : List Op} {s' : St} {c : Cfg} {toDir : Str → Bool}
    (hc : c = over (mounted esc ign (bytesOf ws zeros) bs)
      (calls (mounted esc ign (bytesOf ws zeros) bs) (start (bytesOf ws zeros)) before) (pathsOf (ws.map (fun p => p.1))) openOther newAttrs)
    (hr : Run c (St.fresh a) ops s') (hP : Overlay.Plain c s' toDir (membersOf ws))
    (hF : ∀ p, p ≠ [] → treeOf (ws.map (fun p => p.1)) p = some .dir → ∃ w ∈ ws, place w.1.name = p)
    (hcommit : membersOf ws' = commit toDir s' (membersOf ws)) (hp' : Packed ws') (hs' : Simple ws') (hb' : Batches esc ign (bytesOf ws' zeros') bs')
    (p : Path) (hdb : p ∉ databasePaths) :
    mountedTree esc ign ws' zeros' bs' after p = ops.foldl Tree.step (treeOf (ws.map (fun p => p.1))) p := by
  have ht : lowerTree c = treeOf (ws.map (fun p => p.1)) := by rw [hc]; exact lower_tree hp (simple_plain hs) hb before openOther newAttrs
  have hcl : Closed (lowerTree c) := by rw [ht]; exact tree_closed hp
  obtain ⟨hI, hsh⟩ := run_refines (fresh_inv a hcl) hr
  rw [mounted_members hp' hs' hb', hcommit, C49_folders_partial hI hP (by rw [tree_members hs, ht]) ?_ p hdb, hsh, fresh_shown, ht]
  intro q hq hd
  obtain ⟨w, hw, hpl⟩ := hF q hq (by rw [← ht]; exact hd)
  exact ⟨memberOf w.1, List.mem_map.mpr ⟨w, hw, rfl⟩, by rw [member_path (hs.dots w hw), hpl]⟩

end

/-! ## a concrete archive and the violation -/

/-- What the calls tell about a file. -/
def inodeFor (f : File) : Inode :=
  ⟨OverTar.kindOf (f.mode ||| bits f.kind), if f.kind = .file then f.data else [], if f.kind = .symlink then f.link else [], ⟨f.mode ||| bits f.kind, 0, 0, 0⟩⟩

/-- What the calls tell about a path of an archive. -/
def inodeAt (fs : List File) (p : Path) : Inode :=
  match lastFile fs p with
  | some f => inodeFor f
  | none => ⟨.dir, [], [], ⟨0o40555, 0, 0, 0⟩⟩

section
variable {esc : Bytes → Str} {ign : Bool} {ws : Packing} {zeros : Nat} {bs : List (List Index.Row)}

theorem inode_file (hp : Packed ws) (hs : Simple ws) (hb : Batches esc ign (bytesOf ws zeros) bs) {ns : List Str} {f : File} (hne : ns ≠ [])
    (hl : lastFile (ws.map (fun p => p.1)) ns = some f) (before : List Call) :
    inodeOf (mounted esc ign (bytesOf ws zeros) bs) (calls (mounted esc ign (bytesOf ws zeros) bs) (start (bytesOf ws zeros)) before) ns =
      some (inodeFor f) := by
  obtain ⟨hmem, hplace⟩ := lastFile_mem hl
  obtain ⟨q, hq, hqf⟩ := List.mem_map.mp hmem
  have hkind : f.kind ≠ .hardlink := by rw [← hqf]; exact hs.links q hq
  have hlead : Leads (ws.map (fun p => p.1)) 0 ns f := .here _ _ hne hl hkind
  have hn : ∀ x ∈ ns, IsName x := names_ok ⟨f, hmem, by rw [hplace]; exact List.prefix_refl _⟩
  obtain ⟨h1, h2⟩ := Fuse.TarFiles.C190_attributes hp hb hlead (Nat.zero_le _) hn
  obtain ⟨m, fh, h3, h4⟩ := Fuse.TarFiles.C190_read hp hb hlead (Nat.zero_le _) hn before
  have hmode : f.mode < 4096 := by rw [← hqf]; exact (hp.ok q hq).mode
  have hkk := kindOf_bits f hmode hkind
  have h5 := h4 [] f.data.length 0
  unfold inodeOf inodeFor
  rw [h1, h2]
  show some (⟨_, _, _, _⟩ : Inode) = _
  congr 2
  · rw [hkk]
    cases hc : f.kind with
    | hardlink => exact absurd hc hkind
    | folder => rfl
    | symlink => rfl
    | file =>
      simp only [if_true]
      unfold contents
      rw [h3]
      show (match (mread (calls (mounted esc ign (bytesOf ws zeros) bs) m []) fh f.data.length 0).2 with | .ok d => d | .error _ => []) = _
      rw [h5]
      show List.take f.data.length (List.drop 0 f.data) = _
      rw [List.drop_zero, List.take_length]
  · rw [hkk]
    cases hc : f.kind with
    | hardlink => exact absurd hc hkind
    | folder => rfl
    | symlink => rfl
    | file => rfl

theorem inode_at (hp : Packed ws) (hs : Simple ws) (hb : Batches esc ign (bytesOf ws zeros) bs) (before : List Call) {p : Path}
    (h : p ∈ pathsOf (ws.map (fun p => p.1))) :
    inodeOf (mounted esc ign (bytesOf ws zeros) bs) (calls (mounted esc ign (bytesOf ws zeros) bs) (start (bytesOf ws zeros)) before) p =
      some (inodeAt (ws.map (fun p => p.1)) p) := by
  obtain ⟨hne, hex⟩ := (mem_pathsOf _ _).mp h
  unfold inodeAt
  cases hl : lastFile (ws.map (fun p => p.1)) p with
  | some f => exact inode_file hp hs hb hne hl before
  | none =>
    have hv : ∀ x ∈ p, endsWith dotVersions x = false := by
      obtain ⟨f, hf, hpre⟩ := hex
      intro x hx
      obtain ⟨q, hq, rfl⟩ := List.mem_map.mp hf
      exact hs.names q hq x (hpre.subset hx)
    have := (Fuse.TarFiles.C190_others hp hb (names_ok hex) hv hne hl).1 (prefix_cases hl hex)
    unfold inodeOf
    rw [this]
    rfl

/-- The table below the overlay. -/
theorem lower_eq (hp : Packed ws) (hs : Simple ws) (hb : Batches esc ign (bytesOf ws zeros) bs) (before : List Call) :
    lowerOf (mounted esc ign (bytesOf ws zeros) bs) (calls (mounted esc ign (bytesOf ws zeros) bs) (start (bytesOf ws zeros)) before)
      (pathsOf (ws.map (fun p => p.1))) = (pathsOf (ws.map (fun p => p.1))).map (fun p => (p, inodeAt (ws.map (fun p => p.1)) p)) := by
  have : ∀ (l : List Path), (∀ p ∈ l, p ∈ pathsOf (ws.map (fun p => p.1))) →
      lowerOf (mounted esc ign (bytesOf ws zeros) bs) (calls (mounted esc ign (bytesOf ws zeros) bs) (start (bytesOf ws zeros)) before) l =
        l.map (fun p => (p, inodeAt (ws.map (fun p => p.1)) p)) := by
    intro l hl
    induction l with
    | nil => rfl
    | cons p ps ih =>
      unfold lowerOf
      rw [List.filterMap_cons, inode_at hp hs hb before (hl p (by simp))]
      show (p, _) :: lowerOf _ _ ps = _
      rw [ih (fun q hq => hl q (List.mem_cons_of_mem _ hq))]
      rfl
  exact this _ (fun _ h => h)

end

/-- C194 as claimed. -/
def C194_statement : Prop :=
  ∀ (esc : Bytes → Str) (ign : Bool) (ws ws' : Packing) (zeros zeros' : Nat) (bs bs' : List (List Index.Row)) (before after : List Call)
    (openOther : Inode → Except PyErr Bytes) (newAttrs : Nat → Meta) (a : Meta) (ops : List Op) (s' : St) (c : Cfg) (toDir : Str → Bool),
    Packed ws → Simple ws → Batches esc ign (bytesOf ws zeros) bs →
    c = over (mounted esc ign (bytesOf ws zeros) bs)
      (calls (mounted esc ign (bytesOf ws zeros) bs) (start (bytesOf ws zeros)) before) (pathsOf (ws.map (fun p => p.1))) openOther newAttrs →
    Run c (St.fresh a) ops s' → membersOf ws' = commit toDir s' (membersOf ws) → Packed ws' → Simple ws' → Batches esc ign (bytesOf ws' zeros') bs' →
    ∀ p, p ∉ databasePaths → mountedTree esc ign ws' zeros' bs' after p = ops.foldl Tree.step (treeOf (ws.map (fun p => p.1))) p

/-- A folder, and files in it before and after a change. -/
def dirFile : File := ⟨.folder, "./d".toList, 0o755, [], []⟩
def oldFile : File := ⟨.file, "./d/f".toList, 0o644, [1, 2, 3], []⟩
def newFile : File := ⟨.file, "d/f".toList, 0o600, [1, 7, 3], []⟩

def pack (fs : List File) : Packing := fs.map (fun f => (f, Tar.Header.gnu Fuse.TarFiles.someone f))

theorem pack_files (fs : List File) : (pack fs).map (fun p => p.1) = fs := by
  unfold pack
  rw [List.map_map]
  exact List.map_id _

theorem pack_packed {fs : List File} (hok : ∀ f ∈ fs, f.Ok) (hst : ∀ f ∈ fs, Tar.Header.Storable f.written ∧ Tar.Header.Storable f.link)
    (htree : ∀ f ∈ fs, f.kind = .folder ∨ ∀ g ∈ fs, (place g.name).length ≤ (place f.name).length) : Packed (pack fs) where
  written := by
    intro p hp
    obtain ⟨f, -, rfl⟩ := List.mem_map.mp hp
    exact .gnu _ Fuse.TarFiles.someone_ok f
  ok := by
    intro p hp
    obtain ⟨f, hf, rfl⟩ := List.mem_map.mp hp
    exact hok f hf
  names := by
    intro p hp
    obtain ⟨f, hf, rfl⟩ := List.mem_map.mp hp
    exact hst f hf
  tree := by
    intro p hp hin
    obtain ⟨f, hf, rfl⟩ := List.mem_map.mp hp
    rcases htree f hf with h | h
    · exact h
    · exfalso
      rw [pack_files] at hin
      obtain ⟨g, hg, n, rest, he⟩ := hin
      have := h g hg
      rw [he, List.length_append, List.length_cons] at this
      simp only at this
      omega

theorem pack_simple {fs : List File} (h : ∀ f ∈ fs, f.kind ≠ .hardlink ∧ ['.', '.'] ∉ split '/' f.name ∧ ∀ n ∈ place f.name, endsWith dotVersions n = false) :
    Simple (pack fs) where
  links := by
    intro p hp
    obtain ⟨f, hf, rfl⟩ := List.mem_map.mp hp
    exact (h f hf).1
  dots := by
    intro p hp
    obtain ⟨f, hf, rfl⟩ := List.mem_map.mp hp
    exact (h f hf).2.1
  names := by
    intro p hp
    obtain ⟨f, hf, rfl⟩ := List.mem_map.mp hp
    exact (h f hf).2.2

theorem dir_ok : dirFile.Ok := ⟨by decide, List.not_mem_nil, by decide, (fun _ => rfl), by decide, (fun _ => rfl)⟩
theorem old_ok : oldFile.Ok := ⟨by decide, List.not_mem_nil, by decide, (fun h => absurd rfl h), by decide, (fun h => by cases h)⟩
theorem new_ok : newFile.Ok := ⟨by decide, List.not_mem_nil, by decide, (fun h => absurd rfl h), by decide, (fun h => by cases h)⟩

theorem before_packed : Packed (pack [dirFile, oldFile]) :=
  pack_packed (by
      simp only [List.mem_cons, List.not_mem_nil, or_false]
      rintro f (rfl | rfl)
      · exact dir_ok
      · exact old_ok)
    (by unfold Tar.Header.Storable; decide) (by decide)

theorem after_packed : Packed (pack [dirFile, newFile]) :=
  pack_packed (by
      simp only [List.mem_cons, List.not_mem_nil, or_false]
      rintro f (rfl | rfl)
      · exact dir_ok
      · exact new_ok)
    (by unfold Tar.Header.Storable; decide) (by decide)

theorem only_packed : Packed (pack [oldFile]) :=
  pack_packed (by simp only [List.mem_cons, List.not_mem_nil, or_false]; rintro f rfl; exact old_ok)
    (by unfold Tar.Header.Storable; decide) (by decide)

theorem before_simple : Simple (pack [dirFile, oldFile]) := pack_simple (by decide)
theorem after_simple : Simple (pack [dirFile, newFile]) := pack_simple (by decide)
theorem only_simple : Simple (pack [oldFile]) := pack_simple (by decide)

/-- All rows in one batch. -/
def oneBatch (esc : Bytes → Str) (archive : Bytes) : List (List Index.Row) :=
  [Fuse.TarMount.toRows (Tar.newIndex (Tar.Header.codec esc) (Fuse.TarMount.plain false) 0 archive)]

theorem one_batch (esc : Bytes → Str) (archive : Bytes) : Batches esc false archive (oneBatch esc archive) := by
  unfold Batches oneBatch
  simp

/-- The overlay over an archive, written out. -/
def tableOver (fs : List File) : Cfg :=
  ⟨(pathsOf fs).map (fun p => (p, inodeAt fs p)), fun _ => .ok [], fun mode => ⟨mode, 0, 0, 0⟩, fun _ => 0⟩

theorem over_eq {fs : List File} (hp : Packed (pack fs)) (hs : Simple (pack fs)) (esc : Bytes → Str) (zeros : Nat) (before : List Call) :
    tableOver fs = over (mounted esc false (bytesOf (pack fs) zeros) (oneBatch esc (bytesOf (pack fs) zeros)))
      (calls (mounted esc false (bytesOf (pack fs) zeros) (oneBatch esc (bytesOf (pack fs) zeros))) (start (bytesOf (pack fs) zeros)) before)
      (pathsOf ((pack fs).map (fun p => p.1))) (fun _ => .ok []) (fun mode => ⟨mode, 0, 0, 0⟩) := by
  unfold over tableOver
  rw [lower_eq hp hs (one_batch esc _) before, pack_files]

/-- The state after overwriting a byte of the file. -/
def changed : St := (step (tableOver [dirFile, oldFile]) (St.fresh OverTar.demoAttrs) (.write [['d'], ['f']] 1 [7])).1

theorem changed_run : Run (tableOver [dirFile, oldFile]) (St.fresh OverTar.demoAttrs) [.write [['d'], ['f']] 1 [7]] changed :=
  .cons (op := .write _ _ _) (show ∃ d, _ from ⟨[1, 2, 3], by decide +kernel⟩) trivial rfl (.nil _)

theorem changed_commit : membersOf (pack [dirFile, newFile]) = commit (fun _ => false) changed (membersOf (pack [dirFile, oldFile])) := by
  decide +kernel

theorem changed_plain : Overlay.Plain (tableOver [dirFile, oldFile]) changed (fun _ => false) (membersOf (pack [dirFile, oldFile])) := by
  have hent : changed.host.entries = [([], 0), ([['d']], 1), ([['d'], ['f']], 2)] := by decide +kernel
  have hrow : (Dict.keys changed.rows).all (fun p => p.all properName) = true := by decide +kernel
  have hmem : ∀ p, changed.host.node p ≠ none → p = [] ∨ p = [['d']] ∨ p = [['d'], ['f']] := by
    intro p h
    have h := (mem_keys_node _ _).mpr h
    rw [hent] at h
    simpa [Dict.keys] using h
  refine ⟨?_, ?_, ?_, fun _ _ _ _ => rfl, ?_⟩
  · intro m hm
    obtain ⟨w, hw, rfl⟩ := List.mem_map.mp hm
    simp only [pack, List.map_cons, List.map_nil, List.mem_cons, List.not_mem_nil, or_false] at hw
    rcases hw with rfl | rfl
    · exact ⟨[['.']], [[]], .inr (.inr rfl), .inr rfl, by decide⟩
    · exact ⟨[['.']], [], .inr (.inr rfl), .inl rfl, by decide⟩
  · intro p h n hn
    have hk : p ∈ Dict.keys changed.rows := by
      rw [Dict.mem_keys_iff]
      unfold isDeleted at h
      cases hg : Dict.get? changed.rows p with
      | none => rw [hg] at h; simp at h
      | some r => rfl
    exact List.all_eq_true.mp (List.all_eq_true.mp hrow p hk) n hn
  · intro p h
    rcases hmem p h with rfl | rfl | rfl <;> (unfold Proper; decide)
  · intro p h
    obtain ⟨i, hi, -⟩ := (isdir_iff _ _).mp h
    rcases hmem p (by rw [hi]; simp) with rfl | rfl | rfl
    · exact .inr (by decide +kernel)
    · exact .inr (by decide +kernel)
    · revert h; decide +kernel

theorem before_folders : ∀ p, p ≠ [] → treeOf ((pack [dirFile, oldFile]).map (fun p => p.1)) p = some .dir →
    ∃ w ∈ pack [dirFile, oldFile], place w.1.name = p := by
  intro p hp h
  rw [pack_files] at h
  unfold treeOf at h
  rw [if_neg hp] at h
  cases hl : lastFile [dirFile, oldFile] p with
  | some f =>
    obtain ⟨h1, h2⟩ := lastFile_mem hl
    exact ⟨_, List.mem_map.mpr ⟨f, h1, rfl⟩, h2⟩
  | none =>
    rw [hl, if_neg (by simp)] at h
    split at h
    · next hany =>
      obtain ⟨f, hf, hpre⟩ := List.any_eq_true.mp hany
      have hpre := List.isPrefixOf_iff_prefix.mp hpre
      have hcase : p <+: [['d'], ['f']] := by
        simp only [List.mem_cons, List.not_mem_nil, or_false] at hf
        rcases hf with rfl | rfl
        · exact hpre.trans ⟨[['f']], rfl⟩
        · exact hpre
      rcases prefix_concat (p := [['d']]) hcase with h | h
      · rcases prefix_concat (p := []) h with h | h
        · exact absurd (List.prefix_nil.mp h) hp
        · exact ⟨(dirFile, Tar.Header.gnu Fuse.TarFiles.someone dirFile), List.mem_cons_self, by rw [h]; decide⟩
      · exact ⟨(oldFile, Tar.Header.gnu Fuse.TarFiles.someone oldFile), List.mem_cons_of_mem _ List.mem_cons_self, by rw [h]; decide⟩
    · cases h

/-- C194: the changed file is read from the committed archive, whose bytes are parsed again. -/
example (esc : Bytes → Str) (before after : List Call) :
    mountedTree esc false (pack [dirFile, newFile]) 512 (oneBatch esc (bytesOf (pack [dirFile, newFile]) 512)) after [['d'], ['f']] =
      some (.file [1, 7, 3]) := by
  rw [C194_folders_partial (zeros := 1024) before_packed before_simple (one_batch esc _) before after (fun _ => .ok []) (fun mode => ⟨mode, 0, 0, 0⟩) OverTar.demoAttrs
    (over_eq before_packed before_simple esc _ before) changed_run changed_plain before_folders changed_commit after_packed after_simple (one_batch esc _) _
    (by decide)]
  decide +kernel

/-- C194 is violated: removing the only file of a folder that has no member of its own removes the folder. -/
theorem C194_violated : ¬ C194_statement := by
  intro h
  have hr : Run (tableOver [oldFile]) (St.fresh OverTar.demoAttrs) [.unlink [['d'], ['f']]]
      (step (tableOver [oldFile]) (St.fresh OverTar.demoAttrs) (.unlink [['d'], ['f']])).1 :=
    .cons (op := .unlink _) ⟨.file [1, 2, 3], by decide +kernel, by decide⟩ trivial rfl (.nil _)
  have hp : Packed (pack []) := pack_packed (by simp) (by simp) (by simp)
  have hs : Simple (pack []) := pack_simple (by simp)
  have := h (fun _ => []) false (pack [oldFile]) (pack []) 1024 1024 _ _ [] [] (fun _ => .ok []) (fun mode => ⟨mode, 0, 0, 0⟩) OverTar.demoAttrs _ _ _ (fun _ => false)
    only_packed only_simple (one_batch _ _) (over_eq only_packed only_simple _ _ _) hr (by decide +kernel) hp hs (one_batch _ _) [['d']] (by decide)
  rw [mounted_members hp hs (one_batch _ _)] at this
  revert this
  decide +kernel

end Verif.Overlay.CommitTar
