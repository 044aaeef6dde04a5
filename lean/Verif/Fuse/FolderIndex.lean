import Verif.Formats.IndexedFolder
import Verif.Fuse.FolderMount
import Verif.Index.Reuse

/-!
# C215: a folder that is mounted with an index
(core/ratarmountcore/mountsource/formats/folder.py:198-341, core/ratarmountcore/mountsource/compositing/versioning.py, ratarmount/FuseMount.py)

With `--force-folder-index`, the entries of a folder of the host are stored in an index, which is used by later mounts. The host is that of
`Verif.Fuse.FolderMount`, it can change at any time between two calls. How the index is made is modelled in `Verif.Formats.IndexedFolder`, when it is
used in `Verif.Index.Reuse`, and what is found in `Verif.Fuse.IndexMount`.

Simplified: as in `Verif.Fuse.FolderMount`. Times before 1970 and parts of seconds are not modelled, and while the index is made the host does not change.
The index is not in the folder itself. Names are UTF-8; C114 is about the others.
-/

namespace Verif.Fuse.FolderIndex

open Verif.Py Verif.Index
open Verif.Tar (Bytes)
open Verif.Compose (Source)
open Verif.IndexedFolder (Raw escape raw pathInIndex)
open Verif.Fuse.TarMount (mlookup mreaddir)
open Verif.Fuse.IndexMount (FRow Rec Stat toRows mgetattr mreadlink Indexed IsRow lastAt Below)
open Verif.Fuse.FolderMount (FS Node Path Tree Placed Event walk maxLinks mread mrelease start targetOf)

/-! ## model -/

/-- `entry.is_dir()` as called by `os.walk` (folder.py:243): links are followed. -/
def toDir (fs : FS) (folder : Path) (n : Str) : Bool :=
  match walk fs.node true maxLinks folder [n] with
  | some p => decide (fs.node p = some .folder)
  | none => false

/-- What `os.walk` and `lstat` give below `R` (folder.py:243-258). The other attributes are in `frow`. -/
def fsOf (fs : FS) (R : Path) : IndexedFolder.Fs := fun p =>
  if fs.node (R ++ p.map escape) = some .folder then
    (fs.entries (R ++ p.map escape)).map (fun n => (raw n, ⟨(fs.stat (R ++ p.map escape ++ [n])).mode, 0, toDir fs (R ++ p.map escape) n⟩))
  else []

/-- The names from the mounted folder to an entry (folder.py:247-257). -/
def placeOf (e : List Raw × Raw × IndexedFolder.Stat) : Path := e.1.map escape ++ [escape e.2.1]

/-- `linkname` (folder.py:264-269). -/
def linkname (fs : FS) (p : Path) : Str :=
  match fs.node p with
  | some (.link t) => t
  | _ => []

/-- The row of an entry (folder.py:272-290). The column offset is unused, here it stands for `offsetheader`, which `open` uses. -/
def frow (fs : FS) (R : Path) (k : Nat) (e : List Raw × Raw × IndexedFolder.Stat) : FRow :=
  ⟨escape (pathInIndex e.1), escape e.2.1, k, k, (fs.stat (R ++ placeOf e)).size, (fs.stat (R ++ placeOf e)).mtime.toNat, (fs.stat (R ++ placeOf e)).mode,
    linkname fs (R ++ placeOf e), (fs.stat (R ++ placeOf e)).uid, (fs.stat (R ++ placeOf e)).gid, false⟩

/-- The host when the index was made, and the mounted folder. `depth` is larger than the number of folders in each other. -/
structure Snap where
  fs : FS
  R : Path
  depth : Nat

/-- All entries in the order of `os.walk` (folder.py:243-255). -/
def entries (S : Snap) : List (List Raw × Raw × IndexedFolder.Stat) := IndexedFolder.entries (fsOf S.fs S.R) S.depth

/-- All rows (folder.py:243-290). -/
def frows (S : Snap) : List FRow := (entries S).mapIdx (frow S.fs S.R)

/-- The calls of `set_file_infos` (folder.py:292-302). -/
def batches (S : Snap) : List (List Row) := IndexedFolder.batches 1000 (toRows (frows S)) []

/-- `IndexedFolderMountSource` (folder.py:198-341): the methods of the index. -/
def source (S : Snap) : Source := IndexMount.source (frows S) (batches S)

/-- `_get_path_in_index` and `_realpath` (folder.py:229-231, 317-338). -/
def pathAt (S : Snap) (oh : Nat) : Option Path := (IndexedFolder.opened (build (batches S)) ⟨oh, ⟨0, 0, false, 0⟩⟩).map (fun p => p.map escape)

/-- `open` (folder.py:335-338) below `FileVersionLayer.open` (versioning.py:232-243): the inode of the host that is opened now. -/
def openNow (S : Snap) (fs : FS) (i : Compose.FileInfo) : Option Nat :=
  match i.userdata with
  | .file :: .own oh :: _ =>
    match pathAt S oh with
    | none => none
    | some cs =>
      match walk fs.node true maxLinks S.R cs with
      | none => none
      | some p =>
        match fs.node p with
        | some (.file ino) => some ino
        | _ => none
  | _ => none

/-- `open` (FuseMount.py:776-791). -/
def mopen (S : Snap) (m : FolderMount.Mount) (path : Str) : FolderMount.Mount × Except PyErr Nat :=
  match mlookup (source S) path with
  | .error e => (m, .error e)
  | .ok i =>
    match openNow S m.fs i with
    | none => (m, .error (.os 5))
    | some ino => (⟨m.fs, m.opened.set (m.last + 1) (some ino), m.last + 1⟩, .ok (m.last + 1))

/-- One event: the host changes, or a call of the kernel (FuseMount.py:776-833). -/
def event (S : Snap) (m : FolderMount.Mount) : Event → FolderMount.Mount
  | .host fs => ⟨fs, m.opened, m.last⟩
  | .open path => (mopen S m path).1
  | .read _ _ _ => m
  | .release fh => mrelease m fh

/-- Any events (FuseMount.py:776-833). -/
def events (S : Snap) (m : FolderMount.Mount) (es : List Event) : FolderMount.Mount := es.foldl (event S) m

/-- A mount at some time: the host, and `--verify-mtime`. The indexes are written (folder.py:211). -/
structure Visit where
  tree : Nat
  verify : Bool
  deriving DecidableEq

/-- How it looks to the checks of the index: `os.stat` of the mounted folder (SQLiteIndex.py:464-469, 524-558). Trees are referred to by numbers. -/
def Visit.mount (trees : Nat → FS) (R : Path) (v : Visit) : IndexLoad.Mount :=
  ⟨⟨((trees v.tree).stat R).size, ((trees v.tree).stat R).mtime.toNat⟩, v.tree, v.verify, 0, true⟩

/-- The tree that a mount shows after earlier ones (folder.py:213-216, SQLiteIndexMountSource.py:210-245). -/
def shownTree (trees : Nat → FS) (R : Path) (earlier : List Visit) (v : Visit) : Except IndexLoad.Refusal Nat :=
  (IndexLoad.shows "IndexedFolderMountSource".toList (earlier.map (Visit.mount trees R)) (v.mount trees R)).map (fun s => s.content)

/-! ## specification -/

/-- A host with the mounted folder, of which the depth is known. -/
structure Sane (S : Snap) : Prop where
  tree : Tree S.fs
  root : S.fs.node S.R = some .folder
  unique : ∀ p, (S.fs.entries p).Nodup
  depth : ∀ p, S.fs.node (S.R ++ p) = some .folder → p.length < S.depth

/-- The time of a folder changes when an entry is added to it or removed from it. -/
def Timely (trees : Nat → FS) : Prop := ∀ a b p, (trees a).stat p = (trees b).stat p →
  ∀ n, (trees a).node (p ++ [n]) = none ↔ (trees b).node (p ++ [n]) = none

/-- C215 as claimed: if all mounts verify times, what is now in the folder is found. -/
def C215_statement : Prop :=
  ∀ (trees : Nat → FS) (R : Path) (depth : Nat), (∀ k, Sane ⟨trees k, R, depth⟩) → Timely trees →
    ∀ (earlier : List Visit) (v : Visit) (t : Nat), (∀ x ∈ earlier ++ [v], x.verify = true) → shownTree trees R earlier v = .ok t →
      ∀ ns n, (trees v.tree).node (R ++ ns ++ [n]) ≠ none →
        mgetattr (frows ⟨trees t, R, depth⟩) (source ⟨trees t, R, depth⟩) (canonical (ns ++ [n])) ≠ .error (.os 2)

/-- C215 as claimed, for a single mount that verifies: what is directly in the mounted folder is found. -/
def C215_unverified_statement : Prop :=
  ∀ (trees : Nat → FS) (R : Path) (depth : Nat), (∀ k, Sane ⟨trees k, R, depth⟩) → Timely trees →
    ∀ (earlier : List Visit) (v : Visit) (t : Nat), v.verify = true → shownTree trees R earlier v = .ok t →
      ∀ n, (trees v.tree).node (R ++ [n]) ≠ none →
        mgetattr (frows ⟨trees t, R, depth⟩) (source ⟨trees t, R, depth⟩) (canonical [n]) ≠ .error (.os 2)

/-- C215 as claimed, sizes: while it is mounted, a file has the size that it has on the host. -/
def C215_size_statement : Prop :=
  ∀ (S : Snap) (es : List Event) (ns : Path) (n : Str) (ino : Nat) (st : Stat), Sane S → S.fs.node (S.R ++ ns ++ [n]) = some (.file ino) →
    (events S (start S.fs) es).fs.node (S.R ++ ns ++ [n]) = some (.file ino) →
    mgetattr (frows S) (source S) (canonical (ns ++ [n])) = .ok st → st.size = ((events S (start S.fs) es).fs.stat (S.R ++ ns ++ [n])).size

/-! ## what is indexed -/

theorem isName_raw {s : Str} (h : IsName s) : IndexedFolder.RawName (raw s) := by
  refine ⟨fun e => h.1 (by simpa [raw] using e), ?_, fun e => h.2.2.1 (IndexedFolder.raw_inj e), fun e => h.2.2.2 (IndexedFolder.raw_inj e)⟩
  intro e
  obtain ⟨c, hc, he⟩ := List.mem_map.mp e
  cases he
  exact h.2.1 hc

theorem type_folder {fs : FS} (h : Tree fs) {p : Path} (hp : fs.node p ≠ none) : isDir (fs.stat p).mode = true ↔ fs.node p = some .folder := by
  cases hk : fs.node p with
  | none => exact absurd hk hp
  | some k =>
    have ht := h.mode p k hk
    have hd : isDir (fs.stat p).mode = true ↔ (fs.stat p).mode &&& 0xF000 = 0x4000 := by unfold isDir; simp
    rw [hd]
    cases k with
    | file i => rw [show (fs.stat p).mode &&& 0xF000 = 0x8000 from ht]; simp
    | folder => rw [show (fs.stat p).mode &&& 0xF000 = 0x4000 from ht]; simp
    | link t => rw [show (fs.stat p).mode &&& 0xF000 = 0xA000 from ht]; simp
    | special => exact ⟨fun e => absurd e ht.2.1, fun e => by cases e⟩

theorem mem_fsOf {S : Snap} (hs : Sane S) {p : List Raw} {e : Raw × IndexedFolder.Stat} (he : e ∈ fsOf S.fs S.R p) :
    S.fs.node (S.R ++ p.map escape) = some .folder ∧ ∃ n, e = (raw n, ⟨(S.fs.stat (S.R ++ p.map escape ++ [n])).mode, 0, toDir S.fs (S.R ++ p.map escape) n⟩) ∧
      S.fs.node (S.R ++ p.map escape ++ [n]) ≠ none ∧ IsName n := by
  unfold fsOf at he
  split at he
  · next hf =>
    obtain ⟨n, hn, rfl⟩ := List.mem_map.mp he
    have := (hs.tree.entry _ n hf).mp hn
    exact ⟨hf, n, rfl, this, (hs.tree.parent _ n this).2⟩
  · cases he

theorem host_ok {S : Snap} (hs : Sane S) : IndexedFolder.Host (fsOf S.fs S.R) S.depth where
  names := by
    intro p e he
    obtain ⟨-, n, rfl, -, hn⟩ := mem_fsOf hs he
    exact isName_raw hn
  unique := by
    intro p
    unfold fsOf
    split
    · rw [List.map_map]
      have := hs.unique (S.R ++ p.map escape)
      exact List.Pairwise.map _ (fun a b h e => h (IndexedFolder.raw_inj e)) this
    · exact List.nodup_nil
  folders := by
    intro p e he hd
    obtain ⟨hf, n, rfl, hne, hn⟩ := mem_fsOf hs he
    have hfo := (type_folder hs.tree hne).mp hd
    show toDir _ _ _ = true
    unfold toDir maxLinks
    rw [FolderMount.walk_real hs.tree 40 true (R := S.R ++ p.map escape) (cs := [n]) ⟨hf, by simpa using hn, Or.inr (by simpa using hf)⟩ hfo
      (fun _ t e => by cases e)]
    simpa using hfo
  finite := by
    intro p hp
    unfold fsOf
    rw [if_neg]
    intro hf
    have := hs.depth _ hf
    simp at this
    omega

theorem utf8_ok {S : Snap} (hs : Sane S) : IndexedFolder.Utf8 (fsOf S.fs S.R) := by
  intro p e he
  obtain ⟨-, n, rfl, -⟩ := mem_fsOf hs he
  exact ⟨n, rfl⟩

theorem folder_iff {S : Snap} (hs : Sane S) : ∀ (ns : Path), IndexedFolder.Folder (fsOf S.fs S.R) (ns.map raw) ↔ S.fs.node (S.R ++ ns) = some .folder := by
  have h1 : ∀ p, IndexedFolder.Folder (fsOf S.fs S.R) p → S.fs.node (S.R ++ p.map escape) = some .folder := by
    intro p h
    induction h with
    | root => simpa using hs.root
    | sub h hm hd ih =>
      obtain ⟨-, n, he, hne, -⟩ := mem_fsOf hs hm
      cases he
      have := (type_folder hs.tree hne).mp hd
      rw [List.map_append, List.map_singleton, IndexedFolder.escape_raw, ← List.append_assoc]
      exact this
  have h2 : ∀ (k : Nat) (ns : Path), ns.length = k → S.fs.node (S.R ++ ns) = some .folder → IndexedFolder.Folder (fsOf S.fs S.R) (ns.map raw) := by
    intro k
    induction k with
    | zero =>
      intro ns hl _
      rw [List.eq_nil_of_length_eq_zero hl]
      exact .root
    | succ k ih =>
      intro ns hl hf
      rcases List.eq_nil_or_concat ns with rfl | ⟨ms, n, rfl⟩
      · simp at hl
      · rw [List.concat_eq_append] at *
        rw [← List.append_assoc] at hf
        obtain ⟨hp, hn⟩ := hs.tree.parent (S.R ++ ms) n (by rw [hf]; simp)
        have hfo := ih ms (by simpa using hl) hp
        rw [List.map_append, List.map_singleton]
        refine .sub (st := ⟨(S.fs.stat (S.R ++ ms ++ [n])).mode, 0, toDir S.fs (S.R ++ ms) n⟩) hfo ?_ ((type_folder hs.tree (by rw [hf]; simp)).mpr hf)
        unfold fsOf
        rw [IndexedFolder.map_escape_raw, if_pos hp]
        exact List.mem_map.mpr ⟨n, (hs.tree.entry _ n hp).mpr (by rw [hf]; simp), rfl⟩
  intro ns
  constructor
  · intro h
    have := h1 _ h
    rwa [IndexedFolder.map_escape_raw] at this
  · exact h2 _ ns rfl

theorem placeOf_raw (ns : Path) (n : Str) (st : IndexedFolder.Stat) : placeOf (ns.map raw, raw n, st) = ns ++ [n] := by
  unfold placeOf
  simp only [IndexedFolder.map_escape_raw, IndexedFolder.escape_raw]

/-- The entries are those of the host. -/
theorem entry_of {S : Snap} (hs : Sane S) {e : List Raw × Raw × IndexedFolder.Stat} (he : e ∈ entries S) :
    ∃ ns n, e.1 = ns.map raw ∧ e.2.1 = raw n ∧ placeOf e = ns ++ [n] ∧ S.fs.node (S.R ++ ns ++ [n]) ≠ none ∧ (∀ m ∈ ns ++ [n], IsName m) := by
  obtain ⟨p, r, st⟩ := e
  have := (IndexedFolder.mem_entries (host_ok hs) p r st).mp he
  obtain ⟨ns, rfl⟩ := IndexedFolder.folder_utf8 (utf8_ok hs) this.1
  obtain ⟨-, n, hn, hne, hin⟩ := mem_fsOf hs this.2
  rw [IndexedFolder.map_escape_raw] at hne
  refine ⟨ns, n, rfl, (Prod.mk.inj hn).1, ?_, hne, ?_⟩
  · rw [(Prod.mk.inj hn).1]; exact placeOf_raw ns n st
  · intro m hm
    rcases List.mem_append.mp hm with h | h
    · exact IndexedFolder.isName_utf8 (host_ok hs) this.1 m h
    · rw [List.mem_singleton.mp h]; exact hin

theorem entries_iff {S : Snap} (hs : Sane S) (ns : Path) (n : Str) :
    (∃ e ∈ entries S, placeOf e = ns ++ [n]) ↔ S.fs.node (S.R ++ ns ++ [n]) ≠ none := by
  constructor
  · rintro ⟨e, he, hp⟩
    obtain ⟨ms, m, -, -, hpl, hne, -⟩ := entry_of hs he
    rw [hp] at hpl
    obtain ⟨rfl, h⟩ := List.append_inj' hpl rfl
    cases h
    exact hne
  · intro hne
    obtain ⟨hp, hn⟩ := hs.tree.parent (S.R ++ ns) n hne
    refine ⟨(ns.map raw, raw n, ⟨(S.fs.stat (S.R ++ ns ++ [n])).mode, 0, toDir S.fs (S.R ++ ns) n⟩), ?_, placeOf_raw ns n _⟩
    refine (IndexedFolder.mem_entries (host_ok hs) _ _ _).mpr ⟨(folder_iff hs ns).mpr hp, ?_⟩
    unfold fsOf
    rw [IndexedFolder.map_escape_raw, if_pos hp]
    exact List.mem_map.mpr ⟨n, (hs.tree.entry _ n hp).mpr hne, rfl⟩

/-- What the index has to show for a place. The contents do not matter for it, only their number. -/
def recAt (S : Snap) (q : Path) : Rec :=
  ⟨q, (S.fs.stat (S.R ++ q)).mode, linkname S.fs (S.R ++ q), (S.fs.stat (S.R ++ q)).mtime.toNat, (S.fs.stat (S.R ++ q)).uid, (S.fs.stat (S.R ++ q)).gid,
    List.replicate (S.fs.stat (S.R ++ q)).size 0⟩

def recs (S : Snap) : List Rec := (entries S).map (fun e => recAt S (placeOf e))

theorem indexed {S : Snap} (hs : Sane S) : Indexed (fun _ => true) [] (recs S) (frows S) (batches S) where
  names := by
    intro p hp x hx
    obtain ⟨e, he, rfl⟩ := List.mem_map.mp hp
    obtain ⟨ns, n, -, -, hpl, -, hn⟩ := entry_of hs he
    have hx' : x ∈ placeOf e := hx
    rw [hpl] at hx'
    exact hn x hx'
  length := by simp [recs, frows]
  row := by
    intro k p r hk hr
    unfold recs at hk
    unfold frows at hr
    rw [List.getElem?_map, Option.map_eq_some_iff] at hk
    obtain ⟨e, hek, rfl⟩ := hk
    rw [List.getElem?_mapIdx, hek] at hr
    cases hr
    obtain ⟨ns, n, h1, h2, hpl, -, hn⟩ := entry_of hs (List.mem_of_getElem? hek)
    refine ⟨?_, by simp [frow, recAt], rfl, rfl, rfl, .inl rfl, .inl rfl⟩
    show (escape (pathInIndex e.1), escape e.2.1) = splitPath (canonical (placeOf e))
    rw [hpl, splitPath_canonical hn, h1, h2, IndexedFolder.escape_raw, IndexedFolder.path_eq _ (by
      intro m hm
      obtain ⟨x, hx, rfl⟩ := List.mem_map.mp hm
      exact (isName_raw (hn x (List.mem_append_left _ hx))).1), IndexedFolder.map_escape_raw]
  order := by
    intro i j r r' hij hr hr' _ _
    unfold frows at hr hr'
    rw [List.getElem?_mapIdx, Option.map_eq_some_iff] at hr hr'
    obtain ⟨e, -, rfl⟩ := hr
    obtain ⟨e', -, rfl⟩ := hr'
    exact hij
  tree := by
    intro p hp hb
    refine ⟨p, hp, rfl, ?_⟩
    obtain ⟨e, he, rfl⟩ := List.mem_map.mp hp
    obtain ⟨p', hp', n, rest, hpl'⟩ := hb
    obtain ⟨e', he', rfl⟩ := List.mem_map.mp hp'
    have h' : placeOf e' = placeOf e ++ n :: rest := hpl'
    obtain ⟨ns', n', -, -, hq, hne, -⟩ := entry_of hs he'
    rw [List.append_assoc, ← hq, h', ← List.append_assoc] at hne
    have hf := hs.tree.above _ (S.R ++ placeOf e) (n :: rest) rfl (by simp) hne
    exact IndexedFolder.dirBit_of_isDir ((type_folder hs.tree (by rw [hf]; simp)).mpr hf)
  rows := by
    intro q
    unfold batches
    rw [IndexedFolder.flatten_batches, List.nil_append]

theorem recs_place {S : Snap} (hs : Sane S) (ns : Path) (n : Str) : (∃ p ∈ recs S, p.place = ns ++ [n]) ↔ S.fs.node (S.R ++ ns ++ [n]) ≠ none := by
  rw [← entries_iff hs]
  constructor
  · rintro ⟨p, hp, h⟩
    obtain ⟨e, he, rfl⟩ := List.mem_map.mp hp
    exact ⟨e, he, h⟩
  · rintro ⟨e, he, h⟩
    exact ⟨_, List.mem_map.mpr ⟨e, he, rfl⟩, h⟩

theorem lastAt_some {S : Snap} (hs : Sane S) {ns : Path} {n : Str} (h : S.fs.node (S.R ++ ns ++ [n]) ≠ none) :
    lastAt (recs S) (ns ++ [n]) = some (recAt S (ns ++ [n])) := by
  obtain ⟨p, hp, hpl⟩ := (recs_place hs ns n).mpr h
  cases hl : lastAt (recs S) (ns ++ [n]) with
  | none => exact absurd hpl (IndexMount.lastAt_none hl p hp)
  | some q =>
    obtain ⟨k, hk, hq, -⟩ := IndexMount.lastAt_spec hl
    obtain ⟨e, he, rfl⟩ := List.mem_map.mp (List.mem_of_getElem? hk)
    have : placeOf e = ns ++ [n] := hq
    rw [this]

theorem names_of {S : Snap} (hs : Sane S) {ns : Path} (h : S.fs.node (S.R ++ ns) ≠ none) : ∀ m ∈ ns, IsName m :=
  (FolderMount.placed_of hs.tree hs.root h).2.1

theorem hard {S : Snap} (hs : Sane S) {q : Path} {k : Node} (h : S.fs.node (S.R ++ q) = some k) : (recAt S q).isHard = false := by
  have ht := hs.tree.mode _ _ h
  unfold Rec.isHard recAt linkname
  rw [h]
  cases k with
  | link t => simp only [show (S.fs.stat (S.R ++ q)).mode &&& 0xF000 = 0xA000 from ht]; simp
  | file i => simp
  | folder => simp
  | special => simp

theorem reaches {S : Snap} (hs : Sane S) {ns : Path} {n : Str} {k : Node} (h : S.fs.node (S.R ++ ns ++ [n]) = some k) :
    IndexMount.Reaches (recs S) 0 (ns ++ [n]) (recAt S (ns ++ [n])) :=
  .here _ _ (by simp) (lastAt_some hs (by rw [h]; simp)) (hard hs (by rw [← List.append_assoc]; exact h))

/-! ## C215 -/

/-- **C215**, attributes: what was in the folder when the index was made is shown with the attributes that it had then. -/
theorem C215_attributes (S : Snap) (hs : Sane S) (ns : Path) (n : Str) (k : Node) (h : S.fs.node (S.R ++ ns ++ [n]) = some k) :
    mgetattr (frows S) (source S) (canonical (ns ++ [n])) = .ok ⟨(S.fs.stat (S.R ++ ns ++ [n])).mode, (S.fs.stat (S.R ++ ns ++ [n])).size,
      (S.fs.stat (S.R ++ ns ++ [n])).mtime.toNat, (S.fs.stat (S.R ++ ns ++ [n])).uid, (S.fs.stat (S.R ++ ns ++ [n])).gid⟩ ∧
    mreadlink (source S) (canonical (ns ++ [n])) = .ok (targetOf k) := by
  have hn : ∀ m ∈ ns ++ [n], IsName m := names_of hs (by rw [← List.append_assoc, h]; simp)
  obtain ⟨h1, h2⟩ := IndexMount.attributes (indexed hs) (reaches hs h) (by omega) hn
  refine ⟨?_, ?_⟩
  · rw [show source S = IndexMount.source (frows S) (batches S) from rfl, h1]
    simp [Rec.stat, recAt, List.append_assoc]
  · rw [show source S = IndexMount.source (frows S) (batches S) from rfl, h2]
    unfold recAt linkname
    rw [← List.append_assoc, h]
    cases k <;> rfl

/-- **C215**, what is missing: what was not in the folder when the index was made does not exist, unless the path asks for versions. -/
theorem C215_absent (S : Snap) (hs : Sane S) (ns : Path) (n : Str) (hn : ∀ m ∈ ns ++ [n], IsName m)
    (hv : ∀ m ∈ ns ++ [n], endsWith ".versions".toList m = false) (h : S.fs.node (S.R ++ ns ++ [n]) = none) :
    mgetattr (frows S) (source S) (canonical (ns ++ [n])) = .error (.os 2) := by
  refine (IndexMount.absent (indexed hs) hn (by simp) hv ?_ ?_ (TarMount.start [])).1
  · cases hl : lastAt (recs S) (ns ++ [n]) with
    | none => rfl
    | some q =>
      obtain ⟨k, hk, hq, -⟩ := IndexMount.lastAt_spec hl
      exact absurd h ((recs_place hs ns n).mp ⟨q, List.mem_of_getElem? hk, hq⟩)
  · rintro ⟨p, hp, m, rest, hpl⟩
    obtain ⟨e, he, rfl⟩ := List.mem_map.mp hp
    have h' : placeOf e = ns ++ [n] ++ m :: rest := hpl
    obtain ⟨ns', n', -, -, hq, hne, -⟩ := entry_of hs he
    rw [List.append_assoc, ← hq, h', ← List.append_assoc, ← List.append_assoc] at hne
    have := hs.tree.above _ (S.R ++ ns ++ [n]) (m :: rest) rfl (by simp) hne
    rw [h] at this
    cases this

/-- **C215**, listing: a folder shows exactly what was in it when the index was made. -/
theorem C215_list (S : Snap) (hs : Sane S) (ns : Path) (hn : ∀ m ∈ ns, IsName m) (hv : ∀ m ∈ ns, endsWith ".versions".toList m = false) (n : Str) :
    n ∈ mreaddir (source S) (canonical ns) ↔ n = ['.'] ∨ n = ['.', '.'] ∨ S.fs.node (S.R ++ ns ++ [n]) ≠ none := by
  rw [show source S = IndexMount.source (frows S) (batches S) from rfl, IndexMount.lists (indexed hs) hn hv, ← recs_place hs]
  have : (∃ p ∈ recs S, ∃ rest, p.place = ns ++ n :: rest) ↔ ∃ p ∈ recs S, p.place = ns ++ [n] := by
    constructor
    · rintro ⟨p, hp, rest, hpl⟩
      obtain ⟨e, he, rfl⟩ := List.mem_map.mp hp
      have h' : placeOf e = ns ++ n :: rest := hpl
      rw [recs_place hs]
      obtain ⟨ns', n', -, -, hq, hne, -⟩ := entry_of hs he
      by_cases hr : rest = []
      · subst hr
        rw [List.append_assoc, ← hq, h', ← List.append_assoc] at hne
        exact hne
      · rw [List.append_assoc, ← hq, h', show ns ++ n :: rest = ns ++ [n] ++ rest by simp, ← List.append_assoc, ← List.append_assoc] at hne
        rw [hs.tree.above _ _ rest rfl hr hne]
        simp
    · rintro ⟨p, hp, hpl⟩
      exact ⟨p, hp, [], hpl⟩
  rw [this]

/-! ### opening -/

theorem mlookup_row {S : Snap} (hs : Sane S) {ns : Path} {n : Str} {k : Node} (h : S.fs.node (S.R ++ ns ++ [n]) = some k) :
    ∃ j e, (entries S)[j]? = some e ∧ placeOf e = ns ++ [n] ∧
      mlookup (source S) (canonical (ns ++ [n])) = .ok ((IndexMount.infoOf (recAt S (ns ++ [n])) j j).push .file) := by
  have hn : ∀ m ∈ ns ++ [n], IsName m := names_of hs (by rw [← List.append_assoc, h]; simp)
  obtain ⟨j, r, hj, hr, hi, hf⟩ := IndexMount.found_member (indexed hs) hn (query_canonical _ hn) (lastAt_some hs (by rw [h]; simp))
  have hr' := hr
  unfold frows at hr'
  rw [List.getElem?_mapIdx, Option.map_eq_some_iff] at hr'
  obtain ⟨e, he, rfl⟩ := hr'
  refine ⟨j, e, he, ?_, ?_⟩
  · unfold recs at hj
    rw [List.getElem?_map, he] at hj
    exact congrArg Rec.place (Option.some.inj hj)
  · have hl : (source S).lookup (canonical (ns ++ [n])) 0 = some (IndexMount.infoOf (recAt S (ns ++ [n])) j j) := by
      show (Index.lookup (build (batches S)) _ 0).map _ = _
      rw [hf, Option.map_some, IndexMount.toInfo_row hr hi]
      rfl
    have := Compose.C36_chain_partial _ TarMount.mp _ _ _ _ hl
      (.done _ _ ((IndexMount.hardLink_eq _ _ _).trans (hard hs (by rw [← List.append_assoc]; exact h)))) (by omega)
    unfold mlookup Compose.vlookup
    rw [if_neg (by simp), this]

/-- A row of the index with the number of a regular file is that of the file. -/
theorem pathAt_row {S : Snap} (hs : Sane S) {ns : Path} {n : Str} {j ino : Nat} {e : List Raw × Raw × IndexedFolder.Stat}
    (he : (entries S)[j]? = some e) (hpl : placeOf e = ns ++ [n]) (h : S.fs.node (S.R ++ ns ++ [n]) = some (.file ino)) :
    pathAt S j = some (ns ++ [n]) := by
  have hn : ∀ m ∈ ns ++ [n], IsName m := names_of hs (by rw [← List.append_assoc, h]; simp)
  have hr : (frows S)[j]? = some (frow S.fs S.R j e) := by
    unfold frows
    rw [List.getElem?_mapIdx, he]
    rfl
  have hb := (IndexMount.file_row (indexed hs) hr).2
  have hreg : (S.fs.stat (S.R ++ placeOf e)).mode &&& 0xF000 = 0x8000 := by
    rw [hpl, ← List.append_assoc]
    exact hs.tree.mode _ _ h
  unfold pathAt IndexedFolder.opened IndexedFolder.pathOf
  cases hfd : (build (batches S)).find? (IndexedFolder.matchesRow (⟨j, ⟨0, 0, false, 0⟩⟩ : Index.FileInfo).oh) with
  | none =>
    rw [List.find?_eq_none] at hfd
    refine absurd ?_ (hfd _ hb)
    simp only [IndexedFolder.matchesRow, IndexMount.toRow, frow, hreg]
    simp
  | some x =>
    have hx := List.mem_of_find?_eq_some hfd
    have hxm := List.find?_some hfd
    simp only [IndexedFolder.matchesRow, Bool.and_eq_true, beq_iff_eq] at hxm
    have hxe : x = IndexMount.toRow (j + 1) (frow S.fs S.R j e) := by
      rcases mem_build _ x hx with hm | hg
      · rw [(indexed hs).rows x] at hm
        obtain ⟨i, p, r, hi, hri, -, rfl⟩ := IndexMount.mem_toRows (indexed hs) x hm
        have hri' := hri
        unfold frows at hri'
        rw [List.getElem?_mapIdx, Option.map_eq_some_iff] at hri'
        obtain ⟨e', -, rfl⟩ := hri'
        have hij : i = j := by
          have := hxm.2
          simp only [IndexMount.toRow, frow] at this
          omega
        subst hij
        rw [hr] at hri
        rw [← Option.some.inj hri]
      · have := (TarMount.generated_row hg).2.2.1
        rw [this] at hxm
        exact absurd hxm.1 (by decide)
    subst hxe
    obtain ⟨ms, m, h1, h2, hpl', -, -⟩ := entry_of hs (List.mem_of_getElem? he)
    rw [hpl] at hpl'
    obtain ⟨rfl, hm⟩ := List.append_inj' hpl' rfl
    cases hm
    have hpath : (IndexMount.toRow (j + 1) (frow S.fs S.R j e)).1.path = folderPath ns := by
      show escape (pathInIndex e.1) = _
      rw [h1, IndexedFolder.path_eq _ (by
        intro y hy
        obtain ⟨z, hz, rfl⟩ := List.mem_map.mp hy
        exact (isName_raw (hn z (List.mem_append_left _ hz))).1), IndexedFolder.map_escape_raw]
    have hname : (IndexMount.toRow (j + 1) (frow S.fs S.R j e)).1.name = n := by
      show escape e.2.1 = _
      rw [h2, IndexedFolder.escape_raw]
    rw [Option.map_some, Option.map_some, Option.map_some, hpath, hname, IndexedFolder.pathOf_parts ns n hn, IndexedFolder.map_escape_raw]

theorem event_good (S : Snap) {m : FolderMount.Mount} (hg : FolderMount.Good m) (e : Event) :
    FolderMount.Good (event S m e) ∧ ∀ fh ino, e ≠ .release fh → m.opened.get? fh = some (some ino) → (event S m e).opened.get? fh = some (some ino) := by
  cases e with
  | host fs => exact ⟨hg, fun _ _ _ h => h⟩
  | read a b c => exact ⟨hg, fun _ _ _ h => h⟩
  | release g => exact FolderMount.event_good S.R hg (.release g)
  | «open» path =>
    have : event S m (.open path) = (mopen S m path).1 := rfl
    rw [this]
    unfold mopen
    split
    · exact ⟨hg, fun _ _ _ h => h⟩
    · split
      · exact ⟨hg, fun _ _ _ h => h⟩
      · refine ⟨?_, ?_⟩
        · intro fh o' h'
          simp only [Dict.get?_set] at h'
          split at h'
          · next e => subst e; exact Nat.le_refl _
          · have := hg _ _ h'; simp only; omega
        · intro fh ino _ h'
          have := hg _ _ h'
          simp only [Dict.get?_set]
          rw [if_neg (by omega)]
          exact h'

theorem events_good (S : Snap) (es : List Event) : ∀ {m : FolderMount.Mount}, FolderMount.Good m →
    FolderMount.Good (events S m es) ∧ ∀ fh ino, Event.release fh ∉ es → m.opened.get? fh = some (some ino) →
      (events S m es).opened.get? fh = some (some ino) := by
  induction es with
  | nil => intro m hg; exact ⟨hg, fun _ _ _ h => h⟩
  | cons e es ih =>
    intro m hg
    obtain ⟨h1, h2⟩ := event_good S hg e
    obtain ⟨h3, h4⟩ := ih h1
    refine ⟨h3, fun fh ino hne h => h4 fh ino (fun hm => hne (List.mem_cons_of_mem _ hm)) (h2 fh ino ?_ h)⟩
    rintro rfl
    exact hne List.mem_cons_self

/-- **C215**, reading: whatever happened before on the host and in the mount, opening a regular file of the index gives a new handle for the file to
which its path now leads on the host, and until it is closed, reading gives what this file then contains, whatever happens meanwhile. -/
theorem C215_read (S : Snap) (hs : Sane S) (fs₀ : FS) (before after : List Event) (ns : Path) (n : Str) (ino₀ ino size offset : Nat) (p : Path)
    (h : S.fs.node (S.R ++ ns ++ [n]) = some (.file ino₀))
    (hw : walk (events S (start fs₀) before).fs.node true 40 S.R (ns ++ [n]) = some p)
    (hf : (events S (start fs₀) before).fs.node p = some (.file ino)) :
    ∃ fh, (mopen S (events S (start fs₀) before) (canonical (ns ++ [n]))).2 = .ok fh ∧
      (events S (start fs₀) before).opened.get? fh = none ∧
      (Event.release fh ∉ after →
        mread (events S (mopen S (events S (start fs₀) before) (canonical (ns ++ [n]))).1 after) fh size offset =
          .ok ((((events S (mopen S (events S (start fs₀) before) (canonical (ns ++ [n]))).1 after).fs.data ino).drop offset).take size)) := by
  have hg0 : FolderMount.Good (start fs₀) := by
    intro fh o h
    cases h
  have hg := (events_good S before hg0).1
  generalize events S (start fs₀) before = m at *
  obtain ⟨j, e, he, hpl, hl⟩ := mlookup_row hs h
  have ho : openNow S m.fs ((IndexMount.infoOf (recAt S (ns ++ [n])) j j).push .file) = some ino := by
    simp only [openNow, Compose.FileInfo.push, IndexMount.infoOf, pathAt_row hs he hpl h]
    simp only [maxLinks, hw, hf]
  have hm : mopen S m (canonical (ns ++ [n])) = (⟨m.fs, m.opened.set (m.last + 1) (some ino), m.last + 1⟩, .ok (m.last + 1)) := by
    unfold mopen
    rw [hl]
    simp only [ho]
  have hg' := (event_good S hg (.open (canonical (ns ++ [n])))).1
  have he' : event S m (.open (canonical (ns ++ [n]))) = (mopen S m (canonical (ns ++ [n]))).1 := rfl
  rw [he', hm] at hg'
  rw [hm]
  refine ⟨m.last + 1, rfl, ?_, ?_⟩
  · cases hx : m.opened.get? (m.last + 1) with
    | none => rfl
    | some o => have := hg _ _ hx; omega
  · intro hr
    have := (events_good S after hg').2 (m.last + 1) ino hr (by simp only [Dict.get?_set, if_pos])
    unfold mread
    simp only
    rw [this]

/-- **C215**, what is gone: if the path of a regular file of the index does not lead to a file on the host any more, opening it fails and nothing else
is opened for it. -/
theorem C215_gone (S : Snap) (hs : Sane S) (m : FolderMount.Mount) (ns : Path) (n : Str) (ino₀ : Nat)
    (h : S.fs.node (S.R ++ ns ++ [n]) = some (.file ino₀))
    (hg : ∀ p ino, walk m.fs.node true 40 S.R (ns ++ [n]) = some p → m.fs.node p ≠ some (.file ino)) :
    mopen S m (canonical (ns ++ [n])) = (m, .error (.os 5)) := by
  obtain ⟨j, e, he, hpl, hl⟩ := mlookup_row hs h
  have ho : openNow S m.fs ((IndexMount.infoOf (recAt S (ns ++ [n])) j j).push .file) = none := by
    simp only [openNow, Compose.FileInfo.push, IndexMount.infoOf, pathAt_row hs he hpl h]
    simp only [maxLinks]
    cases hw : walk m.fs.node true 40 S.R (ns ++ [n]) with
    | none => rfl
    | some p =>
      simp only
      split
      · next ino hp => exact absurd hp (hg p ino hw)
      · rfl
  unfold mopen
  rw [hl]
  simp only [ho]

/-- **C215**, what is not a regular file: folders, links and special files of the index cannot be opened, whatever is on the host now. -/
theorem C215_irregular (S : Snap) (hs : Sane S) (m : FolderMount.Mount) (ns : Path) (n : Str) (k : Node)
    (h : S.fs.node (S.R ++ ns ++ [n]) = some k) (hk : ∀ ino, k ≠ .file ino) : mopen S m (canonical (ns ++ [n])) = (m, .error (.os 5)) := by
  obtain ⟨j, e, he, hpl, hl⟩ := mlookup_row hs h
  have hr : (frows S)[j]? = some (frow S.fs S.R j e) := by
    unfold frows
    rw [List.getElem?_mapIdx, he]
    rfl
  have hreg : (S.fs.stat (S.R ++ placeOf e)).mode &&& 0xF000 ≠ 0x8000 := by
    rw [hpl, ← List.append_assoc]
    have ht := hs.tree.mode _ _ h
    cases k with
    | file ino => exact absurd rfl (hk ino)
    | folder => rw [show _ &&& 0xF000 = 0x4000 from ht]; decide
    | link t => rw [show _ &&& 0xF000 = 0xA000 from ht]; decide
    | special => exact ht.1
  have hp : pathAt S j = none := by
    unfold pathAt IndexedFolder.opened IndexedFolder.pathOf
    have : (build (batches S)).find? (IndexedFolder.matchesRow (⟨j, ⟨0, 0, false, 0⟩⟩ : Index.FileInfo).oh) = none := by
      rw [List.find?_eq_none]
      intro x hx hxm
      simp only [IndexedFolder.matchesRow, Bool.and_eq_true, beq_iff_eq] at hxm
      rcases mem_build _ x hx with hm | hg
      · rw [(indexed hs).rows x] at hm
        obtain ⟨i, p, r, hi, hri, -, rfl⟩ := IndexMount.mem_toRows (indexed hs) x hm
        have hri' := hri
        unfold frows at hri'
        rw [List.getElem?_mapIdx, Option.map_eq_some_iff] at hri'
        obtain ⟨e', -, rfl⟩ := hri'
        have hij : i = j := by
          have := hxm.2
          simp only [IndexMount.toRow, frow] at this
          omega
        subst hij
        rw [hr] at hri
        rw [← Option.some.inj hri] at hxm
        exact hreg hxm.1
      · have := (TarMount.generated_row hg).2.2.1
        rw [this] at hxm
        exact absurd hxm.1 (by decide)
    rw [this]
    rfl
  have ho : openNow S m.fs ((IndexMount.infoOf (recAt S (ns ++ [n])) j j).push .file) = none := by
    simp only [openNow, Compose.FileInfo.push, IndexMount.infoOf, hp]
  unfold mopen
  rw [hl]
  simp only [ho]

/-! ### later mounts -/

/-- **C215**, the first mount: without an index, the folder is shown as it is. -/
theorem C215_first (trees : Nat → FS) (R : Path) (v : Visit) : shownTree trees R [] v = .ok v.tree := rfl

/-- The index is missing or was made by one of the mounts. -/
def Made (backend : Str) (seen : List Nat) (f : IndexLoad.File) : Prop :=
  f = .missing ∨ ∃ d m, f = .stored false (some d) ∧ d.of_ ∈ seen ∧ d.files = true ∧ d.temporary = false ∧ d.oldBzip2 = false ∧
    d.metadata = some m ∧ m.backend = some backend

theorem mount_made {backend : Str} {seen : List Nat} {f : IndexLoad.File} {m : IndexLoad.Mount} (h : Made backend seen f) :
    (∃ r, (IndexLoad.mount (m.env backend) m.content m.write f).1 = .ok r ∧ r.content ∈ seen ++ [m.content]) ∧
      Made backend (seen ++ [m.content]) (IndexLoad.mount (m.env backend) m.content m.write f).2 := by
  have hfresh : Made backend (seen ++ [m.content])
      (if m.write then .stored false (some (IndexLoad.fresh (m.env backend) m.content)) else .missing) := by
    split
    · exact .inr ⟨_, _, rfl, List.mem_append_right _ List.mem_cons_self, rfl, rfl, rfl, rfl, rfl⟩
    · exact .inl rfl
  rcases h with rfl | ⟨d, mt, rfl, h1, h2, h3, h4, h5, h6⟩
  · exact ⟨⟨_, rfl, by simp⟩, hfresh⟩
  · unfold IndexLoad.mount
    rw [IndexLoad.openExisting_one]
    cases hc : IndexLoad.check (m.env backend) (some d) with
    | ok d' =>
      have hd := (IndexLoad.check_ok hc).1
      simp only [Option.some.injEq] at hd
      subst hd
      exact ⟨⟨_, rfl, List.mem_append_left _ h1⟩, .inr ⟨IndexLoad.storeMetadata (m.env backend) d, _, rfl, List.mem_append_left _ h1, h2, h3, h4, rfl, rfl⟩⟩
    | error x =>
      cases x with
      | mismatch => exact absurd hc (IndexLoad.check_mismatch h5 h6)
      | invalid => exact ⟨⟨_, rfl, by simp⟩, hfresh⟩

/-- **C215**, later mounts: whatever happened to the folder between the mounts, and with or without `--verify-mtime`, a mount is never refused, and
it shows the whole folder as it was when one of the mounts was made, or as it is now. -/
theorem C215_snapshot (trees : Nat → FS) (R : Path) (earlier : List Visit) (v : Visit) :
    ∃ t ∈ (earlier ++ [v]).map Visit.tree, shownTree trees R earlier v = .ok t := by
  have hall : ∀ (rest : List Visit) (seen : List Nat) (f : IndexLoad.File), Made "IndexedFolderMountSource".toList seen f →
      Made "IndexedFolderMountSource".toList (seen ++ rest.map Visit.tree)
        ((rest.map (Visit.mount trees R)).foldl (IndexLoad.step "IndexedFolderMountSource".toList) f) := by
    intro rest
    induction rest with
    | nil => intro seen f h; simpa using h
    | cons x rest ih =>
      intro seen f h
      have := ih (seen ++ [x.tree]) _ (mount_made (m := x.mount trees R) h).2
      rw [List.append_assoc] at this
      exact this
  obtain ⟨r, hr, hm⟩ := (mount_made (m := v.mount trees R) (hall earlier [] .missing (.inl rfl))).1
  refine ⟨r.content, ?_, ?_⟩
  · rw [List.map_append]
    exact hm
  · unfold shownTree IndexLoad.shows IndexLoad.after
    rw [hr]
    rfl

/-- **C215**, later mounts: if all mounts verify times and the time of the mounted folder itself tells all states of the folder apart, each mount shows
the folder as it is. What is missing: the time of the mounted folder does not change when something below its subfolders does. -/
theorem C215_current_partial (trees : Nat → FS) (R : Path) (earlier : List Visit) (v : Visit) (hv : ∀ x ∈ earlier ++ [v], x.verify = true)
    (ht : ∀ x ∈ earlier ++ [v], ∀ y ∈ earlier ++ [v], ((trees x.tree).stat R).mtime.toNat = ((trees y.tree).stat R).mtime.toNat → x.tree = y.tree) :
    shownTree trees R earlier v = .ok v.tree := by
  have hm : ∀ a ∈ earlier.map (Visit.mount trees R) ++ [v.mount trees R], ∃ x ∈ earlier ++ [v], a = x.mount trees R := by
    intro a ha
    rcases List.mem_append.mp ha with h | h
    · obtain ⟨x, hx, rfl⟩ := List.mem_map.mp h
      exact ⟨x, List.mem_append_left _ hx, rfl⟩
    · exact ⟨v, by simp, List.mem_singleton.mp h⟩
  obtain ⟨r, hr, hc⟩ := IndexLoad.C119_verified_partial "IndexedFolderMountSource".toList (earlier.map (Visit.mount trees R)) (v.mount trees R)
    (by
      intro a ha b hb hab
      obtain ⟨x, hx, rfl⟩ := hm a ha
      obtain ⟨y, hy, rfl⟩ := hm b hb
      exact ht x hx y hy hab)
    (by
      intro a ha
      obtain ⟨x, hx, rfl⟩ := hm a ha
      exact hv x hx)
  unfold shownTree
  rw [hr]
  exact congrArg Except.ok hc

/-! ## examples and violations -/

/-- A host on which the time and the size of one place are others. -/
def touch (fs : FS) (q : Path) (time : Int) (size : Nat) : FS :=
  ⟨fs.node, fun p => if p = q then ⟨size, time, (fs.stat p).mode, (fs.stat p).uid, (fs.stat p).gid⟩ else fs.stat p, fs.entries, fs.data⟩

theorem tree_touch {fs : FS} (h : Tree fs) (q : Path) (time : Int) (size : Nat) : Tree (touch fs q time size) where
  root := h.root
  parent := h.parent
  entry := h.entry
  mode := by
    intro p k hk
    have := h.mode p k hk
    unfold touch
    simp only
    split
    · exact this
    · exact this

/-- A folder `/r` with the folder `d`, and a file that is in it later. -/
def older : List (Path × Node) := [([['r']], .folder), ([['r'], ['d']], .folder), ([['r'], ['f']], .file 1)]

theorem entries_nodup {t : List (Path × Node)} (h : (t.map (·.1)).Nodup) (p : Path) : ((FolderMount.ofTable t).entries p).Nodup := by
  have h' : t.Pairwise (fun a b => a.1 ≠ b.1) := List.pairwise_map.mp h
  show (t.filterMap _).Nodup
  refine List.pairwise_filterMap.mpr (h'.imp ?_)
  intro a b hab x hx y hy hxy
  split at hx
  · next ha =>
    split at hy
    · next hb =>
      apply hab
      rcases List.eq_nil_or_concat a.1 with e | ⟨a', m, e⟩
      · exact absurd e ha.1
      · rcases List.eq_nil_or_concat b.1 with e' | ⟨b', m', e'⟩
        · exact absurd e' hb.1
        · rw [List.concat_eq_append] at e e'
          rw [e] at ha hx ⊢
          rw [e'] at hb hy ⊢
          rw [List.dropLast_concat] at ha hb
          rw [List.getLast?_concat] at hx hy
          rw [ha.2, hb.2, Option.some.inj hx, Option.some.inj hy, hxy]
    · cases hy
  · cases hx

theorem sane_table {t : List (Path × Node)} (R : Path) (depth : Nat) (hn : (t.map (·.1)).Nodup)
    (ht : ∀ e ∈ t, (FolderMount.ofTable t).node e.1.dropLast = some .folder ∧ ∀ n ∈ e.1.getLast?, n ≠ [] ∧ '/' ∉ n ∧ n ≠ ['.'] ∧ n ≠ ['.', '.'])
    (hR : (FolderMount.ofTable t).node R = some .folder) (hd : ∀ e ∈ t, e.1.length < depth) (h0 : 0 < depth) (q : Path) (time : Int) (size : Nat) :
    Sane ⟨touch (FolderMount.ofTable t) q time size, R, depth⟩ where
  tree := tree_touch (FolderMount.tree_ofTable t ht) q time size
  root := hR
  unique := entries_nodup hn
  depth := by
    intro p hp
    show p.length < depth
    by_cases he : R ++ p = []
    · rw [(List.append_eq_nil_iff.mp he).2]; exact h0
    · obtain ⟨e, hm, h1⟩ := FolderMount.ofTable_mem he (by
        intro hx
        have hp' : (FolderMount.ofTable t).node (R ++ p) = some .folder := hp
        rw [hx] at hp'
        cases hp')
      have := hd e hm
      rw [h1, List.length_append] at this
      omega

/-- The host before and after a file is added in a folder, of which then the time is another. -/
def grows (folder : Path) (n : Str) (k : Nat) : FS :=
  if k = 0 then touch (FolderMount.ofTable older) folder 1 0 else touch (FolderMount.ofTable (older ++ [(folder ++ [n], .file 7)])) folder 2 0

theorem grows_timely (folder : Path) (n : Str) : Timely (grows folder n) := by
  have key : ∀ q, q ≠ folder ++ [n] →
      ((FolderMount.ofTable older).node q = none ↔ (FolderMount.ofTable (older ++ [(folder ++ [n], Node.file 7)])).node q = none) := by
    intro q hq
    unfold FolderMount.ofTable
    simp only [List.find?_append]
    by_cases h0 : q = []
    · simp [h0]
    · have hx : List.find? (fun e => decide (e.1 = q)) [(folder ++ [n], Node.file 7)] = none := by
        simp [Ne.symm hq]
      simp only [if_neg h0, hx, Option.or_none]
  intro a b p hst m
  by_cases hp : p = folder
  · have : (a = 0) = (b = 0) := by
      unfold grows at hst
      by_cases ha : a = 0 <;> by_cases hb : b = 0 <;> simp [ha, hb, touch, hp] at hst ⊢
    unfold grows
    simp only [this]
  · have hne : p ++ [m] ≠ folder ++ [n] := fun e => hp (List.append_inj_left' e rfl)
    have := key _ hne
    unfold grows
    by_cases ha : a = 0 <;> by_cases hb : b = 0 <;> simp only [ha, hb, if_true, if_false, touch]
    · exact this
    · exact this.symm

theorem grows_sane (folder : Path) (hf : folder = [['r']] ∨ folder = [['r'], ['d']]) : ∀ k, Sane ⟨grows folder ['x'] k, [['r']], 4⟩ := by
  intro k
  unfold grows
  rcases hf with rfl | rfl
  · split
    · exact sane_table _ _ (by decide +kernel) (by decide +kernel) (by decide +kernel) (by decide +kernel) (by decide) _ _ _
    · exact sane_table _ _ (by decide +kernel) (by decide +kernel) (by decide +kernel) (by decide +kernel) (by decide) _ _ _
  · split
    · exact sane_table _ _ (by decide +kernel) (by decide +kernel) (by decide +kernel) (by decide +kernel) (by decide) _ _ _
    · exact sane_table _ _ (by decide +kernel) (by decide +kernel) (by decide +kernel) (by decide +kernel) (by decide) _ _ _

/-- The hypotheses of the theorems are met by this host: `f` is a file, `d` a folder, `x` is missing at first. -/
example : Sane ⟨grows [['r'], ['d']] ['x'] 0, [['r']], 4⟩ ∧ (grows [['r'], ['d']] ['x'] 0).node ([['r']] ++ [] ++ [['f']]) = some (.file 1) ∧
    (grows [['r'], ['d']] ['x'] 0).node ([['r']] ++ [['d']] ++ [['x']]) = none ∧
    (grows [['r'], ['d']] ['x'] 1).node ([['r']] ++ [['d']] ++ [['x']]) = some (.file 7) ∧
    walk (grows [['r'], ['d']] ['x'] 1).node true 40 [['r']] ([] ++ [['f']]) = some [['r'], ['f']] :=
  ⟨grows_sane _ (.inr rfl) 0, by decide +kernel, by decide +kernel, by decide +kernel, by decide +kernel⟩

/-- Those of `C215_irregular` by the folder `d`. -/
example : (grows [['r'], ['d']] ['x'] 0).node ([['r']] ++ [] ++ [['d']]) = some .folder := by decide +kernel

/-- Those of `C215_gone` by the file `d/x` that is in the index and then removed. -/
example : (grows [['r'], ['d']] ['x'] 1).node ([['r']] ++ [['d']] ++ [['x']]) = some (.file 7) ∧
    walk (grows [['r'], ['d']] ['x'] 0).node true 40 [['r']] ([['d']] ++ [['x']]) = none := by decide +kernel

/-- Those of `C215_current_partial` by a file that is added in the mounted folder itself. -/
example : ∀ x ∈ [(⟨0, true⟩ : Visit), ⟨1, true⟩], ∀ y ∈ [(⟨0, true⟩ : Visit), ⟨1, true⟩],
    ((grows [['r']] ['x'] x.tree).stat [['r']]).mtime.toNat = ((grows [['r']] ['x'] y.tree).stat [['r']]).mtime.toNat → x.tree = y.tree := by
  decide +kernel

/-- **C215**, the violation: a file is added in a subfolder. The time of the mounted folder stays the same, and so the next mount uses the old index
and does not show the file, although times are verified. -/
theorem C215_violated : ¬ C215_statement := by
  intro h
  refine h (grows [['r'], ['d']] ['x']) [['r']] 4 (grows_sane _ (.inr rfl)) (grows_timely _ _) [⟨0, true⟩] ⟨1, true⟩ 0 (by decide) (by decide +kernel)
    [['d']] ['x'] (by decide +kernel) ?_
  exact C215_absent ⟨grows [['r'], ['d']] ['x'] 0, [['r']], 4⟩ (grows_sane _ (.inr rfl) 0) [['d']] ['x'] (by unfold IsName; decide) (by decide)
    (by decide +kernel)

/-- **C215**, the violation for files directly in the mounted folder: a mount without `--verify-mtime` stores the new time with the old index, which is
then used by mounts with `--verify-mtime`. -/
theorem C215_unverified_violated : ¬ C215_unverified_statement := by
  intro h
  refine h (grows [['r']] ['x']) [['r']] 4 (grows_sane _ (.inl rfl)) (grows_timely _ _) [⟨0, true⟩, ⟨1, false⟩] ⟨1, true⟩ 0 rfl (by decide +kernel)
    ['x'] (by decide +kernel) ?_
  exact C215_absent ⟨grows [['r']] ['x'] 0, [['r']], 4⟩ (grows_sane _ (.inl rfl) 0) [] ['x'] (by unfold IsName; decide) (by decide)
    (by decide +kernel)

/-- **C215**, the violation for sizes: a file that grows while it is mounted keeps its size in the mount. -/
theorem C215_size_violated : ¬ C215_size_statement := by
  intro h
  have hs := grows_sane [['r']] (.inl rfl) 0
  have ha := (C215_attributes ⟨grows [['r']] ['x'] 0, [['r']], 4⟩ hs [] ['f'] (.file 1) (by decide +kernel)).1
  have := h ⟨grows [['r']] ['x'] 0, [['r']], 4⟩ [.host (touch (grows [['r']] ['x'] 0) [['r'], ['f']] 3 9)] [] ['f'] 1 _ hs (by decide +kernel)
    (by decide +kernel) ha
  revert this
  decide +kernel

end Verif.Fuse.FolderIndex
