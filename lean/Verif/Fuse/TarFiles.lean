import Verif.Fuse.TarMount
import Verif.Tar.Header

/-!
# C190: files that are packed into a TAR archive and mounted are read back

The headers of `Verif.Tar.Header` and the mount of `Verif.Fuse.TarMount` are put together: nothing of the way from the packed files
to the answers of the file system is a parameter any more, except how bytes that are not UTF-8 are decoded.
-/

namespace Verif.Fuse.TarFiles

open Verif.Py Verif.Index Verif.Fuse.TarMount
open Verif.Tar (Member Hdr Bytes archiveOf newIndex)
open Verif.Tar.Header (File Kind Written Storable codec)
open Verif.Compose (Source dotVersions)

/-! ## model -/

/-- The mount of an archive with these bytes, whose index was written in the batches `bs` (FuseMount.py:225-245, tar.py:392-477, 834-850). -/
def mounted (esc : Bytes → Str) (ign : Bool) (archive : Bytes) (bs : List (List Row)) : Source :=
  tarSource (newIndex (codec esc) (plain ign) 0 archive) bs

/-- The batches contain all rows of the archive in order (tar.py:457-475). -/
def Batches (esc : Bytes → Str) (ign : Bool) (archive : Bytes) (bs : List (List Row)) : Prop :=
  bs.flatten = toRows (newIndex (codec esc) (plain ign) 0 archive)

/-! ## specification -/

/-- Files with the bytes that a program wrote for each of them. -/
abbrev Packing := List (File × Member)

/-- The archive: all members, and zeros at the end. -/
def bytesOf (ws : Packing) (zeros : Nat) : Bytes := ws.flatMap (fun p => p.2.encode) ++ List.replicate zeros 0

/-- There is a file somewhere below the folder `ns`. -/
def Inside (fs : List File) (ns : List Str) : Prop := ∃ f ∈ fs, ∃ n rest, place f.name = ns ++ n :: rest

/-- Each file was written in the format of GNU tar, ustar or PAX, and only folders have something below them. -/
structure Packed (ws : Packing) : Prop where
  written : ∀ p ∈ ws, Written p.1 p.2
  ok : ∀ p ∈ ws, p.1.Ok
  names : ∀ p ∈ ws, Storable p.1.written ∧ Storable p.1.link
  tree : ∀ p ∈ ws, Inside (ws.map (fun q => q.1)) (place p.1.name) → p.1.kind = .folder

/-- The file that was packed last for a place. -/
def lastFile (fs : List File) (ns : List Str) : Option File := (fs.filter (fun f => decide (place f.name = ns))).getLast?

/-- Following `k` hard links from the place `ns` leads to the file `f`. -/
inductive Leads (fs : List File) : Nat → List Str → File → Prop where
  | here (ns : List Str) (f : File) (hne : ns ≠ []) (hl : lastFile fs ns = some f) (ht : f.kind ≠ .hardlink) : Leads fs 0 ns f
  | link (k : Nat) (ns : List Str) (g f : File) (hne : ns ≠ []) (hl : lastFile fs ns = some g) (ht : g.kind = .hardlink)
      (hlink : g.link ≠ []) (hother : place g.link ≠ ns) (hr : Leads fs k (place g.link) f) : Leads fs (k + 1) ns f

/-- The bits of the file type. -/
def bits : Kind → Nat
  | .folder => 0o040000
  | .symlink => 0o120000
  | .file => 0o100000
  | .hardlink => 0

/-! ## lemmas -/

/-- The members with their headers. -/
def members (ws : Packing) : List (Member × Hdr) := ws.map (fun p => (p.2, p.1.hdr))

theorem archive_eq (ws : Packing) (z : Nat) : archiveOf (members ws) z = bytesOf ws z := by
  unfold archiveOf bytesOf members Tar.encode
  rw [List.map_map, List.flatMap_map]
  rfl

theorem data_eq {f : File} {m : Member} (h : Written f m) : m.data = f.data := by cases h <;> rfl

theorem kind_folder (k : Kind) : k.char = '5' ↔ k = .folder := by cases k <;> decide
theorem kind_hard (k : Kind) : k.char = '1' ↔ k = .hardlink := by cases k <;> decide

theorem inside_iff (ws : Packing) (ns : List Str) : Below (members ws) ns ↔ Inside (ws.map (fun p => p.1)) ns := by
  unfold Below Inside members
  constructor
  · rintro ⟨p, hp, n, rest, he⟩
    obtain ⟨q, hq, rfl⟩ := List.mem_map.mp hp
    exact ⟨q.1, List.mem_map.mpr ⟨q, hq, rfl⟩, n, rest, he⟩
  · rintro ⟨f, hf, n, rest, he⟩
    obtain ⟨q, hq, rfl⟩ := List.mem_map.mp hf
    exact ⟨_, List.mem_map.mpr ⟨q, hq, rfl⟩, n, rest, he⟩

theorem clean (esc : Bytes → Str) {ws : Packing} (h : Packed ws) : Clean (codec esc) (members ws) where
  ok := by
    intro p hp
    obtain ⟨q, hq, rfl⟩ := List.mem_map.mp hp
    exact Tar.Header.written_ok esc (h.ok q hq) (h.names q hq).1 (h.names q hq).2 (h.written q hq)
  kinds := by
    intro p hp
    obtain ⟨q, hq, rfl⟩ := List.mem_map.mp hp
    show q.1.kind.char ∈ _
    cases q.1.kind <;> decide
  modes := by
    intro p hp
    obtain ⟨q, hq, rfl⟩ := List.mem_map.mp hp
    exact (h.ok q hq).mode
  links := by
    intro p hp
    obtain ⟨q, hq, rfl⟩ := List.mem_map.mp hp
    exact fun ht => (h.ok q hq).folder ((kind_folder _).mp ht)
  tree := by
    intro p hp hb
    obtain ⟨q, hq, rfl⟩ := List.mem_map.mp hp
    exact (kind_folder _).mpr (h.tree q hq ((inside_iff ws _).mp hb))

theorem inserted {esc : Bytes → Str} {ign : Bool} {ws : Packing} {z : Nat} {bs : List (List Row)} (h : Packed ws)
    (hb : Batches esc ign (bytesOf ws z) bs) : Inserted (codec esc) ign (members ws) z bs :=
  ⟨clean esc h, by unfold rowsOf; rw [archive_eq]; exact hb⟩

theorem mounted_eq (esc : Bytes → Str) (ign : Bool) (ws : Packing) (z : Nat) (bs : List (List Row)) :
    mounted esc ign (bytesOf ws z) bs = tarSource (rowsOf (codec esc) ign (members ws) z) bs := by
  unfold mounted rowsOf
  rw [archive_eq]

theorem last_eq (ws : Packing) (ns : List Str) :
    lastAt (members ws) ns = ((ws.filter (fun p => decide (place p.1.name = ns))).getLast?).map (fun p => (p.2, p.1.hdr)) := by
  unfold lastAt members
  rw [List.filter_map, List.getLast?_map]
  rfl

theorem lastFile_eq (ws : Packing) (ns : List Str) :
    lastFile (ws.map (fun p => p.1)) ns = ((ws.filter (fun p => decide (place p.1.name = ns))).getLast?).map (fun p => p.1) := by
  unfold lastFile
  rw [List.filter_map, List.getLast?_map]
  rfl

theorem last_some {ws : Packing} {ns : List Str} {f : File} (h : lastFile (ws.map (fun p => p.1)) ns = some f) :
    ∃ m, (f, m) ∈ ws ∧ lastAt (members ws) ns = some (m, f.hdr) := by
  rw [lastFile_eq, Option.map_eq_some_iff] at h
  obtain ⟨p, hp, rfl⟩ := h
  refine ⟨p.2, (List.mem_filter.mp (List.mem_of_getLast? hp)).1, ?_⟩
  rw [last_eq, hp]
  rfl

theorem last_none {ws : Packing} {ns : List Str} (h : lastFile (ws.map (fun p => p.1)) ns = none) : lastAt (members ws) ns = none := by
  rw [lastFile_eq, Option.map_eq_none_iff] at h
  rw [last_eq, h]
  rfl

theorem reaches {ws : Packing} {k : Nat} {ns : List Str} {f : File} (h : Leads (ws.map (fun p => p.1)) k ns f) :
    ∃ m, (f, m) ∈ ws ∧ Reaches (members ws) k ns (m, f.hdr) ∧ f.kind ≠ .hardlink := by
  induction h with
  | here ns f hne hl ht =>
    obtain ⟨m, h1, h2⟩ := last_some hl
    exact ⟨m, h1, .here ns _ hne h2 (fun hc => ht ((kind_hard _).mp hc)), ht⟩
  | link k ns g f hne hl ht hlink hother hr ih =>
    obtain ⟨m, h1, h2, h3⟩ := ih
    obtain ⟨mg, -, h5⟩ := last_some hl
    exact ⟨m, h1, .link k ns (mg, g.hdr) _ hne h5 ((kind_hard _).mpr ht) hlink hother h2, h3⟩

theorem typeOf_kind (k : Kind) (h : k ≠ .hardlink) : typeOf k.char = bits k := by
  cases k with
  | hardlink => exact absurd rfl h
  | _ => decide

/-! ## C190 -/

/-- **C190**: every file that was packed can be opened at its place and every read gives exactly the requested range of its
data, whatever else is opened and read before and in between, also through at most 128 hard links. If a path was packed more than
once, it is the last file. -/
theorem C190_read {esc : Bytes → Str} {ign : Bool} {ws : Packing} {zeros : Nat} {bs : List (List Row)} (hp : Packed ws)
    (hb : Batches esc ign (bytesOf ws zeros) bs) {k : Nat} {ns : List Str} {f : File} (hl : Leads (ws.map (fun p => p.1)) k ns f) (hk : k ≤ 128)
    (hn : ∀ x ∈ ns, IsName x) (before : List Call) :
    ∃ m fh, mopen (mounted esc ign (bytesOf ws zeros) bs) (calls (mounted esc ign (bytesOf ws zeros) bs) (start (bytesOf ws zeros)) before)
        (canonical ns) = (m, .ok fh) ∧
      ∀ (between : List Call) (size offset : Nat),
        (mread (calls (mounted esc ign (bytesOf ws zeros) bs) m between) fh size offset).2 = .ok ((f.data.drop offset).take size) := by
  obtain ⟨m, h1, h2, -⟩ := reaches hl
  have h3 := C181_read (inserted hp hb) h2 hk hn before
  rw [← mounted_eq, archive_eq, data_eq (hp.written _ h1)] at h3
  exact h3

/-- **C190**: size, type, permissions and target of a link are those of the packed file. -/
theorem C190_attributes {esc : Bytes → Str} {ign : Bool} {ws : Packing} {zeros : Nat} {bs : List (List Row)} (hp : Packed ws)
    (hb : Batches esc ign (bytesOf ws zeros) bs) {k : Nat} {ns : List Str} {f : File} (hl : Leads (ws.map (fun p => p.1)) k ns f) (hk : k ≤ 128)
    (hn : ∀ x ∈ ns, IsName x) :
    mgetattr (mounted esc ign (bytesOf ws zeros) bs) (canonical ns) = .ok (f.mode ||| bits f.kind, f.data.length) ∧
      mreadlink (mounted esc ign (bytesOf ws zeros) bs) (canonical ns) = .ok f.link := by
  obtain ⟨m, h1, h2, h3⟩ := reaches hl
  have h4 := C181_attributes (inserted hp hb) h2 hk hn
  rw [← mounted_eq, data_eq (hp.written _ h1), show typeOf f.hdr.type = bits f.kind from typeOf_kind f.kind h3] at h4
  exact h4

/-- **C190**: a folder lists exactly the names of the packed files below it, and no name twice. -/
theorem C190_list {esc : Bytes → Str} {ign : Bool} {ws : Packing} {zeros : Nat} {bs : List (List Row)} (hp : Packed ws)
    (hb : Batches esc ign (bytesOf ws zeros) bs) {ns : List Str} (hn : ∀ x ∈ ns, IsName x) (hv : ∀ x ∈ ns, endsWith dotVersions x = false) :
    (mreaddir (mounted esc ign (bytesOf ws zeros) bs) (canonical ns)).Nodup ∧
      ∀ n, n ∈ mreaddir (mounted esc ign (bytesOf ws zeros) bs) (canonical ns) ↔
        n = ['.'] ∨ n = ['.', '.'] ∨ ∃ p ∈ ws, ∃ rest, place p.1.name = ns ++ n :: rest := by
  rw [mounted_eq]
  refine ⟨C182_nodup (inserted hp hb) hn hv, fun n => (C182_list (inserted hp hb) hn hv n).trans ?_⟩
  constructor
  · rintro (h | h | ⟨p, hm, rest, he⟩)
    · exact .inl h
    · exact .inr (.inl h)
    · obtain ⟨q, hq, rfl⟩ := List.mem_map.mp hm
      exact .inr (.inr ⟨q, hq, rest, he⟩)
  · rintro (h | h | ⟨q, hq, rest, he⟩)
    · exact .inl h
    · exact .inr (.inl h)
    · exact .inr (.inr ⟨_, List.mem_map.mpr ⟨q, hq, rfl⟩, rest, he⟩)

/-- **C190**: a folder that was not packed itself is a folder, and what was not packed does not exist. -/
theorem C190_others {esc : Bytes → Str} {ign : Bool} {ws : Packing} {zeros : Nat} {bs : List (List Row)} (hp : Packed ws)
    (hb : Batches esc ign (bytesOf ws zeros) bs) {ns : List Str} (hn : ∀ x ∈ ns, IsName x) (hv : ∀ x ∈ ns, endsWith dotVersions x = false)
    (hne : ns ≠ []) (hl : lastFile (ws.map (fun p => p.1)) ns = none) :
    (Inside (ws.map (fun p => p.1)) ns → mgetattr (mounted esc ign (bytesOf ws zeros) bs) (canonical ns) = .ok (0o40555, 0)) ∧
    (¬ Inside (ws.map (fun p => p.1)) ns → mgetattr (mounted esc ign (bytesOf ws zeros) bs) (canonical ns) = .error (.os 2)) := by
  rw [mounted_eq, ← inside_iff]
  exact ⟨fun h => C181_folder (inserted hp hb) hn hne (last_none hl) h,
    fun h => (C181_absent (inserted hp hb) hn hne hv (last_none hl) h (start [])).1⟩

/-! ## a concrete archive -/

/-- A time and owners; the owner is too large for octal digits. -/
def someone : Tar.Header.Extra := ⟨2 ^ 40, 1000, 1700000000, [117, 115, 116, 97, 114], [109, 101], []⟩

theorem someone_ok : someone.Ok := ⟨by decide, by decide, by decide⟩

/-- A file with a name of 300 letters. -/
def longFile : File := ⟨.file, List.replicate 300 'n', 0o640, [1, 2, 3], []⟩

/-- A folder below `a`, in the format ustar with the prefix `a`. -/
def folder : File := ⟨.folder, "a/b".toList, 0o755, [], []⟩

/-- A hard link to the long name, whose path is in a PAX record. -/
def hardFile : File := ⟨.hardlink, "b/é".toList, 0o640, [], List.replicate 300 'n'⟩

/-- `13 path=b/é`, where the last letter has two bytes -/
def recordPath : Bytes := [49, 51, 32, 112, 97, 116, 104, 61, 98, 47, 195, 169, 10]

/-- `314 linkpath=nnn...` -/
def recordLink : Bytes := [51, 49, 52, 32, 108, 105, 110, 107, 112, 97, 116, 104, 61] ++ (List.replicate 300 110 ++ [10])

def records : List (Bytes × Bytes × Bytes) :=
  [(recordPath, Tar.Header.keyPath, [98, 47, 195, 169]), (recordLink, Tar.Header.keyLink, List.replicate 300 110)]

def demo : Packing :=
  [(longFile, Tar.Header.gnu someone longFile), (folder, Tar.Header.ustar someone folder "a".toList "b/".toList),
   (hardFile, Tar.Header.pax someone someone hardFile records [120] [98] [110] 0)]

theorem many_encoded (n : Nat) : Tar.Header.encodeStr (List.replicate n 'n') = List.replicate n 110 := by
  induction n with
  | zero => rfl
  | succ n ih =>
    rw [List.replicate_succ, List.replicate_succ, ← ih]
    rfl

theorem many_last (n : Nat) (c : Char) (h : c ≠ 'n') : (List.replicate n 'n').getLast? ≠ some c := by
  intro hc
  have := List.mem_of_getLast? hc
  rw [List.mem_replicate] at this
  exact h this.2

theorem many_free (n : Nat) (c : Char) (h : c ≠ 'n') : c ∉ List.replicate n 'n' := by
  intro hc
  rw [List.mem_replicate] at hc
  exact h hc.2

theorem longFile_ok : longFile.Ok where
  name := ⟨many_free _ _ (by decide), many_last _ _ (by decide)⟩
  link := List.not_mem_nil
  mode := by decide
  data h := absurd rfl h
  size := by decide
  folder h := by cases h

theorem folder_ok : folder.Ok where
  name := by decide
  link := List.not_mem_nil
  mode := by decide
  data _ := rfl
  size := by decide
  folder _ := rfl

theorem hardFile_ok : hardFile.Ok where
  name := by decide
  link := many_free _ _ (by decide)
  mode := by decide
  data _ := rfl
  size := by decide
  folder h := by cases h

theorem hard_pax : Tar.Header.PaxOk hardFile records [120] [98] [110] 0 where
  records := by
    intro p hp
    simp only [records, List.mem_cons, List.not_mem_nil, or_false] at hp
    rcases hp with rfl | rfl
    · exact ⟨⟨[49, 51], rfl, by decide, by decide, by decide, by decide⟩, by decide, by decide⟩
    · refine ⟨⟨[51, 49, 52], rfl, by decide, by decide, by decide, ?_⟩, by decide, by decide⟩
      unfold recordLink
      rw [List.length_append, List.length_append, List.length_replicate]
      decide
  short := by
    show (recordPath ++ (recordLink ++ [])).length < _
    unfold recordLink
    rw [List.append_nil, List.length_append, List.length_append, List.length_append, List.length_replicate]
    decide
  title := by decide
  plain := by decide
  path := .inl ⟨[], _, rfl, by decide⟩
  target := .inl ⟨[(Tar.Header.keyPath, [98, 47, 195, 169])], [], (by
    rw [show hardFile.link = List.replicate 300 'n' from rfl, many_encoded]
    rfl), fun _ h => by cases h⟩
  size := .inr ⟨by
    intro p hp
    simp only [records, Tar.Header.pairs, List.map_cons, List.map_nil, List.mem_cons, List.not_mem_nil, or_false] at hp
    rcases hp with rfl | rfl <;> decide, rfl⟩

theorem demo_packed : Packed demo where
  written := by
    intro p hp
    simp only [demo, List.mem_cons, List.not_mem_nil, or_false] at hp
    rcases hp with rfl | rfl | rfl
    · exact .gnu someone someone_ok longFile
    · exact .ustar someone someone_ok folder _ _ ⟨by decide, by decide, by decide, by decide, by decide⟩
    · exact .pax someone someone someone_ok someone_ok hardFile records _ _ _ _ hard_pax
  ok := by
    intro p hp
    simp only [demo, List.mem_cons, List.not_mem_nil, or_false] at hp
    rcases hp with rfl | rfl | rfl
    · exact longFile_ok
    · exact folder_ok
    · exact hardFile_ok
  names := by
    intro p hp
    simp only [demo, List.mem_cons, List.not_mem_nil, or_false] at hp
    rcases hp with rfl | rfl | rfl
    · refine ⟨?_, by unfold Storable; decide⟩
      unfold Storable
      rw [show longFile.written = List.replicate 300 'n' from rfl, many_encoded, List.length_replicate]
      decide
    · exact ⟨by unfold Storable; decide, by unfold Storable; decide⟩
    · refine ⟨by unfold Storable; decide, ?_⟩
      unfold Storable
      rw [show hardFile.link = List.replicate 300 'n' from rfl, many_encoded, List.length_replicate]
      decide
  tree := by
    intro p hp hi
    have hlong : place longFile.name = [List.replicate 300 'n'] := by decide +kernel
    have hfold : place folder.name = [['a'], ['b']] := by decide
    have hhard : place hardFile.name = [['b'], ['é']] := by decide
    have hin : ∀ f ∈ demo.map (fun q => q.1), place f.name = [List.replicate 300 'n'] ∨ place f.name = [['a'], ['b']] ∨
        place f.name = [['b'], ['é']] := by
      intro f hf
      simp only [demo, List.map_cons, List.map_nil, List.mem_cons, List.not_mem_nil, or_false] at hf
      rcases hf with rfl | rfl | rfl
      · exact .inl hlong
      · exact .inr (.inl hfold)
      · exact .inr (.inr hhard)
    obtain ⟨f, hf, n, rest, he⟩ := hi
    have hp2 := hin p.1 (List.mem_map.mpr ⟨p, hp, rfl⟩)
    have hf2 := hin f hf
    exfalso
    have hne : List.replicate 300 'n' ≠ ['a'] ∧ List.replicate 300 'n' ≠ ['b'] := by
      constructor <;> intro h <;> have := congrArg List.length h <;> rw [List.length_replicate] at this <;> simp at this
    generalize List.replicate 300 'n' = z at hne hp2 hf2
    rcases hp2 with h1 | h1 | h1 <;> rcases hf2 with h2 | h2 | h2 <;> rw [h1, h2] at he <;> simp at he
    · exact hne.1 he.1.symm
    · exact hne.2 he.1.symm

/-- The rows are inserted in one batch. -/
def demoBatches (esc : Bytes → Str) : List (List Row) := [toRows (newIndex (codec esc) (plain false) 0 (bytesOf demo 1024))]

theorem demo_batches (esc : Bytes → Str) : Batches esc false (bytesOf demo 1024) (demoBatches esc) := by
  unfold Batches demoBatches
  simp

theorem demo_leads : Leads (demo.map (fun p => p.1)) 1 [['b'], ['é']] longFile := by
  have hlong : place longFile.name = [List.replicate 300 'n'] := by decide +kernel
  have hfold : place folder.name = [['a'], ['b']] := by decide
  have hhard : place hardFile.name = [['b'], ['é']] := by decide
  have hne : List.replicate 300 'n' ≠ ['b'] := by
    intro h; have := congrArg List.length h; rw [List.length_replicate] at this; simp at this
  have hlink : place hardFile.link = [List.replicate 300 'n'] := hlong
  refine .link 0 _ hardFile longFile (by decide) ?_ rfl (by decide) ?_ ?_
  · unfold lastFile
    simp only [demo, List.map_cons, List.map_nil, List.filter_cons, List.filter_nil, hlong, hfold, hhard]
    generalize List.replicate 300 'n' = z at hne
    simp
  · rw [hlink]
    intro h
    exact absurd (congrArg List.length h) (show ¬ 1 = 2 by decide)
  · rw [hlink]
    refine .here _ longFile (List.cons_ne_nil _ _) ?_ (by decide)
    unfold lastFile
    simp only [demo, List.map_cons, List.map_nil, List.filter_cons, List.filter_nil, hlong, hfold, hhard]
    generalize List.replicate 300 'n' = z at hne
    simp

/-- C190: the hard link with the PAX record gives the data of the file with the long name of GNU tar. -/
example (esc : Bytes → Str) : ∃ m fh, mopen (mounted esc false (bytesOf demo 1024) (demoBatches esc))
      (calls (mounted esc false (bytesOf demo 1024) (demoBatches esc)) (start (bytesOf demo 1024)) [.open "/b/é".toList, .read 1 2 0])
      "/b/é".toList = (m, .ok fh) ∧
    (mread (calls (mounted esc false (bytesOf demo 1024) (demoBatches esc)) m [.read fh 2 0]) fh 5 1).2 = .ok [2, 3] := by
  obtain ⟨m, fh, h1, h2⟩ := C190_read demo_packed (demo_batches esc) demo_leads (by decide) (by unfold IsName; decide)
    [.open "/b/é".toList, .read 1 2 0]
  exact ⟨m, fh, h1, h2 [.read fh 2 0] 5 1⟩

/-- C190: attributes. -/
example (esc : Bytes → Str) : mgetattr (mounted esc false (bytesOf demo 1024) (demoBatches esc)) "/b/é".toList = .ok (0o100640, 3) :=
  (C190_attributes demo_packed (demo_batches esc) demo_leads (by decide) (by unfold IsName; decide)).1

/-- C190: the root lists the folder `a`, which was not packed itself. -/
example (esc : Bytes → Str) : ['a'] ∈ mreaddir (mounted esc false (bytesOf demo 1024) (demoBatches esc)) ['/'] :=
  ((C190_list demo_packed (demo_batches esc) (ns := []) (by simp) (by simp)).2 ['a']).mpr
    (.inr (.inr ⟨_, List.mem_cons_of_mem _ List.mem_cons_self, [['b']], by decide⟩))

/-- C190: it is shown as a folder. -/
example (esc : Bytes → Str) : mgetattr (mounted esc false (bytesOf demo 1024) (demoBatches esc)) "/a".toList = .ok (0o40555, 0) := by
  have hlong : place longFile.name = [List.replicate 300 'n'] := by decide +kernel
  have hfold : place folder.name = [['a'], ['b']] := by decide
  have hhard : place hardFile.name = [['b'], ['é']] := by decide
  have hne : List.replicate 300 'n' ≠ ['a'] := by
    intro h; have := congrArg List.length h; rw [List.length_replicate] at this; simp at this
  refine (C190_others demo_packed (demo_batches esc) (ns := [['a']]) (by unfold IsName; decide) (by decide) (by decide) ?_).1
    ⟨folder, by simp [demo], ['b'], [], hfold⟩
  unfold lastFile
  simp only [demo, List.map_cons, List.map_nil, List.filter_cons, List.filter_nil, hlong, hfold, hhard]
  generalize List.replicate 300 'n' = z at hne
  simp [hne]

end Verif.Fuse.TarFiles
