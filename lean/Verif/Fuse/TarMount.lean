import Verif.Tar.Index
import Verif.Index.Rows
import Verif.Compose.Versioning
import Verif.Stencil.Props

/-!
# C181, C182: a mounted TAR archive, from its bytes to the answers of the file system

The pieces that are modelled elsewhere are put together: iteration and rows (`Verif.Tar.Scan`, `Verif.Tar.Index`), the
index (`Verif.Index.Build`, `Verif.Index.Query`), the versions layer (`Verif.Compose.Versioning`) and the views of the
archive that are opened (`Verif.Stencil.Model`), with the FUSE operations of a mount without write overlay on top
(FuseMount.py:655-833). This is what is mounted for one uncompressed archive without recursive mounting
(FuseMount.py:225-245): `SQLiteIndexedTar` below `FileVersionLayer`. FUSE calls one operation at a time because it is
started with `nothreads` (actions.py:310).

Not modelled here: paths of the control interface, the write overlay, sparse members (types `S` and PAX sparse), the time and the owners.
-/

namespace Verif.Fuse.TarMount

open Verif.Py Verif.Index
open Verif.Tar (Codec Hdr Member Opts IRow Bytes Entry archiveOf newIndex entriesAt)
open Verif.Compose (Source Listing vlookup vlist dotVersions)
open Verif.Stencil (Raw Store)

/-! ## model -/

/-- The row of the index for a row of the archive (tar.py:230-258, SQLiteIndex.py:1060-1090). The columns that are only copied are
referred to by the number of the row, see `column`. -/
def toRow (number : Nat) (r : IRow) : Row := (⟨r.path, r.name, r.oh⟩, ⟨r.offset, r.mode, r.generated, number⟩)

/-- All rows (tar.py:230-258). -/
def toRows (rs : List IRow) : List Row := rs.mapIdx (fun k r => toRow (k + 1) r)

/-- The columns that are only copied (create-index-tables.sql, SQLiteIndex.py:781-799); the rows that the index adds itself have the number 0
(SQLiteIndex.py:706-716). -/
def column (rs : List IRow) (number : Nat) : Option IRow := if number = 0 then none else rs[number - 1]?

/-- The column size (SQLiteIndex.py:781-799). -/
def sizeAt (rs : List IRow) (number : Nat) : Nat := ((column rs number).map (·.size)).getD 0

/-- The column linkname (SQLiteIndex.py:781-799). -/
def linkAt (rs : List IRow) (number : Nat) : Str := ((column rs number).map (·.link)).getD []

/-- `_row_to_file_info` (SQLiteIndex.py:781-799). `rest` is the size; of the user data only the offset is needed to open a member. -/
def toInfo (rs : List IRow) (f : Index.FileInfo) : Compose.FileInfo :=
  ⟨f.info.mode, linkAt rs f.info.rest, sizeAt rs f.info.rest, [.own f.info.offset.toNat]⟩

/-- `SQLiteIndexedTar` as a mount source (SQLiteIndexMountSource.py:273-292): the methods of the index. `bs` are the batches in which
the rows were inserted. -/
def tarSource (rs : List IRow) (bs : List (List Row)) : Source where
  id := 0
  immutable := true
  lookup path version := (Index.lookup (build bs) path version).map (toInfo rs)
  versions path := (Index.versions (build bs) path).length
  list path := (Index.list (build bs) path).map (fun d => .dict (d.map (fun p => (p.1, toInfo rs p.2))))
  listMode path := (Index.listMode (build bs) path).map .dict

/-- The mount point of every entry of an archive is its root (MountSource.py:96-101). -/
def mp (_ : Compose.FileInfo) : Str := ['/']

/-- The state of the mount (FuseMount.py:655-833): the file objects (number 0 is `tarFileObject`), `openedFiles` and `lastFileHandle`. -/
structure Mount where
  store : Store UInt8
  opened : Dict Nat Raw
  last : Nat

/-- `_lookup` without overlay (FuseMount.py:655-673). -/
def mlookup (s : Source) (path : Str) : Except PyErr Compose.FileInfo :=
  match vlookup s mp path 0 with
  | .error e => .error e
  | .ok none => .error (.os 2)
  | .ok (some i) => .ok i

/-- `FileVersionLayer.open` (versioning.py:232-243) and `SQLiteIndexedTar.open` (tar.py:1023-1030) for a member that is not sparse. -/
def openView (i : Compose.FileInfo) : Except PyErr Raw :=
  match i.userdata with
  | .file :: .own offset :: _ => Raw.init [(0, (offset : Int), (i.rest : Int))]
  | _ => .error .fileNotFound

/-- `_add_new_handle` (FuseMount.py:648-653). -/
def addHandle (m : Mount) (r : Raw) : Mount := ⟨m.store, m.opened.set (m.last + 1) r, m.last + 1⟩

/-- `open` (FuseMount.py:776-791). -/
def mopen (s : Source) (m : Mount) (path : Str) : Mount × Except PyErr Nat :=
  match mlookup s path with
  | .error e => (m, .error e)
  | .ok i =>
    match openView i with
    | .error _ => (m, .error (.os 5))
    | .ok r => (addHandle m r, .ok (m.last + 1))

/-- The state after a call changed the file objects and a view (FuseMount.py:808-818). -/
def update (m : Mount) (fh : Nat) (store : Store UInt8) (r : Raw) : Mount := ⟨store, m.opened.set fh r, m.last⟩

/-- `openedFile.read(size)` (FuseMount.py:816-817). -/
def readView (m : Mount) (fh : Nat) (r : Raw) (size : Nat) : Mount × Except PyErr Bytes :=
  (update m fh (r.read m.store size).1 (r.read m.store size).2.1, (r.read m.store size).2.2)

/-- `openedFile.seek(offset)`, then `read` (FuseMount.py:815-817). -/
def seekRead (m : Mount) (fh : Nat) (r : Raw) (size offset : Nat) : Mount × Except PyErr Bytes :=
  match r.seek (offset : Int) .set with
  | (r', .error e) => (update m fh m.store r', .error e)
  | (r', .ok _) => readView m fh r' size

/-- `read` (FuseMount.py:808-833). Reading with a handle that does not exist, "this should never happen", is not modelled. -/
def mread (m : Mount) (fh size offset : Nat) : Mount × Except PyErr Bytes :=
  match m.opened.get? fh with
  | none => (m, .error .unsupported)
  | some r => seekRead m fh r size offset

/-- The names `readdir` gives (FuseMount.py:739-767). `FileVersionLayer.list_mode` finds the same names as `list` (versioning.py:152-188). -/
def mreaddir (s : Source) (path : Str) : List Str :=
  ['.'] :: ['.', '.'] :: ((vlist s path).map (fun l => l.keys)).getD []

/-- `st_mode` and `st_size` of `getattr` (FuseMount.py:710-737). -/
def mgetattr (s : Source) (path : Str) : Except PyErr (Nat × Nat) := (mlookup s path).map (fun i => (i.mode, i.rest))

/-- `readlink` (FuseMount.py:769-770). -/
def mreadlink (s : Source) (path : Str) : Except PyErr Str := (mlookup s path).map (fun i => i.link)

/-- Calls of the kernel that change the state (FuseMount.py:776-833). Closing a view does nothing to the file objects, and `release`
does not remove the handle. -/
inductive Call where
  | open (path : Str)
  | read (fh size offset : Nat)
  | release (fh : Nat)
  deriving DecidableEq, Repr

/-- One call (FuseMount.py:776-833). -/
def call (s : Source) (m : Mount) : Call → Mount
  | .open path => (mopen s m path).1
  | .read fh size offset => (mread m fh size offset).1
  | .release _ => m

/-- Any calls (FuseMount.py:776-833). -/
def calls (s : Source) (m : Mount) (cs : List Call) : Mount := cs.foldl (call s) m

/-- A new mount of the archive (FuseMount.py:120-246). -/
def start (archive : Bytes) : Mount := ⟨fun _ => ⟨archive, 0, false⟩, [], 0⟩

/-! ## specification -/

/-- The place in the tree that a path written in an archive means. -/
def place (name : Str) : List Str := walk [] (split '/' name)

/-- The last member with this place. -/
def lastAt (ms : List (Member × Hdr)) (ns : List Str) : Option (Member × Hdr) :=
  (ms.filter (fun p => decide (place p.2.name = ns))).getLast?

/-- There is a member somewhere below the folder `ns`. -/
def Below (ms : List (Member × Hdr)) (ns : List Str) : Prop := ∃ p ∈ ms, ∃ n rest, place p.2.name = ns ++ n :: rest

/-- An archive of files, folders, symbolic and hard links in which only folders have members below them. -/
structure Clean (c : Codec) (ms : List (Member × Hdr)) : Prop where
  ok : ∀ p ∈ ms, p.1.Ok c p.2
  kinds : ∀ p ∈ ms, p.2.type ∈ ['0', '\x00', '7', '5', '2', '1']
  modes : ∀ p ∈ ms, p.2.mode < 4096
  links : ∀ p ∈ ms, p.2.type = '5' → p.2.link = []
  tree : ∀ p ∈ ms, Below ms (place p.2.name) → p.2.type = '5'

/-- The bits of the file type. -/
def typeOf (t : Char) : Nat := if t = '5' then 0o040000 else if t = '2' then 0o120000 else if t = '1' then 0 else 0o100000

/-- Following `k` hard links from the place `ns` leads to the member `p`, which is not a hard link. -/
inductive Reaches (ms : List (Member × Hdr)) : Nat → List Str → Member × Hdr → Prop where
  | here (ns : List Str) (p : Member × Hdr) (hne : ns ≠ []) (hl : lastAt ms ns = some p) (ht : p.2.type ≠ '1') : Reaches ms 0 ns p
  | link (k : Nat) (ns : List Str) (q p : Member × Hdr) (hne : ns ≠ []) (hl : lastAt ms ns = some q) (ht : q.2.type = '1')
      (hlink : q.2.link ≠ []) (hother : place q.2.link ≠ ns) (hr : Reaches ms k (place q.2.link) p) : Reaches ms (k + 1) ns p

/-! ## lemmas: the rows -/

theorem place_names (name : Str) : ∀ n ∈ place name, IsName n := (C14_canonical name).2

theorem normpath_slashes (name : Str) (b : Bool) :
    normpath ('/' :: name ++ (if b then ['/'] else [])) = canonical (place name) := by
  rw [(C14_canonical _).1]
  congr 1
  have hsplit : ∀ s : Str, walk [] (split '/' ('/' :: s)) = walk [] (split '/' s) := by
    intro s; rw [split_cons_eq]; simp [walk]
  cases b with
  | false => simp only [Bool.false_eq_true, if_false, List.append_nil]; exact hsplit name
  | true =>
    simp only [if_true, List.cons_append, hsplit]
    have h1 : split '/' (name ++ ['/']) = split '/' name ++ [[]] := by
      have := join_split '/' name
      have h2 : name ++ ['/'] = join '/' (split '/' name ++ [[]]) := by
        rw [Compose.join_append_single _ _ (split_ne_nil '/' name), this]
      conv => lhs; rw [h2]
      rw [split_join '/' _ (by simp)]
      intro p hp
      rcases List.mem_append.mp hp with hp | hp
      · exact not_mem_of_mem_split '/' _ p hp
      · rw [List.mem_singleton] at hp; subst hp; simp
    rw [h1]
    have h2 : ∀ (l : List Str) (a : List Str), walk a (l ++ [[]]) = walk a l := by
      intro l
      induction l with
      | nil => intro a; simp [walk]
      | cons x l ih => intro a; simp only [List.cons_append, walk]; exact ih _
    exact h2 _ _

/-- Options without `--transform`; the others do not matter without recursive mounting. -/
def plain (ignoreZeros : Bool) : Opts := ⟨ignoreZeros, false, id, none⟩

/-- The rows of the archive. -/
def rowsOf (c : Codec) (ign : Bool) (ms : List (Member × Hdr)) (n : Nat) : List IRow := newIndex c (plain ign) 0 (archiveOf ms n)

theorem not_D {c : Codec} {ms : List (Member × Hdr)} (h : Clean c ms) : ∀ p ∈ ms, p.2.type ≠ 'D' := by
  intro p hp he
  have := h.kinds p hp
  rw [he] at this
  exact absurd this (by decide)

theorem rowsOf_eq {c : Codec} {ms : List (Member × Hdr)} (h : Clean c ms) (ign : Bool) (n : Nat) :
    rowsOf c ign ms n = (entriesAt 0 ms).map (Tar.rowOf (plain ign) 0 [] 0) := by
  unfold rowsOf newIndex
  rw [Tar.flat_rows c (plain ign) ms n 0 0 [] _ h.ok]
  have : ∀ (ms : List (Member × Hdr)) (off : Nat), (∀ p ∈ ms, p.2.type ≠ 'D') →
      (entriesAt off ms).flatMap (Tar.processTarInfo (plain ign) false 0 [] 0) = (entriesAt off ms).map (Tar.rowOf (plain ign) 0 [] 0) := by
    intro ms
    induction ms with
    | nil => intro off _; rfl
    | cons p ms ih =>
      intro off hD
      obtain ⟨m, h⟩ := p
      unfold entriesAt
      rw [List.flatMap_cons, List.map_cons, ih _ (fun p hp => hD p (List.mem_cons_of_mem _ hp))]
      have ht : h.type ≠ 'D' := hD (m, h) (by simp)
      unfold Tar.processTarInfo Tar.mightBeTar
      simp [ht]
  exact this ms 0 (not_D h)

/-- Where the header of member number `k` is. -/
def headerOf (ms : List (Member × Hdr)) (k : Nat) : Nat := (Tar.encode ((ms.take k).map (·.1))).length

/-- What is known about the row of member number `k`. -/
structure IsRow (archive : Bytes) (ms : List (Member × Hdr)) (k : Nat) (p : Member × Hdr) (r : IRow) : Prop where
  place : (r.path, r.name) = splitPath (canonical (place p.2.name))
  oh : r.oh = headerOf ms k
  size : r.size = p.1.data.length
  mode : r.mode = Tar.fullMode p.2.type p.2.mode
  link : r.link = p.2.link
  data : Tar.readAt archive r.offset r.size = p.1.data
  inside : r.offset + r.size ≤ archive.length

theorem row_of {c : Codec} {ms : List (Member × Hdr)} (h : Clean c ms) (ign : Bool) (n : Nat) (k : Nat) (p : Member × Hdr)
    (hk : ms[k]? = some p) : ∃ r, (rowsOf c ign ms n)[k]? = some r ∧ IsRow (archiveOf ms n) ms k p r := by
  obtain ⟨m, hd⟩ := p
  obtain ⟨e, h1, h2, h3, h4, h5, h6⟩ := Tar.entriesAt_spec c ms [] (List.replicate n 0) k m hd h.ok hk
  simp only [List.nil_append, List.length_nil] at h1 h3 h5 h6
  refine ⟨Tar.rowOf (plain ign) 0 [] 0 e, by rw [rowsOf_eq h, List.getElem?_map, h1]; rfl, ?_⟩
  have hsz := (h.ok _ (List.mem_of_getElem? hk)).size
  simp only at hsz
  constructor
  · unfold Tar.rowOf plain
    simp only [List.nil_append, id]
    rw [h2]
    have := normpath_slashes hd.name (Tar.isDir hd.type)
    simp only [List.cons_append] at this ⊢
    rw [this]
    rfl
  · unfold Tar.rowOf; simp only [Nat.zero_add]; exact h3
  · unfold Tar.rowOf; simp only; rw [h2, hsz]
  · unfold Tar.rowOf; simp only; rw [h2]
  · unfold Tar.rowOf; simp only; rw [h2]
  · unfold Tar.rowOf; simp only [Nat.zero_add]; rw [h2]; exact h5
  · unfold Tar.rowOf; simp only [Nat.zero_add]; rw [h2]; unfold archiveOf; rw [List.length_append]; omega

theorem rowsOf_length {c : Codec} {ms : List (Member × Hdr)} (h : Clean c ms) (ign : Bool) (n : Nat) : (rowsOf c ign ms n).length = ms.length := by
  rw [rowsOf_eq h, List.length_map]
  have : ∀ (ms : List (Member × Hdr)) (o : Nat), (entriesAt o ms).length = ms.length := by
    intro ms
    induction ms with
    | nil => intro o; rfl
    | cons p ms ih => intro o; obtain ⟨m, h⟩ := p; simp [entriesAt, ih]
  exact this ms 0

theorem headerOf_lt {c : Codec} {ms : List (Member × Hdr)} (h : ∀ p ∈ ms, p.1.Ok c p.2) {i j : Nat} (hij : i < j) (hj : j ≤ ms.length) :
    headerOf ms i < headerOf ms j := by
  unfold headerOf
  have hi : i < ms.length := by omega
  have e : ms.take j = ms.take i ++ ms[i] :: (ms.take j).drop (i + 1) := by
    conv => lhs; rw [← List.take_append_drop i (ms.take j), List.take_take, Nat.min_eq_left (by omega)]
    congr 1
    rw [List.drop_eq_getElem_cons (by simp; omega)]
    simp
  rw [e]
  have := Tar.head_pos (h ms[i] (List.getElem_mem hi))
  simp only [List.map_append, List.map_cons, Tar.encode, List.flatMap_append, List.flatMap_cons, Tar.Member.encode, List.length_append]
  omega

/-- Rows and members. -/
theorem mem_toRows {c : Codec} {ms : List (Member × Hdr)} (h : Clean c ms) (ign : Bool) (n : Nat) (q : Row) (hq : q ∈ toRows (rowsOf c ign ms n)) :
    ∃ k p r, ms[k]? = some p ∧ (rowsOf c ign ms n)[k]? = some r ∧ IsRow (archiveOf ms n) ms k p r ∧ q = toRow (k + 1) r := by
  obtain ⟨k, hk⟩ := List.getElem?_of_mem hq
  unfold toRows at hk
  rw [List.getElem?_mapIdx, Option.map_eq_some_iff] at hk
  obtain ⟨r, hr, rfl⟩ := hk
  have hlt : k < ms.length := by
    rw [← rowsOf_length h ign n]
    exact (List.getElem?_eq_some_iff.mp hr).1
  obtain ⟨r', hr', hi⟩ := row_of h ign n k ms[k] (List.getElem?_eq_getElem hlt)
  rw [hr] at hr'
  cases hr'
  exact ⟨k, ms[k], r, List.getElem?_eq_getElem hlt, hr, hi, rfl⟩

/-- The row of a member is not replaced. -/
theorem lastRow_member {c : Codec} {ms : List (Member × Hdr)} (h : Clean c ms) (ign : Bool) (n k : Nat) (p : Member × Hdr) (r : IRow)
    (hk : ms[k]? = some p) (hr : (rowsOf c ign ms n)[k]? = some r) (hi : IsRow (archiveOf ms n) ms k p r) :
    LastRow (toRows (rowsOf c ign ms n)) (toRow (k + 1) r) := by
  have hlen : (toRows (rowsOf c ign ms n)).length = ms.length := by unfold toRows; rw [List.length_mapIdx, rowsOf_length h]
  have hklt : k < ms.length := (List.getElem?_eq_some_iff.mp hk).1
  have hget : (toRows (rowsOf c ign ms n))[k]? = some (toRow (k + 1) r) := by
    unfold toRows; rw [List.getElem?_mapIdx, hr]; rfl
  refine ⟨(toRows (rowsOf c ign ms n)).take k, (toRows (rowsOf c ign ms n)).drop (k + 1), ?_, ?_⟩
  · conv => lhs; rw [← List.take_append_drop k (toRows (rowsOf c ign ms n))]
    congr 1
    have hk' : k < (toRows (rowsOf c ign ms n)).length := by omega
    rw [List.drop_eq_getElem_cons hk']
    congr 1
    rw [List.getElem?_eq_getElem hk'] at hget
    exact Option.some.inj hget
  · intro q hq hkey
    obtain ⟨j, hj⟩ := List.getElem?_of_mem hq
    rw [List.getElem?_drop] at hj
    unfold toRows at hj
    rw [List.getElem?_mapIdx, Option.map_eq_some_iff] at hj
    obtain ⟨r', hr', rfl⟩ := hj
    have hlt : k + 1 + j < ms.length := by
      rw [← rowsOf_length h ign n]; exact (List.getElem?_eq_some_iff.mp hr').1
    obtain ⟨r'', hr'', hi'⟩ := row_of h ign n (k + 1 + j) ms[k + 1 + j] (List.getElem?_eq_getElem hlt)
    rw [hr'] at hr''
    cases hr''
    have h1 := congrArg Key.oh hkey
    simp only [toRow] at h1
    have h2 := headerOf_lt h.ok (show k < k + 1 + j by omega) (Nat.le_of_lt hlt)
    rw [hi.oh, hi'.oh] at h1
    omega

/-! ## lemmas: the table -/

theorem canonical_inj {a b : List Str} (ha : ∀ x ∈ a, IsName x) (hb : ∀ x ∈ b, IsName x) (h : canonical a = canonical b) : a = b := by
  rw [← split_canonical a ha, h, split_canonical b hb]

theorem folderPath_inj {a b : List Str} (ha : ∀ n ∈ a, IsName n) (hb : ∀ n ∈ b, IsName n) (h : folderPath a = folderPath b) : a = b := by
  have h1 := split_folderPath a ha
  rw [h, split_folderPath b hb] at h1
  exact (List.cons.inj h1).2.symm

theorem place_of_row {pl : List Str} (hpl : ∀ x ∈ pl, IsName x) {path name : Str} (hr : (path, name) = splitPath (canonical pl))
    {ns : List Str} {n : Str} (hn : ∀ x ∈ ns ++ [n], IsName x) (h1 : path = folderPath ns) (h2 : name = n) : pl = ns ++ [n] := by
  subst h1 h2
  have := splitPath_inj (p := canonical pl) (ns := ns) (n := name) (by rw [C14_fixed pl hpl]; exact hr.symm)
  rw [C14_fixed pl hpl] at this
  exact canonical_inj hpl hn this

theorem row_of_place {ns : List Str} {n path name : Str} (hn : ∀ x ∈ ns ++ [n], IsName x)
    (hr : (path, name) = splitPath (canonical (ns ++ [n]))) : path = folderPath ns ∧ name = n := by
  rw [splitPath_canonical hn] at hr
  exact Prod.mk.inj hr

/-- The folder of a row. -/
theorem path_of_row {pl : List Str} (hpl : ∀ x ∈ pl, IsName x) {path name : Str} (hr : (path, name) = splitPath (canonical pl)) :
    path = folderPath pl.dropLast := by
  rcases List.eq_nil_or_concat pl with rfl | ⟨a, x, rfl⟩
  · exact (Prod.mk.inj hr).1
  · rw [List.concat_eq_append] at hr hpl ⊢
    rw [List.dropLast_concat]
    exact (row_of_place hpl hr).1

/-- The parent folders that are added for a row are those of its place. -/
theorem ancestor_iff {pl : List Str} (hpl : ∀ x ∈ pl, IsName x) {path name : Str} (hr : (path, name) = splitPath (canonical pl))
    {ns : List Str} {n : Str} (hn : ∀ x ∈ ns ++ [n], IsName x) :
    (folderPath ns, n) ∈ ancestorPairs path ↔ ∃ x rest, pl = ns ++ n :: x :: rest := by
  have hd : ∀ x ∈ pl.dropLast, IsName x := fun x hx => hpl x (List.dropLast_subset _ hx)
  rw [path_of_row hpl hr, mem_ancestorPairs _ hd]
  constructor
  · rintro ⟨k, hk, he⟩
    obtain ⟨h1, h2⟩ := Prod.mk.inj he
    have h3 := folderPath_inj (fun x hx => hn x (by simp [hx])) (fun x hx => hd x (List.mem_of_mem_take hx)) h1
    rw [List.length_dropLast] at hk
    have h4 : pl.dropLast[k] = pl[k] := by rw [List.getElem_dropLast]
    have h5 : (pl.dropLast).take k = pl.take k := by
      rw [List.dropLast_eq_take, List.take_take, Nat.min_eq_left (by omega)]
    rw [h4] at h2
    rw [h5] at h3
    refine ⟨pl[k + 1], pl.drop (k + 2), ?_⟩
    conv => lhs; rw [← List.take_append_drop k pl]
    rw [List.drop_eq_getElem_cons (by omega), List.drop_eq_getElem_cons (by omega), h3, h2]
  · rintro ⟨x, rest, rfl⟩
    have e : (ns ++ n :: x :: rest).dropLast = ns ++ n :: (x :: rest).dropLast := by
      rw [List.dropLast_append_of_ne_nil (by simp), List.dropLast_cons_of_ne_nil (by simp)]
    refine ⟨ns.length, by rw [e]; simp, ?_⟩
    simp only [e]
    simp

/-- Where generated rows come from. -/
theorem generated_row {bs : List (List Row)} {x : Row} (hx : x ∈ (insertAll bs).generated) :
    (∃ q ∈ bs.flatten, (x.1.path, x.1.name) ∈ ancestorPairs q.1.path) ∧
    (∀ r ∈ (insertAll bs).files, dirBit r.2.mode = true → (r.1.path, r.1.name) ≠ (x.1.path, x.1.name)) ∧
    x.2.mode = 0o40555 ∧ x.2.rest = 0 := by
  unfold DB.generated at hx
  rw [List.mem_map] at hx
  obtain ⟨q, hq, rfl⟩ := hx
  rw [List.mem_filter] at hq
  obtain ⟨h1, h2⟩ := hq
  refine ⟨?_, fun r hr hd => (of_decide_eq_true h2) r hr hd, rfl, rfl⟩
  have inv := insertAll_inv bs
  have := (inv.parents q.1).mp (by rw [Dict.keys, List.mem_map]; exact ⟨q, h1, rfl⟩)
  exact this

theorem dirBit_folder (mode : Nat) : dirBit (Tar.fullMode '5' mode) = true := by
  unfold dirBit Tar.fullMode
  rw [if_pos (show Tar.isDir '5' = true from rfl)]
  simp only [Nat.testBit_or]
  have : Nat.testBit 0o040000 14 = true := by decide
  rw [this]
  simp

/-- What the table holds for a mount. -/
structure Inserted (c : Codec) (ign : Bool) (ms : List (Member × Hdr)) (n : Nat) (bs : List (List Row)) : Prop where
  clean : Clean c ms
  rows : bs.flatten = toRows (rowsOf c ign ms n)

theorem file_row {c : Codec} {ign : Bool} {ms : List (Member × Hdr)} {z : Nat} {bs : List (List Row)} (hI : Inserted c ign ms z bs)
    {k : Nat} {p : Member × Hdr} {r : IRow} (hk : ms[k]? = some p) (hr : (rowsOf c ign ms z)[k]? = some r)
    (hi : IsRow (archiveOf ms z) ms k p r) : toRow (k + 1) r ∈ (insertAll bs).files ∧ toRow (k + 1) r ∈ build bs := by
  have hl := lastRow_member hI.clean ign z k p r hk hr hi
  rw [← hI.rows] at hl
  refine ⟨?_, lastRow_batches hl⟩
  rw [(insertAll_inv bs).files]
  exact Dict.mem_of_get? _ ((lastRow_get bs.flatten _).mp hl)

/-- A row that is generated for a place with members below it is there only if no member has this place. -/
theorem generated_free {c : Codec} {ign : Bool} {ms : List (Member × Hdr)} {z : Nat} {bs : List (List Row)} (hI : Inserted c ign ms z bs)
    {ns : List Str} {n : Str} (hn : ∀ x ∈ ns ++ [n], IsName x) {x : Row} (hx : x ∈ (insertAll bs).generated)
    (h1 : x.1.path = folderPath ns) (h2 : x.1.name = n) : Below ms (ns ++ [n]) ∧ ∀ p ∈ ms, place p.2.name ≠ ns ++ [n] := by
  obtain ⟨⟨q, hq, ha⟩, hfree, -, -⟩ := generated_row hx
  rw [hI.rows] at hq
  obtain ⟨k, p, r, hk, hr, hi, rfl⟩ := mem_toRows hI.clean ign z q hq
  rw [h1, h2] at ha
  obtain ⟨y, rest, he⟩ := (ancestor_iff (place_names _) hi.place hn).mp ha
  have hb : Below ms (ns ++ [n]) := ⟨p, List.mem_of_getElem? hk, y, rest, by rw [he]; simp⟩
  refine ⟨hb, ?_⟩
  intro p' hp' hpl
  obtain ⟨j, hj⟩ := List.getElem?_of_mem hp'
  obtain ⟨r', hr', hi'⟩ := row_of hI.clean ign z j p' hj
  have ht : p'.2.type = '5' := hI.clean.tree p' hp' (by rw [hpl]; exact hb)
  have hf := (file_row hI hj hr' hi').1
  have hm : dirBit (toRow (j + 1) r').2.mode = true := by
    show dirBit r'.mode = true
    rw [hi'.mode, ht]
    exact dirBit_folder _
  refine hfree _ hf hm ?_
  have h3 := hi'.place
  rw [hpl] at h3
  obtain ⟨e1, e2⟩ := row_of_place hn h3
  show (r'.path, r'.name) = _
  rw [e1, e2, h1, h2]

theorem lookup_zero {t : Table} (ht : t.keys.Nodup) {ns : List Str} {n : Str} (hn : ∀ x ∈ ns ++ [n], IsName x) {path : Str}
    (hp : queryNormpath path = canonical (ns ++ [n])) :
    Index.lookup t path 0 = ((orderAsc (rowsAt t (folderPath ns) n)).getLast?).map toFileInfo := by
  rw [C15_lookup t ht ns n hn path hp _ (entries_exist ht _ _) 0]
  simp only [ge_iff_le, Int.reduceLE, if_false, Int.neg_zero, Int.toNat_zero, ← List.head?_eq_getElem?, List.head?_reverse]

theorem lastAt_spec {ms : List (Member × Hdr)} {ns : List Str} {p : Member × Hdr} (h : lastAt ms ns = some p) :
    ∃ k, ms[k]? = some p ∧ place p.2.name = ns ∧ ∀ (j : Nat) (q : Member × Hdr), k < j → ms[j]? = some q → place q.2.name ≠ ns := by
  obtain ⟨before, after, he, h1, h2⟩ := last_of_getLast? h
  clear h
  subst he
  refine ⟨before.length, by simp, by simpa using h1, ?_⟩
  intro j q hj hq hpl
  rw [List.getElem?_append_right (by omega)] at hq
  obtain ⟨i, hi⟩ : ∃ i, j - before.length = i + 1 := ⟨j - before.length - 1, by omega⟩
  rw [hi, List.getElem?_cons_succ] at hq
  have := h2 q (List.mem_of_getElem? hq)
  simp [hpl] at this

theorem lastAt_none {ms : List (Member × Hdr)} {ns : List Str} (h : lastAt ms ns = none) : ∀ p ∈ ms, place p.2.name ≠ ns := by
  intro p hp he
  unfold lastAt at h
  rw [List.getLast?_eq_none_iff, List.filter_eq_nil_iff] at h
  exact h p hp (by simpa using he)

/-- A place with members: the row of the last one is found. -/
theorem found_member {c : Codec} {ign : Bool} {ms : List (Member × Hdr)} {z : Nat} {bs : List (List Row)} (hI : Inserted c ign ms z bs)
    {ns : List Str} {n : Str} (hn : ∀ x ∈ ns ++ [n], IsName x) {path : Str} (hp : queryNormpath path = canonical (ns ++ [n]))
    {p : Member × Hdr} (hl : lastAt ms (ns ++ [n]) = some p) :
    ∃ k r, ms[k]? = some p ∧ (rowsOf c ign ms z)[k]? = some r ∧ IsRow (archiveOf ms z) ms k p r ∧
      Index.lookup (build bs) path 0 = some (toFileInfo (toRow (k + 1) r)) := by
  obtain ⟨k, hk, hpl, hlast⟩ := lastAt_spec hl
  obtain ⟨r, hr, hi⟩ := row_of hI.clean ign z k p hk
  refine ⟨k, r, hk, hr, hi, ?_⟩
  have hnd := build_nodup bs
  have hrow := (file_row hI hk hr hi).2
  have hpl' := hi.place
  rw [hpl] at hpl'
  obtain ⟨e1, e2⟩ := row_of_place hn hpl'
  have hes := entries_exist hnd (folderPath ns) n
  have hmem := (hes.mem (toRow (k + 1) r)).mpr ⟨hrow, e1, e2⟩
  rw [lookup_zero hnd hn hp]
  obtain ⟨x, hx⟩ := getLast?_of_mem hmem
  rw [hx]
  obtain ⟨hx1, hx2, hx3⟩ := (hes.mem x).mp (List.mem_of_getLast? hx)
  have hle : (toRow (k + 1) r).1.oh ≤ x.1.oh := by
    rcases List.getLast?_eq_some_iff.mp hx with ⟨ys, hys⟩
    rw [hys] at hmem
    rcases List.mem_append.mp hmem with h | h
    · have hs := hes.sorted
      rw [hys, List.pairwise_append] at hs
      have := hs.2.2 _ h x (by simp)
      omega
    · rw [List.mem_singleton] at h; rw [h]; omega
  rcases mem_build bs x hx1 with hf | hg
  · rw [hI.rows] at hf
    obtain ⟨j, q, r', hj, hr', hi', rfl⟩ := mem_toRows hI.clean ign z x hf
    have hq : place q.2.name = ns ++ [n] := place_of_row (place_names _) hi'.place hn hx2 hx3
    have hjk : j ≤ k := by
      rcases Nat.lt_or_ge k j with hlt | hge
      · exact absurd hq (hlast j q hlt hj)
      · exact hge
    have : j = k := by
      rcases Nat.lt_or_ge j k with hlt | hge
      · have h1 := headerOf_lt hI.clean.ok hlt (Nat.le_of_lt (List.getElem?_eq_some_iff.mp hk).1)
        simp only [toRow] at hle
        rw [hi.oh, hi'.oh] at hle
        omega
      · omega
    subst this
    rw [hr] at hr'
    cases hr'
    rfl
  · exact absurd hpl ((generated_free hI hn hg hx2 hx3).2 p (List.mem_of_getElem? hk))

/-- A place without members but with members below: a generated folder is found. -/
theorem found_generated {c : Codec} {ign : Bool} {ms : List (Member × Hdr)} {z : Nat} {bs : List (List Row)} (hI : Inserted c ign ms z bs)
    {ns : List Str} {n : Str} (hn : ∀ x ∈ ns ++ [n], IsName x) {path : Str} (hp : queryNormpath path = canonical (ns ++ [n]))
    (hl : lastAt ms (ns ++ [n]) = none) (hb : Below ms (ns ++ [n])) :
    ∃ f, Index.lookup (build bs) path 0 = some f ∧ f.info.mode = 0o40555 ∧ f.info.rest = 0 := by
  have hnd := build_nodup bs
  have hes := entries_exist hnd (folderPath ns) n
  obtain ⟨p, hpm, y, rest, he⟩ := hb
  obtain ⟨k, hk⟩ := List.getElem?_of_mem hpm
  obtain ⟨r, hr, hi⟩ := row_of hI.clean ign z k p hk
  have ha : (folderPath ns, n) ∈ ancestorPairs (toRow (k + 1) r).1.path :=
    (ancestor_iff (place_names _) hi.place hn).mpr ⟨y, rest, by rw [he]; simp⟩
  have hin : toRow (k + 1) r ∈ bs.flatten := by
    rw [hI.rows]
    unfold toRows
    exact List.mem_of_getElem? (i := k) (by rw [List.getElem?_mapIdx, hr]; rfl)
  obtain ⟨q, hq, hq1, hq2⟩ := ancestor_row bs _ hin _ ha
  have hmem := (hes.mem q).mpr ⟨hq, hq1, hq2⟩
  obtain ⟨x, hx⟩ := getLast?_of_mem hmem
  obtain ⟨hx1, hx2, hx3⟩ := (hes.mem x).mp (List.mem_of_getLast? hx)
  rw [lookup_zero hnd hn hp, hx]
  refine ⟨toFileInfo x, rfl, ?_⟩
  rcases mem_build bs x hx1 with hf | hg
  · rw [hI.rows] at hf
    obtain ⟨j, p', r', hj, hr', hi', rfl⟩ := mem_toRows hI.clean ign z x hf
    exact absurd (place_of_row (place_names _) hi'.place hn hx2 hx3) (lastAt_none hl p' (List.mem_of_getElem? hj))
  · obtain ⟨-, -, h1, h2⟩ := generated_row hg
    exact ⟨h1, h2⟩

/-- A place without members and without members below: nothing is found. -/
theorem found_nothing {c : Codec} {ign : Bool} {ms : List (Member × Hdr)} {z : Nat} {bs : List (List Row)} (hI : Inserted c ign ms z bs)
    {ns : List Str} {n : Str} (hn : ∀ x ∈ ns ++ [n], IsName x) {path : Str} (hp : queryNormpath path = canonical (ns ++ [n]))
    (hl : lastAt ms (ns ++ [n]) = none) (hb : ¬ Below ms (ns ++ [n])) : Index.lookup (build bs) path 0 = none := by
  have hnd := build_nodup bs
  have hes := entries_exist hnd (folderPath ns) n
  rw [lookup_zero hnd hn hp]
  cases hx : (orderAsc (rowsAt (build bs) (folderPath ns) n)).getLast? with
  | none => rfl
  | some x =>
    obtain ⟨hx1, hx2, hx3⟩ := (hes.mem x).mp (List.mem_of_getLast? hx)
    rcases mem_build bs x hx1 with hf | hg
    · rw [hI.rows] at hf
      obtain ⟨j, p', r', hj, hr', hi', rfl⟩ := mem_toRows hI.clean ign z x hf
      exact absurd (place_of_row (place_names _) hi'.place hn hx2 hx3) (lastAt_none hl p' (List.mem_of_getElem? hj))
    · exact absurd (generated_free hI hn hg hx2 hx3).1 hb

/-! ## lemmas: the mount source -/

theorem fullMode_eq (t : Char) (mode : Nat) (ht : t ∈ ['0', '\x00', '7', '5', '2', '1']) : Tar.fullMode t mode = mode ||| typeOf t := by
  simp only [List.mem_cons, List.not_mem_nil, or_false] at ht
  rcases ht with rfl | rfl | rfl | rfl | rfl | rfl <;> simp [Tar.fullMode, Tar.isDir, Tar.isReg, typeOf]

theorem type_bits (t : Char) (mode : Nat) (hm : mode < 4096) : (mode ||| typeOf t) &&& 0xF000 = typeOf t := by
  have key : ∀ k, k < 16 → (mode ||| k * 4096) &&& 0xF000 = k * 4096 := by
    intro k hk
    rw [and_fmt, typeBits_or mode k hm hk]
  unfold typeOf
  split
  · exact key 4 (by decide)
  · split
    · exact key 10 (by decide)
    · split
      · exact key 0 (by decide)
      · exact key 8 (by decide)

/-- What the archive shows for a member. -/
def infoOf (p : Member × Hdr) (offset : Nat) : Compose.FileInfo :=
  ⟨p.2.mode ||| typeOf p.2.type, p.2.link, p.1.data.length, [.own offset]⟩

theorem hardLink_iff {c : Codec} {ms : List (Member × Hdr)} (h : Clean c ms) {p : Member × Hdr} (hp : p ∈ ms) (offset : Nat) :
    Compose.isHardLink (infoOf p offset) = true ↔ p.2.type = '1' ∧ p.2.link ≠ [] := by
  unfold Compose.isHardLink infoOf
  simp only [type_bits _ _ (h.modes p hp)]
  have ht := h.kinds p hp
  have hl := h.links p hp
  simp only [List.mem_cons, List.not_mem_nil, or_false] at ht
  rcases ht with ht | ht | ht | ht | ht | ht
  all_goals first | rw [hl ht] | skip
  all_goals rw [ht]; simp [typeOf]

theorem toInfo_row {archive : Bytes} {ms : List (Member × Hdr)} {rs : List IRow} {k : Nat} {p : Member × Hdr} {r : IRow}
    (hr : rs[k]? = some r) (hi : IsRow archive ms k p r) (ht : p.2.type ∈ ['0', '\x00', '7', '5', '2', '1']) :
    toInfo rs (toFileInfo (toRow (k + 1) r)) = infoOf p r.offset := by
  have hc : column rs (k + 1) = some r := by
    unfold column
    rw [if_neg (by omega), Nat.add_sub_cancel]
    exact hr
  unfold toInfo infoOf toFileInfo toRow
  simp only [linkAt, sizeAt, hc, Option.map_some, Option.getD_some, hi.link, hi.size, hi.mode, fullMode_eq _ _ ht, Int.toNat_natCast]

theorem source_member {c : Codec} {ign : Bool} {ms : List (Member × Hdr)} {z : Nat} {bs : List (List Row)} (hI : Inserted c ign ms z bs)
    {ns : List Str} (hne : ns ≠ []) (hn : ∀ x ∈ ns, IsName x) {path : Str} (hp : queryNormpath path = canonical ns)
    {p : Member × Hdr} (hl : lastAt ms ns = some p) :
    p ∈ ms ∧ ∃ offset, (tarSource (rowsOf c ign ms z) bs).lookup path 0 = some (infoOf p offset) ∧
      Tar.readAt (archiveOf ms z) offset p.1.data.length = p.1.data ∧ offset + p.1.data.length ≤ (archiveOf ms z).length := by
  rcases List.eq_nil_or_concat ns with rfl | ⟨a, x, rfl⟩
  · exact absurd rfl hne
  · rw [List.concat_eq_append] at hn hp hl
    obtain ⟨k, r, hk, hr, hi, hf⟩ := found_member hI hn hp hl
    have hmem := List.mem_of_getElem? hk
    refine ⟨hmem, r.offset, ?_, ?_, ?_⟩
    · show (Index.lookup (build bs) path 0).map _ = _
      rw [hf, Option.map_some, toInfo_row hr hi (hI.clean.kinds p hmem)]
    · have := hi.data; rw [hi.size] at this; exact this
    · have := hi.inside; rw [hi.size] at this; exact this

/-- Whatever is found lies inside the archive. -/
theorem source_any {c : Codec} {ign : Bool} {ms : List (Member × Hdr)} {z : Nat} {bs : List (List Row)} (hI : Inserted c ign ms z bs)
    {path : Str} {v : Int} {i : Compose.FileInfo} (h : (tarSource (rowsOf c ign ms z) bs).lookup path v = some i) :
    ∃ offset, i.userdata = [.own offset] ∧ (i.rest = 0 ∨ offset + i.rest ≤ (archiveOf ms z).length) := by
  replace h : (Index.lookup (build bs) path v).map (toInfo (rowsOf c ign ms z)) = some i := h
  rw [Option.map_eq_some_iff] at h
  obtain ⟨f, hf, rfl⟩ := h
  refine ⟨f.info.offset.toNat, rfl, ?_⟩
  have hrow : f = Index.rootInfo ∨ ∃ x ∈ build bs, f = toFileInfo x := by
    unfold Index.lookup at hf
    simp only at hf
    split at hf
    · exact .inl (Option.some.inj hf).symm
    · rw [Option.map_eq_some_iff] at hf
      obtain ⟨x, hx, rfl⟩ := hf
      refine .inr ⟨x, ?_, rfl⟩
      have hm := List.mem_of_getElem? hx
      split at hm
      · exact ((mem_rowsAt _ _ _ _).mp ((orderDesc_perm _).mem_iff.mp hm)).1
      · exact ((mem_rowsAt _ _ _ _).mp ((orderAsc_perm _).mem_iff.mp hm)).1
  rcases hrow with rfl | ⟨x, hx, rfl⟩
  · left; rfl
  · rcases mem_build bs x hx with hm | hg
    · rw [hI.rows] at hm
      obtain ⟨k, p, r, hk, hr, hi, rfl⟩ := mem_toRows hI.clean ign z x hm
      right
      rw [toInfo_row hr hi (hI.clean.kinds p (List.mem_of_getElem? hk))]
      have := hi.inside
      rw [hi.size] at this
      exact this
    · left
      obtain ⟨-, -, -, h2⟩ := generated_row hg
      show sizeAt _ x.2.rest = 0
      rw [h2]
      rfl

/-- The target of a hard link, as the versions layer looks it up. -/
theorem target_place (link : Str) (i : Compose.FileInfo) (hi : i.link = link) :
    queryNormpath (Compose.linkTarget mp i) = canonical (place link) ∧ walk [] (split '/' (Compose.linkTarget mp i)) = place link := by
  have hshape : Compose.linkTarget mp i = '/' :: lstrip '/' link := by
    unfold Compose.linkTarget mp
    rw [hi]
    unfold Compose.joinPath
    have hs : startsWith ['/'] (lstrip '/' link) = false := by
      have : (lstrip '/' link).head? ≠ some '/' := by
        unfold lstrip
        intro h
        have := List.head?_dropWhile_not (fun x : Char => decide (x = '/')) link
        rw [h] at this
        simp at this
      cases hl : lstrip '/' link with
      | nil => rfl
      | cons x xs =>
        rw [hl] at this
        have hx : x ≠ '/' := by rintro rfl; simp at this
        unfold startsWith
        rw [List.isPrefixOf_cons_cons]
        have : ('/' == x) = false := by rw [beq_eq_false_iff_ne]; exact Ne.symm hx
        rw [this]
        rfl
    rw [if_neg (by rw [hs]; simp), if_pos (.inr (by decide))]
    rfl
  have hwalk : walk [] (split '/' ('/' :: lstrip '/' link)) = place link := by
    have key : ∀ s : Str, walk [] (split '/' (lstrip '/' s)) = walk [] (split '/' s) := by
      intro s
      induction s with
      | nil => rfl
      | cons x s ih =>
        by_cases hx : x = '/'
        · subst hx
          have : lstrip '/' ('/' :: s) = lstrip '/' s := by simp [lstrip]
          rw [this, ih, split_cons_eq]
          simp [walk]
        · have : lstrip '/' (x :: s) = x :: s := by simp [lstrip, hx]
          rw [this]
    rw [split_cons_eq]
    simp only [walk, true_or, if_true]
    exact key link
  rw [hshape]
  refine ⟨?_, hwalk⟩
  rw [C14_query _ rfl, (C14_canonical _).1, hwalk]

/-- Following hard links in the archive is following them in the versions layer. -/
theorem chain_of {c : Codec} {ign : Bool} {ms : List (Member × Hdr)} {z : Nat} {bs : List (List Row)} (hI : Inserted c ign ms z bs)
    {k : Nat} {ns : List Str} {p : Member × Hdr} (hr : Reaches ms k ns p) :
    ∀ path, (∀ x ∈ ns, IsName x) → queryNormpath path = canonical ns → walk [] (split '/' path) = ns →
    ∃ i offset, (tarSource (rowsOf c ign ms z) bs).lookup path 0 = some i ∧
      Compose.LinkChain (tarSource (rowsOf c ign ms z) bs) mp path i (infoOf p offset) k ∧ p ∈ ms ∧
      Tar.readAt (archiveOf ms z) offset p.1.data.length = p.1.data ∧ offset + p.1.data.length ≤ (archiveOf ms z).length := by
  induction hr with
  | here ns p hne hl ht =>
    intro path hn hp _
    obtain ⟨hmem, offset, h1, h2, h3⟩ := source_member hI hne hn hp hl
    refine ⟨_, offset, h1, .done _ _ ?_, hmem, h2, h3⟩
    rw [Bool.eq_false_iff]
    intro hh
    exact ht ((hardLink_iff hI.clean hmem offset).mp hh).1
  | link k ns q p hne hl ht hlink hother hr ih =>
    intro path hn hp hw
    obtain ⟨hmem, offset, h1, h2, h3⟩ := source_member hI hne hn hp hl
    obtain ⟨t1, t2⟩ := target_place q.2.link (infoOf q offset) rfl
    obtain ⟨j, off', g1, g2, g3, g4, g5⟩ := ih _ (place_names _) t1 t2
    refine ⟨_, off', h1, .step _ _ j _ _ ((hardLink_iff hI.clean hmem offset).mpr ⟨ht, hlink⟩) ?_ g1 g2, g3, g4, g5⟩
    intro he
    rw [he, hw] at t2
    exact hother t2.symm

theorem mlookup_reaches {c : Codec} {ign : Bool} {ms : List (Member × Hdr)} {z : Nat} {bs : List (List Row)} (hI : Inserted c ign ms z bs)
    {k : Nat} {ns : List Str} {p : Member × Hdr} (hr : Reaches ms k ns p) (hk : k ≤ 128) (hn : ∀ x ∈ ns, IsName x) :
    ∃ offset, mlookup (tarSource (rowsOf c ign ms z) bs) (canonical ns) = .ok ((infoOf p offset).push .file) ∧
      Tar.readAt (archiveOf ms z) offset p.1.data.length = p.1.data ∧ offset + p.1.data.length ≤ (archiveOf ms z).length := by
  obtain ⟨i, offset, h1, h2, -, h3, h4⟩ := chain_of hI hr (canonical ns) hn (query_canonical ns hn) (split_canonical ns hn)
  refine ⟨offset, ?_, h3, h4⟩
  have := Compose.C36_chain_partial _ mp _ _ _ _ h1 h2 hk
  unfold mlookup vlookup
  rw [if_neg (by simp), this]

/-! ## lemmas: the views -/

/-- The file objects still hold the archive, and all views are views of it. -/
structure Good (archive : Bytes) (m : Mount) : Prop where
  same : Stencil.SameData m.store (fun _ => ⟨archive, 0, false⟩)
  fresh : ∀ fh r, m.opened.get? fh = some r → fh ≤ m.last
  wf : ∀ fh r, m.opened.get? fh = some r → Stencil.WF m.store r

/-- The handle is a view of these bytes. -/
def Holds (m : Mount) (fh : Nat) (data : Bytes) : Prop := ∃ r, m.opened.get? fh = some r ∧ Stencil.pieces m.store r.stencils = data

theorem mread_spec {archive : Bytes} {m : Mount} (hg : Good archive m) {fh : Nat} {r : Raw} (hr : m.opened.get? fh = some r) (size offset : Nat) :
    ∃ store r', mread m fh size offset = (update m fh store r', .ok (((Stencil.pieces m.store r.stencils).drop offset).take size)) ∧
      Stencil.SameData store m.store ∧ r'.stencils = r.stencils ∧ Stencil.WF m.store r' := by
  unfold mread
  rw [hr]
  have hseek : r.seek (offset : Int) .set = ({ r with offset := (offset : Int) }, .ok (offset : Int)) := by
    unfold Raw.seek
    have : r.target (offset : Int) .set = (offset : Int) := rfl
    rw [this, if_neg (by omega)]
  have hwf := (hg.wf fh r hr).offset (offset : Int)
  obtain ⟨st', h1, h2⟩ := Stencil.read_spec hwf offset rfl (size : Int)
  have hn1 : ¬ (size : Int) = -1 := by omega
  rw [if_neg hn1, Int.toNat_natCast] at h1
  refine ⟨st', { r with offset := ((offset + (((Stencil.pieces m.store r.stencils).drop offset).take size).length : Nat) : Int) }, ?_, h2, rfl, ?_⟩
  · show seekRead m fh r size offset = _
    unfold seekRead
    rw [hseek]
    show readView m fh { r with offset := (offset : Int) } size = _
    unfold readView
    rw [h1]
  · exact hwf.offset _

theorem update_good {archive : Bytes} {m : Mount} (hg : Good archive m) {fh : Nat} {r : Raw} (hr : m.opened.get? fh = some r)
    {store : Store UInt8} {r' : Raw} (hs : Stencil.SameData store m.store) (hst : r'.stencils = r.stencils) (hwf : Stencil.WF m.store r') :
    Good archive (update m fh store r') ∧ ∀ g data, Holds m g data → Holds (update m fh store r') g data := by
  refine ⟨⟨hs.trans hg.same, ?_, ?_⟩, ?_⟩
  · intro g q hq
    replace hq : (m.opened.set fh r').get? g = some q := hq
    rw [Dict.get?_set] at hq
    split at hq
    · next he => subst he; exact hg.fresh _ r hr
    · exact hg.fresh g q hq
  · intro g q hq
    replace hq : (m.opened.set fh r').get? g = some q := hq
    rw [Dict.get?_set] at hq
    split at hq
    · cases hq; exact hwf.same hs
    · exact (hg.wf g q hq).same hs
  · rintro g data ⟨q, hq, hd⟩
    by_cases he : fh = g
    · subst he
      rw [hr] at hq
      cases hq
      refine ⟨r', ?_, ?_⟩
      · show (m.opened.set fh r').get? fh = some r'
        rw [Dict.get?_set, if_pos rfl]
      · show Stencil.pieces store r'.stencils = data
        rw [hs.pieces, hst, hd]
    · refine ⟨q, ?_, ?_⟩
      · show (m.opened.set fh r').get? g = some q
        rw [Dict.get?_set, if_neg he, hq]
      · show Stencil.pieces store q.stencils = data
        rw [hs.pieces, hd]

theorem addHandle_good {archive : Bytes} {m : Mount} (hg : Good archive m) {r : Raw} (hwf : Stencil.WF m.store r) :
    Good archive (addHandle m r) ∧ Holds (addHandle m r) (m.last + 1) (Stencil.pieces m.store r.stencils) ∧
      ∀ g data, Holds m g data → Holds (addHandle m r) g data := by
  refine ⟨⟨hg.same, ?_, ?_⟩, ⟨r, ?_, rfl⟩, ?_⟩
  · intro g q hq
    replace hq : (m.opened.set (m.last + 1) r).get? g = some q := hq
    show g ≤ m.last + 1
    rw [Dict.get?_set] at hq
    split at hq
    · omega
    · have := hg.fresh g q hq; omega
  · intro g q hq
    replace hq : (m.opened.set (m.last + 1) r).get? g = some q := hq
    rw [Dict.get?_set] at hq
    split at hq
    · cases hq; exact hwf
    · exact hg.wf g q hq
  · show (m.opened.set (m.last + 1) r).get? (m.last + 1) = some r
    rw [Dict.get?_set, if_pos rfl]
  · rintro g data ⟨q, hq, hd⟩
    refine ⟨q, ?_, hd⟩
    show (m.opened.set (m.last + 1) r).get? g = some q
    have := hg.fresh g q hq
    rw [Dict.get?_set, if_neg (by omega), hq]

theorem openView_wf {archive : Bytes} {m : Mount} (hg : Good archive m) (offset size : Nat) (h : size = 0 ∨ offset + size ≤ archive.length) :
    ∃ r, Raw.init [(0, (offset : Int), (size : Int))] = .ok r ∧ Stencil.WF m.store r ∧
      Stencil.pieces m.store r.stencils = Tar.readAt archive offset size := by
  have hc := (hg.same 0).1
  have hcl := (hg.same 0).2
  rcases h with rfl | h
  · refine ⟨⟨0, [], [0]⟩, ?_, ⟨rfl, by simp, by simp⟩, by simp [Stencil.pieces, Tar.readAt]⟩
    unfold Raw.init
    rw [if_neg (by simp), if_neg (by simp)]
    simp [Stencil.cumulate]
  · obtain ⟨r, h1, -, h2, h3⟩ := Stencil.init_ok m.store [(0, (offset : Int), (size : Int))] (by
      intro s hs
      rw [List.mem_singleton] at hs
      subst hs
      refine ⟨by simp, by simp, ?_, hcl⟩
      rw [hc]
      simp only
      omega)
    refine ⟨r, h1, h2, ?_⟩
    rw [h3]
    unfold Stencil.joined Tar.readAt
    simp only [List.flatMap_cons, List.flatMap_nil, List.append_nil, hc, Int.toNat_natCast]

/-- What can be opened lies in the archive. -/
theorem mlookup_any {c : Codec} {ign : Bool} {ms : List (Member × Hdr)} {z : Nat} {bs : List (List Row)} (hI : Inserted c ign ms z bs)
    {path : Str} {i : Compose.FileInfo} (h : mlookup (tarSource (rowsOf c ign ms z) bs) path = .ok i) :
    (∃ offset, i.userdata = [.file, .own offset] ∧ (i.rest = 0 ∨ offset + i.rest ≤ (archiveOf ms z).length)) ∨
      i.userdata = [.versionsFolder] := by
  have key : ∀ (q : Str) (v : Int) (j : Compose.FileInfo), (tarSource (rowsOf c ign ms z) bs).lookup q v = some j →
      ∃ offset, (j.push .file).userdata = [.file, .own offset] ∧ ((j.push .file).rest = 0 ∨ offset + (j.push .file).rest ≤ (archiveOf ms z).length) := by
    intro q v j hj
    obtain ⟨offset, h1, h2⟩ := source_any hI hj
    exact ⟨offset, by show Compose.Tag.file :: j.userdata = _; rw [h1], h2⟩
  unfold mlookup at h
  cases hv : vlookup (tarSource (rowsOf c ign ms z) bs) mp path 0 with
  | error e => rw [hv] at h; cases h
  | ok o =>
    rw [hv] at h
    cases o with
    | none => cases h
    | some i' =>
      cases h
      unfold vlookup at hv
      rw [if_neg (by simp)] at hv
      cases hres : Compose.resolve (tarSource (rowsOf c ign ms z) bs) mp path with
      | some j =>
        rw [hres] at hv
        simp only [Except.ok.injEq, Option.some.injEq] at hv
        subst hv
        left
        have hl : ∃ k, (tarSource (rowsOf c ign ms z) bs).lookup path 0 = some k := by
          unfold Compose.resolve at hres
          cases hk : (tarSource (rowsOf c ign ms z) bs).lookup path 0 with
          | none => rw [hk] at hres; cases hres
          | some k => exact ⟨k, rfl⟩
        obtain ⟨k, hk⟩ := hl
        obtain ⟨q, v, hq⟩ := (Compose.C36_bounded _ mp path k hk).2.2 j hres
        exact key q v j hq
      | none =>
        rw [hres] at hv
        simp only at hv
        cases hd : Compose.decodeVersions (tarSource (rowsOf c ign ms z) bs) path with
        | none => rw [hd] at hv; cases hv
        | some t =>
          obtain ⟨q, b, v⟩ := t
          rw [hd] at hv
          cases b with
          | true =>
            simp only at hv
            cases hq : (tarSource (rowsOf c ign ms z) bs).lookup q 0 with
            | none => rw [hq] at hv; cases hv
            | some parent =>
              rw [hq] at hv
              simp only [Except.ok.injEq, Option.some.injEq] at hv
              subst hv
              exact .inr rfl
          | false =>
            simp only [Except.ok.injEq, Option.map_eq_some_iff] at hv
            obtain ⟨j, hj, rfl⟩ := hv
            exact .inl (key q v j hj)

theorem call_read (s : Source) (m : Mount) (fh size offset : Nat) : call s m (.read fh size offset) = (mread m fh size offset).1 := rfl
theorem call_open (s : Source) (m : Mount) (path : Str) : call s m (.open path) = (mopen s m path).1 := rfl

theorem call_good {c : Codec} {ign : Bool} {ms : List (Member × Hdr)} {z : Nat} {bs : List (List Row)} (hI : Inserted c ign ms z bs)
    {m : Mount} (hg : Good (archiveOf ms z) m) (cl : Call) :
    Good (archiveOf ms z) (call (tarSource (rowsOf c ign ms z) bs) m cl) ∧
      ∀ g data, Holds m g data → Holds (call (tarSource (rowsOf c ign ms z) bs) m cl) g data := by
  cases cl with
  | release fh => exact ⟨hg, fun _ _ h => h⟩
  | read fh size offset =>
    rw [call_read]
    cases hr : m.opened.get? fh with
    | none =>
      have : mread m fh size offset = (m, .error .unsupported) := by unfold mread; rw [hr]
      rw [this]
      exact ⟨hg, fun _ _ h => h⟩
    | some r =>
      obtain ⟨store, r', h1, h2, h3, h4⟩ := mread_spec hg hr size offset
      rw [h1]
      exact update_good hg hr h2 h3 h4
  | «open» path =>
    rw [call_open]
    unfold mopen
    cases hl : mlookup (tarSource (rowsOf c ign ms z) bs) path with
    | error e => exact ⟨hg, fun _ _ h => h⟩
    | ok i =>
      simp only
      rcases mlookup_any hI hl with ⟨offset, h1, h2⟩ | h1
      · obtain ⟨r, h3, h4, -⟩ := openView_wf hg offset i.rest h2
        have : openView i = .ok r := by unfold openView; rw [h1]; exact h3
        rw [this]
        exact ⟨(addHandle_good hg h4).1, (addHandle_good hg h4).2.2⟩
      · have : openView i = .error .fileNotFound := by unfold openView; rw [h1]
        rw [this]
        exact ⟨hg, fun _ _ h => h⟩

theorem calls_good {c : Codec} {ign : Bool} {ms : List (Member × Hdr)} {z : Nat} {bs : List (List Row)} (hI : Inserted c ign ms z bs)
    (cs : List Call) : ∀ {m : Mount}, Good (archiveOf ms z) m →
    Good (archiveOf ms z) (calls (tarSource (rowsOf c ign ms z) bs) m cs) ∧
      ∀ g data, Holds m g data → Holds (calls (tarSource (rowsOf c ign ms z) bs) m cs) g data := by
  induction cs with
  | nil => intro m hg; exact ⟨hg, fun _ _ h => h⟩
  | cons cl cs ih =>
    intro m hg
    obtain ⟨h1, h2⟩ := call_good hI hg cl
    obtain ⟨h3, h4⟩ := ih h1
    exact ⟨h3, fun g data h => h4 g data (h2 g data h)⟩

theorem start_good (archive : Bytes) : Good archive (start archive) :=
  ⟨Stencil.SameData.refl _, (fun _ _ h => by cases h), (fun _ _ h => by cases h)⟩

/-! ## C181 -/

/-- **C181**: after any calls, the place of a member can be opened, and whatever is opened, read and closed in between, every
read with that handle gives exactly the requested range of the data of the last member with that place, also through
at most 128 hard links. -/
theorem C181_read {c : Codec} {ign : Bool} {ms : List (Member × Hdr)} {z : Nat} {bs : List (List Row)} (hI : Inserted c ign ms z bs)
    {k : Nat} {ns : List Str} {p : Member × Hdr} (hr : Reaches ms k ns p) (hk : k ≤ 128) (hn : ∀ x ∈ ns, IsName x) (before : List Call) :
    ∃ m fh, mopen (tarSource (rowsOf c ign ms z) bs) (calls (tarSource (rowsOf c ign ms z) bs) (start (archiveOf ms z)) before) (canonical ns) =
        (m, .ok fh) ∧
      ∀ (between : List Call) (size offset : Nat),
        (mread (calls (tarSource (rowsOf c ign ms z) bs) m between) fh size offset).2 = .ok ((p.1.data.drop offset).take size) := by
  obtain ⟨offset, h1, h2, h3⟩ := mlookup_reaches hI hr hk hn
  obtain ⟨hg, -⟩ := calls_good hI before (start_good (archiveOf ms z))
  obtain ⟨r, h4, h5, h6⟩ := openView_wf hg offset p.1.data.length (.inr h3)
  have hv : openView ((infoOf p offset).push .file) = .ok r := by unfold openView; exact h4
  obtain ⟨g1, g2, -⟩ := addHandle_good hg h5
  refine ⟨_, _, by unfold mopen; rw [h1]; simp only [hv]; rfl, ?_⟩
  intro between size off
  obtain ⟨g3, g4⟩ := calls_good hI between g1
  obtain ⟨q, hq, hd⟩ := g4 _ _ g2
  obtain ⟨store, r', e, -⟩ := mread_spec g3 hq size off
  rw [e, hd, h6, h2]

/-- **C181**: the size is the length of the data, the type and the permissions are those of the member. -/
theorem C181_attributes {c : Codec} {ign : Bool} {ms : List (Member × Hdr)} {z : Nat} {bs : List (List Row)} (hI : Inserted c ign ms z bs)
    {k : Nat} {ns : List Str} {p : Member × Hdr} (hr : Reaches ms k ns p) (hk : k ≤ 128) (hn : ∀ x ∈ ns, IsName x) :
    mgetattr (tarSource (rowsOf c ign ms z) bs) (canonical ns) = .ok (p.2.mode ||| typeOf p.2.type, p.1.data.length) ∧
      mreadlink (tarSource (rowsOf c ign ms z) bs) (canonical ns) = .ok p.2.link := by
  obtain ⟨offset, h1, -⟩ := mlookup_reaches hI hr hk hn
  unfold mgetattr mreadlink
  rw [h1]
  exact ⟨rfl, rfl⟩

/-- **C181**: a folder that only occurs in the paths of members is shown as a folder. -/
theorem C181_folder {c : Codec} {ign : Bool} {ms : List (Member × Hdr)} {z : Nat} {bs : List (List Row)} (hI : Inserted c ign ms z bs)
    {ns : List Str} (hn : ∀ x ∈ ns, IsName x) (hne : ns ≠ []) (hl : lastAt ms ns = none) (hb : Below ms ns) :
    mgetattr (tarSource (rowsOf c ign ms z) bs) (canonical ns) = .ok (0o40555, 0) := by
  rcases List.eq_nil_or_concat ns with rfl | ⟨a, x, rfl⟩
  · exact absurd rfl hne
  · rw [List.concat_eq_append] at hn hl hb ⊢
    obtain ⟨f, h1, h2, h3⟩ := found_generated hI hn (query_canonical _ hn) hl hb
    have hs : (tarSource (rowsOf c ign ms z) bs).lookup (canonical (a ++ [x])) 0 = some (toInfo (rowsOf c ign ms z) f) := by
      show (Index.lookup (build bs) _ 0).map _ = _
      rw [h1]; rfl
    have hnl : Compose.isHardLink (toInfo (rowsOf c ign ms z) f) = false := by
      unfold Compose.isHardLink toInfo linkAt column
      rw [h3]
      simp
    unfold mgetattr mlookup
    rw [Compose.C34_other _ mp _ _ hs hnl]
    show Except.ok (f.info.mode, sizeAt (rowsOf c ign ms z) f.info.rest) = _
    rw [h2, h3]
    rfl

/-- **C181**: everything else does not exist. -/
theorem C181_absent {c : Codec} {ign : Bool} {ms : List (Member × Hdr)} {z : Nat} {bs : List (List Row)} (hI : Inserted c ign ms z bs)
    {ns : List Str} (hn : ∀ x ∈ ns, IsName x) (hne : ns ≠ []) (hv : ∀ x ∈ ns, endsWith dotVersions x = false) (hl : lastAt ms ns = none)
    (hb : ¬ Below ms ns) (m : Mount) :
    mgetattr (tarSource (rowsOf c ign ms z) bs) (canonical ns) = .error (.os 2) ∧
      mopen (tarSource (rowsOf c ign ms z) bs) m (canonical ns) = (m, .error (.os 2)) := by
  have h1 : (tarSource (rowsOf c ign ms z) bs).lookup (canonical ns) 0 = none := by
    rcases List.eq_nil_or_concat ns with rfl | ⟨a, x, rfl⟩
    · exact absurd rfl hne
    · rw [List.concat_eq_append] at hn hl hb ⊢
      show (Index.lookup (build bs) _ 0).map _ = _
      rw [found_nothing hI hn (query_canonical _ hn) hl hb]
      rfl
  have h2 := Compose.C34_missing _ mp ns hne (fun x hx => ⟨(hn x hx).1, (hn x hx).2.1⟩) hv h1
  have h3 : mlookup (tarSource (rowsOf c ign ms z) bs) (canonical ns) = .error (.os 2) := by
    unfold mlookup; rw [h2]
  unfold mgetattr mopen
  rw [h3]
  exact ⟨rfl, rfl⟩

/-! ## C182 -/

theorem below_iff (ms : List (Member × Hdr)) (ns : List Str) (n : Str) :
    (∃ p ∈ ms, ∃ rest, place p.2.name = ns ++ n :: rest) ↔ lastAt ms (ns ++ [n]) ≠ none ∨ Below ms (ns ++ [n]) := by
  constructor
  · rintro ⟨p, hp, rest, he⟩
    cases rest with
    | nil =>
      left
      intro hnone
      exact lastAt_none hnone p hp he
    | cons x rest => exact .inr ⟨p, hp, x, rest, by rw [he]; simp⟩
  · rintro (h | ⟨p, hp, x, rest, he⟩)
    · cases hl : lastAt ms (ns ++ [n]) with
      | none => exact absurd hl h
      | some p =>
        obtain ⟨k, hk, hpl, -⟩ := lastAt_spec hl
        exact ⟨p, List.mem_of_getElem? hk, [], hpl⟩
    · exact ⟨p, hp, x :: rest, by rw [he]; simp⟩

theorem found_iff {c : Codec} {ign : Bool} {ms : List (Member × Hdr)} {z : Nat} {bs : List (List Row)} (hI : Inserted c ign ms z bs)
    {ns : List Str} {n : Str} (hn : ∀ x ∈ ns ++ [n], IsName x) :
    (Index.lookup (build bs) (canonical (ns ++ [n])) 0).isSome = true ↔ ∃ p ∈ ms, ∃ rest, place p.2.name = ns ++ n :: rest := by
  rw [below_iff]
  have hp := query_canonical _ hn
  constructor
  · intro h
    refine Classical.byContradiction fun hc => ?_
    have h1 : lastAt ms (ns ++ [n]) = none := Classical.byContradiction fun h1 => hc (.inl h1)
    have h2 : ¬ Below ms (ns ++ [n]) := fun h2 => hc (.inr h2)
    rw [found_nothing hI hn hp h1 h2] at h
    cases h
  · intro h
    cases hl : lastAt ms (ns ++ [n]) with
    | some p =>
      obtain ⟨k, r, -, -, -, hf⟩ := found_member hI hn hp hl
      rw [hf]; rfl
    | none =>
      have hb : Below ms (ns ++ [n]) := h.resolve_left (fun h1 => h1 hl)
      obtain ⟨f, hf, -⟩ := found_generated hI hn hp hl hb
      rw [hf]; rfl

theorem namesOk {c : Codec} {ign : Bool} {ms : List (Member × Hdr)} {z : Nat} {bs : List (List Row)} (hI : Inserted c ign ms z bs) :
    NamesOk (build bs) := by
  have key : ∀ (pl : List Str) (path name : Str), (∀ x ∈ pl, IsName x) → (path, name) = splitPath (canonical pl) → name = [] ∨ IsName name := by
    intro pl path name hpl hr
    rcases List.eq_nil_or_concat pl with rfl | ⟨a, x, rfl⟩
    · left; exact (Prod.mk.inj hr).2
    · rw [List.concat_eq_append] at hr hpl
      right
      rw [(row_of_place hpl hr).2]
      exact hpl x (by simp)
  intro x hx
  rcases mem_build bs x hx with hm | hg
  · rw [hI.rows] at hm
    obtain ⟨k, p, r, hk, hr, hi, rfl⟩ := mem_toRows hI.clean ign z x hm
    exact key _ _ _ (place_names _) hi.place
  · obtain ⟨⟨q, hq, ha⟩, -⟩ := generated_row hg
    rw [hI.rows] at hq
    obtain ⟨k, p, r, hk, hr, hi, rfl⟩ := mem_toRows hI.clean ign z q hq
    have hpath := path_of_row (place_names _) hi.place
    have hd : ∀ y ∈ (place p.2.name).dropLast, IsName y := fun y hy => place_names _ y (List.dropLast_subset _ hy)
    replace ha : (x.1.path, x.1.name) ∈ ancestorPairs r.path := ha
    rw [hpath, mem_ancestorPairs _ hd] at ha
    obtain ⟨j, hj, he⟩ := ha
    right
    rw [(Prod.mk.inj he).2]
    exact hd _ (List.getElem_mem hj)

theorem decode_plain (s : Source) (ns : List Str) (hn : ∀ x ∈ ns, IsName x) (hv : ∀ x ∈ ns, endsWith dotVersions x = false) :
    Compose.decodeVersions s (canonical ns) = none ∨ ∃ v, Compose.decodeVersions s (canonical ns) = some (canonical ns, false, v) := by
  cases ns with
  | nil =>
    unfold Compose.decodeVersions
    have : split '/' (lstrip '/' (canonical [])) = [[]] := by decide
    rw [this]
    unfold Compose.decodeLoop
    rw [if_neg (by simp)]
    split
    · right; exact ⟨0, by simp [Compose.decodeLoop, canonical]⟩
    · left
      rw [if_neg (by decide)]
  | cons n ns =>
    rw [Compose.decodeVersions_eq s _ (by simp) (fun x hx => ⟨(hn x hx).1, (hn x hx).2.1⟩)]
    cases hd : Compose.decodeLoop s (n :: ns) (Compose.prefixPath []) false none with
    | none => left; rfl
    | some r =>
      right
      obtain ⟨h1, h2, -⟩ := Compose.decodeLoop_no_versions s (n :: ns) hv [] none r hd
      obtain ⟨a, b, v⟩ := r
      simp only [List.nil_append] at h1 h2
      subst h1 h2
      exact ⟨v, rfl⟩

theorem source_list (rs : List IRow) (bs : List (List Row)) (path : Str) : (tarSource rs bs).list path =
    (Index.list (build bs) path).map (fun d => .dict (d.map (fun p => (p.1, toInfo rs p.2)))) := rfl

theorem vlist_none {rs : List IRow} {bs : List (List Row)} {ns : List Str} (hn : ∀ x ∈ ns, IsName x)
    (hv : ∀ x ∈ ns, endsWith dotVersions x = false) (hl : Index.list (build bs) (canonical ns) = none) :
    vlist (tarSource rs bs) (canonical ns) = none := by
  unfold vlist
  rw [source_list, hl, Option.map_none]
  rcases decode_plain (tarSource rs bs) ns hn hv with h | ⟨v, h⟩
  · simp only [h]
  · simp only [h]
    rw [source_list, hl]
    rfl

theorem vlist_some {rs : List IRow} {bs : List (List Row)} {path : Str} {d : Dict Str Index.FileInfo}
    (hl : Index.list (build bs) path = some d) :
    ((vlist (tarSource rs bs) path).map (fun l => l.keys)).getD [] = d.keys := by
  unfold vlist
  rw [source_list, hl]
  simp [Compose.pushAll, Listing.keys, Dict.keys, Function.comp_def]

theorem keys_iff {c : Codec} {ign : Bool} {ms : List (Member × Hdr)} {z : Nat} {bs : List (List Row)} (hI : Inserted c ign ms z bs)
    {ns : List Str} (hn : ∀ x ∈ ns, IsName x) (hv : ∀ x ∈ ns, endsWith dotVersions x = false) (n : Str) :
    n ∈ ((vlist (tarSource (rowsOf c ign ms z) bs) (canonical ns)).map (fun l => l.keys)).getD [] ↔
      ∃ p ∈ ms, ∃ rest, place p.2.name = ns ++ n :: rest := by
  have hnd := build_nodup bs
  have hN : IsName n → ∀ x ∈ ns ++ [n], IsName x := by
    intro hnn x hx
    rcases List.mem_append.mp hx with hx | hx
    · exact hn x hx
    · rw [List.mem_singleton] at hx; subst hx; exact hnn
  have hnames : (∃ p ∈ ms, ∃ rest, place p.2.name = ns ++ n :: rest) → IsName n := by
    rintro ⟨p, -, rest, he⟩
    exact place_names p.2.name n (by rw [he]; simp)
  have h16 : IsName n → (Index.list (build bs) (canonical ns)).bind (fun d => d.get? n) = Index.lookup (build bs) (canonical (ns ++ [n])) 0 :=
    fun hnn => (C16_list_lookup (build bs) hnd ns n (hN hnn) _ _ (query_canonical _ hn) (query_canonical _ (hN hnn))).1
  cases hl : Index.list (build bs) (canonical ns) with
  | none =>
    rw [vlist_none hn hv hl]
    simp only [Option.map_none, Option.getD_none, List.not_mem_nil, false_iff]
    intro hex
    have hnn := hnames hex
    have h1 := h16 hnn
    rw [hl] at h1
    have h2 := (found_iff hI (hN hnn)).mpr hex
    rw [← h1] at h2
    cases h2
  | some d =>
    rw [vlist_some hl]
    constructor
    · intro hmem
      have hnn := C16_listed_names (build bs) (namesOk hI) _ d hl n hmem
      have h1 := h16 hnn
      rw [hl] at h1
      refine (found_iff hI (hN hnn)).mp ?_
      rw [← h1]
      rw [Dict.mem_keys_iff] at hmem
      exact hmem
    · intro hex
      have hnn := hnames hex
      have h1 := h16 hnn
      rw [hl] at h1
      have h2 := (found_iff hI (hN hnn)).mpr hex
      rw [← h1] at h2
      rw [Dict.mem_keys_iff]
      exact h2

/-- **C182**: a folder lists exactly the next names of the members below it, besides itself and its parent. -/
theorem C182_list {c : Codec} {ign : Bool} {ms : List (Member × Hdr)} {z : Nat} {bs : List (List Row)} (hI : Inserted c ign ms z bs)
    {ns : List Str} (hn : ∀ x ∈ ns, IsName x) (hv : ∀ x ∈ ns, endsWith dotVersions x = false) (n : Str) :
    n ∈ mreaddir (tarSource (rowsOf c ign ms z) bs) (canonical ns) ↔
      n = ['.'] ∨ n = ['.', '.'] ∨ ∃ p ∈ ms, ∃ rest, place p.2.name = ns ++ n :: rest := by
  unfold mreaddir
  rw [List.mem_cons, List.mem_cons, keys_iff hI hn hv]

theorem list_nodup (t : Table) (path : Str) (d : Dict Str Index.FileInfo) (h : Index.list t path = some d) : d.keys.Nodup := by
  unfold Index.list at h
  simp only at h
  split at h
  · cases h
  · cases h
    exact Dict.nodup_del _ (Dict.nodup_update _ [] List.nodup_nil) _

/-- **C182**: no name is listed twice. -/
theorem C182_nodup {c : Codec} {ign : Bool} {ms : List (Member × Hdr)} {z : Nat} {bs : List (List Row)} (hI : Inserted c ign ms z bs)
    {ns : List Str} (hn : ∀ x ∈ ns, IsName x) (hv : ∀ x ∈ ns, endsWith dotVersions x = false) :
    (mreaddir (tarSource (rowsOf c ign ms z) bs) (canonical ns)).Nodup := by
  have hnot : ∀ n, n ∈ ((vlist (tarSource (rowsOf c ign ms z) bs) (canonical ns)).map (fun l => l.keys)).getD [] → n ≠ ['.'] ∧ n ≠ ['.', '.'] := by
    intro n hm
    obtain ⟨p, -, rest, he⟩ := (keys_iff hI hn hv n).mp hm
    have := place_names p.2.name n (by rw [he]; simp)
    exact ⟨this.2.2.1, this.2.2.2⟩
  unfold mreaddir
  rw [List.nodup_cons, List.nodup_cons, List.mem_cons]
  refine ⟨?_, fun h => (hnot _ h).2 rfl, ?_⟩
  · rintro (h | h)
    · exact absurd h (by decide)
    · exact (hnot _ h).1 rfl
  · cases hl : Index.list (build bs) (canonical ns) with
    | none =>
      rw [vlist_none hn hv hl]
      exact List.nodup_nil
    | some d =>
      rw [vlist_some hl]
      exact list_nodup _ _ _ hl

/-- **C181**: the root is a folder. -/
theorem C181_root {c : Codec} {ign : Bool} {ms : List (Member × Hdr)} {z : Nat} {bs : List (List Row)} :
    mgetattr (tarSource (rowsOf c ign ms z) bs) (canonical []) = .ok (0o40777, 0) := by
  have hs : (tarSource (rowsOf c ign ms z) bs).lookup (canonical []) 0 = some ⟨0o40777, [], 0, [.own 0]⟩ := by
    show (Index.lookup (build bs) (canonical []) 0).map _ = _
    unfold Index.lookup
    have : queryNormpath (canonical []) = ['/'] := by decide
    simp only [this, if_true]
    rfl
  unfold mgetattr mlookup
  rw [Compose.C34_other _ mp _ _ hs (by decide)]
  rfl

/-! ## a concrete archive -/

/-- Three members: a file in a folder that has no member, a hard link to it and a second version of the file. -/
def demoCodec : Codec where
  parse b := match b.head? with
    | some 1 => some ⟨"d/f".toList, 3, '0', 0o644, []⟩
    | some 2 => some ⟨"./h".toList, 0, '1', 0o600, "d/f".toList⟩
    | some 3 => some ⟨"d/./f".toList, 2, '0', 0o755, []⟩
    | _ => none
  amend _ _ h := h

def demoBlock (x : UInt8) : Bytes := x :: List.replicate 511 0

def demoMembers : List (Member × Hdr) :=
  [(⟨[], demoBlock 1, [7, 8, 9], List.replicate 509 0⟩, ⟨"d/f".toList, 3, '0', 0o644, []⟩),
   (⟨[], demoBlock 2, [], []⟩, ⟨"./h".toList, 0, '1', 0o600, "d/f".toList⟩),
   (⟨[], demoBlock 3, [5, 6], List.replicate 510 0⟩, ⟨"d/./f".toList, 2, '0', 0o755, []⟩)]

theorem demoBlock_ok (x : UInt8) (h : Hdr) (hx : x ≠ 0) (hp : demoCodec.parse (demoBlock x) = some h) : Tar.IsBlock demoCodec (demoBlock x) h :=
  ⟨by simp only [demoBlock, List.length_cons, List.length_replicate], ⟨x, by simp only [demoBlock, List.mem_cons, true_or], hx⟩, hp⟩

theorem demo_clean : Clean demoCodec demoMembers where
  ok := by
    intro p hp
    simp only [demoMembers, List.mem_cons, List.not_mem_nil, or_false] at hp
    rcases hp with rfl | rfl | rfl
    · exact ⟨⟨_, demoBlock_ok 1 _ (by decide) rfl, rfl, rfl⟩, rfl, (fun h => by revert h; decide), by decide +kernel⟩
    · exact ⟨⟨_, demoBlock_ok 2 _ (by decide) rfl, rfl, rfl⟩, rfl, (fun _ => rfl), by decide +kernel⟩
    · exact ⟨⟨_, demoBlock_ok 3 _ (by decide) rfl, rfl, rfl⟩, rfl, (fun h => by revert h; decide), by decide +kernel⟩
  kinds := by
    intro p hp
    simp only [demoMembers, List.mem_cons, List.not_mem_nil, or_false] at hp
    rcases hp with rfl | rfl | rfl <;> decide
  modes := by
    intro p hp
    simp only [demoMembers, List.mem_cons, List.not_mem_nil, or_false] at hp
    rcases hp with rfl | rfl | rfl <;> decide
  links := by
    intro p hp
    simp only [demoMembers, List.mem_cons, List.not_mem_nil, or_false] at hp
    rcases hp with rfl | rfl | rfl <;> decide
  tree := by
    have hpl : ∀ p ∈ demoMembers, place p.2.name = [['d'], ['f']] ∨ place p.2.name = [['h']] := by
      intro p hp
      simp only [demoMembers, List.mem_cons, List.not_mem_nil, or_false] at hp
      rcases hp with rfl | rfl | rfl
      · left; decide
      · right; decide
      · left; decide
    rintro p hp ⟨q, hq, n, rest, he⟩
    rcases hpl p hp with h1 | h1 <;> rcases hpl q hq with h2 | h2 <;> rw [h1, h2] at he <;> simp at he

/-- The rows are inserted in one batch. -/
theorem demo_inserted : Inserted demoCodec false demoMembers 1024 [toRows (rowsOf demoCodec false demoMembers 1024)] :=
  ⟨demo_clean, by simp⟩

theorem demo_file : lastAt demoMembers [['d'], ['f']] = demoMembers[2]? := by
  unfold lastAt
  have h1 : place "d/f".toList = [['d'], ['f']] := by decide
  have h2 : place "./h".toList = [['h']] := by decide
  have h3 : place "d/./f".toList = [['d'], ['f']] := by decide
  simp only [demoMembers, List.filter_cons, h1, h2, h3]
  rfl

theorem demo_hard : lastAt demoMembers [['h']] = demoMembers[1]? := by
  unfold lastAt
  have h1 : place "d/f".toList = [['d'], ['f']] := by decide
  have h2 : place "./h".toList = [['h']] := by decide
  have h3 : place "d/./f".toList = [['d'], ['f']] := by decide
  simp only [demoMembers, List.filter_cons, h1, h2, h3]
  rfl

/-- The hard link leads to the second version of the file. -/
theorem demo_reaches : Reaches demoMembers 1 [['h']] demoMembers[2] :=
  .link 0 [['h']] demoMembers[1] _ (by decide) demo_hard rfl (by decide) (by decide)
    (.here (place "d/f".toList) demoMembers[2] (by decide) demo_file (by decide))

/-- C181: after other files were opened and read, `h` is opened and its bytes from number 1 on are read, with other reads in between. -/
example : ∃ m fh, mopen (tarSource (rowsOf demoCodec false demoMembers 1024) [toRows (rowsOf demoCodec false demoMembers 1024)])
      (calls (tarSource (rowsOf demoCodec false demoMembers 1024) [toRows (rowsOf demoCodec false demoMembers 1024)])
        (start (archiveOf demoMembers 1024)) [.open "/d/f".toList, .read 1 10 0, .open "/x".toList]) "/h".toList = (m, .ok fh) ∧
    (mread (calls (tarSource (rowsOf demoCodec false demoMembers 1024) [toRows (rowsOf demoCodec false demoMembers 1024)]) m
      [.read 1 1 1, .release fh]) fh 4 1).2 = .ok [6] := by
  obtain ⟨m, fh, h1, h2⟩ := C181_read demo_inserted demo_reaches (by decide) (by unfold IsName; decide) [.open "/d/f".toList, .read 1 10 0, .open "/x".toList]
  exact ⟨m, fh, h1, h2 [.read 1 1 1, .release fh] 4 1⟩

/-- C181: the attributes of the hard link are those of the file. -/
example : mgetattr (tarSource (rowsOf demoCodec false demoMembers 1024) [toRows (rowsOf demoCodec false demoMembers 1024)]) "/h".toList =
    .ok (0o100755, 2) :=
  (C181_attributes demo_inserted demo_reaches (by decide) (by unfold IsName; decide)).1

/-- C181: the folder `d` has no member, the path `/d/x` does not exist. -/
example : mgetattr (tarSource (rowsOf demoCodec false demoMembers 1024) [toRows (rowsOf demoCodec false demoMembers 1024)]) "/d".toList =
    .ok (0o40555, 0) :=
  C181_folder demo_inserted (ns := [['d']]) (by unfold IsName; decide) (by decide) (by
    unfold lastAt
    have h1 : place "d/f".toList = [['d'], ['f']] := by decide
    have h2 : place "./h".toList = [['h']] := by decide
    have h3 : place "d/./f".toList = [['d'], ['f']] := by decide
    simp only [demoMembers, List.filter_cons, h1, h2, h3]
    rfl) ⟨_, List.mem_cons_self, ['f'], [], by decide⟩

example : lastAt demoMembers [['d'], ['x']] = none ∧ ¬ Below demoMembers [['d'], ['x']] := by
  have h1 : place "d/f".toList = [['d'], ['f']] := by decide
  have h2 : place "./h".toList = [['h']] := by decide
  have h3 : place "d/./f".toList = [['d'], ['f']] := by decide
  constructor
  · unfold lastAt
    simp only [demoMembers, List.filter_cons, h1, h2, h3]
    rfl
  · rintro ⟨p, hp, n, rest, he⟩
    simp only [demoMembers, List.mem_cons, List.not_mem_nil, or_false] at hp
    rcases hp with rfl | rfl | rfl
    · rw [h1] at he; simp at he
    · rw [h2] at he; simp at he
    · rw [h3] at he; simp at he

/-- C182: the folder `d` lists `f`. -/
example : ['f'] ∈ mreaddir (tarSource (rowsOf demoCodec false demoMembers 1024) [toRows (rowsOf demoCodec false demoMembers 1024)]) "/d".toList :=
  (C182_list demo_inserted (ns := [['d']]) (by unfold IsName; decide) (by decide) ['f']).mpr
    (.inr (.inr ⟨_, List.mem_cons_self, [], by decide⟩))

end Verif.Fuse.TarMount
