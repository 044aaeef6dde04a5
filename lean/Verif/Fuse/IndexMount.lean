import Verif.Fuse.TarMount

/-!
# A mounted archive whose members are ranges of the archive file

`ARMountSource` (ar.py:198-290) and `ASARMountSource` (asar.py:66-170) fill the index with one row per member and open members as views of
the archive file, as `SQLiteIndexedTar` does (`Verif.Fuse.TarMount`). This file has the part that they have in common: from the rows
to the answers of the FUSE operations of a mount (FuseMount.py:655-833), with all columns that are shown. It is used for C196 and C197.

As in `Verif.Fuse.TarMount`, the archive is below `FileVersionLayer`, there is no write overlay and no control interface, and FUSE calls one
operation at a time.
-/

namespace Verif.Fuse.IndexMount

open Verif.Py Verif.Index
open Verif.Tar (Bytes)
open Verif.Compose (Source Listing vlookup vlist dotVersions)
open Verif.Stencil (Raw Store)
open Verif.Fuse.TarMount (Mount mp mlookup addHandle mread mreaddir Call start Good Holds place canonical_inj folderPath_inj place_of_row
  row_of_place path_of_row ancestor_iff generated_row lookup_zero target_place mread_spec update_good addHandle_good openView_wf start_good
  decode_plain list_nodup)

/-! ## model -/

/-- The columns of a row that are shown (ar.py:240-256, asar.py:101-117). The others are constants for these archives. -/
structure FRow where
  path : Str
  name : Str
  oh : Nat
  offset : Nat
  size : Nat
  mtime : Nat
  mode : Nat
  link : Str
  uid : Nat
  gid : Nat
  generated : Bool
  deriving DecidableEq, Repr

/-- The row of the index (SQLiteIndex.py:1060-1090). The columns that are only copied are referred to by the number of the row. -/
def toRow (number : Nat) (r : FRow) : Row := (⟨r.path, r.name, r.oh⟩, ⟨r.offset, r.mode, r.generated, number⟩)

/-- All rows (SQLiteIndex.py:1060-1090). -/
def toRows (rs : List FRow) : List Row := rs.mapIdx (fun k r => toRow (k + 1) r)

/-- The columns of a row by its number; the rows that the index adds itself have the number 0 (SQLiteIndex.py:706-716). -/
def column (rs : List FRow) (number : Nat) : Option FRow := if number = 0 then none else rs[number - 1]?

/-- The column linkname (SQLiteIndex.py:781-799). -/
def linkAt (rs : List FRow) (number : Nat) : Str := ((column rs number).map (·.link)).getD []

/-- The column size (SQLiteIndex.py:781-799). -/
def sizeAt (rs : List FRow) (number : Nat) : Nat := ((column rs number).map (·.size)).getD 0

/-- The columns mtime, uid, gid (SQLiteIndex.py:781-799). -/
def ownerAt (rs : List FRow) (number : Nat) : Nat × Nat × Nat := ((column rs number).map (fun r => (r.mtime, r.uid, r.gid))).getD (0, 0, 0)

/-- `_row_to_file_info` (SQLiteIndex.py:781-799). `rest` is the number of the row, for the columns that are only copied. -/
def toInfo (rs : List FRow) (f : Index.FileInfo) : Compose.FileInfo :=
  ⟨f.info.mode, linkAt rs f.info.rest, f.info.rest, [.own f.info.offset.toNat]⟩

/-- `SQLiteIndexMountSource` (SQLiteIndexMountSource.py:273-292): the methods of the index. `bs` are the batches in which the rows were
inserted. -/
def source (rs : List FRow) (bs : List (List Row)) : Source where
  id := 0
  immutable := true
  lookup path version := (Index.lookup (build bs) path version).map (toInfo rs)
  versions path := (Index.versions (build bs) path).length
  list path := (Index.list (build bs) path).map (fun d => .dict (d.map (fun p => (p.1, toInfo rs p.2))))
  listMode path := (Index.listMode (build bs) path).map .dict

/-- `open` of the mount source (ar.py:278-290, asar.py:155-170): a view, unless the mode is one that is refused. -/
def openStencil (refuse : Nat → Bool) (rs : List FRow) (i : Compose.FileInfo) (offset : Nat) : Except PyErr Raw :=
  if refuse i.mode then .error .ratarmount else Raw.init [(0, (offset : Int), (sizeAt rs i.rest : Int))]

/-- `FileVersionLayer.open` (versioning.py:232-243) above it. -/
def openView (refuse : Nat → Bool) (rs : List FRow) (i : Compose.FileInfo) : Except PyErr Raw :=
  match i.userdata with
  | .file :: .own offset :: _ => openStencil refuse rs i offset
  | _ => .error .fileNotFound

/-- `open` (FuseMount.py:776-791). -/
def mopen (refuse : Nat → Bool) (rs : List FRow) (s : Source) (m : Mount) (path : Str) : Mount × Except PyErr Nat :=
  match mlookup s path with
  | .error e => (m, .error e)
  | .ok i =>
    match openView refuse rs i with
    | .error _ => (m, .error (.os 5))
    | .ok r => (addHandle m r, .ok (m.last + 1))

/-- What `getattr` gives (FuseMount.py:710-737); time, owner and group are those of the columns. -/
structure Stat where
  mode : Nat
  size : Nat
  mtime : Nat
  uid : Nat
  gid : Nat
  deriving DecidableEq, Repr

/-- The attributes of a file (FuseMount.py:710-737). -/
def statOf (rs : List FRow) (i : Compose.FileInfo) : Stat :=
  ⟨i.mode, sizeAt rs i.rest, (ownerAt rs i.rest).1, (ownerAt rs i.rest).2.1, (ownerAt rs i.rest).2.2⟩

/-- `getattr` (FuseMount.py:710-737). For the root, the time and the owner are those of the process (MountSource.py:142-153) and not
modelled. -/
def mgetattr (rs : List FRow) (s : Source) (path : Str) : Except PyErr Stat := (mlookup s path).map (statOf rs)

/-- `readlink` (FuseMount.py:769-770). -/
def mreadlink (s : Source) (path : Str) : Except PyErr Str := (mlookup s path).map (fun i => i.link)

/-- One call (FuseMount.py:776-833). -/
def call (refuse : Nat → Bool) (rs : List FRow) (s : Source) (m : Mount) : Call → Mount
  | .open path => (mopen refuse rs s m path).1
  | .read fh size offset => (mread m fh size offset).1
  | .release _ => m

/-- Any calls (FuseMount.py:776-833). -/
def calls (refuse : Nat → Bool) (rs : List FRow) (s : Source) (m : Mount) (cs : List Call) : Mount := cs.foldl (call refuse rs s) m

/-! ## specification -/

/-- A member, as its archive describes it. -/
structure Rec where
  place : List Str
  mode : Nat
  link : Str
  mtime : Nat
  uid : Nat
  gid : Nat
  data : Bytes
  deriving DecidableEq, Repr

/-- What the attributes of a member have to be. -/
def Rec.stat (p : Rec) : Stat := ⟨p.mode, p.data.length, p.mtime, p.uid, p.gid⟩

/-- The last member with this place. -/
def lastAt (ms : List Rec) (ns : List Str) : Option Rec := (ms.filter (fun p => decide (p.place = ns))).getLast?

/-- There is a member somewhere below the folder `ns`. -/
def Below (ms : List Rec) (ns : List Str) : Prop := ∃ p ∈ ms, ∃ n rest, p.place = ns ++ n :: rest

/-- A hard link: it has a target and is neither a file nor a symbolic link. -/
def Rec.isHard (p : Rec) : Bool := !(p.mode &&& 0xF000 == 0x8000) && !(p.mode &&& 0xF000 == 0xA000) && !p.link.isEmpty

/-- Following `k` hard links from the place `ns` leads to the member `p`, which is not a hard link. -/
inductive Reaches (ms : List Rec) : Nat → List Str → Rec → Prop where
  | here (ns : List Str) (p : Rec) (hne : ns ≠ []) (hl : lastAt ms ns = some p) (ht : p.isHard = false) : Reaches ms 0 ns p
  | link (k : Nat) (ns : List Str) (q p : Rec) (hne : ns ≠ []) (hl : lastAt ms ns = some q) (ht : q.isHard = true)
      (hother : TarMount.place q.link ≠ ns) (hr : Reaches ms k (TarMount.place q.link) p) : Reaches ms (k + 1) ns p

/-! ## the rows -/

/-- What is known about the row of a member. Its data is in the archive, unless it cannot be opened. -/
structure IsRow (refuse : Nat → Bool) (archive : Bytes) (p : Rec) (r : FRow) : Prop where
  place : (r.path, r.name) = splitPath (canonical p.place)
  size : r.size = p.data.length
  mode : r.mode = p.mode
  link : r.link = p.link
  owner : (r.mtime, r.uid, r.gid) = (p.mtime, p.uid, p.gid)
  data : refuse p.mode = true ∨ Tar.readAt archive r.offset r.size = p.data
  inside : refuse p.mode = true ∨ r.size = 0 ∨ r.offset + r.size ≤ archive.length

/-- The rows of an archive file with these members were inserted: one row per member, such that later rows for a place come later
in the order of the index, and a place with members below it is a folder. The rows may be inserted in any order and repeatedly. -/
structure Indexed (refuse : Nat → Bool) (archive : Bytes) (ms : List Rec) (rs : List FRow) (bs : List (List Row)) : Prop where
  names : ∀ p ∈ ms, ∀ x ∈ p.place, IsName x
  length : rs.length = ms.length
  row : ∀ (k : Nat) (p : Rec) (r : FRow), ms[k]? = some p → rs[k]? = some r → IsRow refuse archive p r
  order : ∀ (i j : Nat) (r r' : FRow), i < j → rs[i]? = some r → rs[j]? = some r' → r.path = r'.path → r.name = r'.name → r.oh < r'.oh
  tree : ∀ p ∈ ms, Below ms p.place → ∃ p' ∈ ms, p'.place = p.place ∧ dirBit p'.mode = true
  rows : ∀ q, q ∈ bs.flatten ↔ q ∈ toRows rs

theorem row_of {refuse : Nat → Bool} {archive : Bytes} {ms : List Rec} {rs : List FRow} {bs : List (List Row)} (hI : Indexed refuse archive ms rs bs) (k : Nat) (p : Rec)
    (hk : ms[k]? = some p) : ∃ r, rs[k]? = some r ∧ IsRow refuse archive p r := by
  have hlt : k < rs.length := by rw [hI.length]; exact (List.getElem?_eq_some_iff.mp hk).1
  exact ⟨rs[k], List.getElem?_eq_getElem hlt, hI.row k p _ hk (List.getElem?_eq_getElem hlt)⟩

theorem mem_toRows {refuse : Nat → Bool} {archive : Bytes} {ms : List Rec} {rs : List FRow} {bs : List (List Row)} (hI : Indexed refuse archive ms rs bs) (q : Row)
    (hq : q ∈ toRows rs) : ∃ k p r, ms[k]? = some p ∧ rs[k]? = some r ∧ IsRow refuse archive p r ∧ q = toRow (k + 1) r := by
  obtain ⟨k, hk⟩ := List.getElem?_of_mem hq
  unfold toRows at hk
  rw [List.getElem?_mapIdx, Option.map_eq_some_iff] at hk
  obtain ⟨r, hr, rfl⟩ := hk
  have hlt : k < ms.length := by rw [← hI.length]; exact (List.getElem?_eq_some_iff.mp hr).1
  exact ⟨k, ms[k], r, List.getElem?_eq_getElem hlt, hr, hI.row k _ r (List.getElem?_eq_getElem hlt) hr, rfl⟩

/-- A row that is the only one with its key is the last one, also if it is repeated. -/
theorem lastRow_of_unique : ∀ (l : List Row) (q : Row), q ∈ l → (∀ q' ∈ l, q'.1 = q.1 → q' = q) → LastRow l q := by
  intro l
  induction l with
  | nil => intro q h _; cases h
  | cons x l ih =>
    intro q hm hu
    by_cases hq : q ∈ l
    · obtain ⟨before, after, he, ha⟩ := ih q hq (fun q' h' => hu q' (List.mem_cons_of_mem _ h'))
      exact ⟨x :: before, after, by rw [he]; rfl, ha⟩
    · have hx : q = x := (List.mem_cons.mp hm).resolve_right hq
      refine ⟨[], l, by rw [hx]; rfl, ?_⟩
      intro q' hq' hk
      rw [hu q' (List.mem_cons_of_mem _ hq') hk] at hq'
      exact hq hq'

/-- The row of a member is not replaced. -/
theorem lastRow_member {refuse : Nat → Bool} {archive : Bytes} {ms : List Rec} {rs : List FRow} {bs : List (List Row)} (hI : Indexed refuse archive ms rs bs) (k : Nat) (r : FRow)
    (hr : rs[k]? = some r) : LastRow bs.flatten (toRow (k + 1) r) := by
  have hget : (toRows rs)[k]? = some (toRow (k + 1) r) := by
    unfold toRows; rw [List.getElem?_mapIdx, hr]; rfl
  refine lastRow_of_unique _ _ ((hI.rows _).mpr (List.mem_of_getElem? hget)) ?_
  intro q hq hkey
  obtain ⟨j, hj⟩ := List.getElem?_of_mem ((hI.rows q).mp hq)
  unfold toRows at hj
  rw [List.getElem?_mapIdx, Option.map_eq_some_iff] at hj
  obtain ⟨r', hr', rfl⟩ := hj
  have h1 := congrArg Key.oh hkey
  have h2 := congrArg Key.path hkey
  have h3 := congrArg Key.name hkey
  simp only [toRow] at h1 h2 h3
  have hjk : j = k := by
    rcases Nat.lt_trichotomy j k with h | h | h
    · have := hI.order j k r' r h hr' hr h2 h3; omega
    · exact h
    · have := hI.order k j r r' h hr hr' h2.symm h3.symm; omega
  subst hjk
  rw [hr] at hr'
  cases hr'
  rfl

theorem file_row {refuse : Nat → Bool} {archive : Bytes} {ms : List Rec} {rs : List FRow} {bs : List (List Row)} (hI : Indexed refuse archive ms rs bs)
    {k : Nat} {r : FRow} (hr : rs[k]? = some r) : toRow (k + 1) r ∈ (insertAll bs).files ∧ toRow (k + 1) r ∈ build bs := by
  have hl := lastRow_member hI k r hr
  refine ⟨?_, lastRow_batches hl⟩
  rw [(insertAll_inv bs).files]
  exact Dict.mem_of_get? _ ((lastRow_get bs.flatten _).mp hl)

/-- A row that is generated for a place with members below it is there only if no member has this place. -/
theorem generated_free {refuse : Nat → Bool} {archive : Bytes} {ms : List Rec} {rs : List FRow} {bs : List (List Row)} (hI : Indexed refuse archive ms rs bs)
    {ns : List Str} {n : Str} (hn : ∀ x ∈ ns ++ [n], IsName x) {x : Row} (hx : x ∈ (insertAll bs).generated)
    (h1 : x.1.path = folderPath ns) (h2 : x.1.name = n) : Below ms (ns ++ [n]) ∧ ∀ p ∈ ms, p.place ≠ ns ++ [n] := by
  obtain ⟨⟨q, hq, ha⟩, hfree, -, -⟩ := generated_row hx
  rw [hI.rows q] at hq
  obtain ⟨k, p, r, hk, hr, hi, rfl⟩ := mem_toRows hI q hq
  rw [h1, h2] at ha
  obtain ⟨y, rest, he⟩ := (ancestor_iff (hI.names _ (List.mem_of_getElem? (by assumption))) hi.place hn).mp ha
  have hb : Below ms (ns ++ [n]) := ⟨p, List.mem_of_getElem? hk, y, rest, by rw [he]; simp⟩
  refine ⟨hb, ?_⟩
  intro p' hp' hpl
  obtain ⟨p'', hp'', hpl', ht⟩ := hI.tree p' hp' (by rw [hpl]; exact hb)
  obtain ⟨j, hj⟩ := List.getElem?_of_mem hp''
  obtain ⟨r', hr', hi'⟩ := row_of hI j p'' hj
  have hf := (file_row hI hr').1
  have hm : dirBit (toRow (j + 1) r').2.mode = true := by
    show dirBit r'.mode = true
    rw [hi'.mode]
    exact ht
  refine hfree _ hf hm ?_
  have h3 := hi'.place
  rw [hpl', hpl] at h3
  obtain ⟨e1, e2⟩ := row_of_place hn h3
  show (r'.path, r'.name) = _
  rw [e1, e2, h1, h2]

theorem lastAt_spec {ms : List Rec} {ns : List Str} {p : Rec} (h : lastAt ms ns = some p) :
    ∃ k, ms[k]? = some p ∧ p.place = ns ∧ ∀ (j : Nat) (q : Rec), k < j → ms[j]? = some q → q.place ≠ ns := by
  obtain ⟨before, after, he, h1, h2⟩ := last_of_getLast? h
  clear h
  subst he
  refine ⟨before.length, by simp, by simpa using h1, ?_⟩
  intro j q hj hq hpl
  rw [List.getElem?_append_right (by omega)] at hq
  obtain ⟨i, hi⟩ : ∃ i, j - before.length = i + 1 := ⟨j - before.length - 1, by omega⟩
  rw [hi, List.getElem?_cons_succ] at hq
  have := h2 q (List.mem_of_getElem? hq)
  simp [hpl] at this

theorem lastAt_none {ms : List Rec} {ns : List Str} (h : lastAt ms ns = none) : ∀ p ∈ ms, p.place ≠ ns := by
  intro p hp he
  unfold lastAt at h
  rw [List.getLast?_eq_none_iff, List.filter_eq_nil_iff] at h
  exact h p hp (by simpa using he)

/-- A place with members: the row of the last one is found. -/
theorem found_member {refuse : Nat → Bool} {archive : Bytes} {ms : List Rec} {rs : List FRow} {bs : List (List Row)} (hI : Indexed refuse archive ms rs bs)
    {ns : List Str} {n : Str} (hn : ∀ x ∈ ns ++ [n], IsName x) {path : Str} (hp : queryNormpath path = canonical (ns ++ [n]))
    {p : Rec} (hl : lastAt ms (ns ++ [n]) = some p) :
    ∃ k r, ms[k]? = some p ∧ rs[k]? = some r ∧ IsRow refuse archive p r ∧
      Index.lookup (build bs) path 0 = some (toFileInfo (toRow (k + 1) r)) := by
  obtain ⟨k, hk, hpl, hlast⟩ := lastAt_spec hl
  obtain ⟨r, hr, hi⟩ := row_of hI k p hk
  refine ⟨k, r, hk, hr, hi, ?_⟩
  have hnd := build_nodup bs
  have hrow := (file_row hI hr).2
  have hpl' := hi.place
  rw [hpl] at hpl'
  obtain ⟨e1, e2⟩ := row_of_place hn hpl'
  have hes := entries_exist hnd (folderPath ns) n
  have hmem := (hes.mem (toRow (k + 1) r)).mpr ⟨hrow, e1, e2⟩
  rw [lookup_zero hnd hn hp]
  obtain ⟨x, hx⟩ := getLast?_of_mem hmem
  rw [hx]
  obtain ⟨hx1, hx2, hx3⟩ := (hes.mem x).mp (List.mem_of_getLast? hx)
  have hle : (toRow (k + 1) r).1.oh ≤ x.1.oh := by
    rcases List.getLast?_eq_some_iff.mp hx with ⟨ys, hys⟩
    rw [hys] at hmem
    rcases List.mem_append.mp hmem with h | h
    · have hs := hes.sorted
      rw [hys, List.pairwise_append] at hs
      have := hs.2.2 _ h x (by simp)
      omega
    · rw [List.mem_singleton] at h; rw [h]; omega
  rcases mem_build bs x hx1 with hf | hg
  · rw [hI.rows x] at hf
    obtain ⟨j, q, r', hj, hr', hi', rfl⟩ := mem_toRows hI x hf
    have hq : q.place = ns ++ [n] := place_of_row (hI.names _ (List.mem_of_getElem? (by assumption))) hi'.place hn hx2 hx3
    have hjk : j ≤ k := by
      rcases Nat.lt_or_ge k j with hlt | hge
      · exact absurd hq (hlast j q hlt hj)
      · exact hge
    have : j = k := by
      rcases Nat.lt_or_ge j k with hlt | hge
      · have h1 := hI.order j k r' r hlt hr' hr (hx2.trans e1.symm) (hx3.trans e2.symm)
        simp only [toRow] at hle
        omega
      · omega
    subst this
    rw [hr] at hr'
    cases hr'
    rfl
  · exact absurd hpl ((generated_free hI hn hg hx2 hx3).2 p (List.mem_of_getElem? hk))

/-- A place without members but with members below: a generated folder is found. -/
theorem found_generated {refuse : Nat → Bool} {archive : Bytes} {ms : List Rec} {rs : List FRow} {bs : List (List Row)} (hI : Indexed refuse archive ms rs bs)
    {ns : List Str} {n : Str} (hn : ∀ x ∈ ns ++ [n], IsName x) {path : Str} (hp : queryNormpath path = canonical (ns ++ [n]))
    (hl : lastAt ms (ns ++ [n]) = none) (hb : Below ms (ns ++ [n])) :
    ∃ f, Index.lookup (build bs) path 0 = some f ∧ f.info.mode = 0o40555 ∧ f.info.rest = 0 := by
  have hnd := build_nodup bs
  have hes := entries_exist hnd (folderPath ns) n
  obtain ⟨p, hpm, y, rest, he⟩ := hb
  obtain ⟨k, hk⟩ := List.getElem?_of_mem hpm
  obtain ⟨r, hr, hi⟩ := row_of hI k p hk
  have ha : (folderPath ns, n) ∈ ancestorPairs (toRow (k + 1) r).1.path :=
    (ancestor_iff (hI.names _ (List.mem_of_getElem? (by assumption))) hi.place hn).mpr ⟨y, rest, by rw [he]; simp⟩
  have hin : toRow (k + 1) r ∈ bs.flatten := by
    rw [hI.rows]
    unfold toRows
    exact List.mem_of_getElem? (i := k) (by rw [List.getElem?_mapIdx, hr]; rfl)
  obtain ⟨q, hq, hq1, hq2⟩ := ancestor_row bs _ hin _ ha
  have hmem := (hes.mem q).mpr ⟨hq, hq1, hq2⟩
  obtain ⟨x, hx⟩ := getLast?_of_mem hmem
  obtain ⟨hx1, hx2, hx3⟩ := (hes.mem x).mp (List.mem_of_getLast? hx)
  rw [lookup_zero hnd hn hp, hx]
  refine ⟨toFileInfo x, rfl, ?_⟩
  rcases mem_build bs x hx1 with hf | hg
  · rw [hI.rows x] at hf
    obtain ⟨j, p', r', hj, hr', hi', rfl⟩ := mem_toRows hI x hf
    exact absurd (place_of_row (hI.names _ (List.mem_of_getElem? (by assumption))) hi'.place hn hx2 hx3) (lastAt_none hl p' (List.mem_of_getElem? hj))
  · obtain ⟨-, -, h1, h2⟩ := generated_row hg
    exact ⟨h1, h2⟩

/-- A place without members and without members below: nothing is found. -/
theorem found_nothing {refuse : Nat → Bool} {archive : Bytes} {ms : List Rec} {rs : List FRow} {bs : List (List Row)} (hI : Indexed refuse archive ms rs bs)
    {ns : List Str} {n : Str} (hn : ∀ x ∈ ns ++ [n], IsName x) {path : Str} (hp : queryNormpath path = canonical (ns ++ [n]))
    (hl : lastAt ms (ns ++ [n]) = none) (hb : ¬ Below ms (ns ++ [n])) : Index.lookup (build bs) path 0 = none := by
  have hnd := build_nodup bs
  have hes := entries_exist hnd (folderPath ns) n
  rw [lookup_zero hnd hn hp]
  cases hx : (orderAsc (rowsAt (build bs) (folderPath ns) n)).getLast? with
  | none => rfl
  | some x =>
    obtain ⟨hx1, hx2, hx3⟩ := (hes.mem x).mp (List.mem_of_getLast? hx)
    rcases mem_build bs x hx1 with hf | hg
    · rw [hI.rows x] at hf
      obtain ⟨j, p', r', hj, hr', hi', rfl⟩ := mem_toRows hI x hf
      exact absurd (place_of_row (hI.names _ (List.mem_of_getElem? (by assumption))) hi'.place hn hx2 hx3) (lastAt_none hl p' (List.mem_of_getElem? hj))
    · exact absurd (generated_free hI hn hg hx2 hx3).1 hb

/-- What the mount source shows for row number `k` of a member. -/
def infoOf (p : Rec) (k offset : Nat) : Compose.FileInfo := ⟨p.mode, p.link, k + 1, [.own offset]⟩

theorem hardLink_eq (p : Rec) (k offset : Nat) : Compose.isHardLink (infoOf p k offset) = p.isHard := rfl

theorem column_row {rs : List FRow} {k : Nat} {r : FRow} (hr : rs[k]? = some r) : column rs (k + 1) = some r := by
  unfold column
  rw [if_neg (by omega), Nat.add_sub_cancel]
  exact hr

theorem toInfo_row {refuse : Nat → Bool} {archive : Bytes} {rs : List FRow} {k : Nat} {p : Rec} {r : FRow} (hr : rs[k]? = some r) (hi : IsRow refuse archive p r) :
    toInfo rs (toFileInfo (toRow (k + 1) r)) = infoOf p k r.offset := by
  unfold toInfo infoOf toFileInfo toRow
  simp only [linkAt, column_row hr, Option.map_some, Option.getD_some, hi.link, hi.mode, Int.toNat_natCast]

/-- What is known about what is found for a member: its columns, and the view of its data. -/
structure Located (refuse : Nat → Bool) (archive : Bytes) (rs : List FRow) (p : Rec) (k offset : Nat) : Prop where
  size : sizeAt rs (k + 1) = p.data.length
  owner : ownerAt rs (k + 1) = (p.mtime, p.uid, p.gid)
  data : refuse p.mode = true ∨ Tar.readAt archive offset p.data.length = p.data
  inside : refuse p.mode = true ∨ p.data.length = 0 ∨ offset + p.data.length ≤ archive.length

theorem located {refuse : Nat → Bool} {archive : Bytes} {rs : List FRow} {k : Nat} {p : Rec} {r : FRow} (hr : rs[k]? = some r) (hi : IsRow refuse archive p r) :
    Located refuse archive rs p k r.offset where
  size := by unfold sizeAt; rw [column_row hr]; exact hi.size
  owner := by unfold ownerAt; rw [column_row hr]; exact hi.owner
  data := by have := hi.data; rw [hi.size] at this; exact this
  inside := by have := hi.inside; rw [hi.size] at this; exact this

theorem source_member {refuse : Nat → Bool} {archive : Bytes} {ms : List Rec} {rs : List FRow} {bs : List (List Row)} (hI : Indexed refuse archive ms rs bs)
    {ns : List Str} (hne : ns ≠ []) (hn : ∀ x ∈ ns, IsName x) {path : Str} (hp : queryNormpath path = canonical ns)
    {p : Rec} (hl : lastAt ms ns = some p) :
    ∃ k offset, (source rs bs).lookup path 0 = some (infoOf p k offset) ∧ Located refuse archive rs p k offset := by
  rcases List.eq_nil_or_concat ns with rfl | ⟨a, x, rfl⟩
  · exact absurd rfl hne
  · rw [List.concat_eq_append] at hn hp hl
    obtain ⟨k, r, hk, hr, hi, hf⟩ := found_member hI hn hp hl
    refine ⟨k, r.offset, ?_, located hr hi⟩
    show (Index.lookup (build bs) path 0).map _ = _
    rw [hf, Option.map_some, toInfo_row hr hi]

/-- Whatever is found lies inside the archive, or cannot be opened. -/
theorem source_any {refuse : Nat → Bool} {archive : Bytes} {ms : List Rec} {rs : List FRow} {bs : List (List Row)} (hI : Indexed refuse archive ms rs bs)
    {path : Str} {v : Int} {i : Compose.FileInfo} (h : (source rs bs).lookup path v = some i) :
    ∃ offset, i.userdata = [.own offset] ∧ (refuse i.mode = true ∨ sizeAt rs i.rest = 0 ∨ offset + sizeAt rs i.rest ≤ archive.length) := by
  replace h : (Index.lookup (build bs) path v).map (toInfo rs) = some i := h
  rw [Option.map_eq_some_iff] at h
  obtain ⟨f, hf, rfl⟩ := h
  refine ⟨f.info.offset.toNat, rfl, ?_⟩
  have hrow : f = Index.rootInfo ∨ ∃ x ∈ build bs, f = toFileInfo x := by
    unfold Index.lookup at hf
    simp only at hf
    split at hf
    · exact .inl (Option.some.inj hf).symm
    · rw [Option.map_eq_some_iff] at hf
      obtain ⟨x, hx, rfl⟩ := hf
      refine .inr ⟨x, ?_, rfl⟩
      have hm := List.mem_of_getElem? hx
      split at hm
      · exact ((mem_rowsAt _ _ _ _).mp ((orderDesc_perm _).mem_iff.mp hm)).1
      · exact ((mem_rowsAt _ _ _ _).mp ((orderAsc_perm _).mem_iff.mp hm)).1
  rcases hrow with rfl | ⟨x, hx, rfl⟩
  · right; left; rfl
  · rcases mem_build bs x hx with hm | hg
    · rw [hI.rows x] at hm
      obtain ⟨k, p, r, hk, hr, hi, rfl⟩ := mem_toRows hI x hm
      have h := located hr hi
      show refuse r.mode = true ∨ sizeAt rs (k + 1) = 0 ∨ r.offset + sizeAt rs (k + 1) ≤ archive.length
      rw [h.size, hi.mode]
      exact h.inside
    · right; left
      obtain ⟨-, -, -, h2⟩ := generated_row hg
      show sizeAt _ x.2.rest = 0
      rw [h2]
      rfl

/-- Following hard links in the archive is following them in the versions layer. -/
theorem chain_of {refuse : Nat → Bool} {archive : Bytes} {ms : List Rec} {rs : List FRow} {bs : List (List Row)} (hI : Indexed refuse archive ms rs bs)
    {k : Nat} {ns : List Str} {p : Rec} (hr : Reaches ms k ns p) :
    ∀ path, (∀ x ∈ ns, IsName x) → queryNormpath path = canonical ns → walk [] (split '/' path) = ns →
    ∃ i j offset, (source rs bs).lookup path 0 = some i ∧
      Compose.LinkChain (source rs bs) mp path i (infoOf p j offset) k ∧ Located refuse archive rs p j offset := by
  induction hr with
  | here ns p hne hl ht =>
    intro path hn hp _
    obtain ⟨j, offset, h1, h2⟩ := source_member hI hne hn hp hl
    exact ⟨_, j, offset, h1, .done _ _ ht, h2⟩
  | link k ns q p hne hl ht hother hr ih =>
    intro path hn hp hw
    obtain ⟨j, offset, h1, h2⟩ := source_member hI hne hn hp hl
    obtain ⟨t1, t2⟩ := target_place q.link (infoOf q j offset) rfl
    obtain ⟨i, j', off', g1, g2, g3⟩ := ih _ (TarMount.place_names _) t1 t2
    refine ⟨_, j', off', h1, .step _ _ i _ _ ht ?_ g1 g2, g3⟩
    intro he
    rw [he, hw] at t2
    exact hother t2.symm

theorem mlookup_reaches {refuse : Nat → Bool} {archive : Bytes} {ms : List Rec} {rs : List FRow} {bs : List (List Row)} (hI : Indexed refuse archive ms rs bs)
    {k : Nat} {ns : List Str} {p : Rec} (hr : Reaches ms k ns p) (hk : k ≤ 128) (hn : ∀ x ∈ ns, IsName x) :
    ∃ j offset, mlookup (source rs bs) (canonical ns) = .ok ((infoOf p j offset).push .file) ∧ Located refuse archive rs p j offset := by
  obtain ⟨i, j, offset, h1, h2, h3⟩ := chain_of hI hr (canonical ns) hn (query_canonical ns hn) (split_canonical ns hn)
  refine ⟨j, offset, ?_, h3⟩
  have := Compose.C36_chain_partial _ mp _ _ _ _ h1 h2 hk
  unfold mlookup vlookup
  rw [if_neg (by simp), this]

/-- What can be opened lies in the archive. -/
theorem mlookup_any {refuse : Nat → Bool} {archive : Bytes} {ms : List Rec} {rs : List FRow} {bs : List (List Row)} (hI : Indexed refuse archive ms rs bs)
    {path : Str} {i : Compose.FileInfo} (h : mlookup (source rs bs) path = .ok i) :
    (∃ offset, i.userdata = [.file, .own offset] ∧ (refuse i.mode = true ∨ sizeAt rs i.rest = 0 ∨ offset + sizeAt rs i.rest ≤ archive.length)) ∨
      i.userdata = [.versionsFolder] := by
  have key : ∀ (q : Str) (v : Int) (j : Compose.FileInfo), (source rs bs).lookup q v = some j →
      ∃ offset, (j.push .file).userdata = [.file, .own offset] ∧
        (refuse (j.push .file).mode = true ∨ sizeAt rs (j.push .file).rest = 0 ∨ offset + sizeAt rs (j.push .file).rest ≤ archive.length) := by
    intro q v j hj
    obtain ⟨offset, h1, h2⟩ := source_any hI hj
    exact ⟨offset, by show Compose.Tag.file :: j.userdata = _; rw [h1], h2⟩
  unfold mlookup at h
  cases hv : vlookup (source rs bs) mp path 0 with
  | error e => rw [hv] at h; cases h
  | ok o =>
    rw [hv] at h
    cases o with
    | none => cases h
    | some i' =>
      cases h
      unfold vlookup at hv
      rw [if_neg (by simp)] at hv
      cases hres : Compose.resolve (source rs bs) mp path with
      | some j =>
        rw [hres] at hv
        simp only [Except.ok.injEq, Option.some.injEq] at hv
        subst hv
        left
        have hl : ∃ k, (source rs bs).lookup path 0 = some k := by
          unfold Compose.resolve at hres
          cases hk : (source rs bs).lookup path 0 with
          | none => rw [hk] at hres; cases hres
          | some k => exact ⟨k, rfl⟩
        obtain ⟨k, hk⟩ := hl
        obtain ⟨q, v, hq⟩ := (Compose.C36_bounded _ mp path k hk).2.2 j hres
        exact key q v j hq
      | none =>
        rw [hres] at hv
        simp only at hv
        cases hd : Compose.decodeVersions (source rs bs) path with
        | none => rw [hd] at hv; cases hv
        | some t =>
          obtain ⟨q, b, v⟩ := t
          rw [hd] at hv
          cases b with
          | true =>
            simp only at hv
            cases hq : (source rs bs).lookup q 0 with
            | none => rw [hq] at hv; cases hv
            | some parent =>
              rw [hq] at hv
              simp only [Except.ok.injEq, Option.some.injEq] at hv
              subst hv
              exact .inr rfl
          | false =>
            simp only [Except.ok.injEq, Option.map_eq_some_iff] at hv
            obtain ⟨j, hj, rfl⟩ := hv
            exact .inl (key q v j hj)

theorem call_read (refuse : Nat → Bool) (rs : List FRow) (s : Source) (m : Mount) (fh size offset : Nat) :
    call refuse rs s m (.read fh size offset) = (mread m fh size offset).1 := rfl

theorem call_open (refuse : Nat → Bool) (rs : List FRow) (s : Source) (m : Mount) (path : Str) :
    call refuse rs s m (.open path) = (mopen refuse rs s m path).1 := rfl

theorem call_good {refuse : Nat → Bool} {archive : Bytes} {ms : List Rec} {rs : List FRow} {bs : List (List Row)} (hI : Indexed refuse archive ms rs bs)
    {m : Mount} (hg : Good archive m) (cl : Call) :
    Good archive (call refuse rs (source rs bs) m cl) ∧
      ∀ g data, Holds m g data → Holds (call refuse rs (source rs bs) m cl) g data := by
  cases cl with
  | release fh => exact ⟨hg, fun _ _ h => h⟩
  | read fh size offset =>
    rw [call_read]
    cases hr : m.opened.get? fh with
    | none =>
      have : mread m fh size offset = (m, .error .unsupported) := by unfold mread; rw [hr]
      rw [this]
      exact ⟨hg, fun _ _ h => h⟩
    | some r =>
      obtain ⟨store, r', h1, h2, h3, h4⟩ := mread_spec hg hr size offset
      rw [h1]
      exact update_good hg hr h2 h3 h4
  | «open» path =>
    rw [call_open]
    unfold mopen
    cases hl : mlookup (source rs bs) path with
    | error e => exact ⟨hg, fun _ _ h => h⟩
    | ok i =>
      simp only
      rcases mlookup_any hI hl with ⟨offset, h1, h2⟩ | h1
      · have hv : openView refuse rs i = openStencil refuse rs i offset := by unfold openView; rw [h1]
        rw [hv]
        unfold openStencil
        by_cases hf : refuse i.mode = true
        · rw [if_pos hf]
          exact ⟨hg, fun _ _ h => h⟩
        · obtain ⟨r, h3, h4, -⟩ := openView_wf hg offset (sizeAt rs i.rest) (h2.resolve_left hf)
          rw [if_neg hf, h3]
          exact ⟨(addHandle_good hg h4).1, (addHandle_good hg h4).2.2⟩
      · have : openView refuse rs i = .error .fileNotFound := by unfold openView; rw [h1]
        rw [this]
        exact ⟨hg, fun _ _ h => h⟩

theorem calls_good {refuse : Nat → Bool} {archive : Bytes} {ms : List Rec} {rs : List FRow} {bs : List (List Row)} (hI : Indexed refuse archive ms rs bs)
    (cs : List Call) : ∀ {m : Mount}, Good archive m →
    Good archive (calls refuse rs (source rs bs) m cs) ∧
      ∀ g data, Holds m g data → Holds (calls refuse rs (source rs bs) m cs) g data := by
  induction cs with
  | nil => intro m hg; exact ⟨hg, fun _ _ h => h⟩
  | cons cl cs ih =>
    intro m hg
    obtain ⟨h1, h2⟩ := call_good hI hg cl
    obtain ⟨h3, h4⟩ := ih h1
    exact ⟨h3, fun g data h => h4 g data (h2 g data h)⟩

/-! ## what is shown -/

/-- After any calls, the place of a member can be opened, and whatever is opened, read and closed in between, every read with that
handle gives exactly the requested range of the data of the last member with that place, also through at most 128 hard links. -/
theorem reads {refuse : Nat → Bool} {archive : Bytes} {ms : List Rec} {rs : List FRow} {bs : List (List Row)} (hI : Indexed refuse archive ms rs bs)
    {k : Nat} {ns : List Str} {p : Rec} (hr : Reaches ms k ns p) (hk : k ≤ 128) (hn : ∀ x ∈ ns, IsName x) (hf : refuse p.mode = false)
    (before : List Call) :
    ∃ m fh, mopen refuse rs (source rs bs) (calls refuse rs (source rs bs) (start archive) before) (canonical ns) = (m, .ok fh) ∧
      ∀ (between : List Call) (size offset : Nat),
        (mread (calls refuse rs (source rs bs) m between) fh size offset).2 = .ok ((p.data.drop offset).take size) := by
  obtain ⟨j, offset, h1, h2⟩ := mlookup_reaches hI hr hk hn
  obtain ⟨hg, -⟩ := calls_good hI before (start_good archive)
  have hf' : ¬ refuse p.mode = true := by rw [hf]; simp
  obtain ⟨r, h4, h5, h6⟩ := openView_wf hg offset p.data.length (h2.inside.resolve_left hf')
  have hv : openView refuse rs ((infoOf p j offset).push .file) = .ok r := by
    show openStencil refuse rs _ offset = _
    unfold openStencil
    rw [if_neg (by show ¬ refuse p.mode = true; rw [hf]; simp)]
    show Raw.init [(0, (offset : Int), (sizeAt rs (j + 1) : Int))] = _
    rw [h2.size]
    exact h4
  obtain ⟨g1, g2, -⟩ := addHandle_good hg h5
  refine ⟨_, _, by unfold mopen; rw [h1]; simp only [hv]; rfl, ?_⟩
  intro between size off
  obtain ⟨g3, g4⟩ := calls_good hI between g1
  obtain ⟨q, hq, hd⟩ := g4 _ _ g2
  obtain ⟨store, r', e, -⟩ := mread_spec g3 hq size off
  rw [e, hd, h6, h2.data.resolve_left hf']

/-- Opening what is refused is an error, and nothing else happens. -/
theorem refused {refuse : Nat → Bool} {archive : Bytes} {ms : List Rec} {rs : List FRow} {bs : List (List Row)} (hI : Indexed refuse archive ms rs bs)
    {k : Nat} {ns : List Str} {p : Rec} (hr : Reaches ms k ns p) (hk : k ≤ 128) (hn : ∀ x ∈ ns, IsName x) (hf : refuse p.mode = true)
    (m : Mount) : mopen refuse rs (source rs bs) m (canonical ns) = (m, .error (.os 5)) := by
  obtain ⟨j, offset, h1, h2⟩ := mlookup_reaches hI hr hk hn
  have hv : openView refuse rs ((infoOf p j offset).push .file) = .error .ratarmount := by
    show openStencil refuse rs _ offset = _
    unfold openStencil
    exact if_pos hf
  unfold mopen
  rw [h1]
  simp only [hv]

/-- All attributes are those of the member. -/
theorem attributes {refuse : Nat → Bool} {archive : Bytes} {ms : List Rec} {rs : List FRow} {bs : List (List Row)} (hI : Indexed refuse archive ms rs bs)
    {k : Nat} {ns : List Str} {p : Rec} (hr : Reaches ms k ns p) (hk : k ≤ 128) (hn : ∀ x ∈ ns, IsName x) :
    mgetattr rs (source rs bs) (canonical ns) = .ok p.stat ∧ mreadlink (source rs bs) (canonical ns) = .ok p.link := by
  obtain ⟨j, offset, h1, h2⟩ := mlookup_reaches hI hr hk hn
  unfold mgetattr mreadlink
  rw [h1]
  refine ⟨?_, rfl⟩
  show Except.ok (Stat.mk p.mode (sizeAt rs (j + 1)) (ownerAt rs (j + 1)).1 (ownerAt rs (j + 1)).2.1 (ownerAt rs (j + 1)).2.2) = _
  rw [h2.size, h2.owner]
  rfl

/-- A folder that only occurs in the paths of members is shown as a folder. -/
theorem folder {refuse : Nat → Bool} {archive : Bytes} {ms : List Rec} {rs : List FRow} {bs : List (List Row)} (hI : Indexed refuse archive ms rs bs)
    {ns : List Str} (hn : ∀ x ∈ ns, IsName x) (hne : ns ≠ []) (hl : lastAt ms ns = none) (hb : Below ms ns) :
    mgetattr rs (source rs bs) (canonical ns) = .ok ⟨0o40555, 0, 0, 0, 0⟩ := by
  rcases List.eq_nil_or_concat ns with rfl | ⟨a, x, rfl⟩
  · exact absurd rfl hne
  · rw [List.concat_eq_append] at hn hl hb ⊢
    obtain ⟨f, h1, h2, h3⟩ := found_generated hI hn (query_canonical _ hn) hl hb
    have hs : (source rs bs).lookup (canonical (a ++ [x])) 0 = some (toInfo rs f) := by
      show (Index.lookup (build bs) _ 0).map _ = _
      rw [h1]; rfl
    have hnl : Compose.isHardLink (toInfo rs f) = false := by
      unfold Compose.isHardLink toInfo linkAt column
      rw [h3]
      simp
    unfold mgetattr mlookup
    rw [Compose.C34_other _ mp _ _ hs hnl]
    show Except.ok (Stat.mk f.info.mode (sizeAt rs f.info.rest) (ownerAt rs f.info.rest).1 (ownerAt rs f.info.rest).2.1
      (ownerAt rs f.info.rest).2.2) = _
    rw [h2, h3]
    rfl

/-- Everything else does not exist. -/
theorem absent {refuse : Nat → Bool} {archive : Bytes} {ms : List Rec} {rs : List FRow} {bs : List (List Row)} (hI : Indexed refuse archive ms rs bs)
    {ns : List Str} (hn : ∀ x ∈ ns, IsName x) (hne : ns ≠ []) (hv : ∀ x ∈ ns, endsWith dotVersions x = false) (hl : lastAt ms ns = none)
    (hb : ¬ Below ms ns) (m : Mount) :
    mgetattr rs (source rs bs) (canonical ns) = .error (.os 2) ∧
      mopen refuse rs (source rs bs) m (canonical ns) = (m, .error (.os 2)) := by
  have h1 : (source rs bs).lookup (canonical ns) 0 = none := by
    rcases List.eq_nil_or_concat ns with rfl | ⟨a, x, rfl⟩
    · exact absurd rfl hne
    · rw [List.concat_eq_append] at hn hl hb ⊢
      show (Index.lookup (build bs) _ 0).map _ = _
      rw [found_nothing hI hn (query_canonical _ hn) hl hb]
      rfl
  have h2 := Compose.C34_missing _ mp ns hne (fun x hx => ⟨(hn x hx).1, (hn x hx).2.1⟩) hv h1
  have h3 : mlookup (source rs bs) (canonical ns) = .error (.os 2) := by
    unfold mlookup; rw [h2]
  unfold mgetattr mopen
  rw [h3]
  exact ⟨rfl, rfl⟩

theorem below_iff (ms : List Rec) (ns : List Str) (n : Str) :
    (∃ p ∈ ms, ∃ rest, p.place = ns ++ n :: rest) ↔ lastAt ms (ns ++ [n]) ≠ none ∨ Below ms (ns ++ [n]) := by
  constructor
  · rintro ⟨p, hp, rest, he⟩
    cases rest with
    | nil =>
      left
      intro hnone
      exact lastAt_none hnone p hp he
    | cons x rest => exact .inr ⟨p, hp, x, rest, by rw [he]; simp⟩
  · rintro (h | ⟨p, hp, x, rest, he⟩)
    · cases hl : lastAt ms (ns ++ [n]) with
      | none => exact absurd hl h
      | some p =>
        obtain ⟨k, hk, hpl, -⟩ := lastAt_spec hl
        exact ⟨p, List.mem_of_getElem? hk, [], hpl⟩
    · exact ⟨p, hp, x :: rest, by rw [he]; simp⟩

theorem found_iff {refuse : Nat → Bool} {archive : Bytes} {ms : List Rec} {rs : List FRow} {bs : List (List Row)} (hI : Indexed refuse archive ms rs bs)
    {ns : List Str} {n : Str} (hn : ∀ x ∈ ns ++ [n], IsName x) :
    (Index.lookup (build bs) (canonical (ns ++ [n])) 0).isSome = true ↔ ∃ p ∈ ms, ∃ rest, p.place = ns ++ n :: rest := by
  rw [below_iff]
  have hp := query_canonical _ hn
  constructor
  · intro h
    refine Classical.byContradiction fun hc => ?_
    have h1 : lastAt ms (ns ++ [n]) = none := Classical.byContradiction fun h1 => hc (.inl h1)
    have h2 : ¬ Below ms (ns ++ [n]) := fun h2 => hc (.inr h2)
    rw [found_nothing hI hn hp h1 h2] at h
    cases h
  · intro h
    cases hl : lastAt ms (ns ++ [n]) with
    | some p =>
      obtain ⟨k, r, -, -, -, hf⟩ := found_member hI hn hp hl
      rw [hf]; rfl
    | none =>
      have hb : Below ms (ns ++ [n]) := h.resolve_left (fun h1 => h1 hl)
      obtain ⟨f, hf, -⟩ := found_generated hI hn hp hl hb
      rw [hf]; rfl

theorem namesOk {refuse : Nat → Bool} {archive : Bytes} {ms : List Rec} {rs : List FRow} {bs : List (List Row)} (hI : Indexed refuse archive ms rs bs) :
    NamesOk (build bs) := by
  have key : ∀ (pl : List Str) (path name : Str), (∀ x ∈ pl, IsName x) → (path, name) = splitPath (canonical pl) → name = [] ∨ IsName name := by
    intro pl path name hpl hr
    rcases List.eq_nil_or_concat pl with rfl | ⟨a, x, rfl⟩
    · left; exact (Prod.mk.inj hr).2
    · rw [List.concat_eq_append] at hr hpl
      right
      rw [(row_of_place hpl hr).2]
      exact hpl x (by simp)
  intro x hx
  rcases mem_build bs x hx with hm | hg
  · rw [hI.rows x] at hm
    obtain ⟨k, p, r, hk, hr, hi, rfl⟩ := mem_toRows hI x hm
    exact key _ _ _ (hI.names _ (List.mem_of_getElem? (by assumption))) hi.place
  · obtain ⟨⟨q, hq, ha⟩, -⟩ := generated_row hg
    rw [hI.rows q] at hq
    obtain ⟨k, p, r, hk, hr, hi, rfl⟩ := mem_toRows hI q hq
    have hpath := path_of_row (hI.names _ (List.mem_of_getElem? (by assumption))) hi.place
    have hd : ∀ y ∈ (p.place).dropLast, IsName y := fun y hy => hI.names _ (List.mem_of_getElem? hk) y (List.dropLast_subset _ hy)
    replace ha : (x.1.path, x.1.name) ∈ ancestorPairs r.path := ha
    rw [hpath, mem_ancestorPairs _ hd] at ha
    obtain ⟨j, hj, he⟩ := ha
    right
    rw [(Prod.mk.inj he).2]
    exact hd _ (List.getElem_mem hj)

theorem source_list (rs : List FRow) (bs : List (List Row)) (path : Str) : (source rs bs).list path =
    (Index.list (build bs) path).map (fun d => .dict (d.map (fun p => (p.1, toInfo rs p.2)))) := rfl

theorem vlist_none {rs : List FRow} {bs : List (List Row)} {ns : List Str} (hn : ∀ x ∈ ns, IsName x)
    (hv : ∀ x ∈ ns, endsWith dotVersions x = false) (hl : Index.list (build bs) (canonical ns) = none) :
    vlist (source rs bs) (canonical ns) = none := by
  unfold vlist
  rw [source_list, hl, Option.map_none]
  rcases decode_plain (source rs bs) ns hn hv with h | ⟨v, h⟩
  · simp only [h]
  · simp only [h]
    rw [source_list, hl]
    rfl

theorem vlist_some {rs : List FRow} {bs : List (List Row)} {path : Str} {d : Dict Str Index.FileInfo}
    (hl : Index.list (build bs) path = some d) :
    ((vlist (source rs bs) path).map (fun l => l.keys)).getD [] = d.keys := by
  unfold vlist
  rw [source_list, hl]
  simp [Compose.pushAll, Listing.keys, Dict.keys, Function.comp_def]

theorem keys_iff {refuse : Nat → Bool} {archive : Bytes} {ms : List Rec} {rs : List FRow} {bs : List (List Row)} (hI : Indexed refuse archive ms rs bs)
    {ns : List Str} (hn : ∀ x ∈ ns, IsName x) (hv : ∀ x ∈ ns, endsWith dotVersions x = false) (n : Str) :
    n ∈ ((vlist (source rs bs) (canonical ns)).map (fun l => l.keys)).getD [] ↔
      ∃ p ∈ ms, ∃ rest, p.place = ns ++ n :: rest := by
  have hnd := build_nodup bs
  have hN : IsName n → ∀ x ∈ ns ++ [n], IsName x := by
    intro hnn x hx
    rcases List.mem_append.mp hx with hx | hx
    · exact hn x hx
    · rw [List.mem_singleton] at hx; subst hx; exact hnn
  have hnames : (∃ p ∈ ms, ∃ rest, p.place = ns ++ n :: rest) → IsName n := by
    rintro ⟨p, hp, rest, he⟩
    exact hI.names p hp n (by rw [he]; simp)
  have h16 : IsName n → (Index.list (build bs) (canonical ns)).bind (fun d => d.get? n) = Index.lookup (build bs) (canonical (ns ++ [n])) 0 :=
    fun hnn => (C16_list_lookup (build bs) hnd ns n (hN hnn) _ _ (query_canonical _ hn) (query_canonical _ (hN hnn))).1
  cases hl : Index.list (build bs) (canonical ns) with
  | none =>
    rw [vlist_none hn hv hl]
    simp only [Option.map_none, Option.getD_none, List.not_mem_nil, false_iff]
    intro hex
    have hnn := hnames hex
    have h1 := h16 hnn
    rw [hl] at h1
    have h2 := (found_iff hI (hN hnn)).mpr hex
    rw [← h1] at h2
    cases h2
  | some d =>
    rw [vlist_some hl]
    constructor
    · intro hmem
      have hnn := C16_listed_names (build bs) (namesOk hI) _ d hl n hmem
      have h1 := h16 hnn
      rw [hl] at h1
      refine (found_iff hI (hN hnn)).mp ?_
      rw [← h1]
      rw [Dict.mem_keys_iff] at hmem
      exact hmem
    · intro hex
      have hnn := hnames hex
      have h1 := h16 hnn
      rw [hl] at h1
      have h2 := (found_iff hI (hN hnn)).mpr hex
      rw [← h1] at h2
      rw [Dict.mem_keys_iff]
      exact h2

/-- A folder lists exactly the next names of the members below it, besides itself and its parent. -/
theorem lists {refuse : Nat → Bool} {archive : Bytes} {ms : List Rec} {rs : List FRow} {bs : List (List Row)} (hI : Indexed refuse archive ms rs bs)
    {ns : List Str} (hn : ∀ x ∈ ns, IsName x) (hv : ∀ x ∈ ns, endsWith dotVersions x = false) (n : Str) :
    n ∈ mreaddir (source rs bs) (canonical ns) ↔
      n = ['.'] ∨ n = ['.', '.'] ∨ ∃ p ∈ ms, ∃ rest, p.place = ns ++ n :: rest := by
  unfold mreaddir
  rw [List.mem_cons, List.mem_cons, keys_iff hI hn hv]

/-- No name is listed twice. -/
theorem once {refuse : Nat → Bool} {archive : Bytes} {ms : List Rec} {rs : List FRow} {bs : List (List Row)} (hI : Indexed refuse archive ms rs bs)
    {ns : List Str} (hn : ∀ x ∈ ns, IsName x) (hv : ∀ x ∈ ns, endsWith dotVersions x = false) :
    (mreaddir (source rs bs) (canonical ns)).Nodup := by
  have hnot : ∀ n, n ∈ ((vlist (source rs bs) (canonical ns)).map (fun l => l.keys)).getD [] → n ≠ ['.'] ∧ n ≠ ['.', '.'] := by
    intro n hm
    obtain ⟨p, hp, rest, he⟩ := (keys_iff hI hn hv n).mp hm
    have := hI.names p hp n (by rw [he]; simp)
    exact ⟨this.2.2.1, this.2.2.2⟩
  unfold mreaddir
  rw [List.nodup_cons, List.nodup_cons, List.mem_cons]
  refine ⟨?_, fun h => (hnot _ h).2 rfl, ?_⟩
  · rintro (h | h)
    · exact absurd h (by decide)
    · exact (hnot _ h).1 rfl
  · cases hl : Index.list (build bs) (canonical ns) with
    | none =>
      rw [vlist_none hn hv hl]
      exact List.nodup_nil
    | some d =>
      rw [vlist_some hl]
      exact list_nodup _ _ _ hl

/-- The root is a folder. -/
theorem root (rs : List FRow) (bs : List (List Row)) :
    (mlookup (source rs bs) (canonical [])).map (fun i => i.mode) = .ok 0o40777 := by
  have hs : (source rs bs).lookup (canonical []) 0 = some ⟨0o40777, [], 0, [.own 0]⟩ := by
    show (Index.lookup (build bs) (canonical []) 0).map _ = _
    unfold Index.lookup
    have : queryNormpath (canonical []) = ['/'] := by decide
    simp only [this, if_true]
    rfl
  unfold mlookup
  rw [Compose.C34_other _ mp _ _ hs (by decide)]
  rfl

end Verif.Fuse.IndexMount
