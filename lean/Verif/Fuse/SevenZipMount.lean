import Verif.Fuse.LibMount
import Verif.Formats.SevenZip
import Verif.Formats.SevenZipSource

/-!
# C211: a 7-Zip archive that is mounted with py7zr shows its files with their bytes

The rows of the members (`Verif.Formats.SevenZipSource`), the index, the versions layer, the extraction into memory piece by piece
(`Verif.Formats.SevenZip`), and the FUSE operations (`Verif.Fuse.LibMount`) are put together. `py7zr` itself is not modelled: a member is given with its
contents, and each extraction may deliver them in other pieces.

The column for the target of links holds the name of the member, because the file is extracted by this name. So the versions layer takes each folder of the
archive for a hard link to itself, and what is shown for it has to be proved separately (`mlookup_self`).
-/

namespace Verif.Fuse.SevenZipMount

open Verif.Py Verif.Index Verif.Fuse.IndexMount
open Verif.Tar (Bytes)
open Verif.Compose (Source dotVersions)
open Verif.SevenZipSource (Member)
open Verif.SevenZip (Shrinking)
open Verif.Fuse.LibMount (Lib Mount Serves mopen mread calls start)
open Verif.Fuse.ObjectMount (Obj Listed mlookup_member)
open Verif.Fuse.TarMount (mp mlookup mreaddir Call place target_place)

/-! ## model -/

/-- The tuple of `_convert_to_row` (py7zr.py:115-141). Without a time, `None.timestamp()` raises AttributeError. -/
def columnsOf (transform : Str → Str) (m : Member) : Except PyErr FRow :=
  match m.time with
  | none => .error .typeError
  | some t => .ok ⟨(splitPath (normpath (transform m.filename))).1, (splitPath (normpath (transform m.filename))).2, 0, 0, m.size, t.toNat,
      SevenZipSource.mode m, m.filename, 0, 0, false⟩

/-- The tuples of all members (py7zr.py:111-113). -/
def index (transform : Str → Str) : List Member → Except PyErr (List FRow)
  | [] => .ok []
  | m :: z =>
    match columnsOf transform m with
    | .error x => .error x
    | .ok r =>
      match index transform z with
      | .error x => .error x
      | .ok rs => .ok (r :: rs)

/-- The mount source; all rows are inserted at once (py7zr.py:111-113). -/
def src (rs : List FRow) : Source := source rs [toRows rs]

/-- `sys.maxsize` (py7zr.py:23, 56, 67). -/
def maxsize : Nat := 2 ^ 63 - 1

/-- `open_in_memory` with the name of the member (py7zr.py:67-73, 181-183): every file with the name is extracted, and the last one is kept. `pieces` are
the pieces in which the decompressor delivers this member. -/
def extract (z : List Member) (pieces : Member → List Bytes) (target : Str) : Except PyErr Obj :=
  match (z.filter (fun m => !m.isDirectory && decide (m.filename = target))).getLast? with
  | none => .error .keyError
  | some m => .ok ⟨SevenZip.openInMemory 0 (maxsize : Int) (pieces m), 0, false⟩

/-- The mount source (py7zr.py:84-183). What is shared is the number of extractions so far, on which the pieces may depend; the files themselves are
in memory (py7zr.py:24, 71). -/
def lib (z : List Member) (pieces : Nat → Member → List Bytes) : Lib Nat Obj where
  openRow := fun g r => (g + 1, extract z (pieces g) r.link)
  pread := fun g f size offset => (g, ((f.seek offset).read size).1, .ok ((f.seek offset).read size).2)
  close := fun g _ => g

/-! ## specification -/

/-- The place of a member in the tree. -/
def at_ (m : Member) : List Str := place m.filename

/-- An archive: every member has a time, a name, and the size of its contents, no two members have the same place, and what has others below it is a
folder. -/
structure Archived (z : List Member) : Prop where
  times : ∀ m ∈ z, m.time.isSome = true
  named : ∀ m ∈ z, at_ m ≠ []
  sizes : ∀ m ∈ z, m.size = m.data.length
  places : z.Pairwise (fun a b => at_ a ≠ at_ b)
  folders : ∀ m ∈ z, ∀ m' ∈ z, ∀ n rest, at_ m' = at_ m ++ n :: rest → m.isDirectory = true

/-- Every extraction delivers the contents of the members, in some pieces. -/
def Delivers (z : List Member) (pieces : Nat → Member → List Bytes) : Prop := ∀ g, ∀ m ∈ z, (pieces g m).flatten = m.data

/-- The file `m` is read back: after any calls it can be opened, and all reads give exactly the requested range, whatever else is opened, read and closed in
between. -/
def ReadBack (z : List Member) (pieces : Nat → Member → List Bytes) (rs : List FRow) (m : Member) : Prop :=
  ∀ before : List Call, ∃ mnt fh,
    mopen (lib z pieces) rs (src rs) (calls (lib z pieces) rs (src rs) (start 0) before) (canonical (at_ m)) = (mnt, .ok fh) ∧
    ∀ (between : List Call) (size offset : Nat), Call.release fh ∉ between →
      (mread (lib z pieces) (calls (lib z pieces) rs (src rs) mnt between) fh size offset).2 = .ok ((m.data.drop offset).take size)

/-- C211 as claimed: the files of the archive are read back. -/
def C211_statement : Prop :=
  ∀ (z : List Member) (pieces : Nat → Member → List Bytes), Archived z → Delivers z pieces → (∀ m ∈ z, 2 * m.data.length < 2 ^ 63 - 1) →
    ∃ rs, index id z = .ok rs ∧ ∀ m ∈ z, m.isDirectory = false → ReadBack z pieces rs m

/-! ## lemmas: hard links to themselves -/

/-- What is known of a place with one member: it is found as the newest and as the oldest version, and there is no second one. -/
theorem versions_single {ms : List Rec} {rs : List FRow} {bs : List (List Row)} (hI : Listed ms rs bs) {ns : List Str} (hne : ns ≠ [])
    (hn : ∀ x ∈ ns, IsName x) {k : Nat} {p : Rec} (hk : ms[k]? = some p) (hpl : p.place = ns)
    (hu : ∀ (j : Nat) (q : Rec), ms[j]? = some q → q.place = ns → j = k) :
    ∃ r, rs[k]? = some r ∧ ∀ path, queryNormpath path = canonical ns →
      (source rs bs).lookup path 0 = some (infoOf p k r.offset) ∧ (source rs bs).lookup path 1 = some (infoOf p k r.offset) ∧
      (source rs bs).lookup path 2 = none := by
  obtain ⟨r, hr, hi⟩ := row_of hI k p hk
  refine ⟨r, hr, ?_⟩
  intro path hp
  rcases List.eq_nil_or_concat ns with rfl | ⟨a, x, rfl⟩
  · exact absurd rfl hne
  rw [List.concat_eq_append] at hn hp hpl hu
  have hnd := build_nodup bs
  have hes := entries_exist hnd (folderPath a) x
  have hpl' := hi.place
  rw [hpl] at hpl'
  obtain ⟨e1, e2⟩ := TarMount.row_of_place hn hpl'
  have hmem := (hes.mem (toRow (k + 1) r)).mpr ⟨(file_row hI hr).2, e1, e2⟩
  have hall : ∀ y ∈ orderAsc (rowsAt (build bs) (folderPath a) x), y = toRow (k + 1) r := by
    intro y hy
    obtain ⟨y1, y2, y3⟩ := (hes.mem y).mp hy
    rcases mem_build bs y y1 with hf | hg
    · rw [hI.rows y] at hf
      obtain ⟨j, q, r', hj, hr', hi', rfl⟩ := mem_toRows hI y hf
      have := hu j q hj (TarMount.place_of_row (hI.names _ (List.mem_of_getElem? hj)) hi'.place hn y2 y3)
      subst this
      rw [hr] at hr'
      cases hr'
      rfl
    · exact absurd hpl ((generated_free hI hn hg y2 y3).2 p (List.mem_of_getElem? hk))
  have hone : orderAsc (rowsAt (build bs) (folderPath a) x) = [toRow (k + 1) r] := by
    have hs := hes.sorted
    generalize orderAsc (rowsAt (build bs) (folderPath a) x) = l at hmem hall hs
    match l, hmem, hall, hs with
    | [y], _, hall, _ => rw [hall y (by simp)]
    | y :: w :: l, _, hall, hs =>
      have h1 := (List.pairwise_cons.mp hs).1 w (by simp)
      rw [hall y (by simp), hall w (by simp)] at h1
      omega
  have hl : ∀ v, Index.lookup (build bs) path v = _ := fun v => C15_lookup (build bs) hnd a x hn path hp _ hes v
  rw [hone] at hl
  refine ⟨?_, ?_, ?_⟩
  · show (Index.lookup (build bs) path 0).map _ = _
    rw [hl 0]
    exact congrArg some (toInfo_row hr hi)
  · show (Index.lookup (build bs) path 1).map _ = _
    rw [hl 1]
    exact congrArg some (toInfo_row hr hi)
  · show (Index.lookup (build bs) path 2).map _ = _
    rw [hl 2]
    rfl

/-- All folders of a place with a member are found. -/
theorem ancestors_found {ms : List Rec} {rs : List FRow} {bs : List (List Row)} (hI : Listed ms rs bs) {p : Rec} (hp : p ∈ ms) {pre post : List Str}
    {n : Str} (hpl : p.place = pre ++ n :: post) : ((source rs bs).lookup (canonical (pre ++ [n])) 0).isSome = true := by
  show ((Index.lookup (build bs) _ 0).map _).isSome = true
  rw [Option.isSome_map]
  refine (found_iff hI (ns := pre) (n := n) ?_).mpr ⟨p, hp, post, hpl⟩
  intro x hx
  refine hI.names p hp x ?_
  rw [hpl]
  rcases List.mem_append.mp hx with h | h
  · exact List.mem_append_left _ h
  · rw [List.mem_singleton.mp h]; simp

/-- A hard link to itself that has no other version is shown as what it is. -/
theorem mlookup_self {ms : List Rec} {rs : List FRow} {bs : List (List Row)} (hI : Listed ms rs bs) {ns : List Str} (hne : ns ≠ [])
    (hn : ∀ x ∈ ns, IsName x) {k : Nat} {p : Rec} (hk : ms[k]? = some p) (hpl : p.place = ns)
    (hu : ∀ (j : Nat) (q : Rec), ms[j]? = some q → q.place = ns → j = k) (hh : p.isHard = true) (hself : place p.link = ns) :
    ∃ r, rs[k]? = some r ∧ mlookup (source rs bs) (canonical ns) = .ok ((infoOf p k r.offset).push .file) := by
  obtain ⟨r, hr, hv⟩ := versions_single hI hne hn hk hpl hu
  refine ⟨r, hr, ?_⟩
  obtain ⟨t1, -⟩ := target_place p.link (infoOf p k r.offset) rfl
  rw [hself] at t1
  obtain ⟨a0, a1, a2⟩ := hv _ (query_canonical ns hn)
  obtain ⟨b0, b1, b2⟩ := hv _ t1
  have hlink : Compose.isHardLink (infoOf p k r.offset) = true := hh
  have hnone : Compose.resolve (source rs bs) mp (canonical ns) = none := by
    unfold Compose.resolve
    rw [a0]
    simp only
    generalize hT : Compose.linkTarget mp (infoOf p k r.offset) = T at b0 b1 b2
    have two : ∀ j, Compose.resolveLoop (source rs bs) mp (j + 1) T 1 (infoOf p k r.offset) = none := by
      intro j
      rw [Compose.resolveLoop, if_pos hlink, hT, show Compose.nextVersion T T 1 = 2 by simp [Compose.nextVersion], b2]
    have one : ∀ j, Compose.resolveLoop (source rs bs) mp (j + 2) T 0 (infoOf p k r.offset) = none := by
      intro j
      rw [Compose.resolveLoop, if_pos hlink, hT, show Compose.nextVersion T T 0 = 1 by simp [Compose.nextVersion], b1]
      exact two j
    by_cases hq : T = canonical ns
    · rw [← hq]
      exact one 126
    · rw [Compose.resolveLoop, if_pos hlink, hT, show Compose.nextVersion (canonical ns) T 0 = 0 by simp [Compose.nextVersion, hq], b0]
      exact one 125
  have hdec : Compose.decodeVersions (source rs bs) (canonical ns) = some (canonical ns, false, 0) := by
    have hplain : Compose.plainPath (ns.map (fun x => ((x, none) : Compose.Step))) = ns := by
      simp [Compose.plainPath, Function.comp_def]
    have hapi : Compose.apiPath (ns.map (fun x => ((x, none) : Compose.Step))) = ns := by
      unfold Compose.apiPath
      rw [List.flatMap_map]
      show ns.flatMap (fun x => [x]) = ns
      simp
    have := Compose.decodeVersions_steps (source rs bs) (ns.map (fun x => ((x, none) : Compose.Step))) (by simpa using hne)
      (by
        intro st hst
        obtain ⟨x, hx, rfl⟩ := List.mem_map.mp hst
        exact ⟨(hn x hx).1, (hn x hx).2.1⟩)
      (by
        intro pre st post he
        obtain ⟨l1, l2, h1, rfl, h3⟩ := List.map_eq_append_iff.mp he
        obtain ⟨y, l3, rfl, rfl, -⟩ := List.map_eq_cons_iff.mp h3
        have : Compose.plainPath (l1.map (fun x => ((x, none) : Compose.Step))) = l1 := by simp [Compose.plainPath, Function.comp_def]
        show ((source rs bs).lookup (canonical (Compose.plainPath (l1.map (fun x => ((x, none) : Compose.Step))) ++ [y])) 0).isSome = true
        rw [this]
        exact ancestors_found hI (List.mem_of_getElem? hk) (hpl.trans h1))
    rw [hplain, hapi] at this
    rw [this]
    congr 3
    unfold Compose.lastVersion
    rw [List.getLast?_map]
    cases ns.getLast? <;> rfl
  unfold mlookup Compose.vlookup
  rw [if_neg (by simp), hnone]
  simp only [hdec]
  rw [a0]
  rfl

/-- The attributes of a hard link to itself are its own. -/
theorem attributes_self {ms : List Rec} {rs : List FRow} {bs : List (List Row)} (hI : Listed ms rs bs) {ns : List Str} (hne : ns ≠ [])
    (hn : ∀ x ∈ ns, IsName x) {k : Nat} {p : Rec} (hk : ms[k]? = some p) (hpl : p.place = ns)
    (hu : ∀ (j : Nat) (q : Rec), ms[j]? = some q → q.place = ns → j = k) (hh : p.isHard = true) (hself : place p.link = ns) :
    mgetattr rs (source rs bs) (canonical ns) = .ok p.stat := by
  obtain ⟨r, hr, h1⟩ := mlookup_self hI hne hn hk hpl hu hh hself
  obtain ⟨r', hr', hi⟩ := row_of hI k p hk
  have h2 := located hr' hi
  unfold mgetattr
  rw [h1]
  show Except.ok (Stat.mk p.mode (sizeAt rs (k + 1)) (ownerAt rs (k + 1)).1 (ownerAt rs (k + 1)).2.1 (ownerAt rs (k + 1)).2.2) = _
  rw [h2.size, h2.owner]
  rfl

/-! ## lemmas: the rows -/

/-- A member as a member of an archive. -/
def recOf (m : Member) : Rec := ⟨at_ m, SevenZipSource.mode m, m.filename, (m.time.getD 0).toNat, 0, 0, m.data⟩

/-- The columns of a member with a time. -/
def columns (m : Member) : FRow :=
  ⟨(splitPath (normpath m.filename)).1, (splitPath (normpath m.filename)).2, 0, 0, m.size, (m.time.getD 0).toNat, SevenZipSource.mode m, m.filename, 0, 0,
    false⟩

theorem index_eq : ∀ {z : List Member}, (∀ m ∈ z, m.time.isSome = true) → index id z = .ok (z.map columns)
  | [], _ => rfl
  | m :: z, h => by
    obtain ⟨t, ht⟩ := Option.isSome_iff_exists.mp (h m (by simp))
    have : columnsOf id m = .ok (columns m) := by
      unfold columnsOf columns
      rw [ht]
      rfl
    rw [index, this]
    simp only
    rw [index_eq (fun x hx => h x (by simp [hx]))]
    rfl

theorem split_name (m : Member) : splitPath (normpath m.filename) = splitPath (canonical (at_ m)) := by
  rw [(C14_canonical m.filename).1]
  rfl

theorem at_inj {z : List Member} (hz : Archived z) {i j : Nat} {a b : Member} (ha : z[i]? = some a) (hb : z[j]? = some b) (h : at_ a = at_ b) : i = j := by
  obtain ⟨hi, ei⟩ := List.getElem?_eq_some_iff.mp ha
  obtain ⟨hj, ej⟩ := List.getElem?_eq_some_iff.mp hb
  have hp := List.pairwise_iff_getElem.mp hz.places
  rcases Nat.lt_trichotomy i j with hlt | he | hlt
  · exact absurd h (by have := hp i j hi hj hlt; rwa [ei, ej] at this)
  · exact he
  · exact absurd h.symm (by have := hp j i hj hi hlt; rwa [ei, ej] at this)

theorem indexed {z : List Member} (hz : Archived z) : Listed (z.map recOf) (z.map columns) [toRows (z.map columns)] := by
  refine ⟨?_, by simp, ?_, ?_, ?_, by simp⟩
  · intro p hp x hx
    obtain ⟨m, -, rfl⟩ := List.mem_map.mp hp
    exact TarMount.place_names _ x hx
  · intro k p r hp hr
    rw [List.getElem?_map, Option.map_eq_some_iff] at hp hr
    obtain ⟨m, hm, rfl⟩ := hp
    obtain ⟨m', hm', rfl⟩ := hr
    rw [hm] at hm'
    cases hm'
    exact ⟨split_name m, hz.sizes m (List.mem_of_getElem? hm), rfl, rfl, rfl, .inl rfl, .inl rfl⟩
  · intro i j r r' hij hr hr' hpath hname
    exfalso
    rw [List.getElem?_map, Option.map_eq_some_iff] at hr hr'
    obtain ⟨a, ha, rfl⟩ := hr
    obtain ⟨b, hb, rfl⟩ := hr'
    have hs : splitPath (normpath a.filename) = splitPath (normpath b.filename) := Prod.ext hpath hname
    have hq : ∀ m : Member, canonical (at_ m) = (splitPath (normpath m.filename)).1 ++ '/' :: (splitPath (normpath m.filename)).2 := by
      intro m
      have h1 : normpath m.filename = canonical (at_ m) := (C14_canonical m.filename).1
      rw [← h1]
      unfold splitPath
      cases hs : rsplit1 '/' (normpath m.filename) with
      | none =>
        rw [rsplit1_none] at hs
        exact absurd (by simp [normpath]) hs
      | some p => exact (rsplit1_some hs).1
    have := at_inj hz ha hb (TarMount.canonical_inj (TarMount.place_names _) (TarMount.place_names _) (by
      show canonical (at_ a) = canonical (at_ b)
      rw [hq, hq, hs]))
    omega
  · intro p hp hb
    obtain ⟨m, hm, rfl⟩ := List.mem_map.mp hp
    obtain ⟨q, hq, n, rest, hpl⟩ := hb
    obtain ⟨m', hm', rfl⟩ := List.mem_map.mp hq
    refine ⟨recOf m, hp, rfl, ?_⟩
    show dirBit (SevenZipSource.mode m) = true
    rw [SevenZipSource.mode_eq, if_pos (hz.folders m hm m' hm' n rest hpl)]
    decide

theorem lastAt_member {z : List Member} (hz : Archived z) {m : Member} (hm : m ∈ z) : lastAt (z.map recOf) (at_ m) = some (recOf m) := by
  cases hl : lastAt (z.map recOf) (at_ m) with
  | none => exact absurd rfl (lastAt_none hl (recOf m) (List.mem_map.mpr ⟨m, hm, rfl⟩))
  | some p =>
    obtain ⟨k, hk, hpl, -⟩ := lastAt_spec hl
    rw [List.getElem?_map, Option.map_eq_some_iff] at hk
    obtain ⟨m', hm', rfl⟩ := hk
    obtain ⟨j, hj⟩ := List.getElem?_of_mem hm
    have := at_inj hz hj hm' hpl.symm
    subst this
    rw [hj] at hm'
    cases hm'
    rfl

theorem file_soft {m : Member} (hd : m.isDirectory = false) : (recOf m).isHard = false := by
  unfold Rec.isHard
  show (!(SevenZipSource.mode m &&& 0xF000 == 0x8000) && _ && _) = false
  rw [SevenZipSource.mode_eq, hd]
  rfl

theorem folder_hard {m : Member} (hd : m.isDirectory = true) (hne : at_ m ≠ []) : (recOf m).isHard = true := by
  unfold Rec.isHard
  show (!(SevenZipSource.mode m &&& 0xF000 == 0x8000) && !(SevenZipSource.mode m &&& 0xF000 == 0xA000) && !m.filename.isEmpty) = true
  rw [SevenZipSource.mode_eq, hd]
  cases hf : m.filename with
  | nil =>
    refine absurd ?_ hne
    unfold at_ place
    rw [hf]
    rfl
  | cons c s => rfl

/-! ## lemmas: the files -/

/-- What is known of a file that was opened. -/
def State : Option Bytes → Obj → Prop
  | none, _ => True
  | some d, f => f.data = d

theorem serves (z : List Member) (pieces : Nat → Member → List Bytes) (rs : List FRow) :
    Serves (lib z pieces) rs (fun _ => True) State (fun _ _ => True) where
  openJ := fun _ _ _ _ => trivial
  openI := fun _ _ _ _ _ _ => ⟨none, trivial⟩
  preadJ := by
    intro g d o size offset _ hd
    refine ⟨trivial, ?_⟩
    cases d with
    | none => trivial
    | some d => exact hd
  pread := by
    intro g d o size offset _ hd _
    subst hd
    rfl
  closeJ := fun _ _ _ _ _ => trivial

theorem extract_ok {z : List Member} (hz : Archived z) {pieces : Member → List Bytes} {m : Member} (hm : m ∈ z) (hd : m.isDirectory = false) :
    extract z pieces m.filename = .ok ⟨SevenZip.openInMemory 0 (maxsize : Int) (pieces m), 0, false⟩ := by
  have : (z.filter (fun x => !x.isDirectory && decide (x.filename = m.filename))).getLast? = some m := by
    cases hl : (z.filter (fun x => !x.isDirectory && decide (x.filename = m.filename))).getLast? with
    | none =>
      rw [List.getLast?_eq_none_iff, List.filter_eq_nil_iff] at hl
      exact absurd (by simp [hd]) (hl m hm)
    | some x =>
      obtain ⟨h1, h2⟩ := List.mem_filter.mp (List.mem_of_getLast? hl)
      simp only [Bool.and_eq_true, Bool.not_eq_true', decide_eq_true_eq] at h2
      obtain ⟨i, hi⟩ := List.getElem?_of_mem h1
      obtain ⟨j, hj⟩ := List.getElem?_of_mem hm
      have := at_inj hz hi hj (by unfold at_; rw [h2.2])
      subst this
      exact hi.symm.trans hj
  unfold extract
  rw [this]

/-! ## the properties -/

/-- **C211** An archive whose members have times is mounted. -/
theorem C211_mounts {z : List Member} (hz : Archived z) : ∃ rs, index id z = .ok rs := ⟨_, index_eq hz.times⟩

/-- **C211** An archive with a member without a time is not mounted with rows that are made up: mounting fails. -/
theorem C211_untimed {transform : Str → Str} {z : List Member} {m : Member} (hm : m ∈ z) (ht : m.time = none) :
    ∃ e, index transform z = .error e := by
  induction z with
  | nil => cases hm
  | cons x z ih =>
    rw [index]
    cases hc : columnsOf transform x with
    | error e => exact ⟨e, rfl⟩
    | ok r =>
      rcases List.mem_cons.mp hm with rfl | hm
      · unfold columnsOf at hc
        rw [ht] at hc
        cases hc
      · obtain ⟨e, he⟩ := ih hm
        exact ⟨e, by rw [he]⟩

/-- **C211**, provable part: files are read back if no piece but the first is longer than everything before it. Missing: all other pieces, for which the
contents that are read are wrong. -/
theorem C211_read_partial {z : List Member} (hz : Archived z) {pieces : Nat → Member → List Bytes} (hp : Delivers z pieces) {rs : List FRow}
    (hi : index id z = .ok rs) {m : Member} (hm : m ∈ z) (hd : m.isDirectory = false) (hs : ∀ g, Shrinking (pieces g m))
    (hl : 2 * m.data.length < 2 ^ 63 - 1) : ReadBack z pieces rs m := by
  have := (index_eq hz.times).symm.trans hi
  cases this
  intro before
  have hn := TarMount.place_names m.filename
  obtain ⟨mnt, fh, h1, h2⟩ := LibMount.reads (serves z pieces (z.map columns)) (indexed hz) (hz.named m hm) hn (lastAt_member hz hm) (file_soft hd)
    (data := m.data) (g₀ := 0)
    (by
      intro k r hk hr g _
      rw [List.getElem?_map, Option.map_eq_some_iff] at hk hr
      obtain ⟨x, hx, hxe⟩ := hk
      obtain ⟨y, hy, rfl⟩ := hr
      rw [hx] at hy
      cases hy
      have hf : x.filename = m.filename := congrArg (fun p => p.link) hxe
      refine ⟨⟨SevenZip.openInMemory 0 (maxsize : Int) (pieces g m), 0, false⟩, ?_, ?_⟩
      · show extract z (pieces g) x.filename = _
        rw [hf]
        exact extract_ok hz hm hd
      · show SevenZip.openInMemory 0 (maxsize : Int) (pieces g m) = m.data
        rw [SevenZip.C77_partial maxsize (pieces g m) (by rw [hp g m hm]; exact hl) (hs g), hp g m hm])
    trivial before
  exact ⟨mnt, fh, h1, fun between size offset hb => h2 between size offset hb trivial⟩

/-- **C211** Files and folders have their type, all permissions, and the size and time of the member. -/
theorem C211_attributes {z : List Member} (hz : Archived z) {rs : List FRow} (hi : index id z = .ok rs) {m : Member} (hm : m ∈ z) {t : Int}
    (ht : m.time = some t) :
    mgetattr rs (src rs) (canonical (at_ m)) = .ok ⟨if m.isDirectory then 0o40777 else 0o100777, m.data.length, t.toNat, 0, 0⟩ := by
  have := (index_eq hz.times).symm.trans hi
  cases this
  have hn := TarMount.place_names m.filename
  have hst : (recOf m).stat = ⟨if m.isDirectory then 0o40777 else 0o100777, m.data.length, t.toNat, 0, 0⟩ := by
    unfold Rec.stat recOf
    simp only [ht, SevenZipSource.mode_eq]
    rfl
  rw [← hst]
  cases hd : m.isDirectory with
  | false => exact (ObjectMount.attributes (indexed hz) (hz.named m hm) hn (lastAt_member hz hm) (file_soft hd)).1
  | true =>
    obtain ⟨k, hk⟩ := List.getElem?_of_mem hm
    refine attributes_self (indexed hz) (hz.named m hm) hn (k := k) (by rw [List.getElem?_map, hk]; rfl) rfl ?_ (folder_hard hd (hz.named m hm)) rfl
    intro j q hj hq
    rw [List.getElem?_map, Option.map_eq_some_iff] at hj
    obtain ⟨x, hx, rfl⟩ := hj
    exact at_inj hz hx hk hq

/-- **C211** A folder that is only named in the paths of members is shown as a folder. -/
theorem C211_folder {z : List Member} (hz : Archived z) {rs : List FRow} (hi : index id z = .ok rs) {ns : List Str} (hn : ∀ x ∈ ns, IsName x)
    (hne : ns ≠ []) (hno : ∀ m ∈ z, at_ m ≠ ns) {m : Member} (hm : m ∈ z) {n : Str} {rest : List Str} (hb : at_ m = ns ++ n :: rest) :
    mgetattr rs (src rs) (canonical ns) = .ok ⟨0o40555, 0, 0, 0, 0⟩ := by
  have := (index_eq hz.times).symm.trans hi
  cases this
  refine IndexMount.folder (indexed hz) hn hne ?_ ⟨recOf m, List.mem_map.mpr ⟨m, hm, rfl⟩, n, rest, hb⟩
  unfold lastAt
  rw [List.getLast?_eq_none_iff, List.filter_eq_nil_iff]
  intro p hp
  obtain ⟨x, hx, rfl⟩ := List.mem_map.mp hp
  exact fun he => hno x hx (of_decide_eq_true he)

/-- **C211** What is neither a member nor a folder of one does not exist. -/
theorem C211_absent {z : List Member} (hz : Archived z) (pieces : Nat → Member → List Bytes) {rs : List FRow} (hi : index id z = .ok rs) {ns : List Str}
    (hn : ∀ x ∈ ns, IsName x) (hne : ns ≠ []) (hv : ∀ x ∈ ns, endsWith dotVersions x = false) (hno : ∀ m ∈ z, ∀ rest, at_ m ≠ ns ++ rest)
    (mnt : Mount Nat Obj) :
    mgetattr rs (src rs) (canonical ns) = .error (.os 2) ∧ mopen (lib z pieces) rs (src rs) mnt (canonical ns) = (mnt, .error (.os 2)) := by
  have := (index_eq hz.times).symm.trans hi
  cases this
  refine LibMount.absent (indexed hz) hn hne hv ?_ ?_ mnt
  · unfold lastAt
    rw [List.getLast?_eq_none_iff, List.filter_eq_nil_iff]
    intro p hp
    obtain ⟨x, hx, rfl⟩ := List.mem_map.mp hp
    have := hno x hx []
    rw [List.append_nil] at this
    exact fun he => this (of_decide_eq_true he)
  · rintro ⟨p, hp, n, rest, hpl⟩
    obtain ⟨x, hx, rfl⟩ := List.mem_map.mp hp
    exact hno x hx _ hpl

/-- **C211** A listing has exactly the names of the members in the folder and of the folders that their paths name. -/
theorem C211_list {z : List Member} (hz : Archived z) {rs : List FRow} (hi : index id z = .ok rs) {ns : List Str} (hn : ∀ x ∈ ns, IsName x)
    (hv : ∀ x ∈ ns, endsWith dotVersions x = false) (x : Str) :
    x ∈ mreaddir (src rs) (canonical ns) ↔ x = ['.'] ∨ x = ['.', '.'] ∨ ∃ m ∈ z, ∃ rest, at_ m = ns ++ x :: rest := by
  have := (index_eq hz.times).symm.trans hi
  cases this
  unfold src
  rw [lists (indexed hz) hn hv]
  constructor
  · rintro (h | h | ⟨p, hp, rest, hpl⟩)
    · exact .inl h
    · exact .inr (.inl h)
    · obtain ⟨m, hm, rfl⟩ := List.mem_map.mp hp
      exact .inr (.inr ⟨m, hm, rest, hpl⟩)
  · rintro (h | h | ⟨m, hm, rest, hpl⟩)
    · exact .inl h
    · exact .inr (.inl h)
    · exact .inr (.inr ⟨recOf m, List.mem_map.mpr ⟨m, hm, rfl⟩, rest, hpl⟩)

/-- **C211** No name is listed twice. -/
theorem C211_once {z : List Member} (hz : Archived z) {rs : List FRow} (hi : index id z = .ok rs) {ns : List Str} (hn : ∀ x ∈ ns, IsName x)
    (hv : ∀ x ∈ ns, endsWith dotVersions x = false) : (mreaddir (src rs) (canonical ns)).Nodup := by
  have := (index_eq hz.times).symm.trans hi
  cases this
  exact once (indexed hz) hn hv

/-! ### examples and violations -/

/-- A folder and a file in it. -/
def demo : List Member := [⟨"d".toList, true, 0, some 5, []⟩, ⟨"d/f".toList, false, 3, some 7, [1, 2, 3]⟩]

theorem demo_archived : Archived demo where
  times := by decide
  named := by decide
  sizes := by decide
  places := by decide
  folders := by
    intro m hm m' hm' n rest h
    simp only [demo, List.mem_cons, List.not_mem_nil, or_false] at hm hm'
    rcases hm with rfl | rfl
    · rfl
    · have h1 := congrArg List.length h
      rcases hm' with rfl | rfl <;> simp [at_, place, split, walk] at h1 <;> revert h1 <;> simp

/-- All in one piece, and in two. -/
def demoPieces : Nat → Member → List Bytes := fun g m => if g = 0 then [m.data] else [m.data.take 2, m.data.drop 2]

theorem demo_delivers : Delivers demo demoPieces := by
  intro g m _
  unfold demoPieces
  split
  · simp
  · simp

theorem demo_shrinking (g : Nat) : Shrinking (demoPieces g ⟨"d/f".toList, false, 3, some 7, [1, 2, 3]⟩) := by
  unfold demoPieces
  split
  · intro pre c post h
    match pre with
    | [] => exact .inl rfl
    | a :: pre => simp at h
  · intro pre c post h
    match pre with
    | [] => exact .inl rfl
    | [a] => simp at h; obtain ⟨rfl, rfl, -⟩ := h; exact .inr (by decide)
    | a :: b :: pre => simp at h

example : ∃ rs mnt fh, index id demo = .ok rs ∧
    mopen (lib demo demoPieces) rs (src rs) (start 0) (canonical ["d".toList, "f".toList]) = (mnt, .ok fh) ∧
    (mread (lib demo demoPieces) mnt fh 2 1).2 = .ok [2, 3] ∧
    mgetattr rs (src rs) (canonical ["d".toList]) = .ok ⟨0o40777, 0, 5, 0, 0⟩ := by
  have hi : index id demo = .ok (demo.map columns) := index_eq demo_archived.times
  obtain ⟨mnt, fh, h1, h2⟩ := C211_read_partial demo_archived demo_delivers hi (m := ⟨"d/f".toList, false, 3, some 7, [1, 2, 3]⟩)
    (by simp [demo]) rfl demo_shrinking (by decide) []
  exact ⟨_, mnt, fh, hi, h1, h2 [] 2 1 (by simp), C211_attributes demo_archived hi (m := ⟨"d".toList, true, 0, some 5, []⟩) (by simp [demo]) rfl⟩

/-- One file. -/
def single : List Member := [⟨"f".toList, false, 3, some 7, [1, 2, 3]⟩]

theorem single_archived : Archived single where
  times := by decide
  named := by decide
  sizes := by decide
  places := by decide
  folders := by
    intro m hm m' hm' n rest h
    simp only [single, List.mem_singleton] at hm hm'
    subst hm hm'
    have h1 := congrArg List.length h
    simp at h1

/-- The first byte, and then all others. -/
def halves : Nat → Member → List Bytes := fun _ m => [m.data.take 1, m.data.drop 1]

theorem halves_deliver : Delivers single halves := by
  intro g m _
  show [m.data.take 1, m.data.drop 1].flatten = m.data
  rw [List.flatten_cons, List.flatten_cons, List.flatten_nil, List.append_nil, List.take_append_drop]

/-- C211 is violated: a file that arrives in a short piece and a longer one is read with a byte missing. -/
theorem C211_violated : ¬ C211_statement := by
  intro h
  obtain ⟨rs, hi, h2⟩ := h single halves single_archived halves_deliver (by decide)
  have := (index_eq single_archived.times).symm.trans hi
  cases this
  obtain ⟨mnt, fh, h3, h4⟩ := h2 ⟨"f".toList, false, 3, some 7, [1, 2, 3]⟩ (by simp [single]) rfl []
  have h5 := h4 [] 3 0 (by simp)
  have h6 : fh = 1 := by
    have : (mopen (lib single halves) (single.map columns) (src (single.map columns)) (start 0) (canonical ["f".toList])).2 = .ok 1 := by decide +kernel
    have h7 := (congrArg (fun q => q.2) h3).symm.trans this
    cases h7
    rfl
  subst h6
  have h8 : mnt = (mopen (lib single halves) (single.map columns) (src (single.map columns)) (start 0) (canonical ["f".toList])).1 :=
    (congrArg (fun q => q.1) h3).symm
  subst h8
  have h9 : (mread (lib single halves) (mopen (lib single halves) (single.map columns) (src (single.map columns)) (start 0) (canonical ["f".toList])).1
    1 3 0).2 = .ok [1, 3] := by decide +kernel
  have h10 := h5.symm.trans h9
  revert h10
  decide

/-- The beginning `a/` is removed from all paths (`--transform`). -/
def strip (s : Str) : Str := if startsWith ['a', '/'] s then s.drop 2 else s

/-- A folder, and a file that has the path of the folder after the beginning is removed. -/
def nested : List Member := [⟨"a/d".toList, true, 0, some 5, []⟩, ⟨"a/a/d".toList, false, 3, some 7, [1, 2, 3]⟩]

/-- The folder is shown with the attributes of a folder, for all ways to rename. -/
def C211_transform_statement : Prop :=
  ∀ (transform : Str → Str) (z : List Member) (rs : List FRow), Archived z → index transform z = .ok rs →
    z.Pairwise (fun a b => place (transform a.filename) ≠ place (transform b.filename)) →
    ∀ m ∈ z, m.isDirectory = true → ∀ t, m.time = some t →
      mgetattr rs (src rs) (canonical (place (transform m.filename))) = .ok ⟨0o40777, m.data.length, t.toNat, 0, 0⟩

theorem nested_archived : Archived nested where
  times := by decide
  named := by decide
  sizes := by decide
  places := by decide
  folders := by
    intro m hm m' hm' n rest h
    simp only [nested, List.mem_cons, List.not_mem_nil, or_false] at hm hm'
    rcases hm with rfl | rfl
    · rfl
    · have h1 := congrArg List.length h
      rcases hm' with rfl | rfl <;> simp [at_, place, split, walk] at h1 <;> revert h1 <;> simp

/-- C211 with `--transform` is violated: the folder is taken for a hard link to what now has its old path, and is shown as that file. -/
theorem C211_transform_violated : ¬ C211_transform_statement := by
  intro h
  have hi : index strip nested = .ok [⟨[], "d".toList, 0, 0, 0, 5, 0o40777, "a/d".toList, 0, 0, false⟩,
      ⟨"/a".toList, "d".toList, 0, 0, 3, 7, 0o100777, "a/a/d".toList, 0, 0, false⟩] := by decide +kernel
  have h1 := h strip nested _ nested_archived hi (by decide) ⟨"a/d".toList, true, 0, some 5, []⟩ (by simp [nested]) rfl 5 rfl
  have h2 : mgetattr [⟨[], "d".toList, 0, 0, 0, 5, 0o40777, "a/d".toList, 0, 0, false⟩,
      ⟨"/a".toList, "d".toList, 0, 0, 3, 7, 0o100777, "a/a/d".toList, 0, 0, false⟩] (src [⟨[], "d".toList, 0, 0, 0, 5, 0o40777, "a/d".toList, 0, 0, false⟩,
      ⟨"/a".toList, "d".toList, 0, 0, 3, 7, 0o100777, "a/a/d".toList, 0, 0, false⟩]) (canonical (place (strip "a/d".toList))) =
      .ok ⟨0o100777, 3, 7, 0, 0⟩ := by decide +kernel
  have h3 := h1.symm.trans h2
  revert h3
  decide

end Verif.Fuse.SevenZipMount
