import Verif.Fuse.IndexMount
import Verif.Formats.Ar
import Verif.Tar.Header

/-!
# C196: files that are put into an AR archive and mounted are read back

`_parse_ar_archive` (`Verif.Formats.Ar`), the conversion to rows (ar.py:226-264), the index, the versions layer and the views of the archive
(`Verif.Fuse.IndexMount`) are put together.

Simplifications: `self.transform` is the identity; a negative size (the name of a member in BSD style is longer than the member) becomes 0.
-/

namespace Verif.Fuse.ArMount

open Verif.Py Verif.Index Verif.Fuse.IndexMount
open Verif.Tar (Bytes)
open Verif.Fuse.TarMount (Call start place mread mreaddir mlookup)
open Verif.Tar.Header (encodeStr)
open Verif.Compose (dotVersions)

/-! ## model -/

/-- `info.name.decode(self.index.encoding)` (ar.py:232) with the encoding UTF-8. -/
def decode (b : Bytes) : Except PyErr Str :=
  match b.toByteArray.utf8Decode? with
  | some a => .ok a.toList
  | none => .error .valueError

/-- `mode` of `_convert_to_row` (ar.py:227-230): `info.isdir()` is false for all entries. -/
def modeOf (e : Ar.Entry) : Nat :=
  (if e.mode = 0 then 0o660 else e.mode) ||| (if e.sym then 0o120000 else (if e.mode = 0 then 0o660 else e.mode)) ||| 0o100000

/-- The tuple (ar.py:232-256). -/
def convert (e : Ar.Entry) (name link : Str) : FRow :=
  ⟨(splitPath (normpath name)).1, (splitPath (normpath name)).2, e.offset, e.offsetData, e.size.toNat, e.mtime, modeOf e, link, e.uid, e.gid, false⟩

/-- `_convert_to_row` (ar.py:226-264). The link name of an entry that has none is empty. -/
def rowOf (e : Ar.Entry) : Except PyErr FRow :=
  match decode e.name with
  | .error err => .error err
  | .ok name =>
    match decode e.linkname with
    | .error err => .error err
    | .ok link => .ok (convert e name link)

/-- `[self._convert_to_row(info) for info in ...]` (ar.py:220-224). -/
def rowsOf : List Ar.Entry → Except PyErr (List FRow)
  | [] => .ok []
  | e :: es =>
    match rowOf e with
    | .error err => .error err
    | .ok r =>
      match rowsOf es with
      | .error err => .error err
      | .ok rs => .ok (r :: rs)

/-- The rows that are given to `set_file_infos` (ar.py:220-224). -/
def index (archive : Bytes) : Except PyErr (List FRow) :=
  match Ar.parse archive with
  | .error err => .error err
  | .ok es => rowsOf es

/-- Symbolic links are not opened (ar.py:280-281). -/
def refuse (mode : Nat) : Bool := mode &&& 0xF000 == 0xA000

/-! ## specification -/

/-- A file that is put into an archive. -/
structure File where
  name : Str
  mtime : Nat
  uid : Nat
  gid : Nat
  perm : Nat
  data : Bytes
  deriving DecidableEq, Repr

/-- How a file is written: its name in the header as it is, in the header with a slash after it, or in front of the data. The mode
is written with the bit of regular files or without. -/
inductive Written (f : File) : Ar.Member → Prop where
  | plain (b : Bool) : Written f ⟨.short (encodeStr f.name), f.mtime, f.uid, f.gid, if b then f.perm ||| 0o100000 else f.perm, f.data⟩
  | gnu (b : Bool) : Written f ⟨.short (encodeStr f.name ++ [47]), f.mtime, f.uid, f.gid, if b then f.perm ||| 0o100000 else f.perm, f.data⟩
  | bsd (b : Bool) : Written f ⟨.bsd (encodeStr f.name), f.mtime, f.uid, f.gid, if b then f.perm ||| 0o100000 else f.perm, f.data⟩

/-- An archive: files with what was written for them, and tables of symbols. -/
inductive Part where
  | file (f : File) (m : Ar.Member)
  | symbols (content : Bytes)

def Part.item : Part → Ar.Item
  | .file _ m => .member m
  | .symbols c => .symbols c

def Part.file? : Part → Option File
  | .file f _ => some f
  | .symbols _ => none

/-- The files of an archive, in order. -/
def filesOf (ps : List Part) : List File := ps.filterMap (fun p => p.file?)

def Part.Ok : Part → Prop
  | .file f m => Written f m ∧ f.perm < 4096 ∧ m.Valid
  | .symbols c => (Ar.Item.symbols c).Valid

/-- Every part was written properly, and no file is below another file. -/
structure Archived (ps : List Part) : Prop where
  ok : ∀ p ∈ ps, p.Ok
  tree : ∀ f ∈ filesOf ps, ∀ g ∈ filesOf ps, ∀ n rest, place g.name ≠ place f.name ++ n :: rest

/-- The bytes of the archive. -/
def bytesOf (ps : List Part) : Bytes := Ar.archive (ps.map (fun p => p.item))

/-- The last file with this place. -/
def lastFile (fs : List File) (ns : List Str) : Option File := (fs.filter (fun f => decide (place f.name = ns))).getLast?

/-- There is a file somewhere below the folder. -/
def Inside (fs : List File) (ns : List Str) : Prop := ∃ f ∈ fs, ∃ n rest, place f.name = ns ++ n :: rest

/-! ## lemmas -/

/-- The record of a file. -/
def recOf (f : File) : Rec := ⟨place f.name, f.perm ||| 0o100000, [], f.mtime, f.uid, f.gid, f.data⟩

theorem decode_encode (s : Str) : decode (encodeStr s) = .ok s := by
  have h : (encodeStr s).toByteArray = s.utf8Encode := rfl
  unfold decode
  rw [h, List.utf8Decode?_utf8Encode]

theorem encode_append (a b : Str) : encodeStr (a ++ b) = encodeStr a ++ encodeStr b := by
  unfold encodeStr
  rw [List.flatMap_append]

theorem place_slash (name : Str) : place (name ++ ['/']) = place name := by
  have h1 := TarMount.normpath_slashes name true
  rw [if_pos rfl, (C14_canonical _).1] at h1
  have h2 : walk [] (split '/' ('/' :: name ++ ['/'])) = place (name ++ ['/']) := by
    rw [List.cons_append, split_cons_eq]
    simp [walk, place]
  rw [h2] at h1
  exact TarMount.canonical_inj (TarMount.place_names _) (TarMount.place_names _) h1

/-- What is known about the member of a file. -/
theorem written_name {f : File} {m : Ar.Member} (h : Written f m) :
    ∃ s, decode (m.name.text none) = .ok s ∧ place s = place f.name := by
  cases h with
  | plain b => exact ⟨f.name, decode_encode _, rfl⟩
  | gnu b =>
    refine ⟨f.name ++ ['/'], ?_, place_slash _⟩
    have : encodeStr f.name ++ [47] = encodeStr (f.name ++ ['/']) := by
      rw [encode_append]; congr 1
    show decode (encodeStr f.name ++ [47]) = _
    rw [this]
    exact decode_encode _
  | bsd b => exact ⟨f.name, decode_encode _, rfl⟩

theorem written_rest {f : File} {m : Ar.Member} (h : Written f m) :
    m.mtime = f.mtime ∧ m.uid = f.uid ∧ m.gid = f.gid ∧ m.data = f.data ∧ m.mode ||| 0o100000 = f.perm ||| 0o100000 := by
  cases h with
  | _ b => cases b <;> simp [Nat.or_assoc]

theorem or_reg_ne (n : Nat) : n ||| 0o100000 ≠ 0 := by
  intro h
  have := congrArg (fun x => x.testBit 15) h
  simp only [Nat.testBit_or, Nat.zero_testBit] at this
  have h15 : Nat.testBit 0o100000 15 = true := by decide
  rw [h15] at this
  simp at this

/-- The row of the entry of a member. -/
theorem rowOf_entry {f : File} {m : Ar.Member} (h : Written f m) (pos : Nat) :
    ∃ r, rowOf (Ar.entryOf none pos m) = .ok r ∧ (r.path, r.name) = splitPath (canonical (place f.name)) ∧ r.oh = pos ∧
      r.offset = pos + 60 + m.name.front.length ∧ r.size = f.data.length ∧ (r.mtime, r.uid, r.gid) = (f.mtime, f.uid, f.gid) ∧
      r.mode = f.perm ||| 0o100000 ∧ r.link = [] := by
  obtain ⟨s, h1, h2⟩ := written_name h
  obtain ⟨w1, w2, w3, w4, w5⟩ := written_rest h
  have hd : decode ([] : Bytes) = .ok [] := decode_encode []
  refine ⟨convert (Ar.entryOf none pos m) s [], ?_, ?_, rfl, rfl, ?_, ?_, ?_, rfl⟩
  · unfold rowOf
    have e1 : (Ar.entryOf none pos m).name = m.name.text none := rfl
    have e2 : (Ar.entryOf none pos m).linkname = [] := rfl
    rw [e1, e2, h1, hd]
  · show splitPath (normpath s) = _
    rw [(C14_canonical s).1]
    show splitPath (canonical (place s)) = _
    rw [h2]
  · show ((m.data.length : Int)).toNat = _
    rw [w4, Int.toNat_natCast]
  · show (m.mtime, m.uid, m.gid) = _
    rw [w1, w2, w3]
  · show modeOf (Ar.entryOf none pos m) = _
    have hm : (Ar.entryOf none pos m).mode = f.perm ||| 0o100000 := w5
    have hs : (Ar.entryOf none pos m).sym = false := rfl
    unfold modeOf
    rw [hm, hs, if_neg (or_reg_ne _), if_neg (by simp)]
    simp [Nat.or_assoc]

theorem rowsOf_get (es : List Ar.Entry) (rs : List FRow) (h : ∀ (k : Nat) (e : Ar.Entry), es[k]? = some e → ∃ r, rowOf e = .ok r ∧ rs[k]? = some r)
    (hl : rs.length = es.length) : rowsOf es = .ok rs := by
  induction es generalizing rs with
  | nil =>
    cases rs with
    | nil => rfl
    | cons r rs => cases hl
  | cons e es ih =>
    cases rs with
    | nil => cases hl
    | cons r rs =>
      obtain ⟨r', h1, h2⟩ := h 0 e rfl
      cases h2
      have := ih rs (fun k e he => h (k + 1) e he) (by simpa using hl)
      unfold rowsOf
      rw [h1, this]

/-- Entries, files and rows. -/
theorem entries_rows (d : Bytes) (ps : List Part) : ∀ (pos : Nat), (∀ p ∈ ps, p.Ok) →
    ∃ rs, rowsOf (Ar.entries none pos (ps.map (fun p => p.item))) = .ok rs ∧ rs.length = (filesOf ps).length ∧
      (Ar.entries none pos (ps.map (fun p => p.item))).map (fun e => e.offset) = rs.map (fun r => r.oh) ∧
      (Ar.entries none pos (ps.map (fun p => p.item))).map (fun e => (d.drop e.offsetData).take e.size.toNat) =
        rs.map (fun r => Tar.readAt d r.offset r.size) ∧
      (Ar.members (ps.map (fun p => p.item))).map (fun m => m.data) = (filesOf ps).map (fun f => f.data) ∧
      ∀ (k : Nat) (f : File) (r : FRow), (filesOf ps)[k]? = some f → rs[k]? = some r →
        (r.path, r.name) = splitPath (canonical (place f.name)) ∧ r.size = f.data.length ∧
          (r.mtime, r.uid, r.gid) = (f.mtime, f.uid, f.gid) ∧ r.mode = f.perm ||| 0o100000 ∧ r.link = [] := by
  induction ps with
  | nil => intro pos _; exact ⟨[], rfl, rfl, rfl, rfl, rfl, by simp [filesOf]⟩
  | cons p ps ih =>
    intro pos hok
    cases p with
    | symbols c =>
      obtain ⟨rs, h⟩ := ih (pos + (Ar.symbols c).length) (fun p hp => hok p (List.mem_cons_of_mem _ hp))
      exact ⟨rs, h⟩
    | file f m =>
      obtain ⟨rs, h1, h2, h3, h4, h5, h6⟩ := ih (pos + m.bytes.length) (fun p hp => hok p (List.mem_cons_of_mem _ hp))
      obtain ⟨hw, -, -⟩ := hok (.file f m) (by simp)
      obtain ⟨r, g1, g2, g3, g4, g5, g6, g7, g8⟩ := rowOf_entry hw pos
      refine ⟨r :: rs, ?_, ?_, ?_, ?_, ?_, ?_⟩
      · show rowsOf (Ar.entryOf none pos m :: Ar.entries none (pos + m.bytes.length) _) = _
        unfold rowsOf
        rw [g1, h1]
      · show rs.length + 1 = (filesOf ps).length + 1
        rw [h2]
      · show pos :: _ = r.oh :: _
        rw [g3]
        exact congrArg _ h3
      · show (d.drop (pos + 60 + m.name.front.length)).take ((m.data.length : Int)).toNat :: _ = Tar.readAt d r.offset r.size :: _
        rw [g4, g5, Int.toNat_natCast, (written_rest hw).2.2.2.1]
        exact congrArg _ h4
      · show m.data :: _ = f.data :: _
        rw [(written_rest hw).2.2.2.1]
        exact congrArg _ h5
      · intro k f' r' hf hr
        cases k with
        | zero =>
          cases hf
          cases hr
          exact ⟨g2, g5, g6, g7, g8⟩
        | succ k => exact h6 k f' r' hf hr

theorem items_valid {ps : List Part} (h : ∀ p ∈ ps, p.Ok) : ∀ i ∈ ps.map (fun p => p.item), i.Valid := by
  intro i hi
  obtain ⟨p, hp, rfl⟩ := List.mem_map.mp hi
  have := h p hp
  cases p with
  | file f m => exact this.2.2
  | symbols c => exact this

theorem items_plain (ps : List Part) : ∀ i ∈ ps.map (fun p => p.item), i.Plain none := by
  intro i _
  cases i with
  | symbols c => trivial
  | member m => exact Ar.plain_none m.name

/-- The rows of an archive. -/
theorem index_spec {ps : List Part} (h : Archived ps) : ∃ rs, index (bytesOf ps) = .ok rs ∧
    ∀ bs : List (List Row), bs.flatten = toRows rs → Indexed refuse (bytesOf ps) ((filesOf ps).map recOf) rs bs := by
  have hp := Ar.parse_arch (ps.map (fun p => p.item)) []
  rw [List.append_nil] at hp
  obtain ⟨g1, g2, -, g4⟩ := Ar.parseLoop_items (Ar.archive (ps.map (fun p => p.item))) none (ps.map (fun p => p.item)) 8 [] [] (items_valid h.ok)
    (items_plain ps) (by simp [Ar.archive]) (by decide)
  obtain ⟨rs, h1, h2, h3, h4, h5, h6⟩ := entries_rows (bytesOf ps) ps 8 h.ok
  refine ⟨rs, ?_, ?_⟩
  · unfold index bytesOf
    rw [hp, g1, if_pos rfl]
    exact h1
  · intro bs hbs
    have hdata : rs.map (fun r => Tar.readAt (bytesOf ps) r.offset r.size) = (filesOf ps).map (fun f => f.data) := by
      rw [← h4, ← h5]
      have := congrArg (List.map (fun s : Ar.Shown => s.data)) g2
      rw [List.map_map, List.map_map] at this
      exact this
    have hinc : (rs.map (fun r => r.oh)).Pairwise (· < ·) := by
      rw [← h3, List.pairwise_map]
      exact g4
    constructor
    · intro p hp
      obtain ⟨f, -, rfl⟩ := List.mem_map.mp hp
      exact TarMount.place_names _
    · rw [h2, List.length_map]
    · intro k p r hk hr
      rw [List.getElem?_map, Option.map_eq_some_iff] at hk
      obtain ⟨f, hf, rfl⟩ := hk
      obtain ⟨e1, e2, e3, e4, e5⟩ := h6 k f r hf hr
      have e6 : Tar.readAt (bytesOf ps) r.offset r.size = f.data := by
        have := congrArg (fun l => l[k]?) hdata
        simp only [List.getElem?_map, hf, hr, Option.map_some, Option.some.injEq] at this
        exact this
      refine ⟨e1, e2, e4, e5, e3, .inr e6, .inr ?_⟩
      have := congrArg List.length e6
      unfold Tar.readAt at this
      rw [List.length_take, List.length_drop, ← e2] at this
      omega
    · intro i j r r' hij hr hr' _ _
      rw [List.pairwise_map] at hinc
      have hi := (List.getElem?_eq_some_iff.mp hr)
      have hj := (List.getElem?_eq_some_iff.mp hr')
      have := List.pairwise_iff_getElem.mp hinc i j hi.1 hj.1 hij
      rw [hi.2, hj.2] at this
      exact this
    · rintro p hp ⟨q, hq, n, rest, he⟩
      obtain ⟨f, hf, rfl⟩ := List.mem_map.mp hp
      obtain ⟨g, hg, rfl⟩ := List.mem_map.mp hq
      exact absurd he (h.tree f hf g hg n rest)
    · intro q; rw [hbs]

theorem isHard_rec (f : File) (h : f.perm < 4096) : (recOf f).isHard = false ∧ refuse (recOf f).mode = false := by
  have : (f.perm ||| 0o100000) &&& 0xF000 = 0x8000 := by
    rw [show (0o100000 : Nat) = 8 * 4096 by decide, and_fmt, typeBits_or f.perm 8 h (by decide)]
  unfold Rec.isHard refuse recOf
  simp only [this]
  decide

theorem perm_of {ps : List Part} (h : Archived ps) : ∀ f ∈ filesOf ps, f.perm < 4096 := by
  intro f hf
  obtain ⟨p, hp, he⟩ := List.mem_filterMap.mp hf
  cases p with
  | symbols c => cases he
  | file g m =>
    cases he
    exact (h.ok _ hp).2.1

theorem lastAt_map (fs : List File) (ns : List Str) : lastAt (fs.map recOf) ns = (lastFile fs ns).map recOf := by
  unfold lastAt lastFile
  rw [List.filter_map, List.getLast?_map]
  rfl

theorem below_map (fs : List File) (ns : List Str) : Below (fs.map recOf) ns ↔ Inside fs ns := by
  constructor
  · rintro ⟨p, hp, n, rest, he⟩
    obtain ⟨f, hf, rfl⟩ := List.mem_map.mp hp
    exact ⟨f, hf, n, rest, he⟩
  · rintro ⟨f, hf, n, rest, he⟩
    exact ⟨_, List.mem_map.mpr ⟨f, hf, rfl⟩, n, rest, he⟩

theorem reaches {ps : List Part} (h : Archived ps) {ns : List Str} (hne : ns ≠ []) {f : File} (hl : lastFile (filesOf ps) ns = some f) :
    Reaches ((filesOf ps).map recOf) 0 ns (recOf f) := by
  refine .here _ _ hne ?_ ?_
  · rw [lastAt_map, hl]; rfl
  · have hm := List.mem_of_getLast? hl
    exact (isHard_rec f (perm_of h f (List.mem_filter.mp hm).1)).1

theorem indexed {ps : List Part} (h : Archived ps) {rs : List FRow} (hi : index (bytesOf ps) = .ok rs) :
    Indexed refuse (bytesOf ps) ((filesOf ps).map recOf) rs [toRows rs] := by
  obtain ⟨rs', h1, h2⟩ := index_spec h
  rw [hi] at h1
  cases h1
  exact h2 [toRows rs] (by simp)

theorem last_perm {ps : List Part} (h : Archived ps) {ns : List Str} {f : File} (hl : lastFile (filesOf ps) ns = some f) : f.perm < 4096 :=
  perm_of h f (List.mem_filter.mp (List.mem_of_getLast? hl)).1

/-! ## C196 -/

/-- **C196** Every archive of files can be mounted: there is one row for each file. -/
theorem C196_mounts {ps : List Part} (h : Archived ps) : ∃ rs, index (bytesOf ps) = .ok rs ∧ rs.length = (filesOf ps).length := by
  obtain ⟨rs, h1, h2⟩ := index_spec h
  refine ⟨rs, h1, ?_⟩
  have := (h2 [toRows rs] (by simp)).length
  rw [List.length_map] at this
  exact this

/-- **C196** After any calls, the last file with a path can be opened, and all reads return its bytes, whatever else is called in between. -/
theorem C196_read {ps : List Part} (h : Archived ps) {rs : List FRow} (hi : index (bytesOf ps) = .ok rs) {ns : List Str}
    (hn : ∀ x ∈ ns, IsName x) (hne : ns ≠ []) {f : File} (hl : lastFile (filesOf ps) ns = some f) (before : List Call) :
    ∃ m fh, mopen refuse rs (source rs [toRows rs]) (calls refuse rs (source rs [toRows rs]) (start (bytesOf ps)) before) (canonical ns) = (m, .ok fh) ∧
      ∀ (between : List Call) (size offset : Nat),
        (mread (calls refuse rs (source rs [toRows rs]) m between) fh size offset).2 = .ok ((f.data.drop offset).take size) :=
  reads (indexed h hi) (reaches h hne hl) (by decide) hn (isHard_rec f (last_perm h hl)).2 before

/-- **C196** Its attributes are those of the file: a regular file with its permissions, size, time and owner. It is no link. -/
theorem C196_attributes {ps : List Part} (h : Archived ps) {rs : List FRow} (hi : index (bytesOf ps) = .ok rs) {ns : List Str}
    (hn : ∀ x ∈ ns, IsName x) (hne : ns ≠ []) {f : File} (hl : lastFile (filesOf ps) ns = some f) :
    mgetattr rs (source rs [toRows rs]) (canonical ns) = .ok ⟨f.perm ||| 0o100000, f.data.length, f.mtime, f.uid, f.gid⟩ ∧
      mreadlink (source rs [toRows rs]) (canonical ns) = .ok [] :=
  attributes (indexed h hi) (reaches h hne hl) (by decide) hn

/-- **C196** The folders in the names of files exist. -/
theorem C196_folder {ps : List Part} (h : Archived ps) {rs : List FRow} (hi : index (bytesOf ps) = .ok rs) {ns : List Str}
    (hn : ∀ x ∈ ns, IsName x) (hne : ns ≠ []) (hb : Inside (filesOf ps) ns) :
    mgetattr rs (source rs [toRows rs]) (canonical ns) = .ok ⟨0o40555, 0, 0, 0, 0⟩ := by
  refine folder (indexed h hi) hn hne ?_ ((below_map _ _).mpr hb)
  rw [lastAt_map]
  cases hl : lastFile (filesOf ps) ns with
  | none => rfl
  | some f =>
    exfalso
    have hm := List.mem_filter.mp (List.mem_of_getLast? hl)
    obtain ⟨g, hg, n, rest, he⟩ := hb
    exact h.tree f hm.1 g hg n rest (by rw [he, of_decide_eq_true hm.2])

/-- **C196** Nothing else exists. -/
theorem C196_absent {ps : List Part} (h : Archived ps) {rs : List FRow} (hi : index (bytesOf ps) = .ok rs) {ns : List Str}
    (hn : ∀ x ∈ ns, IsName x) (hne : ns ≠ []) (hv : ∀ x ∈ ns, endsWith dotVersions x = false)
    (hl : ∀ f ∈ filesOf ps, place f.name ≠ ns) (hb : ¬ Inside (filesOf ps) ns) (m : TarMount.Mount) :
    mgetattr rs (source rs [toRows rs]) (canonical ns) = .error (.os 2) ∧
      mopen refuse rs (source rs [toRows rs]) m (canonical ns) = (m, .error (.os 2)) := by
  refine absent (indexed h hi) hn hne hv ?_ (fun hc => hb ((below_map _ _).mp hc)) m
  rw [lastAt_map]
  cases hl' : lastFile (filesOf ps) ns with
  | none => rfl
  | some f =>
    have hm := List.mem_filter.mp (List.mem_of_getLast? hl')
    exact absurd (of_decide_eq_true hm.2) (hl f hm.1)

/-- **C196** Every folder, also the root, lists exactly the next parts of the paths of the files below it. -/
theorem C196_list {ps : List Part} (h : Archived ps) {rs : List FRow} (hi : index (bytesOf ps) = .ok rs) {ns : List Str}
    (hn : ∀ x ∈ ns, IsName x) (hv : ∀ x ∈ ns, endsWith dotVersions x = false) (n : Str) :
    n ∈ mreaddir (source rs [toRows rs]) (canonical ns) ↔
      n = ['.'] ∨ n = ['.', '.'] ∨ ∃ f ∈ filesOf ps, ∃ rest, place f.name = ns ++ n :: rest := by
  rw [lists (indexed h hi) hn hv]
  constructor
  · rintro (e | e | ⟨p, hp, rest, he⟩)
    · exact .inl e
    · exact .inr (.inl e)
    · obtain ⟨f, hf, rfl⟩ := List.mem_map.mp hp
      exact .inr (.inr ⟨f, hf, rest, he⟩)
  · rintro (e | e | ⟨f, hf, rest, he⟩)
    · exact .inl e
    · exact .inr (.inl e)
    · exact .inr (.inr ⟨_, List.mem_map.mpr ⟨f, hf, rfl⟩, rest, he⟩)

/-- **C196** No name is listed twice. -/
theorem C196_nodup {ps : List Part} (h : Archived ps) {rs : List FRow} (hi : index (bytesOf ps) = .ok rs) {ns : List Str}
    (hn : ∀ x ∈ ns, IsName x) (hv : ∀ x ∈ ns, endsWith dotVersions x = false) :
    (mreaddir (source rs [toRows rs]) (canonical ns)).Nodup :=
  once (indexed h hi) hn hv

/-- **C196** A name that is not UTF-8 makes the mount of the whole archive fail. -/
theorem C196_encoding (a b : List Ar.Entry) (e : Ar.Entry) (ha : ∀ x ∈ a, ∃ r, rowOf x = .ok r)
    (he : e.name.toByteArray.utf8Decode? = none) : rowsOf (a ++ e :: b) = .error .valueError := by
  induction a with
  | nil =>
    show rowsOf (e :: b) = _
    unfold rowsOf rowOf decode
    rw [he]
  | cons x a ih =>
    obtain ⟨r, hr⟩ := ha x (by simp)
    show rowsOf (x :: (a ++ e :: b)) = _
    unfold rowsOf
    rw [hr, ih (fun y hy => ha y (List.mem_cons_of_mem _ hy))]

/-! ## a concrete archive -/

def demo1 : File := ⟨"a.o".toList, 7, 1000, 100, 0o644, [1, 2, 3]⟩
def demo2 : File := ⟨"d/ä".toList, 8, 0, 0, 0o755, [4, 5]⟩
def demo3 : File := ⟨"a.o".toList, 9, 1, 2, 0o600, [6, 7, 8, 9]⟩

/-- A table of symbols, a file in the style of GNU, one with the name in front of the data, and a second version of the first. -/
def demo : List Part :=
  [.symbols [0, 0, 0, 0],
   .file demo1 ⟨.short [97, 46, 111, 47], 7, 1000, 100, 0o100644, [1, 2, 3]⟩,
   .file demo2 ⟨.bsd [100, 47, 195, 164], 8, 0, 0, 0o755, [4, 5]⟩,
   .file demo3 ⟨.short [97, 46, 111], 9, 1, 2, 0o600, [6, 7, 8, 9]⟩]

theorem demo_archived : Archived demo where
  ok := by
    intro p hp
    simp only [demo, List.mem_cons, List.not_mem_nil, or_false] at hp
    rcases hp with rfl | rfl | rfl | rfl
    · show (Ar.Item.symbols [0, 0, 0, 0]).Valid
      show (Ar.digits 10 4).length ≤ 10
      decide +kernel
    · refine ⟨?_, by decide, ?_⟩
      · have e : encodeStr demo1.name = [97, 46, 111] := by decide
        have := Written.gnu (f := demo1) true
        rw [e] at this
        exact this
      · unfold Ar.Member.Valid
        refine ⟨?_, ?_⟩
        · simp only [Ar.Name.Valid]
          decide +kernel
        · decide +kernel
    · refine ⟨?_, by decide, ?_⟩
      · have e : encodeStr demo2.name = [100, 47, 195, 164] := by decide
        have := Written.bsd (f := demo2) false
        rw [e] at this
        exact this
      · unfold Ar.Member.Valid
        refine ⟨?_, ?_⟩
        · simp only [Ar.Name.Valid]
          decide +kernel
        · decide +kernel
    · refine ⟨?_, by decide, ?_⟩
      · have e : encodeStr demo3.name = [97, 46, 111] := by decide
        have := Written.plain (f := demo3) false
        rw [e] at this
        exact this
      · unfold Ar.Member.Valid
        refine ⟨?_, ?_⟩
        · simp only [Ar.Name.Valid]
          decide +kernel
        · decide +kernel
  tree := by
    have hpl : ∀ f ∈ filesOf demo, place f.name = [['a', '.', 'o']] ∨ place f.name = [['d'], ['ä']] := by
      intro f hf
      simp only [demo, filesOf, List.filterMap_cons, Part.file?, List.filterMap_nil, List.mem_cons, List.not_mem_nil, or_false] at hf
      rcases hf with rfl | rfl | rfl
      · left; decide
      · right; decide
      · left; decide
    intro f hf g hg n rest he
    rcases hpl f hf with h1 | h1 <;> rcases hpl g hg with h2 | h2 <;> rw [h1, h2] at he <;> simp at he

theorem demo_last : lastFile (filesOf demo) [['a', '.', 'o']] = some demo3 := by decide

/-- C196: after other calls the second version of `a.o` is read. -/
example : ∃ rs, index (bytesOf demo) = .ok rs ∧ ∃ m fh, mopen refuse rs (source rs [toRows rs])
      (calls refuse rs (source rs [toRows rs]) (start (bytesOf demo)) [.open "/d/ä".toList, .read 1 10 0]) "/a.o".toList = (m, .ok fh) ∧
    (mread (calls refuse rs (source rs [toRows rs]) m [.read 1 1 1]) fh 2 1).2 = .ok [7, 8] := by
  obtain ⟨rs, h, -⟩ := C196_mounts demo_archived
  obtain ⟨m, fh, h1, h2⟩ := C196_read demo_archived h (ns := [['a', '.', 'o']]) (by unfold IsName; decide) (by decide) demo_last
    [.open "/d/ä".toList, .read 1 10 0]
  exact ⟨rs, h, m, fh, h1, h2 [.read 1 1 1] 2 1⟩

/-- C196: the attributes, the generated folder and a listing. -/
example (rs : List FRow) (h : index (bytesOf demo) = .ok rs) :
    mgetattr rs (source rs [toRows rs]) "/a.o".toList = .ok ⟨0o100600, 4, 9, 1, 2⟩ ∧
    mgetattr rs (source rs [toRows rs]) "/d".toList = .ok ⟨0o40555, 0, 0, 0, 0⟩ ∧
    ['ä'] ∈ mreaddir (source rs [toRows rs]) "/d".toList :=
  ⟨(C196_attributes demo_archived h (ns := [['a', '.', 'o']]) (by unfold IsName; decide) (by decide) demo_last).1,
    C196_folder demo_archived h (ns := [['d']]) (by unfold IsName; decide) (by decide) ⟨demo2, by decide, ['ä'], [], by decide⟩,
    (C196_list demo_archived h (ns := [['d']]) (by unfold IsName; decide) (by decide) ['ä']).mpr (.inr (.inr ⟨demo2, by decide, [], by decide⟩))⟩

/-- C196: the byte 255 is not UTF-8. -/
example : ([255] : Bytes).toByteArray.utf8Decode? = none := by decide

end Verif.Fuse.ArMount
