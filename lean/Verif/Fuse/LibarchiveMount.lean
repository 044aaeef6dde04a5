import Verif.Fuse.LibMount
import Verif.Formats.LibarchiveRows

/-!
# C203: an archive that is mounted with libarchive shows its files with their bytes

The members as libarchive gives them (`Verif.Formats.LibarchiveRows`), the rows, the index, the versions layer, the file objects that read members one
after the other and share a cache of archives (`Verif.Formats.Libarchive`), and the FUSE operations (`Verif.Fuse.LibMount`) are put together. The
archive is given by a path, so that opened archives do not disturb each other (C100 is about shared file objects). libarchive itself is not modelled.
-/

namespace Verif.Fuse.LibarchiveMount

open Verif.Py Verif.Index Verif.Fuse.IndexMount
open Verif.FileSpec (BytesIO)
open Verif.Tar (Bytes)
open Verif.Libarchive (Archive LibFile openFile insert)
open Verif.LibarchiveRows (Text Member Opts pathOf linkOf linkname modeOf timeOf sizeOf_ probed batched TimeIs)
open Verif.Fuse.LibMount (Lib Mount Serves mopen mread calls start)
open Verif.Fuse.ObjectMount (Listed)
open Verif.Fuse.TarMount (Call mreaddir mlookup)
open Verif.Compose (dotVersions)

/-! ## model -/

/-- The column of the link target (libarchive.py:134-137, 163). Bytes that cannot be decoded are not represented. -/
def linkText : Option Text → Str
  | some (.text s) => s
  | _ => []

/-- The tuple of `convert_to_row` (libarchive.py:119-173). The time in whole seconds; times before 1970 are not represented. -/
def columnsOf (o : Opts) (i : Nat) (m : Member) : Except PyErr FRow :=
  match sizeOf_ m with
  | .error e => .error e
  | .ok size =>
    match pathOf o m with
    | some (.text p) =>
      .ok ⟨(splitPath (normpath (o.transform p))).1, (splitPath (normpath (o.transform p))).2, i, 0, size, (timeOf m).1.toNat, modeOf o m,
        linkText (linkname (linkOf o m)), 0, 0, false⟩
    | _ => .error .typeError

/-- The loop over the members (libarchive.py:553-590); see `LibarchiveRows.rowsFrom`. The archive is not only a compressed file. -/
def columns (o : Opts) (delegate : Bool) : Nat → Bool → List Member → Except PyErr (List FRow)
  | _, _, [] => .ok []
  | i, tried, m :: ms =>
    match columnsOf o i m with
    | .error e => .error e
    | .ok r =>
      if !tried && probed o m && !m.readable && delegate then .error .compression
      else match columns o delegate (i + 1) (tried || probed o m) ms with
        | .error e => .error e
        | .ok rs => .ok (r :: rs)

/-- `_create_index` (libarchive.py:548-595). -/
def index (o : Opts) (delegate isTar : Bool) (ms : List Member) : Except PyErr (List FRow) :=
  match columns o delegate 0 false ms with
  | .error e => .error e
  | .ok rs => if ms = [] ∧ isTar then .error .compression else .ok rs

/-- The mount source; rows are inserted in portions (libarchive.py:588-593). -/
def src (rs : List FRow) : Compose.Source := source rs (batched 1000 [] (toRows rs))

/-- What libarchive gives for the members (libarchive.py:334-335). -/
def contents (ms : List Member) : List Bytes := ms.map (fun m => m.data)

/-- `_bufferSizeMax` (libarchive.py:374). -/
def chunk : Nat := 1024 * 1024

/-- `IterableArchiveCache()` (libarchive.py:339, 517). -/
def cacheSize : Nat := 5

/-- `LibarchiveFile` (libarchive.py:357-379). -/
structure File where
  member : Nat
  size : Nat
  file : LibFile UInt8

/-- `open` (libarchive.py:601-612): the member whose number is the offset of the header. If its contents cannot be read, filling the buffer
raises (libarchive.py:393, 415), and the archive goes back to the cache when the file object is deleted (libarchive.py:421-423). -/
def openRow (ms : List Member) (cache : List (Archive UInt8)) (r : FRow) : List (Archive UInt8) × Except PyErr File :=
  match openFile (contents ms) chunk r.oh r.size cache with
  | (.error e, cache) => (cache, .error e)
  | (.ok f, cache) =>
    if r.size ≠ 0 ∧ (ms[r.oh]?).any (fun m => !m.readable) then (insert cacheSize cache f.archive, .error .compression)
    else (cache, .ok ⟨r.oh, r.size, f⟩)

/-- `seek(offset)` and `read(size)` (libarchive.py:458-500). -/
def pread (ms : List Member) (cache : List (Archive UInt8)) (f : File) (size offset : Nat) : List (Archive UInt8) × File × Except PyErr Bytes :=
  match f.file.seek (contents ms) cacheSize chunk f.member f.size cache offset .set with
  | .error e => (cache, f, .error e)
  | .ok (_, g, cache) =>
    match g.read chunk f.size size with
    | .error e => (cache, ⟨f.member, f.size, g⟩, .error e)
    | .ok (d, g) => (cache, ⟨f.member, f.size, g⟩, .ok d)

/-- `close` (libarchive.py:421-430). -/
def close (cache : List (Archive UInt8)) (f : File) : List (Archive UInt8) := insert cacheSize cache f.file.archive

/-- The mount source (libarchive.py:510-612); all its files share the cache. -/
def lib (ms : List Member) : Lib (List (Archive UInt8)) File where
  openRow := openRow ms
  pread := pread ms
  close := close

/-! ## specification -/

/-- The place of a member in the tree. -/
def at_ (o : Opts) (m : Member) : List Str :=
  match pathOf o m with
  | some (.text p) => TarMount.place (o.transform p)
  | _ => []

/-- An archive: its names can be decoded, known sizes are right, and members with others below them are folders. -/
structure Archived (o : Opts) (ms : List Member) : Prop where
  sound : ∀ m ∈ ms, LibarchiveRows.Sound m
  named : ∀ m ∈ ms, ∃ p, pathOf o m = some (.text p)
  folders : ∀ m ∈ ms, ∀ m' ∈ ms, ∀ n rest, at_ o m' = at_ o m ++ n :: rest →
    ∃ d ∈ ms, at_ o d = at_ o m ∧ typeBits d.mode = 4 ∧ d.hardlinkW = none ∧ d.hardlink = none

/-- The last member with this place. -/
def lastMember (o : Opts) (ms : List Member) (ns : List Str) : Option Member := (ms.filter (fun m => decide (at_ o m = ns))).getLast?

/-! ## lemmas -/

/-- A member as a member of any archive. -/
def recOf (o : Opts) (m : Member) : Rec :=
  ⟨at_ o m, modeOf o m, linkText (linkname (linkOf o m)), (timeOf m).1.toNat, 0, 0, m.data⟩

theorem columnsOf_named {o : Opts} {i : Nat} {m : Member} (hs : LibarchiveRows.Sound m) {p : Str} (hp : pathOf o m = some (.text p)) :
    columnsOf o i m = .ok ⟨(splitPath (canonical (at_ o m))).1, (splitPath (canonical (at_ o m))).2, i, 0, m.data.length, (timeOf m).1.toNat,
      modeOf o m, linkText (linkname (linkOf o m)), 0, 0, false⟩ := by
  unfold columnsOf
  rw [LibarchiveRows.size_sound hs]
  simp only [hp, at_]
  rw [(C14_canonical (o.transform p)).1]
  rfl

theorem columns_ok {o : Opts} {delegate : Bool} : ∀ {ms : List Member} {i : Nat} {tried : Bool} {rs : List FRow},
    columns o delegate i tried ms = .ok rs →
    rs.length = ms.length ∧ ∀ (k : Nat) (m : Member) (r : FRow), ms[k]? = some m → rs[k]? = some r → columnsOf o (i + k) m = .ok r := by
  intro ms
  induction ms with
  | nil =>
    intro i tried rs h
    cases h
    exact ⟨rfl, fun k e r he => by simp at he⟩
  | cons m ms ih =>
    intro i tried rs h
    unfold columns at h
    cases hr : columnsOf o i m with
    | error x => rw [hr] at h; cases h
    | ok r =>
      rw [hr] at h
      simp only at h
      split at h
      · cases h
      · cases hs : columns o delegate (i + 1) (tried || probed o m) ms with
        | error x => rw [hs] at h; cases h
        | ok rs' =>
          rw [hs] at h
          cases h
          obtain ⟨h1, h2⟩ := ih hs
          refine ⟨by simp [h1], ?_⟩
          intro k e' r' he' hr'
          cases k with
          | zero =>
            simp only [List.getElem?_cons_zero, Option.some.injEq] at he' hr'
            subst he' hr'
            exact hr
          | succ k =>
            have := h2 k e' r' he' hr'
            rwa [show i + 1 + k = i + (k + 1) by omega] at this

theorem columns_total {o : Opts} {delegate : Bool} : ∀ {ms : List Member} {i : Nat} {tried : Bool},
    (∀ m ∈ ms, LibarchiveRows.Sound m ∧ (delegate = true → m.readable = true) ∧ ∃ p, pathOf o m = some (.text p)) →
    ∃ rs, columns o delegate i tried ms = .ok rs := by
  intro ms
  induction ms with
  | nil => intro i tried _; exact ⟨[], rfl⟩
  | cons m ms ih =>
    intro i tried h
    obtain ⟨h1, h2, p, hp⟩ := h m List.mem_cons_self
    obtain ⟨rs, hrs⟩ := ih (i := i + 1) (tried := tried || probed o m) (fun x hx => h x (List.mem_cons_of_mem _ hx))
    have hr : ∃ r, columnsOf o i m = .ok r := ⟨_, columnsOf_named h1 hp⟩
    obtain ⟨r, hr⟩ := hr
    refine ⟨r :: rs, ?_⟩
    unfold columns
    rw [hr]
    simp only
    rw [if_neg, hrs]
    intro hc
    simp only [Bool.and_eq_true, Bool.not_eq_true'] at hc
    rw [h2 hc.2] at hc
    exact absurd hc.1.2 (by simp)

theorem index_ok {o : Opts} {delegate isTar : Bool} {ms : List Member} {rs : List FRow} (h : index o delegate isTar ms = .ok rs) :
    columns o delegate 0 false ms = .ok rs := by
  unfold index at h
  cases hc : columns o delegate 0 false ms with
  | error e => rw [hc] at h; cases h
  | ok rs' =>
    rw [hc] at h
    simp only at h
    split at h
    · cases h
    · cases h; rfl

/-- The row of a member. -/
theorem row_of {o : Opts} {delegate isTar : Bool} {ms : List Member} {rs : List FRow} (h : Archived o ms) (hi : index o delegate isTar ms = .ok rs)
    {k : Nat} {m : Member} {r : FRow} (hk : ms[k]? = some m) (hr : rs[k]? = some r) :
    r = ⟨(splitPath (canonical (at_ o m))).1, (splitPath (canonical (at_ o m))).2, k, 0, m.data.length, (timeOf m).1.toNat,
      modeOf o m, linkText (linkname (linkOf o m)), 0, 0, false⟩ := by
  have hm := List.mem_of_getElem? hk
  obtain ⟨p, hp⟩ := h.named m hm
  have h1 := (columns_ok (index_ok hi)).2 k m r hk hr
  rw [columnsOf_named (h.sound m hm) hp, Nat.zero_add] at h1
  cases h1
  rfl

/-- The row is that of a member. -/
theorem row_mem {o : Opts} {delegate isTar : Bool} {ms : List Member} {rs : List FRow} (h : Archived o ms) (hi : index o delegate isTar ms = .ok rs)
    {r : FRow} (hr : r ∈ rs) : ∃ m, ms[r.oh]? = some m ∧ r.size = m.data.length := by
  obtain ⟨k, hk⟩ := List.getElem?_of_mem hr
  have hlen := (columns_ok (index_ok hi)).1
  have hlt : k < ms.length := by rw [← hlen]; exact (List.getElem?_eq_some_iff.mp hk).1
  have he := row_of h hi (List.getElem?_eq_getElem hlt) hk
  subst he
  exact ⟨ms[k], List.getElem?_eq_getElem hlt, rfl⟩

theorem at_names (o : Opts) (m : Member) : ∀ x ∈ at_ o m, IsName x := by
  unfold at_
  split
  · exact TarMount.place_names _
  · intro x hx; cases hx

theorem folder_link {o : Opts} {d : Member} (ht : typeBits d.mode = 4) (h1 : d.hardlinkW = none) (h2 : d.hardlink = none) :
    dirBit (modeOf o d) = true := by
  have hns : LibarchiveRows.isSymlink d = false := by
    cases hx : LibarchiveRows.isSymlink d with
    | false => rfl
    | true => have := (LibarchiveRows.symlink_iff d).mp hx; omega
  have hl : linkname (linkOf o d) = none := by
    unfold linkOf
    rw [hns, if_neg (by simp), h1, h2]
    rfl
  unfold modeOf LibarchiveRows.typeOf
  rw [hl]
  simp only
  rw [if_pos ((LibarchiveRows.directory_iff d).mpr ht)]
  unfold dirBit
  rw [Nat.testBit_or, show Nat.testBit 0x4000 14 = true from rfl, Bool.or_true]

theorem indexed {o : Opts} {delegate isTar : Bool} {ms : List Member} {rs : List FRow} (h : Archived o ms) (hi : index o delegate isTar ms = .ok rs) :
    Listed (ms.map (recOf o)) rs (batched 1000 [] (toRows rs)) := by
  have hlen := (columns_ok (index_ok hi)).1
  refine ⟨?_, by rw [hlen, List.length_map], ?_, ?_, ?_, ?_⟩
  · intro p hp x hx
    obtain ⟨m, -, rfl⟩ := List.mem_map.mp hp
    exact at_names o m x hx
  · intro k p r hp hr
    rw [List.getElem?_map, Option.map_eq_some_iff] at hp
    obtain ⟨m, hm, rfl⟩ := hp
    have he := row_of h hi hm hr
    subst he
    exact ⟨rfl, rfl, rfl, rfl, rfl, .inl rfl, .inl rfl⟩
  · intro i j r r' hij hr hr' _ _
    have hj : j < ms.length := by rw [← hlen]; exact (List.getElem?_eq_some_iff.mp hr').1
    have e1 := row_of h hi (List.getElem?_eq_getElem (Nat.lt_trans hij hj)) hr
    have e2 := row_of h hi (List.getElem?_eq_getElem hj) hr'
    rw [e1, e2]
    exact hij
  · intro p hp hb
    obtain ⟨e, he, rfl⟩ := List.mem_map.mp hp
    obtain ⟨q, hq, n, rest, hpl⟩ := hb
    obtain ⟨e', he', rfl⟩ := List.mem_map.mp hq
    obtain ⟨d, hd, h1, h2, h3, h4⟩ := h.folders e he e' he' n rest hpl
    exact ⟨recOf o d, List.mem_map.mpr ⟨d, hd, rfl⟩, h1, folder_link h2 h3 h4⟩
  · intro q
    rw [LibarchiveRows.batched_flatten, List.nil_append]

theorem lastAt_eq (o : Opts) (ms : List Member) (ns : List Str) : lastAt (ms.map (recOf o)) ns = (lastMember o ms ns).map (recOf o) := by
  unfold lastAt lastMember
  rw [List.filter_map, List.getLast?_map]
  rfl

theorem mem_last {o : Opts} {ms : List Member} {ns : List Str} {m : Member} (h : lastMember o ms ns = some m) : m ∈ ms ∧ at_ o m = ns := by
  obtain ⟨h1, h2⟩ := List.mem_filter.mp (List.mem_of_getLast? h)
  exact ⟨h1, of_decide_eq_true h2⟩

theorem names_last {o : Opts} {ms : List Member} {ns : List Str} {m : Member} (h : lastMember o ms ns = some m) : ∀ x ∈ ns, IsName x := by
  rw [← (mem_last h).2]
  exact at_names o m

theorem perms_lt (m : Member) : m.mode &&& 0o777 < 4096 := Nat.lt_of_le_of_lt Nat.and_le_right (by decide)

theorem not_hard {o : Opts} {m : Member} : (recOf o m).isHard = false := by
  unfold Rec.isHard
  show (!(modeOf o m &&& 0xF000 == 0x8000) && !(modeOf o m &&& 0xF000 == 0xA000) && !(linkText (linkname (linkOf o m))).isEmpty) = false
  cases hl : linkname (linkOf o m) with
  | none => simp [linkText]
  | some t =>
    have hm : modeOf o m &&& 0xF000 = 0xA000 := by
      unfold modeOf LibarchiveRows.typeOf
      rw [hl]
      simp only
      rw [and_fmt, show (0xA000 : Nat) = 10 * 4096 from rfl, typeBits_or _ _ (perms_lt m) (by decide)]
    rw [hm]
    simp

theorem type_usual {o : Opts} {m : Member} (h : LibarchiveRows.Usual o m) : LibarchiveRows.typeOf o m = typeBits m.mode * 4096 := by
  unfold LibarchiveRows.typeOf
  rcases h with ⟨ht, t, hc, h1, h2⟩ | ⟨ht, hw, hb⟩
  · have hl : linkname (linkOf o m) = some t := by
      unfold linkOf
      rw [if_pos ((LibarchiveRows.symlink_iff m).mpr ht), hc, LibarchiveRows.linkname_some h1 h2]
    rw [hl, ht]
  · have hl : linkname (linkOf o m) = none := by
      unfold linkOf
      rw [if_neg (fun hx => by have := (LibarchiveRows.symlink_iff m).mp hx; omega), hw, hb]
      rfl
    rw [hl]
    simp only
    rcases ht with ht | ht
    · rw [if_pos ((LibarchiveRows.directory_iff m).mpr ht), ht]
    · rw [if_neg (fun hd => by have := (LibarchiveRows.directory_iff m).mp hd; omega), ht]

/-- The archives of the cache can be used. -/
def Cached (ms : List Member) (cache : List (Archive UInt8)) : Prop := ∀ a ∈ cache, a.Valid (contents ms)

/-- What is known of a file that was opened; files of empty members have no buffer. -/
def State (ms : List Member) : Option Bytes → File → Prop
  | none, f => f.file.io = none ∧ f.file.archive.Valid (contents ms)
  | some d, f => d ≠ [] ∧ (contents ms)[f.member]? = some d ∧ f.size = d.length ∧ ∃ p, p ≤ d.length ∧ Libarchive.At f.member d f.file p

theorem insert_cached {ms : List Member} {cache : List (Archive UInt8)} {a : Archive UInt8} (h : Cached ms cache) (ha : a.Valid (contents ms)) :
    Cached ms (insert cacheSize cache a) := by
  intro b hb
  rcases Libarchive.mem_insert hb with hb | rfl
  · exact h b hb
  · exact ha

theorem openFile_cached {ms : List Member} {cache : List (Archive UInt8)} (h : Cached ms cache) (k size : Nat) :
    Cached ms (openFile (contents ms) chunk k size cache).2 := by
  unfold openFile
  split
  next a cache' hc =>
  have hrest : Cached ms cache' := by
    split at hc
    · injection hc with _ h2
      subst h2
      exact h
    · next b rest hb =>
      injection hc with _ h2
      subst h2
      intro x hx
      exact h x ((Libarchive.take_some hb).2.2.1 x hx)
  split
  · exact hrest
  · exact hrest

/-- A seek to any position: behind the end, the position is the end. -/
theorem seek_any {ms : List Member} {d : Bytes} {f : LibFile UInt8} {k p : Nat} (hm : (contents ms)[k]? = some d) (hne : d ≠ [])
    {cache : List (Archive UInt8)} (hv : Cached ms cache) (h : Libarchive.At k d f p) (hp : p ≤ d.length) (offset : Nat) :
    ∃ g cache', f.seek (contents ms) cacheSize chunk k d.length cache offset .set = .ok (min offset d.length, g, cache') ∧
      Libarchive.At k d g (min offset d.length) ∧ Cached ms cache' := by
  have hc : 0 < chunk := by decide
  have htell := Libarchive.at_tell h
  unfold LibFile.seek
  rw [Libarchive.at_some h]
  simp only [Bool.false_eq_true, if_false, htell]
  by_cases hge : (offset : Int) ≥ p
  · rw [if_pos hge]
    unfold LibFile.skip
    rw [Libarchive.at_some h]
    obtain ⟨g, e1, e2⟩ := Libarchive.skipLoop_at chunk k hc d _ ((offset : Int) - p) f p (Nat.le_refl _) hp h (by omega)
    simp only [Bool.false_eq_true, if_false, e1]
    have hq : p + min ((offset : Int) - (p : Int)).toNat (d.length - p) = min offset d.length := by omega
    rw [hq] at e2
    exact ⟨g, cache, by rw [Libarchive.at_tell e2], e2, hv⟩
  · rw [if_neg hge]
    by_cases hin : (offset : Int) ≥ f.bufferOffset ∧ (offset : Int) < f.bufferOffset + f.buffer.length
    · rw [if_pos hin]
      have := Libarchive.at_move h ((offset : Int).toNat - f.bufferOffset) (by omega)
      have hq : f.bufferOffset + ((offset : Int).toNat - f.bufferOffset) = min offset d.length := by omega
      rw [hq] at this
      exact ⟨_, cache, by rw [Libarchive.at_tell this], this, hv⟩
    · rw [if_neg hin]
      have hv' := insert_cached hv (Libarchive.at_valid (entries := contents ms) h)
      obtain ⟨f1, e1, e2⟩ := Libarchive.openFile_ok (contents ms) chunk k d (insert cacheSize cache f.archive) hm hne hv'
      have hv'' := openFile_cached hv' k d.length
      split
      · next e c' he => rw [he] at e1; cases e1
      · next f2 c' he =>
        rw [he] at e1 hv''
        injection e1 with e1
        subst e1
        unfold LibFile.skip
        rw [Libarchive.at_some e2]
        obtain ⟨g, g1, g2⟩ := Libarchive.skipLoop_at chunk k hc d _ (max 0 (offset : Int)) f2 0 (Nat.le_refl _) (Nat.zero_le _) e2 (by omega)
        simp only [Bool.false_eq_true, if_false, g1]
        have hq : 0 + min (max 0 (offset : Int)).toNat (d.length - 0) = min offset d.length := by omega
        rw [hq] at g2
        exact ⟨g, c', by rw [Libarchive.at_tell g2], g2, hv''⟩

theorem pread_state {ms : List Member} {cache : List (Archive UInt8)} (hv : Cached ms cache) {d : Bytes} {f : File} (h : State ms (some d) f)
    (size offset : Nat) : (pread ms cache f size offset).2.2 = .ok ((d.drop offset).take size) ∧ Cached ms (pread ms cache f size offset).1 ∧
      State ms (some d) (pread ms cache f size offset).2.1 := by
  obtain ⟨hne, hm, hs, p, hp, hat⟩ := h
  obtain ⟨g, cache', h1, h2, h3⟩ := seek_any hm hne hv hat hp offset
  obtain ⟨g', h4, h5⟩ := Libarchive.readLoop_at chunk f.member (by decide) d (size : Int) (min offset d.length) (by omega) _ g 0 (Nat.le_refl _)
    (by omega) h2 (by omega)
  unfold pread
  rw [hs, h1]
  simp only
  have h6 : g.read chunk d.length (size : Int) = .ok (if (size : Int) < 0 then d.drop (min offset d.length) else (d.drop (min offset d.length)).take (size : Int).toNat, g') := h4
  rw [h6]
  simp only
  rw [if_neg (by omega)] at h5 ⊢
  refine ⟨?_, h3, hne, hm, rfl, _, ?_, h5⟩
  · rw [Int.toNat_natCast]
    congr 2
    by_cases hl : offset ≤ d.length
    · rw [Nat.min_eq_left hl]
    · rw [Nat.min_eq_right (by omega), List.drop_length, List.drop_eq_nil_of_le (by omega)]
  · omega

theorem openFile_empty {ms : List Member} {cache : List (Archive UInt8)} (hv : Cached ms cache) {k : Nat} (hm : (contents ms)[k]? = some []) :
    (openFile (contents ms) chunk k 0 cache).1 = .ok ⟨⟨k + 1, [], false⟩, 0, [], none⟩ := by
  unfold openFile
  split
  next a cache' h =>
    have hadv : Libarchive.advance (contents ms) k a = some ⟨k + 1, [], false⟩ := by
      split at h
      · injection h with h1 _
        subst h1
        exact Libarchive.advance_spec (contents ms) k _ [] hm (by intro h; cases h) (Nat.zero_le _)
      · next b rest hb =>
        injection h with h1 _
        subst h1
        obtain ⟨h1, h2, -, -⟩ := Libarchive.take_some hb
        exact Libarchive.advance_spec (contents ms) k _ [] hm (hv _ h1) (by omega)
    rw [hadv]
    rfl

theorem contents_get {ms : List Member} {k : Nat} {m : Member} (h : ms[k]? = some m) : (contents ms)[k]? = some m.data := by
  unfold contents
  rw [List.getElem?_map, h]
  rfl

/-- What happens if a row is opened. -/
theorem openRow_spec {ms : List Member} {cache : List (Archive UInt8)} (hv : Cached ms cache) {r : FRow} {m : Member} (hm : ms[r.oh]? = some m)
    (hs : r.size = m.data.length) : Cached ms (openRow ms cache r).1 ∧
      ((m.data = [] ∧ ∃ f, (openRow ms cache r).2 = .ok f ∧ State ms none f) ∨
        (m.data ≠ [] ∧ m.readable = true ∧ ∃ f, (openRow ms cache r).2 = .ok f ∧ State ms (some m.data) f) ∨
        (m.data ≠ [] ∧ m.readable = false ∧ (openRow ms cache r).2 = .error .compression)) := by
  have hg := contents_get hm
  have hcach := openFile_cached hv r.oh r.size
  by_cases hd : m.data = []
  · rw [hd] at hg
    have hs0 : r.size = 0 := by rw [hs, hd]; rfl
    have h1 := openFile_empty hv hg
    unfold openRow
    rw [hs0] at hcach ⊢
    cases ho : openFile (contents ms) chunk r.oh 0 cache with
    | mk a b =>
      rw [ho] at h1 hcach
      simp only at h1 hcach
      subst h1
      simp only
      rw [if_neg (by simp)]
      exact ⟨hcach, .inl ⟨hd, _, rfl, rfl, by intro h; cases h⟩⟩
  · obtain ⟨f, h1, h2⟩ := Libarchive.openFile_ok (contents ms) chunk r.oh m.data cache hg hd hv
    have hs0 : m.data.length ≠ 0 := by have := List.length_pos_iff.mpr hd; omega
    unfold openRow
    rw [hs] at hcach ⊢
    cases ho : openFile (contents ms) chunk r.oh m.data.length cache with
    | mk a b =>
      rw [ho] at h1 hcach
      simp only at h1 hcach
      subst h1
      simp only
      cases hr : m.readable with
      | true =>
        rw [if_neg (by rw [hm]; simp [hr])]
        exact ⟨hcach, .inr (.inl ⟨hd, rfl, _, rfl, hd, hg, rfl, 0, Nat.zero_le _, h2⟩)⟩
      | false =>
        rw [if_pos ⟨hs0, by rw [hm]; simp [hr]⟩]
        exact ⟨insert_cached hcach (Libarchive.at_valid h2), .inr (.inr ⟨hd, rfl, rfl⟩)⟩

theorem serves {o : Opts} {delegate isTar : Bool} {ms : List Member} {rs : List FRow} (h : Archived o ms) (hi : index o delegate isTar ms = .ok rs) :
    Serves (lib ms) rs (Cached ms) (State ms) (fun _ _ => True) where
  openJ := by
    intro g r hr hg
    obtain ⟨m, hm, hs⟩ := row_mem h hi hr
    exact (openRow_spec hg hm hs).1
  openI := by
    intro g r hr hg f hf
    obtain ⟨m, hm, hs⟩ := row_mem h hi hr
    have hf : (openRow ms g r).2 = .ok f := hf
    rcases (openRow_spec hg hm hs).2 with ⟨-, f', h1, h2⟩ | ⟨-, -, f', h1, h2⟩ | ⟨-, -, h1⟩
    · rw [h1] at hf; cases hf; exact ⟨_, h2⟩
    · rw [h1] at hf; cases hf; exact ⟨_, h2⟩
    · rw [h1] at hf; cases hf
  preadJ := by
    intro g d f size offset hg hd
    cases d with
    | none =>
      have he : pread ms g f size offset = (g, f, .error .runtimeError) := by
        unfold pread LibFile.seek
        rw [hd.1]
        rfl
      show Cached ms (pread ms g f size offset).1 ∧ State ms none (pread ms g f size offset).2.1
      rw [he]
      exact ⟨hg, hd⟩
    | some d => exact (pread_state hg hd size offset).2
  pread := by
    intro g d f size offset hg hd _
    exact (pread_state hg hd size offset).1
  closeJ := by
    intro g d f hg hd
    refine insert_cached hg ?_
    cases d with
    | none => exact hd.2
    | some d =>
      obtain ⟨-, -, -, p, -, hat⟩ := hd
      exact Libarchive.at_valid hat

theorem start_cached (ms : List Member) : Cached ms [] := by
  intro a ha
  cases ha

/-- The row of the last member with a place is that of a member with the same contents. -/
theorem row_last {o : Opts} {delegate isTar : Bool} {ms : List Member} {rs : List FRow} (h : Archived o ms) (hi : index o delegate isTar ms = .ok rs)
    {m : Member} {k : Nat} {r : FRow} (hk : (ms.map (recOf o))[k]? = some (recOf o m)) (hr : rs[k]? = some r) :
    ∃ m', ms[r.oh]? = some m' ∧ r.size = m'.data.length ∧ m'.data = m.data ∧ at_ o m' = at_ o m := by
  rw [List.getElem?_map, Option.map_eq_some_iff] at hk
  obtain ⟨m', hm', he⟩ := hk
  have hrow := row_of h hi hm' hr
  subst hrow
  exact ⟨m', hm', rfl, congrArg (fun p => p.data) he, congrArg (fun p => p.place) he⟩

theorem last_none {o : Opts} {ms : List Member} {ns : List Str} (hno : ∀ m ∈ ms, at_ o m ≠ ns) : lastAt (ms.map (recOf o)) ns = none := by
  unfold lastAt
  rw [List.getLast?_eq_none_iff, List.filter_eq_nil_iff]
  intro p hp
  obtain ⟨m, hm, rfl⟩ := List.mem_map.mp hp
  intro he
  exact hno m hm (of_decide_eq_true he)

/-! ## C203 -/

/-- The claim about the bytes, as it would be wanted: for all files. -/
def C203_statement : Prop :=
  ∀ (o : Opts) (delegate isTar : Bool) (ms : List Member) (rs : List FRow), Archived o ms → index o delegate isTar ms = .ok rs →
    (∀ m ∈ ms, m.readable = true) → ∀ (ns : List Str) (m : Member), ns ≠ [] → lastMember o ms ns = some m →
      ∃ mt fh, mopen (lib ms) rs (src rs) (start []) (canonical ns) = (mt, .ok fh) ∧
        ∀ size offset, (mread (lib ms) mt fh size offset).2 = .ok ((m.data.drop offset).take size)

/-- **C203** An archive is mounted if its names can be decoded, also if its contents cannot be read and this is not left to another backend. -/
theorem C203_mounts {o : Opts} {delegate isTar : Bool} {ms : List Member} (h : Archived o ms) (hr : delegate = true → ∀ m ∈ ms, m.readable = true)
    (hne : ms ≠ [] ∨ isTar = false) : ∃ rs, index o delegate isTar ms = .ok rs := by
  obtain ⟨rs, hs⟩ := columns_total (o := o) (delegate := delegate) (ms := ms) (i := 0) (tried := false)
    (fun m hm => ⟨h.sound m hm, fun hd => hr hd m hm, h.named m hm⟩)
  refine ⟨rs, ?_⟩
  unfold index
  rw [hs]
  simp only
  rw [if_neg]
  rintro ⟨h1, h2⟩
  rcases hne with hne | hne
  · exact hne h1
  · rw [hne] at h2; cases h2

/-- **C203** (partial): after any calls, every file that is not empty can be opened, and all reads return exactly the requested range of the contents
of the last member with the path, in whichever order they come, whatever else is opened, read and closed in between. Missing: empty files; see
`C203_violated`. -/
theorem C203_read_partial {o : Opts} {delegate isTar : Bool} {ms : List Member} {rs : List FRow} (h : Archived o ms)
    (hi : index o delegate isTar ms = .ok rs) {ns : List Str} (hne : ns ≠ []) {m : Member} (hl : lastMember o ms ns = some m) (hd : m.data ≠ [])
    (hr : ∀ m' ∈ ms, at_ o m' = ns → m'.readable = true) (before : List Call) :
    ∃ mt fh, mopen (lib ms) rs (src rs) (calls (lib ms) rs (src rs) (start []) before) (canonical ns) = (mt, .ok fh) ∧
      ∀ (between : List Call) (size offset : Nat), Call.release fh ∉ between →
        (mread (lib ms) (calls (lib ms) rs (src rs) mt between) fh size offset).2 = .ok ((m.data.drop offset).take size) := by
  have hla : lastAt (ms.map (recOf o)) ns = some (recOf o m) := by rw [lastAt_eq, hl]; rfl
  obtain ⟨mt, fh, h1, h2⟩ := LibMount.reads (serves h hi) (indexed h hi) hne (names_last hl) hla not_hard (data := m.data) (g₀ := [])
    (by
      intro k r hk hrk g hg
      obtain ⟨m', e1, e2, e3, e4⟩ := row_last h hi hk hrk
      rcases (openRow_spec hg e1 e2).2 with ⟨h0, -⟩ | ⟨-, -, f, h1, h2⟩ | ⟨-, h0, -⟩
      · exact absurd (e3.symm.trans h0) hd
      · rw [e3] at h2
        exact ⟨f, h1, h2⟩
      · rw [hr m' (List.mem_of_getElem? e1) (e4.trans (mem_last hl).2)] at h0
        cases h0) (start_cached ms) before
  exact ⟨mt, fh, h1, fun between size offset hb => h2 between size offset hb trivial⟩

/-- **C203** Files that cannot be read, for example because they are encrypted, cannot be opened. -/
theorem C203_refused {o : Opts} {delegate isTar : Bool} {ms : List Member} {rs : List FRow} (h : Archived o ms)
    (hi : index o delegate isTar ms = .ok rs) {ns : List Str} (hne : ns ≠ []) {m : Member} (hl : lastMember o ms ns = some m) (hd : m.data ≠ [])
    (hr : ∀ m' ∈ ms, at_ o m' = ns → m'.readable = false) (before : List Call) :
    (mopen (lib ms) rs (src rs) (calls (lib ms) rs (src rs) (start []) before) (canonical ns)).2 = .error (.os 5) := by
  have hla : lastAt (ms.map (recOf o)) ns = some (recOf o m) := by rw [lastAt_eq, hl]; rfl
  refine (LibMount.refused (L := lib ms) (indexed h hi) hne (names_last hl) hla not_hard _ ?_).1
  intro k r hk hrk
  obtain ⟨m', e1, e2, e3, e4⟩ := row_last h hi hk hrk
  obtain ⟨hg, -⟩ := LibMount.calls_good (serves h hi) (src rs) before (LibMount.start_good (start_cached ms))
  rcases (openRow_spec hg.1 e1 e2).2 with ⟨h0, -⟩ | ⟨-, h0, -⟩ | ⟨-, -, h0⟩
  · exact absurd (e3.symm.trans h0) hd
  · rw [hr m' (List.mem_of_getElem? e1) (e4.trans (mem_last hl).2)] at h0
    cases h0
  · exact ⟨_, h0⟩

/-- **C203** (partial): files, folders and symbolic links have their type and permissions, their size, and the time of the last modification, or else
of the last change or the creation. Missing: hard links and special files; see `C165_violated`. -/
theorem C203_attributes_partial {o : Opts} {delegate isTar : Bool} {ms : List Member} {rs : List FRow} (h : Archived o ms)
    (hi : index o delegate isTar ms = .ok rs) {ns : List Str} (hne : ns ≠ []) {m : Member} (hl : lastMember o ms ns = some m)
    (hu : LibarchiveRows.Usual o m) :
    ∃ t : Int × Nat, TimeIs m t ∧ mgetattr rs (src rs) (canonical ns) = .ok ⟨m.mode % 512 + typeBits m.mode * 4096, m.data.length, t.1.toNat, 0, 0⟩ := by
  have hla : lastAt (ms.map (recOf o)) ns = some (recOf o m) := by rw [lastAt_eq, hl]; rfl
  refine ⟨timeOf m, LibarchiveRows.time_is m, (ObjectMount.attributes (indexed h hi) hne (names_last hl) hla not_hard).1.trans ?_⟩
  have hmode : modeOf o m = m.mode % 512 + typeBits m.mode * 4096 := by
    unfold modeOf
    rw [type_usual hu, show (0o777 : Nat) = 2 ^ 9 - 1 from rfl, Nat.and_two_pow_sub_one_eq_mod, Nat.or_comm, Nat.mul_comm, Nat.add_comm]
    exact (Nat.two_pow_add_eq_or_of_lt (i := 12) (by omega) _).symm
  rw [← hmode]
  rfl

/-- **C203** The target of a link is that of the last member with the path; what is neither a symbolic nor a hard link has none. -/
theorem C203_link {o : Opts} {delegate isTar : Bool} {ms : List Member} {rs : List FRow} (h : Archived o ms)
    (hi : index o delegate isTar ms = .ok rs) {ns : List Str} (hne : ns ≠ []) {m : Member} (hl : lastMember o ms ns = some m) :
    (∀ s, s ≠ [] → typeBits m.mode = 10 → m.symlinkW = some s → mreadlink (src rs) (canonical ns) = .ok s) ∧
      (typeBits m.mode ≠ 10 → m.hardlinkW = none → m.hardlink = none → mreadlink (src rs) (canonical ns) = .ok []) := by
  have hla : lastAt (ms.map (recOf o)) ns = some (recOf o m) := by rw [lastAt_eq, hl]; rfl
  have ha := (ObjectMount.attributes (indexed h hi) hne (names_last hl) hla not_hard).2
  have ha : mreadlink (src rs) (canonical ns) = .ok (linkText (linkname (linkOf o m))) := ha
  constructor
  · intro s hs ht hw
    rw [ha]
    unfold linkOf
    rw [if_pos ((LibarchiveRows.symlink_iff m).mpr ht), hw]
    cases s with
    | nil => exact absurd rfl hs
    | cons c cs => rfl
  · intro ht hw hb
    rw [ha]
    unfold linkOf
    rw [if_neg (fun hx => ht ((LibarchiveRows.symlink_iff m).mp hx)), hw, hb]
    rfl

/-- **C203** Folders without a member of their own are shown. -/
theorem C203_folder {o : Opts} {delegate isTar : Bool} {ms : List Member} {rs : List FRow} (h : Archived o ms)
    (hi : index o delegate isTar ms = .ok rs) {ns : List Str} (hn : ∀ x ∈ ns, IsName x) (hne : ns ≠ []) (hno : ∀ m ∈ ms, at_ o m ≠ ns)
    (hb : ∃ m ∈ ms, ∃ n rest, at_ o m = ns ++ n :: rest) : mgetattr rs (src rs) (canonical ns) = .ok ⟨0o40555, 0, 0, 0, 0⟩ := by
  refine folder (indexed h hi) hn hne (last_none hno) ?_
  obtain ⟨m, hm, n, rest, hpl⟩ := hb
  exact ⟨recOf o m, List.mem_map.mpr ⟨m, hm, rfl⟩, n, rest, hpl⟩

/-- **C203** What is neither a member nor a folder of one does not exist. -/
theorem C203_absent {o : Opts} {delegate isTar : Bool} {ms : List Member} {rs : List FRow} (h : Archived o ms)
    (hi : index o delegate isTar ms = .ok rs) {ns : List Str} (hn : ∀ x ∈ ns, IsName x) (hne : ns ≠ [])
    (hv : ∀ x ∈ ns, endsWith dotVersions x = false) (hno : ∀ m ∈ ms, ∀ rest, at_ o m ≠ ns ++ rest) (mt : Mount (List (Archive UInt8)) File) :
    mgetattr rs (src rs) (canonical ns) = .error (.os 2) ∧ mopen (lib ms) rs (src rs) mt (canonical ns) = (mt, .error (.os 2)) := by
  refine LibMount.absent (indexed h hi) hn hne hv (last_none (fun m hm => by have := hno m hm []; rwa [List.append_nil] at this)) ?_ mt
  rintro ⟨p, hp, n, rest, hpl⟩
  obtain ⟨m, hm, rfl⟩ := List.mem_map.mp hp
  exact hno m hm (n :: rest) hpl

/-- **C203** A listing has exactly the names that come next in the places of the members. -/
theorem C203_list {o : Opts} {delegate isTar : Bool} {ms : List Member} {rs : List FRow} (h : Archived o ms)
    (hi : index o delegate isTar ms = .ok rs) {ns : List Str} (hn : ∀ x ∈ ns, IsName x) (hv : ∀ x ∈ ns, endsWith dotVersions x = false) (n : Str) :
    n ∈ mreaddir (src rs) (canonical ns) ↔ n = ['.'] ∨ n = ['.', '.'] ∨ ∃ m ∈ ms, ∃ rest, at_ o m = ns ++ n :: rest := by
  unfold src
  rw [lists (indexed h hi) hn hv]
  constructor
  · rintro (h | h | ⟨p, hp, rest, hpl⟩)
    · exact .inl h
    · exact .inr (.inl h)
    · obtain ⟨m, hm, rfl⟩ := List.mem_map.mp hp
      exact .inr (.inr ⟨m, hm, rest, hpl⟩)
  · rintro (h | h | ⟨m, hm, rest, hpl⟩)
    · exact .inl h
    · exact .inr (.inl h)
    · exact .inr (.inr ⟨recOf o m, List.mem_map.mpr ⟨m, hm, rfl⟩, rest, hpl⟩)

/-- **C203** No name is listed twice. -/
theorem C203_nodup {o : Opts} {delegate isTar : Bool} {ms : List Member} {rs : List FRow} (h : Archived o ms)
    (hi : index o delegate isTar ms = .ok rs) {ns : List Str} (hn : ∀ x ∈ ns, IsName x) (hv : ∀ x ∈ ns, endsWith dotVersions x = false) :
    (mreaddir (src rs) (canonical ns)).Nodup := once (indexed h hi) hn hv

/-! ### examples -/

/-- A folder, two files in it, one of which is empty, and a newer version of the other. -/
def demo : List Member :=
  [⟨some "d/".toList, none, 0o40755, none, none, none, none, some 0, some (3, 0), none, none, true, []⟩,
    LibarchiveRows.demoMember "d/a".toList [1, 2], LibarchiveRows.demoMember "d/b".toList [], LibarchiveRows.demoMember "d/a".toList [3, 4, 5]]

theorem demo_archived : Archived LibarchiveRows.demoOpts demo := by
  refine ⟨?_, ?_, ?_⟩
  · intro m hm
    simp only [demo, List.mem_cons, List.not_mem_nil, or_false] at hm
    rcases hm with rfl | rfl | rfl | rfl
    · exact ⟨fun n h => by cases h; rfl, fun h => by cases h⟩
    · exact LibarchiveRows.sound_member _ _
    · exact LibarchiveRows.sound_member _ _
    · exact LibarchiveRows.sound_member _ _
  · intro m hm
    simp only [demo, List.mem_cons, List.not_mem_nil, or_false] at hm
    rcases hm with rfl | rfl | rfl | rfl
    · exact ⟨"d/".toList, rfl⟩
    · exact ⟨"d/a".toList, rfl⟩
    · exact ⟨"d/b".toList, rfl⟩
    · exact ⟨"d/a".toList, rfl⟩
  · intro m hm m' hm' n rest he
    have h1 : at_ LibarchiveRows.demoOpts m = ["d".toList] ∨ ∃ x, at_ LibarchiveRows.demoOpts m = ["d".toList, x] := by
      simp only [demo, List.mem_cons, List.not_mem_nil, or_false] at hm
      rcases hm with rfl | rfl | rfl | rfl
      · exact .inl (by decide +kernel)
      · exact .inr ⟨"a".toList, by decide +kernel⟩
      · exact .inr ⟨"b".toList, by decide +kernel⟩
      · exact .inr ⟨"a".toList, by decide +kernel⟩
    have h2 : (at_ LibarchiveRows.demoOpts m').length ≤ 2 := by
      simp only [demo, List.mem_cons, List.not_mem_nil, or_false] at hm'
      rcases hm' with rfl | rfl | rfl | rfl <;> decide +kernel
    rcases h1 with h1 | ⟨x, h1⟩
    · exact ⟨_, List.mem_cons_self, by rw [h1]; decide +kernel, by decide, rfl, rfl⟩
    · rw [he, h1] at h2
      simp at h2

/-- The rows of the example. -/
def demoRows : List FRow :=
  [⟨[], "d".toList, 0, 0, 0, 3, 0o40755, [], 0, 0, false⟩, ⟨"/d".toList, "a".toList, 1, 0, 2, 5, 0o100644, [], 0, 0, false⟩,
    ⟨"/d".toList, "b".toList, 2, 0, 0, 5, 0o100644, [], 0, 0, false⟩, ⟨"/d".toList, "a".toList, 3, 0, 3, 5, 0o100644, [], 0, 0, false⟩]

theorem demo_index : index LibarchiveRows.demoOpts false true demo = .ok demoRows := by decide +kernel

example : mreaddir (src demoRows) "/d".toList = [".".toList, "..".toList, "a".toList, "b".toList] ∧
    mgetattr demoRows (src demoRows) "/d/a".toList = .ok ⟨0o100644, 3, 5, 0, 0⟩ := by decide +kernel

example : (mread (lib demo) (mopen (lib demo) demoRows (src demoRows) (start []) "/d/a".toList).1 1 5 1).2 = .ok [4, 5] := by decide +kernel

/-- **C203 is violated by the code**: reading an empty file is an error. -/
theorem C203_violated : ¬ C203_statement := by
  intro h
  obtain ⟨mt, fh, h1, h2⟩ := h LibarchiveRows.demoOpts false true demo demoRows demo_archived demo_index (by decide) ["d".toList, "b".toList]
    (LibarchiveRows.demoMember "d/b".toList []) (by simp) (by decide +kernel)
  have e1 : (mopen (lib demo) demoRows (src demoRows) (start []) (canonical ["d".toList, "b".toList])).2 = .ok 1 := by decide +kernel
  have e2 : (mread (lib demo) (mopen (lib demo) demoRows (src demoRows) (start []) (canonical ["d".toList, "b".toList])).1 1 1 0).2 = .error .runtimeError := by
    decide +kernel
  rw [h1] at e1 e2
  cases e1
  have h3 := h2 1 0
  rw [e2] at h3
  cases h3

end Verif.Fuse.LibarchiveMount
