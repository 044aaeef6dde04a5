import Verif.Fuse.ObjectMount
import Verif.Formats.Zip

/-!
# C201: a ZIP archive that is mounted shows its files with their bytes

The entries of the central directory as `zipfile` reads them (`Verif.Formats.Zip`), the rows (zip.py:47-102), the index, the versions layer, and the file
objects of `zipfile` (`Verif.Fuse.ObjectMount`) are put together. `zipfile` itself is not modelled: an entry is given with its contents.
-/

namespace Verif.Fuse.ZipMount

open Verif.Py Verif.Index Verif.Fuse.IndexMount
open Verif.Fuse.ObjectMount (mopen mread calls start Listed)
open Verif.Zip (Entry Opts Password Content)
open Verif.Fuse.TarMount (Call mreaddir mlookup)
open Verif.Compose (dotVersions)

/-! ## model -/

/-- The tuple of `_convert_to_row` (zip.py:47-102). -/
def columnsOf (o : Opts) (pwd : Option Password) (e : Entry) : Except PyErr FRow :=
  match Zip.mtime e with
  | .error x => .error x
  | .ok t =>
    match Zip.linkname o pwd e with
    | .error x => .error x
    | .ok l => .ok ⟨(Zip.place o e).1, (Zip.place o e).2, e.offset, 0, e.size, t.toNat, Zip.mode e, l, 0, 0, false⟩

/-- The tuples of all entries (zip.py:44). -/
def columns (o : Opts) (pwd : Option Password) : List Entry → Except PyErr (List FRow)
  | [] => .ok []
  | e :: es =>
    match columnsOf o pwd e with
    | .error x => .error x
    | .ok r =>
      match columns o pwd es with
      | .error x => .error x
      | .ok rs => .ok (r :: rs)

/-- `__init__` (zip.py:27-45): the password that is set, and the rows. -/
def index (o : Opts) (z : List Entry) (passwords : List Password) : Except PyErr (Option Password × List FRow) :=
  match Zip.findPassword z passwords with
  | .error x => .error x
  | .ok pwd =>
    match columns o pwd z with
    | .error x => .error x
    | .ok rs => .ok (pwd, rs)

/-- The mount source; all rows are inserted at once (zip.py:43-45). -/
def src (rs : List FRow) : Compose.Source := source rs [toRows rs]

/-- `open` (zip.py:138-147): the entry is found by the offset of its header. Reading can fail later than opening; this is not distinguished. -/
def opener (z : List Entry) (pwd : Option Password) (r : FRow) : Except PyErr Content :=
  match (Zip.files z).get? (r.oh : Int) with
  | none => .error .keyError
  | some e => Zip.read pwd e

/-! ## specification -/

/-- The place of an entry in the tree. -/
def at_ (o : Opts) (e : Entry) : List Str := TarMount.place (o.transform e.filename)

/-- The mode that has to be shown: links, folders and files with their permissions, or the usual ones if none are stored. -/
def shownMode (e : Entry) : Nat :=
  (if Zip.storedMode e / 4096 = 10 then 0o120000 else if e.filename.getLast? = some '/' then 0o40000 else 0o100000) +
    (if Zip.storedMode e % 512 ≠ 0 then Zip.storedMode e % 512 else if e.filename.getLast? = some '/' then 0o770 else 0o660)

/-- Every entry can be read with this password, and links have a target. -/
def Readable (o : Opts) (pwd : Option Password) (z : List Entry) : Prop :=
  ∀ e ∈ z, ∃ d, e.data = some d ∧ (e.password = none ∨ ∃ k, e.password = some k ∧ pwd = some k) ∧
    (Zip.storedMode e / 4096 = 10 → ∃ s, o.decode d = some s)

/-- The last entry with this place. -/
def lastEntry (o : Opts) (z : List Entry) (ns : List Str) : Option Entry := (z.filter (fun e => decide (at_ o e = ns))).getLast?

/-- An archive: the sizes are those of the contents, no two entries share a header, entries for the same place are in the order of their
data, and entries that have others below them are folders. -/
structure Archived (o : Opts) (z : List Entry) : Prop where
  attrs : ∀ e ∈ z, e.attr < 2 ^ 32
  sizes : ∀ e ∈ z, ∀ d, e.data = some d → e.size = d.length
  headers : Zip.DistinctHeaders z
  ordered : z.Pairwise (fun a b => at_ o a = at_ o b → a.offset < b.offset)
  folders : ∀ e ∈ z, ∀ e' ∈ z, ∀ n rest, at_ o e' = at_ o e ++ n :: rest →
    ∃ d ∈ z, at_ o d = at_ o e ∧ Zip.storedMode d / 4096 ≠ 10 ∧ d.filename.getLast? = some '/'

/-! ## lemmas -/

/-- The contents; if `zipfile` cannot read them, only their length is known. -/
def contents (e : Entry) : Content := e.data.getD (List.replicate e.size 0)

/-- An entry as a member of an archive. -/
def recOf (o : Opts) (pwd : Option Password) (e : Entry) : Rec :=
  ⟨at_ o e, Zip.mode e, ((Zip.linkname o pwd e).toOption).getD [], (((Zip.mtime e).toOption).getD 0).toNat, 0, 0, contents e⟩

theorem typeBits_lt (e : Entry) : Zip.storedMode e < 65536 := by unfold Zip.storedMode; omega

theorem typeBits_eq (e : Entry) : typeBits (Zip.storedMode e) = Zip.storedMode e / 4096 := by
  have := typeBits_lt e
  unfold typeBits
  omega

theorem isDir_last (e : Entry) : Zip.isDirEntry e = true ↔ e.filename.getLast? = some '/' := by
  rw [Zip.isDirEntry_iff]
  constructor
  · rintro ⟨s, hs⟩
    rw [hs, List.getLast?_concat]
  · intro h
    obtain ⟨s, hs⟩ := List.getLast?_eq_some_iff.mp h
    exact ⟨s, hs⟩

theorem fileType_eq (e : Entry) (h : e.attr < 2 ^ 32) :
    Zip.fileType e = if Zip.storedMode e / 4096 = 10 then 0o120000 else if e.filename.getLast? = some '/' then 0o40000 else 0o100000 := by
  have hl := Zip.isLink_type e h
  rw [typeBits_eq] at hl
  unfold Zip.fileType
  simp only [hl, isDir_last]

theorem permissions_eq (e : Entry) (h : e.attr < 2 ^ 32) :
    Zip.permissions e = if Zip.storedMode e % 512 ≠ 0 then Zip.storedMode e % 512 else if e.filename.getLast? = some '/' then 0o770 else 0o660 := by
  unfold Zip.permissions
  rw [Zip.shifted e h, Zip.and_permissions]
  simp only [isDir_last, ne_eq, ite_not]

theorem mode_shown (e : Entry) (h : e.attr < 2 ^ 32) : Zip.mode e = shownMode e := by
  rw [Zip.mode_eq, permissions_eq e h, fileType_eq e h]
  unfold shownMode
  congr 1
  repeat' split
  all_goals rfl

/-- What is known about the columns of an entry. -/
theorem columnsOf_ok {o : Opts} {pwd : Option Password} {e : Entry} {r : FRow} (h : columnsOf o pwd e = .ok r) :
    ∃ t l, Zip.mtime e = .ok t ∧ Zip.linkname o pwd e = .ok l ∧
      r = ⟨(Zip.place o e).1, (Zip.place o e).2, e.offset, 0, e.size, t.toNat, Zip.mode e, l, 0, 0, false⟩ := by
  unfold columnsOf at h
  cases ht : Zip.mtime e with
  | error x => rw [ht] at h; cases h
  | ok t =>
    cases hl : Zip.linkname o pwd e with
    | error x => rw [ht, hl] at h; cases h
    | ok l =>
      rw [ht, hl] at h
      cases h
      exact ⟨t, l, rfl, rfl, rfl⟩

theorem columns_ok {o : Opts} {pwd : Option Password} : ∀ {z : List Entry} {rs : List FRow}, columns o pwd z = .ok rs →
    rs.length = z.length ∧ ∀ (k : Nat) (e : Entry) (r : FRow), z[k]? = some e → rs[k]? = some r → columnsOf o pwd e = .ok r := by
  intro z
  induction z with
  | nil =>
    intro rs h
    cases h
    exact ⟨rfl, fun k e r he => by simp at he⟩
  | cons e es ih =>
    intro rs h
    unfold columns at h
    cases hr : columnsOf o pwd e with
    | error x => rw [hr] at h; cases h
    | ok r =>
      cases hs : columns o pwd es with
      | error x => rw [hr, hs] at h; cases h
      | ok rs' =>
        rw [hr, hs] at h
        cases h
        obtain ⟨h1, h2⟩ := ih hs
        refine ⟨by simp [h1], ?_⟩
        intro k e' r' he' hr'
        cases k with
        | zero =>
          simp only [List.getElem?_cons_zero, Option.some.injEq] at he' hr'
          subst he' hr'
          exact hr
        | succ k => exact h2 k e' r' he' hr'

theorem columns_total {o : Opts} {pwd : Option Password} : ∀ {z : List Entry}, (∀ e ∈ z, ∃ r, columnsOf o pwd e = .ok r) →
    ∃ rs, columns o pwd z = .ok rs := by
  intro z
  induction z with
  | nil => intro _; exact ⟨[], rfl⟩
  | cons e es ih =>
    intro h
    obtain ⟨r, hr⟩ := h e List.mem_cons_self
    obtain ⟨rs, hs⟩ := ih (fun x hx => h x (List.mem_cons_of_mem _ hx))
    exact ⟨r :: rs, by unfold columns; rw [hr, hs]⟩

theorem index_ok {o : Opts} {z : List Entry} {ps : List Password} {pwd : Option Password} {rs : List FRow} (h : index o z ps = .ok (pwd, rs)) :
    Zip.findPassword z ps = .ok pwd ∧ columns o pwd z = .ok rs := by
  unfold index at h
  cases hp : Zip.findPassword z ps with
  | error x => rw [hp] at h; cases h
  | ok p =>
    cases hc : columns o p z with
    | error x => rw [hp] at h; simp only [hc] at h; cases h
    | ok rs' =>
      rw [hp] at h
      simp only [hc] at h
      cases h
      exact ⟨rfl, hc⟩

theorem place_split (o : Opts) (e : Entry) : Zip.place o e = splitPath (canonical (at_ o e)) := by
  unfold Zip.place at_
  rw [(C14_canonical (o.transform e.filename)).1]
  rfl

theorem folder_bit (d : Entry) (h : d.attr < 2 ^ 32) (h1 : Zip.storedMode d / 4096 ≠ 10) (h2 : d.filename.getLast? = some '/') :
    dirBit (Zip.mode d) = true := by
  rw [mode_shown d h]
  unfold shownMode dirBit
  rw [if_neg h1, if_pos h2]
  have hb : ∀ x, x < 512 → (0o40000 + x).testBit 14 = true := by
    intro x hx
    rw [Nat.testBit_eq_decide_div_mod_eq]
    simp only [decide_eq_true_iff]
    omega
  apply hb
  split
  · omega
  · omega

theorem indexed {o : Opts} {z : List Entry} {ps : List Password} {pwd : Option Password} {rs : List FRow} (h : Archived o z)
    (hi : index o z ps = .ok (pwd, rs)) : Listed (z.map (recOf o pwd)) rs [toRows rs] := by
  obtain ⟨-, hc⟩ := index_ok hi
  obtain ⟨hlen, hrow⟩ := columns_ok hc
  refine ⟨?_, by rw [hlen, List.length_map], ?_, ?_, ?_, by simp⟩
  · intro p hp x hx
    obtain ⟨e, -, rfl⟩ := List.mem_map.mp hp
    exact TarMount.place_names _ x hx
  · intro k p r hp hr
    rw [List.getElem?_map, Option.map_eq_some_iff] at hp
    obtain ⟨e, he, rfl⟩ := hp
    obtain ⟨t, l, ht, hl, rfl⟩ := columnsOf_ok (hrow k e r he hr)
    refine ⟨?_, ?_, rfl, ?_, ?_, .inl rfl, .inl rfl⟩
    · exact place_split o e
    · show e.size = (contents e).length
      unfold contents
      cases hd : e.data with
      | none => simp
      | some d => rw [h.sizes e (List.mem_of_getElem? he) d hd]; rfl
    · show l = ((Zip.linkname o pwd e).toOption).getD []
      rw [hl]; rfl
    · show (t.toNat, 0, 0) = ((((Zip.mtime e).toOption).getD 0).toNat, 0, 0)
      rw [ht]; rfl
  · intro i j r r' hij hr hr' hpath hname
    have hjz : j < z.length := by
      rw [← hlen]
      exact (List.getElem?_eq_some_iff.mp hr').1
    have hei : z[i]? = some (z[i]'(by omega)) := List.getElem?_eq_getElem _
    have hej : z[j]? = some z[j] := List.getElem?_eq_getElem _
    obtain ⟨t, l, -, -, e1⟩ := columnsOf_ok (hrow i _ r hei hr)
    obtain ⟨t', l', -, -, e2⟩ := columnsOf_ok (hrow j _ r' hej hr')
    have hp : at_ o (z[i]'(by omega)) = at_ o z[j] := by
      have hsp : Zip.place o (z[i]'(by omega)) = Zip.place o z[j] := by
        rw [e1, e2] at hpath hname
        exact Prod.ext hpath hname
      have hn : ∀ e : Entry, normpath (o.transform e.filename) = canonical (at_ o e) := fun e => (C14_canonical _).1
      refine TarMount.canonical_inj (TarMount.place_names _) (TarMount.place_names _) ?_
      rw [← hn, ← hn]
      have hq : ∀ e : Entry, normpath (o.transform e.filename) = (Zip.place o e).1 ++ '/' :: (Zip.place o e).2 := by
        intro e
        unfold Zip.place splitPath
        cases hs : rsplit1 '/' (normpath (o.transform e.filename)) with
        | none =>
          rw [rsplit1_none] at hs
          exact absurd (by simp [normpath]) hs
        | some p => exact (rsplit1_some hs).1
      rw [hq, hq, hsp]
    have := (List.pairwise_iff_getElem.mp h.ordered) i j (by omega) hjz hij hp
    rw [e1, e2]
    exact this
  · intro p hp hb
    obtain ⟨e, he, rfl⟩ := List.mem_map.mp hp
    obtain ⟨q, hq, n, rest, hpl⟩ := hb
    obtain ⟨e', he', rfl⟩ := List.mem_map.mp hq
    obtain ⟨d, hd, h1, h2, h3⟩ := h.folders e he e' he' n rest hpl
    exact ⟨recOf o pwd d, List.mem_map.mpr ⟨d, hd, rfl⟩, h1, folder_bit d (h.attrs d hd) h2 h3⟩

theorem lastAt_eq (o : Opts) (pwd : Option Password) (z : List Entry) (ns : List Str) :
    lastAt (z.map (recOf o pwd)) ns = (lastEntry o z ns).map (recOf o pwd) := by
  unfold lastAt lastEntry
  rw [List.filter_map, List.getLast?_map]
  rfl

theorem not_hard {o : Opts} {pwd : Option Password} {e : Entry} : (recOf o pwd e).isHard = false := by
  unfold Rec.isHard
  show (!(Zip.mode e &&& 0xF000 == 0x8000) && !(Zip.mode e &&& 0xF000 == 0xA000) && !(((Zip.linkname o pwd e).toOption).getD []).isEmpty) = false
  by_cases hl : Zip.isLink e = true
  · have hm : Zip.mode e &&& 0xF000 = 0xA000 := by
      have hp := Zip.permissions_lt e
      have h1 : Zip.mode e = 0xA000 + Zip.permissions e := by
        rw [Zip.mode_eq, Zip.fileType, if_pos hl]
      rw [h1, and_fmt]
      unfold typeBits
      omega
    rw [hm]
    rfl
  · have : Zip.linkname o pwd e = .ok [] := by unfold Zip.linkname; rw [if_neg hl]
    rw [this]
    simp [Except.toOption]

theorem read_ok {o : Opts} {pwd : Option Password} {z : List Entry} (h : Readable o pwd z) {e : Entry} (he : e ∈ z) :
    ∃ d, e.data = some d ∧ Zip.read pwd e = .ok d := by
  obtain ⟨d, hd, hp, -⟩ := h e he
  refine ⟨d, hd, ?_⟩
  unfold Zip.read
  rcases hp with hp | ⟨k, hp, rfl⟩
  · rw [hp, hd]
  · rw [hp]
    simp only [if_true, hd]

theorem columnsOf_total {o : Opts} {pwd : Option Password} {z : List Entry} (hz : Archived o z) (h : Readable o pwd z) (hd : ∀ e ∈ z, Zip.Dated e)
    {e : Entry} (he : e ∈ z) : ∃ r, columnsOf o pwd e = .ok r := by
  obtain ⟨t, -, ht⟩ := Zip.C133_time e (hd e he)
  have hl : ∃ l, Zip.linkname o pwd e = .ok l := by
    unfold Zip.linkname
    by_cases hl : Zip.isLink e = true
    · obtain ⟨d, h1, h2⟩ := read_ok h he
      obtain ⟨d', h1', -, h3⟩ := h e he
      have : d' = d := Option.some.inj (h1'.symm.trans h1)
      subst this
      have h10 := (Zip.isLink_type e (hz.attrs e he)).mp hl
      rw [typeBits_eq] at h10
      obtain ⟨s, hs⟩ := h3 h10
      rw [if_pos hl, h2]
      simp only [hs]
      exact ⟨_, rfl⟩
    · rw [if_neg hl]
      exact ⟨_, rfl⟩
  obtain ⟨l, hl⟩ := hl
  exact ⟨_, by unfold columnsOf; rw [ht, hl]⟩

theorem mem_last {o : Opts} {z : List Entry} {ns : List Str} {e : Entry} (h : lastEntry o z ns = some e) : e ∈ z ∧ at_ o e = ns := by
  obtain ⟨h1, h2⟩ := List.mem_filter.mp (List.mem_of_getLast? h)
  exact ⟨h1, of_decide_eq_true h2⟩

theorem names_last {o : Opts} {z : List Entry} {ns : List Str} {e : Entry} (h : lastEntry o z ns = some e) : ∀ x ∈ ns, IsName x := by
  rw [← (mem_last h).2]
  exact TarMount.place_names _

theorem opener_row {o : Opts} {z : List Entry} {ps : List Password} {pwd : Option Password} {rs : List FRow} (h : Archived o z)
    (hi : index o z ps = .ok (pwd, rs)) {e : Entry} (k : Nat) (r : FRow)
    (hk : (z.map (recOf o pwd))[k]? = some (recOf o pwd e)) (hr : rs[k]? = some r) :
    ∃ e' ∈ z, recOf o pwd e' = recOf o pwd e ∧ opener z pwd r = Zip.read pwd e' := by
  obtain ⟨-, hc⟩ := index_ok hi
  obtain ⟨-, hrow⟩ := columns_ok hc
  rw [List.getElem?_map, Option.map_eq_some_iff] at hk
  obtain ⟨e', he', hee⟩ := hk
  obtain ⟨t, l, -, -, rfl⟩ := columnsOf_ok (hrow k e' r he' hr)
  have hm := List.mem_of_getElem? he'
  refine ⟨e', hm, hee, ?_⟩
  unfold opener
  rw [Zip.files_get h.headers hm]

/-! ## C201 -/

/-- **C201** An archive whose dates exist, and whose entries can be read with the password that is found, can be mounted. -/
theorem C201_mounts {o : Opts} {z : List Entry} {ps : List Password} {pwd : Option Password} (h : Archived o z) (hp : Zip.findPassword z ps = .ok pwd)
    (hr : Readable o pwd z) (hd : ∀ e ∈ z, Zip.Dated e) : ∃ rs, index o z ps = .ok (pwd, rs) := by
  obtain ⟨rs, hs⟩ := columns_total (z := z) (fun e he => columnsOf_total h hr hd he)
  exact ⟨rs, by unfold index; rw [hp]; simp only [hs]⟩

/-- **C201** After any calls, the last entry of a place whose entries can be read with the password can be opened, and all reads return exactly the
requested range of its contents, whatever else is opened, read and closed in between. -/
theorem C201_read {o : Opts} {z : List Entry} {ps : List Password} {pwd : Option Password} {rs : List FRow} (h : Archived o z)
    (hi : index o z ps = .ok (pwd, rs)) {ns : List Str} (hne : ns ≠ []) {e : Entry} (hl : lastEntry o z ns = some e) {d : Content} (hd : e.data = some d)
    (hr : Readable o pwd (z.filter (fun e => decide (at_ o e = ns)))) (before : List Call) :
    ∃ m fh, mopen (opener z pwd) rs (src rs) (calls (opener z pwd) rs (src rs) start before) (canonical ns) = (m, .ok fh) ∧
      ∀ (between : List Call) (size offset : Nat), Call.release fh ∉ between →
        (mread (calls (opener z pwd) rs (src rs) m between) fh size offset).2 = .ok ((d.drop offset).take size) := by
  have hla : lastAt (z.map (recOf o pwd)) ns = some (recOf o pwd e) := by rw [lastAt_eq, hl]; rfl
  refine ObjectMount.reads (indexed h hi) (opener z pwd) hne (names_last hl) hla not_hard ?_ before
  intro k r hk hrk
  obtain ⟨e', he', hee, hop⟩ := opener_row h hi k r hk hrk
  have hpl : at_ o e' = ns := (congrArg (fun p => p.place) hee).trans (mem_last hl).2
  obtain ⟨d', h1, h2⟩ := read_ok hr (e := e') (List.mem_filter.mpr ⟨he', decide_eq_true hpl⟩)
  have hcc : contents e' = contents e := congrArg (fun p => p.data) hee
  unfold contents at hcc
  rw [h1, hd] at hcc
  rw [hop, h2]
  exact congrArg _ hcc

/-- **C201** If none of the entries of a place can be read, for example because the password is missing or the compression is not known, opening is an
error, and no handle is made. -/
theorem C201_refused {o : Opts} {z : List Entry} {ps : List Password} {pwd : Option Password} {rs : List FRow} (h : Archived o z)
    (hi : index o z ps = .ok (pwd, rs)) {ns : List Str} (hne : ns ≠ []) {e : Entry} (hl : lastEntry o z ns = some e)
    (hr : ∀ e ∈ z, at_ o e = ns → e.data = none ∨ ∃ k, e.password = some k ∧ pwd ≠ some k) (m : ObjectMount.Mount) :
    mopen (opener z pwd) rs (src rs) m (canonical ns) = (m, .error (.os 5)) := by
  have hla : lastAt (z.map (recOf o pwd)) ns = some (recOf o pwd e) := by rw [lastAt_eq, hl]; rfl
  refine ObjectMount.refused (indexed h hi) (opener z pwd) hne (names_last hl) hla not_hard ?_ m
  intro k r hk hrk
  obtain ⟨e', he', hee, hop⟩ := opener_row h hi k r hk hrk
  have hpl : at_ o e' = ns := (congrArg (fun p => p.place) hee).trans (mem_last hl).2
  rw [hop]
  unfold Zip.read
  rcases hr e' he' hpl with h1 | ⟨k', h1, h2⟩
  · rw [h1]
    cases e'.password with
    | none => exact ⟨_, rfl⟩
    | some k' =>
      cases pwd with
      | none => exact ⟨_, rfl⟩
      | some p =>
        simp only
        split
        · exact ⟨_, rfl⟩
        · exact ⟨_, rfl⟩
  · rw [h1]
    cases pwd with
    | none => exact ⟨_, rfl⟩
    | some p =>
      simp only
      rw [if_neg (fun hh => h2 (by rw [hh]))]
      exact ⟨_, rfl⟩

/-- **C201** The attributes: type and permissions, the size of the contents, the time. -/
theorem C201_attributes {o : Opts} {z : List Entry} {ps : List Password} {pwd : Option Password} {rs : List FRow} (h : Archived o z)
    (hi : index o z ps = .ok (pwd, rs)) {ns : List Str} (hne : ns ≠ []) {e : Entry} (hl : lastEntry o z ns = some e) :
    ∃ t : Nat, Zip.ModifiedAt e t ∧ mgetattr rs (src rs) (canonical ns) = .ok ⟨shownMode e, e.size, t, 0, 0⟩ := by
  have hla : lastAt (z.map (recOf o pwd)) ns = some (recOf o pwd e) := by rw [lastAt_eq, hl]; rfl
  have ha := (ObjectMount.attributes (indexed h hi) hne (names_last hl) hla not_hard).1
  have hm := (mem_last hl).1
  obtain ⟨k, hk⟩ := List.mem_iff_getElem?.mp hm
  obtain ⟨-, hc⟩ := index_ok hi
  obtain ⟨hlen, hrow⟩ := columns_ok hc
  have hkr : k < rs.length := by rw [hlen]; exact (List.getElem?_eq_some_iff.mp hk).1
  obtain ⟨t, l, ht, -, -⟩ := columnsOf_ok (hrow k e _ hk (List.getElem?_eq_getElem hkr))
  have hmod := (Zip.mtime_time ht).2
  have hpos : ((t.toNat : Nat) : Int) = t := by
    obtain ⟨days, -, rfl⟩ := hmod
    omega
  refine ⟨t.toNat, by rw [hpos]; exact hmod, ha.trans ?_⟩
  have hsz : (contents e).length = e.size := by
    unfold contents
    cases hd : e.data with
    | none => simp
    | some d => rw [h.sizes e hm d hd]; rfl
  show Except.ok (Stat.mk (Zip.mode e) (contents e).length ((((Zip.mtime e).toOption).getD 0).toNat) 0 0) = _
  rw [mode_shown e (h.attrs e hm), hsz, ht]
  rfl

/-- **C201** The target of a link is its contents; everything else has none. -/
theorem C201_link {o : Opts} {z : List Entry} {ps : List Password} {pwd : Option Password} {rs : List FRow} (h : Archived o z)
    (hi : index o z ps = .ok (pwd, rs)) {ns : List Str} (hne : ns ≠ []) {e : Entry} (hl : lastEntry o z ns = some e) :
    ∃ l, mreadlink (src rs) (canonical ns) = .ok l ∧ (Zip.storedMode e / 4096 ≠ 10 → l = []) ∧
      (Zip.storedMode e / 4096 = 10 → ∃ d, e.data = some d ∧ o.decode d = some l) := by
  have hla : lastAt (z.map (recOf o pwd)) ns = some (recOf o pwd e) := by rw [lastAt_eq, hl]; rfl
  have ha := (ObjectMount.attributes (indexed h hi) hne (names_last hl) hla not_hard).2
  have hm := (mem_last hl).1
  obtain ⟨k, hk⟩ := List.mem_iff_getElem?.mp hm
  obtain ⟨-, hc⟩ := index_ok hi
  obtain ⟨hlen, hrow⟩ := columns_ok hc
  have hkr : k < rs.length := by rw [hlen]; exact (List.getElem?_eq_some_iff.mp hk).1
  obtain ⟨t, l, -, hln, -⟩ := columnsOf_ok (hrow k e _ hk (List.getElem?_eq_getElem hkr))
  obtain ⟨h1, h2⟩ := Zip.linkname_target hln (h.attrs e hm)
  rw [typeBits_eq] at h1 h2
  refine ⟨l, ha.trans ?_, h2, ?_⟩
  · show Except.ok (((Zip.linkname o pwd e).toOption).getD []) = _
    rw [hln]
    rfl
  · intro h10
    obtain ⟨c, hc1, hc2⟩ := h1 h10
    refine ⟨c, ?_, hc2⟩
    unfold Zip.read at hc1
    repeat' split at hc1
    all_goals first | (cases hc1; assumption) | cases hc1

theorem last_none {o : Opts} (pwd : Option Password) {z : List Entry} {ns : List Str} (h : ∀ e ∈ z, at_ o e ≠ ns) :
    lastAt (z.map (recOf o pwd)) ns = none := by
  rw [lastAt_eq]
  unfold lastEntry
  rw [List.filter_eq_nil_iff.mpr (fun e he => by rw [decide_eq_true_eq]; exact h e he)]
  rfl

/-- **C201** Folders that have no entry of their own are there because of the entries below them. -/
theorem C201_folder {o : Opts} {z : List Entry} {ps : List Password} {pwd : Option Password} {rs : List FRow} (h : Archived o z)
    (hi : index o z ps = .ok (pwd, rs)) {ns : List Str} (hn : ∀ x ∈ ns, IsName x) (hne : ns ≠ []) (hno : ∀ e ∈ z, at_ o e ≠ ns)
    (hb : ∃ e ∈ z, ∃ n rest, at_ o e = ns ++ n :: rest) : mgetattr rs (src rs) (canonical ns) = .ok ⟨0o40555, 0, 0, 0, 0⟩ := by
  refine folder (indexed h hi) hn hne (last_none pwd hno) ?_
  obtain ⟨e, he, n, rest, hpl⟩ := hb
  exact ⟨recOf o pwd e, List.mem_map.mpr ⟨e, he, rfl⟩, n, rest, hpl⟩

/-- **C201** What is neither an entry nor a folder of one does not exist. -/
theorem C201_absent {o : Opts} {z : List Entry} {ps : List Password} {pwd : Option Password} {rs : List FRow} (h : Archived o z)
    (hi : index o z ps = .ok (pwd, rs)) {ns : List Str} (hn : ∀ x ∈ ns, IsName x) (hne : ns ≠ []) (hv : ∀ x ∈ ns, endsWith dotVersions x = false)
    (hno : ∀ e ∈ z, ∀ rest, at_ o e ≠ ns ++ rest) (m : ObjectMount.Mount) :
    mgetattr rs (src rs) (canonical ns) = .error (.os 2) ∧ mopen (opener z pwd) rs (src rs) m (canonical ns) = (m, .error (.os 2)) := by
  refine ObjectMount.absent (indexed h hi) (opener z pwd) hn hne hv (last_none pwd (fun e he => by have := hno e he []; rwa [List.append_nil] at this)) ?_ m
  rintro ⟨p, hp, n, rest, hpl⟩
  obtain ⟨e, he, rfl⟩ := List.mem_map.mp hp
  exact hno e he (n :: rest) hpl

/-- **C201** A listing has exactly the names that come next in the places of the entries. -/
theorem C201_list {o : Opts} {z : List Entry} {ps : List Password} {pwd : Option Password} {rs : List FRow} (h : Archived o z)
    (hi : index o z ps = .ok (pwd, rs)) {ns : List Str} (hn : ∀ x ∈ ns, IsName x) (hv : ∀ x ∈ ns, endsWith dotVersions x = false) (n : Str) :
    n ∈ mreaddir (src rs) (canonical ns) ↔ n = ['.'] ∨ n = ['.', '.'] ∨ ∃ e ∈ z, ∃ rest, at_ o e = ns ++ n :: rest := by
  unfold src
  rw [lists (indexed h hi) hn hv]
  constructor
  · rintro (h | h | ⟨p, hp, rest, hpl⟩)
    · exact .inl h
    · exact .inr (.inl h)
    · obtain ⟨e, he, rfl⟩ := List.mem_map.mp hp
      exact .inr (.inr ⟨e, he, rest, hpl⟩)
  · rintro (h | h | ⟨e, he, rest, hpl⟩)
    · exact .inl h
    · exact .inr (.inl h)
    · exact .inr (.inr ⟨recOf o pwd e, List.mem_map.mpr ⟨e, he, rfl⟩, rest, hpl⟩)

/-- **C201** No name is listed twice. -/
theorem C201_nodup {o : Opts} {z : List Entry} {ps : List Password} {pwd : Option Password} {rs : List FRow} (h : Archived o z)
    (hi : index o z ps = .ok (pwd, rs)) {ns : List Str} (hn : ∀ x ∈ ns, IsName x) (hv : ∀ x ∈ ns, endsWith dotVersions x = false) :
    (mreaddir (src rs) (canonical ns)).Nodup := once (indexed h hi) hn hv

/-- **C201** An archive without encryption can be mounted, and every file of it is read back. -/
theorem C201_plain {o : Opts} {z : List Entry} (h : Archived o z) (hd : ∀ e ∈ z, Zip.Dated e)
    (hp : ∀ e ∈ z, e.password = none ∧ ∃ d, e.data = some d ∧ (Zip.storedMode e / 4096 = 10 → ∃ s, o.decode d = some s)) :
    ∃ rs, index o z [] = .ok (none, rs) ∧ ∀ ns ≠ [], ∀ e d, lastEntry o z ns = some e → e.data = some d → ∀ before,
      ∃ m fh, mopen (opener z none) rs (src rs) (calls (opener z none) rs (src rs) start before) (canonical ns) = (m, .ok fh) ∧
        ∀ (between : List Call) (size offset : Nat), Call.release fh ∉ between →
          (mread (calls (opener z none) rs (src rs) m between) fh size offset).2 = .ok ((d.drop offset).take size) := by
  have hr : Readable o none z := fun e he => by
    obtain ⟨h1, d, h2, h3⟩ := hp e he
    exact ⟨d, h2, .inl h1, h3⟩
  have hf : Zip.findPassword z [] = .ok none := by
    refine Zip.findPassword_plain ?_ [] (.inr rfl)
    intro e he
    have hm : e ∈ z := (List.mem_filter.mp (List.mem_of_mem_head? he)).1
    obtain ⟨h1, d, h2, -⟩ := hp e hm
    exact ⟨h1, by rw [h2]; rfl⟩
  obtain ⟨rs, hi⟩ := C201_mounts h hf hr hd
  exact ⟨rs, hi, fun ns hne e d hl hde before => C201_read h hi hne hl hde (fun e he => hr e (List.mem_filter.mp he).1) before⟩

/-- **C201** An archive whose files have the same password, which is among the given ones, can be mounted, and every file is read back. -/
theorem C201_encrypted {o : Opts} {z : List Entry} (h : Archived o z) (hd : ∀ e ∈ z, Zip.Dated e) {k : Password} (hk : k ≠ []) {ps : List Password}
    (hkp : k ∈ ps) (hp : ∀ e ∈ z, (e.password = some k ∨ e.password = none) ∧
      ∃ d, e.data = some d ∧ (Zip.storedMode e / 4096 = 10 → ∃ s, o.decode d = some s))
    {e₀ : Entry} (hf : Zip.FirstFile z e₀) (hk₀ : e₀.password = some k) (hw : ∀ p ∈ ps, p ∉ e₀.wrong) :
    ∃ rs, index o z ps = .ok (some k, rs) ∧ ∀ ns ≠ [], ∀ e d, lastEntry o z ns = some e → e.data = some d → ∀ before,
      ∃ m fh, mopen (opener z (some k)) rs (src rs) (calls (opener z (some k)) rs (src rs) start before) (canonical ns) = (m, .ok fh) ∧
        ∀ (between : List Call) (size offset : Nat), Call.release fh ∉ between →
          (mread (calls (opener z (some k)) rs (src rs) m between) fh size offset).2 = .ok ((d.drop offset).take size) := by
  have hr : Readable o (some k) z := fun e he => by
    obtain ⟨h1, d, h2, h3⟩ := hp e he
    refine ⟨d, h2, ?_, h3⟩
    rcases h1 with h1 | h1
    · exact .inr ⟨k, h1, rfl⟩
    · exact .inl h1
  have hm₀ : e₀ ∈ z := by
    obtain ⟨a, b, rfl, -⟩ := hf
    simp
  obtain ⟨d₀, hd₀, -⟩ := (hp e₀ hm₀).2
  obtain ⟨r, hfound⟩ := Zip.C134_found z ps e₀ k hf hk₀ (by rw [hd₀]; rfl) hk hkp
  have hrk : r = some k := by
    have hc := Zip.candidates_head.mpr hf
    have hfound' := hfound
    unfold Zip.findPassword at hfound'
    split at hfound'
    · next hcn => rw [hcn] at hc; cases hc
    · next e' es hcn =>
      rw [hcn, List.head?_cons, Option.some.injEq] at hc
      subst hc
      have ho := Zip.tryPasswords_ok hfound'
      unfold Zip.opens at ho
      rw [hk₀] at ho
      rcases Zip.tryPasswords_given hfound' with hg | ⟨p, hg, hmem⟩
      · rw [hg] at ho; exact absurd ho (by simp)
      · rw [hg] at ho ⊢
        simp only [Bool.and_eq_true, Bool.or_eq_true, beq_iff_eq, List.contains_iff_mem] at ho
        rcases ho.1 with h1 | h1
        · rw [h1]
        · refine absurd h1 (hw p ?_)
          simpa using hmem
  subst hrk
  obtain ⟨rs, hi⟩ := C201_mounts h hfound hr hd
  exact ⟨rs, hi, fun ns hne e d hl hde before => C201_read h hi hne hl hde (fun e he => hr e (List.mem_filter.mp he).1) before⟩

/-- C201 as claimed: of several entries with the same path, the last one of the central directory is shown, as by `zipfile` and `unzip`. -/
def C201_statement : Prop := ∀ (o : Opts) (z : List Entry) (rs : List FRow), Zip.DistinctHeaders z → index o z [] = .ok (none, rs) →
  ∀ ns e d, lastEntry o z ns = some e → e.data = some d →
    ∃ fh, (mopen (opener z none) rs (src rs) start (canonical ns)).2 = .ok fh ∧
      (mread (mopen (opener z none) rs (src rs) start (canonical ns)).1 fh d.length 0).2 = .ok d

/-- Two entries with the same path; the data of the second one is stored in front of that of the first one. -/
def swapped : List Entry :=
  [⟨"a".toList, 0x21, 0, 0o100644 * 65536, 50, 1, none, [], some [1]⟩, ⟨"a".toList, 0x21, 0, 0o100644 * 65536, 0, 1, none, [], some [2]⟩]

/-- The rows of these entries. -/
def swappedRows : List FRow := [⟨[], "a".toList, 50, 0, 1, 315532800, 0o100644, [], 0, 0, false⟩,
  ⟨[], "a".toList, 0, 0, 1, 315532800, 0o100644, [], 0, 0, false⟩]

/-- C201 is violated: what is shown is the entry whose data comes last. -/
theorem C201_violated : ¬ C201_statement := by
  intro h
  have hi : index Zip.plainOpts swapped [] = .ok (none, swappedRows) := by decide +kernel
  obtain ⟨fh, h1, h2⟩ := h Zip.plainOpts swapped _ (by unfold Zip.DistinctHeaders; decide) hi ["a".toList]
    ⟨"a".toList, 0x21, 0, 0o100644 * 65536, 0, 1, none, [], some [2]⟩ [2] (by decide +kernel) rfl
  have hm : mopen (opener swapped none) swappedRows (src swappedRows) start (canonical ["a".toList]) = (⟨[(1, ⟨[1], 0, false⟩)], 1⟩, .ok 1) := by
    decide +kernel
  rw [hm] at h1 h2
  cases h1
  revert h2
  decide +kernel

/-! ### examples -/

/-- Options for the example: the target of the link is decoded. -/
def demoOpts : Opts := ⟨id, fun c => some (c.map (fun b => Char.ofNat b.toNat)), fun _ _ _ => 0⟩

/-- A file in a folder without an entry, a folder, a link, and a newer version of the file. -/
def demo : List Entry :=
  [⟨"d/a".toList, 0x21, 0, 0o100644 * 65536, 0, 2, none, [], some [1, 2]⟩, ⟨"e/".toList, 0x21, 0, 0o40755 * 65536 + 16, 50, 0, none, [], some []⟩,
   ⟨"e/l".toList, 0x21, 0, 0o120777 * 65536, 90, 1, none, [], some [97]⟩, ⟨"./d/a".toList, 0x21, 0, 0o100600 * 65536, 140, 3, none, [], some [3, 4, 5]⟩]

theorem demo_archived : Archived demoOpts demo := by
  refine ⟨by decide, by decide, by unfold Zip.DistinctHeaders; decide, by decide +kernel, ?_⟩
  intro e he e' he' n rest hpl
  have h1 : ∀ e ∈ demo, ∀ e' ∈ demo, (at_ demoOpts e).isPrefixOf (at_ demoOpts e') = true → (at_ demoOpts e).length < (at_ demoOpts e').length →
      ∃ d ∈ demo, at_ demoOpts d = at_ demoOpts e ∧ Zip.storedMode d / 4096 ≠ 10 ∧ d.filename.getLast? = some '/' := by decide +kernel
  refine h1 e he e' he' ?_ ?_
  · rw [hpl, List.isPrefixOf_iff_prefix]
    exact List.prefix_append _ _
  · rw [hpl]
    simp

theorem demo_dated : ∀ e ∈ demo, Zip.Dated e := by
  intro e he
  simp only [demo, List.mem_cons, List.not_mem_nil, or_false] at he
  rcases he with rfl | rfl | rfl | rfl <;> (unfold Zip.Dated; decide)

theorem demo_plain : ∀ e ∈ demo, e.password = none ∧ ∃ d, e.data = some d ∧ (Zip.storedMode e / 4096 = 10 → ∃ s, demoOpts.decode d = some s) := by
  intro e he
  simp only [demo, List.mem_cons, List.not_mem_nil, or_false] at he
  rcases he with rfl | rfl | rfl | rfl <;> exact ⟨rfl, _, rfl, fun _ => ⟨_, rfl⟩⟩

/-- C201: the newer version of the file is read, in spite of other calls. -/
example : ∃ rs, index demoOpts demo [] = .ok (none, rs) ∧ ∃ m fh,
    mopen (opener demo none) rs (src rs) (calls (opener demo none) rs (src rs) start [.open "/e/l".toList, .read 1 1 0]) "/d/a".toList = (m, .ok fh) ∧
    (mread (calls (opener demo none) rs (src rs) m [.open "/d/a".toList, .read 5 1 1]) fh 5 1).2 = .ok [4, 5] := by
  obtain ⟨rs, h1, h2⟩ := C201_plain demo_archived demo_dated demo_plain
  obtain ⟨m, fh, h3, h4⟩ := h2 ["d".toList, "a".toList] (by decide) ⟨"./d/a".toList, 0x21, 0, 0o100600 * 65536, 140, 3, none, [], some [3, 4, 5]⟩ [3, 4, 5]
    (by decide +kernel) rfl [.open "/e/l".toList, .read 1 1 0]
  exact ⟨rs, h1, m, fh, h3, h4 [.open "/d/a".toList, .read 5 1 1] 5 1 (by simp)⟩

/-- C201: attributes, a link, a folder without an entry, a listing, and a path that does not exist. -/
example (rs : List FRow) (h : index demoOpts demo [] = .ok (none, rs)) :
    (∃ t : Nat, mgetattr rs (src rs) "/d/a".toList = .ok ⟨0o100600, 3, t, 0, 0⟩) ∧ mreadlink (src rs) "/e/l".toList = .ok "a".toList ∧
    mgetattr rs (src rs) "/d".toList = .ok ⟨0o40555, 0, 0, 0, 0⟩ ∧ "l".toList ∈ mreaddir (src rs) "/e".toList ∧
    mgetattr rs (src rs) "/x".toList = .error (.os 2) := by
  refine ⟨?_, ?_, ?_, ?_, ?_⟩
  · obtain ⟨t, -, ht⟩ := C201_attributes demo_archived h (ns := ["d".toList, "a".toList]) (by decide)
      (e := ⟨"./d/a".toList, 0x21, 0, 0o100600 * 65536, 140, 3, none, [], some [3, 4, 5]⟩) (by decide +kernel)
    exact ⟨t, ht⟩
  · obtain ⟨l, h1, -, h2⟩ := C201_link demo_archived h (ns := ["e".toList, "l".toList]) (by decide)
      (e := ⟨"e/l".toList, 0x21, 0, 0o120777 * 65536, 90, 1, none, [], some [97]⟩) (by decide +kernel)
    obtain ⟨d, h3, h4⟩ := h2 (by decide)
    cases h3
    have : demoOpts.decode [97] = some "a".toList := by decide
    rw [this, Option.some.injEq] at h4
    rw [h4]
    exact h1
  · exact C201_folder demo_archived h (ns := ["d".toList]) (by unfold IsName; decide) (by decide) (by decide +kernel)
      ⟨_, List.mem_cons_self, "a".toList, [], by decide +kernel⟩
  · exact (C201_list demo_archived h (ns := ["e".toList]) (by unfold IsName; decide) (by decide) "l".toList).mpr
      (.inr (.inr ⟨_, .tail _ (.tail _ (.head _)), [], by decide +kernel⟩))
  · refine (C201_absent demo_archived h (ns := ["x".toList]) (by unfold IsName; decide) (by decide) (by decide) ?_ start).1
    intro e he rest hpl
    have h1 : ∀ e ∈ demo, ["x".toList].isPrefixOf (at_ demoOpts e) = false := by decide +kernel
    have := h1 e he
    rw [hpl, List.isPrefixOf_iff_prefix.mpr (List.prefix_append _ _)] at this
    cases this

/-- An encrypted file, and a second one with another password. -/
def secret : List Entry := [⟨"s".toList, 0x21, 0, 0o100644 * 65536, 0, 2, some [65], [], some [1, 2]⟩,
  ⟨"t".toList, 0x21, 0, 0o100644 * 65536, 50, 1, some [66], [], some [1]⟩]

/-- C201: with the password, the first file is read back; the other one is refused. -/
example : ∃ rs, index demoOpts [secret[0]] [[66], [65]] = .ok (some [65], rs) ∧ ∃ m fh,
    mopen (opener [secret[0]] (some [65])) rs (src rs) start "/s".toList = (m, .ok fh) ∧ (mread m fh 5 1).2 = .ok [2] := by
  have hA : Archived demoOpts [secret[0]] := by
    refine ⟨by decide, by decide, by unfold Zip.DistinctHeaders; decide, by decide +kernel, ?_⟩
    intro e he e' he' n rest hpl
    rw [List.mem_singleton.mp he, List.mem_singleton.mp he'] at hpl
    exact absurd (congrArg List.length hpl) (by simp)
  obtain ⟨rs, h1, h2⟩ := C201_encrypted (k := [65]) (ps := [[66], [65]]) hA (by
      intro e he
      rw [List.mem_singleton.mp he]
      unfold Zip.Dated
      decide) (by decide) (by decide) (by
      intro e he
      rw [List.mem_singleton.mp he]
      exact ⟨.inl rfl, _, rfl, fun _ => ⟨_, rfl⟩⟩) (e₀ := secret[0])
    ⟨[], [], rfl, by decide, by
      intro s hs
      have := congrArg List.getLast? hs
      simp [secret] at this, by simp⟩ rfl (by decide)
  obtain ⟨m, fh, h3, h4⟩ := h2 ["s".toList] (by decide) secret[0] [1, 2] (by decide +kernel) rfl []
  exact ⟨rs, h1, m, fh, h3, h4 [] 5 1 (by simp)⟩

example (rs : List FRow) (h : index demoOpts secret [[66], [65]] = .ok (some [65], rs)) :
    mopen (opener secret (some [65])) rs (src rs) start "/t".toList = (start, .error (.os 5)) := by
  have hA : Archived demoOpts secret := by
    refine ⟨by decide, by decide, by unfold Zip.DistinctHeaders; decide, by decide +kernel, ?_⟩
    intro e he e' he' n rest hpl
    have h1 : ∀ e ∈ secret, (at_ demoOpts e).length = 1 := by decide +kernel
    have h2 := h1 e he
    have h3 := h1 e' he'
    rw [hpl, List.length_append, h2] at h3
    simp at h3
  refine C201_refused hA h (ns := ["t".toList]) (by decide) (e := secret[1]) (by decide +kernel) ?_ start
  intro e he hpl
  have h1 : ∀ e ∈ secret, at_ demoOpts e = ["t".toList] → e.password = some [66] := by decide +kernel
  exact .inr ⟨[66], h1 e he hpl, by decide⟩

/-- The second archive is mounted. -/
example : (index demoOpts secret [[66], [65]]).isOk = true := by decide +kernel

end Verif.Fuse.ZipMount
