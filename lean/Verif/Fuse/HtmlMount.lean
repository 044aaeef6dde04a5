import Verif.Fuse.ObjectMount
import Verif.Formats.EmbeddedRows

/-!
# C216: a mounted HTML file shows the files that are embedded in it
(core/ratarmountcore/mountsource/formats/html.py, core/ratarmountcore/mountsource/compositing/versioning.py, ratarmount/FuseMount.py)

The places of the data URLs (`Verif.Formats.Html`), the names and rows (`Verif.Formats.EmbeddedRows`), the index, the versions layer and the FUSE
operations (`Verif.Fuse.ObjectMount`) are put together. The parser `html.parser` is represented by the candidates that it reports. The text is that of a
UTF-8 file. `DataURLFile` is a `BytesIO`, whose contents are decoded when it is opened.

Simplified: the file has no carriage returns, and it does not change while it is mounted. FUSE calls one operation at a time.
-/

namespace Verif.Fuse.HtmlMount

open Verif.Py Verif.Index Verif.Html Verif.EmbeddedRows
open Verif.Tar (Bytes)
open Verif.Compose (dotVersions)
open Verif.Fuse.IndexMount (FRow Stat Rec source toRows mgetattr mreadlink lastAt Below)
open Verif.Fuse.ObjectMount (Listed mopen mread calls start)
open Verif.Fuse.TarMount (mreaddir Call place)

/-! ## model -/

/-- The loop over the candidates (html.py:398-423), each with the address that was found for it. -/
def gather (text : Str) : List (Str × Candidate) → Except PyErr (List Embedded)
  | [] => .ok []
  | (url, c) :: cs =>
    match fileSpan text c with
    | .error x => .error x
    | .ok none => gather text cs
    | .ok (some (a, b)) =>
      match gather text cs with
      | .error x => .error x
      | .ok fs => .ok (⟨url, a, b⟩ :: fs)

/-- What the mount depends on: the libraries, `transform`, and the modification time (html.py:427-446). -/
structure Opts where
  lib : Lib
  names : Names
  transform : Str → Str
  mtime : Nat

/-- `virtual_path` for a file with this address and this data URL (html.py:453-467). -/
def nameOf (o : Opts) (url value : Str) (data : Bytes) : Str := virtualPath o.names url data (extension o.names (mimeOf o.lib value))

/-- The columns (html.py:469-496). -/
def row (o : Opts) (f : Embedded) (name : Str) (data : Bytes) : FRow :=
  ⟨(splitPath (normpath (o.transform name))).1, (splitPath (normpath (o.transform name))).2, f.start, f.stop, data.length, o.mtime, 0o100777, [], 0, 0, false⟩

/-- `_convert_to_row` (html.py:449-496). -/
def columnsOf (o : Opts) (text : Str) (f : Embedded) : Except PyErr FRow :=
  match openSpan o.lib text f.start f.stop with
  | .error x => .error x
  | .ok data => .ok (row o f (nameOf o f.url (openText text f.start f.stop) data) data)

/-- The tuples of all files (html.py:443). -/
def columns (o : Opts) (text : Str) : List Embedded → Except PyErr (List FRow)
  | [] => .ok []
  | f :: fs =>
    match columnsOf o text f with
    | .error x => .error x
    | .ok r =>
      match columns o text fs with
      | .error x => .error x
      | .ok rs => .ok (r :: rs)

/-- `__init__` (html.py:441-446). -/
def index (o : Opts) (text : Str) (cs : List (Str × Candidate)) : Except PyErr (List FRow) :=
  match gather text cs with
  | .error x => .error x
  | .ok fs => columns o text fs

/-- The mount source; all rows are inserted at once (html.py:441-446). -/
def src (rs : List FRow) : Compose.Source := source rs [toRows rs]

/-- `open` (html.py:506-509). -/
def opener (o : Opts) (text : Str) (r : FRow) : Except PyErr Bytes := openSpan o.lib text r.oh r.offset

/-- The row is the one of `Verif.EmbeddedRows`. -/
theorem htmlRow_eq (o : Opts) (pack : Nat → Nat) (text : Str) (f : Embedded) : htmlRow o.lib o.names o.transform pack text f =
    (columnsOf o text f).map (fun r => (⟨r.path, r.name, r.oh⟩, ⟨r.offset, r.mode, r.generated, pack r.size⟩)) := by
  unfold htmlRow columnsOf
  cases openSpan o.lib text f.start f.stop <;> rfl

/-! ## specification -/

/-- A data URL in a page: the address from which the file was saved, what the parser reports, the place of the data URL in the text, the data URL, and
the octets that it stands for. -/
structure Item where
  url : Str
  cand : Candidate
  pos : Nat
  value : Str
  data : Bytes

/-- The data URL stands in the text at this place: as the value of an attribute of a tag, or in a style sheet. -/
inductive Written (text : Str) (c : Candidate) (pos : Nat) (v : Str) : Prop
  | tag (before tag : Str) (pre : List Attribute) (x : Attribute) (post : List Attribute) (q : Char) (close : Str)
      (h : InTag text c before tag pre x post q v close) (hp : pos = (before ++ upTo tag pre x q).length)
  | style (before after : Str) (ht : text = before ++ (v ++ after)) (hs : c.start = before.length)
      (hn : c.next = some (before.length + v.length)) (ha : c.attr = []) (hv : v ≠ []) (hp : pos = before.length)

/-- Where the file is shown. -/
def at_ (o : Opts) (i : Item) : List Str := place (o.transform (nameOf o i.url i.value i.data))

/-- The last file with this place. -/
def lastItem (o : Opts) (is : List Item) (ns : List Str) : Option Item := (is.filter (fun i => decide (at_ o i = ns))).getLast?

/-- A page with these data URLs, all of ASCII and decodable. Files for the same place are in the order of the text, and no file is below another one. -/
structure Page (o : Opts) (text : Str) (is : List Item) : Prop where
  written : ∀ i ∈ is, Written text i.cand i.pos i.value
  ascii : ∀ i ∈ is, ∀ c ∈ i.value, c.toNat < 128
  decoded : ∀ i ∈ is, contents o.lib i.value = .ok i.data
  ordered : is.Pairwise (fun a b => at_ o a = at_ o b → a.pos < b.pos)
  files : ∀ i ∈ is, ∀ j ∈ is, ∀ n rest, at_ o j ≠ at_ o i ++ n :: rest

/-- What the parser reports for a page. -/
def reported (is : List Item) : List (Str × Candidate) := is.map (fun i => (i.url, i.cand))

/-! ## lemmas -/

theorem written_at {text : Str} {c : Candidate} {pos : Nat} {v : Str} (h : Written text c pos v) :
    v ≠ [] ∧ ∃ b a, text = b ++ (v ++ a) ∧ b.length = pos ∧ fileSpan text c = .ok (some (textBytes b, textBytes b + textBytes v)) := by
  cases h with
  | tag before tag pre x post q close h hp =>
    obtain ⟨rest, htext, hspan⟩ := span_tag text c before tag pre x post q v close h
    exact ⟨h.nonempty, before ++ upTo tag pre x q, q :: rest, by rw [htext]; simp, hp.symm, hspan⟩
  | style before after ht hs hn ha hv hp =>
    refine ⟨hv, before, after, ht, hp.symm, ?_⟩
    unfold fileSpan startOf endOf
    rw [if_pos ha, hs, hn, Option.getD_some, ht, List.take_left' rfl, ← List.append_assoc, List.take_left' List.length_append, textBytes_append]

/-- The span of an item. -/
def emb (text : Str) (i : Item) : Embedded :=
  ⟨i.url, textBytes (text.take i.pos), textBytes (text.take i.pos) + textBytes i.value⟩

theorem item_span {o : Opts} {text : Str} {is : List Item} (h : Page o text is) {i : Item} (hi : i ∈ is) :
    fileSpan text i.cand = .ok (some ((emb text i).start, (emb text i).stop)) ∧ openText text (emb text i).start (emb text i).stop = i.value := by
  obtain ⟨hv, b, a, ht, hb, hs⟩ := written_at (h.written i hi)
  have htk : text.take i.pos = b := by rw [ht, ← hb, List.take_left' rfl]
  have hbytes := ascii_bytes (h.ascii i hi)
  have hpos := List.length_pos_iff.mpr hv
  unfold emb
  rw [htk]
  refine ⟨hs, ?_⟩
  unfold openText
  simp only
  rw [if_neg (by omega), Nat.add_sub_cancel_left, hbytes]
  conv => lhs; rw [ht, seekTo_append]
  exact List.take_left' rfl

theorem gather_page {text : Str} : ∀ {is : List Item}, (∀ i ∈ is, fileSpan text i.cand = .ok (some ((emb text i).start, (emb text i).stop))) →
    gather text (reported is) = .ok (is.map (emb text)) := by
  intro is
  induction is with
  | nil => intro _; rfl
  | cons i is ih =>
    intro h
    have hi := h i List.mem_cons_self
    have hr := ih (fun j hj => h j (List.mem_cons_of_mem _ hj))
    show gather text ((i.url, i.cand) :: reported is) = _
    simp only [gather, hi, hr]
    rfl

/-- The row of an item. -/
def rowOf (o : Opts) (text : Str) (i : Item) : FRow := row o (emb text i) (nameOf o i.url i.value i.data) i.data

theorem columnsOf_item {o : Opts} {text : Str} {is : List Item} (h : Page o text is) {i : Item} (hi : i ∈ is) :
    columnsOf o text (emb text i) = .ok (rowOf o text i) := by
  have h1 := (item_span h hi).2
  unfold columnsOf openSpan
  rw [h1, h.decoded i hi]
  rfl

theorem columns_page {o : Opts} {text : Str} : ∀ {is : List Item}, (∀ i ∈ is, columnsOf o text (emb text i) = .ok (rowOf o text i)) →
    columns o text (is.map (emb text)) = .ok (is.map (rowOf o text)) := by
  intro is
  induction is with
  | nil => intro _; rfl
  | cons i is ih =>
    intro h
    have hi := h i List.mem_cons_self
    have hr := ih (fun j hj => h j (List.mem_cons_of_mem _ hj))
    simp only [List.map_cons, columns, hi, hr]

theorem index_page {o : Opts} {text : Str} {is : List Item} (h : Page o text is) : index o text (reported is) = .ok (is.map (rowOf o text)) := by
  unfold index
  rw [gather_page (fun i hi => (item_span h hi).1)]
  exact columns_page (fun i hi => columnsOf_item h hi)

/-- An item as a member of an archive. -/
def recOf (o : Opts) (i : Item) : Rec := ⟨at_ o i, 0o100777, [], o.mtime, 0, 0, i.data⟩

theorem not_hard (o : Opts) (i : Item) : (recOf o i).isHard = false := by
  unfold Rec.isHard
  exact Bool.and_false _

theorem bytes_lt {text : Str} {p q : Nat} (h : p < q) (hq : q ≤ text.length) : textBytes (text.take p) < textBytes (text.take q) := by
  have e : text.take q = text.take p ++ (text.drop p).take (q - p) := by
    rw [← List.take_add]
    congr 1
    omega
  rw [e, textBytes_append]
  have := length_le_bytes ((text.drop p).take (q - p))
  rw [List.length_take, List.length_drop] at this
  omega

theorem row_place (o : Opts) (f : Embedded) (name : Str) (data : Bytes) :
    ((row o f name data).path, (row o f name data).name) = splitPath (canonical (place (o.transform name))) := by
  unfold row
  rw [(C14_canonical (o.transform name)).1]
  rfl

theorem listed {o : Opts} {text : Str} {is : List Item} (h : Page o text is) :
    Listed (is.map (recOf o)) (is.map (rowOf o text)) [toRows (is.map (rowOf o text))] := by
  refine ⟨?_, by simp, ?_, ?_, ?_, by simp⟩
  · intro p hp x hx
    obtain ⟨i, -, rfl⟩ := List.mem_map.mp hp
    exact TarMount.place_names _ x hx
  · intro k p r hp hr
    rw [List.getElem?_map, Option.map_eq_some_iff] at hp hr
    obtain ⟨i, hi, rfl⟩ := hp
    obtain ⟨i', hi', rfl⟩ := hr
    rw [hi] at hi'
    cases hi'
    exact ⟨row_place o _ _ _, rfl, rfl, rfl, rfl, .inl rfl, .inl rfl⟩
  · intro a b r r' hab hr hr' hpath hname
    rw [List.getElem?_map, Option.map_eq_some_iff] at hr hr'
    obtain ⟨i, hi, rfl⟩ := hr
    obtain ⟨j, hj, rfl⟩ := hr'
    have hp : at_ o i = at_ o j := by
      have h1 := row_place o (emb text i) (nameOf o i.url i.value i.data) i.data
      have h2 := row_place o (emb text j) (nameOf o j.url j.value j.data) j.data
      have h3 : splitPath (canonical (at_ o i)) = splitPath (canonical (at_ o j)) := by
        show splitPath (canonical (place _)) = splitPath (canonical (place _))
        rw [← h1, ← h2]
        exact Prod.ext hpath hname
      refine TarMount.canonical_inj (TarMount.place_names _) (TarMount.place_names _) ?_
      have hq : ∀ ns, canonical ns = (splitPath (canonical ns)).1 ++ '/' :: (splitPath (canonical ns)).2 := by
        intro ns
        unfold splitPath
        cases hs : rsplit1 '/' (canonical ns) with
        | none =>
          rw [rsplit1_none] at hs
          exact absurd (by unfold canonical; cases ns <;> simp) hs
        | some p => exact (rsplit1_some hs).1
      rw [hq (at_ o i), hq (at_ o j), h3]
    obtain ⟨hil, hie⟩ := List.getElem?_eq_some_iff.mp hi
    obtain ⟨hjl, hje⟩ := List.getElem?_eq_some_iff.mp hj
    have hlt := (List.pairwise_iff_getElem.mp h.ordered) a b hil hjl hab (by rw [hie, hje]; exact hp)
    rw [hie, hje] at hlt
    obtain ⟨-, b', a', ht, hb, -⟩ := written_at (h.written j (List.mem_of_getElem? hj))
    exact bytes_lt hlt (by rw [ht]; simp; omega)
  · intro p hp hb
    obtain ⟨i, hi, rfl⟩ := List.mem_map.mp hp
    obtain ⟨q, hq, n, rest, hpl⟩ := hb
    obtain ⟨j, hj, rfl⟩ := List.mem_map.mp hq
    exact absurd hpl (h.files i hi j hj n rest)

theorem lastAt_eq (o : Opts) (is : List Item) (ns : List Str) : lastAt (is.map (recOf o)) ns = (lastItem o is ns).map (recOf o) := by
  unfold lastAt lastItem
  rw [List.filter_map, List.getLast?_map]
  rfl

theorem mem_last {o : Opts} {is : List Item} {ns : List Str} {i : Item} (h : lastItem o is ns = some i) : i ∈ is ∧ at_ o i = ns := by
  obtain ⟨h1, h2⟩ := List.mem_filter.mp (List.mem_of_getLast? h)
  exact ⟨h1, of_decide_eq_true h2⟩

theorem last_none {o : Opts} {is : List Item} {ns : List Str} (h : ∀ i ∈ is, at_ o i ≠ ns) : lastAt (is.map (recOf o)) ns = none := by
  rw [lastAt_eq]
  have : is.filter (fun i => decide (at_ o i = ns)) = [] := by
    rw [List.filter_eq_nil_iff]
    intro i hi hd
    exact h i hi (of_decide_eq_true hd)
  unfold lastItem
  rw [this]
  rfl

theorem rows_of {o : Opts} {text : Str} {is : List Item} (h : Page o text is) {rs : List FRow} (hi : index o text (reported is) = .ok rs) :
    rs = is.map (rowOf o text) := by
  rw [index_page h] at hi
  exact (Except.ok.inj hi).symm

theorem opener_item {o : Opts} {text : Str} {is : List Item} (h : Page o text is) {i : Item} (hi : i ∈ is) : opener o text (rowOf o text i) = .ok i.data := by
  show contents o.lib (openText text (emb text i).start (emb text i).stop) = _
  rw [(item_span h hi).2, h.decoded i hi]

/-! ## C216 -/

/-- **C216** Such a page can be mounted. -/
theorem C216_mounts {o : Opts} {text : Str} {is : List Item} (h : Page o text is) : ∃ rs, index o text (reported is) = .ok rs := ⟨_, index_page h⟩

/-- **C216** After any calls, the last file of a place can be opened, and all reads return exactly the requested range of the octets of its data URL,
whatever else is opened, read and closed in between. -/
theorem C216_read {o : Opts} {text : Str} {is : List Item} (h : Page o text is) {rs : List FRow} (hi : index o text (reported is) = .ok rs)
    {ns : List Str} (hne : ns ≠ []) {i : Item} (hl : lastItem o is ns = some i) (before : List Call) :
    ∃ m fh, mopen (opener o text) rs (src rs) (calls (opener o text) rs (src rs) start before) (canonical ns) = (m, .ok fh) ∧
      ∀ (between : List Call) (size offset : Nat), Call.release fh ∉ between →
        (mread (calls (opener o text) rs (src rs) m between) fh size offset).2 = .ok ((i.data.drop offset).take size) := by
  rw [rows_of h hi]
  obtain ⟨him, hat⟩ := mem_last hl
  refine ObjectMount.reads (listed h) (opener o text) hne (by rw [← hat]; exact TarMount.place_names _) (p := recOf o i) (by rw [lastAt_eq, hl]; rfl) (not_hard o i) ?_ before
  intro k r hk hr
  rw [List.getElem?_map, Option.map_eq_some_iff] at hk hr
  obtain ⟨j, hj, hji⟩ := hk
  obtain ⟨j', hj', rfl⟩ := hr
  rw [hj] at hj'
  cases hj'
  rw [opener_item h (List.mem_of_getElem? hj)]
  exact congrArg (fun p : Rec => Except.ok p.data) hji

/-- **C216** It is shown as a regular file with the number of its octets as size and the time of the page, and it is no link. -/
theorem C216_attributes {o : Opts} {text : Str} {is : List Item} (h : Page o text is) {rs : List FRow} (hi : index o text (reported is) = .ok rs)
    {ns : List Str} (hne : ns ≠ []) {i : Item} (hl : lastItem o is ns = some i) :
    mgetattr rs (src rs) (canonical ns) = .ok ⟨0o100777, i.data.length, o.mtime, 0, 0⟩ ∧ mreadlink (src rs) (canonical ns) = .ok [] := by
  rw [rows_of h hi]
  obtain ⟨him, hat⟩ := mem_last hl
  exact ObjectMount.attributes (listed h) hne (by rw [← hat]; exact TarMount.place_names _) (p := recOf o i) (by rw [lastAt_eq, hl]; rfl) (not_hard o i)

/-- **C216** The folders of the addresses are folders. -/
theorem C216_folder {o : Opts} {text : Str} {is : List Item} (h : Page o text is) {rs : List FRow} (hi : index o text (reported is) = .ok rs)
    {ns : List Str} (hn : ∀ x ∈ ns, IsName x) (hne : ns ≠ []) (hb : ∃ i ∈ is, ∃ n rest, at_ o i = ns ++ n :: rest) :
    mgetattr rs (src rs) (canonical ns) = .ok ⟨0o40555, 0, 0, 0, 0⟩ := by
  rw [rows_of h hi]
  obtain ⟨i, him, n, rest, hpl⟩ := hb
  refine IndexMount.folder (listed h) hn hne (last_none ?_) ⟨recOf o i, List.mem_map.mpr ⟨i, him, rfl⟩, n, rest, hpl⟩
  intro j hj he
  exact h.files j hj i him n rest (by rw [he]; exact hpl)

/-- **C216** Nothing else exists. -/
theorem C216_absent {o : Opts} {text : Str} {is : List Item} (h : Page o text is) {rs : List FRow} (hi : index o text (reported is) = .ok rs)
    {ns : List Str} (hn : ∀ x ∈ ns, IsName x) (hne : ns ≠ []) (hv : ∀ x ∈ ns, endsWith dotVersions x = false)
    (hno : ∀ i ∈ is, ∀ rest, at_ o i ≠ ns ++ rest) (m : ObjectMount.Mount) :
    mgetattr rs (src rs) (canonical ns) = .error (.os 2) ∧ mopen (opener o text) rs (src rs) m (canonical ns) = (m, .error (.os 2)) := by
  rw [rows_of h hi]
  refine ObjectMount.absent (listed h) (opener o text) hn hne hv (last_none (fun i hi => by have := hno i hi []; rwa [List.append_nil] at this)) ?_ m
  rintro ⟨p, hp, n, rest, hpl⟩
  obtain ⟨i, him, rfl⟩ := List.mem_map.mp hp
  exact hno i him (n :: rest) hpl

/-- **C216** A folder lists exactly the names below it, and each once. -/
theorem C216_list {o : Opts} {text : Str} {is : List Item} (h : Page o text is) {rs : List FRow} (hi : index o text (reported is) = .ok rs)
    {ns : List Str} (hn : ∀ x ∈ ns, IsName x) (hv : ∀ x ∈ ns, endsWith dotVersions x = false) (n : Str) :
    (n ∈ mreaddir (src rs) (canonical ns) ↔ n = ['.'] ∨ n = ['.', '.'] ∨ ∃ i ∈ is, ∃ rest, at_ o i = ns ++ n :: rest) ∧
      (mreaddir (src rs) (canonical ns)).Nodup := by
  rw [rows_of h hi]
  refine ⟨?_, IndexMount.once (listed h) hn hv⟩
  unfold src
  rw [IndexMount.lists (listed h) hn hv]
  constructor
  · rintro (h | h | ⟨p, hp, rest, hpl⟩)
    · exact .inl h
    · exact .inr (.inl h)
    · obtain ⟨i, him, rfl⟩ := List.mem_map.mp hp
      exact .inr (.inr ⟨i, him, rest, hpl⟩)
  · rintro (h | h | ⟨i, him, rest, hpl⟩)
    · exact .inl h
    · exact .inr (.inl h)
    · exact .inr (.inr ⟨_, List.mem_map.mpr ⟨i, him, rfl⟩, rest, hpl⟩)

/-- **C216** A file without an address is shown in the root, under its hash and the extension of its media type. -/
theorem C216_hash (o : Opts) (i : Item) (ht : o.transform = id) (hu : i.url = [] ∨ startsWith "data:".toList i.url = true) (ext : Str)
    (he : extension o.names (mimeOf o.lib i.value) = ext) (hext : IsExt ext) (hne : o.names.sha i.data ≠ [])
    (hsha : ∀ c ∈ o.names.sha i.data, c ≠ '.' ∧ c ≠ '/') : at_ o i = [o.names.sha i.data ++ ext] := by
  unfold at_ nameOf
  rw [ht, he, C169_hash o.names i.url i.data ext hu hext hne hsha]
  obtain ⟨c, s, hc⟩ := List.exists_cons_of_ne_nil hne
  have hname : IsName (o.names.sha i.data ++ ext) := by
    have hcd := hsha c (by rw [hc]; simp)
    refine ⟨by rw [hc]; simp, ?_, ?_, ?_⟩
    · intro hm
      rcases List.mem_append.mp hm with h | h
      · exact (hsha _ h).2 rfl
      · rcases hext with rfl | ⟨s, rfl, -, -, h2⟩
        · cases h
        · rcases List.mem_cons.mp h with h | h
          · cases h
          · exact h2 h
    · rw [hc]
      intro h
      exact hcd.1 (List.cons.inj h).1
    · rw [hc]
      intro h
      exact hcd.1 (List.cons.inj h).1
  show walk [] (split '/' (o.names.sha i.data ++ ext)) = _
  rw [split_of_not_mem _ _ hname.2.1]
  exact walk_names [_] [] (by simpa using hname)

/-- **C216** A file with an address is shown at `scheme:/host/folders/name`; the name has the extension of the media type, as in the address or else appended. -/
theorem C216_address (o : Opts) (i : Item) (ht : o.transform = id) (scheme : Str) (ns : List Str) (n e ext : Str) (c : Char) (hs : '/' ∉ scheme)
    (hns : ∀ x ∈ ns, IsName x) (hn : IsName (n ++ c :: '.' :: e)) (hc : c ≠ '.') (hdot : '.' ∉ e)
    (hurl : i.url = scheme ++ ':' :: '/' :: '/' :: join '/' (ns ++ [n ++ c :: '.' :: e])) (hd : startsWith "data:".toList i.url = false)
    (hext : extension o.names (mimeOf o.lib i.value) = '.' :: ext) (hes : '/' ∉ ext) :
    at_ o i = (scheme ++ [':']) :: ns ++
      [if o.names.lowered ('.' :: e) = o.names.lowered ('.' :: ext) then n ++ c :: '.' :: e else n ++ c :: '.' :: e ++ '.' :: ext] := by
  have hsl := hn.2.1
  have hc2 : c ≠ '/' := fun h => hsl (by rw [h]; simp)
  have he2 : '/' ∉ e := fun h => hsl (by simp [h])
  obtain ⟨base, hbase⟩ : ∃ base, i.url = base ++ c :: '.' :: e := by
    rw [hurl]
    rcases List.eq_nil_or_concat ns with rfl | ⟨a, x, rfl⟩
    · exact ⟨scheme ++ ':' :: '/' :: '/' :: n, by simp [join]⟩
    · rw [List.concat_eq_append, Compose.join_append_single (a ++ [x]) _ (by simp)]
      exact ⟨scheme ++ ':' :: '/' :: '/' :: (join '/' (a ++ [x]) ++ '/' :: n), by simp⟩
  have hne : i.url ≠ [] := by rw [hurl]; simp
  have hext2 : splitextExt i.url = '.' :: e := by rw [hbase, splitextExt_dot base e c hc hc2 hdot he2]
  have key : ∀ m, IsName m → place (scheme ++ ':' :: '/' :: '/' :: join '/' (ns ++ [m])) = (scheme ++ [':']) :: ns ++ [m] := by
    intro m hm
    have hall : ∀ x ∈ ns ++ [m], IsName x := by
      intro x hx
      rcases List.mem_append.mp hx with h | h
      · exact hns x h
      · rw [List.mem_singleton.mp h]; exact hm
    unfold place
    have e1 : scheme ++ ':' :: '/' :: '/' :: join '/' (ns ++ [m]) = (scheme ++ [':']) ++ '/' :: ('/' :: join '/' (ns ++ [m])) := by simp
    rw [e1, split_append_cons _ _ _ (by simp [hs]), split_cons_eq, split_join '/' _ (by simp) (fun p hp => (hall p hp).2.1)]
    have hsc : IsName (scheme ++ [':']) := by
      refine ⟨by simp, by simp [hs], ?_, ?_⟩
      · intro h
        have := congrArg List.getLast? h
        simp at this
      · intro h
        have := congrArg List.getLast? h
        simp at this
    have e2 : walk [] ((scheme ++ [':']) :: [] :: (ns ++ [m])) = walk [] ((scheme ++ [':']) :: (ns ++ [m])) := by
      simp [walk, hsc.2.2.1, hsc.2.2.2]
    rw [e2, walk_names _ [] (by
      intro x hx
      rcases List.mem_cons.mp hx with rfl | hx
      · exact hsc
      · exact hall x hx)]
    simp
  unfold at_ nameOf virtualPath named
  rw [ht, hext, if_neg (by rw [hd]; simp [hne])]
  unfold withExtension
  rw [hext2]
  by_cases hl : o.names.lowered ('.' :: e) = o.names.lowered ('.' :: ext)
  · rw [if_neg (by simpa using hl), if_pos hl, id, hurl]
    exact key _ hn
  · rw [if_pos hl, if_neg hl, id, hurl]
    have e2 : scheme ++ ':' :: '/' :: '/' :: join '/' (ns ++ [n ++ c :: '.' :: e]) ++ '.' :: ext =
        scheme ++ ':' :: '/' :: '/' :: join '/' (ns ++ [n ++ c :: '.' :: e ++ '.' :: ext]) := by
      rcases List.eq_nil_or_concat ns with rfl | ⟨a, x, rfl⟩
      · simp [join]
      · rw [List.concat_eq_append, Compose.join_append_single (a ++ [x]) _ (by simp), Compose.join_append_single (a ++ [x]) _ (by simp)]
        simp
    rw [e2]
    refine key _ ⟨by simp, fun hm => (List.mem_append.mp hm).elim hsl (by simp [hes]), ?_, ?_⟩
    · intro h
      have := congrArg List.length h
      simp at this
      omega
    · intro h
      have := congrArg List.length h
      simp at this
      omega

/-- **C216** A data URL that is not found again in the text of its tag changes nothing for the others. -/
theorem C216_skipped (o : Opts) (text : Str) (cs cs' : List (Str × Candidate)) (u : Str) (c : Candidate) (h : fileSpan text c = .ok none) :
    index o text (cs ++ (u, c) :: cs') = index o text (cs ++ cs') := by
  have hg : gather text (cs ++ (u, c) :: cs') = gather text (cs ++ cs') := by
    induction cs with
    | nil => simp only [List.nil_append, gather, h]
    | cons d cs ih => simp only [List.cons_append, gather, ih]
  unfold index
  rw [hg]

/-- **C216** With a data URL that cannot be decoded, the page cannot be mounted at all. -/
theorem C216_undecodable (o : Opts) (text : Str) (cs : List (Str × Candidate)) (u : Str) (c : Candidate) (hc : (u, c) ∈ cs) (a b : Nat)
    (hs : fileSpan text c = .ok (some (a, b))) (x : PyErr) (hd : contents o.lib (openText text a b) = .error x) : ∃ e, index o text cs = .error e := by
  have hcol : ∀ fs : List Embedded, ⟨u, a, b⟩ ∈ fs → ∃ e, columns o text fs = .error e := by
    intro fs
    induction fs with
    | nil => intro hm; cases hm
    | cons f fs ih =>
      intro hm
      unfold columns
      cases hf : columnsOf o text f with
      | error e => exact ⟨e, rfl⟩
      | ok r =>
        simp only
        rcases List.mem_cons.mp hm with rfl | hm
        · unfold columnsOf openSpan at hf
          simp only [hd] at hf
          cases hf
        · obtain ⟨e, he⟩ := ih hm
          rw [he]
          exact ⟨e, rfl⟩
  unfold index
  cases hg : gather text cs with
  | error e => exact ⟨e, rfl⟩
  | ok fs =>
    refine hcol fs ?_
    clear hcol
    induction cs generalizing fs with
    | nil => cases hc
    | cons d cs ih =>
      unfold gather at hg
      rcases List.mem_cons.mp hc with rfl | hc
      · simp only [hs] at hg
        split at hg
        · cases hg
        · cases hg
          exact List.mem_cons_self
      · split at hg
        · cases hg
        · exact ih hc fs hg
        · split at hg
          · cases hg
          · next fs' hfs =>
            cases hg
            exact List.mem_cons_of_mem _ (ih hc fs' hfs)

/-- C216: upper case letters in the page hide an attribute, but not the one after it; an umlaut without charset lets the mount fail. -/
example : fileSpan "<a HREF=\"data:,x\">".toList ⟨0, none, "href".toList⟩ = .ok none ∧
    ∃ e, index ⟨demoLib, demoNames, id, 0⟩ demoText [([], ⟨0, none, []⟩)] = .error e :=
  ⟨by decide +kernel, C216_undecodable _ _ _ [] ⟨0, none, []⟩ List.mem_cons_self 0 21 (by decide +kernel) .valueError (by decide +kernel)⟩

/-- C216 as claimed: every embedded file can be reached, because everything above it is a folder. -/
def C216_statement : Prop :=
  ∀ (o : Opts) (text : Str) (is : List Item) (rs : List FRow), (∀ i ∈ is, Written text i.cand i.pos i.value) →
    (∀ i ∈ is, ∀ c ∈ i.value, c.toNat < 128) → (∀ i ∈ is, contents o.lib i.value = .ok i.data) → is.Pairwise (fun a b => at_ o a ≠ at_ o b) →
    index o text (reported is) = .ok rs → ∀ i ∈ is, ∀ a b, a ≠ [] → b ≠ [] → at_ o i = a ++ b →
      ∃ s, mgetattr rs (src rs) (canonical a) = .ok s ∧ s.mode &&& 0xF000 = 0x4000

/-! ### examples -/

/-- Libraries for the examples: there is no extension for any type. -/
def plain : Opts := ⟨demoLib, ⟨fun _ => "ab".toList, fun _ => none, fun c => [c.toLower]⟩, id, 7⟩

/-- A style sheet with two data URLs. -/
def sheet : Str := "url(data:,x)url(data:,y)".toList

/-- They were saved from these addresses. -/
def saved (u u' : Str) : List Item :=
  [⟨u, ⟨4, some 11, []⟩, 4, "data:,x".toList, [120]⟩, ⟨u', ⟨16, some 23, []⟩, 16, "data:,y".toList, [121]⟩]

theorem sheet_written (u u' : Str) : ∀ i ∈ saved u u', Written sheet i.cand i.pos i.value := by
  intro i hi
  simp only [saved, List.mem_cons, List.not_mem_nil, or_false] at hi
  rcases hi with rfl | rfl
  · exact .style "url(".toList ")url(data:,y)".toList rfl rfl rfl rfl (by simp) rfl
  · exact .style "url(data:,x)url(".toList ")".toList rfl rfl rfl rfl (by simp) rfl

/-- The rows for two places. -/
def twoRows (p n p' n' : Str) : List FRow := [⟨p, n, 4, 11, 1, 7, 0o100777, [], 0, 0, false⟩, ⟨p', n', 16, 23, 1, 7, 0o100777, [], 0, 0, false⟩]

/-- **C216 is violated by the code**: if a file was saved from `a/b` and a later one from `a`, then `a` is a file, and `a/b` cannot be reached. -/
theorem C216_violated : ¬ C216_statement := by
  intro h
  have hi : index plain sheet (reported (saved "a/b".toList "a".toList)) = .ok (twoRows "/a".toList "b".toList [] "a".toList) := by decide +kernel
  obtain ⟨s, h1, h2⟩ := h plain sheet (saved "a/b".toList "a".toList) _ (sheet_written _ _) (by decide) (by decide +kernel) (by decide +kernel) hi _ List.mem_cons_self
    ["a".toList] ["b".toList] (by decide) (by decide) (by decide +kernel)
  have h3 : mgetattr (twoRows "/a".toList "b".toList [] "a".toList) (src (twoRows "/a".toList "b".toList [] "a".toList)) (canonical ["a".toList]) =
      .ok ⟨0o100777, 1, 7, 0, 0⟩ := by decide +kernel
  rw [h3] at h1
  cases h1
  exact absurd h2 (by decide)

/-- **C216 is violated** also in the other order: if a file was saved from `a` and a later one from `a/b`, then a folder is shown instead of the first
file. -/
theorem C216_hidden_violated : ∃ rs, index plain sheet (reported (saved "a".toList "a/b".toList)) = .ok rs ∧
    mgetattr rs (src rs) "/a".toList = .ok ⟨0o40555, 0, 0, 0, 0⟩ :=
  ⟨twoRows [] "a".toList "/a".toList "b".toList, by decide +kernel, by decide +kernel⟩

/-- They were saved from the same address. -/
def same : List Item := saved "a".toList "a".toList

theorem same_page : Page plain sheet same := by
  refine ⟨sheet_written _ _, by decide, by decide +kernel, by decide +kernel, ?_⟩
  intro i hi j hj n rest hpl
  have h1 : ∀ i ∈ same, ∀ j ∈ same, (at_ plain j).length = (at_ plain i).length := by decide +kernel
  have := h1 i hi j hj
  rw [hpl] at this
  simp at this

/-- **C216 is violated** also by two different files with the same address: the first one is not shown under this address, only the second one. -/
theorem C216_same_violated : ∃ (rs : List FRow) (i : Item), i ∈ same ∧ index plain sheet (reported same) = .ok rs ∧ ∃ m fh,
    mopen (opener plain sheet) rs (src rs) start (canonical (at_ plain i)) = (m, .ok fh) ∧ i.data = [120] ∧ (mread m fh 10 0).2 = .ok [121] := by
  obtain ⟨rs, hi⟩ := C216_mounts same_page
  refine ⟨rs, _, List.mem_cons_self, hi, ?_⟩
  obtain ⟨m, fh, h1, h2⟩ := C216_read same_page hi (ns := ["a".toList]) (by decide) (i := ⟨"a".toList, ⟨16, some 23, []⟩, 16, "data:,y".toList, [121]⟩) (by rfl) []
  exact ⟨m, fh, h1, rfl, h2 [] 10 0 (by simp)⟩

/-- Libraries for the other examples: every type has the extension `.svg`. -/
def svg : Opts := ⟨demoLib, demoNames, id, 7⟩

/-- A picture in a tag, and one in a style sheet. -/
def pageText : Str := "ä<img src=\"data:,x\"><style>url(data:,yz)</style>".toList

/-- The attribute with the first picture. -/
def source_ : Attribute := ⟨[' '], "src".toList, [], [], .quoted '"' "data:,x".toList⟩

/-- The first one has an address. -/
def page : List Item := [⟨"http://e/d/a.SVG".toList, ⟨1, some 20, "src".toList⟩, 11, "data:,x".toList, [120]⟩,
  ⟨[], ⟨31, some 39, []⟩, 31, "data:,yz".toList, [121, 122]⟩]

theorem page_page : Page svg pageText page := by
  refine ⟨?_, by decide, by decide +kernel, by decide +kernel, ?_⟩
  · intro i hi
    simp only [page, List.mem_cons, List.not_mem_nil, or_false] at hi
    rcases hi with rfl | rfl
    · refine .tag "ä".toList "img".toList [] source_ [] '"' "><style>url(data:,yz)</style>".toList ⟨by decide, rfl, ?_, rfl,
        ⟨'i', "mg".toList, rfl, by decide, by unfold OldChar; decide⟩, ?_, ⟨[], '>', _, rfl, by simp [Spaces], .inl rfl⟩, by simp, rfl, by simp⟩ (by decide)
      · rintro n h
        cases h
        decide
      · intro a ha
        simp only [List.nil_append, List.mem_singleton] at ha
        subst ha
        exact ⟨⟨by decide, by unfold Spaces White; decide⟩, ⟨'s', "rc".toList, rfl, by decide, by unfold OldChar; decide⟩,
          ⟨by unfold Spaces White; decide, by unfold Spaces White; decide⟩, by unfold Quote; decide, by decide⟩
    · exact .style "ä<img src=\"data:,x\"><style>url(".toList ")</style>".toList (by decide) rfl rfl rfl (by simp) rfl
  · intro i hi j hj n rest hpl
    have h1 : ∀ i ∈ page, ∀ j ∈ page, (at_ svg i).isPrefixOf (at_ svg j) = true → (at_ svg i).length = (at_ svg j).length := by decide +kernel
    have := h1 i hi j hj (by rw [hpl, List.isPrefixOf_iff_prefix]; exact List.prefix_append _ _)
    rw [hpl] at this
    simp at this

/-- C216: both pictures are read back. -/
example : ∃ rs, index svg pageText (reported page) = .ok rs ∧
    (∃ m fh, mopen (opener svg pageText) rs (src rs) start "/http:/e/d/a.SVG".toList = (m, .ok fh) ∧ (mread m fh 10 0).2 = .ok [120]) ∧
    (∃ m fh, mopen (opener svg pageText) rs (src rs) (calls (opener svg pageText) rs (src rs) start [.open "/ab.svg".toList, .read 1 1 0]) "/ab.svg".toList =
      (m, .ok fh) ∧ (mread (calls (opener svg pageText) rs (src rs) m [.read 1 1 0, .release 1]) fh 10 1).2 = .ok [122]) ∧
    mgetattr rs (src rs) "/ab.svg".toList = .ok ⟨0o100777, 2, 7, 0, 0⟩ ∧ mgetattr rs (src rs) "/http:/e".toList = .ok ⟨0o40555, 0, 0, 0, 0⟩ := by
  obtain ⟨rs, hi⟩ := C216_mounts page_page
  have l1 : lastItem svg page ["http:".toList, "e".toList, "d".toList, "a.SVG".toList] =
      some ⟨"http://e/d/a.SVG".toList, ⟨1, some 20, "src".toList⟩, 11, "data:,x".toList, [120]⟩ := by rfl
  have l2 : lastItem svg page ["ab.svg".toList] = some ⟨[], ⟨31, some 39, []⟩, 31, "data:,yz".toList, [121, 122]⟩ := by rfl
  refine ⟨rs, hi, ?_, ?_, (C216_attributes page_page hi (by decide) l2).1, ?_⟩
  · obtain ⟨m, fh, h1, h2⟩ := C216_read page_page hi (by decide) l1 []
    exact ⟨m, fh, h1, h2 [] 10 0 (by simp)⟩
  · obtain ⟨m, fh, h1, h2⟩ := C216_read page_page hi (by decide) l2 [.open "/ab.svg".toList, .read 1 1 0]
    refine ⟨m, fh, h1, h2 [.read 1 1 0, .release 1] 10 1 ?_⟩
    have hr := rows_of page_page hi
    subst hr
    have : fh = 2 := by
      have e : (mopen (opener svg pageText) (page.map (rowOf svg pageText)) (src (page.map (rowOf svg pageText)))
        (calls (opener svg pageText) (page.map (rowOf svg pageText)) (src (page.map (rowOf svg pageText))) start [.open "/ab.svg".toList, .read 1 1 0])
        "/ab.svg".toList).2 = .ok 2 := by decide +kernel
      have h1' := congrArg Prod.snd h1
      exact (Except.ok.inj (h1'.symm.trans e))
    subst this
    decide
  · exact C216_folder page_page hi (ns := ["http:".toList, "e".toList]) (by unfold IsName; decide) (by decide)
      ⟨_, List.mem_cons_self, "d".toList, ["a.SVG".toList], by decide +kernel⟩

/-- C216: names of the pictures. -/
example : at_ svg ⟨"http://e/d/a.SVG".toList, ⟨1, some 20, "src".toList⟩, 11, "data:,x".toList, [120]⟩ = ["http:".toList, "e".toList, "d".toList, "a.SVG".toList] ∧
    at_ svg ⟨[], ⟨31, some 39, []⟩, 31, "data:,yz".toList, [121, 122]⟩ = ["ab.svg".toList] := by
  constructor
  · rw [C216_address svg _ rfl "http".toList ["e".toList, "d".toList] [] "SVG".toList "svg".toList 'a' (by decide) (by unfold IsName; decide)
      (by unfold IsName; decide) (by decide) (by decide) rfl (by decide) rfl (by decide)]
    decide
  · exact C216_hash svg _ rfl (.inl rfl) ".svg".toList rfl (.inr ⟨"svg".toList, rfl, by decide, by decide, by decide⟩) (by decide) (by decide)

end Verif.Fuse.HtmlMount
