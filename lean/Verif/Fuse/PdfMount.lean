import Verif.Fuse.ObjectMount
import Verif.Formats.Pdf

/-!
# C219: a mounted PDF file shows the files that are attached to it
(core/ratarmountcore/mountsource/formats/pdf.py, core/ratarmountcore/mountsource/compositing/versioning.py, ratarmount/FuseMount.py)

The objects that are found (`Verif.Formats.Pdf`), the rows of the index, the versions layer and the FUSE operations (`Verif.Fuse.ObjectMount`) are put
together. The library pypdf is represented by what it reads: the document, the cross-reference table, and the contents of objects, texts and images.

Simplified: `might_be_format` is left out. The numbers of texts and images, which are negative, are kept in the column offsetheader increased by 2 ^ 62,
as the model of the index knows natural numbers only; the index only compares them. The file does not change while it is mounted, and FUSE calls one
operation at a time.
-/

namespace Verif.Fuse.PdfMount

open Verif.Py Verif.Index Verif.Pdf
open Verif.Tar (Bytes)
open Verif.Compose (dotVersions)
open Verif.Fuse.IndexMount (FRow Stat Rec source toRows mgetattr lastAt Below)
open Verif.Fuse.ObjectMount (Listed mopen mread calls start)
open Verif.Fuse.TarMount (mreaddir Call place)

/-! ## model -/

/-- What the mount depends on: `transform`, the modification time, and SHA-256 (pdf.py:141-159, 192-193). -/
structure Opts where
  transform : Str → Str
  mtime : Nat
  sha : Bytes → Str

/-- What pypdf reads of a file: the document, the offset of each object (`xref`, pdf.py:165-169), the contents of objects, if they are streams, the texts
and the images of pages (pdf.py:176-188). -/
structure File where
  doc : Document
  xref : Dict Object Int
  data : Object → Option Bytes
  text : Nat → Bytes
  image : Nat → Nat → Bytes

/-- `_objects_by_offset` (pdf.py:165-169). -/
def byOffset (xref : Dict Object Int) : Dict Int Object := xref.foldl (fun d e => d.set e.2 e.1) []

/-- `_open_with_offset` (pdf.py:176-188). There are pages if there are texts or images. -/
def contents (p : File) (offset : Int) : Except PyErr (Option Bytes) :=
  match openWithOffset p.doc.pages.length offset with
  | .text k => .ok (some (p.text k))
  | .image k i => .ok (some (p.image k i))
  | .object n =>
    match (byOffset p.xref).get? n with
    | none => .error .keyError
    | some x => .ok (p.data x)

/-- The column offsetheader (pdf.py:203). -/
def shift (n : Int) : Nat := (n + 4611686018427387904).toNat

/-- The number of the column offsetheader (pdf.py:224). -/
def unshift (n : Nat) : Int := (n : Int) - 4611686018427387904

/-- `_convert_to_row` (pdf.py:190-219). -/
def row (o : Opts) (p : File) (e : Str × Int) : Except PyErr FRow :=
  match contents p e.2 with
  | .error x => .error x
  | .ok d =>
    let data := d.getD []
    let name := if e.1 = [] ∧ data ≠ [] then o.sha data else e.1
    .ok ⟨(splitPath (normpath (o.transform name))).1, (splitPath (normpath (o.transform name))).2, shift e.2, 0, data.length, o.mtime, 0o100644, [], 0, 0,
      false⟩

/-- The rows of all files (pdf.py:170-174). -/
def rows (o : Opts) (p : File) : List (Str × Int) → Except PyErr (List FRow)
  | [] => .ok []
  | e :: es =>
    match row o p e with
    | .error x => .error x
    | .ok r =>
      match rows o p es with
      | .error x => .error x
      | .ok rs => .ok (r :: rs)

/-- The index (pdf.py:164-174). -/
def index (o : Opts) (p : File) : Except PyErr (List FRow) :=
  match gather (fun x => p.xref.get? x) p.doc with
  | .error x => .error x
  | .ok fs => rows o p fs

/-- The mount source: the rows are inserted at once (pdf.py:170-174). -/
def src (rs : List FRow) : Compose.Source := source rs [toRows rs]

/-- `open` (pdf.py:222-227). -/
def opener (p : File) (r : FRow) : Except PyErr Bytes :=
  match contents p (unshift r.oh) with
  | .error x => .error x
  | .ok none => .error .ratarmount
  | .ok (some []) => .error .ratarmount
  | .ok (some (b :: bs)) => .ok (b :: bs)

/-! ## specification -/

/-- The attachments of a document and of its pages. -/
def attached (d : Document) : List (Str × Object) := d.attachments ++ d.pages.flatMap (fun p : Page => p.attachments)

/-- This object is attached, and this is the first name for it. -/
def Shown (d : Document) (name : Str) (x : Object) : Prop := ∃ a b, attached d = a ++ (name, x) :: b ∧ ∀ e ∈ a, e.2 ≠ x

/-- The contents of an object. -/
def octets (p : File) (x : Object) : Bytes := (p.data x).getD []

/-- Where an attachment is shown: under its name, or under its hash. -/
def at_ (o : Opts) (p : File) (name : Str) (x : Object) : List Str :=
  place (o.transform (if name = [] ∧ octets p x ≠ [] then o.sha (octets p x) else name))

/-- A well-formed file in which an attachment of the whole document comes first, or which has neither texts nor images. The attachments are at different
places, none below another one. -/
structure Good (o : Opts) (p : File) : Prop where
  first : p.doc.attachments ≠ [] ∨ ∀ page ∈ p.doc.pages, page.images = [] ∧ page.text = none
  once : p.xref.keys.Nodup
  stored : ∀ e ∈ attached p.doc, ∃ n, (e.2, n) ∈ p.xref ∧ 0 < n ∧ ∀ y ∈ p.xref, y.2 = n → y.1 = e.2
  apart : ∀ name x name' x', x ≠ x' → Shown p.doc name x → Shown p.doc name' x' → ∀ rest, at_ o p name' x' ≠ at_ o p name x ++ rest

/-! ## lemmas: what is found -/

theorem emit_keep (xref : Object → Option Int) (l : List (Str × Ref)) (o : Option Int) (seen : List Int) (h : ∀ x ∈ l, (numberOf xref x.2).isSome)
    (hf : (∀ x ∈ l, x.2.isObject = true) ∨ ∃ x t, l = x :: t ∧ x.2.isObject = true) :
    emit xref l o seen = .ok (firsts ((l.filter (fun x => x.2.isObject)).filterMap (fun x => (numberOf xref x.2).map (fun n => (x.1, n)))) seen) := by
  cases l with
  | nil => rfl
  | cons x l =>
    have hx : x.2.isObject = true := by
      rcases hf with hf | ⟨y, t, he, hy⟩
      · exact hf x (by simp)
      · cases he
        exact hy
    have hl : ∀ x ∈ l, (numberOf xref x.2).isSome := fun y hy => h y (by simp [hy])
    have h2 := h x (by simp)
    obtain ⟨name, r⟩ := x
    cases r with
    | number n => cases hx
    | object r =>
      simp only [numberOf] at h2
      obtain ⟨n, hn⟩ := Option.isSome_iff_exists.mp h2
      rw [List.filter_cons_of_pos (by rfl), List.filterMap_cons]
      simp only [numberOf, hn, Option.map_some]
      rw [emit, firsts]
      simp only [hn]
      split
      · next hm => exact C78_hidden xref l n seen hm hl
      · rw [C78_hidden xref l n (n :: seen) List.mem_cons_self hl]
        rfl

theorem image_filter (pages page : Nat) : ∀ (ns : List Str) (i : Nat), (imageRefs pages page i ns).filter (fun x => x.2.isObject) = [] := by
  intro ns
  induction ns with
  | nil => intro i; rfl
  | cons n ns ih =>
    intro i
    rw [imageRefs, List.filter_cons_of_neg (by simp [Ref.isObject])]
    exact ih _

theorem page_filter (pages page : Nat) (p : Page) : (pageRefs pages page p).filter (fun x => x.2.isObject) = p.attachments.map (fun a => (a.1, Ref.object a.2)) := by
  unfold pageRefs
  rw [List.filter_append, List.filter_append, image_filter]
  have h1 : (p.attachments.map (fun a => (a.1, Ref.object a.2))).filter (fun x => x.2.isObject) = p.attachments.map (fun a => (a.1, Ref.object a.2)) := by
    rw [List.filter_eq_self]
    intro x hx
    obtain ⟨a, -, rfl⟩ := List.mem_map.mp hx
    rfl
  rw [h1]
  cases p.text <;> simp [Ref.isObject]

theorem pages_filter (pages : Nat) : ∀ (ps : List Page) (k : Nat), (pagesRefs pages k ps).filter (fun x => x.2.isObject) =
    (ps.flatMap (fun p : Page => p.attachments)).map (fun a => (a.1, Ref.object a.2)) := by
  intro ps
  induction ps with
  | nil => intro k; rfl
  | cons p ps ih =>
    intro k
    rw [pagesRefs, List.filter_append, page_filter, ih, List.flatMap_cons, List.map_append]

theorem found_filter (d : Document) : (found d).filter (fun x => x.2.isObject) = (attached d).map (fun a => (a.1, Ref.object a.2)) := by
  unfold found attached
  rw [List.filter_append, pages_filter, List.map_append]
  congr 1
  rw [List.filter_eq_self]
  intro x hx
  obtain ⟨a, -, rfl⟩ := List.mem_map.mp hx
  rfl

/-- The first of every object. -/
def firstOf : List (Str × Object) → List Object → List (Str × Object)
  | [], _ => []
  | x :: xs, seen => if x.2 ∈ seen then firstOf xs seen else x :: firstOf xs (x.2 :: seen)

theorem firsts_firstOf (num : Object → Int) : ∀ (l : List (Str × Object)) (seen : List Object),
    (∀ a b, (a ∈ seen ∨ a ∈ l.map Prod.snd) → (b ∈ seen ∨ b ∈ l.map Prod.snd) → num a = num b → a = b) →
    firsts (l.map (fun e => (e.1, num e.2))) (seen.map num) = (firstOf l seen).map (fun e => (e.1, num e.2)) := by
  intro l
  induction l with
  | nil => intro seen _; rfl
  | cons x l ih =>
    intro seen h
    have hm : num x.2 ∈ seen.map num ↔ x.2 ∈ seen := by
      constructor
      · intro hx
        obtain ⟨y, hy, he⟩ := List.mem_map.mp hx
        rw [← h y x.2 (.inl hy) (.inr (by simp)) he]
        exact hy
      · exact fun hx => List.mem_map.mpr ⟨_, hx, rfl⟩
    rw [List.map_cons, firsts, firstOf]
    by_cases hx : x.2 ∈ seen
    · rw [if_pos (hm.mpr hx), if_pos hx]
      refine ih seen (fun a b ha hb => h a b ?_ ?_)
      · exact ha.imp id (fun h => by simp only [List.map_cons, List.mem_cons]; exact .inr h)
      · exact hb.imp id (fun h => by simp only [List.map_cons, List.mem_cons]; exact .inr h)
    · rw [if_neg (fun h => hx (hm.mp h)), if_neg hx, List.map_cons]
      congr 1
      refine ih (x.2 :: seen) (fun a b ha hb => h a b ?_ ?_)
      all_goals simp only [List.map_cons, List.mem_cons] at *
      · rcases ha with (ha | ha) | ha
        · exact .inr (.inl ha)
        · exact .inl ha
        · exact .inr (.inr ha)
      · rcases hb with (ha | ha) | ha
        · exact .inr (.inl ha)
        · exact .inl ha
        · exact .inr (.inr ha)

theorem mem_firstOf : ∀ (l : List (Str × Object)) (seen : List Object) (name : Str) (x : Object),
    (name, x) ∈ firstOf l seen ↔ x ∉ seen ∧ ∃ a b, l = a ++ (name, x) :: b ∧ ∀ e ∈ a, e.2 ≠ x := by
  intro l
  induction l with
  | nil =>
    intro seen name x
    constructor
    · intro h; cases h
    · rintro ⟨-, a, b, h, -⟩
      simp at h
  | cons y l ih =>
    intro seen name x
    rw [firstOf]
    have hcons : (∃ a b, y :: l = a ++ (name, x) :: b ∧ ∀ e ∈ a, e.2 ≠ x) ↔
        y = (name, x) ∨ y.2 ≠ x ∧ ∃ a b, l = a ++ (name, x) :: b ∧ ∀ e ∈ a, e.2 ≠ x := by
      constructor
      · rintro ⟨a, b, he, ha⟩
        cases a with
        | nil => exact .inl (List.cons.inj he).1
        | cons z a =>
          obtain ⟨rfl, rfl⟩ := List.cons.inj he
          exact .inr ⟨ha y (by simp), a, b, rfl, fun e he => ha e (by simp [he])⟩
      · rintro (rfl | ⟨hy, a, b, rfl, ha⟩)
        · exact ⟨[], l, rfl, by simp⟩
        · refine ⟨y :: a, b, rfl, ?_⟩
          intro e he
          rcases List.mem_cons.mp he with rfl | he
          · exact hy
          · exact ha e he
    rw [hcons]
    by_cases hy : y.2 ∈ seen
    · rw [if_pos hy, ih]
      constructor
      · rintro ⟨h1, h2⟩
        exact ⟨h1, .inr ⟨fun h => h1 (h ▸ hy), h2⟩⟩
      · rintro ⟨h1, rfl | ⟨-, h2⟩⟩
        · exact absurd hy h1
        · exact ⟨h1, h2⟩
    · rw [if_neg hy, List.mem_cons, ih]
      constructor
      · rintro (rfl | ⟨h1, h2⟩)
        · exact ⟨hy, .inl rfl⟩
        · simp only [List.mem_cons, not_or] at h1
          exact ⟨h1.2, .inr ⟨fun h => h1.1 h.symm, h2⟩⟩
      · rintro ⟨h1, rfl | ⟨h2, h3⟩⟩
        · exact .inl rfl
        · refine .inr ⟨?_, h3⟩
          simp only [List.mem_cons, not_or]
          exact ⟨fun h => h2 h.symm, h1⟩

theorem nodup_firstOf : ∀ (l : List (Str × Object)) (seen : List Object), ((firstOf l seen).map Prod.snd).Nodup := by
  intro l
  induction l with
  | nil => intro seen; exact List.nodup_nil
  | cons y l ih =>
    intro seen
    rw [firstOf]
    split
    · exact ih seen
    · rw [List.map_cons, List.nodup_cons]
      refine ⟨?_, ih _⟩
      intro hm
      obtain ⟨e, he, hey⟩ := List.mem_map.mp hm
      have := ((mem_firstOf l (y.2 :: seen) e.1 e.2).mp he).1
      exact this (by simp [hey])

theorem shown_iff (d : Document) (name : Str) (x : Object) : (name, x) ∈ firstOf (attached d) [] ↔ Shown d name x := by
  rw [mem_firstOf]
  exact ⟨fun h => h.2, fun h => ⟨by simp, h⟩⟩

theorem shown_mem {d : Document} {name : Str} {x : Object} (h : Shown d name x) : (name, x) ∈ attached d := by
  obtain ⟨a, b, h, -⟩ := h
  rw [h]
  simp

/-- The offset of an object. -/
def num (p : File) (x : Object) : Int := (p.xref.get? x).getD 0

theorem num_spec {o : Opts} {p : File} (hg : Good o p) {e : Str × Object} (he : e ∈ attached p.doc) :
    p.xref.get? e.2 = some (num p e.2) ∧ 0 < num p e.2 ∧ ∀ y ∈ p.xref, y.2 = num p e.2 → y.1 = e.2 := by
  obtain ⟨n, h1, h2, h3⟩ := hg.stored e he
  have h4 := Dict.get?_eq_some_of_mem p.xref hg.once h1
  have h5 : num p e.2 = n := by
    unfold num
    rw [h4]
    rfl
  rw [h5]
  exact ⟨h4, h2, h3⟩

theorem gather_eq {o : Opts} {p : File} (hg : Good o p) :
    gather (fun x => p.xref.get? x) p.doc = .ok ((firstOf (attached p.doc) []).map (fun e => (e.1, num p e.2))) := by
  have hsome : ∀ x ∈ found p.doc, (numberOf (fun x => p.xref.get? x) x.2).isSome := by
    intro x hx
    cases hr : x.2 with
    | number n => rfl
    | object r =>
      have h1 : x ∈ (found p.doc).filter (fun x => x.2.isObject) := List.mem_filter.mpr ⟨hx, by rw [hr]; rfl⟩
      rw [found_filter] at h1
      obtain ⟨a, ha, rfl⟩ := List.mem_map.mp h1
      cases hr
      simp only [numberOf, (num_spec hg ha).1, Option.isSome_some]
  unfold gather
  rw [emit_keep _ _ _ _ hsome, found_filter]
  · have h1 : ((attached p.doc).map (fun a => (a.1, Ref.object a.2))).filterMap
        (fun x => (numberOf (fun x => p.xref.get? x) x.2).map (fun n => (x.1, n))) = (attached p.doc).map (fun e => (e.1, num p e.2)) := by
      have key : ∀ l : List (Str × Object), (∀ e ∈ l, e ∈ attached p.doc) → (l.map (fun a => (a.1, Ref.object a.2))).filterMap
          (fun x => (numberOf (fun x => p.xref.get? x) x.2).map (fun n => (x.1, n))) = l.map (fun e => (e.1, num p e.2)) := by
        intro l
        induction l with
        | nil => intro _; rfl
        | cons a l ih =>
          intro h
          rw [List.map_cons, List.filterMap_cons]
          simp only [numberOf, (num_spec hg (h a (by simp))).1, Option.map_some, List.map_cons]
          rw [← ih (fun e he => h e (by simp [he]))]
          simp only [numberOf]
      exact key _ (fun _ h => h)
    rw [h1]
    have h2 := firsts_firstOf (num p) (attached p.doc) [] (by
      intro a b ha hb he
      rcases ha with ha | ha
      · cases ha
      rcases hb with hb | hb
      · cases hb
      obtain ⟨e, hea, rfl⟩ := List.mem_map.mp ha
      obtain ⟨e', heb, rfl⟩ := List.mem_map.mp hb
      exact (num_spec hg heb).2.2 (e.2, num p e.2) (Dict.mem_of_get? _ (num_spec hg hea).1) he)
    rw [← h2]
    rfl
  · rcases hg.first with h | h
    · right
      obtain ⟨a, l, hl⟩ := List.exists_cons_of_ne_nil h
      exact ⟨(a.1, Ref.object a.2), _, by unfold found; rw [hl]; rfl, rfl⟩
    · left
      intro x hx
      unfold found at hx
      rcases List.mem_append.mp hx with hx | hx
      · obtain ⟨a, -, rfl⟩ := List.mem_map.mp hx
        rfl
      · exact pagesRefs_objects _ _ 0 h x hx

/-! ## lemmas: the rows -/

theorem byOffset_get (n : Int) (x : Object) : ∀ (l : List (Object × Int)) (d : Dict Int Object), (∀ e ∈ l, e.2 = n → e.1 = x) →
    ((∃ e ∈ l, e.2 = n) ∨ d.get? n = some x) → (l.foldl (fun d e => d.set e.2 e.1) d).get? n = some x := by
  intro l
  induction l with
  | nil =>
    intro d _ h
    rcases h with ⟨e, he, -⟩ | h
    · cases he
    · exact h
  | cons y l ih =>
    intro d hu h
    refine ih _ (fun e he => hu e (by simp [he])) ?_
    by_cases hy : y.2 = n
    · right
      rw [Dict.get?_set, if_pos hy, hu y (by simp) hy]
    · rcases h with ⟨e, he, hn⟩ | h
      · rcases List.mem_cons.mp he with rfl | he
        · exact absurd hn hy
        · exact .inl ⟨e, he, hn⟩
      · right
        rw [Dict.get?_set, if_neg hy]
        exact h

theorem contents_eq {o : Opts} {p : File} (hg : Good o p) {e : Str × Object} (he : e ∈ attached p.doc) : contents p (num p e.2) = .ok (p.data e.2) := by
  obtain ⟨h1, h2, h3⟩ := num_spec hg he
  have h4 : openWithOffset p.doc.pages.length (num p e.2) = .object (num p e.2) := by
    unfold openWithOffset
    rw [if_neg (by omega)]
  have h5 : (byOffset p.xref).get? (num p e.2) = some e.2 :=
    byOffset_get _ _ _ _ h3 (.inl ⟨(e.2, num p e.2), Dict.mem_of_get? _ h1, rfl⟩)
  simp only [contents, h4, h5]

/-- The row of an attachment. -/
def rowOf (o : Opts) (p : File) (e : Str × Object) : FRow :=
  ⟨(splitPath (normpath (o.transform (if e.1 = [] ∧ octets p e.2 ≠ [] then o.sha (octets p e.2) else e.1)))).1,
    (splitPath (normpath (o.transform (if e.1 = [] ∧ octets p e.2 ≠ [] then o.sha (octets p e.2) else e.1)))).2,
    shift (num p e.2), 0, (octets p e.2).length, o.mtime, 0o100644, [], 0, 0, false⟩

theorem rows_eq {o : Opts} {p : File} (hg : Good o p) : ∀ l : List (Str × Object), (∀ e ∈ l, e ∈ attached p.doc) →
    rows o p (l.map (fun e => (e.1, num p e.2))) = .ok (l.map (rowOf o p)) := by
  intro l
  induction l with
  | nil => intro _; rfl
  | cons e l ih =>
    intro h
    have h1 : row o p (e.1, num p e.2) = .ok (rowOf o p e) := by
      unfold row
      rw [contents_eq hg (h e (by simp))]
      rfl
    simp only [List.map_cons, rows, h1, ih (fun e he => h e (by simp [he]))]

/-- The files that are shown. -/
def files (p : File) : List (Str × Object) := firstOf (attached p.doc) []

theorem files_shown {p : File} {e : Str × Object} (h : e ∈ files p) : Shown p.doc e.1 e.2 := (shown_iff p.doc e.1 e.2).mp h

theorem index_eq {o : Opts} {p : File} (hg : Good o p) : index o p = .ok ((files p).map (rowOf o p)) := by
  unfold index
  rw [gather_eq hg]
  exact rows_eq hg _ (fun e he => shown_mem (files_shown he))

/-- An attachment as a member of an archive. -/
def recOf (o : Opts) (p : File) (e : Str × Object) : Rec := ⟨at_ o p e.1 e.2, 0o100644, [], o.mtime, 0, 0, octets p e.2⟩

theorem not_hard (o : Opts) (p : File) (e : Str × Object) : (recOf o p e).isHard = false := by
  have h : ((0o100644 : Nat) &&& 0xF000 == 0x8000) = true := by decide
  show ((!((0o100644 : Nat) &&& 0xF000 == 0x8000)) && _ && _) = false
  rw [h]
  rfl

theorem row_place (o : Opts) (p : File) (e : Str × Object) : ((rowOf o p e).path, (rowOf o p e).name) = splitPath (canonical (at_ o p e.1 e.2)) := by
  unfold rowOf
  simp only
  rw [(C14_canonical _).1]
  rfl

theorem apart {o : Opts} {p : File} (hg : Good o p) {e e' : Str × Object} (he : e ∈ files p) (he' : e' ∈ files p) (hne : e.2 ≠ e'.2) (rest : List Str) :
    at_ o p e'.1 e'.2 ≠ at_ o p e.1 e.2 ++ rest := hg.apart e.1 e.2 e'.1 e'.2 hne (files_shown he) (files_shown he') rest

theorem same {p : File} {e e' : Str × Object} (he : e ∈ files p) (he' : e' ∈ files p) (hk : e.2 = e'.2) : e = e' := by
  obtain ⟨i, hi, rfl⟩ := List.mem_iff_getElem.mp he
  obtain ⟨j, hj, rfl⟩ := List.mem_iff_getElem.mp he'
  have hnd : (files p).Pairwise (fun a b => a.2 ≠ b.2) := by
    have := nodup_firstOf (attached p.doc) []
    unfold List.Nodup at this
    rw [List.pairwise_map] at this
    exact this
  have h := List.pairwise_iff_getElem.mp hnd
  rcases Nat.lt_trichotomy i j with hij | rfl | hij
  · exact absurd hk (h i j hi hj hij)
  · rfl
  · exact absurd hk.symm (h j i hj hi hij)

theorem place_at (o : Opts) (p : File) (e : Str × Object) : ∀ x ∈ at_ o p e.1 e.2, IsName x := fun x hx => TarMount.place_names _ x hx

theorem listed {o : Opts} {p : File} (hg : Good o p) :
    Listed ((files p).map (recOf o p)) ((files p).map (rowOf o p)) [toRows ((files p).map (rowOf o p))] := by
  refine ⟨?_, by simp, ?_, ?_, ?_, by simp⟩
  · intro q hq x hx
    obtain ⟨e, -, rfl⟩ := List.mem_map.mp hq
    exact place_at o p e x hx
  · intro k q q' hq hq'
    rw [List.getElem?_map, Option.map_eq_some_iff] at hq hq'
    obtain ⟨e, he, rfl⟩ := hq
    obtain ⟨e', he', rfl⟩ := hq'
    rw [he] at he'
    cases he'
    exact ⟨row_place o p e, rfl, rfl, rfl, rfl, .inl rfl, .inl rfl⟩
  · intro a b q q' hab hq hq' hpath hname
    exfalso
    rw [List.getElem?_map, Option.map_eq_some_iff] at hq hq'
    obtain ⟨e, he, rfl⟩ := hq
    obtain ⟨e', he', rfl⟩ := hq'
    have hk : e.2 ≠ e'.2 := by
      obtain ⟨hil, hie⟩ := List.getElem?_eq_some_iff.mp he
      obtain ⟨hjl, hje⟩ := List.getElem?_eq_some_iff.mp he'
      have hnd := nodup_firstOf (attached p.doc) []
      unfold List.Nodup at hnd
      rw [List.pairwise_map] at hnd
      have := (List.pairwise_iff_getElem.mp hnd) a b hil hjl hab
      rw [← hie, ← hje]
      exact this
    refine apart hg (List.mem_of_getElem? he) (List.mem_of_getElem? he') hk [] ?_
    rw [List.append_nil]
    have h3 : splitPath (canonical (at_ o p e.1 e.2)) = splitPath (canonical (at_ o p e'.1 e'.2)) := by
      rw [← row_place o p e, ← row_place o p e']
      exact Prod.ext hpath hname
    refine (TarMount.canonical_inj (place_at o p e) (place_at o p e') ?_).symm
    have hc : ∀ ns, canonical ns = (splitPath (canonical ns)).1 ++ '/' :: (splitPath (canonical ns)).2 := by
      intro ns
      unfold splitPath
      cases hs : rsplit1 '/' (canonical ns) with
      | none =>
        rw [rsplit1_none] at hs
        exact absurd (by unfold canonical; cases ns <;> simp) hs
      | some p => exact (rsplit1_some hs).1
    rw [hc (at_ o p e.1 e.2), hc (at_ o p e'.1 e'.2), h3]
  · intro q hq hb
    obtain ⟨e, he, rfl⟩ := List.mem_map.mp hq
    obtain ⟨q, hq, n, rest, hpl⟩ := hb
    obtain ⟨e', he', rfl⟩ := List.mem_map.mp hq
    by_cases hk : e.2 = e'.2
    · rw [same he he' hk] at hpl
      have := congrArg List.length hpl
      simp at this
    · exact absurd hpl (apart hg he he' hk (n :: rest))

theorem lastAt_file {o : Opts} {p : File} (hg : Good o p) {e : Str × Object} (he : e ∈ files p) :
    lastAt ((files p).map (recOf o p)) (at_ o p e.1 e.2) = some (recOf o p e) := by
  unfold lastAt
  have hmem : recOf o p e ∈ ((files p).map (recOf o p)).filter (fun q => decide (q.place = at_ o p e.1 e.2)) :=
    List.mem_filter.mpr ⟨List.mem_map.mpr ⟨e, he, rfl⟩, by simp [recOf]⟩
  cases hl : (((files p).map (recOf o p)).filter (fun q => decide (q.place = at_ o p e.1 e.2))).getLast? with
  | none =>
    rw [List.getLast?_eq_none_iff] at hl
    rw [hl] at hmem
    cases hmem
  | some q =>
    obtain ⟨h1, h2⟩ := List.mem_filter.mp (List.mem_of_getLast? hl)
    obtain ⟨e', he', rfl⟩ := List.mem_map.mp h1
    have h3 : at_ o p e'.1 e'.2 = at_ o p e.1 e.2 := of_decide_eq_true h2
    by_cases hk : e.2 = e'.2
    · rw [same he he' hk]
    · exact absurd (by rw [h3, List.append_nil]) (apart hg he he' hk [])

theorem opener_file {o : Opts} {p : File} (hg : Good o p) {e : Str × Object} (he : e ∈ files p) :
    opener p (rowOf o p e) = if octets p e.2 = [] then .error .ratarmount else .ok (octets p e.2) := by
  have hm := shown_mem (files_shown he)
  have h1 : unshift (rowOf o p e).oh = num p e.2 := by
    show ((num p e.2 + 4611686018427387904).toNat : Int) - 4611686018427387904 = num p e.2
    have : 0 < num p e.2 := (num_spec hg hm).2.1
    omega
  unfold opener
  rw [h1, contents_eq hg hm]
  unfold octets
  cases p.data e.2 with
  | none => rfl
  | some d => cases d <;> rfl

/-! ## C219 -/

/-- **C219** Such a file can be mounted. -/
theorem C219_mounts {o : Opts} {p : File} (hg : Good o p) : ∃ rs, index o p = .ok rs := ⟨_, index_eq hg⟩

/-- **C219** After any calls, an attachment that is not empty can be opened, and all reads return exactly the requested range of its contents, whatever
else is opened, read and closed in between. -/
theorem C219_read {o : Opts} {p : File} (hg : Good o p) {rs : List FRow} (hi : index o p = .ok rs) {name : Str} {x : Object} (hs : Shown p.doc name x)
    {data : Bytes} (hd : p.data x = some data) (hdn : data ≠ []) (hne : at_ o p name x ≠ []) (before : List Call) :
    ∃ m fh, mopen (opener p) rs (src rs) (calls (opener p) rs (src rs) start before) (canonical (at_ o p name x)) = (m, .ok fh) ∧
      ∀ (between : List Call) (size offset : Nat), Call.release fh ∉ between →
        (mread (calls (opener p) rs (src rs) m between) fh size offset).2 = .ok ((data.drop offset).take size) := by
  rw [index_eq hg] at hi
  cases hi
  have he : (name, x) ∈ files p := (shown_iff _ _ _).mpr hs
  refine ObjectMount.reads (listed hg) (opener p) hne (place_at o p (name, x)) (lastAt_file hg he) (not_hard o p _) ?_ before
  intro k r hk hr
  rw [List.getElem?_map, Option.map_eq_some_iff] at hk hr
  obtain ⟨e, hk, hek⟩ := hk
  obtain ⟨e', hk', rfl⟩ := hr
  rw [hk] at hk'
  cases hk'
  have hoct : octets p e.2 = data := by
    have := congrArg Rec.data hek
    simp only [recOf, octets, hd, Option.getD_some] at this
    exact this
  rw [opener_file hg (List.mem_of_getElem? hk), hoct, if_neg hdn]

/-- **C219** An attachment is shown as a regular file with the number of its octets as size and the time of the PDF file. -/
theorem C219_attributes {o : Opts} {p : File} (hg : Good o p) {rs : List FRow} (hi : index o p = .ok rs) {name : Str} {x : Object}
    (hs : Shown p.doc name x) {data : Bytes} (hd : p.data x = some data) (hne : at_ o p name x ≠ []) :
    mgetattr rs (src rs) (canonical (at_ o p name x)) = .ok ⟨0o100644, data.length, o.mtime, 0, 0⟩ := by
  rw [index_eq hg] at hi
  cases hi
  have he : (name, x) ∈ files p := (shown_iff _ _ _).mpr hs
  have h := (ObjectMount.attributes (listed hg) hne (place_at o p (name, x)) (lastAt_file hg he) (not_hard o p _)).1
  rw [show src ((files p).map (rowOf o p)) = source ((files p).map (rowOf o p)) [toRows ((files p).map (rowOf o p))] from rfl, h]
  unfold recOf Rec.stat octets
  simp only [hd, Option.getD_some]

/-- **C219** Nothing else exists. -/
theorem C219_absent {o : Opts} {p : File} (hg : Good o p) {rs : List FRow} (hi : index o p = .ok rs) {ns : List Str} (hn : ∀ x ∈ ns, IsName x)
    (hne : ns ≠ []) (hv : ∀ x ∈ ns, endsWith dotVersions x = false) (hno : ∀ name x, Shown p.doc name x → ∀ rest, at_ o p name x ≠ ns ++ rest)
    (m : ObjectMount.Mount) :
    mgetattr rs (src rs) (canonical ns) = .error (.os 2) ∧ mopen (opener p) rs (src rs) m (canonical ns) = (m, .error (.os 2)) := by
  rw [index_eq hg] at hi
  cases hi
  have hno' : ∀ e ∈ files p, ∀ rest, at_ o p e.1 e.2 ≠ ns ++ rest := fun e he => hno e.1 e.2 (files_shown he)
  refine ObjectMount.absent (listed hg) _ hn hne hv ?_ ?_ m
  · unfold lastAt
    have : ((files p).map (recOf o p)).filter (fun q => decide (q.place = ns)) = [] := by
      rw [List.filter_eq_nil_iff]
      intro q hq hd
      obtain ⟨e, he, rfl⟩ := List.mem_map.mp hq
      have := hno' e he []
      rw [List.append_nil] at this
      exact this (of_decide_eq_true hd)
    rw [this]
    rfl
  · rintro ⟨q, hq, n, rest, hpl⟩
    obtain ⟨e, he, rfl⟩ := List.mem_map.mp hq
    exact hno' e he (n :: rest) hpl

/-- **C219** A folder lists exactly the names below it, and each once. -/
theorem C219_list {o : Opts} {p : File} (hg : Good o p) {rs : List FRow} (hi : index o p = .ok rs) {ns : List Str} (hn : ∀ x ∈ ns, IsName x)
    (hv : ∀ x ∈ ns, endsWith dotVersions x = false) (n : Str) :
    (n ∈ mreaddir (src rs) (canonical ns) ↔ n = ['.'] ∨ n = ['.', '.'] ∨ ∃ name x rest, Shown p.doc name x ∧ at_ o p name x = ns ++ n :: rest) ∧
      (mreaddir (src rs) (canonical ns)).Nodup := by
  rw [index_eq hg] at hi
  cases hi
  have hL := listed hg
  refine ⟨?_, IndexMount.once hL hn hv⟩
  unfold src
  rw [IndexMount.lists hL hn hv]
  constructor
  · rintro (h | h | ⟨q, hq, rest, hpl⟩)
    · exact .inl h
    · exact .inr (.inl h)
    · obtain ⟨e, he, rfl⟩ := List.mem_map.mp hq
      exact .inr (.inr ⟨e.1, e.2, rest, files_shown he, hpl⟩)
  · rintro (h | h | ⟨name, x, rest, hs, hpl⟩)
    · exact .inl h
    · exact .inr (.inl h)
    · exact .inr (.inr ⟨_, List.mem_map.mpr ⟨(name, x), (shown_iff _ _ _).mpr hs, rfl⟩, rest, hpl⟩)

/-- **C219 is violated by the code**: an attachment without contents is shown, but cannot be opened. -/
theorem C219_empty_violated {o : Opts} {p : File} (hg : Good o p) {rs : List FRow} (hi : index o p = .ok rs) {name : Str} {x : Object}
    (hs : Shown p.doc name x) (hd : p.data x = some []) (hne : at_ o p name x ≠ []) (m : ObjectMount.Mount) :
    mgetattr rs (src rs) (canonical (at_ o p name x)) = .ok ⟨0o100644, 0, o.mtime, 0, 0⟩ ∧
      mopen (opener p) rs (src rs) m (canonical (at_ o p name x)) = (m, .error (.os 5)) := by
  refine ⟨C219_attributes hg hi hs hd hne, ?_⟩
  rw [index_eq hg] at hi
  cases hi
  have he : (name, x) ∈ files p := (shown_iff _ _ _).mpr hs
  refine ObjectMount.refused (listed hg) (opener p) hne (place_at o p (name, x)) (lastAt_file hg he) (not_hard o p _) ?_ m
  intro k r hk hr
  rw [List.getElem?_map, Option.map_eq_some_iff] at hk hr
  obtain ⟨e, hk, hek⟩ := hk
  obtain ⟨e', hk', rfl⟩ := hr
  rw [hk] at hk'
  cases hk'
  have hoct : octets p e.2 = [] := by
    have := congrArg Rec.data hek
    simp only [recOf, octets, hd, Option.getD_some] at this
    exact this
  exact ⟨.ratarmount, by rw [opener_file hg (List.mem_of_getElem? hk), hoct, if_pos rfl]⟩

/-- C219 as claimed: every document whose attachments are stored in the file can be mounted, and the text of each page is shown. -/
def C219_statement : Prop :=
  ∀ (mtime : Nat) (sha : Bytes → Str) (p : File), p.xref.keys.Nodup → (∀ e ∈ attached p.doc, ∃ n, (e.2, n) ∈ p.xref ∧ 0 < n ∧ ∀ y ∈ p.xref, y.2 = n → y.1 = e.2) →
    ∃ rs, index ⟨id, mtime, sha⟩ p = .ok rs ∧ ∀ (k : Nat) (page : Page) (name : Str), p.doc.pages[k]? = some page → page.text = some name →
      ∃ st, mgetattr rs (src rs) (canonical (place name)) = .ok st

/-- A page with text, and nothing else. -/
def textOnly : File := ⟨⟨[], [⟨[], [], some "page_0.txt".toList⟩]⟩, [], fun _ => none, fun _ => [72, 105], fun _ _ => []⟩

/-- **C219 is violated by the code**: a document with text but without attachments and images cannot be mounted. -/
theorem C219_violated : ¬ C219_statement := by
  intro h
  obtain ⟨rs, h1, -⟩ := h 0 (fun _ => []) textOnly (by decide) (by intro e he; cases he)
  have h2 : index ⟨id, 0, fun _ => []⟩ textOnly = .error .unboundLocal := rfl
  rw [h2] at h1
  cases h1

/-! ### examples -/

/-- Two attachments, the second one twice, and a page with text. -/
def sample : File :=
  ⟨⟨[("a".toList, ⟨0, 5⟩), ("d/b".toList, ⟨0, 6⟩)], [⟨[("c".toList, ⟨0, 6⟩)], [], some "page_0.txt".toList⟩]⟩, [(⟨0, 4⟩, 15), (⟨0, 5⟩, 40), (⟨0, 6⟩, 90)],
    fun x => if x.idnum = 5 then some [1, 2, 3] else if x.idnum = 6 then some [] else none, fun _ => [72, 105], fun _ _ => []⟩

theorem sample_shown {name : Str} {x : Object} (h : Shown sample.doc name x) : (name = "a".toList ∧ x = ⟨0, 5⟩) ∨ (name = "d/b".toList ∧ x = ⟨0, 6⟩) := by
  have h1 := (shown_iff _ _ _).mpr h
  rw [show firstOf (attached sample.doc) [] = [("a".toList, ⟨0, 5⟩), ("d/b".toList, ⟨0, 6⟩)] from rfl] at h1
  simp only [List.mem_cons, List.not_mem_nil, or_false, Prod.mk.injEq] at h1
  exact h1

theorem sample_good : Good ⟨id, 7, fun _ => []⟩ sample := by
  refine ⟨.inl (by decide), by decide, ?_, ?_⟩
  · intro e he
    rw [show attached sample.doc = [("a".toList, ⟨0, 5⟩), ("d/b".toList, ⟨0, 6⟩), ("c".toList, ⟨0, 6⟩)] from rfl] at he
    simp only [List.mem_cons, List.not_mem_nil, or_false] at he
    rcases he with rfl | rfl | rfl
    · exact ⟨40, by decide, by decide, by decide⟩
    · exact ⟨90, by decide, by decide, by decide⟩
    · exact ⟨90, by decide, by decide, by decide⟩
  · intro name x name' x' hne h h' rest
    have e1 : at_ ⟨id, 7, fun _ => []⟩ sample "a".toList ⟨0, 5⟩ = ["a".toList] := by decide +kernel
    have e2 : at_ ⟨id, 7, fun _ => []⟩ sample "d/b".toList ⟨0, 6⟩ = ["d".toList, "b".toList] := by decide +kernel
    rcases sample_shown h with ⟨rfl, rfl⟩ | ⟨rfl, rfl⟩ <;> rcases sample_shown h' with ⟨rfl, rfl⟩ | ⟨rfl, rfl⟩
    · exact absurd rfl hne
    · rw [e1, e2]
      intro he
      exact absurd (List.cons.inj he).1 (by decide)
    · rw [e1, e2]
      intro he
      exact absurd (List.cons.inj he).1 (by decide)
    · exact absurd rfl hne

example : Shown sample.doc "d/b".toList ⟨0, 6⟩ := ⟨[("a".toList, ⟨0, 5⟩)], [("c".toList, ⟨0, 6⟩)], rfl, by decide⟩

/-- **C219** In this file, the text of the page is not shown. -/
theorem C219_text_violated : ∃ (o : Opts) (p : File), Good o p ∧ p.doc.pages[0]?.bind (fun p : Page => p.text) = some "page_0.txt".toList ∧
    ∀ rs, index o p = .ok rs → mgetattr rs (src rs) "/page_0.txt".toList = .error (.os 2) := by
  refine ⟨⟨id, 7, fun _ => []⟩, sample, sample_good, rfl, ?_⟩
  intro rs hi
  refine (C219_absent sample_good hi (ns := ["page_0.txt".toList]) ?_ (by simp) ?_ ?_ start).1
  · intro x hx
    rw [List.mem_singleton] at hx
    subst hx
    unfold IsName
    decide
  · intro x hx
    rw [List.mem_singleton] at hx
    subst hx
    decide
  · intro name x h rest
    rcases sample_shown h with ⟨rfl, rfl⟩ | ⟨rfl, rfl⟩
    · rw [show at_ ⟨id, 7, fun _ => []⟩ sample "a".toList ⟨0, 5⟩ = ["a".toList] by decide +kernel]
      intro he
      exact absurd (List.cons.inj he).1 (by decide)
    · rw [show at_ ⟨id, 7, fun _ => []⟩ sample "d/b".toList ⟨0, 6⟩ = ["d".toList, "b".toList] by decide +kernel]
      intro he
      exact absurd (List.cons.inj he).1 (by decide)

end Verif.Fuse.PdfMount
