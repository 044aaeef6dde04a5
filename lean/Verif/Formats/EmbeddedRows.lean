import Verif.Formats.Html
import Verif.Formats.Pdf
import Verif.Cli.MountPoint
import Verif.Index.Rows
import Verif.Bits

/-!
# C169 to C172: the rows of files embedded in HTML and PDF

`handle_starttag` (html.py:145-175), `HTMLMountSource._convert_to_row` and `open` (html.py:449-514) and
`PDFMountSource._convert_to_row` and `open` (pdf.py:170-231).
-/

namespace Verif.EmbeddedRows

open Verif.Py Verif.Index Verif.Html
open Verif.MountPoint (splitextRoot)

/-! ## HTML -/

/-- `(value and value.startswith('data:')) or (attribute and attribute.startswith('data-savepage-'))` (html.py:154-158). -/
def kept (a : Str × Option Str) : Bool :=
  (match a.2 with | none => false | some v => startsWith "data:".toList v) || startsWith "data-savepage-".toList a.1

/-- `attributes` (html.py:154-158). -/
def keptAttributes (attrs : List (Str × Option Str)) : Dict Str (Option Str) :=
  (attrs.filter kept).foldl (fun d a => d.set a.1 a.2) []

/-- `comma < 0 or comma + 1 >= len(value)` is false (html.py:164-166). -/
def hasPayload (v : Str) : Bool := !((v.dropWhile (fun c => c != ',')).drop 1).isEmpty

/-- `attributes.get('data-savepage-' + attribute, '') or ''` (html.py:170). -/
def originalUrl (d : Dict Str (Option Str)) (attr : Str) : Str :=
  match d.get? ("data-savepage-".toList ++ attr) with
  | some (some u) => u
  | _ => []

/-- The candidates of a tag: the attribute and the original address (html.py:145-175). -/
def candidates (attrs : List (Str × Option Str)) : List (Str × Str) :=
  ((keptAttributes attrs).filter (fun a : Str × Option Str => match a.2 with
    | none => false
    | some v => startsWith "data:".toList v && hasPayload v)).map (fun a : Str × Option Str => (a.1, originalUrl (keptAttributes attrs) a.1))

/-- Libraries: `hashlib.sha256(…).hexdigest()`, `mimetypes.guess_extension`, `str.lower` (html.py:463-468). -/
structure Names where
  sha : List UInt8 → Str
  guess : Str → Option Str
  lower : Char → Str

/-- `s.lower()` (html.py:467). -/
def Names.lowered (nm : Names) (s : Str) : Str := s.flatMap nm.lower

/-- `mime_type` of a `DataURLFile` (html.py:253-265). -/
def mimeOf (l : Lib) (url : Str) : Str :=
  match parseUrl (unquote l (l.unescape url)) with
  | some (c :: m, _, _) => c :: m
  | _ => "text/plain".toList

/-- `extension` (html.py:460-463). -/
def extension (nm : Names) (mime : Str) : Str :=
  if endsWith "/javascript".toList mime then ".js".toList else (nm.guess mime).getD []

/-- `os.path.splitext(path)[1]` (html.py:466). -/
def splitextExt (p : Str) : Str := p.drop (splitextRoot p).length

/-- Without an address, a hash names the file (html.py:464-465). -/
def named (nm : Names) (url : Str) (data : List UInt8) (ext : Str) : Str :=
  if url = [] ∨ startsWith "data:".toList url = true then nm.sha data ++ ext else url

/-- The extension is appended if it is not there (html.py:466-467). -/
def withExtension (nm : Names) (p ext : Str) : Str :=
  if nm.lowered (splitextExt p) ≠ nm.lowered ext then p ++ ext else p

/-- `virtual_path` (html.py:456-467). -/
def virtualPath (nm : Names) (url : Str) (data : List UInt8) (ext : Str) : Str := withExtension nm (named nm url data ext) ext

/-- `EmbeddedFile` (html.py:348-352). -/
structure Embedded where
  url : Str
  start : Nat
  stop : Nat
deriving DecidableEq

/-- `_open_with_span(start, end)` (html.py:498-504). -/
def openSpan (l : Lib) (text : Str) (start stop : Nat) : Except PyErr (List UInt8) := contents l (openText text start stop)

/-- `_convert_to_row` (html.py:449-496). -/
def htmlRow (l : Lib) (nm : Names) (transform : Str → Str) (pack : Nat → Nat) (text : Str) (f : Embedded) : Except PyErr Row :=
  match openSpan l text f.start f.stop with
  | .error e => .error e
  | .ok data =>
    .ok (⟨(splitPath (normpath (transform (virtualPath nm f.url data (extension nm (mimeOf l (openText text f.start f.stop))))))).1,
          (splitPath (normpath (transform (virtualPath nm f.url data (extension nm (mimeOf l (openText text f.start f.stop))))))).2, f.start⟩,
        ⟨f.stop, 0o100777, false, pack data.length⟩)

/-- A list in which the first error is raised. -/
def collect {α : Type} (f : α → Except PyErr Row) : List α → Except PyErr (List Row)
  | [] => .ok []
  | x :: xs =>
    match f x with
    | .error e => .error e
    | .ok r =>
      match collect f xs with
      | .error e => .error e
      | .ok rs => .ok (r :: rs)

/-- The index of an HTML file (html.py:441-446). -/
def htmlIndex (l : Lib) (nm : Names) (transform : Str → Str) (pack : Nat → Nat) (text : Str) (fs : List Embedded) : Except PyErr Table :=
  match collect (htmlRow l nm transform pack text) fs with
  | .error e => .error e
  | .ok rs => .ok (build [rs])

/-- `open` (html.py:506-509). -/
def htmlOpen (l : Lib) (text : Str) (fi : FileInfo) : Except PyErr (List UInt8) := openSpan l text fi.oh.toNat fi.info.offset.toNat

/-! ## PDF -/

/-- `_open_with_offset` gives bytes or nothing (pdf.py:155-168). What it opens is modelled in `Verif.Pdf`. -/
structure PdfLib where
  data : Int → Option (List UInt8)
  sha : List UInt8 → Str

/-- `not data` for bytes or None (pdf.py:172). -/
def PdfLib.bytes (p : PdfLib) (offset : Int) : List UInt8 := (p.data offset).getD []

/-- The name (pdf.py:170-173). -/
def pdfName (p : PdfLib) (name : Str) (offset : Int) : Str :=
  if name = [] ∧ p.bytes offset ≠ [] then p.sha (p.bytes offset) else name

/-- `_convert_to_row` (pdf.py:170-200). -/
def pdfRow (p : PdfLib) (transform : Str → Str) (pack : Nat → Nat) (f : Str × Int) : Row :=
  (⟨(splitPath (normpath (transform (pdfName p f.1 f.2)))).1, (splitPath (normpath (transform (pdfName p f.1 f.2)))).2, f.2⟩,
    ⟨0, 0o100644, false, pack (p.bytes f.2).length⟩)

/-- The index of a PDF (pdf.py:149-153). -/
def pdfIndex (p : PdfLib) (transform : Str → Str) (pack : Nat → Nat) (fs : List (Str × Int)) : Table := build [fs.map (pdfRow p transform pack)]

/-- `open` (pdf.py:204-209). -/
def pdfOpen (p : PdfLib) (fi : FileInfo) : Except PyErr (List UInt8) :=
  if p.bytes fi.oh = [] then .error .ratarmount else .ok (p.bytes fi.oh)

/-! ## specification -/

/-- A file is shown at `path` with the contents `data`. -/
def Shows (t : Table) (pack : Nat → Nat) (opened : FileInfo → Except PyErr (List UInt8)) (path : Str) (data : List UInt8) : Prop :=
  ∃ version fi, lookup t path version = some fi ∧ typeBits fi.info.mode = 8 ∧ fi.info.rest = pack data.length ∧ opened fi = .ok data

/-- Extensions: nothing, or a dot and a text without dots and slashes. -/
def IsExt (e : Str) : Prop := e = [] ∨ ∃ s, e = '.' :: s ∧ s ≠ [] ∧ '.' ∉ s ∧ '/' ∉ s

/-- C170: an HTML file can be mounted, whatever is embedded in it. -/
def C170_statement : Prop :=
  ∀ (l : Lib) (nm : Names) (pack : Nat → Nat) (text : Str) (fs : List Embedded), ∃ t, htmlIndex l nm id pack text fs = .ok t

/-- C171: every file of a PDF is shown with its size and can be read. -/
def C171_statement : Prop :=
  ∀ (p : PdfLib) (pack : Nat → Nat) (fs : List (Str × Int)), (fs.map Prod.snd).Nodup → ∀ f ∈ fs, ∀ ns n, (∀ x ∈ ns ++ [n], IsName x) →
    normpath f.1 = canonical (ns ++ [n]) → ∀ data, p.data f.2 = some data → f.1 ≠ [] →
    Shows (pdfIndex p id pack fs) pack (pdfOpen p) (canonical (ns ++ [n])) data

/-! ## lemmas -/

theorem nodup_last {rs : List Row} (h : (rs.map Prod.fst).Nodup) {r : Row} (hr : r ∈ rs) : LastRow rs r := by
  obtain ⟨b, a, rfl⟩ := List.append_of_mem hr
  refine ⟨b, a, rfl, ?_⟩
  intro q hq he
  rw [List.map_append, List.map_cons] at h
  exact (List.nodup_cons.mp (List.nodup_append.mp h).2.1).1 (List.mem_map.mpr ⟨q, hq, he⟩)

theorem collect_ok {α : Type} {f : α → Except PyErr Row} : ∀ {xs : List α} {rs : List Row}, collect f xs = .ok rs →
    (∀ x ∈ xs, ∃ r ∈ rs, f x = .ok r) ∧ ∀ g : Row → Int, ∀ h : α → Int, (∀ x r, f x = .ok r → g r = h x) → rs.map g = xs.map h
  | [], rs, h => by cases h; exact ⟨(fun x hx => by cases hx), fun _ _ _ => rfl⟩
  | x :: xs, rs, h => by
    unfold collect at h
    split at h
    · cases h
    · next r hr =>
      split at h
      · cases h
      · next rs' hrs =>
        cases h
        obtain ⟨h1, h2⟩ := collect_ok hrs
        constructor
        · intro y hy
          rcases List.mem_cons.mp hy with rfl | hy
          · exact ⟨r, by simp, hr⟩
          · obtain ⟨q, hq, he⟩ := h1 y hy
            exact ⟨q, List.mem_cons_of_mem _ hq, he⟩
        · intro g k hgk
          rw [List.map_cons, List.map_cons, h2 g k hgk, hgk x r hr]

theorem collect_all {α : Type} {f : α → Except PyErr Row} : ∀ {xs : List α}, (∀ x ∈ xs, ∃ r, f x = .ok r) → ∃ rs, collect f xs = .ok rs
  | [], _ => ⟨[], rfl⟩
  | x :: xs, h => by
    obtain ⟨r, hr⟩ := h x (by simp)
    obtain ⟨rs, hrs⟩ := collect_all (fun y hy => h y (List.mem_cons_of_mem _ hy))
    exact ⟨r :: rs, by unfold collect; rw [hr, hrs]⟩

theorem nodup_keys {rs : List Row} (h : (rs.map (fun r : Row => r.1.oh)).Nodup) : (rs.map Prod.fst).Nodup := by
  induction rs with
  | nil => exact List.nodup_nil
  | cons r rs ih =>
    rw [List.map_cons, List.nodup_cons] at h ⊢
    refine ⟨?_, ih h.2⟩
    rw [List.mem_map]
    rintro ⟨q, hq, he⟩
    exact h.1 (List.mem_map.mpr ⟨q, hq, by rw [he]⟩)

theorem map_nodup_of_inj {α β : Type} {f : α → β} (hf : ∀ a b, f a = f b → a = b) : ∀ {l : List α}, l.Nodup → (l.map f).Nodup
  | [], _ => List.nodup_nil
  | a :: l, h => by
    rw [List.nodup_cons] at h
    rw [List.map_cons, List.nodup_cons, List.mem_map]
    exact ⟨fun ⟨x, hx, he⟩ => h.1 (hf _ _ he ▸ hx), map_nodup_of_inj hf h.2⟩

theorem splitextRoot_prefix (p : Str) : splitextRoot p <+: p := by
  unfold splitextRoot
  cases hr : rsplit1 '/' p with
  | none => exact (Verif.MountPoint.nameRoot_prefix p).1
  | some q =>
    obtain ⟨folder, name⟩ := q
    obtain ⟨s, hs⟩ := (Verif.MountPoint.nameRoot_prefix name).1
    have := (rsplit1_some hr).1
    refine ⟨s, ?_⟩
    show (folder ++ '/' :: splitextRoot.nameRoot name) ++ s = p
    rw [this, List.append_assoc, List.cons_append, hs]

theorem splitext_append (p : Str) : p = splitextRoot p ++ splitextExt p := by
  obtain ⟨s, hs⟩ := splitextRoot_prefix p
  unfold splitextExt
  have : ∀ a, a ++ s = p → p.drop a.length = s := by
    rintro a rfl
    exact List.drop_left' rfl
  rw [this _ hs, hs]

theorem nameRoot_dot (base s : Str) (c : Char) (hc : c ≠ '.') (hs : '.' ∉ s) : splitextRoot.nameRoot (base ++ c :: '.' :: s) = base ++ [c] := by
  unfold splitextRoot.nameRoot
  rw [show base ++ c :: '.' :: s = (base ++ [c]) ++ '.' :: s by simp, rsplit1_append _ _ hs]
  simp only
  rw [if_neg]
  simp [hc]

/-- A file `base` + `c` + `.ext`, with a character `c` before the dot, has this extension. -/
theorem splitextExt_dot (base s : Str) (c : Char) (hc : c ≠ '.') (hc2 : c ≠ '/') (hs : '.' ∉ s) (hs2 : '/' ∉ s) :
    splitextExt (base ++ c :: '.' :: s) = '.' :: s := by
  have hroot : splitextRoot (base ++ c :: '.' :: s) = base ++ [c] := by
    cases hr : rsplit1 '/' base with
    | none =>
      have hb := rsplit1_none.mp hr
      have hno : '/' ∉ base ++ c :: '.' :: s := by
        simp only [List.mem_append, List.mem_cons, not_or]
        exact ⟨hb, hc2.symm, by decide, hs2⟩
      have := Verif.MountPoint.splitextRoot_local [] (base ++ c :: '.' :: s) (.inl rfl) hno
      rw [List.nil_append] at this
      rw [this, nameRoot_dot base s c hc hs]
      rfl
    | some q =>
      obtain ⟨folder, name⟩ := q
      obtain ⟨h1, h2⟩ := rsplit1_some hr
      have hno : '/' ∉ name ++ c :: '.' :: s := by
        simp only [List.mem_append, List.mem_cons, not_or]
        exact ⟨h2, hc2.symm, by decide, hs2⟩
      have := Verif.MountPoint.splitextRoot_local (folder ++ ['/']) (name ++ c :: '.' :: s) (.inr ⟨folder, rfl⟩) hno
      rw [nameRoot_dot name s c hc hs] at this
      rw [h1]
      rw [show folder ++ '/' :: name ++ c :: '.' :: s = folder ++ ['/'] ++ (name ++ c :: '.' :: s) by simp, this]
      simp
  unfold splitextExt
  rw [hroot, show base ++ c :: '.' :: s = (base ++ [c]) ++ '.' :: s by simp, List.drop_left' rfl]

theorem splitextExt_none (p : Str) (h : '.' ∉ p) : splitextExt p = [] := by
  have hroot : splitextRoot p = p := by
    unfold splitextRoot
    cases hr : rsplit1 '/' p with
    | none =>
      show splitextRoot.nameRoot p = p
      unfold splitextRoot.nameRoot
      rw [rsplit1_none.mpr h]
    | some q =>
      obtain ⟨folder, name⟩ := q
      obtain ⟨h1, h2⟩ := rsplit1_some hr
      show folder ++ '/' :: splitextRoot.nameRoot name = p
      unfold splitextRoot.nameRoot
      rw [rsplit1_none.mpr (fun hm => h (by rw [h1]; simp [hm]))]
      exact h1.symm
  unfold splitextExt
  rw [hroot, List.drop_length]

/-! ## C169 -/

/-- **C169**: the name is the address, or the address followed by the extension, and ends with the extension in any case. -/
theorem C169_extension (nm : Names) (url : Str) (data : List UInt8) (ext : Str) (hu : url ≠ []) (hd : startsWith "data:".toList url = false) :
    (virtualPath nm url data ext = url ∨ virtualPath nm url data ext = url ++ ext) ∧
    nm.lowered ext <:+ nm.lowered (virtualPath nm url data ext) := by
  unfold virtualPath named
  rw [if_neg (by rw [hd]; simp [hu])]
  unfold withExtension
  split
  · exact ⟨.inr rfl, by unfold Names.lowered; rw [List.flatMap_append]; exact ⟨_, rfl⟩⟩
  · next h =>
    refine ⟨.inl rfl, ?_⟩
    have h := Classical.not_not.mp h
    rw [← h]
    conv => rhs; rw [splitext_append url]
    unfold Names.lowered
    rw [List.flatMap_append]
    exact ⟨_, rfl⟩

/-- **C169**: an extension that is there in any case of letters is not appended again. -/
theorem C169_once (nm : Names) (base s ext : Str) (c : Char) (data : List UInt8) (hd : startsWith "data:".toList (base ++ c :: '.' :: s) = false)
    (hc : c ≠ '.') (hc2 : c ≠ '/') (hs : '.' ∉ s) (hs2 : '/' ∉ s) (he : nm.lowered ('.' :: s) = nm.lowered ext) :
    virtualPath nm (base ++ c :: '.' :: s) data ext = base ++ c :: '.' :: s := by
  unfold virtualPath named
  rw [if_neg (by rw [hd]; simp)]
  unfold withExtension
  rw [splitextExt_dot base s c hc hc2 hs hs2, he, if_neg (by simp)]

/-- **C169**: a file without address is named by its hash and extension. -/
theorem C169_hash (nm : Names) (url : Str) (data : List UInt8) (ext : Str) (hu : url = [] ∨ startsWith "data:".toList url = true)
    (hext : IsExt ext) (hne : nm.sha data ≠ []) (hsha : ∀ c ∈ nm.sha data, c ≠ '.' ∧ c ≠ '/') :
    virtualPath nm url data ext = nm.sha data ++ ext := by
  unfold virtualPath named
  rw [if_pos hu]
  unfold withExtension
  rw [if_neg]
  rw [ne_eq, Classical.not_not]
  rcases hext with rfl | ⟨s, rfl, -, h1, h2⟩
  · rw [List.append_nil, splitextExt_none _ (fun hm => (hsha _ hm).1 rfl)]
  · rcases List.eq_nil_or_concat (nm.sha data) with h | ⟨b, c, h⟩
    · exact absurd h hne
    · rw [List.concat_eq_append] at h
      have hc := hsha c (by rw [h]; simp)
      rw [h, show b ++ [c] ++ '.' :: s = b ++ c :: '.' :: s by simp, splitextExt_dot b s c hc.1 hc.2 h1 h2]

/-- **C169**: each embedded file is found under its name, as a regular file with the size of its contents, and reading it gives them. -/
theorem C169_shown (l : Lib) (nm : Names) (pack : Nat → Nat) (text : Str) (fs : List Embedded) (t : Table)
    (h : htmlIndex l nm id pack text fs = .ok t) (hnd : (fs.map Embedded.start).Nodup) (f : Embedded) (hf : f ∈ fs) (data : List UInt8)
    (hd : contents l (openText text f.start f.stop) = .ok data) (ns : List Str) (n : Str) (hn : ∀ x ∈ ns ++ [n], IsName x)
    (hp : normpath (virtualPath nm f.url data (extension nm (mimeOf l (openText text f.start f.stop)))) = canonical (ns ++ [n])) :
    Shows t pack (htmlOpen l text) (canonical (ns ++ [n])) data := by
  unfold htmlIndex at h
  split at h
  · cases h
  · next rs hrs =>
    cases h
    obtain ⟨h1, h2⟩ := collect_ok hrs
    obtain ⟨r, hr, he⟩ := h1 f hf
    unfold htmlRow openSpan at he
    rw [hd] at he
    simp only at he
    rw [id, hp, splitPath_canonical hn] at he
    cases he
    have hoh := h2 (fun r : Row => r.1.oh) (fun f : Embedded => (f.start : Int)) (fun x r hx => by
      unfold htmlRow at hx
      split at hx
      · cases hx
      · cases hx; rfl)
    have hk : (rs.map Prod.fst).Nodup := by
      refine nodup_keys ?_
      rw [hoh, show fs.map (fun f : Embedded => (f.start : Int)) = (fs.map Embedded.start).map (fun k : Nat => (k : Int)) by simp]
      exact map_nodup_of_inj (fun a b hab => Int.ofNat.inj hab) hnd
    obtain ⟨v, hv⟩ := lastRow_lookup hn (nodup_last hk hr) rfl rfl
    refine ⟨v, _, hv, ?_, rfl, ?_⟩
    · show typeBits 0o100777 = 8
      decide
    unfold htmlOpen openSpan
    exact hd

/-! ## C170 -/

/-- **C170** (partial): it can be mounted if every embedded file can be decoded. Missing: see `C170_violated`. -/
theorem C170_partial (l : Lib) (nm : Names) (pack : Nat → Nat) (text : Str) (fs : List Embedded)
    (h : ∀ f ∈ fs, ∃ data, contents l (openText text f.start f.stop) = .ok data) : ∃ t, htmlIndex l nm id pack text fs = .ok t := by
  obtain ⟨rs, hrs⟩ := collect_all (f := htmlRow l nm id pack text) (xs := fs) (fun f hf => by
    obtain ⟨data, hd⟩ := h f hf
    unfold htmlRow openSpan
    rw [hd]
    exact ⟨_, rfl⟩)
  exact ⟨build [rs], by unfold htmlIndex; rw [hrs]⟩

/-- **C170**: one embedded file that cannot be decoded lets the whole file fail. -/
theorem C170_fails (l : Lib) (nm : Names) (pack : Nat → Nat) (text : Str) (fs : List Embedded) (f : Embedded) (hf : f ∈ fs) (e : PyErr)
    (hd : contents l (openText text f.start f.stop) = .error e) : ∀ t, htmlIndex l nm id pack text fs ≠ .ok t := by
  intro t h
  unfold htmlIndex at h
  split at h
  · cases h
  · next rs hrs =>
    obtain ⟨r, -, he⟩ := (collect_ok hrs).1 f hf
    unfold htmlRow openSpan at he
    rw [hd] at he
    cases he

/-- A library in which texts with other than ASCII characters cannot be encoded as ASCII. -/
def demoLib : Lib :=
  ⟨id, fun d => d.map (fun b => Char.ofNat b.toNat), fun _ => none,
    fun _ s => if s.all (fun c => c.toNat < 128) then some (s.map (fun c => UInt8.ofNat c.toNat)) else none, fun _ => none⟩

/-- Names for the examples. -/
def demoNames : Names := ⟨fun _ => "ab".toList, fun _ => some ".svg".toList, fun c => [c.toLower]⟩

/-- A data URL with an umlaut and no charset. -/
def demoText : Str := "data:image/svg+xml,ü".toList

/-- **C170 is violated by the code**: a picture with an umlaut and without charset makes the whole file fail. -/
theorem C170_violated : ¬ C170_statement := by
  intro h
  obtain ⟨t, ht⟩ := h demoLib demoNames id demoText [⟨[], 0, 21⟩]
  exact C170_fails demoLib demoNames id demoText [⟨[], 0, 21⟩] ⟨[], 0, 21⟩ (by simp) .valueError (by decide +kernel) t ht

/-! ## C171 -/

/-- **C171** (partial): every file that is not empty is shown with its size and can be read. Missing: empty files; see `C171_violated`. -/
theorem C171_partial (p : PdfLib) (pack : Nat → Nat) (fs : List (Str × Int)) (hnd : (fs.map Prod.snd).Nodup) (f : Str × Int) (hf : f ∈ fs)
    (ns : List Str) (n : Str) (hn : ∀ x ∈ ns ++ [n], IsName x) (data : List UInt8) (hd : p.data f.2 = some data) (hne : data ≠ [])
    (hp : normpath (if f.1 = [] then p.sha data else f.1) = canonical (ns ++ [n])) :
    Shows (pdfIndex p id pack fs) pack (pdfOpen p) (canonical (ns ++ [n])) data := by
  have hb : p.bytes f.2 = data := by unfold PdfLib.bytes; rw [hd]; rfl
  have hname : pdfName p f.1 f.2 = if f.1 = [] then p.sha data else f.1 := by
    unfold pdfName
    rw [hb]
    by_cases h : f.1 = []
    · rw [if_pos ⟨h, hne⟩, if_pos h]
    · rw [if_neg (fun h' => h h'.1), if_neg h]
  have hrow : pdfRow p id pack f = (⟨folderPath ns, n, f.2⟩, ⟨0, 0o100644, false, pack data.length⟩) := by
    unfold pdfRow
    rw [hname, id, hp, splitPath_canonical hn, hb]
  have hk : ((fs.map (pdfRow p id pack)).map Prod.fst).Nodup := by
    refine nodup_keys ?_
    rw [List.map_map]
    exact hnd
  have hm : pdfRow p id pack f ∈ fs.map (pdfRow p id pack) := List.mem_map_of_mem hf
  rw [hrow] at hm
  obtain ⟨v, hv⟩ := lastRow_lookup hn (nodup_last hk hm) rfl rfl
  refine ⟨v, _, hv, ?_, rfl, ?_⟩
  · show typeBits 0o100644 = 8
    decide
  show pdfOpen p ⟨f.2, _⟩ = _
  unfold pdfOpen
  show (if p.bytes f.2 = [] then _ else Except.ok (p.bytes f.2)) = _
  rw [hb, if_neg hne]

/-- **C171**: an empty file can never be read. -/
theorem C171_empty (p : PdfLib) (fi : FileInfo) (h : p.data fi.oh = some []) : pdfOpen p fi = .error .ratarmount := by
  unfold pdfOpen PdfLib.bytes
  rw [h]
  rfl

/-- **C171 is violated by the code**: an empty attachment is listed but cannot be read. -/
theorem C171_violated : ¬ C171_statement := by
  intro h
  obtain ⟨v, fi, h1, h2, h3, h4⟩ := h ⟨fun _ => some [], fun _ => []⟩ id [("a".toList, 5)] (by decide) ("a".toList, 5) (by simp) [] "a".toList
    (fun x hx => by cases List.mem_singleton.mp hx; unfold IsName; decide) (by decide +kernel) [] rfl (by decide)
  rw [C171_empty _ fi rfl] at h4
  cases h4

/-! ## C172 -/

theorem foldl_set_get {l : List (Str × Option Str)} (hn : (l.map Prod.fst).Nodup) :
    ∀ (d : Dict Str (Option Str)) (k : Str), (l.foldl (fun d a => d.set a.1 a.2) d).get? k =
      match l.find? (fun a => a.1 = k) with
      | some a => some a.2
      | none => d.get? k := by
  induction l with
  | nil => intro d k; rfl
  | cons a l ih =>
    intro d k
    rw [List.map_cons, List.nodup_cons] at hn
    rw [List.foldl_cons, ih hn.2, List.find?_cons]
    by_cases hk : a.1 = k
    · have hnone : l.find? (fun b : Str × Option Str => decide (b.1 = k)) = none := by
        rw [List.find?_eq_none]
        intro b hb hbk
        simp only [decide_eq_true_eq] at hbk
        exact hn.1 (List.mem_map.mpr ⟨b, hb, by rw [hbk, hk]⟩)
      rw [hnone]
      simp only [hk, decide_true]
      rw [Dict.get?_set, if_pos rfl]
    · simp only [hk, decide_false]
      rw [Dict.get?_set, if_neg hk]

theorem foldl_set_nodup : ∀ (l : List (Str × Option Str)) (d : Dict Str (Option Str)), d.keys.Nodup →
    (l.foldl (fun d a => d.set a.1 a.2) d).keys.Nodup
  | [], _, h => h
  | a :: l, d, h => by
    rw [List.foldl_cons]
    exact foldl_set_nodup l _ (Dict.nodup_set d h a.1 a.2)

theorem kept_get {attrs : List (Str × Option Str)} (hn : (attrs.map Prod.fst).Nodup) (k : Str) (v : Option Str) :
    (keptAttributes attrs).get? k = some v ↔ (k, v) ∈ attrs ∧ kept (k, v) = true := by
  have hn' : ((attrs.filter kept).map Prod.fst).Nodup := hn.sublist (List.Sublist.map _ List.filter_sublist)
  unfold keptAttributes
  rw [foldl_set_get hn']
  constructor
  · intro h
    split at h
    · next a ha =>
      cases h
      have h1 := List.find?_some ha
      simp only [decide_eq_true_eq] at h1
      have h2 := List.mem_filter.mp (List.mem_of_find?_eq_some ha)
      rw [← h1]
      exact h2
    · cases h
  · intro h
    have hm : (k, v) ∈ attrs.filter kept := List.mem_filter.mpr h
    have hu : ∀ a ∈ attrs.filter kept, a.1 = k → a = (k, v) := by
      intro a ha hak
      have : ∀ l : List (Str × Option Str), (l.map Prod.fst).Nodup → a ∈ l → (k, v) ∈ l → a = (k, v) := by
        intro l
        induction l with
        | nil => intro _ h; cases h
        | cons x l ih =>
          intro hl h1 h2
          rw [List.map_cons, List.nodup_cons] at hl
          rcases List.mem_cons.mp h1 with h1 | h1
          · rcases List.mem_cons.mp h2 with h2 | h2
            · rw [h1, h2]
            · exact absurd (List.mem_map.mpr ⟨(k, v), h2, by rw [← h1]; exact hak.symm⟩) hl.1
          · rcases List.mem_cons.mp h2 with h2 | h2
            · exact absurd (List.mem_map.mpr ⟨a, h1, by rw [← h2]; exact hak⟩) hl.1
            · exact ih hl.2 h1 h2
      exact this _ hn' ha hm
    cases hf : (attrs.filter kept).find? (fun a : Str × Option Str => decide (a.1 = k)) with
    | none =>
      rw [List.find?_eq_none] at hf
      exact absurd (decide_eq_true rfl) (hf _ hm)
    | some a =>
      have h1 := List.find?_some hf
      simp only [decide_eq_true_eq] at h1
      rw [hu a (List.mem_of_find?_eq_some hf) h1]

theorem hasPayload_iff (v : Str) : hasPayload v = true ↔ ∃ a b, v = a ++ ',' :: b ∧ ',' ∉ a ∧ b ≠ [] := by
  unfold hasPayload
  induction v with
  | nil =>
    constructor
    · intro h; cases h
    · rintro ⟨a, b, h, -⟩; cases a <;> cases h
  | cons c v ih =>
    by_cases hc : c = ','
    · subst hc
      rw [List.dropWhile_cons_of_neg (by simp)]
      show (!v.isEmpty) = true ↔ _
      constructor
      · intro h
        refine ⟨[], v, rfl, by simp, ?_⟩
        rintro rfl
        cases h
      · rintro ⟨a, b, h, ha, hb⟩
        cases a with
        | nil => injection h with _ h; rw [h]; cases b with
          | nil => exact absurd rfl hb
          | cons _ _ => rfl
        | cons x a => injection h with h _; exact absurd (by rw [h]; simp) ha
    · rw [List.dropWhile_cons_of_pos (by simpa using hc), ih]
      constructor
      · rintro ⟨a, b, h, ha, hb⟩
        exact ⟨c :: a, b, by rw [h]; rfl, by simp only [List.mem_cons, not_or]; exact ⟨fun h => hc h.symm, ha⟩, hb⟩
      · rintro ⟨a, b, h, ha, hb⟩
        cases a with
        | nil => injection h with h _; exact absurd h hc
        | cons x a =>
          injection h with h1 h2
          exact ⟨a, b, h2, fun hm => ha (List.mem_cons_of_mem _ hm), hb⟩

/-- **C172**: of the attributes of a tag, exactly the data URLs with a payload are taken, each with the address that is noted for it. -/
theorem C172_candidates (attrs : List (Str × Option Str)) (hn : (attrs.map Prod.fst).Nodup) (a u : Str) :
    (a, u) ∈ candidates attrs ↔
      (∃ head payload, (a, some (head ++ ',' :: payload)) ∈ attrs ∧ ',' ∉ head ∧ payload ≠ [] ∧
        startsWith "data:".toList (head ++ ',' :: payload) = true) ∧
      ((("data-savepage-".toList ++ a, some u) ∈ attrs) ∨ (u = [] ∧ ∀ v, ("data-savepage-".toList ++ a, some v) ∉ attrs)) := by
  have hnd : (keptAttributes attrs).keys.Nodup := foldl_set_nodup _ _ List.nodup_nil
  have hurl : ∀ a, originalUrl (keptAttributes attrs) a = u ↔
      ((("data-savepage-".toList ++ a, some u) ∈ attrs) ∨ (u = [] ∧ ∀ v, ("data-savepage-".toList ++ a, some v) ∉ attrs)) := by
    intro a
    have hk : ∀ v, kept ("data-savepage-".toList ++ a, v) = true := by
      intro v
      unfold kept
      rw [show startsWith "data-savepage-".toList ("data-savepage-".toList ++ a) = true by
        unfold startsWith; rw [List.isPrefixOf_iff_prefix]; exact ⟨a, rfl⟩, Bool.or_true]
    unfold originalUrl
    constructor
    · intro h
      split at h
      · next v hv => cases h; exact .inl ((kept_get hn _ _).mp hv).1
      · next hv =>
        refine .inr ⟨h.symm, fun v hm => ?_⟩
        exact hv v ((kept_get hn _ _).mpr ⟨hm, hk _⟩)
    · rintro (h | ⟨rfl, h⟩)
      · rw [(kept_get hn _ _).mpr ⟨h, hk _⟩]
      · split
        · next v hv => exact absurd ((kept_get hn _ _).mp hv).1 (h v)
        · rfl
  unfold candidates
  rw [List.mem_map]
  constructor
  · rintro ⟨⟨b, v⟩, hm, he⟩
    injection he with h1 h2
    replace h1 : b = a := h1
    subst h1
    refine ⟨?_, (hurl b).mp h2⟩
    obtain ⟨h3, h4⟩ := List.mem_filter.mp hm
    cases v with
    | none => cases h4
    | some v =>
      replace h4 : (startsWith "data:".toList v && hasPayload v) = true := h4
      rw [Bool.and_eq_true] at h4
      obtain ⟨x, y, h5, h6, h7⟩ := (hasPayload_iff v).mp h4.2
      have h8 := ((kept_get hn b (some v)).mp (Dict.get?_eq_some_of_mem _ hnd h3)).1
      refine ⟨x, y, ?_, h6, h7, ?_⟩
      · rw [← h5]; exact h8
      · rw [← h5]; exact h4.1
  · rintro ⟨⟨x, y, h1, h2, h3, h4⟩, h5⟩
    refine ⟨(a, some (x ++ ',' :: y)), List.mem_filter.mpr ⟨?_, ?_⟩, ?_⟩
    · refine Dict.mem_of_get? _ ((kept_get hn a _).mpr ⟨h1, ?_⟩)
      show (startsWith "data:".toList (x ++ ',' :: y) || _) = true
      rw [h4, Bool.true_or]
    · show (startsWith "data:".toList (x ++ ',' :: y) && hasPayload (x ++ ',' :: y)) = true
      rw [h4, (hasPayload_iff _).mpr ⟨x, y, rfl, h2, h3⟩]
      rfl
    · exact congrArg (Prod.mk a) ((hurl a).mpr h5)

example : ("src".toList, "http://x/a.png".toList) ∈ candidates [("src".toList, some "data:image/png,x".toList),
    ("data-savepage-src".toList, some "http://x/a.png".toList), ("alt".toList, none)] := by decide +kernel

example : virtualPath demoNames "http://x/a.SVG".toList [] ".svg".toList = "http://x/a.SVG".toList ∧
    virtualPath demoNames "http://x/a".toList [] ".svg".toList = "http://x/a.svg".toList ∧
    virtualPath demoNames [] [] ".svg".toList = "ab.svg".toList := by decide +kernel

end Verif.EmbeddedRows
