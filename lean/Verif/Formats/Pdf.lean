import Verif.Py
import Verif.PyStr

/-!
# C78: objects embedded in PDF files
(core/ratarmountcore/mountsource/formats/pdf.py:26-138, 176-188)

The library pypdf is represented by the document it gives: the attachments of the trailer, and for every page the attachments of its
annotations, its images, and whether it has text.
-/

namespace Verif.Pdf

open Verif.Py

/-- A reference to an object of the file (pdf.py:26-138). -/
structure Object where
  generation : Nat
  idnum : Nat
  deriving DecidableEq, Repr

/-- What is stored in `found_objects`: a reference, or a negative number for a page text or image (pdf.py:142-174). -/
inductive Ref where
  | object (o : Object)
  | number (n : Int)
  deriving DecidableEq, Repr

/-- A page (pdf.py:26-138). -/
structure Page where
  attachments : List (Str × Object)
  /-- The names of the images as they are shown. -/
  images : List Str
  /-- The name of the text, if there is any. -/
  text : Option Str
  deriving DecidableEq, Repr

/-- What is read of a document (pdf.py:26-138). -/
structure Document where
  attachments : List (Str × Object)
  pages : List Page
  deriving DecidableEq, Repr

/-- The number of an image (pdf.py:109). -/
def imageNumber (pages page image : Nat) : Int := -(((image + 1) * pages + page : Nat) : Int)

/-- The number of a text (pdf.py:113). -/
def textNumber (page : Nat) : Int := -(page : Int)

/-- The images of a page (pdf.py:106-110) from image `i`. -/
def imageRefs (pages page : Nat) : Nat → List Str → List (Str × Ref)
  | _, [] => []
  | i, name :: ns => (name, .number (imageNumber pages page i)) :: imageRefs pages page (i + 1) ns

/-- One page (pdf.py:97-113). -/
def pageRefs (pages page : Nat) (p : Page) : List (Str × Ref) :=
  p.attachments.map (fun a => (a.1, Ref.object a.2)) ++ imageRefs pages page 0 p.images ++
    (match p.text with | some t => [(t, .number (textNumber page))] | none => [])

/-- The pages from page `k` (pdf.py:26-138). -/
def pagesRefs (pages : Nat) : Nat → List Page → List (Str × Ref)
  | _, [] => []
  | k, p :: ps => pageRefs pages k p ++ pagesRefs pages (k + 1) ps

/-- `found_objects` (pdf.py:84-113). -/
def found (d : Document) : List (Str × Ref) :=
  d.attachments.map (fun a => (a.1, Ref.object a.2)) ++ pagesRefs d.pages.length 0 d.pages

/-- The variable `offset` after the first loops: the number of the last image, or nothing (pdf.py:142-174). -/
def lastOffset (pages : Nat) : Nat → List Page → Option Int → Option Int
  | _, [], o => o
  | k, p :: ps, o => lastOffset pages (k + 1) ps (if p.images.isEmpty then o else some (imageNumber pages k (p.images.length - 1)))

/-- The last loop (pdf.py:127-138): `offset` is the variable, `offsets` the set. -/
def emit (xref : Object → Option Int) : List (Str × Ref) → Option Int → List Int → Except PyErr (List (Str × Int))
  | [], _, _ => .ok []
  | (name, .number n) :: rest, offset, offsets => match offset with
    | none => .error .unboundLocal
    | some o =>
      if o ∈ offsets then emit xref rest offset offsets
      else match emit xref rest offset (o :: offsets) with
        | .error e => .error e
        | .ok r => .ok ((name, n) :: r)
  | (name, .object r) :: rest, _, offsets => match xref r with
    | none => .error .keyError
    | some o =>
      if o ∈ offsets then emit xref rest (some o) offsets
      else match emit xref rest (some o) (o :: offsets) with
        | .error e => .error e
        | .ok r => .ok ((name, o) :: r)

/-- `gather_embedded_files` (pdf.py:26-138). -/
def gather (xref : Object → Option Int) (d : Document) : Except PyErr (List (Str × Int)) :=
  emit xref (found d) (lastOffset d.pages.length 0 d.pages none) []

/-- What `_open_with_offset` gives (pdf.py:176-188): the text of a page, an image of a page, or the object at an offset. -/
inductive Opened where
  | text (page : Nat)
  | image (page image : Nat)
  | object (offset : Int)
  deriving DecidableEq, Repr

/-- `_open_with_offset` (pdf.py:176-188). For the positive page count, the division of Lean is the floor division of Python. -/
def openWithOffset (pages : Nat) (offset : Int) : Opened :=
  if offset ≤ 0 then
    if -offset / (pages : Int) = 0 then .text (-offset % (pages : Int)).toNat
    else .image (-offset % (pages : Int)).toNat (-offset / (pages : Int) - 1).toNat
  else .object offset

/-! ## specification -/

/-- The number by which an object is opened. -/
def numberOf (xref : Object → Option Int) : Ref → Option Int
  | .number n => some n
  | .object o => xref o

/-- The first of every number. -/
def firsts : List (Str × Int) → List Int → List (Str × Int)
  | [], _ => []
  | x :: xs, seen => if x.2 ∈ seen then firsts xs seen else x :: firsts xs (x.2 :: seen)

/-- Everything that was found is shown, every object once. -/
def C78_statement : Prop :=
  ∀ (xref : Object → Option Int) (d : Document), (∀ x ∈ found d, (numberOf xref x.2).isSome) →
    gather xref d = .ok (firsts ((found d).filterMap (fun x => (numberOf xref x.2).map (fun n => (x.1, n)))) [])

def Ref.isObject : Ref → Bool
  | .object _ => true
  | .number _ => false

/-! ## proofs -/

/-- With only attachments, everything is shown once. -/
theorem emit_objects (xref : Object → Option Int) : ∀ (l : List (Str × Ref)) (o : Option Int) (seen : List Int),
    (∀ x ∈ l, x.2.isObject = true ∧ (numberOf xref x.2).isSome) →
    emit xref l o seen = .ok (firsts (l.filterMap (fun x => (numberOf xref x.2).map (fun n => (x.1, n)))) seen) := by
  intro l
  induction l with
  | nil => intro o seen _; rfl
  | cons x l ih =>
    intro o seen h
    obtain ⟨name, r⟩ := x
    obtain ⟨h1, h2⟩ := h _ List.mem_cons_self
    have hl : ∀ x ∈ l, x.2.isObject = true ∧ (numberOf xref x.2).isSome := fun y hy => h y (List.mem_cons_of_mem _ hy)
    cases r with
    | number n => cases h1
    | object r =>
      simp only [numberOf] at h2
      obtain ⟨n, hn⟩ := Option.isSome_iff_exists.mp h2
      have hf : ((name, Ref.object r) :: l).filterMap (fun x => (numberOf xref x.2).map (fun n => (x.1, n))) =
          (name, n) :: l.filterMap (fun x => (numberOf xref x.2).map (fun n => (x.1, n))) := by
        rw [List.filterMap_cons]
        simp only [numberOf, hn, Option.map_some]
      rw [emit, hf, firsts]
      simp only [hn]
      split
      · exact ih _ _ hl
      · rw [ih _ _ hl]

theorem pagesRefs_objects (pages : Nat) : ∀ (ps : List Page) (k : Nat), (∀ p ∈ ps, p.images = [] ∧ p.text = none) →
    ∀ x ∈ pagesRefs pages k ps, x.2.isObject = true := by
  intro ps
  induction ps with
  | nil => intro k _ x hx; cases hx
  | cons p ps ih =>
    intro k h x hx
    obtain ⟨h1, h2⟩ := h p List.mem_cons_self
    rw [pagesRefs] at hx
    rcases List.mem_append.mp hx with hx | hx
    · simp only [pageRefs, h1, h2, imageRefs, List.append_nil] at hx
      obtain ⟨a, _, rfl⟩ := List.mem_map.mp hx
      rfl
    · exact ih _ (fun q hq => h q (List.mem_cons_of_mem _ hq)) x hx

/-- **C78**, provable part: if no page has text or images, all attachments are shown, each object once. Missing: texts and images. -/
theorem C78_attachments_partial (xref : Object → Option Int) (d : Document) (hp : ∀ p ∈ d.pages, p.images = [] ∧ p.text = none)
    (hx : ∀ x ∈ found d, (numberOf xref x.2).isSome) :
    gather xref d = .ok (firsts ((found d).filterMap (fun x => (numberOf xref x.2).map (fun n => (x.1, n)))) []) := by
  apply emit_objects
  intro x hm
  refine ⟨?_, hx x hm⟩
  rcases List.mem_append.mp hm with h | h
  · obtain ⟨a, _, rfl⟩ := List.mem_map.mp h
    rfl
  · exact pagesRefs_objects _ _ _ hp x h

/-- What `firsts` is for: no number twice, and every number is there. -/
theorem firsts_spec : ∀ (l : List (Str × Int)) (seen : List Int),
    ((firsts l seen).map Prod.snd).Nodup ∧ (∀ n, n ∈ (firsts l seen).map Prod.snd ↔ n ∈ l.map Prod.snd ∧ n ∉ seen) := by
  intro l
  induction l with
  | nil => intro seen; exact ⟨List.nodup_nil, by simp [firsts]⟩
  | cons x l ih =>
    intro seen
    rw [firsts]
    split
    · next h =>
      obtain ⟨h1, h2⟩ := ih seen
      refine ⟨h1, ?_⟩
      intro n
      rw [h2 n, List.map_cons, List.mem_cons]
      constructor
      · rintro ⟨a, b⟩; exact ⟨Or.inr a, b⟩
      · rintro ⟨a | a, b⟩
        · rw [a] at b; exact absurd h b
        · exact ⟨a, b⟩
    · next h =>
      obtain ⟨h1, h2⟩ := ih (x.2 :: seen)
      refine ⟨?_, ?_⟩
      · rw [List.map_cons, List.nodup_cons]
        refine ⟨?_, h1⟩
        intro hm
        exact ((h2 _).mp hm).2 List.mem_cons_self
      · intro n
        rw [List.map_cons, List.map_cons, List.mem_cons, List.mem_cons, h2 n]
        constructor
        · rintro (rfl | ⟨a, b⟩)
          · exact ⟨Or.inl rfl, h⟩
          · exact ⟨Or.inr a, fun hs => b (List.mem_cons_of_mem _ hs)⟩
        · rintro ⟨rfl | a, b⟩
          · exact Or.inl rfl
          · by_cases he : n = x.2
            · exact Or.inl he
            · refine Or.inr ⟨a, ?_⟩
              intro hm
              rcases List.mem_cons.mp hm with h' | h'
              · exact he h'
              · exact b h'

/-- **C78**: the numbers of texts and images are all different. -/
theorem C78_numbers (pages : Nat) (p q i j : Nat) (hp : p < pages) (hq : q < pages) :
    (imageNumber pages p i = imageNumber pages q j → p = q ∧ i = j) ∧ imageNumber pages p i ≠ textNumber q ∧
    (textNumber p = textNumber q → p = q) := by
  unfold imageNumber textNumber
  refine ⟨?_, ?_, ?_⟩
  · intro h
    have h : (i + 1) * pages + p = (j + 1) * pages + q := by omega
    have hm := congrArg (· % pages) h
    simp only [Nat.mul_add_mod_self_right, Nat.mod_eq_of_lt hp, Nat.mod_eq_of_lt hq] at hm
    subst hm
    refine ⟨rfl, ?_⟩
    have h2 : (i + 1) * pages = (j + 1) * pages := by omega
    have := Nat.eq_of_mul_eq_mul_right (by omega) h2
    omega
  · have : pages ≤ (i + 1) * pages := by
      rw [Nat.add_mul, Nat.one_mul]; omega
    omega
  · omega

/-- **C78**: the number of a text opens the text of this page, and the number of an image this image of this page. -/
theorem C78_opens (pages page image : Nat) (h : page < pages) :
    openWithOffset pages (textNumber page) = .text page ∧ openWithOffset pages (imageNumber pages page image) = .image page image := by
  have hp : (0 : Int) < pages := by omega
  constructor
  · have h1 : -textNumber page / (pages : Int) = 0 := by
      unfold textNumber; rw [Int.neg_neg]; exact Int.ediv_eq_zero_of_lt (by omega) (by omega)
    have h2 : -textNumber page % (pages : Int) = page := by
      unfold textNumber; rw [Int.neg_neg]; exact Int.emod_eq_of_lt (by omega) (by omega)
    rw [openWithOffset, if_pos (by unfold textNumber; omega), if_pos h1, h2, Int.toNat_natCast]
  · have he : -imageNumber pages page image = (page : Int) + pages * ((image : Int) + 1) := by
      unfold imageNumber
      rw [Int.neg_neg, Int.natCast_add, Int.natCast_mul, Int.add_comm, Int.mul_comm]
      rfl
    have h1 : -imageNumber pages page image / (pages : Int) = (image : Int) + 1 := by
      rw [he, Int.add_mul_ediv_left _ _ (by omega), Int.ediv_eq_zero_of_lt (by omega) (by omega), Int.zero_add]
    have h2 : -imageNumber pages page image % (pages : Int) = page := by
      rw [he, Int.add_mul_emod_self_left]; exact Int.emod_eq_of_lt (by omega) (by omega)
    rw [openWithOffset, if_pos (by unfold imageNumber; omega), if_neg (by rw [h1]; omega), h1, h2, Int.toNat_natCast]
    congr 1
    omega

/-- C78: behind an attachment, no text and no image is shown. -/
theorem C78_hidden (xref : Object → Option Int) : ∀ (l : List (Str × Ref)) (o : Int) (seen : List Int), o ∈ seen →
    (∀ x ∈ l, (numberOf xref x.2).isSome) → emit xref l (some o) seen =
      .ok (firsts ((l.filter (fun x => x.2.isObject)).filterMap (fun x => (numberOf xref x.2).map (fun n => (x.1, n)))) seen) := by
  intro l
  induction l with
  | nil => intro o seen _ _; rfl
  | cons x l ih =>
    intro o seen hs h
    obtain ⟨name, r⟩ := x
    have h2 := h _ List.mem_cons_self
    have hl : ∀ x ∈ l, (numberOf xref x.2).isSome := fun y hy => h y (List.mem_cons_of_mem _ hy)
    cases r with
    | number n =>
      rw [emit]
      simp only [if_pos hs]
      rw [ih o seen hs hl, List.filter_cons_of_neg (by simp [Ref.isObject])]
    | object r =>
      simp only [numberOf] at h2
      obtain ⟨n, hn⟩ := Option.isSome_iff_exists.mp h2
      rw [List.filter_cons_of_pos (by rfl), List.filterMap_cons]
      simp only [numberOf, hn, Option.map_some]
      rw [emit, firsts]
      simp only [hn]
      split
      · next hm => exact ih n seen hm hl
      · rw [ih n (n :: seen) List.mem_cons_self hl]
        rfl

/-- C78: if an attachment is not in the cross-reference table, then the file cannot be mounted. -/
theorem C78_missing (xref : Object → Option Int) : ∀ (l : List (Str × Ref)) (o : Option Int) (seen : List Int),
    (∃ x ∈ l, numberOf xref x.2 = none) → ∃ e, emit xref l o seen = .error e := by
  intro l
  induction l with
  | nil => rintro o seen ⟨x, hx, -⟩; cases hx
  | cons x l ih =>
    rintro o seen ⟨y, hy, hn⟩
    obtain ⟨name, r⟩ := x
    cases r with
    | number n =>
      have hl : ∃ x ∈ l, numberOf xref x.2 = none := by
        rcases List.mem_cons.mp hy with rfl | hy
        · cases hn
        · exact ⟨y, hy, hn⟩
      rw [emit.eq_def]
      cases o with
      | none => exact ⟨_, rfl⟩
      | some v =>
        simp only
        split
        · exact ih _ _ hl
        · obtain ⟨e, he⟩ := ih (some v) (v :: seen) hl
          rw [he]
          exact ⟨e, rfl⟩
    | object r =>
      rw [emit.eq_def]
      simp only
      cases hr : xref r with
      | none => exact ⟨_, rfl⟩
      | some v =>
        have hl : ∃ x ∈ l, numberOf xref x.2 = none := by
          rcases List.mem_cons.mp hy with rfl | hy
          · simp only [numberOf, hr] at hn
            cases hn
          · exact ⟨y, hy, hn⟩
        simp only
        split
        · exact ih _ _ hl
        · obtain ⟨e, he⟩ := ih (some v) (v :: seen) hl
          rw [he]
          exact ⟨e, rfl⟩

theorem mem_imageRefs (pages page : Nat) (x : Str × Ref) : ∀ (ns : List Str) (i : Nat), x ∈ imageRefs pages page i ns ↔
    ∃ j, ns[j]? = some x.1 ∧ x.2 = .number (imageNumber pages page (i + j)) := by
  intro ns
  induction ns with
  | nil => intro i; simp [imageRefs]
  | cons n ns ih =>
    intro i
    rw [imageRefs, List.mem_cons, ih]
    constructor
    · rintro (rfl | ⟨j, h1, h2⟩)
      · exact ⟨0, rfl, rfl⟩
      · exact ⟨j + 1, h1, by rw [h2, show i + 1 + j = i + (j + 1) by omega]⟩
    · rintro ⟨j, h1, h2⟩
      cases j with
      | zero =>
        left
        simp only [List.getElem?_cons_zero, Option.some.injEq] at h1
        exact Prod.ext h1.symm h2
      | succ j => exact .inr ⟨j, h1, by rw [h2, show i + 1 + j = i + (j + 1) by omega]⟩

theorem mem_pagesRefs (pages : Nat) (x : Str × Ref) : ∀ (ps : List Page) (k : Nat), x ∈ pagesRefs pages k ps ↔
    ∃ j p, ps[j]? = some p ∧ x ∈ pageRefs pages (k + j) p := by
  intro ps
  induction ps with
  | nil => intro k; simp [pagesRefs]
  | cons p ps ih =>
    intro k
    rw [pagesRefs, List.mem_append, ih]
    constructor
    · rintro (h | ⟨j, q, h1, h2⟩)
      · exact ⟨0, p, rfl, h⟩
      · exact ⟨j + 1, q, h1, by rw [show k + (j + 1) = k + 1 + j by omega]; exact h2⟩
    · rintro ⟨j, q, h1, h2⟩
      cases j with
      | zero =>
        left
        simp only [List.getElem?_cons_zero, Option.some.injEq] at h1
        rw [h1]
        exact h2
      | succ j => exact .inr ⟨j, q, h1, by rw [show k + 1 + j = k + (j + 1) by omega]; exact h2⟩

/-- **C78**: what is found besides attachments are the images and texts of all pages, with numbers from which page and image are computed. -/
theorem C78_found (d : Document) (name : Str) (n : Int) : (name, Ref.number n) ∈ found d ↔
    (∃ k p i, d.pages[k]? = some p ∧ p.images[i]? = some name ∧ n = -(((i + 1) * d.pages.length + k : Nat) : Int)) ∨
    (∃ (k : Nat) (p : Page), d.pages[k]? = some p ∧ p.text = some name ∧ n = -(k : Int)) := by
  have hno : ∀ l : List (Str × Object), (name, Ref.number n) ∉ l.map (fun a => (a.1, Ref.object a.2)) := by
    intro l h
    obtain ⟨a, -, he⟩ := List.mem_map.mp h
    injection he with _ he
    cases he
  unfold found
  rw [List.mem_append, mem_pagesRefs]
  constructor
  · rintro (h | ⟨k, p, h1, h2⟩)
    · exact absurd h (hno _)
    · unfold pageRefs at h2
      rw [List.mem_append, List.mem_append, mem_imageRefs] at h2
      rcases h2 with (h2 | ⟨i, h2, h3⟩) | h2
      · exact absurd h2 (hno _)
      · left
        injection h3 with h3
        exact ⟨k, p, i, h1, h2, by rw [h3]; simp [imageNumber]⟩
      · right
        cases ht : p.text with
        | none => rw [ht] at h2; cases h2
        | some t =>
          rw [ht] at h2
          have := List.mem_singleton.mp h2
          injection this with h4 h5
          injection h5 with h5
          exact ⟨k, p, h1, by rw [ht, h4], by rw [h5]; simp [textNumber]⟩
  · rintro (⟨k, p, i, h1, h2, h3⟩ | ⟨k, p, h1, h2, h3⟩)
    · refine .inr ⟨k, p, h1, ?_⟩
      unfold pageRefs
      rw [List.mem_append, List.mem_append, mem_imageRefs]
      exact .inl (.inr ⟨i, h2, by rw [h3]; simp [imageNumber]⟩)
    · refine .inr ⟨k, p, h1, ?_⟩
      unfold pageRefs
      rw [List.mem_append, h2]
      refine .inr (List.mem_singleton.mpr ?_)
      rw [h3]
      simp [textNumber]

theorem lastOffset_some (pages : Nat) : ∀ (ps : List Page) (k : Nat) (o : Option Int), (o.isSome ∨ ∃ p ∈ ps, p.images ≠ []) →
    (lastOffset pages k ps o).isSome := by
  intro ps
  induction ps with
  | nil =>
    rintro k o (h | ⟨p, hp, -⟩)
    · exact h
    · cases hp
  | cons p ps ih =>
    intro k o h
    rw [lastOffset]
    apply ih
    by_cases he : p.images = []
    · rcases h with h | ⟨q, hq, hne⟩
      · left; rw [he]; exact h
      · rcases List.mem_cons.mp hq with rfl | hq
        · exact absurd he hne
        · exact .inr ⟨q, hq, hne⟩
    · left
      rw [if_neg (by simp [he])]
      rfl

/-- C78: without attachments and with an image somewhere, what is shown is only the first text or image that was found. -/
theorem C78_first (xref : Object → Option Int) (d : Document) (name : Str) (n : Int) (rest : List (Str × Ref)) (hf : found d = (name, .number n) :: rest)
    (hn : ∀ x ∈ rest, x.2.isObject = false) (hi : ∃ p ∈ d.pages, p.images ≠ []) : gather xref d = .ok [(name, n)] := by
  obtain ⟨o, ho⟩ := Option.isSome_iff_exists.mp (lastOffset_some d.pages.length d.pages 0 none (.inr hi))
  have hh : ∀ x ∈ rest, (numberOf xref x.2).isSome := by
    intro x hx
    have := hn x hx
    cases h : x.2 with
    | number n => rfl
    | object r => rw [h] at this; cases this
  unfold gather
  rw [hf, ho, emit]
  simp only [List.not_mem_nil, if_false]
  rw [C78_hidden xref rest o [o] (by simp) hh, List.filter_eq_nil_iff.mpr (by intro x hx; rw [hn x hx]; simp)]
  rfl

example : found ⟨[], [⟨[], [['a'], ['b']], some ['t']⟩]⟩ = [(['a'], .number (-1)), (['b'], .number (-2)), (['t'], .number 0)] := by decide

/-- A document with one page of text. -/
def sampleText : Document := ⟨[], [⟨[], [], some "page_0.txt".toList⟩]⟩

/-- A document with an attachment. -/
def sampleAttachment : Document := ⟨[("a".toList, ⟨0, 5⟩), ("b".toList, ⟨0, 5⟩), ("c".toList, ⟨0, 6⟩)], [⟨[], [], none⟩]⟩

example : gather (fun o => some (100 + o.idnum)) sampleAttachment = .ok [("a".toList, 105), ("c".toList, 106)] := by decide

/-- C78 is violated: a document with text but neither images nor attachments is an error. -/
theorem C78_violated : ¬ C78_statement := by
  intro h
  have := h (fun _ => none) sampleText (by decide)
  revert this
  decide

/-- C78 is violated: of several images and texts only one is shown. -/
theorem C78_images_violated : ∃ d : Document, (∀ x ∈ found d, (numberOf (fun _ => none) x.2).isSome) ∧
    gather (fun _ => none) d = .ok [("page_0_Im1.png".toList, -1)] ∧
    (found d).length = 3 := by
  refine ⟨⟨[], [⟨[], ["page_0_Im1.png".toList, "page_0_Im2.png".toList], some "page_0.txt".toList⟩]⟩, by decide, by decide, by decide⟩

end Verif.Pdf
