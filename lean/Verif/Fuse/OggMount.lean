import Verif.Fuse.ObjectMount
import Verif.Formats.Ogg
import Verif.PyNum

/-!
# C218: a mounted OGG file shows its streams
(core/ratarmountcore/mountsource/formats/ogg.py, core/ratarmountcore/mountsource/compositing/versioning.py, ratarmount/FuseMount.py)

The streams (`Verif.Formats.Ogg`), the rows of the index, whose column linkname has the ranges of the pages as JSON, the versions layer and the FUSE
operations (`Verif.Fuse.ObjectMount`) are put together. A file that is opened is a `StenciledFile` (C01, C63), of which only the contents are kept.

Simplified: the JSON reader knows lists of pairs of numbers only. The file does not change while it is mounted. FUSE calls one operation at a time.
-/

namespace Verif.Fuse.OggMount

open Verif.Py Verif.Bin Verif.Index Verif.Ogg
open Verif.Tar (Bytes)
open Verif.Compose (dotVersions)
open Verif.Fuse.IndexMount (FRow Stat Rec source toRows mgetattr lastAt Below)
open Verif.Fuse.ObjectMount (Listed mopen mread calls start)
open Verif.Fuse.TarMount (mreaddir Call place)

/-! ## model -/

/-- White space in JSON (Python library, `json.loads`, used at ogg.py:549). -/
def skipWs (s : Str) : Str := s.dropWhile (fun c => c == ' ' || c == '\t' || c == '\n' || c == '\r')

/-- A character, after white space (Python library, `json.loads`, used at ogg.py:549). -/
def expect (c : Char) (s : Str) : Option Str :=
  match skipWs s with
  | [] => none
  | x :: t => if x = c then some t else none

/-- A digit (Python library, `json.loads`, used at ogg.py:549). -/
def isDig (c : Char) : Bool := 48 ≤ c.toNat && c.toNat ≤ 57

/-- A number, after white space (Python library, `json.loads`, used at ogg.py:549). Leading zeros are not refused. -/
def number (s : Str) : Option (Nat × Str) :=
  if (skipWs s).takeWhile isDig = [] then none
  else some (((skipWs s).takeWhile isDig).foldl (fun a c => a * 10 + (c.toNat - 48)) 0, (skipWs s).dropWhile isDig)

/-- A list of two numbers (Python library, `json.loads`, used at ogg.py:549). -/
def pair (s : Str) : Option ((Nat × Nat) × Str) :=
  (expect '[' s).bind fun s => (number s).bind fun a => (expect ',' a.2).bind fun s => (number s).bind fun b =>
    (expect ']' b.2).map fun s => ((a.1, b.1), s)

/-- The items of a list; `k` is an upper bound for their number (Python library, `json.loads`, used at ogg.py:549). -/
def pairs : Nat → Str → Option (List (Nat × Nat) × Str)
  | 0, _ => none
  | k + 1, s => (pair s).bind fun p =>
    match expect ',' p.2 with
    | some t => (pairs k t).map fun q => (p.1 :: q.1, q.2)
    | none => (expect ']' p.2).map fun t => ([p.1], t)

/-- `json.loads(fileInfo.linkname)` (ogg.py:549). -/
def loads (s : Str) : Option (List (Nat × Nat)) :=
  (expect '[' s).bind fun s =>
    match expect ']' s with
    | some t => if skipWs t = [] then some [] else none
    | none => (pairs s.length s).bind fun q => if skipWs q.2 = [] then some q.1 else none

/-- A pair in `json.dumps` (ogg.py:519). -/
def dumpPair (p : Nat × Nat) : Str := '[' :: (natStr p.1 ++ ',' :: ' ' :: (natStr p.2 ++ [']']))

/-- What follows an item in `json.dumps` (ogg.py:519). -/
def dumpTail : List (Nat × Nat) → Str
  | [] => [']']
  | p :: ps => ',' :: ' ' :: (dumpPair p ++ dumpTail ps)

/-- `json.dumps(stream.stencils)` (ogg.py:519). -/
def dumps : List (Nat × Nat) → Str
  | [] => ['[', ']']
  | p :: ps => '[' :: (dumpPair p ++ dumpTail ps)

/-- What the mount depends on: `transform` and the modification time (ogg.py:485-497). -/
structure Opts where
  transform : Str → Str
  mtime : Nat

/-- `_convert_to_row` (ogg.py:507-546). -/
def row (o : Opts) (e : Nat × Stream) : Except PyErr FRow :=
  match e.2.pages with
  | [] => .error .indexError
  | p :: _ => .ok ⟨(splitPath (normpath (o.transform (fileName e.1 e.2)))).1, (splitPath (normpath (o.transform (fileName e.1 e.2)))).2,
      p.headerOffset, p.dataOffset, e.2.size, o.mtime, 0o100644, dumps e.2.stencils, 0, 0, false⟩

/-- The rows of all streams (ogg.py:501-505). -/
def rows (o : Opts) : List (Nat × Stream) → Except PyErr (List FRow)
  | [] => .ok []
  | e :: es =>
    match row o e with
    | .error x => .error x
    | .ok r =>
      match rows o es with
      | .error x => .error x
      | .ok rs => .ok (r :: rs)

/-- `might_be_format` for OGG (formats.py:478, 607-620; used at ogg.py:490). -/
def mightBeOgg (file : Bytes) : Bool := file.take 5 == [0x4F, 0x67, 0x67, 0x53, 0]

/-- The index (ogg.py:490-505). -/
def index (o : Opts) (file : Bytes) : Except PyErr (List FRow) :=
  if mightBeOgg file = false then .error .valueError
  else
    match parseOgg file with
    | .error x => .error x
    | .ok r => rows o r

/-- The mount source: the rows are inserted at once (ogg.py:501). -/
def src (rs : List FRow) : Compose.Source := source rs [toRows rs]

/-- `open` (ogg.py:547-550): the contents of the file that is opened. -/
def opener (file : Bytes) (r : FRow) : Except PyErr Bytes :=
  match loads r.link with
  | none => .error .valueError
  | some st => .ok (exposed file st)

/-! ## specification -/

/-- The name of a stream, by the beginning of its first page and its number. -/
def StreamName (pages : List Page) (serial : Nat) (n : Str) : Prop :=
  ∃ p digits, pages.find? (fun p : Page => p.serial = serial) = some p ∧ IsHex serial digits ∧
    ((∃ b ∈ beginnings, octets b.1 <+: p.body ∧ n = b.2.1.toList ++ '_' :: (digits ++ b.2.2.toList)) ∨
     ((∀ b ∈ beginnings, ¬ octets b.1 <+: p.body) ∧ n = "unknown_".toList ++ (digits ++ ".ogg".toList)))

/-- Where a name is shown. -/
def at_ (o : Opts) (n : Str) : List Str := place (o.transform n)

/-- A well-formed OGG file. With `--transform`, the streams have to be at different places, none below another one. -/
structure File (o : Opts) (pages : List Page) (tail : Bytes) : Prop where
  some : pages ≠ []
  valid : ∀ p ∈ pages, p.Valid
  flagged : Flagged [] pages
  tail : tail.length < 27
  apart : ∀ s s' n n', s ≠ s' → StreamName pages s n → StreamName pages s' n' → ∀ rest, at_ o n' ≠ at_ o n ++ rest

/-! ## lemmas: JSON -/

theorem skipWs_cons {c : Char} {t : Str} (h : (c == ' ' || c == '\t' || c == '\n' || c == '\r') = false) : skipWs (c :: t) = c :: t := by
  unfold skipWs
  rw [List.dropWhile_cons, h]
  rfl

theorem skipWs_space (t : Str) : skipWs (' ' :: t) = skipWs t := rfl

theorem expect_cons {c x : Char} {t : Str} (h : (x == ' ' || x == '\t' || x == '\n' || x == '\r') = false) :
    expect c (x :: t) = if x = c then some t else none := by
  unfold expect
  rw [skipWs_cons h]

theorem digit_ws {c : Char} (h : isDig c = true) : (c == ' ' || c == '\t' || c == '\n' || c == '\r') = false := by
  unfold isDig at h
  simp only [Bool.and_eq_true, decide_eq_true_eq] at h
  have : ∀ x : Char, x.toNat < 48 → (c == x) = false := by
    intro x hx
    rw [beq_eq_false_iff_ne]
    rintro rfl
    omega
  rw [this ' ' (by decide), this '\t' (by decide), this '\n' (by decide), this '\r' (by decide)]
  rfl

theorem number_natStr (n : Nat) (c : Char) (t : Str) (hc : isDig c = false) : number (natStr n ++ c :: t) = some (n, c :: t) := by
  have hd : ∀ x ∈ natStr n, isDig x = true := by
    intro x hx
    obtain ⟨h1, h2⟩ := natStr_digits n x hx
    unfold isDig
    simp [h1, h2]
  have hs : skipWs (natStr n ++ c :: t) = natStr n ++ c :: t := by
    obtain ⟨x, s, hx⟩ := List.exists_cons_of_ne_nil (natStr_ne_nil n)
    rw [hx, List.cons_append, skipWs_cons (digit_ws (hd x (by rw [hx]; simp)))]
  have h1 : (natStr n ++ c :: t).takeWhile isDig = natStr n := by
    rw [List.takeWhile_append_of_pos hd]
    simp [hc]
  have h2 : (natStr n ++ c :: t).dropWhile isDig = c :: t := by
    rw [List.dropWhile_append_of_pos hd]
    simp [hc]
  unfold number
  rw [hs, h1, h2, if_neg (natStr_ne_nil n), natStr_value]

theorem number_space (s : Str) : number (' ' :: s) = number s := by
  unfold number
  rw [skipWs_space]

theorem pair_dump (p : Nat × Nat) (t : Str) : pair (dumpPair p ++ t) = some (p, t) := by
  unfold pair dumpPair
  rw [List.cons_append, expect_cons (by decide), if_pos rfl]
  simp only [Option.bind_some, List.append_assoc, List.cons_append, List.nil_append]
  rw [number_natStr _ _ _ (by decide)]
  simp only [Option.bind_some]
  rw [expect_cons (by decide), if_pos rfl]
  simp only [Option.bind_some]
  rw [number_space, number_natStr _ _ _ (by decide)]
  simp only [Option.bind_some]
  rw [expect_cons (by decide), if_pos rfl]
  rfl

theorem pair_space (s : Str) : pair (' ' :: s) = pair s := by
  unfold pair expect
  rw [skipWs_space]

theorem pairs_space (k : Nat) (s : Str) : pairs k (' ' :: s) = pairs k s := by
  cases k with
  | zero => rfl
  | succ k => simp only [pairs, pair_space]

theorem pairs_dump (ps : List (Nat × Nat)) : ∀ (k : Nat) (p : Nat × Nat), ps.length < k →
    pairs k (dumpPair p ++ dumpTail ps) = some (p :: ps, []) := by
  induction ps with
  | nil =>
    intro k p hk
    cases k with
    | zero => omega
    | succ k =>
      simp only [pairs, pair_dump, Option.bind_some, dumpTail]
      rw [expect_cons (by decide), if_neg (by decide), expect_cons (by decide), if_pos rfl]
      rfl
  | cons q ps ih =>
    intro k p hk
    cases k with
    | zero => omega
    | succ k =>
      simp only [List.length_cons] at hk
      simp only [pairs, pair_dump, Option.bind_some, dumpTail]
      rw [expect_cons (by decide), if_pos rfl]
      simp only
      rw [pairs_space, ih k q (by omega)]
      rfl

theorem length_dump (p : Nat × Nat) (ps : List (Nat × Nat)) : ps.length < (dumpPair p ++ dumpTail ps).length := by
  have h : ∀ ps : List (Nat × Nat), ps.length < (dumpTail ps).length := by
    intro ps
    induction ps with
    | nil => simp [dumpTail]
    | cons q ps ih =>
      simp only [dumpTail, List.length_cons, List.length_append]
      omega
  have := h ps
  rw [List.length_append]
  omega

theorem loads_dumps (l : List (Nat × Nat)) : loads (dumps l) = some l := by
  cases l with
  | nil => decide
  | cons p ps =>
    unfold loads dumps
    rw [expect_cons (by decide), if_pos rfl]
    simp only [Option.bind_some]
    have h : expect ']' (dumpPair p ++ dumpTail ps) = none := by
      unfold dumpPair
      rw [List.cons_append, expect_cons (by decide), if_neg (by decide)]
    rw [h]
    simp only
    rw [pairs_dump ps _ p (length_dump p ps)]
    rfl

/-! ## lemmas: names -/

theorem isHex_hex {n : Nat} {s : Str} (h : IsHex n s) : s = hex 8 n := by
  obtain ⟨ds, rfl, hl, hd, hn⟩ := h
  have hdig : ∀ d < 16, hexDigit d = "0123456789abcdef".toList.getD d '?' := by decide
  have key : ∀ (k : Nat) (ds : List Nat), ds.length = k → (∀ d ∈ ds, d < 16) →
      ds.map (fun d => "0123456789abcdef".toList.getD d '?') = hex k (ds.foldl (fun a d => 16 * a + d) 0) := by
    intro k
    induction k with
    | zero =>
      intro ds hl _
      rw [List.length_eq_zero_iff] at hl
      subst hl
      rfl
    | succ k ih =>
      intro ds hl hd
      rcases List.eq_nil_or_concat ds with rfl | ⟨a, x, rfl⟩
      · simp at hl
      · rw [List.concat_eq_append] at hl hd ⊢
        have hx := hd x (by simp)
        rw [List.foldl_append, List.foldl_cons, List.foldl_nil, hex, List.map_append]
        have e1 : (16 * a.foldl (fun a d => 16 * a + d) 0 + x) / 16 = a.foldl (fun a d => 16 * a + d) 0 := by omega
        have e2 : (16 * a.foldl (fun a d => 16 * a + d) 0 + x) % 16 = x := by omega
        rw [e1, e2, hdig x hx, ih a (by simp at hl; omega) (fun d hm => hd d (by simp [hm]))]
        rfl
  rw [key 8 ds hl hd, hn]

theorem name_iff {o : Opts} {pages : List Page} {tail : Bytes} (hf : File o pages tail) {r : Streams} (hr : parseOgg (bytes pages ++ tail) = .ok r)
    {serial : Nat} {st : Stream} (hm : (serial, st) ∈ r) (n : Str) : StreamName pages serial n ↔ n = fileName serial st := by
  obtain ⟨p, digits, h1, h2, h3, h4⟩ := C63_filename pages hf.valid hf.flagged tail hf.tail r hr serial st hm
  constructor
  · rintro ⟨p', digits', h1', h2', h5⟩
    rw [h1] at h1'
    cases h1'
    have e : digits' = digits := by rw [isHex_hex h2, isHex_hex h2']
    subst e
    rcases h5 with ⟨b, hb, hp, rfl⟩ | ⟨hb, rfl⟩
    · exact (h3 b hb hp).symm
    · exact (h4 hb).symm
  · rintro rfl
    refine ⟨p, digits, h1, h2, ?_⟩
    by_cases hb : ∃ b ∈ beginnings, octets b.1 <+: p.body
    · obtain ⟨b, hb, hp⟩ := hb
      exact .inl ⟨b, hb, hp, h3 b hb hp⟩
    · have : ∀ b ∈ beginnings, ¬ octets b.1 <+: p.body := fun b hb' hp => hb ⟨b, hb', hp⟩
      exact .inr ⟨this, h4 this⟩

theorem name_serial {pages : List Page} {serial : Nat} {n : Str} (h : StreamName pages serial n) : ∃ p ∈ pages, p.serial = serial := by
  obtain ⟨p, _, h1, _⟩ := h
  exact ⟨p, List.mem_of_find?_eq_some h1, by simpa using List.find?_some h1⟩

/-! ## lemmas: the rows -/

/-- The row of a stream. -/
def rowOf (o : Opts) (e : Nat × Stream) : FRow :=
  ⟨(splitPath (normpath (o.transform (fileName e.1 e.2)))).1, (splitPath (normpath (o.transform (fileName e.1 e.2)))).2,
    (e.2.pages.headD ⟨0, 0, 0⟩).headerOffset, (e.2.pages.headD ⟨0, 0, 0⟩).dataOffset, e.2.size, o.mtime, 0o100644, dumps e.2.stencils, 0, 0, false⟩

theorem rows_eq (o : Opts) (es : List (Nat × Stream)) (h : ∀ e ∈ es, e.2.pages ≠ []) : rows o es = .ok (es.map (rowOf o)) := by
  induction es with
  | nil => rfl
  | cons e es ih =>
    obtain ⟨p, ps, hp⟩ := List.exists_cons_of_ne_nil (h e (by simp))
    have h1 : row o e = .ok (rowOf o e) := by
      unfold row rowOf
      rw [hp]
      rfl
    simp only [rows, h1, ih (fun x hx => h x (by simp [hx])), List.map_cons]

/-- What is known about the streams of a well-formed file. -/
theorem streams {o : Opts} {pages : List Page} {tail : Bytes} (hf : File o pages tail) : ∃ r, parseOgg (bytes pages ++ tail) = .ok r ∧ r.keys.Nodup ∧
    (∀ serial, serial ∈ r.keys ↔ ∃ p ∈ pages, p.serial = serial) ∧
    (∀ e ∈ r, exposed (bytes pages ++ tail) e.2.stencils = streamBytes e.1 pages ∧ e.2.size = (streamBytes e.1 pages).length ∧ e.2.pages ≠ []) := by
  obtain ⟨r, h1, h2, h3, h4, -⟩ := C63_streams pages hf.valid hf.flagged tail hf.tail
  refine ⟨r, h1, h2, h3, ?_⟩
  intro e he
  obtain ⟨h5, h6, -⟩ := h4 e.1 e.2 he
  refine ⟨h5, h6, ?_⟩
  intro hn
  obtain ⟨p, hp, hs⟩ := (h3 e.1).mp (List.mem_map.mpr ⟨e, he, rfl⟩)
  have h7 : e.2.size = 0 := by
    unfold Stream.size Stream.stencils
    rw [hn]
    rfl
  have h8 : p ∈ pages.filter (fun p : Page => p.serial = e.1) := List.mem_filter.mpr ⟨hp, by simpa using hs⟩
  obtain ⟨a, b, hab⟩ := List.append_of_mem h8
  rw [h6] at h7
  unfold streamBytes at h7
  rw [hab, bytes_append, bytes_cons, List.length_append, List.length_append, length_bytes] at h7
  omega

/-- A stream as a member of an archive. -/
def recOf (o : Opts) (pages : List Page) (e : Nat × Stream) : Rec :=
  ⟨at_ o (fileName e.1 e.2), 0o100644, dumps e.2.stencils, o.mtime, 0, 0, streamBytes e.1 pages⟩

theorem not_hard (o : Opts) (pages : List Page) (e : Nat × Stream) : (recOf o pages e).isHard = false := by
  have h : ((0o100644 : Nat) &&& 0xF000 == 0x8000) = true := by decide
  show ((!((0o100644 : Nat) &&& 0xF000 == 0x8000)) && _ && _) = false
  rw [h]
  rfl

theorem row_place (o : Opts) (e : Nat × Stream) : ((rowOf o e).path, (rowOf o e).name) = splitPath (canonical (at_ o (fileName e.1 e.2))) := by
  unfold rowOf
  simp only
  rw [(C14_canonical (o.transform (fileName e.1 e.2))).1]
  rfl

theorem apart {o : Opts} {pages : List Page} {tail : Bytes} (hf : File o pages tail) {r : Streams} (hr : parseOgg (bytes pages ++ tail) = .ok r)
    {e e' : Nat × Stream} (he : e ∈ r) (he' : e' ∈ r) (hne : e.1 ≠ e'.1) (rest : List Str) :
    at_ o (fileName e'.1 e'.2) ≠ at_ o (fileName e.1 e.2) ++ rest :=
  hf.apart e.1 e'.1 _ _ hne ((name_iff hf hr (st := e.2) he _).mpr rfl) ((name_iff hf hr (st := e'.2) he' _).mpr rfl) rest

theorem same {r : Streams} (hnd : r.keys.Nodup) {e e' : Nat × Stream} (he : e ∈ r) (he' : e' ∈ r) (hk : e.1 = e'.1) : e = e' := by
  have h1 := Dict.get?_eq_some_of_mem r hnd (k := e.1) (v := e.2) he
  have h2 := Dict.get?_eq_some_of_mem r hnd (k := e'.1) (v := e'.2) he'
  rw [hk, h2] at h1
  exact Prod.ext hk (Option.some.inj h1).symm

theorem listed {o : Opts} {pages : List Page} {tail : Bytes} (hf : File o pages tail) {r : Streams} (hr : parseOgg (bytes pages ++ tail) = .ok r)
    (hnd : r.keys.Nodup) (hsz : ∀ e ∈ r, e.2.size = (streamBytes e.1 pages).length) :
    Listed (r.map (recOf o pages)) (r.map (rowOf o)) [toRows (r.map (rowOf o))] := by
  refine ⟨?_, by simp, ?_, ?_, ?_, by simp⟩
  · intro p hp x hx
    obtain ⟨e, -, rfl⟩ := List.mem_map.mp hp
    exact TarMount.place_names _ x hx
  · intro k p q hp hq
    rw [List.getElem?_map, Option.map_eq_some_iff] at hp hq
    obtain ⟨e, he, rfl⟩ := hp
    obtain ⟨e', he', rfl⟩ := hq
    rw [he] at he'
    cases he'
    exact ⟨row_place o e, hsz e (List.mem_of_getElem? he), rfl, rfl, rfl, .inl rfl, .inl rfl⟩
  · intro a b q q' hab hq hq' hpath hname
    exfalso
    rw [List.getElem?_map, Option.map_eq_some_iff] at hq hq'
    obtain ⟨e, he, rfl⟩ := hq
    obtain ⟨e', he', rfl⟩ := hq'
    have hk : e.1 ≠ e'.1 := by
      obtain ⟨hil, hie⟩ := List.getElem?_eq_some_iff.mp he
      obtain ⟨hjl, hje⟩ := List.getElem?_eq_some_iff.mp he'
      unfold Dict.keys List.Nodup at hnd
      rw [List.pairwise_map] at hnd
      have := (List.pairwise_iff_getElem.mp hnd) a b hil hjl hab
      rw [hie, hje] at this
      exact this
    refine apart hf hr (List.mem_of_getElem? he) (List.mem_of_getElem? he') hk [] ?_
    rw [List.append_nil]
    have h1 := row_place o e
    have h2 := row_place o e'
    have h3 : splitPath (canonical (at_ o (fileName e.1 e.2))) = splitPath (canonical (at_ o (fileName e'.1 e'.2))) := by
      rw [← h1, ← h2]
      exact Prod.ext hpath hname
    refine (TarMount.canonical_inj (TarMount.place_names _) (TarMount.place_names _) ?_).symm
    have hc : ∀ ns, canonical ns = (splitPath (canonical ns)).1 ++ '/' :: (splitPath (canonical ns)).2 := by
      intro ns
      unfold splitPath
      cases hs : rsplit1 '/' (canonical ns) with
      | none =>
        rw [rsplit1_none] at hs
        exact absurd (by unfold canonical; cases ns <;> simp) hs
      | some p => exact (rsplit1_some hs).1
    show canonical (at_ o (fileName e.1 e.2)) = canonical (at_ o (fileName e'.1 e'.2))
    rw [hc (at_ o (fileName e.1 e.2)), hc (at_ o (fileName e'.1 e'.2)), h3]
  · intro p hp hb
    obtain ⟨e, he, rfl⟩ := List.mem_map.mp hp
    obtain ⟨q, hq, n, rest, hpl⟩ := hb
    obtain ⟨e', he', rfl⟩ := List.mem_map.mp hq
    by_cases hk : e.1 = e'.1
    · rw [same hnd he he' hk] at hpl
      have := congrArg List.length hpl
      simp at this
    · exact absurd hpl (apart hf hr he he' hk (n :: rest))

theorem lastAt_stream {o : Opts} {pages : List Page} {tail : Bytes} (hf : File o pages tail) {r : Streams} (hr : parseOgg (bytes pages ++ tail) = .ok r)
    (hnd : r.keys.Nodup) {e : Nat × Stream} (he : e ∈ r) : lastAt (r.map (recOf o pages)) (at_ o (fileName e.1 e.2)) = some (recOf o pages e) := by
  unfold lastAt
  have hmem : recOf o pages e ∈ (r.map (recOf o pages)).filter (fun p => decide (p.place = at_ o (fileName e.1 e.2))) :=
    List.mem_filter.mpr ⟨List.mem_map.mpr ⟨e, he, rfl⟩, by simp [recOf]⟩
  cases hl : ((r.map (recOf o pages)).filter (fun p => decide (p.place = at_ o (fileName e.1 e.2)))).getLast? with
  | none =>
    rw [List.getLast?_eq_none_iff] at hl
    rw [hl] at hmem
    cases hmem
  | some p =>
    obtain ⟨h1, h2⟩ := List.mem_filter.mp (List.mem_of_getLast? hl)
    obtain ⟨e', he', rfl⟩ := List.mem_map.mp h1
    have h3 : at_ o (fileName e'.1 e'.2) = at_ o (fileName e.1 e.2) := of_decide_eq_true h2
    by_cases hk : e.1 = e'.1
    · rw [same hnd he he' hk]
    · exact absurd (by rw [h3, List.append_nil]) (apart hf hr he he' hk [])

theorem opener_stream {o : Opts} {file : Bytes} {e : Nat × Stream} : opener file (rowOf o e) = .ok (exposed file e.2.stencils) := by
  have h : loads (rowOf o e).link = some e.2.stencils := loads_dumps _
  unfold opener
  rw [h]

theorem index_eq {o : Opts} {pages : List Page} {tail : Bytes} (hf : File o pages tail) {r : Streams} (hr : parseOgg (bytes pages ++ tail) = .ok r)
    (hp : ∀ e ∈ r, e.2.pages ≠ []) : index o (bytes pages ++ tail) = .ok (r.map (rowOf o)) := by
  obtain ⟨p, ps, rfl⟩ := List.exists_cons_of_ne_nil hf.some
  have h : mightBeOgg (bytes (p :: ps) ++ tail) = true := rfl
  unfold index
  rw [h, if_neg (by decide), hr]
  exact rows_eq o r hp

/-- The entry of a stream. -/
theorem entry {o : Opts} {pages : List Page} {tail : Bytes} (hf : File o pages tail) {r : Streams} (hr : parseOgg (bytes pages ++ tail) = .ok r)
    (hk : ∀ serial, serial ∈ r.keys ↔ ∃ p ∈ pages, p.serial = serial) {serial : Nat} {n : Str} (hs : StreamName pages serial n) :
    ∃ st, (serial, st) ∈ r ∧ n = fileName serial st := by
  obtain ⟨e, he, rfl⟩ := List.mem_map.mp ((hk serial).mpr (name_serial hs))
  exact ⟨e.2, he, (name_iff hf hr (st := e.2) he n).mp hs⟩

/-! ## C218 -/

/-- **C218** The ranges in the column linkname are read back as they were written. -/
theorem C218_ranges (l : List (Nat × Nat)) : loads (dumps l) = some l := loads_dumps l

/-- **C218** A well-formed OGG file can be mounted. -/
theorem C218_mounts {o : Opts} {pages : List Page} {tail : Bytes} (hf : File o pages tail) : ∃ rs, index o (bytes pages ++ tail) = .ok rs := by
  obtain ⟨r, h1, _, _, h4⟩ := streams hf
  exact ⟨_, index_eq hf h1 (fun e he => (h4 e he).2.2)⟩

/-- **C218** After any calls, the file of a stream can be opened, and all reads return exactly the requested range of its pages, one after the other,
whatever else is opened, read and closed in between. -/
theorem C218_read {o : Opts} {pages : List Page} {tail : Bytes} (hf : File o pages tail) {rs : List FRow} (hi : index o (bytes pages ++ tail) = .ok rs)
    {serial : Nat} {n : Str} (hs : StreamName pages serial n) (hne : at_ o n ≠ []) (before : List Call) :
    ∃ m fh, mopen (opener (bytes pages ++ tail)) rs (src rs) (calls (opener (bytes pages ++ tail)) rs (src rs) start before) (canonical (at_ o n)) = (m, .ok fh) ∧
      ∀ (between : List Call) (size offset : Nat), Call.release fh ∉ between →
        (mread (calls (opener (bytes pages ++ tail)) rs (src rs) m between) fh size offset).2 =
          .ok (((bytes (pages.filter (fun p : Page => p.serial = serial))).drop offset).take size) := by
  obtain ⟨r, h1, h2, h3, h4⟩ := streams hf
  rw [index_eq hf h1 (fun e he => (h4 e he).2.2)] at hi
  cases hi
  obtain ⟨st, hm, rfl⟩ := entry hf h1 h3 hs
  refine ObjectMount.reads (listed hf h1 h2 (fun e he => (h4 e he).2.1)) (opener (bytes pages ++ tail)) hne (TarMount.place_names _)
    (lastAt_stream hf h1 h2 hm) (not_hard o pages _) ?_ before
  intro k q hk hq
  rw [List.getElem?_map, Option.map_eq_some_iff] at hk hq
  obtain ⟨e, he, hek⟩ := hk
  obtain ⟨e', he', rfl⟩ := hq
  rw [he] at he'
  cases he'
  rw [opener_stream, (h4 e (List.mem_of_getElem? he)).1]
  exact congrArg (fun p : Rec => Except.ok p.data) hek

/-- **C218** It is shown as a regular file with the size of its pages and the time of the OGG file. -/
theorem C218_attributes {o : Opts} {pages : List Page} {tail : Bytes} (hf : File o pages tail) {rs : List FRow}
    (hi : index o (bytes pages ++ tail) = .ok rs) {serial : Nat} {n : Str} (hs : StreamName pages serial n) (hne : at_ o n ≠ []) :
    mgetattr rs (src rs) (canonical (at_ o n)) =
      .ok ⟨0o100644, (bytes (pages.filter (fun p : Page => p.serial = serial))).length, o.mtime, 0, 0⟩ := by
  obtain ⟨r, h1, h2, h3, h4⟩ := streams hf
  rw [index_eq hf h1 (fun e he => (h4 e he).2.2)] at hi
  cases hi
  obtain ⟨st, hm, rfl⟩ := entry hf h1 h3 hs
  exact (ObjectMount.attributes (listed hf h1 h2 (fun e he => (h4 e he).2.1)) hne (TarMount.place_names _)
    (lastAt_stream hf h1 h2 hm) (not_hard o pages _)).1

/-- **C218** Nothing else exists. -/
theorem C218_absent {o : Opts} {pages : List Page} {tail : Bytes} (hf : File o pages tail) {rs : List FRow} (hi : index o (bytes pages ++ tail) = .ok rs)
    {ns : List Str} (hn : ∀ x ∈ ns, IsName x) (hne : ns ≠ []) (hv : ∀ x ∈ ns, endsWith dotVersions x = false)
    (hno : ∀ serial n, StreamName pages serial n → ∀ rest, at_ o n ≠ ns ++ rest) (m : ObjectMount.Mount) :
    mgetattr rs (src rs) (canonical ns) = .error (.os 2) ∧ mopen (opener (bytes pages ++ tail)) rs (src rs) m (canonical ns) = (m, .error (.os 2)) := by
  obtain ⟨r, h1, h2, h3, h4⟩ := streams hf
  rw [index_eq hf h1 (fun e he => (h4 e he).2.2)] at hi
  cases hi
  have hno' : ∀ e ∈ r, ∀ rest, at_ o (fileName e.1 e.2) ≠ ns ++ rest := fun e he => hno e.1 _ ((name_iff hf h1 (st := e.2) he _).mpr rfl)
  refine ObjectMount.absent (listed hf h1 h2 (fun e he => (h4 e he).2.1)) _ hn hne hv ?_ ?_ m
  · unfold lastAt
    have : (r.map (recOf o pages)).filter (fun p => decide (p.place = ns)) = [] := by
      rw [List.filter_eq_nil_iff]
      intro p hp hd
      obtain ⟨e, he, rfl⟩ := List.mem_map.mp hp
      have := hno' e he []
      rw [List.append_nil] at this
      exact this (of_decide_eq_true hd)
    rw [this]
    rfl
  · rintro ⟨p, hp, n, rest, hpl⟩
    obtain ⟨e, he, rfl⟩ := List.mem_map.mp hp
    exact hno' e he (n :: rest) hpl

/-- **C218** A folder lists exactly the names below it, and each once. -/
theorem C218_list {o : Opts} {pages : List Page} {tail : Bytes} (hf : File o pages tail) {rs : List FRow} (hi : index o (bytes pages ++ tail) = .ok rs)
    {ns : List Str} (hn : ∀ x ∈ ns, IsName x) (hv : ∀ x ∈ ns, endsWith dotVersions x = false) (n : Str) :
    (n ∈ mreaddir (src rs) (canonical ns) ↔ n = ['.'] ∨ n = ['.', '.'] ∨ ∃ serial name rest, StreamName pages serial name ∧ at_ o name = ns ++ n :: rest) ∧
      (mreaddir (src rs) (canonical ns)).Nodup := by
  obtain ⟨r, h1, h2, h3, h4⟩ := streams hf
  rw [index_eq hf h1 (fun e he => (h4 e he).2.2)] at hi
  cases hi
  have hL := listed hf h1 h2 (fun e he => (h4 e he).2.1)
  refine ⟨?_, IndexMount.once hL hn hv⟩
  unfold src
  rw [IndexMount.lists hL hn hv]
  constructor
  · rintro (h | h | ⟨p, hp, rest, hpl⟩)
    · exact .inl h
    · exact .inr (.inl h)
    · obtain ⟨e, he, rfl⟩ := List.mem_map.mp hp
      exact .inr (.inr ⟨e.1, _, rest, (name_iff hf h1 (st := e.2) he _).mpr rfl, hpl⟩)
  · rintro (h | h | ⟨serial, name, rest, hs, hpl⟩)
    · exact .inl h
    · exact .inr (.inl h)
    · obtain ⟨st, hm, rfl⟩ := entry hf h1 h3 hs
      exact .inr (.inr ⟨_, List.mem_map.mpr ⟨_, hm, rfl⟩, rest, hpl⟩)

theorem hex_chars (k n : Nat) : ∀ c ∈ hex k n, c ≠ '/' := by
  induction k generalizing n with
  | zero => intro c hc; cases hc
  | succ k ih =>
    intro c hc
    rcases List.mem_append.mp hc with hc | hc
    · exact ih _ c hc
    · rw [List.mem_singleton] at hc
      have : ∀ d < 16, hexDigit d ≠ '/' := by decide
      rw [hc]
      exact this _ (Nat.mod_lt _ (by decide))

theorem name_isName {pages : List Page} {serial : Nat} {n : Str} (h : StreamName pages serial n) : IsName n := by
  obtain ⟨p, digits, -, h2, h3⟩ := h
  have hd := hex_chars 8 serial
  rw [← isHex_hex h2] at hd
  have key : ∀ w x : Str, 3 ≤ w.length → '/' ∉ w → '/' ∉ x → IsName (w ++ '_' :: (digits ++ x)) := by
    intro w x hl hw hx
    refine ⟨by simp, ?_, ?_, ?_⟩
    · simp only [List.mem_append, List.mem_cons, not_or]
      exact ⟨hw, by decide, fun h => hd _ h rfl, hx⟩
    · intro he
      have := congrArg List.length he
      simp at this
      omega
    · intro he
      have := congrArg List.length he
      simp at this
      omega
  rcases h3 with ⟨b, hb, -, rfl⟩ | ⟨-, rfl⟩
  · have : ∀ b ∈ beginnings, 3 ≤ b.2.1.toList.length ∧ '/' ∉ b.2.1.toList ∧ '/' ∉ b.2.2.toList := by decide +kernel
    obtain ⟨k1, k2, k3⟩ := this b hb
    exact key _ _ k1 k2 k3
  · exact key "unknown".toList ".ogg".toList (by decide) (by decide) (by decide)

/-- **C218** Without `--transform`, the streams are in the root under their names, and well-formed files need nothing else. -/
theorem C218_default (mtime : Nat) (pages : List Page) (tail : Bytes) (hp : pages ≠ []) (hv : ∀ p ∈ pages, p.Valid) (hfl : Flagged [] pages) (ht : tail.length < 27) :
    File ⟨id, mtime⟩ pages tail ∧ ∀ serial n, StreamName pages serial n → at_ ⟨id, mtime⟩ n = [n] := by
  have hat : ∀ serial n, StreamName pages serial n → at_ ⟨id, mtime⟩ n = [n] := by
    intro serial n hs
    have hn := name_isName hs
    show walk [] (split '/' n) = [n]
    rw [split_of_not_mem _ _ hn.2.1]
    exact walk_names [n] [] (by simpa using hn)
  refine ⟨⟨hp, hv, hfl, ht, ?_⟩, hat⟩
  intro s s' n n' hne h h' rest he
  rw [hat _ _ h, hat _ _ h'] at he
  have hnn : n' = n := (List.cons.inj he).1
  subst hnn
  obtain ⟨p, d, hp, hd, hx⟩ := h
  obtain ⟨p', d', hp', hd', hx'⟩ := h'
  have key : ∀ w w' x x' : Str, '_' ∉ w → '_' ∉ w' → w ++ '_' :: (d ++ x) = w' ++ '_' :: (d' ++ x') → d = d' := by
    intro w w' x x' hw hw' he
    obtain ⟨-, h2⟩ := append_sep hw hw' he
    exact (List.append_inj h2 (by rw [isHex_hex hd, isHex_hex hd', length_hex, length_hex])).1
  have hw : ∀ b ∈ beginnings, '_' ∉ b.2.1.toList := by decide +kernel
  have hdd : d = d' := by
    rcases hx with ⟨b, hb, -, rfl⟩ | ⟨-, rfl⟩ <;> rcases hx' with ⟨b', hb', -, he'⟩ | ⟨-, he'⟩
    · exact key _ _ _ _ (hw b hb) (hw b' hb') he'
    · exact key _ "unknown".toList _ _ (hw b hb) (by decide) he'
    · exact key "unknown".toList _ _ _ (by decide) (hw b' hb') he'
    · exact key "unknown".toList "unknown".toList _ _ (by decide) (by decide) he'
  have hlt : ∀ q : Page, ∀ k, pages.find? (fun p : Page => p.serial = k) = some q → k < 16 ^ 8 := by
    intro q k hq
    have h1 := (hv q (List.mem_of_find?_eq_some hq)).2.1
    have h2 : q.serial = k := by simpa using List.find?_some hq
    omega
  rw [isHex_hex hd, isHex_hex hd'] at hdd
  exact hne (hex_inj 8 _ _ (hlt p s hp) (hlt p' s' hp') hdd)

/-- **C218** A file that does not begin with a page is refused. -/
theorem C218_refused (o : Opts) (file : Bytes) (h : ∀ rest, file ≠ 0x4F :: 0x67 :: 0x67 :: 0x53 :: 0 :: rest) : index o file = .error .valueError := by
  have : mightBeOgg file = false := by
    unfold mightBeOgg
    rw [beq_eq_false_iff_ne]
    intro he
    refine h (file.drop 5) ?_
    have h2 := (List.take_append_drop 5 file).symm
    rw [he] at h2
    exact h2
  unfold index
  rw [this, if_pos rfl]

/-- C218 as claimed: the size that is shown is the number of bytes that can be read, also if the end of the file is missing. -/
def C218_statement : Prop :=
  ∀ (pages : List Page) (k : Nat) (rs : List FRow), (∀ p ∈ pages, p.Valid) → Flagged [] pages → index ⟨id, 0⟩ ((bytes pages).take k) = .ok rs →
    ∀ r ∈ rs, ∀ data, opener ((bytes pages).take k) r = .ok data → r.size = data.length

/-- One stream with one page. -/
def onePage : List Page := [⟨6, 0, 7, 0, 0, [2], [1, 2]⟩]

/-- **C218 is violated by the code**: if the last page is cut off, its size is still that of its header. -/
theorem C218_violated : ¬ C218_statement := by
  intro h
  have hi : index ⟨id, 0⟩ ((bytes onePage).take 29) =
      .ok [⟨[], "unknown_00000007.ogg".toList, 0, 28, 30, 0, 0o100644, "[[0, 30]]".toList, 0, 0, false⟩] := by decide +kernel
  have ho : ∃ data, opener ((bytes onePage).take 29) ⟨[], "unknown_00000007.ogg".toList, 0, 28, 30, 0, 0o100644, "[[0, 30]]".toList, 0, 0, false⟩ = .ok data ∧
      data.length = 29 := ⟨(bytes onePage).take 29, by decide +kernel, by decide⟩
  obtain ⟨data, h1, h2⟩ := ho
  have := h onePage 29 _ (by unfold Page.Valid; decide +kernel) (by simp only [onePage, Flagged, Page.bos, Page.eos]; decide) hi _ List.mem_cons_self data h1
  rw [h2] at this
  exact absurd this (by decide)

/-! ### examples -/

theorem twoStreams_file : File ⟨id, 5⟩ twoStreams [1, 2] := by
  refine (C218_default 5 twoStreams [1, 2] (by decide) ?_ ?_ (by decide)).1
  · unfold Page.Valid
    decide +kernel
  · simp only [twoStreams, Flagged, Page.bos, Page.eos, List.nil_append, List.cons_append]
    decide

example : StreamName twoStreams 7 "audio_00000007.oga".toList :=
  ⟨_, "00000007".toList, rfl, ⟨[0, 0, 0, 0, 0, 0, 0, 7], by decide, rfl, by decide, by decide⟩,
    .inl ⟨("\x01vorbis", "audio", ".oga"), by decide, ⟨[], by decide⟩, by decide⟩⟩

example : dumps [(0, 58), (120, 7)] = "[[0, 58], [120, 7]]".toList ∧ loads " [ [0,58 ] ,[120, 7]]".toList = some [(0, 58), (120, 7)] ∧
    loads "[[1, 2]".toList = none := by decide +kernel

end Verif.Fuse.OggMount
