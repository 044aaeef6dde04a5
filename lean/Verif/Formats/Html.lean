import Verif.Py
import Verif.PyStr

/-!
# C136 to C139: files embedded in HTML (core/ratarmountcore/mountsource/formats/html.py:240-524)

Modelled: where the value of an attribute stands in the file, reading it again, decoding data URLs, and what becomes of the file
that is mounted. Not modelled: `html.parser` itself, which finds the tags (html.py:131-238); data URLs in style sheets
are candidates without an attribute. The file is UTF-8 without carriage returns.
-/

namespace Verif.Html

open Verif.Py

/-! ## Attributes -/

/-- `\s` (html.py:318-319). -/
def isSpace (c : Char) : Bool :=
  (9 ≤ c.toNat && c.toNat ≤ 13) || (0x1c ≤ c.toNat && c.toNat ≤ 0x20) || c.toNat == 0x85 || c.toNat == 0xa0 || c.toNat == 0x1680 ||
    (0x2000 ≤ c.toNat && c.toNat ≤ 0x200a) || c.toNat == 0x2028 || c.toNat == 0x2029 || c.toNat == 0x202f || c.toNat == 0x205f ||
    c.toNat == 0x3000

/-- `[A-Za-z]` (html.py:296). -/
def isLetter (c : Char) : Bool := (65 ≤ c.toNat && c.toNat ≤ 90) || (97 ≤ c.toNat && c.toNat ≤ 122)

/-- `[A-Za-z0-9.-]` (html.py:296, 317). -/
def isNameChar (c : Char) : Bool := isLetter c || (48 ≤ c.toNat && c.toNat ≤ 57) || c.toNat == 45 || c.toNat == 46

/-- Quotes (html.py:317, 341). -/
def isQuote (c : Char) : Bool := c == '\'' || c == '"'

/-- `HTML_NAME_PATTERN` at the beginning of a text: the name (html.py:296). -/
def matchName : Str → Option Str
  | [] => none
  | c :: s => if isLetter c then some (c :: s.takeWhile isNameChar) else none

/-- `HTML_ATTRIBUTE_VALUE_PATTERN` at the beginning of a text: the value with its quotes (html.py:317). -/
def matchValue : Str → Str
  | [] => []
  | c :: s =>
    if isQuote c && s.contains c then c :: s.takeWhile (fun x => x != c) ++ [c] else (c :: s).takeWhile isNameChar

/-- The part `(\s*=\s*value)?` of `HTML_ATTRIBUTE_PATTERN`: the place of the value, and the value (html.py:318). -/
def matchAssignment (s : Str) : Option (Nat × Str) :=
  match s.dropWhile isSpace with
  | '=' :: t => some ((s.takeWhile isSpace).length + 1 + (t.takeWhile isSpace).length, matchValue (t.dropWhile isSpace))
  | _ => none

/-- A match of `HTML_ATTRIBUTE_REGEX`: the name, place and text of the value, and the end (html.py:318-319). -/
structure Match where
  name : Str
  value : Option (Nat × Str)
  size : Nat
  deriving DecidableEq, Repr

/-- The match for a name that starts at some place (html.py:318-319). -/
def matchAt (start : Nat) (name rest : Str) : Match :=
  match matchAssignment rest with
  | none => ⟨name, none, start + name.length⟩
  | some (p, v) => ⟨name, some (start + name.length + p, v), start + name.length + p + v.length⟩

/-- `HTML_ATTRIBUTE_REGEX.match` (html.py:319, 337). -/
def matchAttribute (s : Str) : Option Match :=
  if s.takeWhile isSpace = [] then none
  else match matchName (s.dropWhile isSpace) with
    | none => none
    | some n => some (matchAt (s.takeWhile isSpace).length n ((s.dropWhile isSpace).drop n.length))

/-- What is returned for an attribute that was found (html.py:340-341). The span of a missing value is (-1, -1), and
`data[-1]` is the last character. -/
def spanOf (data : Str) (position : Nat) : Option (Nat × Str) → Except PyErr (Int × Int)
  | none => if (data.getLast?.map isQuote).getD false then .ok (0, -2) else .ok (-1, -1)
  | some (p, v) =>
    match data[position + p]? with
    | none => .error .indexError
    | some c => if isQuote c then .ok ((position : Int) + p + 1, (position : Int) + p + v.length - 1)
        else .ok ((position : Int) + p, (position : Int) + p + v.length)

/-- The loop over the attributes (html.py:337-343). The number bounds the steps; every step moves on. -/
def findFrom (data attr : Str) : Nat → Nat → Except PyErr (Int × Int)
  | 0, _ => .ok (0, 0)
  | k + 1, position =>
    match matchAttribute (data.drop position) with
    | none => .ok (0, 0)
    | some m => if m.name = attr then spanOf data position m.value else findFrom data attr k (position + m.size)

/-- `_find_tag_attribute_spans` (html.py:323-343). -/
def findSpan (data attr : Str) : Except PyErr (Int × Int) :=
  match data with
  | '<' :: s => match matchName s with
    | none => .ok (0, 0)
    | some n => findFrom data attr data.length (1 + n.length)
  | _ => .ok (0, 0)

/-! ## Places in the file -/

/-- The number of bytes of a character in UTF-8 (Python library, text files, used at html.py:396). -/
def charBytes (c : Char) : Nat := if c.toNat < 0x80 then 1 else if c.toNat < 0x800 then 2 else if c.toNat < 0x10000 then 3 else 4

/-- The number of bytes of a text in UTF-8 (Python library, text files, used at html.py:396). -/
def textBytes : Str → Nat
  | [] => 0
  | c :: s => charBytes c + textBytes s

/-- `fileobj.seek(offset)`: the text from there on (html.py:406, 415, 503). -/
def seekTo : Str → Nat → Str
  | [], _ => []
  | c :: s, b => if b = 0 then c :: s else seekTo s (b - charBytes c)

/-- `EmbeddedFileCandidate`, with places as numbers of characters (html.py:104-110, 371-372). -/
structure Candidate where
  start : Nat
  next : Option Nat
  attr : Str

/-- The byte offset of the end of a candidate (html.py:401). -/
def endOf (text : Str) (f : Candidate) : Nat := textBytes (text.take (f.next.getD text.length))

/-- The byte offset of the start of a candidate (html.py:400). -/
def startOf (text : Str) (f : Candidate) : Nat := textBytes (text.take f.start)

/-- The text in which the attribute is looked for (html.py:406-407). The number of bytes is used as a number of characters. -/
def tagText (text : Str) (f : Candidate) : Str := (seekTo text (startOf text f)).take (endOf text f - startOf text f)

/-- From a span in characters to one in bytes (html.py:415-421). -/
def byteSpan (text : Str) (f : Candidate) (a b : Nat) : Nat × Nat :=
  (startOf text f + textBytes ((seekTo text (startOf text f)).take a),
    startOf text f + textBytes ((seekTo text (startOf text f)).take b))

/-- The loop over the candidates, for one of them (html.py:399-421). -/
def fileSpan (text : Str) (f : Candidate) : Except PyErr (Option (Nat × Nat)) :=
  if f.attr = [] then .ok (some (startOf text f, endOf text f))
  else match findSpan (tagText text f) f.attr with
    | .error x => .error x
    | .ok (a, b) => if b ≤ a then .ok none else .ok (some (byteSpan text f a.toNat b.toNat))

/-- The text that is decoded as a data URL when a row is opened (html.py:498-509). -/
def openText (text : Str) (start stop : Nat) : Str := if stop ≤ start then [] else (seekTo text start).take (stop - start)

/-! ## Data URLs -/

/-- Libraries: `html.unescape` (html.py:258), decoding UTF-8 with replacement characters (in `urllib.parse.unquote`, html.py:258),
`encodings.search_function` (html.py:286), `str.encode` and `base64.b64decode` (html.py:290). -/
structure Lib where
  unescape : Str → Str
  decode : List UInt8 → Str
  codec : Str → Option Str
  encode : Str → Str → Option (List UInt8)
  b64decode : Str → Option (List UInt8)

/-- A hexadecimal digit (Python library, `urllib.parse.unquote`, used at html.py:258). -/
def hexValue (c : Char) : Option Nat :=
  if 48 ≤ c.toNat ∧ c.toNat ≤ 57 then some (c.toNat - 48)
  else if 65 ≤ c.toNat ∧ c.toNat ≤ 70 then some (c.toNat - 55)
  else if 97 ≤ c.toNat ∧ c.toNat ≤ 102 then some (c.toNat - 87) else none

/-- Percent-decoding of ASCII text (Python library, `urllib.parse.unquote_to_bytes`, used at html.py:258). -/
def unquoteBytes : Str → List UInt8
  | [] => []
  | '%' :: a :: b :: s => match hexValue a, hexValue b with
    | some x, some y => UInt8.ofNat (x * 16 + y) :: unquoteBytes s
    | _, _ => 37 :: unquoteBytes (a :: b :: s)
  | c :: s => UInt8.ofNat c.toNat :: unquoteBytes s

/-- The end of a run of ASCII characters (Python library, `urllib.parse.unquote`, used at html.py:258). -/
def flush (l : Lib) (run : Str) : Str := if run = [] then [] else l.decode (unquoteBytes run)

/-- Runs of ASCII characters are decoded, other characters stay (Python library, `urllib.parse.unquote`, used at html.py:258). -/
def unquoteRuns (l : Lib) : Str → Str → Str
  | run, [] => flush l run
  | run, c :: s => if c.toNat < 128 then unquoteRuns l (run ++ [c]) s else flush l run ++ c :: unquoteRuns l [] s

/-- `urllib.parse.unquote` (html.py:258). -/
def unquote (l : Lib) (s : Str) : Str := if s.contains '%' then unquoteRuns l [] s else s

/-- What `[^;,"']+/[^;,"']+` matches, among texts without those four characters (html.py:120). -/
def isMime (s : Str) : Bool := s.tail.dropLast.contains '/'

/-- `DATA_URL_REGEX.match` (html.py:120-123, 259): the media type, the parameters and what follows. As the media type and the
parameters contain neither commas nor quotes, the match ends at the first comma. -/
def parseUrl (s : Str) : Option (Str × List Str × Str) :=
  if startsWith "data:".toList s then
    if (s.drop 5).contains ',' && !((s.drop 5).takeWhile (fun c => c != ',')).any isQuote then
      match split ';' ((s.drop 5).takeWhile (fun c => c != ',')) with
      | [] => none
      | m :: ps => if m = [] ∨ isMime m = true then some (m, ps, (s.drop 5).drop (((s.drop 5).takeWhile (fun c => c != ',')).length + 1)) else none
    else none
  else none

/-- `str.strip` (html.py:272-286). -/
def strip (s : Str) : Str := ((s.dropWhile isSpace).reverse.dropWhile isSpace).reverse

/-- `value.strip()` of the parameter charset (html.py:284-287). -/
def charset (l : Lib) (encoding value : Str) : Str :=
  match l.codec value with
  | some n => n
  | none => if value = "us-ascii".toList then "ascii".toList else encoding

/-- One round of the loop over the parameters (html.py:271-287), for a parameter that is stripped and in lower case. -/
def parameterStep (l : Lib) (encoding p : Str) : Str :=
  if p = "utf-8".toList ∨ p = "utf8".toList then "utf8".toList
  else if p.contains '=' then
    if strip (p.takeWhile (fun c => c != '=')) = "charset".toList then charset l encoding (strip (p.drop ((p.takeWhile (fun c => c != '=')).length + 1)))
    else encoding
  else encoding

/-- The encoding (html.py:255, 267-287). -/
def encodingOf (l : Lib) (ps : List Str) : Str :=
  ps.foldl (fun e p => parameterStep l e ((strip p).map Char.toLower)) "ascii".toList

/-- `parameters.endswith(';base64')` (html.py:268). -/
def isBase64 (ps : List Str) : Bool := ps.getLast? == some "base64".toList

/-- The contents of a `DataURLFile` (html.py:249-291). -/
def contents (l : Lib) (url : Str) : Except PyErr (List UInt8) :=
  match parseUrl (unquote l (l.unescape url)) with
  | none => .ok []
  | some (_, ps, payload) =>
    match if isBase64 ps then l.b64decode payload else l.encode (encodingOf l ps) payload with
    | none => .error .valueError
    | some d => .ok d

/-! ## The mounted file -/

/-- What is mounted: a path, or a file object, which may be closed at the end of a `with` block (html.py:427). -/
inductive Mounted where
  | path
  | object (exitCloses : Bool)
  deriving DecidableEq

/-- Whether the file is closed after the check of the format (html.py:433-435). -/
def closedAfterCheck : Mounted → Bool
  | .path => false
  | .object c => c

/-- `HTMLMountSource.__init__` up to the text file (html.py:427-442). A closed file cannot be wrapped. -/
def openHtml (m : Mounted) (isHtml : Bool) : Except PyErr Unit :=
  if !isHtml then .error .valueError else if closedAfterCheck m then .error .valueError else .ok ()

/-! ## Specification -/

/-- The value of an attribute in a tag. -/
inductive Value where
  | bare
  | quoted (quote : Char) (text : Str)
  | token (text : Str)

/-- An attribute as it is written in a tag: spaces, a name, and a value, perhaps with spaces around the equals sign. -/
structure Attribute where
  before : Str
  name : Str
  eq1 : Str
  eq2 : Str
  value : Value

/-- A value with its quotes. -/
def Value.render : Value → Str
  | .bare => []
  | .quoted q v => q :: (v ++ [q])
  | .token v => v

/-- The equals sign and the value. -/
def Attribute.assignment (a : Attribute) : Str :=
  match a.value with
  | .bare => []
  | v => a.eq1 ++ '=' :: (a.eq2 ++ v.render)

/-- The text of an attribute. -/
def Attribute.render (a : Attribute) : Str := a.before ++ (a.name ++ a.assignment)

/-- The text of a tag up to its last attribute. -/
def renderTag (tag : Str) (attrs : List Attribute) : Str := '<' :: (tag ++ attrs.flatMap Attribute.render)

/-- White space of HTML. -/
def White (c : Char) : Prop := c = ' ' ∨ c = '\t' ∨ c = '\n' ∨ c = '\x0c'

/-- Quotes of HTML. -/
def Quote (c : Char) : Prop := c = '\'' ∨ c = '"'

/-- All characters are spaces. -/
def Spaces (s : Str) : Prop := ∀ c ∈ s, White c

/-- Characters of names in HTML 2.0: letters, digits, dots and hyphens. -/
def OldChar (c : Char) : Prop := c.isAlpha = true ∨ c.isDigit = true ∨ c = '.' ∨ c = '-'

/-- Names of HTML 2.0 start with a letter. -/
def OldName (n : Str) : Prop := ∃ c s, n = c :: s ∧ c.isAlpha = true ∧ ∀ x ∈ s, OldChar x

/-- What HTML allows as the name of an attribute. -/
def AnyName (n : Str) : Prop := n ≠ [] ∧ ∀ c ∈ n, ¬ White c ∧ ¬ Quote c ∧ c ≠ '>' ∧ c ≠ '/' ∧ c ≠ '='

/-- What may stand as a value. -/
def GoodValue (tokenChar : Char → Prop) : Value → Prop
  | .bare => True
  | .quoted q v => Quote q ∧ q ∉ v
  | .token v => v ≠ [] ∧ ∀ c ∈ v, tokenChar c

/-- Attributes of HTML 2.0. -/
structure OldAttribute (a : Attribute) : Prop where
  before : a.before ≠ [] ∧ Spaces a.before
  name : OldName a.name
  eq : Spaces a.eq1 ∧ Spaces a.eq2
  value : GoodValue OldChar a.value

/-- Attributes of HTML. -/
structure HtmlAttribute (a : Attribute) : Prop where
  before : a.before ≠ [] ∧ Spaces a.before
  name : AnyName a.name
  eq : Spaces a.eq1 ∧ Spaces a.eq2
  value : GoodValue (fun c => ¬ White c ∧ ¬ Quote c ∧ c ≠ '=' ∧ c ≠ '<' ∧ c ≠ '>' ∧ c ≠ '`') a.value

/-- The end of a tag. -/
def Closing (s : Str) : Prop := ∃ sp c t, s = sp ++ c :: t ∧ Spaces sp ∧ (c = '>' ∨ c = '/')

/-- Everything in a tag before the text of a quoted value. -/
def upTo (tag : Str) (pre : List Attribute) (x : Attribute) (q : Char) : Str :=
  renderTag tag pre ++ (x.before ++ (x.name ++ (x.eq1 ++ '=' :: (x.eq2 ++ [q]))))

/-- C136 as claimed: the value of an attribute is found. The parser gives names in lower case. -/
def C136_statement : Prop :=
  ∀ (tag : Str) (pre post : List Attribute) (x : Attribute) (q : Char) (v close : Str), OldName tag →
    (∀ a ∈ pre ++ x :: post, HtmlAttribute a) → Closing close →
    (∀ a ∈ pre, a.name.map Char.toLower ≠ x.name.map Char.toLower) → x.value = .quoted q v →
    findSpan (renderTag tag (pre ++ x :: post) ++ close) (x.name.map Char.toLower) =
      .ok ((upTo tag pre x q).length, (upTo tag pre x q).length + v.length)

/-- A file with a tag that is a candidate because of an attribute with a quoted value (html.py:146-174). -/
structure InTag (text : Str) (f : Candidate) (before tag : Str) (pre : List Attribute) (x : Attribute) (post : List Attribute)
    (q : Char) (v close : Str) : Prop where
  text : text = before ++ (renderTag tag (pre ++ x :: post) ++ close)
  start : f.start = before.length
  next : ∀ n, f.next = some n → before.length + (renderTag tag (pre ++ x :: post)).length ≤ n
  attr : f.attr = x.name
  tag : OldName tag
  attrs : ∀ a ∈ pre ++ x :: post, OldAttribute a
  close : Closing close
  first : ∀ a ∈ pre, a.name ≠ x.name
  value : x.value = .quoted q v
  nonempty : v ≠ []

/-- C137 as claimed: opening the embedded file decodes the value of the attribute. -/
def C137_statement : Prop :=
  ∀ text f before tag pre x post q v close, InTag text f before tag pre x post q v close →
    ∃ a b, fileSpan text f = .ok (some (a, b)) ∧ openText text a b = v

/-! ## Attributes -/

theorem white_space {c : Char} (h : White c) : isSpace c = true := by rcases h with rfl | rfl | rfl | rfl <;> decide

theorem quote_is {c : Char} (h : Quote c) : isQuote c = true := by rcases h with rfl | rfl <;> decide

theorem alpha_letter {c : Char} (h : c.isAlpha = true) : isLetter c = true := by
  simp only [Char.isAlpha, Char.isUpper, Char.isLower, Bool.or_eq_true, Bool.and_eq_true, decide_eq_true_eq, UInt32.le_iff_toNat_le] at h
  simp only [isLetter, Bool.or_eq_true, Bool.and_eq_true, decide_eq_true_eq, Char.toNat]
  simpa using h

theorem old_char {c : Char} (h : OldChar c) : isNameChar c = true := by
  rcases h with h | h | rfl | rfl
  · simp [isNameChar, alpha_letter h]
  · have : 48 ≤ c.toNat ∧ c.toNat ≤ 57 := by
      simp only [Char.isDigit, Bool.and_eq_true, decide_eq_true_eq, UInt32.le_iff_toNat_le] at h
      exact ⟨h.1, h.2⟩
    simp [isNameChar, this]
  · decide
  · decide

theorem letter_range {c : Char} (h : isLetter c = true) : 65 ≤ c.toNat ∧ c.toNat ≤ 122 := by
  simp only [isLetter, Bool.or_eq_true, Bool.and_eq_true, decide_eq_true_eq] at h
  omega

theorem name_range {c : Char} (h : isNameChar c = true) : 45 ≤ c.toNat ∧ c.toNat ≤ 122 ∧ c.toNat ≠ 47 ∧ c.toNat ≠ 61 ∧ c.toNat ≠ 62 := by
  simp only [isNameChar, isLetter, Bool.or_eq_true, Bool.and_eq_true, decide_eq_true_eq, beq_iff_eq] at h
  omega

theorem space_range {c : Char} (h : isSpace c = true) : c.toNat ≤ 32 ∨ 133 ≤ c.toNat := by
  simp only [isSpace, Bool.or_eq_true, Bool.and_eq_true, decide_eq_true_eq, beq_iff_eq] at h
  omega

theorem name_not_space {c : Char} (h : isNameChar c = true) : isSpace c = false := by
  rw [← Bool.not_eq_true]
  intro hs
  have := space_range hs
  have := name_range h
  omega

theorem space_not_name {c : Char} (h : isSpace c = true) : isNameChar c = false := by
  rw [← Bool.not_eq_true]
  intro hs
  rw [name_not_space hs] at h
  cases h

theorem letter_not_space {c : Char} (h : isLetter c = true) : isSpace c = false := by
  rw [← Bool.not_eq_true]
  intro hs
  have := space_range hs
  have := letter_range h
  omega

theorem takeWhile_stop {α : Type} {p : α → Bool} {a b : List α} (h : ∀ c ∈ a, p c = true) (hb : ∀ c, b.head? = some c → p c = false) :
    (a ++ b).takeWhile p = a ∧ (a ++ b).dropWhile p = b := by
  induction a with
  | nil =>
    cases b with
    | nil => exact ⟨rfl, rfl⟩
    | cons c b =>
      have := hb c rfl
      exact ⟨by simp [this], by simp [this]⟩
  | cons c a ih =>
    have h1 := h c (by simp)
    obtain ⟨h2, h3⟩ := ih (fun x hx => h x (by simp [hx]))
    exact ⟨by simp [h1, h2], by simp [h1, h3]⟩

/-- What may follow an attribute. -/
def Follow (s : Str) : Prop := (∀ c, s.head? = some c → isNameChar c = false) ∧ ∀ c, (s.dropWhile isSpace).head? = some c → c ≠ '='

theorem matchName_name {n s : Str} (h : OldName n) (hs : ∀ c, s.head? = some c → isNameChar c = false) : matchName (n ++ s) = some n := by
  obtain ⟨c, t, rfl, hc, ht⟩ := h
  rw [List.cons_append, matchName, if_pos (alpha_letter hc), (takeWhile_stop (fun x hx => old_char (ht x hx)) hs).1]

theorem matchValue_quoted {q : Char} {v s : Str} (hq : isQuote q = true) (hv : q ∉ v) : matchValue (q :: (v ++ q :: s)) = q :: (v ++ [q]) := by
  rw [matchValue, if_pos (by simp [hq])]
  have := (takeWhile_stop (p := fun x => x != q) (a := v) (b := q :: s) (by
    intro c hc
    simp only [bne_iff_ne]
    rintro rfl
    exact hv hc) (by
    intro c hc
    simp only [List.head?_cons, Option.some.injEq] at hc
    simp [hc])).1
  rw [this]
  rfl

theorem matchValue_token {v s : Str} (hv : v ≠ []) (h : ∀ c ∈ v, OldChar c) (hs : ∀ c, s.head? = some c → isNameChar c = false) :
    matchValue (v ++ s) = v := by
  cases v with
  | nil => exact absurd rfl hv
  | cons c v =>
    have h : ∀ x ∈ c :: v, isNameChar x = true := fun x hx => old_char (h x hx)
    have hc := h c (by simp)
    have hq : isQuote c = false := by
      rw [← Bool.not_eq_true]
      intro hq
      simp only [isQuote, Bool.or_eq_true, beq_iff_eq] at hq
      rcases hq with rfl | rfl <;> exact absurd hc (by decide)
    rw [List.cons_append, matchValue, hq, Bool.false_and, if_neg (by simp), ← List.cons_append, (takeWhile_stop h hs).1]

theorem oldName_head {n : Str} (h : OldName n) : ∃ c s, n = c :: s ∧ isLetter c = true := by
  obtain ⟨c, s, h1, h2, -⟩ := h
  exact ⟨c, s, h1, alpha_letter h2⟩

/-- The place of a value within an attribute. -/
def valueAt (a : Attribute) : Option (Nat × Str) :=
  match a.value with
  | .bare => none
  | v => some (a.before.length + a.name.length + (a.eq1.length + 1 + a.eq2.length), v.render)

theorem assignment_head {a : Attribute} (h : OldAttribute a) {s : Str} (hs : Follow s) :
    ∀ c, (a.assignment ++ s).head? = some c → isNameChar c = false := by
  have key : ∀ t : Str, ∀ c, (a.eq1 ++ '=' :: t).head? = some c → isNameChar c = false := by
    intro t c hc
    cases he : a.eq1 with
    | nil => rw [he] at hc; cases hc; decide
    | cons d e =>
      rw [he] at hc
      cases hc
      exact space_not_name (white_space (h.eq.1 _ (by rw [he]; simp)))
  intro c hc
  unfold Attribute.assignment at hc
  split at hc
  · exact hs.1 c hc
  · rw [List.append_assoc, List.cons_append] at hc
    exact key _ c hc

theorem value_head {v : Value} {s : Str} (hv : GoodValue OldChar v) (hb : v ≠ .bare) :
    ∀ c, (v.render ++ s).head? = some c → isSpace c = false := by
  intro c hc
  cases v with
  | bare => exact absurd rfl hb
  | quoted q v =>
    cases hc
    rcases hv.1 with rfl | rfl <;> decide
  | token v =>
    cases v with
    | nil => exact absurd rfl hv.1
    | cons d v =>
      cases hc
      exact name_not_space (old_char (hv.2 _ (by simp)))

theorem matchAssignment_eq {a : Attribute} (h : OldAttribute a) (hb : a.value ≠ .bare) {s : Str} (hs : Follow s) :
    matchAssignment (a.eq1 ++ '=' :: (a.eq2 ++ (a.value.render ++ s))) = some (a.eq1.length + 1 + a.eq2.length, a.value.render) := by
  have h1 := takeWhile_stop (p := isSpace) (a := a.eq1) (b := '=' :: (a.eq2 ++ (a.value.render ++ s))) (fun x hx => white_space (h.eq.1 x hx)) (by
    intro c hc; cases hc; decide)
  have h2 := takeWhile_stop (p := isSpace) (a := a.eq2) (b := a.value.render ++ s) (fun x hx => white_space (h.eq.2 x hx)) (value_head h.value hb)
  unfold matchAssignment
  rw [h1.2, h1.1]
  simp only
  rw [h2.1, h2.2]
  have h3 : matchValue (a.value.render ++ s) = a.value.render := by
    have hv := h.value
    cases hval : a.value with
    | bare => exact absurd hval hb
    | quoted q v =>
      rw [hval] at hv
      have := matchValue_quoted (s := s) (quote_is hv.1) hv.2
      simpa [Value.render] using this
    | token v =>
      rw [hval] at hv
      exact matchValue_token hv.1 hv.2 hs.1
  rw [h3]

theorem matchAttribute_render {a : Attribute} (h : OldAttribute a) {s : Str} (hs : Follow s) :
    matchAttribute (a.render ++ s) = some ⟨a.name, valueAt a, a.render.length⟩ := by
  have hn := h.name
  obtain ⟨c, n, hc, hl⟩ := oldName_head h.name
  have h1 := takeWhile_stop (p := isSpace) (a := a.before) (b := a.name ++ (a.assignment ++ s)) (fun x hx => white_space (h.before.2 x hx)) (by
    intro d hd
    rw [hc] at hd
    cases hd
    exact letter_not_space hl)
  have hr : a.render ++ s = a.before ++ (a.name ++ (a.assignment ++ s)) := by simp [Attribute.render]
  unfold matchAttribute
  rw [hr, h1.1, h1.2, if_neg h.before.1, matchName_name hn (assignment_head h hs)]
  simp only [List.drop_left', Option.some.injEq]
  unfold matchAt
  by_cases hb : a.value = .bare
  · have ha : a.assignment = [] := by unfold Attribute.assignment; rw [hb]
    have hm : matchAssignment s = none := by
      unfold matchAssignment
      split
      · next t ht => exact absurd rfl (hs.2 '=' (by rw [ht]; rfl))
      · rfl
    rw [ha, List.nil_append, hm]
    simp only [valueAt, hb, Attribute.render, ha, List.append_nil, List.length_append]
  · have ha : a.assignment = a.eq1 ++ '=' :: (a.eq2 ++ a.value.render) := by
      unfold Attribute.assignment
      split
      · next hv => exact absurd hv hb
      · rfl
    have hv : valueAt a = some (a.before.length + a.name.length + (a.eq1.length + 1 + a.eq2.length), a.value.render) := by
      unfold valueAt
      split
      · next hv => exact absurd hv hb
      · rfl
    have hm := matchAssignment_eq h hb hs
    have ha' : a.assignment ++ s = a.eq1 ++ '=' :: (a.eq2 ++ (a.value.render ++ s)) := by rw [ha]; simp
    rw [ha', hm]
    simp only [hv, Attribute.render, ha, Match.mk.injEq, true_and, List.length_append, List.length_cons]
    omega

theorem closing_follow {s p : Str} (h : Closing s) (hp : p <+: s) : Follow p := by
  obtain ⟨sp, c, t, rfl, hsp, hc⟩ := h
  have hc1 : isNameChar c = false ∧ isSpace c = false ∧ c ≠ '=' := by rcases hc with rfl | rfl <;> decide
  obtain ⟨r, hr⟩ := hp
  have hhead : ∀ x, p.head? = some x → x = c ∨ isSpace x = true := by
    intro x hx
    cases p with
    | nil => cases hx
    | cons y p =>
      cases hx
      cases sp with
      | nil => rw [List.nil_append, List.cons_append, List.cons.injEq] at hr; exact .inl hr.1
      | cons z sp =>
        rw [List.cons_append, List.cons_append, List.cons.injEq] at hr
        exact .inr (white_space (hsp _ (by rw [hr.1]; simp)))
  refine ⟨fun x hx => ?_, fun x hx => ?_⟩
  · rcases hhead x hx with rfl | hx
    · exact hc1.1
    · exact space_not_name hx
  · clear hhead
    induction sp generalizing p with
    | nil =>
      cases p with
      | nil => cases hx
      | cons y p =>
        rw [List.nil_append, List.cons_append, List.cons.injEq] at hr
        rw [List.dropWhile_cons, hr.1, hc1.2.1] at hx
        cases hx
        exact hc1.2.2
    | cons z sp ih =>
      cases p with
      | nil => cases hx
      | cons y p =>
        rw [List.cons_append, List.cons_append, List.cons.injEq] at hr
        rw [List.dropWhile_cons, hr.1, if_pos (white_space (hsp z (by simp)))] at hx
        exact ih (fun c hc => hsp c (by simp [hc])) hr.2 hx

theorem render_follow {a : Attribute} (h : OldAttribute a) (s : Str) : Follow (a.render ++ s) := by
  obtain ⟨c, n, hc, hl⟩ := oldName_head h.name
  have hr : a.render ++ s = a.before ++ (a.name ++ (a.assignment ++ s)) := by simp [Attribute.render]
  have h1 := takeWhile_stop (p := isSpace) (a := a.before) (b := a.name ++ (a.assignment ++ s)) (fun x hx => white_space (h.before.2 x hx)) (by
    intro d hd
    rw [hc] at hd
    cases hd
    exact letter_not_space hl)
  rw [hr]
  refine ⟨fun x hx => ?_, fun x hx => ?_⟩
  · cases hb : a.before with
    | nil => exact absurd hb h.before.1
    | cons d b =>
      rw [hb] at hx
      cases hx
      exact space_not_name (white_space (h.before.2 _ (by rw [hb]; simp)))
  · rw [h1.2, hc] at hx
    cases hx
    rintro rfl
    exact absurd hl (by decide)

theorem attrs_follow {l : List Attribute} (h : ∀ a ∈ l, OldAttribute a) {s : Str} (hs : Follow s) : Follow (l.flatMap Attribute.render ++ s) := by
  cases l with
  | nil => exact hs
  | cons a l =>
    rw [List.flatMap_cons, List.append_assoc]
    exact render_follow (h a (by simp)) _

theorem render_pos {a : Attribute} (h : OldAttribute a) : 0 < a.render.length := by
  have := List.length_pos_iff.mpr h.before.1
  unfold Attribute.render
  rw [List.length_append]
  omega

theorem findFrom_attrs {attr : Str} {x : Attribute} {q : Char} {v : Str} {post : List Attribute} {s : Str} (hx : OldAttribute x)
    (hpost : ∀ a ∈ post, OldAttribute a) (hs : Follow s) (hname : x.name = attr) (hval : x.value = .quoted q v) :
    ∀ (pre : List Attribute) (L : Str) (k : Nat), (∀ a ∈ pre, OldAttribute a ∧ a.name ≠ attr) → pre.length < k →
      findFrom (L ++ ((pre ++ x :: post).flatMap Attribute.render ++ s)) attr k L.length =
        .ok (((L ++ pre.flatMap Attribute.render ++ (x.before ++ (x.name ++ (x.eq1 ++ '=' :: (x.eq2 ++ [q]))))).length : Int),
          ((L ++ pre.flatMap Attribute.render ++ (x.before ++ (x.name ++ (x.eq1 ++ '=' :: (x.eq2 ++ [q]))))).length : Int) + v.length) := by
  subst hname
  intro pre
  induction pre with
  | nil =>
    intro L k _ hk
    obtain ⟨k, rfl⟩ : ∃ j, k = j + 1 := ⟨k - 1, by simp at hk; omega⟩
    have hq : isQuote q = true := by
      have := hx.value
      rw [hval] at this
      exact quote_is this.1
    have ha : x.assignment = x.eq1 ++ '=' :: (x.eq2 ++ (q :: (v ++ [q]))) := by
      unfold Attribute.assignment
      rw [hval]
      rfl
    have hv : valueAt x = some (x.before.length + x.name.length + (x.eq1.length + 1 + x.eq2.length), q :: (v ++ [q])) := by
      unfold valueAt
      rw [hval]
      rfl
    have hd : L ++ (([] ++ x :: post).flatMap Attribute.render ++ s) =
        (L ++ (x.before ++ (x.name ++ (x.eq1 ++ '=' :: x.eq2)))) ++ q :: (v ++ q :: (post.flatMap Attribute.render ++ s)) := by
      simp [Attribute.render, ha]
    have hm : matchAttribute ((L ++ (([] ++ x :: post).flatMap Attribute.render ++ s)).drop L.length) = some ⟨x.name, valueAt x, x.render.length⟩ := by
      rw [List.drop_left' rfl, List.nil_append, List.flatMap_cons, List.append_assoc]
      exact matchAttribute_render hx (attrs_follow hpost hs)
    rw [findFrom, hm]
    simp only [if_true]
    rw [hv, hd]
    unfold spanOf
    have hi : L.length + (x.before.length + x.name.length + (x.eq1.length + 1 + x.eq2.length)) =
        (L ++ (x.before ++ (x.name ++ (x.eq1 ++ '=' :: x.eq2)))).length := by
      simp only [List.length_append, List.length_cons]; omega
    simp only
    rw [hi, List.getElem?_append_right (Nat.le_refl _), Nat.sub_self, List.getElem?_cons_zero]
    simp only [hq, if_true, Except.ok.injEq, Prod.mk.injEq, List.flatMap_nil, List.append_nil, List.length_append, List.length_cons, List.length_nil]
    omega
  | cons a pre ih =>
    intro L k hpre hk
    obtain ⟨k, rfl⟩ : ∃ j, k = j + 1 := ⟨k - 1, by simp at hk; omega⟩
    obtain ⟨ha, hne⟩ := hpre a (by simp)
    have hm : matchAttribute ((L ++ ((a :: pre ++ x :: post).flatMap Attribute.render ++ s)).drop L.length) = some ⟨a.name, valueAt a, a.render.length⟩ := by
      rw [List.drop_left' rfl, List.cons_append, List.flatMap_cons, List.append_assoc]
      refine matchAttribute_render ha (attrs_follow (fun b hb => ?_) hs)
      rcases List.mem_append.mp hb with hb | hb
      · exact (hpre b (by simp [hb])).1
      · rcases List.mem_cons.mp hb with rfl | hb
        · exact hx
        · exact hpost b hb
    rw [findFrom, hm]
    simp only [hne, if_false]
    have hL : L.length + a.render.length = (L ++ a.render).length := by rw [List.length_append]
    have hd : L ++ ((a :: pre ++ x :: post).flatMap Attribute.render ++ s) = (L ++ a.render) ++ ((pre ++ x :: post).flatMap Attribute.render ++ s) := by
      simp
    rw [hL, hd, ih (L ++ a.render) k (fun b hb => hpre b (by simp [hb])) (by simp at hk; omega)]
    simp

theorem count_le {l : List Attribute} (h : ∀ a ∈ l, OldAttribute a) : l.length ≤ (l.flatMap Attribute.render).length := by
  induction l with
  | nil => simp
  | cons a l ih =>
    have h1 := render_pos (h a (by simp))
    have h2 := ih (fun b hb => h b (by simp [hb]))
    rw [List.flatMap_cons, List.length_append, List.length_cons]
    omega

theorem findSpan_old {tag : Str} {pre post : List Attribute} {x : Attribute} {q : Char} {v s : Str} (ht : OldName tag)
    (hattrs : ∀ a ∈ pre ++ x :: post, OldAttribute a) (hs : Follow s) (hfirst : ∀ a ∈ pre, a.name ≠ x.name) (hval : x.value = .quoted q v) :
    findSpan (renderTag tag (pre ++ x :: post) ++ s) x.name = .ok ((upTo tag pre x q).length, (upTo tag pre x q).length + v.length) := by
  have hf := attrs_follow hattrs hs
  have hd : renderTag tag (pre ++ x :: post) ++ s = '<' :: (tag ++ ((pre ++ x :: post).flatMap Attribute.render ++ s)) := by
    simp [renderTag]
  unfold findSpan
  rw [hd]
  simp only
  rw [matchName_name ht hf.1]
  simp only
  have hlen : 1 + tag.length = ('<' :: tag).length := by rw [List.length_cons]; omega
  have hd' : '<' :: (tag ++ ((pre ++ x :: post).flatMap Attribute.render ++ s)) = ('<' :: tag) ++ ((pre ++ x :: post).flatMap Attribute.render ++ s) := by
    simp
  have hc := count_le hattrs
  rw [hlen, hd', findFrom_attrs (hattrs x (by simp)) (fun a ha => hattrs a (by simp [ha])) hs rfl hval pre ('<' :: tag) _
    (fun a ha => ⟨hattrs a (by simp [ha]), hfirst a ha⟩) (by
      simp only [List.length_append, List.length_cons] at hc ⊢
      omega)]
  simp [upTo, renderTag]

/-- C136 for tags with names and values of HTML 2.0, and names in lower case as the parser gives them: the span is that of the value of
the first attribute with the name. What is missing: names in upper case are not found, and neither are attributes that follow a name or
an unquoted value with other characters. -/
theorem C136_partial (tag : Str) (pre post : List Attribute) (x : Attribute) (q : Char) (v close : Str) (ht : OldName tag)
    (ha : ∀ a ∈ pre ++ x :: post, OldAttribute a) (hc : Closing close) (hf : ∀ a ∈ pre, a.name ≠ x.name)
    (hv : x.value = .quoted q v) :
    findSpan (renderTag tag (pre ++ x :: post) ++ close) x.name =
      .ok ((upTo tag pre x q).length, (upTo tag pre x q).length + v.length) ∧
    ∃ rest, renderTag tag (pre ++ x :: post) = upTo tag pre x q ++ (v ++ q :: rest) := by
  refine ⟨findSpan_old ht ha (closing_follow hc (List.prefix_refl _)) hf hv, post.flatMap Attribute.render, ?_⟩
  have : x.assignment = x.eq1 ++ '=' :: (x.eq2 ++ (q :: (v ++ [q]))) := by
    unfold Attribute.assignment
    rw [hv]
    rfl
  simp [renderTag, upTo, Attribute.render, this]

/-- A tag `<img SRC="data:,x">`. -/
def upper : Attribute := ⟨[' '], "SRC".toList, [], [], .quoted '"' "data:,x".toList⟩

/-- C136 is violated: attributes in upper case are not found. -/
theorem C136_violated : ¬ C136_statement := by
  intro h
  have := h "img".toList [] [] upper '"' "data:,x".toList ">".toList ⟨'i', "mg".toList, rfl, by decide, by unfold OldChar; decide⟩ (by
    intro a ha
    simp only [List.nil_append, List.mem_singleton] at ha
    subst ha
    exact ⟨⟨by decide, by unfold Spaces White; decide⟩, ⟨by decide, by unfold White Quote; decide⟩, ⟨by unfold Spaces White; decide, by unfold Spaces White; decide⟩, by unfold Quote; decide, by decide⟩)
    ⟨[], '>', [], rfl, by simp [Spaces], .inl rfl⟩ (by simp) rfl
  exact absurd this (by decide +kernel)

/-- C136 is violated in other ways: after `my_x="1"` or `width=100%` no attribute is found. -/
theorem C136_other_violated :
    findSpan "<img my_x=\"1\" src=\"data:,x\">".toList "src".toList = .ok (0, 0) ∧
    findSpan "<img width=100% src=\"data:,x\">".toList "src".toList = .ok (0, 0) ∧
    findSpan "<img width=\"100%\" src=\"data:,x\">".toList "src".toList = .ok (23, 30) := by decide +kernel

/-! ## Reading the value again -/

theorem charBytes_pos (c : Char) : 0 < charBytes c := by
  unfold charBytes
  split
  · omega
  · split
    · omega
    · split <;> omega

theorem textBytes_append (a b : Str) : textBytes (a ++ b) = textBytes a + textBytes b := by
  induction a with
  | nil => simp [textBytes]
  | cons c a ih =>
    rw [List.cons_append, textBytes, textBytes, ih]
    omega

theorem length_le_bytes (s : Str) : s.length ≤ textBytes s := by
  induction s with
  | nil => simp [textBytes]
  | cons c s ih =>
    have := charBytes_pos c
    rw [textBytes, List.length_cons]
    omega

theorem seekTo_append (a b : Str) : seekTo (a ++ b) (textBytes a) = b := by
  induction a with
  | nil => cases b <;> simp [seekTo, textBytes]
  | cons c a ih =>
    have := charBytes_pos c
    rw [List.cons_append, seekTo, textBytes, if_neg (by omega), Nat.add_sub_cancel_left, ih]

theorem ascii_bytes {s : Str} (h : ∀ c ∈ s, c.toNat < 128) : textBytes s = s.length := by
  induction s with
  | nil => rfl
  | cons c s ih =>
    have h1 : charBytes c = 1 := by
      unfold charBytes
      rw [if_pos (h c (by simp))]
    rw [textBytes, h1, ih (fun x hx => h x (by simp [hx])), List.length_cons]
    omega

theorem take_prefix_append {α : Type} (a b : List α) {n : Nat} (h : a.length ≤ n) : ∃ p, p <+: b ∧ (a ++ b).take n = a ++ p := by
  refine ⟨b.take (n - a.length), List.take_prefix _ _, ?_⟩
  rw [List.take_append, List.take_of_length_le h]

theorem prefix_of_take {α : Type} (l : List α) (n m : Nat) : l.take n <+: l.take (max n m) := by
  rw [List.prefix_take_iff]
  exact ⟨List.take_prefix _ _, by simp; omega⟩

/-- The span that is stored for the value of an attribute: its place in bytes. -/
theorem span_tag (text : Str) (f : Candidate) (before tag : Str) (pre : List Attribute) (x : Attribute) (post : List Attribute) (q : Char)
    (v close : Str) (h : InTag text f before tag pre x post q v close) :
    ∃ rest, text = before ++ (upTo tag pre x q ++ (v ++ q :: rest)) ∧
      fileSpan text f = .ok (some (textBytes (before ++ upTo tag pre x q), textBytes (before ++ upTo tag pre x q) + textBytes v)) := by
  obtain ⟨rest, hrest⟩ := (C136_partial tag pre post x q v close h.tag h.attrs h.close h.first h.value).2
  have htext : text = before ++ (upTo tag pre x q ++ (v ++ q :: (rest ++ close))) := by
    rw [h.text, hrest]
    simp
  have hstart : startOf text f = textBytes before := by
    unfold startOf
    rw [h.start, h.text, List.take_left' rfl]
  have hseek : seekTo text (startOf text f) = renderTag tag (pre ++ x :: post) ++ close := by
    rw [hstart, h.text, seekTo_append]
  have hend : (renderTag tag (pre ++ x :: post)).length ≤ endOf text f - startOf text f := by
    have hn : before.length + (renderTag tag (pre ++ x :: post)).length ≤ f.next.getD text.length := by
      cases hf : f.next with
      | none =>
        rw [Option.getD_none, h.text]
        simp only [List.length_append]
        omega
      | some n => exact h.next n hf
    have h1 : text.take (f.next.getD text.length) =
        before ++ (renderTag tag (pre ++ x :: post) ++ close).take (f.next.getD text.length - before.length) := by
      generalize f.next.getD text.length = n at hn
      rw [h.text, List.take_append, List.take_of_length_le (by omega)]
    have h2 := length_le_bytes ((renderTag tag (pre ++ x :: post) ++ close).take (f.next.getD text.length - before.length))
    unfold endOf
    rw [hstart, h1, textBytes_append, Nat.add_sub_cancel_left]
    simp only [List.length_take, List.length_append] at h2
    omega
  obtain ⟨p, hp, htag⟩ := take_prefix_append (renderTag tag (pre ++ x :: post)) close hend
  have hfind := findSpan_old h.tag h.attrs (closing_follow h.close hp) h.first h.value
  have hne : f.attr ≠ [] := by
    rw [h.attr]
    obtain ⟨c, s, hc, -⟩ := (h.attrs x (by simp)).name
    rw [hc]
    simp
  have hv : 0 < v.length := List.length_pos_iff.mpr h.nonempty
  have hrow : fileSpan text f = .ok (some (byteSpan text f (upTo tag pre x q).length ((upTo tag pre x q).length + v.length))) := by
    unfold fileSpan
    rw [if_neg hne, tagText, hseek, htag, h.attr, hfind]
    simp only
    rw [if_neg (by omega)]
    rfl
  have hb : byteSpan text f (upTo tag pre x q).length ((upTo tag pre x q).length + v.length) =
      (textBytes (before ++ upTo tag pre x q), textBytes (before ++ upTo tag pre x q) + textBytes v) := by
    have hs : seekTo text (startOf text f) = upTo tag pre x q ++ (v ++ q :: (rest ++ close)) := by
      rw [hstart, htext, seekTo_append]
    have hs' : upTo tag pre x q ++ (v ++ q :: (rest ++ close)) = (upTo tag pre x q ++ v) ++ q :: (rest ++ close) := by simp
    unfold byteSpan
    rw [hs, List.take_left' rfl, hs', List.take_left' (List.length_append), hstart]
    simp only [textBytes_append, Nat.add_assoc]
  exact ⟨rest ++ close, htext, by rw [hrow, hb]⟩

/-- C137: what is read when the embedded file is opened: the value, and as many characters more as the value has bytes beyond the
number of its characters. -/
theorem C137_read (text : Str) (f : Candidate) (before tag : Str) (pre : List Attribute) (x : Attribute) (post : List Attribute) (q : Char)
    (v close : Str) (h : InTag text f before tag pre x post q v close) :
    ∃ a b rest, fileSpan text f = .ok (some (a, b)) ∧ text = before ++ (upTo tag pre x q ++ (v ++ q :: rest)) ∧
      openText text a b = v ++ (q :: rest).take (textBytes v - v.length) := by
  obtain ⟨rest, htext, hspan⟩ := span_tag text f before tag pre x post q v close h
  have hv : 0 < v.length := List.length_pos_iff.mpr h.nonempty
  refine ⟨_, _, rest, hspan, htext, ?_⟩
  have hpos := length_le_bytes v
  unfold openText
  rw [if_neg (by omega), Nat.add_sub_cancel_left]
  have : text = (before ++ upTo tag pre x q) ++ (v ++ q :: rest) := by rw [htext]; simp
  rw [this, seekTo_append, List.take_append, List.take_of_length_le hpos]

/-- C137 for values in ASCII; the text around them is arbitrary. What is missing: for other values the data that follow in the file
are read too. -/
theorem C137_partial (text : Str) (f : Candidate) (before tag : Str) (pre : List Attribute) (x : Attribute) (post : List Attribute) (q : Char)
    (v close : Str) (h : InTag text f before tag pre x post q v close) (hv : ∀ c ∈ v, c.toNat < 128) :
    ∃ a b, fileSpan text f = .ok (some (a, b)) ∧ openText text a b = v := by
  obtain ⟨a, b, rest, h1, -, h3⟩ := C137_read text f before tag pre x post q v close h
  refine ⟨a, b, h1, ?_⟩
  rw [h3, ascii_bytes hv, Nat.sub_self, List.take_zero, List.append_nil]

/-- A link with one letter that takes two bytes. -/
def umlaut : Attribute := ⟨[' '], "href".toList, [], [], .quoted '"' "data:,ü".toList⟩

/-- The hypotheses of C137 can be met. -/
theorem umlaut_inTag : InTag "ä<a href=\"data:,ü\">".toList ⟨1, none, "href".toList⟩ "ä".toList "a".toList [] umlaut [] '"'
    "data:,ü".toList ">".toList where
  text := by decide
  start := rfl
  next := by simp
  attr := rfl
  tag := ⟨'a', [], rfl, by decide, by simp⟩
  attrs := by
    intro a ha
    simp only [List.nil_append, List.mem_singleton] at ha
    subst ha
    exact ⟨⟨by decide, by unfold Spaces White; decide⟩, ⟨'h', "ref".toList, rfl, by decide, by unfold OldChar; decide⟩,
      ⟨by unfold Spaces White; decide, by unfold Spaces White; decide⟩, by unfold Quote; decide, by decide⟩
  close := ⟨[], '>', [], rfl, by simp [Spaces], .inl rfl⟩
  first := by simp
  value := rfl
  nonempty := by decide

/-- C137 is violated: for `href="data:,ü"` the closing quote is read as well. -/
theorem C137_violated : ¬ C137_statement := by
  intro h
  obtain ⟨a, b, h1, h2⟩ := h _ _ _ _ _ _ _ _ _ _ umlaut_inTag
  have h3 : fileSpan "ä<a href=\"data:,ü\">".toList ⟨1, none, "href".toList⟩ = .ok (some (11, 19)) := by decide +kernel
  rw [h3] at h1
  cases h1
  exact absurd h2 (by decide +kernel)

/-! ## Data URLs -/

/-- A hexadecimal digit with its value, from RFC 3986. -/
def Hex (c : Char) (n : Nat) : Prop := "0123456789ABCDEF".toList[n]? = some c ∨ "0123456789abcdef".toList[n]? = some c

/-- The octets of a text in which octets may be escaped by percent signs (RFC 2396, RFC 2397). -/
inductive Octets : Str → List UInt8 → Prop
  | nil : Octets [] []
  | plain {c s d} : c ≠ '%' → c.toNat < 128 → Octets s d → Octets (c :: s) (UInt8.ofNat c.toNat :: d)
  | escaped {a b n m s d} : Hex a n → Hex b m → Octets s d → Octets ('%' :: a :: b :: s) (UInt8.ofNat (n * 16 + m) :: d)

/-- Media types. -/
def MediaType (m : Str) : Prop := m = [] ∨ ∃ a b, a ≠ [] ∧ b ≠ [] ∧ m = a ++ '/' :: b

/-- Characters that can be used in the part before the comma. -/
def HeadChar (c : Char) : Prop := c.toNat < 128 ∧ c ≠ ';' ∧ c ≠ ',' ∧ c ≠ '%' ∧ c ≠ '&' ∧ c ≠ '"' ∧ c ≠ '\''

/-- A data URL: the media type, the parameters and the data. -/
def dataUrl (m : Str) (ps : List Str) (payload : Str) : Str := "data:".toList ++ (m ++ ps.flatMap (fun p => ';' :: p)) ++ ',' :: payload

/-- Parameters without a character set, or with one that is a superset of ASCII. -/
def Plain (p : Str) : Prop := '=' ∉ p ∨ p = "charset=utf-8".toList ∨ p = "charset=UTF-8".toList ∨ p = "charset=US-ASCII".toList ∨
  p = "charset=us-ascii".toList

/-- What is used about the libraries: text without `&` stays, ASCII is decoded as ASCII, and ASCII text is encoded as ASCII in the
encodings `ascii`, `utf8` and those that are registered for `utf-8` and `us-ascii`. -/
structure Lawful (l : Lib) : Prop where
  unescape : ∀ s : Str, '&' ∉ s → l.unescape s = s
  decode : ∀ d : List UInt8, (∀ b ∈ d, b < 128) → l.decode d = d.map (fun b => Char.ofNat b.toNat)
  encode : ∀ n : Str, (n = "ascii".toList ∨ n = "utf8".toList ∨ l.codec "utf-8".toList = some n ∨ l.codec "us-ascii".toList = some n) →
    ∀ s : Str, (∀ c ∈ s, c.toNat < 128) → l.encode n s = some (s.map (fun c => UInt8.ofNat c.toNat))

/-- C138 as claimed: the contents of a data URL without base64 are its octets. -/
def C138_statement : Prop :=
  ∀ (l : Lib) (m : Str) (ps : List Str) (payload : Str) (d : List UInt8), Lawful l → MediaType m → (∀ c ∈ m, HeadChar c) →
    (∀ p ∈ ps, (∀ c ∈ p, HeadChar c) ∧ Plain p) → ps.getLast? ≠ some "base64".toList → '&' ∉ payload → Octets payload d →
    contents l (dataUrl m ps payload) = .ok d

theorem hex_value {c : Char} {n : Nat} (h : Hex c n) : hexValue c = some n := by
  have hn : n < 16 := by
    rcases h with h | h
    · obtain ⟨h, -⟩ := List.getElem?_eq_some_iff.mp h
      exact h
    · obtain ⟨h, -⟩ := List.getElem?_eq_some_iff.mp h
      exact h
  have key : ∀ k : Fin 16, ("0123456789ABCDEF".toList[k.1]?.bind hexValue = some k.1) ∧ "0123456789abcdef".toList[k.1]?.bind hexValue = some k.1 := by
    decide
  have := key ⟨n, hn⟩
  rcases h with h | h
  · rw [h] at this
    exact this.1
  · rw [h] at this
    exact this.2

theorem unquoteBytes_octets {s : Str} {d : List UInt8} (h : Octets s d) : unquoteBytes s = d := by
  induction h with
  | nil => rfl
  | @plain c s d hc _ _ ih =>
    unfold unquoteBytes
    split
    · next h => cases h
    · next h => cases h; exact absurd rfl hc
    · next h => cases h; rw [ih]
  | escaped ha hb _ ih =>
    rw [unquoteBytes, hex_value ha, hex_value hb]
    simp only [ih]

theorem ascii_char {n : Nat} (h : n < 128) : (Char.ofNat n).toNat = n := by
  have : ∀ k : Fin 128, (Char.ofNat k.1).toNat = k.1 := by decide
  exact this ⟨n, h⟩

theorem hex_ascii {c : Char} {n : Nat} (h : Hex c n) : c.toNat < 128 := by
  have := hex_value h
  unfold hexValue at this
  split at this
  · omega
  · split at this
    · omega
    · split at this
      · omega
      · cases this

theorem octets_ascii {s : Str} {d : List UInt8} (h : Octets s d) : ∀ c ∈ s, c.toNat < 128 := by
  induction h with
  | nil => simp
  | plain _ hc _ ih =>
    intro x hx
    rcases List.mem_cons.mp hx with rfl | hx
    · exact hc
    · exact ih x hx
  | escaped ha hb _ ih =>
    intro x hx
    rcases List.mem_cons.mp hx with rfl | hx
    · decide
    · rcases List.mem_cons.mp hx with rfl | hx
      · exact hex_ascii ha
      · rcases List.mem_cons.mp hx with rfl | hx
        · exact hex_ascii hb
        · exact ih x hx

theorem octets_append {a b : Str} {d e : List UInt8} (h : Octets a d) (h' : Octets b e) : Octets (a ++ b) (d ++ e) := by
  induction h with
  | nil => exact h'
  | plain h1 h2 _ ih => exact .plain h1 h2 ih
  | escaped h1 h2 _ ih => exact .escaped h1 h2 ih

theorem octets_plain {s : Str} (h : ∀ c ∈ s, c ≠ '%' ∧ c.toNat < 128) : Octets s (s.map (fun c => UInt8.ofNat c.toNat)) := by
  induction s with
  | nil => exact .nil
  | cons c s ih => exact .plain (h c (by simp)).1 (h c (by simp)).2 (ih (fun x hx => h x (by simp [hx])))

theorem unquoteRuns_ascii (l : Lib) {s : Str} (h : ∀ c ∈ s, c.toNat < 128) : ∀ run, unquoteRuns l run s = flush l (run ++ s) := by
  induction s with
  | nil => intro run; rw [unquoteRuns, List.append_nil]
  | cons c s ih =>
    intro run
    rw [unquoteRuns, if_pos (h c (by simp)), ih (fun x hx => h x (by simp [hx]))]
    simp

theorem char_round {c : Char} (h : c.toNat < 128) : Char.ofNat (UInt8.ofNat c.toNat).toNat = c := by
  have : (UInt8.ofNat c.toNat).toNat = c.toNat := by
    rw [UInt8.toNat_ofNat']
    omega
  rw [this, Char.ofNat_toNat]

theorem map_round {s : Str} (h : ∀ c ∈ s, c.toNat < 128) : (s.map (fun c => UInt8.ofNat c.toNat)).map (fun b => Char.ofNat b.toNat) = s := by
  induction s with
  | nil => rfl
  | cons c s ih =>
    rw [List.map_cons, List.map_cons, char_round (h c (by simp)), ih (fun x hx => h x (by simp [hx]))]

theorem octets_unescaped {s : Str} {d : List UInt8} (h : Octets s d) (hs : '%' ∉ s) : d = s.map (fun c => UInt8.ofNat c.toNat) := by
  induction h with
  | nil => rfl
  | plain _ _ _ ih =>
    rw [List.map_cons, ← ih (fun hx => hs (by simp [hx]))]
  | escaped => exact absurd (by simp) hs

theorem unquote_octets {l : Lib} (hl : Lawful l) {s : Str} {d : List UInt8} (h : Octets s d) (hd : ∀ b ∈ d, b < 128) :
    unquote l s = d.map (fun b => Char.ofNat b.toNat) := by
  unfold unquote
  split
  · next hs =>
    rw [unquoteRuns_ascii l (octets_ascii h), List.nil_append, flush, if_neg (by rintro rfl; simp at hs), unquoteBytes_octets h, hl.decode d hd]
  · next hs =>
    have hs : '%' ∉ s := by simpa using hs
    rw [octets_unescaped h hs, map_round (octets_ascii h)]

/-- The part of a data URL between the scheme and the comma. -/
def header (m : Str) (ps : List Str) : Str := m ++ ps.flatMap (fun p => ';' :: p)

theorem header_join (m : Str) (ps : List Str) : header m ps = join ';' (m :: ps) := by
  unfold header
  induction ps generalizing m with
  | nil => simp [join]
  | cons p ps ih => rw [List.flatMap_cons, join, ← ih p, List.cons_append]

theorem header_chars {m : Str} {ps : List Str} (hm : ∀ c ∈ m, HeadChar c) (hp : ∀ p ∈ ps, ∀ c ∈ p, HeadChar c) :
    ∀ c ∈ header m ps, c = ';' ∨ HeadChar c := by
  intro c hc
  rcases List.mem_append.mp hc with hc | hc
  · exact .inr (hm c hc)
  · obtain ⟨p, hp1, hp2⟩ := List.mem_flatMap.mp hc
    rcases List.mem_cons.mp hp2 with rfl | hc
    · exact .inl rfl
    · exact .inr (hp p hp1 c hc)

theorem isMime_mediaType {m : Str} (h : MediaType m) : m = [] ∨ isMime m = true := by
  rcases h with h | ⟨a, b, ha, hb, rfl⟩
  · exact .inl h
  · right
    cases a with
    | nil => exact absurd rfl ha
    | cons x a =>
      unfold isMime
      rw [List.cons_append, List.tail_cons, List.dropLast_append_of_ne_nil (by simp)]
      cases b with
      | nil => exact absurd rfl hb
      | cons y b => simp

theorem parseUrl_dataUrl {m : Str} {ps : List Str} (payload : Str) (hmt : MediaType m) (hm : ∀ c ∈ m, HeadChar c)
    (hp : ∀ p ∈ ps, ∀ c ∈ p, HeadChar c) : parseUrl (dataUrl m ps payload) = some (m, ps, payload) := by
  have hch := header_chars hm hp
  have hcomma : ∀ c ∈ header m ps, (c != ',') = true := by
    intro c hc
    rcases hch c hc with rfl | h
    · decide
    · simpa using h.2.2.1
  have hdrop : (dataUrl m ps payload).drop 5 = header m ps ++ ',' :: payload := rfl
  have hpre : startsWith "data:".toList (dataUrl m ps payload) = true := rfl
  have htake : (header m ps ++ ',' :: payload).takeWhile (fun c => c != ',') = header m ps :=
    (takeWhile_stop hcomma (by intro c hc; cases hc; decide)).1
  have hq : (header m ps).any isQuote = false := by
    rw [List.any_eq_false]
    intro c hc hq
    simp only [isQuote, Bool.or_eq_true, beq_iff_eq] at hq
    rcases hch c hc with rfl | h
    · rcases hq with hq | hq <;> exact absurd hq (by decide)
    · rcases hq with rfl | rfl
      · exact h.2.2.2.2.2.2 rfl
      · exact h.2.2.2.2.2.1 rfl
  have hsplit : split ';' (header m ps) = m :: ps := by
    rw [header_join, split_join _ _ (by simp)]
    intro p hp' hc
    rcases List.mem_cons.mp hp' with rfl | hp'
    · exact (hm _ hc).2.1 rfl
    · exact (hp p hp' _ hc).2.1 rfl
  unfold parseUrl
  rw [hpre, hdrop, htake, hq, hsplit]
  simp only [if_true, Bool.not_false, Bool.and_true]
  rw [if_pos (by simp), if_pos (isMime_mediaType hmt)]
  have : header m ps ++ ',' :: payload = (header m ps ++ [',']) ++ payload := by simp
  rw [this, List.drop_left' (by simp)]

/-- Encodings in which ASCII is encoded as it is. -/
def Transparent (l : Lib) (n : Str) : Prop :=
  n = "ascii".toList ∨ n = "utf8".toList ∨ l.codec "utf-8".toList = some n ∨ l.codec "us-ascii".toList = some n

theorem lower_eq {c : Char} (h : c.toLower = '=') : c = '=' := by
  unfold Char.toLower at h
  split at h
  · next hc =>
    exfalso
    have h2 := congrArg Char.toNat h
    have h3 : (65 ≤ c.toNat ∧ c.toNat ≤ 90) := by
      obtain ⟨h3, h4⟩ := hc
      exact ⟨h3, h4⟩
    have h4 : (61 : Nat) = ('=' : Char).toNat := rfl
    rw [← h4] at h2
    simp only [Char.toNat] at h2 h3
    rw [UInt32.toNat_add] at h2
    simp at h2
    have h5 : c.toNat = c.val.toNat := rfl
    omega
  · exact h

theorem strip_subset {s : Str} {c : Char} (h : c ∈ strip s) : c ∈ s := by
  unfold strip at h
  rw [List.mem_reverse] at h
  have h1 := (List.dropWhile_sublist _).subset h
  rw [List.mem_reverse] at h1
  exact (List.dropWhile_sublist _).subset h1

theorem charset_transparent {l : Lib} {e v : Str} (h : Transparent l e) (hv : v = "utf-8".toList ∨ v = "us-ascii".toList) :
    Transparent l (charset l e v) := by
  unfold charset
  cases hc : l.codec v with
  | some n =>
    rcases hv with rfl | rfl
    · exact .inr (.inr (.inl hc))
    · exact .inr (.inr (.inr hc))
  | none =>
    simp only
    split
    · exact .inl rfl
    · exact h

theorem step_transparent {l : Lib} {e p : Str} (h : Transparent l e) (hp : Plain p) :
    Transparent l (parameterStep l e ((strip p).map Char.toLower)) := by
  rcases hp with hp | hp
  · unfold parameterStep
    split
    · exact .inr (.inl rfl)
    · rw [if_neg]
      · exact h
      · intro hc
        obtain ⟨c, hc1, hc2⟩ := List.mem_map.mp (List.contains_iff_mem.mp hc)
        rw [lower_eq hc2] at hc1
        exact hp (strip_subset hc1)
  · have key : ∀ w, (strip p).map Char.toLower = "charset=".toList ++ w → (w = "utf-8".toList ∨ w = "us-ascii".toList) →
        Transparent l (parameterStep l e ((strip p).map Char.toLower)) := by
      intro w hw hv
      have hstep : parameterStep l e ("charset=".toList ++ w) = charset l e w := by
        rcases hv with rfl | rfl
        · unfold parameterStep
          rw [if_neg (by decide), if_pos (by decide), if_pos (by decide)]
          rfl
        · unfold parameterStep
          rw [if_neg (by decide), if_pos (by decide), if_pos (by decide)]
          rfl
      rw [hw, hstep]
      exact charset_transparent h hv
    rcases hp with rfl | rfl | rfl | rfl
    · exact key "utf-8".toList (by decide) (.inl rfl)
    · exact key "utf-8".toList (by decide) (.inl rfl)
    · exact key "us-ascii".toList (by decide) (.inr rfl)
    · exact key "us-ascii".toList (by decide) (.inr rfl)

theorem encodingOf_transparent (l : Lib) {ps : List Str} (h : ∀ p ∈ ps, Plain p) : Transparent l (encodingOf l ps) := by
  unfold encodingOf
  have : ∀ e, Transparent l e → Transparent l (ps.foldl (fun e p => parameterStep l e ((strip p).map Char.toLower)) e) := by
    induction ps with
    | nil => intro e he; exact he
    | cons p ps ih =>
      intro e he
      exact ih (fun x hx => h x (by simp [hx])) _ (step_transparent he (h p (by simp)))
  exact this _ (.inl rfl)

theorem dataUrl_header (m : Str) (ps : List Str) (payload : Str) : dataUrl m ps payload = ("data:".toList ++ header m ps ++ [',']) ++ payload := by
  simp [dataUrl, header]

theorem start_chars {m : Str} {ps : List Str} (hm : ∀ c ∈ m, HeadChar c) (hp : ∀ p ∈ ps, ∀ c ∈ p, HeadChar c) :
    ∀ c ∈ "data:".toList ++ header m ps ++ [','], c ≠ '%' ∧ c ≠ '&' ∧ c.toNat < 128 := by
  intro c hc
  rcases List.mem_append.mp hc with hc | hc
  · rcases List.mem_append.mp hc with hc | hc
    · have : ∀ c ∈ "data:".toList, c ≠ '%' ∧ c ≠ '&' ∧ c.toNat < 128 := by decide
      exact this c hc
    · rcases header_chars hm hp c hc with rfl | h
      · decide
      · exact ⟨h.2.2.2.1, h.2.2.2.2.1, h.1⟩
  · rw [List.mem_singleton.mp hc]
    decide

/-- C138 for octets of ASCII. What is missing: other octets are decoded as UTF-8 and encoded again, which loses them or fails. -/
theorem C138_partial (l : Lib) (m : Str) (ps : List Str) (payload : Str) (d : List UInt8) (hl : Lawful l) (hmt : MediaType m)
    (hm : ∀ c ∈ m, HeadChar c) (hp : ∀ p ∈ ps, (∀ c ∈ p, HeadChar c) ∧ Plain p) (hb : ps.getLast? ≠ some "base64".toList)
    (hamp : '&' ∉ payload) (ho : Octets payload d) (hd : ∀ b ∈ d, b < 128) : contents l (dataUrl m ps payload) = .ok d := by
  have hst := start_chars hm (fun p hp' => (hp p hp').1)
  have hun : l.unescape (dataUrl m ps payload) = dataUrl m ps payload := by
    apply hl.unescape
    rw [dataUrl_header]
    intro hc
    rcases List.mem_append.mp hc with hc | hc
    · exact (hst _ hc).2.1 rfl
    · exact hamp hc
  have hoct : Octets (dataUrl m ps payload) (("data:".toList ++ header m ps ++ [',']).map (fun c => UInt8.ofNat c.toNat) ++ d) := by
    rw [dataUrl_header]
    exact octets_append (octets_plain (fun c hc => ⟨(hst c hc).1, (hst c hc).2.2⟩)) ho
  have hq : unquote l (dataUrl m ps payload) = dataUrl m ps (d.map (fun b => Char.ofNat b.toNat)) := by
    rw [unquote_octets hl hoct, List.map_append, map_round (fun c hc => (hst c hc).2.2), dataUrl_header]
    intro b hb
    rcases List.mem_append.mp hb with hb | hb
    · obtain ⟨c, hc, rfl⟩ := List.mem_map.mp hb
      have := (hst c hc).2.2
      rw [UInt8.lt_iff_toNat_lt, UInt8.toNat_ofNat']
      have h128 : (128 : UInt8).toNat = 128 := rfl
      omega
    · exact hd b hb
  have hascii : ∀ c ∈ d.map (fun b => Char.ofNat b.toNat), c.toNat < 128 := by
    intro c hc
    obtain ⟨b, hb, rfl⟩ := List.mem_map.mp hc
    have h1 : b.toNat < 128 := UInt8.lt_iff_toNat_lt.mp (hd b hb)
    have h2 : (Char.ofNat b.toNat).toNat = b.toNat := by
      exact ascii_char h1
    omega
  have hback : (d.map (fun b => Char.ofNat b.toNat)).map (fun c => UInt8.ofNat c.toNat) = d := by
    rw [List.map_map]
    refine (List.map_congr_left ?_).trans (List.map_id d)
    intro b hb
    have h1 : b.toNat < 128 := UInt8.lt_iff_toNat_lt.mp (hd b hb)
    have h2 : (Char.ofNat b.toNat).toNat = b.toNat := by
      exact ascii_char h1
    show UInt8.ofNat (Char.ofNat b.toNat).toNat = id b
    rw [h2, UInt8.ofNat_toNat]
    rfl
  unfold contents
  rw [hun, hq, parseUrl_dataUrl _ hmt hm (fun p hp' => (hp p hp').1)]
  simp only
  rw [if_neg (by simpa [isBase64] using hb), hl.encode _ (encodingOf_transparent l (fun p hp' => (hp p hp').2)) _ hascii, hback]

/-- C138: with base64, the contents are those of the decoder. -/
theorem C138_base64 (l : Lib) (m : Str) (ps : List Str) (payload : Str) (d : List UInt8) (hl : Lawful l) (hmt : MediaType m)
    (hm : ∀ c ∈ m, HeadChar c) (hp : ∀ p ∈ ps, ∀ c ∈ p, HeadChar c) (hamp : '&' ∉ payload) (hpc : '%' ∉ payload)
    (hd : l.b64decode payload = some d) : contents l (dataUrl m (ps ++ ["base64".toList]) payload) = .ok d := by
  have hp' : ∀ p ∈ ps ++ ["base64".toList], ∀ c ∈ p, HeadChar c := by
    intro p h
    rcases List.mem_append.mp h with h | h
    · exact hp p h
    · rw [List.mem_singleton.mp h]
      unfold HeadChar
      decide
  have hst := start_chars hm hp'
  have hun : l.unescape (dataUrl m (ps ++ ["base64".toList]) payload) = dataUrl m (ps ++ ["base64".toList]) payload := by
    apply hl.unescape
    rw [dataUrl_header]
    intro hc
    rcases List.mem_append.mp hc with hc | hc
    · exact (hst _ hc).2.1 rfl
    · exact hamp hc
  have hq : unquote l (dataUrl m (ps ++ ["base64".toList]) payload) = dataUrl m (ps ++ ["base64".toList]) payload := by
    unfold unquote
    rw [if_neg]
    rw [dataUrl_header]
    intro hc
    rcases List.mem_append.mp (List.contains_iff_mem.mp hc) with hc | hc
    · exact (hst _ hc).1 rfl
    · exact hpc hc
  unfold contents
  rw [hun, hq, parseUrl_dataUrl _ hmt hm hp']
  simp only
  rw [if_pos (by simp [isBase64]), hd]

/-- C138: other texts give an empty file. -/
theorem C138_other (l : Lib) (s : Str) (hl : Lawful l) (h1 : '&' ∉ s) (h2 : '%' ∉ s) (h : (∀ t, s ≠ "data:".toList ++ t) ∨ ',' ∉ s) :
    contents l s = .ok [] := by
  have hq : unquote l (l.unescape s) = s := by
    rw [hl.unescape s h1]
    unfold unquote
    rw [if_neg (by simpa using h2)]
  have hp : parseUrl s = none := by
    unfold parseUrl
    split
    · next hs =>
      obtain ⟨t, ht⟩ := List.isPrefixOf_iff_prefix.mp hs
      rcases h with h | h
      · exact absurd ht.symm (h t)
      · rw [if_neg]
        intro hc
        simp only [Bool.and_eq_true, List.contains_iff_mem] at hc
        exact h (List.drop_subset _ _ hc.1)
    · rfl
  unfold contents
  rw [hq, hp]

/-- ASCII libraries: other octets become replacement characters, which cannot be encoded. -/
def asciiLib : Lib where
  unescape s := s
  decode d := d.map (fun b => if b < 128 then Char.ofNat b.toNat else '\uFFFD')
  codec _ := none
  encode _ s := if s.all (fun c => decide (c.toNat < 128)) then some (s.map (fun c => UInt8.ofNat c.toNat)) else none
  b64decode _ := some []

theorem asciiLib_lawful : Lawful asciiLib where
  unescape _ _ := rfl
  decode d h := by
    show d.map _ = d.map _
    refine List.map_congr_left ?_
    intro b hb
    rw [if_pos (h b hb)]
  encode n _ s h := by
    show (if _ then _ else _) = _
    rw [if_pos (by simpa using h)]

/-- C138 is violated: the octet of `data:,%E9` cannot be read. -/
theorem C138_violated : ¬ C138_statement := by
  intro h
  have := h asciiLib [] [] "%E9".toList [0xe9] asciiLib_lawful (.inl rfl) (by simp) (by simp) (by simp) (by decide)
    (.escaped (n := 14) (m := 9) (.inl rfl) (.inl rfl) .nil)
  exact absurd this (by decide +kernel)

/-- The hypotheses of C138 can be met. -/
example : contents asciiLib "data:text/plain;charset=utf-8,a%20b".toList = .ok [97, 32, 98] :=
  C138_partial asciiLib "text/plain".toList ["charset=utf-8".toList] "a%20b".toList [97, 32, 98] asciiLib_lawful
    (.inr ⟨"text".toList, "plain".toList, by decide, by decide, rfl⟩) (by unfold HeadChar; decide)
    (by
      intro p hp
      rw [List.mem_singleton.mp hp]
      exact ⟨by unfold HeadChar; decide, .inr (.inl rfl)⟩) (by decide) (by decide)
    (.plain (by decide) (by decide) (.escaped (n := 2) (m := 0) (.inl rfl) (.inl rfl) (.plain (by decide) (by decide) .nil))) (by decide)

/-! ## Mounting -/

/-- C139 as claimed: an HTML file can be mounted wherever it comes from. -/
def C139_statement : Prop := ∀ m, openHtml m true = .ok ()

/-- C139 for paths and file objects that stay open. What is missing: file objects that are closed at the end of a `with` block. -/
theorem C139_partial (m : Mounted) (h : m = .path ∨ m = .object false) : openHtml m true = .ok () := by
  rcases h with rfl | rfl <;> rfl

/-- **C139** Other files are refused, whatever they are. -/
theorem C139_other (m : Mounted) : ∃ e, openHtml m false = .error e := by
  cases m with
  | path => exact ⟨_, rfl⟩
  | object closes => cases closes <;> exact ⟨_, rfl⟩

/-- C139 is violated: file objects as they are opened in archives are closed by the check of the format. -/
theorem C139_violated : ¬ C139_statement := fun h => absurd (h (.object true)) (by decide)

end Verif.Html
