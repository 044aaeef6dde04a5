import Verif.Bytes
import Verif.Py
import Verif.PyStr
import Verif.Dict
import Verif.Detect.Frames
import Verif.Stencil.Props

/-!
# C63, C99: OGG files (core/ratarmountcore/mountsource/formats/ogg.py:24-90 and 372-550)

The parser of OGM packets is never used (`ogm_streams` stays empty). Log messages are left out. The rows become JSON and are
read back by `open`; the model keeps the list.
-/

namespace Verif.Ogg

open Verif.Py Verif.Bin Verif.Detect

/-- `OGGPage` (ogg.py:45-49). -/
structure PageRec where
  headerOffset : Nat
  dataOffset : Nat
  dataSize : Nat
  deriving DecidableEq, Repr

/-- `OGGStream` (ogg.py:52-60) without the fields that are never used. -/
structure Stream where
  media : Str
  subtype : Str
  last : Int
  pages : List PageRec
  deriving DecidableEq, Repr

/-- The dictionary of streams (ogg.py:372-380). -/
abbrev Streams := Dict Nat Stream

/-- `b'OggS'` (ogg.py:33-43). -/
def capture : Data := [0x4F, 0x67, 0x67, 0x53]

/-- The table of codecs (ogg.py:63-92). -/
def codecs : List (Str × Str × Data) := [
  ("audio".toList, "celt".toList, [0x43, 0x45, 0x4C, 0x54, 0x20, 0x20, 0x20, 0x20]),
  ("audio".toList, "flac".toList, [0x7F, 0x46, 0x4C, 0x41, 0x43]),
  ("audio".toList, "opus".toList, [0x4F, 0x70, 0x75, 0x73, 0x48, 0x65, 0x61, 0x64]),
  ("audio".toList, "pcm".toList, [0x50, 0x43, 0x4D, 0x20, 0x20, 0x20, 0x20, 0x20]),
  ("audio".toList, "speex".toList, [0x53, 0x70, 0x65, 0x65, 0x78, 0x20, 0x20, 0x20]),
  ("audio".toList, "vorbis".toList, [0x01, 0x76, 0x6F, 0x72, 0x62, 0x69, 0x73]),
  ("audio".toList, "ogm".toList, [0x01, 0x61, 0x75, 0x64, 0x69, 0x6F]),
  ("text".toList, "cmml".toList, [0x43, 0x4D, 0x4D, 0x4C, 0, 0, 0, 0]),
  ("text".toList, "kate".toList, [0x80, 0x6B, 0x61, 0x74, 0x65, 0, 0, 0]),
  ("text".toList, "midi".toList, [0x4F, 0x67, 0x67, 0x4D, 0x49, 0x44, 0x49, 0]),
  ("text".toList, "ogm".toList, [0x01, 0x74, 0x65, 0x78, 0x74]),
  ("video".toList, "dirac".toList, [0x42, 0x42, 0x43, 0x44, 0]),
  ("video".toList, "jng".toList, [0x8B, 0x4A, 0x4E, 0x47, 0x0D, 0x0A, 0x1A, 0x0A]),
  ("video".toList, "mng".toList, [0x8A, 0x4D, 0x4E, 0x47, 0x0D, 0x0A, 0x1A, 0x0A]),
  ("video".toList, "png".toList, [0x89, 0x50, 0x4E, 0x47, 0x0D, 0x0A, 0x1A, 0x0A]),
  ("video".toList, "theora".toList, [0x80, 0x74, 0x68, 0x65, 0x6F, 0x72, 0x61]),
  ("video".toList, "yuv4mpeg".toList, [0x59, 0x55, 0x56, 0x34, 0x4D, 0x50, 0x45, 0x47]),
  ("video".toList, "ogm".toList, [0x01, 0x76, 0x69, 0x64, 0x65, 0x6F])]

/-- `detect_media_type` (ogg.py:63-90). -/
def detectMedia (data : Data) : Str × Str :=
  match codecs.find? (fun c : Str × Str × Data => c.2.2.isPrefixOf data) with
  | some c => (c.1, c.2.1)
  | none => ("unknown".toList, "unknown".toList)

/-- One turn of the loop (ogg.py:395-456) for a header of 27 bytes: the next position and both dictionaries. -/
def readPage (d : Data) (pos : Nat) (streams complete : Streams) : Except PyErr (Nat × Streams × Streams) :=
  if (d.drop pos).take 4 ≠ capture then .error .valueError
  else match uint 1 d (pos + 4), uint 1 d (pos + 5), uint 4 d (pos + 14), uint 4 d (pos + 18), uint 1 d (pos + 26) with
    | some version, some flags, some serial, some sequence, some count =>
      if version ≠ 0 then .error .valueError
      else
        let table := (d.drop (pos + 27)).take count
        let size := (table.map UInt8.toNat).sum
        let dataOffset := pos + 27 + table.length
        if (flags &&& 2 != 0) != !(streams.has serial) then .error .valueError
        else
          let streams := if streams.has serial then streams else
            let m := detectMedia ((d.drop dataOffset).take size)
            streams.set serial ⟨m.1, m.2, -1, []⟩
          match Dict.get? streams serial with
          | none => .error .keyError
          | some st =>
            if (sequence : Int) ≤ st.last then .error .valueError
            else
              let st := { st with pages := st.pages ++ [⟨pos, dataOffset, size⟩] }
              if flags &&& 4 != 0 then .ok (dataOffset + size, streams.del serial, complete.set serial st)
              else .ok (dataOffset + size, streams.set serial st, complete)
    | _, _, _, _, _ => .error .structError

theorem readPage_progress {d : Data} {pos next : Nat} {s c s' c' : Streams} (h : readPage d pos s c = .ok (next, s', c')) :
    pos + 27 ≤ next := by
  unfold readPage at h
  simp only at h
  split at h
  · cases h
  · split at h
    · split at h
      · cases h
      · split at h
        · cases h
        · split at h
          · cases h
          · split at h
            · cases h
            · split at h <;> (injection h with h; injection h with h _; omega)
    · cases h

/-- The loop (ogg.py:395). -/
def readPages (d : Data) (pos : Nat) (streams complete : Streams) : Except PyErr (Streams × Streams) :=
  if d.length < pos + 27 then .ok (streams, complete)
  else match _h : readPage d pos streams complete with
    | .error e => .error e
    | .ok (next, s, c) => readPages d next s c
  termination_by d.length - pos
  decreasing_by
    have := readPage_progress _h
    omega

/-- `parse_ogg` (ogg.py:372-481) of a file at its start. -/
def parseOgg (d : Data) : Except PyErr Streams :=
  match readPages d 0 [] [] with
  | .error e => .error e
  | .ok (streams, complete) => .ok (complete.update streams)

/-- `stream.stencils` (ogg.py:476-478). -/
def Stream.stencils (st : Stream) : List (Nat × Nat) :=
  st.pages.map (fun p : PageRec => (p.headerOffset, p.dataOffset - p.headerOffset + p.dataSize))

/-- The size of the row (ogg.py:520). -/
def Stream.size (st : Stream) : Nat := (st.stencils.map (fun s : Nat × Nat => s.2)).sum

/-- A hexadecimal digit (ogg.py:508-546). -/
def hexDigit (n : Nat) : Char := if n < 10 then Char.ofNat (48 + n) else Char.ofNat (87 + n)

/-- The last digits of a number (ogg.py:508-546). -/
def hex : Nat → Nat → Str
  | 0, _ => []
  | k + 1, n => hex k (n / 16) ++ [hexDigit (n % 16)]

/-- The name of a stream (ogg.py:507-516); serial numbers have 32 bits, so `:08x` gives eight digits. -/
def fileName (serial : Nat) (st : Stream) : Str :=
  st.media ++ '_' :: (hex 8 serial ++
    (if st.subtype = "ogm".toList then ".ogm".toList
     else if st.media = "video".toList then ".ogv".toList
     else if st.media = "audio".toList then ".oga".toList
     else ".ogg".toList))

/-! ## specification (RFC 3533) -/

structure Page where
  flags : Nat
  granule : Nat
  serial : Nat
  sequence : Nat
  crc : Nat
  segments : Data
  body : Data
  deriving DecidableEq, Repr

def Page.bytes (p : Page) : Data :=
  [0x4F, 0x67, 0x67, 0x53] ++ (toLE 0 1 ++ (toLE p.flags 1 ++ (toLE p.granule 8 ++ (toLE p.serial 4 ++ (toLE p.sequence 4 ++ (toLE p.crc 4 ++
    (toLE p.segments.length 1 ++ (p.segments ++ p.body))))))))

def Page.Valid (p : Page) : Prop :=
  p.flags < 256 ∧ p.serial < 2 ^ 32 ∧ p.sequence < 2 ^ 32 ∧ p.segments.length < 256 ∧
    p.body.length = (p.segments.map UInt8.toNat).sum

/-- The first page of a stream, the last page of a stream. -/
def Page.bos (p : Page) : Bool := p.flags &&& 2 != 0
def Page.eos (p : Page) : Bool := p.flags &&& 4 != 0

/-- Exactly the first page of each stream is marked as such, and nothing comes after the last page of a stream. -/
def Flagged (before : List Page) : List Page → Prop
  | [] => True
  | p :: ps => (p.bos = true ↔ ∀ q ∈ before, q.serial ≠ p.serial) ∧ (∀ q ∈ before, q.serial = p.serial → q.eos = false) ∧
      Flagged (before ++ [p]) ps

/-- A file. -/
def bytes (pages : List Page) : Data := (pages.map (fun p : Page => p.bytes)).flatten

/-- The pages of one stream, as they are. -/
def streamBytes (serial : Nat) (pages : List Page) : Data := bytes (pages.filter (fun p : Page => p.serial = serial))

/-- The bytes the ranges stand for. -/
def exposed (d : Data) (stencils : List (Nat × Nat)) : Data :=
  (stencils.map (fun s : Nat × Nat => (d.drop s.1).take s.2)).flatten

/-! ## proofs -/

theorem length_bytes (p : Page) : p.bytes.length = 27 + p.segments.length + p.body.length := by
  simp only [Page.bytes, List.length_append, length_toLE, List.length_cons, List.length_nil]; omega

/-- The records of one stream, from a position on. -/
def records (serial : Nat) (pos : Nat) : List Page → List PageRec
  | [] => []
  | p :: ps => (if p.serial = serial then [⟨pos, pos + 27 + p.segments.length, p.body.length⟩] else []) ++
      records serial (pos + p.bytes.length) ps

theorem bytes_append (a b : List Page) : bytes (a ++ b) = bytes a ++ bytes b := by simp [bytes]

theorem bytes_cons (p : Page) (ps : List Page) : bytes (p :: ps) = p.bytes ++ bytes ps := by simp [bytes]

theorem records_append (serial : Nat) (a b : List Page) : ∀ pos, records serial pos (a ++ b) =
    records serial pos a ++ records serial (pos + (bytes a).length) b := by
  induction a with
  | nil => intro pos; simp [records, bytes]
  | cons p a ih =>
    intro pos
    simp only [List.cons_append, records, ih, bytes_cons, List.length_append, List.append_assoc, Nat.add_assoc]

/-- What is known about a stream after some pages. -/
def streamOf (serial : Nat) (pages : List Page) : Stream :=
  let m := detectMedia (((pages.find? (fun p : Page => p.serial = serial)).map (fun p : Page => p.body)).getD [])
  ⟨m.1, m.2, -1, records serial 0 pages⟩

def started (serial : Nat) (pages : List Page) : Bool := pages.any (fun p : Page => p.serial = serial)
def ended (serial : Nat) (pages : List Page) : Bool := pages.any (fun p : Page => p.serial = serial && p.eos)

structure Inv (before : List Page) (streams complete : Streams) : Prop where
  nodup : streams.keys.Nodup
  nodup' : complete.keys.Nodup
  running : ∀ serial, Dict.get? streams serial =
    if started serial before && !ended serial before then some (streamOf serial before) else none
  finished : ∀ serial, Dict.get? complete serial = if ended serial before then some (streamOf serial before) else none

theorem inv_nil : Inv [] [] [] where
  nodup := by simp [Dict.keys]
  nodup' := by simp [Dict.keys]
  running := by intro s; simp [started]
  finished := by intro s; simp [ended]

theorem started_append (s : Nat) (a : List Page) (p : Page) :
    started s (a ++ [p]) = (started s a || decide (p.serial = s)) := by simp [started]

theorem ended_append (s : Nat) (a : List Page) (p : Page) :
    ended s (a ++ [p]) = (ended s a || (decide (p.serial = s) && p.eos)) := by simp [ended]

theorem started_false {s : Nat} {a : List Page} : started s a = false ↔ ∀ q ∈ a, q.serial ≠ s := by
  simp [started]

theorem ended_false {s : Nat} {a : List Page} : ended s a = false ↔ ∀ q ∈ a, q.serial = s → q.eos = false := by
  simp [ended]

theorem ended_started {s : Nat} {a : List Page} (h : ended s a = true) : started s a = true := by
  simp only [ended, started, List.any_eq_true, Bool.and_eq_true, decide_eq_true_eq] at h ⊢
  obtain ⟨p, hp, h1, _⟩ := h
  exact ⟨p, hp, h1⟩

theorem streamOf_other (s : Nat) (a : List Page) (p : Page) (h : p.serial ≠ s) : streamOf s (a ++ [p]) = streamOf s a := by
  unfold streamOf
  have hf : (a ++ [p]).find? (fun q : Page => q.serial = s) = a.find? (fun q : Page => q.serial = s) := by
    rw [List.find?_append]
    simp [List.find?, h]
  rw [hf, records_append]
  simp [records, h]

theorem streamOf_same (a : List Page) (p : Page) (h : started p.serial a = true) :
    streamOf p.serial (a ++ [p]) = { streamOf p.serial a with
      pages := (streamOf p.serial a).pages ++
        [⟨(bytes a).length, (bytes a).length + 27 + p.segments.length, p.body.length⟩] } := by
  unfold streamOf
  have hf : (a ++ [p]).find? (fun q : Page => q.serial = p.serial) = a.find? (fun q : Page => q.serial = p.serial) := by
    rw [List.find?_append]
    cases hc : a.find? (fun q : Page => q.serial = p.serial) with
    | some x => rfl
    | none =>
      have h2 := started_false.mpr (fun q hq => by
        have := List.find?_eq_none.mp hc q hq
        simpa using this)
      rw [h2] at h
      cases h
  rw [hf, records_append]
  simp [records]

theorem streamOf_first (a : List Page) (p : Page) (h : started p.serial a = false) :
    streamOf p.serial (a ++ [p]) = ⟨(detectMedia p.body).1, (detectMedia p.body).2, -1,
      [⟨(bytes a).length, (bytes a).length + 27 + p.segments.length, p.body.length⟩]⟩ := by
  have hne := started_false.mp h
  unfold streamOf
  have hf : (a ++ [p]).find? (fun q : Page => q.serial = p.serial) = some p := by
    rw [List.find?_append, List.find?_eq_none.mpr (fun q hq => by simpa using hne q hq)]
    simp
  have hr : ∀ (l : List Page) (pos : Nat), (∀ q ∈ l, q.serial ≠ p.serial) → records p.serial pos l = [] := by
    intro l
    induction l with
    | nil => intros; rfl
    | cons q l ih => intro pos hq; simp [records, hq q (by simp), ih _ (fun x hx => hq x (by simp [hx]))]
  rw [hf, records_append, hr a 0 hne]
  simp [records]

/-- The fields that are read. -/
theorem fields_at (d : Data) (pos : Nat) (p : Page) (rest : Data) (hv : p.Valid) (hd : d.drop pos = p.bytes ++ rest) :
    (d.drop pos).take 4 = capture ∧ uint 1 d (pos + 4) = some 0 ∧ uint 1 d (pos + 5) = some p.flags ∧
      uint 4 d (pos + 14) = some p.serial ∧ uint 4 d (pos + 18) = some p.sequence ∧
      uint 1 d (pos + 26) = some p.segments.length ∧ (d.drop (pos + 27)).take p.segments.length = p.segments ∧
      (d.drop (pos + 27 + p.segments.length)).take p.body.length = p.body := by
  obtain ⟨h1, h2, h3, h4, h5⟩ := hv
  unfold Page.bytes at hd
  simp only [List.append_assoc] at hd
  have t0 := drop_front _ 4 pos d _ (by rfl) hd
  have u0 := uint_front 1 _ (pos + 4) d _ (by decide) t0
  have t1 := drop_front _ 1 (pos + 4) d _ (by simp) t0
  have u1 := uint_front 1 _ (pos + 4 + 1) d _ (by omega) t1
  have t2 := drop_front _ 1 (pos + 4 + 1) d _ (by simp) t1
  have t3 := drop_front _ 8 (pos + 4 + 1 + 1) d _ (by simp) t2
  have u3 := uint_front 4 _ (pos + 4 + 1 + 1 + 8) d _ (by omega) t3
  have t4 := drop_front _ 4 (pos + 4 + 1 + 1 + 8) d _ (by simp) t3
  have u4 := uint_front 4 _ (pos + 4 + 1 + 1 + 8 + 4) d _ (by omega) t4
  have t5 := drop_front _ 4 (pos + 4 + 1 + 1 + 8 + 4) d _ (by simp) t4
  have t6 := drop_front _ 4 (pos + 4 + 1 + 1 + 8 + 4 + 4) d _ (by simp) t5
  have u6 := uint_front 1 _ (pos + 4 + 1 + 1 + 8 + 4 + 4 + 4) d _ (by omega) t6
  have t7 := drop_front _ 1 (pos + 4 + 1 + 1 + 8 + 4 + 4 + 4) d _ (by simp) t6
  have t8 := drop_front _ p.segments.length (pos + 4 + 1 + 1 + 8 + 4 + 4 + 4 + 1) d _ rfl t7
  simp only [Nat.add_assoc, Nat.reduceAdd] at u0 u1 u3 u4 u6 t7 t8
  refine ⟨?_, u0, u1, u3, u4, u6, ?_, ?_⟩
  · rw [hd]; exact List.take_left' rfl
  · rw [t7]; exact List.take_left' rfl
  · rw [Nat.add_assoc, t8]; exact List.take_left' rfl

theorem has_eq (d : Streams) (k : Nat) : d.has k = (Dict.get? d k).isSome := rfl

/-- One page. -/
theorem readPage_ok (d : Data) (before : List Page) (p : Page) (rest : Data) (streams complete : Streams) (hv : p.Valid)
    (hd : d.drop (bytes before).length = p.bytes ++ rest) (hi : Inv before streams complete)
    (hb : p.bos = true ↔ ∀ q ∈ before, q.serial ≠ p.serial) (he : ∀ q ∈ before, q.serial = p.serial → q.eos = false) :
    ∃ s c, readPage d (bytes before).length streams complete = .ok ((bytes (before ++ [p])).length, s, c) ∧
      Inv (before ++ [p]) s c := by
  obtain ⟨f1, f2, f3, f4, f5, f6, f7, f8⟩ := fields_at d _ p rest hv hd
  have hend : ended p.serial before = false := ended_false.mpr he
  have hbos : p.bos = !started p.serial before := by
    cases hs : started p.serial before with
    | false => simpa using hb.mpr (started_false.mp hs)
    | true =>
      cases hp : p.bos with
      | false => rfl
      | true => rw [started_false.mpr (hb.mp hp)] at hs; cases hs
  have hget : Dict.get? streams p.serial = if started p.serial before then some (streamOf p.serial before) else none := by
    rw [hi.running, hend]; simp
  have hhas : streams.has p.serial = started p.serial before := by
    rw [has_eq, hget]; cases started p.serial before <;> rfl
  have hlen : (bytes (before ++ [p])).length = (bytes before).length + 27 + p.segments.length + p.body.length := by
    rw [bytes_append, List.length_append, bytes_cons, List.length_append, length_bytes]; simp [bytes]; omega
  have hflag : (p.flags &&& 2 != 0) = p.bos := rfl
  have hflag4 : (p.flags &&& 4 != 0) = p.eos := rfl
  -- the dictionary after the stream is known
  let s1 : Streams := if streams.has p.serial then streams else
    streams.set p.serial ⟨(detectMedia p.body).1, (detectMedia p.body).2, -1, []⟩
  have hs1 : s1.keys.Nodup := by
    show (if _ then _ else _ : Streams).keys.Nodup
    split
    · exact hi.nodup
    · exact Dict.nodup_set _ hi.nodup _ _
  have hother : ∀ k, p.serial ≠ k → Dict.get? s1 k = Dict.get? streams k := by
    intro k hk
    show Dict.get? (if _ then _ else _ : Streams) k = _
    split
    · rfl
    · rw [Dict.get?_set, if_neg hk]
  have hself : ∃ st, Dict.get? s1 p.serial = some st ∧ st.last = -1 ∧
      { st with pages := st.pages ++ [⟨(bytes before).length, (bytes before).length + 27 + p.segments.length,
        p.body.length⟩] } = streamOf p.serial (before ++ [p]) := by
    cases hst : started p.serial before with
    | true =>
      refine ⟨streamOf p.serial before, ?_, rfl, (streamOf_same before p hst).symm⟩
      show Dict.get? (if _ then _ else _ : Streams) p.serial = _
      rw [hhas, hst, if_pos rfl, hget, hst, if_pos rfl]
    | false =>
      refine ⟨⟨(detectMedia p.body).1, (detectMedia p.body).2, -1, []⟩, ?_, rfl, (streamOf_first before p hst).symm⟩
      show Dict.get? (if _ then _ else _ : Streams) p.serial = _
      rw [hhas, hst, if_neg (by simp), Dict.get?_set, if_pos rfl]
  obtain ⟨st, g1, g2, g3⟩ := hself
  have hrun : readPage d (bytes before).length streams complete =
      if p.eos then .ok ((bytes (before ++ [p])).length, s1.del p.serial, complete.set p.serial (streamOf p.serial (before ++ [p])))
      else .ok ((bytes (before ++ [p])).length, s1.set p.serial (streamOf p.serial (before ++ [p])), complete) := by
    unfold readPage
    rw [if_neg (by simpa using f1), f2, f3, f4, f5, f6]
    simp only [f7]
    rw [← hv.2.2.2.2, f8, hflag, hflag4]
    rw [if_neg (by simp), if_neg (by rw [hbos, hhas]; simp)]
    have : Dict.get? (if streams.has p.serial then streams else
      streams.set p.serial ⟨(detectMedia p.body).1, (detectMedia p.body).2, -1, []⟩) p.serial = some st := g1
    rw [this]
    simp only
    rw [if_neg (by rw [g2]; omega), g3, hlen]
  rw [hrun]
  cases hee : p.eos with
  | true =>
    refine ⟨_, _, if_pos rfl, Dict.nodup_del _ hs1 _, Dict.nodup_set _ hi.nodup' _ _, ?_, ?_⟩
    · intro k
      rw [Dict.get?_del _ hs1, started_append, ended_append, hee]
      by_cases hk : p.serial = k
      · subst hk; simp
      · rw [if_neg hk, hother k hk, hi.running, streamOf_other k before p hk]; simp [hk]
    · intro k
      rw [Dict.get?_set, ended_append, hee]
      by_cases hk : p.serial = k
      · subst hk; simp
      · rw [if_neg hk, hi.finished, streamOf_other k before p hk]; simp [hk]
  | false =>
    refine ⟨_, _, if_neg (by simp), Dict.nodup_set _ hs1 _ _, hi.nodup', ?_, ?_⟩
    · intro k
      rw [Dict.get?_set, started_append, ended_append, hee]
      by_cases hk : p.serial = k
      · subst hk; simp [hend]
      · rw [if_neg hk, hother k hk, hi.running, streamOf_other k before p hk]; simp [hk]
    · intro k
      rw [ended_append, hee, hi.finished]
      by_cases hk : p.serial = k
      · subst hk; simp [hend]
      · rw [streamOf_other k before p hk]; simp

theorem readPages_step {d : Data} {pos next : Nat} {s c s' c' : Streams} (hl : pos + 27 ≤ d.length)
    (h : readPage d pos s c = .ok (next, s', c')) : readPages d pos s c = readPages d next s' c' := by
  rw [readPages, if_neg (by omega)]
  split
  · next e he => rw [h] at he; cases he
  · next n s2 c2 he => rw [h] at he; cases he; rfl

/-- Any number of pages. -/
theorem readPages_ok (d : Data) (pages : List Page) : ∀ (before : List Page) (rest : Data) (streams complete : Streams),
    (∀ p ∈ pages, p.Valid) → d.drop (bytes before).length = bytes pages ++ rest → Inv before streams complete →
    Flagged before pages →
    ∃ s c, readPages d (bytes before).length streams complete = readPages d (bytes (before ++ pages)).length s c ∧
      Inv (before ++ pages) s c := by
  induction pages with
  | nil => intro before rest s c _ _ hi _; exact ⟨s, c, by simp, by simpa using hi⟩
  | cons p ps ih =>
    intro before rest s c hv hd hi hf
    rw [bytes_cons, List.append_assoc] at hd
    obtain ⟨s1, c1, h1, h2⟩ := readPage_ok d before p _ s c (hv p (by simp)) hd hi hf.1 hf.2.1
    have hlen : (bytes before).length + 27 ≤ d.length := by
      have := congrArg List.length hd
      simp only [List.length_drop, List.length_append, length_bytes] at this
      omega
    obtain ⟨s2, c2, h3, h4⟩ := ih (before ++ [p]) rest s1 c1 (fun q hq => hv q (by simp [hq])) (by
      rw [bytes_append, List.length_append, bytes_cons]
      have : p.bytes ++ bytes [] = p.bytes := by simp [bytes]
      rw [this]
      exact drop_front _ _ _ d _ rfl hd) h2 hf.2.2
    refine ⟨s2, c2, ?_, by simpa using h4⟩
    rw [readPages_step hlen h1, h3]
    simp

/-- The ranges of a stream give its pages. -/
theorem exposed_records (serial : Nat) (d : Data) (pages : List Page) : ∀ (pos : Nat) (rest : Data),
    d.drop pos = bytes pages ++ rest →
    exposed d ((records serial pos pages).map
      (fun p : PageRec => (p.headerOffset, p.dataOffset - p.headerOffset + p.dataSize))) = streamBytes serial pages := by
  induction pages with
  | nil => intros; rfl
  | cons p ps ih =>
    intro pos rest hd
    rw [bytes_cons, List.append_assoc] at hd
    have hnext := drop_front _ _ pos d _ rfl hd
    have h := ih _ rest hnext
    unfold streamBytes at h ⊢
    by_cases hs : p.serial = serial
    · simp only [records, List.cons_append, List.nil_append, List.map_cons, exposed, List.flatten_cons,
        List.filter_cons, hs, decide_true, if_true, bytes_cons]
      unfold exposed at h
      rw [h]
      congr 1
      rw [hd]
      refine List.take_left' ?_
      rw [length_bytes]
      omega
    · simp only [records, List.filter_cons, hs, decide_false]
      simpa using h

theorem inside_records (serial : Nat) (d : Data) (pages : List Page) : ∀ (pos : Nat) (rest : Data),
    d.drop pos = bytes pages ++ rest → ∀ x ∈ (records serial pos pages).map
      (fun p : PageRec => (p.headerOffset, p.dataOffset - p.headerOffset + p.dataSize)), x.1 + x.2 ≤ d.length := by
  induction pages with
  | nil => simp [records]
  | cons p ps ih =>
    intro pos rest hd x hx
    rw [bytes_cons, List.append_assoc] at hd
    have hnext := drop_front _ _ pos d _ rfl hd
    simp only [records, List.map_append, List.mem_append] at hx
    rcases hx with hx | hx
    · split at hx
      · simp only [List.map_cons, List.map_nil, List.mem_singleton] at hx
        subst hx
        have := congrArg List.length hd
        simp only [List.length_drop, List.length_append, length_bytes] at this
        simp only
        omega
      · simp at hx
    · exact ih _ rest hnext x hx

theorem size_records (serial : Nat) (pages : List Page) : ∀ pos, ((records serial pos pages).map
    (fun p : PageRec => p.dataOffset - p.headerOffset + p.dataSize)).sum = (streamBytes serial pages).length := by
  induction pages with
  | nil => intros; rfl
  | cons p ps ih =>
    intro pos
    have h := ih (pos + p.bytes.length)
    unfold streamBytes at h ⊢
    by_cases hs : p.serial = serial
    · simp only [records, List.cons_append, List.nil_append, List.map_cons, List.sum_cons,
        List.filter_cons, hs, decide_true, if_true, bytes_cons, List.length_append, length_bytes]
      rw [length_bytes] at h
      omega
    · simp only [records, List.filter_cons, hs, decide_false]
      simpa using h

theorem sum_filter (pages : List Page) (ids : List Nat) (hn : ids.Nodup) (hc : ∀ p ∈ pages, p.serial ∈ ids) :
    (ids.map (fun i => (streamBytes i pages).length)).sum = (bytes pages).length := by
  induction pages with
  | nil =>
    have : ∀ l : List Nat, (l.map (fun _ => 0)).sum = 0 := by
      intro l; induction l with | nil => rfl | cons a l ih => simp only [List.map_cons, List.sum_cons, ih]
    exact this ids
  | cons p ps ih =>
    have ih := ih (fun q hq => hc q (by simp [hq]))
    have one : ∀ (l : List Nat), l.Nodup → (l.map (fun i => (streamBytes i (p :: ps)).length)).sum =
        (if p.serial ∈ l then p.bytes.length else 0) + (l.map (fun i => (streamBytes i ps).length)).sum := by
      intro l
      induction l with
      | nil => intro _; simp
      | cons a l ihl =>
        intro hnd
        have hnd := List.nodup_cons.mp hnd
        simp only [List.map_cons, List.sum_cons, ihl hnd.2]
        by_cases ha : p.serial = a
        · subst ha
          rw [if_neg hnd.1, if_pos List.mem_cons_self]
          simp only [streamBytes, List.filter_cons, decide_true, if_true, bytes_cons, List.length_append]
          omega
        · have : streamBytes a (p :: ps) = streamBytes a ps := by simp [streamBytes, ha]
          rw [this]
          by_cases hm : p.serial ∈ l
          · rw [if_pos hm, if_pos (by simp [hm])]; omega
          · rw [if_neg hm, if_neg (by simp [hm, ha])]; omega
    rw [one ids hn, if_pos (hc p (by simp)), ih, bytes_cons, List.length_append]

theorem parse_streams (pages : List Page) (hv : ∀ p ∈ pages, p.Valid) (hf : Flagged [] pages) (tail : Data)
    (ht : tail.length < 27) : ∃ r, parseOgg (bytes pages ++ tail) = .ok r ∧ r.keys.Nodup ∧
      ∀ serial, Dict.get? r serial = if started serial pages then some (streamOf serial pages) else none := by
  obtain ⟨s, c, h1, h2⟩ := readPages_ok (bytes pages ++ tail) pages [] tail [] [] hv (by simp [bytes]) inv_nil hf
  have hend : readPages (bytes pages ++ tail) (bytes ([] ++ pages)).length s c = .ok (s, c) := by
    rw [readPages, if_pos (by simp only [List.nil_append, List.length_append]; omega)]
  have hz : (bytes ([] : List Page)).length = 0 := rfl
  rw [hend, hz] at h1
  rw [List.nil_append] at h2
  refine ⟨c.update s, by unfold parseOgg; rw [h1], Dict.nodup_update s c h2.nodup', ?_⟩
  intro serial
  rw [Dict.get?_update s h2.nodup, h2.running, h2.finished]
  cases hs : started serial pages with
  | false =>
    cases he : ended serial pages with
    | false => rfl
    | true => rw [ended_started he] at hs; cases hs
  | true => cases ended serial pages <;> rfl

/-- **C63**. Every stream is there, once; its ranges give its pages and nothing else; the sizes add up. Less than 27 bytes
behind the last page are ignored. -/
theorem C63_streams (pages : List Page) (hv : ∀ p ∈ pages, p.Valid) (hf : Flagged [] pages) (tail : Data)
    (ht : tail.length < 27) :
    ∃ r, parseOgg (bytes pages ++ tail) = .ok r ∧ r.keys.Nodup ∧
      (∀ serial, serial ∈ r.keys ↔ ∃ p ∈ pages, p.serial = serial) ∧
      (∀ serial st, (serial, st) ∈ r → exposed (bytes pages ++ tail) st.stencils = streamBytes serial pages ∧
        st.size = (streamBytes serial pages).length ∧ ∀ x ∈ st.stencils, x.1 + x.2 ≤ (bytes pages ++ tail).length) ∧
      (r.map (fun e : Nat × Stream => e.2.size)).sum + tail.length = (bytes pages ++ tail).length := by
  obtain ⟨r, hr, hnd, hget⟩ := parse_streams pages hv hf tail ht
  have hkeys : ∀ serial, serial ∈ r.keys ↔ ∃ p ∈ pages, p.serial = serial := by
    intro serial
    rw [Dict.mem_keys_iff, hget]
    cases hs : started serial pages with
    | true => simpa [started] using hs
    | false =>
      have := started_false.mp hs
      simp only [Bool.false_eq_true, if_false, Option.isSome_none, false_iff]
      intro ⟨p, hp, he⟩
      exact this p hp he
  have hent : ∀ serial st, (serial, st) ∈ r → st = streamOf serial pages := by
    intro serial st hm
    have := Dict.get?_eq_some_of_mem _ hnd hm
    rw [hget] at this
    split at this
    · injection this with this; exact this.symm
    · cases this
  have hsize : ∀ serial, (streamOf serial pages).size = (streamBytes serial pages).length := by
    intro serial
    rw [← size_records serial pages 0]
    simp [Stream.size, Stream.stencils, streamOf, Function.comp_def]
  refine ⟨r, hr, hnd, hkeys, ?_, ?_⟩
  · intro serial st hm
    rw [hent serial st hm]
    exact ⟨exposed_records serial _ pages 0 tail (by simp), hsize serial,
      inside_records serial _ pages 0 tail (by simp)⟩
  · have : r.map (fun e : Nat × Stream => e.2.size) =
        r.keys.map (fun i => (streamBytes i pages).length) := by
      rw [Dict.keys, List.map_map]
      refine List.map_congr_left ?_
      intro e he
      show e.2.size = (streamBytes e.1 pages).length
      rw [hent e.1 e.2 he, hsize]
    rw [this, sum_filter pages _ hnd (fun p hp => (hkeys p.serial).mpr ⟨p, hp, rfl⟩), List.length_append]

/-- **C63** with C01: reading the file of a stream, in any way, is reading its pages. -/
theorem C63_reads (pages : List Page) (hv : ∀ p ∈ pages, p.Valid) (hf : Flagged [] pages) (tail : Data)
    (ht : tail.length < 27) (store : Stencil.Store UInt8) (hs : (store 0).content = bytes pages ++ tail)
    (hc : (store 0).closed = false) (r : Streams) (hr : parseOgg (bytes pages ++ tail) = .ok r) (serial : Nat) (st : Stream)
    (hm : (serial, st) ∈ r) (ops : List Stencil.Op)
    (hacc : (Stencil.MemFile.mk (streamBytes serial pages) 0).accepts ops = true) :
    ∃ raw, Stencil.Raw.init (st.stencils.map (fun s : Nat × Nat => (0, (s.1 : Int), (s.2 : Int)))) = .ok raw ∧
      Stencil.run (store, raw) ops = (Stencil.MemFile.mk (streamBytes serial pages) 0).run ops := by
  obtain ⟨r', h1, h2, h3, h4, h5⟩ := C63_streams pages hv hf tail ht
  rw [hr] at h1
  injection h1 with h1
  subst h1
  obtain ⟨g1, g2, g3⟩ := h4 serial st hm
  have hj : Stencil.joined store (st.stencils.map (fun s : Nat × Nat => (0, (s.1 : Int), (s.2 : Int)))) =
      streamBytes serial pages := by
    rw [← g1]
    simp only [Stencil.joined, exposed, List.flatMap_def, List.map_map, Function.comp_def, hs, Int.toNat_natCast]
  have hin : Stencil.Inside store (st.stencils.map (fun s : Nat × Nat => (0, (s.1 : Int), (s.2 : Int)))) := by
    intro s hsm
    obtain ⟨x, hx, rfl⟩ := List.mem_map.mp hsm
    have := g3 x hx
    simp only [hs, hc, and_true]
    omega
  have hfin := Stencil.C01_stencil_reads_are_slices store _ hin ops (by rw [hj]; exact hacc)
  rw [hj] at hfin
  exact hfin

theorem hexDigit_inj {a b : Nat} (ha : a < 16) (hb : b < 16) (h : hexDigit a = hexDigit b) : a = b := by
  have : ∀ a < 16, ∀ b < 16, hexDigit a = hexDigit b → a = b := by decide
  exact this a ha b hb h

theorem length_hex (k : Nat) : ∀ n, (hex k n).length = k := by
  induction k with
  | zero => intro n; rfl
  | succ k ih => intro n; simp [hex, ih]

theorem hex_inj (k : Nat) : ∀ a b, a < 16 ^ k → b < 16 ^ k → hex k a = hex k b → a = b := by
  induction k with
  | zero => intro a b ha hb _; omega
  | succ k ih =>
    intro a b ha hb h
    rw [Nat.pow_succ] at ha hb
    obtain ⟨h1, h2⟩ := List.append_inj h (by rw [length_hex, length_hex])
    have e1 := ih (a / 16) (b / 16) (by omega) (by omega) h1
    injection h2 with h2
    have e2 := hexDigit_inj (by omega) (by omega) h2
    omega

theorem media_no_underscore (data : Data) : '_' ∉ (detectMedia data).1 := by
  unfold detectMedia
  split
  · next c hc =>
    have : ∀ c ∈ codecs, '_' ∉ c.1 := by decide
    exact this c (List.mem_of_find?_eq_some hc)
  · decide

theorem append_sep {a b c d : Str} (ha : '_' ∉ a) (hb : '_' ∉ b) (h : a ++ '_' :: c = b ++ '_' :: d) : a = b ∧ c = d := by
  induction a generalizing b with
  | nil =>
    cases b with
    | nil => injection h with _ h; exact ⟨rfl, h⟩
    | cons x b => injection h with h _; exact absurd (h ▸ List.mem_cons_self) hb
  | cons x a ih =>
    cases b with
    | nil => injection h with h _; exact absurd (h ▸ List.mem_cons_self) ha
    | cons y b =>
      injection h with h1 h2
      obtain ⟨e1, e2⟩ := ih (fun hm => ha (List.mem_cons_of_mem _ hm)) (fun hm => hb (List.mem_cons_of_mem _ hm)) h2
      exact ⟨by rw [h1, e1], e2⟩

/-- **C63**: different streams have different names. -/
theorem C63_names (pages : List Page) (hv : ∀ p ∈ pages, p.Valid) (hf : Flagged [] pages) (tail : Data)
    (ht : tail.length < 27) (r : Streams) (hr : parseOgg (bytes pages ++ tail) = .ok r) (e e' : Nat × Stream) (he : e ∈ r)
    (he' : e' ∈ r) (h : fileName e.1 e.2 = fileName e'.1 e'.2) : e = e' := by
  obtain ⟨r', k0, g2, hget⟩ := parse_streams pages hv hf tail ht
  obtain ⟨r'', g1, -, g3, -, -⟩ := C63_streams pages hv hf tail ht
  rw [hr] at g1 k0
  injection g1 with g1
  injection k0 with k0
  subst g1 k0
  have hmedia : ∀ e ∈ r, '_' ∉ e.2.media := by
    intro e he
    have := Dict.get?_eq_some_of_mem r g2 he
    rw [hget] at this
    split at this
    · injection this with this
      rw [← this]
      exact media_no_underscore _
    · cases this
  have hserial : ∀ e ∈ r, e.1 < 16 ^ 8 := by
    intro e he
    obtain ⟨p, hp, hp2⟩ := (g3 e.1).mp (List.mem_map.mpr ⟨e, he, rfl⟩)
    have := (hv p hp).2.1
    omega
  unfold fileName at h
  obtain ⟨-, h2⟩ := append_sep (hmedia e he) (hmedia e' he') h
  obtain ⟨h3, -⟩ := List.append_inj h2 (by rw [length_hex, length_hex])
  have hs := hex_inj 8 _ _ (hserial e he) (hserial e' he') h3
  have k1 := Dict.get?_eq_some_of_mem r g2 he
  have k2 := Dict.get?_eq_some_of_mem r g2 he'
  rw [hs, k2] at k1
  injection k1 with k1
  exact Prod.ext hs k1.symm

/-! ### names of streams -/

/-- How the first packet of a stream begins (wiki.xiph.org/MIMETypesCodecs), the word in its name, and the extension. -/
def beginnings : List (String × String × String) := [
  ("OpusHead", "audio", ".oga"), ("\x01vorbis", "audio", ".oga"), ("\x7fFLAC", "audio", ".oga"), ("Speex   ", "audio", ".oga"),
  ("CELT    ", "audio", ".oga"), ("PCM     ", "audio", ".oga"), ("\x01audio", "audio", ".ogm"),
  ("\u0080theora", "video", ".ogv"), ("BBCD\x00", "video", ".ogv"), ("\u008bJNG\r\n\x1a\n", "video", ".ogv"),
  ("\u008aMNG\r\n\x1a\n", "video", ".ogv"), ("\u0089PNG\r\n\x1a\n", "video", ".ogv"), ("YUV4MPEG", "video", ".ogv"),
  ("\x01video", "video", ".ogm"),
  ("CMML\x00\x00\x00\x00", "text", ".ogg"), ("\u0080kate\x00\x00\x00", "text", ".ogg"), ("OggMIDI\x00", "text", ".ogg"),
  ("\x01text", "text", ".ogm")]

/-- The bytes of a beginning. -/
def octets (s : String) : Data := s.toList.map (fun c => UInt8.ofNat c.toNat)

/-- The eight digits of a number. -/
def IsHex (n : Nat) (s : Str) : Prop :=
  ∃ ds : List Nat, s = ds.map (fun d => "0123456789abcdef".toList.getD d '?') ∧ ds.length = 8 ∧ (∀ d ∈ ds, d < 16) ∧ ds.foldl (fun a d => 16 * a + d) 0 = n

theorem hex_digits (k : Nat) : ∀ n, n < 16 ^ k → ∃ ds : List Nat, hex k n = ds.map (fun d => "0123456789abcdef".toList.getD d '?') ∧ ds.length = k ∧
    (∀ d ∈ ds, d < 16) ∧ ds.foldl (fun a d => 16 * a + d) 0 = n := by
  induction k with
  | zero => intro n hn; exact ⟨[], rfl, rfl, by simp, by simp at hn ⊢; omega⟩
  | succ k ih =>
    intro n hn
    obtain ⟨ds, h1, h2, h3, h4⟩ := ih (n / 16) (by rw [Nat.pow_succ] at hn; omega)
    have hd : ∀ d < 16, hexDigit d = "0123456789abcdef".toList.getD d '?' := by decide
    refine ⟨ds ++ [n % 16], ?_, by simp [h2], ?_, ?_⟩
    · rw [hex, h1, hd _ (by omega), List.map_append, List.map_singleton]
    · intro d hm
      rcases List.mem_append.mp hm with h | h
      · exact h3 d h
      · rw [List.mem_singleton.mp h]; omega
    · rw [List.foldl_append, h4]
      simp only [List.foldl_cons, List.foldl_nil]
      omega

theorem isPrefix_total {a b l : Data} (ha : a <+: l) (hb : b <+: l) : a <+: b ∨ b <+: a := by
  rcases Nat.le_total a.length b.length with h | h
  · exact .inl (List.prefix_of_prefix_length_le ha hb h)
  · exact .inr (List.prefix_of_prefix_length_le hb ha h)

/-- What `fileName` makes of the result of `detectMedia`. -/
def extensionOf (m : Str × Str) : Str :=
  if m.2 = "ogm".toList then ".ogm".toList
  else if m.1 = "video".toList then ".ogv".toList
  else if m.1 = "audio".toList then ".oga".toList
  else ".ogg".toList

theorem detect_known {b : String × String × String} (hb : b ∈ beginnings) {data : Data} (h : octets b.1 <+: data) :
    (detectMedia data).1 = b.2.1.toList ∧ extensionOf (detectMedia data) = b.2.2.toList := by
  have hall : ∀ c ∈ codecs, ∀ b ∈ beginnings, (c.2.2.isPrefixOf (octets b.1) || (octets b.1).isPrefixOf c.2.2) = true →
      c.1 = b.2.1.toList ∧ extensionOf (c.1, c.2.1) = b.2.2.toList := by decide +kernel
  have hsome : ∀ b ∈ beginnings, ∃ c ∈ codecs, c.2.2 = octets b.1 := by decide +kernel
  unfold detectMedia
  cases hf : codecs.find? (fun c : Str × Str × Data => c.2.2.isPrefixOf data) with
  | none =>
    obtain ⟨c, hc, he⟩ := hsome b hb
    have := List.find?_eq_none.mp hf c hc
    rw [he] at this
    exact absurd (List.isPrefixOf_iff_prefix.mpr h) (by simpa using this)
  | some c =>
    have h1 := List.mem_of_find?_eq_some hf
    have h2 := List.find?_some hf
    have h3 := isPrefix_total (List.isPrefixOf_iff_prefix.mp h2) h
    refine hall c h1 b hb ?_
    simpa [Bool.or_eq_true, List.isPrefixOf_iff_prefix] using h3

theorem detect_unknown {data : Data} (h : ∀ b ∈ beginnings, ¬ octets b.1 <+: data) :
    (detectMedia data).1 = "unknown".toList ∧ extensionOf (detectMedia data) = ".ogg".toList := by
  have hsome : ∀ c ∈ codecs, ∃ b ∈ beginnings, c.2.2 = octets b.1 := by decide +kernel
  unfold detectMedia
  rw [List.find?_eq_none.mpr (by
    intro c hc
    obtain ⟨b, hb, he⟩ := hsome c hc
    rw [he, List.isPrefixOf_iff_prefix]
    exact h b hb)]
  decide

/-- **C63**: the name of a stream tells what its first packet begins with, and its number. -/
theorem C63_filename (pages : List Page) (hv : ∀ p ∈ pages, p.Valid) (hf : Flagged [] pages) (tail : Data)
    (ht : tail.length < 27) (r : Streams) (hr : parseOgg (bytes pages ++ tail) = .ok r) (serial : Nat) (st : Stream) (hm : (serial, st) ∈ r) :
    ∃ p digits, pages.find? (fun p : Page => p.serial = serial) = some p ∧ IsHex serial digits ∧
      (∀ b ∈ beginnings, octets b.1 <+: p.body → fileName serial st = b.2.1.toList ++ '_' :: (digits ++ b.2.2.toList)) ∧
      ((∀ b ∈ beginnings, ¬ octets b.1 <+: p.body) → fileName serial st = "unknown_".toList ++ (digits ++ ".ogg".toList)) := by
  obtain ⟨r', k0, g2, hget⟩ := parse_streams pages hv hf tail ht
  rw [hr] at k0
  injection k0 with k0
  subst k0
  have k1 := Dict.get?_eq_some_of_mem r g2 hm
  rw [hget] at k1
  cases hst : started serial pages with
  | false => rw [hst] at k1; cases k1
  | true =>
    rw [hst] at k1
    injection k1 with k1
    cases hp : pages.find? (fun p : Page => p.serial = serial) with
    | none =>
      obtain ⟨q, hq, hs⟩ := List.any_eq_true.mp hst
      exact absurd hs (by simpa using List.find?_eq_none.mp hp q hq)
    | some p =>
      have hlt : serial < 16 ^ 8 := by
        have := (hv p (List.mem_of_find?_eq_some hp)).2.1
        have hs := List.find?_some hp
        simp only [decide_eq_true_eq] at hs
        omega
      have hst' : (st.media, st.subtype) = detectMedia p.body := by
        rw [← k1]
        unfold streamOf
        rw [hp]
        rfl
      have hname : fileName serial st = (detectMedia p.body).1 ++ '_' :: (hex 8 serial ++ extensionOf (detectMedia p.body)) := by
        rw [← hst']
        rfl
      refine ⟨p, hex 8 serial, rfl, hex_digits 8 serial hlt, ?_, ?_⟩
      · intro b hb h
        obtain ⟨e1, e2⟩ := detect_known hb h
        rw [hname, e1, e2]
      · intro h
        obtain ⟨e1, e2⟩ := detect_unknown h
        rw [hname, e1, e2]
        rfl

/-- Two interleaved streams; one of them is Vorbis, the other one has no end. -/
def twoStreams : List Page := [
  ⟨2, 0, 7, 0, 0, [7], [0x01, 0x76, 0x6F, 0x72, 0x62, 0x69, 0x73]⟩,
  ⟨2, 0, 9, 0, 0, [2], [1, 2]⟩,
  ⟨0, 0, 7, 1, 0, [255, 1], List.replicate 256 3⟩,
  ⟨0, 0, 9, 1, 0, [], []⟩,
  ⟨4, 0, 7, 2, 0, [1], [5]⟩]

example : (∀ p ∈ twoStreams, p.Valid) ∧ Flagged [] twoStreams ∧
    (parseOgg (bytes twoStreams)).toOption.map (fun r => r.map (fun e : Nat × Stream => (fileName e.1 e.2, e.2.size))) =
      some [("audio_00000007.oga".toList, 349), ("unknown_00000009.ogg".toList, 57)] := by
  refine ⟨?_, ?_, by decide +kernel⟩
  · unfold Page.Valid
    decide +kernel
  · simp only [twoStreams, Flagged, Page.bos, Page.eos, List.nil_append, List.cons_append]
    decide

/-- Files that are chained with the same number are not well-formed (RFC 3533, section 4). The first of them is lost. -/
example : (parseOgg (bytes [⟨6, 0, 7, 0, 0, [1], [1]⟩, ⟨6, 0, 7, 0, 0, [2], [2, 2]⟩])).toOption.map
    (fun r => r.map (fun e : Nat × Stream => e.2.stencils)) = some [[(29, 30)]] := by decide +kernel

/-! ## C99: damage is noticed -/

/-- The page numbers of every stream go up. -/
def InOrder (pages : List Page) : Prop :=
  ∀ serial, ((pages.filter (fun p : Page => p.serial = serial)).map (fun p : Page => p.sequence)).Pairwise (· < ·)

/-- If pages are repeated or not in their order, or the first page of a stream is missing, there is an error. -/
def C99_statement : Prop :=
  ∀ (pages : List Page), (∀ p ∈ pages, p.Valid) → ¬ (InOrder pages ∧ Flagged [] pages) →
    parseOgg (bytes pages) = .error .valueError

/-- C99 is violated: the number of the last page is never stored, so that repeated pages are not noticed. -/
theorem C99_violated : ¬ C99_statement := by
  intro h
  have := h [⟨2, 0, 7, 0, 0, [], []⟩, ⟨0, 0, 7, 1, 0, [], []⟩, ⟨4, 0, 7, 1, 0, [], []⟩] (by unfold Page.Valid; decide) (by
    intro ⟨h1, _⟩
    exact absurd (h1 7) (by decide))
  exact absurd this (by decide +kernel)

/-- **C99**, provable part: the marks of the first pages are checked. A stream that is not known yet begins with a page that is
not marked as the first one (the real one is missing), or a running stream has another first page. Missing: the order of the
pages, which is not checked, and pages behind the last page of a stream. -/
theorem C99_first_partial (pages : List Page) (p : Page) (rest : Data) (hv : ∀ q ∈ pages, q.Valid) (hp : p.Valid)
    (hf : Flagged [] pages) (hbad : ¬ (p.bos = true ↔ ∀ q ∈ pages, q.serial ≠ p.serial))
    (hrun : ∀ q ∈ pages, q.serial = p.serial → q.eos = false) :
    parseOgg (bytes pages ++ (p.bytes ++ rest)) = .error .valueError := by
  obtain ⟨s, c, h1, h2⟩ := readPages_ok (bytes pages ++ (p.bytes ++ rest)) pages [] (p.bytes ++ rest) [] [] hv
    (by simp [bytes]) inv_nil hf
  have hz : (bytes ([] : List Page)).length = 0 := rfl
  rw [hz] at h1
  rw [List.nil_append] at h1 h2
  have hd : (bytes pages ++ (p.bytes ++ rest)).drop (bytes pages).length = p.bytes ++ rest := List.drop_left
  obtain ⟨f1, f2, f3, f4, f5, f6, f7, f8⟩ := fields_at _ _ p rest hp hd
  have hhas : s.has p.serial = started p.serial pages := by
    rw [has_eq, h2.running, ended_false.mpr hrun]
    cases started p.serial pages <;> rfl
  have hpage : readPage (bytes pages ++ (p.bytes ++ rest)) (bytes pages).length s c = .error .valueError := by
    unfold readPage
    rw [if_neg (by simpa using f1), f2, f3, f4, f5, f6]
    simp only [f7]
    rw [if_neg (by simp), if_pos]
    rw [hhas, show (p.flags &&& 2 != 0) = p.bos from rfl, bne_iff_ne]
    intro heq
    apply hbad
    rw [heq]
    cases hs : started p.serial pages with
    | false => simpa using started_false.mp hs
    | true =>
      simp only [Bool.not_true, Bool.false_eq_true, false_iff]
      intro hno
      rw [started_false.mpr hno] at hs
      cases hs
  unfold parseOgg
  rw [h1, readPages, if_neg (by simp only [List.length_append, length_bytes]; omega)]
  split
  · next e he =>
    split at he
    · next e' he' => rw [hpage] at he'; injection he' with he'; injection he with he; rw [← he, ← he']
    · next _ _ _ he' => rw [hpage] at he'; cases he'
  · next he =>
    split at he
    · cases he
    · next _ _ _ he' => rw [hpage] at he'; cases he'

example : parseOgg (bytes (twoStreams.drop 1)) = .error .valueError ∧ Flagged [] [twoStreams[1]] := by
  refine ⟨by decide +kernel, ?_⟩
  simp only [twoStreams, Flagged, Page.bos]
  decide

end Verif.Ogg
