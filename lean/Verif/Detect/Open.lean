import Verif.Detect.Backends
import Verif.Bytes

/-!
# C126, C127, C128: opening compressed files
(core/ratarmountcore/compressions.py:88-147, 407-618, core/ratarmountcore/formats.py:284-297,
core/ratarmountcore/mountsource/formats/tar.py:623-630)

Libraries are modelled by whether they are installed and whether they can read a file. The number of threads is not modelled.
-/

namespace Verif.Detect

open Verif.Py Verif.Bin

/-! ## Model -/

/-- `FileFormatID.BZIP2` (formats.py:74). -/
def bzip2Id : Nat := 0x1001
/-- `FileFormatID.GZIP` (formats.py:75). -/
def gzipId : Nat := 0x1002
/-- `FileFormatID.XZ` (formats.py:76). -/
def xzId : Nat := 0x1003
/-- `FileFormatID.ZSTANDARD` (formats.py:77). -/
def zstdId : Nat := 0x1004
/-- `FileFormatID.ZLIB` (formats.py:78). -/
def zlibId : Nat := 0x1005
/-- `FileFormatID.DEFLATE` (formats.py:81). -/
def deflateId : Nat := 0x1008

/-- The name of the library and backend rapidgzip (compressions.py:97-100). -/
def rapidgzip : Str := "rapidgzip".toList
/-- The name of the library and backend indexed_gzip (compressions.py:103-106). -/
def indexedGzip : Str := "indexed_gzip".toList
/-- The name of the library and backend libarchive (compressions.py:122). -/
def libarchive : Str := "libarchive".toList
/-- The name of the backend for bzip2 (compressions.py:89). -/
def rapidBzip2 : Str := "rapidgzip-bzip2".toList

/-- The formats of libarchive (compressions.py:127-143). -/
def libarchiveIds : List Nat :=
  [0x1001, 0x1002, 0x1003, 0x1004, 0x1021, 0x1022, 0x1006, 0x1023, 0x1007, 0x1024, 0x1025, 0x1026, 0x1027]

/-- `COMPRESSION_BACKENDS` (compressions.py:88-147). -/
def backends : Dict Str Compression :=
  [(rapidBzip2, ⟨[bzip2Id], [rapidgzip]⟩),
    (rapidgzip, ⟨[gzipId, zlibId, deflateId], [rapidgzip]⟩),
    (indexedGzip, ⟨[gzipId], [indexedGzip]⟩),
    ("xz".toList, ⟨[xzId], ["xz".toList]⟩),
    ("lzmaffi".toList, ⟨[xzId], ["lzmaffi".toList]⟩),
    ("indexed_zstd".toList, ⟨[zstdId], ["indexed_zstd".toList]⟩),
    (libarchive, ⟨libarchiveIds, [libarchive]⟩)]

/-- The backends that open TARs (tar.py:627-629). -/
def tarBackends : List Str :=
  [rapidBzip2, rapidgzip, indexedGzip, "xz".toList, "lzmaffi".toList, "indexed_zstd".toList]

/-- The keys of `COMPRESSION_FORMATS` (formats.py:384-417). -/
def formatIds : List Nat :=
  [bzip2Id, gzipId, xzId, zstdId, zlibId, deflateId, 0x1021, 0x1022, 0x1006, 0x1023, 0x1007, 0x1024, 0x1025, 0x1026, 0x1027]

/-- A file and the installed libraries: `might` is `might_be_format`, `readable` whether a byte can be read as that format, `real` whether
it is a file with a path, and its size. -/
structure Input where
  installed : Str → Bool
  might : Nat → Bool
  readable : Nat → Bool
  real : Bool
  size : Nat

/-- Whether `backend.open` and `read(1)` succeed (compressions.py:442-453). The backend libarchive gives an object without `read`
(compressions.py:123-126). Zstandard files are not read. -/
def opens (i : Input) (backend : Str) (format : Nat) : Bool := backend ≠ libarchive && (format = zstdId || i.readable format)

/-- The loop of `detect_compression` (compressions.py:428-465). -/
def detect (i : Input) (prioritized : List Str) : List Nat → Option Nat
  | [] => none
  | f :: fs =>
    if i.might f then
      match findAvailable backends i.installed f none prioritized with
      | none => none
      | some b => if opens i b f then some f else detect i prioritized fs
    else detect i prioritized fs

/-- `list.index` (used in compressions.py:488). -/
def indexOf (x : Str) : List Str → Nat
  | [] => 0
  | y :: l => if y = x then 0 else indexOf x l + 1

/-- Whether indexed_gzip has a higher priority than rapidgzip (compressions.py:483-492). -/
def indexedFirst (prioritized : List Str) : Bool :=
  prioritized.contains indexedGzip &&
    ((prioritized.contains rapidgzip && decide (indexOf indexedGzip prioritized < indexOf rapidgzip prioritized)) ||
      !prioritized.contains rapidgzip)

/-- `use_rapidgzip` (compressions.py:470-515). -/
def useRapidgzip (i : Input) (spacing : Nat) (prioritized : List Str) : Bool :=
  i.installed rapidgzip && !indexedFirst prioritized && i.real && decide (i.size ≥ 4 * spacing)

/-- What a file is opened as: as it is, or with a library. -/
inductive Opened
  | raw
  | with_ (library : Str)
  deriving DecidableEq, Repr

/-- Using a library that is not installed: the name is bound to None (compressions.py:30-58). -/
def useLibrary (i : Input) (library : Str) : Except PyErr Opened :=
  if i.installed library then .ok (.with_ library) else .error .typeError

/-- `open_compressed_file` after the compression was found (compressions.py:536-608). -/
def openAs (i : Input) (spacing : Nat) (enabled : List Str) (prioritized : List Str) (f : Nat) : Except PyErr Opened :=
  if (backends.filter (fun e : Str × Compression => enabled.contains e.1 && e.2.formats.contains f)).isEmpty then .ok .raw
  else match findAvailable backends i.installed f (some enabled) prioritized with
    | none => .error .compression
    | some b =>
      if f = gzipId then (if useRapidgzip i spacing prioritized then useLibrary i rapidgzip else useLibrary i indexedGzip)
      else if f = bzip2Id then useLibrary i rapidgzip
      else .ok (.with_ b)

/-- `open_compressed_file` as TARs use it (compressions.py:518-618, tar.py:623-630). -/
def openCompressed (i : Input) (spacing : Nat) (prioritized : List Str) : Except PyErr Opened :=
  match detect i prioritized formatIds with
  | none => .ok .raw
  | some f => openAs i spacing tarBackends prioritized f

/-- `_check_zlib_header` (formats.py:284-297). -/
def checkZlib (file : Data) : Bool :=
  match file with
  | cmf :: flags :: _ =>
    (cmf.toNat % 16 == 8) && decide (cmf.toNat / 16 ≤ 7) && ((cmf.toNat * 256 + flags.toNat) % 31 == 0) && ((flags.toNat / 32) % 2 == 0)
  | _ => false

/-! ## C126 -/

/-- The libraries that can read a format for TARs: the library and the format. -/
inductive Reads : Str → Nat → Prop
  | rapid_bzip2 : Reads "rapidgzip".toList 0x1001
  | rapid_gzip : Reads "rapidgzip".toList 0x1002
  | rapid_zlib : Reads "rapidgzip".toList 0x1005
  | rapid_deflate : Reads "rapidgzip".toList 0x1008
  | indexed_gzip : Reads "indexed_gzip".toList 0x1002
  | xz : Reads "xz".toList 0x1003
  | lzmaffi : Reads "lzmaffi".toList 0x1003
  | zstd : Reads "indexed_zstd".toList 0x1004

/-- A file of exactly one compression. -/
def IsCompressed (i : Input) (f : Nat) : Prop := i.might f = true ∧ i.readable f = true ∧ ∀ g, g ≠ f → i.might g = false

/-- C126 as claimed: a compressed file is opened with some installed library that can read it, if there is one. -/
def C126_statement : Prop :=
  ∀ (i : Input) (spacing : Nat) (prioritized : List Str) (f : Nat) (lib : Str), IsCompressed i f → Reads lib f → i.installed lib = true →
    ∃ used, openCompressed i spacing prioritized = .ok (.with_ used) ∧ i.installed used = true ∧ Reads used f

/-- Only rapidgzip is installed and the gzip file is small. -/
def smallGzip : Input := ⟨fun m => m = rapidgzip, fun f => f = 0x1002, fun f => f = 0x1002, true, 100⟩

/-- C126 does not hold: small gzip files cannot be opened with rapidgzip alone. -/
theorem C126_violated : ¬ C126_statement := by
  intro h
  obtain ⟨used, h1, _⟩ := h smallGzip 1000 [] 0x1002 rapidgzip ⟨rfl, rfl, fun g hg => by simp [smallGzip, hg]⟩ .rapid_gzip (by decide)
  have : openCompressed smallGzip 1000 [] = .error .typeError := by decide +kernel
  rw [this] at h1
  cases h1

theorem backends_nodup : (Dict.keys backends).Nodup := by decide

theorem usable_iff (i : Input) (f : Nat) (enabled : Option (List Str)) (name : Str) :
    Usable backends i.installed f enabled name ↔
      ((name = rapidBzip2 ∧ f = bzip2Id ∧ i.installed rapidgzip = true) ∨
        (name = rapidgzip ∧ (f = gzipId ∨ f = zlibId ∨ f = deflateId) ∧ i.installed rapidgzip = true) ∨
        (name = indexedGzip ∧ f = gzipId ∧ i.installed indexedGzip = true) ∨
        (name = "xz".toList ∧ f = xzId ∧ i.installed "xz".toList = true) ∨
        (name = "lzmaffi".toList ∧ f = xzId ∧ i.installed "lzmaffi".toList = true) ∨
        (name = "indexed_zstd".toList ∧ f = zstdId ∧ i.installed "indexed_zstd".toList = true) ∨
        (name = libarchive ∧ f ∈ libarchiveIds ∧ i.installed libarchive = true)) ∧ ∀ l, enabled = some l → name ∈ l := by
  constructor
  · rintro ⟨info, h1, h2, h3, h4⟩
    refine ⟨?_, h4⟩
    have hm := Dict.mem_of_get? _ h1
    simp only [backends, List.mem_cons, List.not_mem_nil, or_false, Prod.mk.injEq] at hm
    rcases hm with ⟨hn, hi⟩ | ⟨hn, hi⟩ | ⟨hn, hi⟩ | ⟨hn, hi⟩ | ⟨hn, hi⟩ | ⟨hn, hi⟩ | ⟨hn, hi⟩ <;> subst hi <;>
      simp only [List.mem_cons, List.not_mem_nil, or_false, forall_eq] at h2 h3
    · exact .inl ⟨hn, h2, h3⟩
    · exact .inr (.inl ⟨hn, h2, h3⟩)
    · exact .inr (.inr (.inl ⟨hn, h2, h3⟩))
    · exact .inr (.inr (.inr (.inl ⟨hn, h2, h3⟩)))
    · exact .inr (.inr (.inr (.inr (.inl ⟨hn, h2, h3⟩))))
    · exact .inr (.inr (.inr (.inr (.inr (.inl ⟨hn, h2, h3⟩)))))
    · exact .inr (.inr (.inr (.inr (.inr (.inr ⟨hn, h2, h3⟩)))))
  · rintro ⟨h, h4⟩
    rcases h with ⟨rfl, hf, hi⟩ | ⟨rfl, hf, hi⟩ | ⟨rfl, hf, hi⟩ | ⟨rfl, hf, hi⟩ | ⟨rfl, hf, hi⟩ | ⟨rfl, hf, hi⟩ | ⟨rfl, hf, hi⟩
    · exact ⟨⟨[bzip2Id], [rapidgzip]⟩, Dict.get?_eq_some_of_mem _ backends_nodup (by simp [backends]), by simp [hf], by simpa using hi, h4⟩
    · exact ⟨⟨[gzipId, zlibId, deflateId], [rapidgzip]⟩, Dict.get?_eq_some_of_mem _ backends_nodup (by simp [backends]), by simpa using hf, by simpa using hi, h4⟩
    · exact ⟨⟨[gzipId], [indexedGzip]⟩, Dict.get?_eq_some_of_mem _ backends_nodup (by simp [backends]), by simp [hf], by simpa using hi, h4⟩
    · exact ⟨⟨[xzId], ["xz".toList]⟩, Dict.get?_eq_some_of_mem _ backends_nodup (by simp [backends]), by simp [hf], by simpa using hi, h4⟩
    · exact ⟨⟨[xzId], ["lzmaffi".toList]⟩, Dict.get?_eq_some_of_mem _ backends_nodup (by simp [backends]), by simp [hf], by simpa using hi, h4⟩
    · exact ⟨⟨[zstdId], ["indexed_zstd".toList]⟩, Dict.get?_eq_some_of_mem _ backends_nodup (by simp [backends]), by simp [hf], by simpa using hi, h4⟩
    · exact ⟨⟨libarchiveIds, [libarchive]⟩, Dict.get?_eq_some_of_mem _ backends_nodup (by simp [backends]), hf, by simpa using hi, h4⟩

theorem available_usable {i : Input} {f : Nat} {enabled : Option (List Str)} {prioritized : List Str} {b : Str}
    (h : findAvailable backends i.installed f enabled prioritized = some b) : Usable backends i.installed f enabled b := by
  have := C56_first backends backends_nodup i.installed f enabled prioritized
  simp only [h] at this
  rcases this with ⟨_, _, _, h, _⟩ | ⟨_, _, _, _, h, _⟩ <;> exact h

theorem available_some {i : Input} {f : Nat} {enabled : Option (List Str)} {prioritized : List Str} {b : Str}
    (h : Usable backends i.installed f enabled b) : ∃ b', findAvailable backends i.installed f enabled prioritized = some b' := by
  cases hf : findAvailable backends i.installed f enabled prioritized with
  | some b' => exact ⟨b', rfl⟩
  | none =>
    have := C56_first backends backends_nodup i.installed f enabled prioritized
    simp only [hf] at this
    exact absurd h (this b)

theorem reads_usable {i : Input} {f : Nat} {lib : Str} (h : Reads lib f) (hi : i.installed lib = true) :
    (∃ b, Usable backends i.installed f none b ∧ b ≠ libarchive) ∧ ∃ b, Usable backends i.installed f (some tarBackends) b := by
  have key : ∃ b, Usable backends i.installed f none b ∧ b ∈ tarBackends := by
    cases h
    · exact ⟨rapidBzip2, (usable_iff ..).mpr ⟨.inl ⟨rfl, rfl, hi⟩, by simp⟩, by decide⟩
    · exact ⟨rapidgzip, (usable_iff ..).mpr ⟨.inr (.inl ⟨rfl, .inl rfl, hi⟩), by simp⟩, by decide⟩
    · exact ⟨rapidgzip, (usable_iff ..).mpr ⟨.inr (.inl ⟨rfl, .inr (.inl rfl), hi⟩), by simp⟩, by decide⟩
    · exact ⟨rapidgzip, (usable_iff ..).mpr ⟨.inr (.inl ⟨rfl, .inr (.inr rfl), hi⟩), by simp⟩, by decide⟩
    · exact ⟨indexedGzip, (usable_iff ..).mpr ⟨.inr (.inr (.inl ⟨rfl, rfl, hi⟩)), by simp⟩, by decide⟩
    · exact ⟨"xz".toList, (usable_iff ..).mpr ⟨.inr (.inr (.inr (.inl ⟨rfl, rfl, hi⟩))), by simp⟩, by decide⟩
    · exact ⟨"lzmaffi".toList, (usable_iff ..).mpr ⟨.inr (.inr (.inr (.inr (.inl ⟨rfl, rfl, hi⟩)))), by simp⟩, by decide⟩
    · exact ⟨"indexed_zstd".toList, (usable_iff ..).mpr ⟨.inr (.inr (.inr (.inr (.inr (.inl ⟨rfl, rfl, hi⟩))))), by simp⟩, by decide⟩
  obtain ⟨b, hb, ht⟩ := key
  refine ⟨⟨b, hb, fun he => ?_⟩, b, ?_⟩
  · subst he
    revert ht
    decide
  · obtain ⟨info, h1, h2, h3, _⟩ := hb
    exact ⟨info, h1, h2, h3, fun l hl => by cases hl; exact ht⟩

theorem reads_bzip2 {f : Nat} {lib : Str} (h : Reads lib f) (hf : f = bzip2Id) : lib = rapidgzip := by
  unfold bzip2Id at hf
  cases h <;> first | rfl | exact absurd hf (by decide)

theorem last_unique {a c : List Str} {x : Str} (h : tarBackends ++ [libarchive] = a ++ x :: c) (hx : x = libarchive) : a = tarBackends := by
  subst hx
  have hlib : libarchive ∉ tarBackends := by decide
  rcases List.append_eq_append_iff.mp h with ⟨l, h1, h2⟩ | ⟨l, h1, h2⟩
  · cases l with
    | nil => simpa using h1
    | cons y l => simp at h2
  · cases l with
    | nil => simpa using h1.symm
    | cons y l =>
      simp only [List.cons_append, List.cons.injEq] at h2
      exact absurd (by rw [h1, ← h2.1]; simp) hlib

theorem available_other {i : Input} {f : Nat} {prioritized : List Str} {b b' : Str} (hp : libarchive ∉ prioritized)
    (hu : Usable backends i.installed f none b') (hb' : b' ≠ libarchive)
    (h : findAvailable backends i.installed f none prioritized = some b) : b ≠ libarchive := by
  have := C56_first backends backends_nodup i.installed f none prioritized
  simp only [h] at this
  rintro rfl
  rcases this with ⟨a, c, h1, _⟩ | ⟨_, a, c, h1, _, h3⟩
  · exact hp (by rw [h1]; simp)
  · have hk : Dict.keys backends = tarBackends ++ [libarchive] := by decide
    have ha := last_unique (hk ▸ h1) rfl
    obtain ⟨info, hg, _⟩ := id hu
    have hm : b' ∈ Dict.keys backends := (Dict.mem_keys_iff _ _).mpr (by rw [hg]; rfl)
    rw [hk, List.mem_append] at hm
    rcases hm with hm | hm
    · exact h3 b' (ha ▸ hm) hu
    · exact hb' (by simpa using hm)

theorem detect_single {i : Input} {f : Nat} {prioritized : List Str} {b : Str} (hc : IsCompressed i f)
    (hb : findAvailable backends i.installed f none prioritized = some b) (hl : b ≠ libarchive) (l : List Nat) (hf : f ∈ l) :
    detect i prioritized l = some f := by
  induction l with
  | nil => cases hf
  | cons g l ih =>
    unfold detect
    by_cases hg : g = f
    · subst hg
      rw [if_pos hc.1, hb]
      simp only
      rw [if_pos]
      simp [opens, hl, hc.2.1]
    · rw [hc.2.2 g hg]
      simp only [Bool.false_eq_true, if_false]
      exact ih (by simpa [Ne.symm hg] using hf)

/-- C126: with libarchive not prioritised, a compressed file is opened with an installed library that can read it, except gzip files
without indexed_gzip that are small, within another archive, or for which indexed_gzip is preferred. -/
theorem C126_partial (i : Input) (spacing : Nat) (prioritized : List Str) (f : Nat) (lib : Str) (hc : IsCompressed i f) (hr : Reads lib f)
    (hi : i.installed lib = true) (hp : libarchive ∉ prioritized)
    (hg : f = 0x1002 → i.installed "indexed_gzip".toList = true ∨
      ("indexed_gzip".toList ∉ prioritized ∧ i.real = true ∧ 4 * spacing ≤ i.size)) :
    ∃ used, openCompressed i spacing prioritized = .ok (.with_ used) ∧ i.installed used = true ∧ Reads used f := by
  obtain ⟨⟨b', hu', hb'⟩, t, ht⟩ := reads_usable hr hi
  obtain ⟨b, hb⟩ := available_some (prioritized := prioritized) hu'
  have hbl := available_other hp hu' hb' hb
  have hf : f ∈ formatIds := by cases hr <;> decide
  unfold openCompressed
  rw [detect_single hc hb hbl formatIds hf]
  simp only
  obtain ⟨u, hu⟩ := available_some (prioritized := prioritized) ht
  have huu := available_usable hu
  unfold openAs
  rw [if_neg, hu]
  · simp only
    have hu2 := (usable_iff ..).mp huu
    have hnl : u ≠ libarchive := by
      rintro rfl
      exact absurd (hu2.2 _ rfl) (by decide)
    by_cases h1 : f = gzipId
    · rw [if_pos h1]
      subst h1
      by_cases hrap : useRapidgzip i spacing prioritized = true
      · rw [if_pos hrap]
        have : i.installed rapidgzip = true := by
          unfold useRapidgzip at hrap
          simp only [Bool.and_eq_true] at hrap
          exact hrap.1.1.1
        exact ⟨rapidgzip, by rw [useLibrary, if_pos this], this, .rapid_gzip⟩
      · rw [if_neg hrap]
        have : i.installed indexedGzip = true := by
          rcases hg rfl with h | ⟨h, h', h''⟩
          · exact h
          · cases hr with
            | indexed_gzip => exact hi
            | rapid_gzip =>
              exfalso
              apply hrap
              unfold useRapidgzip indexedFirst
              have hn : prioritized.contains indexedGzip = false := by
                rw [← Bool.not_eq_true, List.contains_iff_mem]
                exact h
              rw [hn, h']
              have hi' : i.installed rapidgzip = true := hi
              rw [hi']
              simp [h'']
        exact ⟨indexedGzip, by rw [useLibrary, if_pos this], this, .indexed_gzip⟩
    · rw [if_neg h1]
      by_cases h2 : f = bzip2Id
      · rw [if_pos h2]
        subst h2
        have : i.installed rapidgzip = true := reads_bzip2 hr rfl ▸ hi
        exact ⟨rapidgzip, by rw [useLibrary, if_pos this], this, .rapid_bzip2⟩
      · rw [if_neg h2]
        rcases hu2.1 with ⟨_, h, _⟩ | ⟨rfl, h, hi'⟩ | ⟨_, h, _⟩ | ⟨rfl, rfl, hi'⟩ | ⟨rfl, rfl, hi'⟩ | ⟨rfl, rfl, hi'⟩ | ⟨h, _⟩
        · exact absurd h h2
        · rcases h with h | rfl | rfl
          · exact absurd h h1
          · exact ⟨_, rfl, hi', .rapid_zlib⟩
          · exact ⟨_, rfl, hi', .rapid_deflate⟩
        · exact absurd h h1
        · exact ⟨_, rfl, hi', .xz⟩
        · exact ⟨_, rfl, hi', .lzmaffi⟩
        · exact ⟨_, rfl, hi', .zstd⟩
        · exact absurd h hnl
  · intro hempty
    rw [List.isEmpty_iff, List.filter_eq_nil_iff] at hempty
    obtain ⟨info, hd, h2, _, h4⟩ := huu
    exact hempty (u, info) (Dict.mem_of_get? _ hd) (by simp [h4 _ rfl, h2])

/-- Every library is installed. -/
def sampleXz : Input := ⟨fun _ => true, fun f => f = 0x1003, fun f => f = 0x1003, true, 100⟩

example : IsCompressed sampleXz 0x1003 ∧ openCompressed sampleXz 1000 ["lzmaffi".toList] = .ok (.with_ "lzmaffi".toList) :=
  ⟨⟨rfl, rfl, fun g hg => by simp [sampleXz, hg]⟩, by decide +kernel⟩

/-- Files are also not opened if libarchive is ranked first, as its backend cannot be read from. -/
theorem C126_libarchive_violated (i : Input) (spacing : Nat) (prioritized : List Str) (f : Nat) (hc : IsCompressed i f)
    (hf : f ∈ [0x1001, 0x1002, 0x1003, 0x1004, 0x1021, 0x1022, 0x1006, 0x1023, 0x1007, 0x1024, 0x1025, 0x1026, 0x1027])
    (hl : i.installed "libarchive".toList = true) :
    openCompressed i spacing ("libarchive".toList :: prioritized) = .ok .raw := by
  have hu : Usable backends i.installed f none libarchive :=
    (usable_iff ..).mpr ⟨.inr (.inr (.inr (.inr (.inr (.inr ⟨rfl, hf, hl⟩))))), by simp⟩
  have hb : findAvailable backends i.installed f none (libarchive :: prioritized) = some libarchive := by
    obtain ⟨b, hb⟩ := available_some (prioritized := libarchive :: prioritized) hu
    have := C56_first backends backends_nodup i.installed f none (libarchive :: prioritized)
    simp only [hb] at this
    rcases this with ⟨a, c, h1, _, h3⟩ | ⟨h, _⟩
    · cases a with
      | nil =>
        simp only [List.nil_append, List.cons.injEq] at h1
        rw [hb, h1.1]
      | cons y a =>
        simp only [List.cons_append, List.cons.injEq] at h1
        exact absurd hu (h1.1 ▸ h3 y List.mem_cons_self)
    · exact absurd hu (h _ List.mem_cons_self)
  have key : ∀ l, detect i (libarchive :: prioritized) l = none := by
    intro l
    induction l with
    | nil => rfl
    | cons g l ih =>
      unfold detect
      by_cases hg : g = f
      · subst hg
        rw [if_pos hc.1, hb]
        simp only
        rw [if_neg (by simp [opens])]
        exact ih
      · rw [hc.2.2 g hg]
        simp only [Bool.false_eq_true, if_false]
        exact ih
  unfold openCompressed
  rw [show "libarchive".toList = libarchive from rfl, key]

example : IsCompressed sampleXz 0x1003 ∧ 0x1003 ∈ libarchiveIds ∧ sampleXz.installed "libarchive".toList = true :=
  ⟨⟨rfl, rfl, fun g hg => by simp [sampleXz, hg]⟩, by decide, rfl⟩

/-- C126: a file that is not readable as any of its formats is left as it is. -/
theorem C126_raw (i : Input) (spacing : Nat) (prioritized : List Str) (hz : i.might 0x1004 = false)
    (h : ∀ f, i.might f = true → i.readable f = false) : openCompressed i spacing prioritized = .ok .raw := by
  have key : ∀ l, detect i prioritized l = none := by
    intro l
    induction l with
    | nil => rfl
    | cons f l ih =>
      unfold detect
      by_cases hm : i.might f = true
      · rw [if_pos hm]
        split
        · rfl
        · have hf : f ≠ zstdId := by
            rintro rfl
            rw [show zstdId = 0x1004 from rfl, hz] at hm
            cases hm
          rw [if_neg]
          · exact ih
          · simp [opens, h f hm, hf]
      · rw [if_neg hm]
        exact ih
  unfold openCompressed
  rw [key]

/-! ## C127 -/

/-- indexed_gzip is preferred to rapidgzip: it comes before it in the list of priorities. -/
def Preferred (prioritized : List Str) : Prop :=
  ∃ a b, prioritized = a ++ "indexed_gzip".toList :: b ∧ "rapidgzip".toList ∉ a

theorem indexOf_lt {x : Str} {l : List Str} (h : x ∈ l) : ∃ a b, l = a ++ x :: b ∧ x ∉ a ∧ indexOf x l = a.length := by
  induction l with
  | nil => cases h
  | cons y l ih =>
    unfold indexOf
    by_cases hy : y = x
    · subst hy
      exact ⟨[], l, rfl, by simp, by simp⟩
    · obtain ⟨a, b, h1, h2, h3⟩ := ih (by simpa [Ne.symm hy] using h)
      exact ⟨y :: a, b, by rw [h1]; rfl, by simp [h2, Ne.symm hy], by rw [if_neg hy, h3]; rfl⟩

theorem indexOf_append {x : Str} {a l : List Str} (h : x ∉ a) : indexOf x (a ++ l) = a.length + indexOf x l := by
  induction a with
  | nil => simp
  | cons y a ih =>
    simp only [List.mem_cons, not_or] at h
    rw [List.cons_append, indexOf, if_neg (Ne.symm h.1), ih h.2, List.length_cons]
    omega

theorem indexOf_le {x : Str} {a b : List Str} : indexOf x (a ++ x :: b) ≤ a.length := by
  induction a with
  | nil => simp [indexOf]
  | cons y a ih =>
    rw [List.cons_append, indexOf]
    split
    · omega
    · rw [List.length_cons]
      omega

theorem indexedFirst_iff (prioritized : List Str) : indexedFirst prioritized = true ↔ Preferred prioritized := by
  have hne : indexedGzip ≠ rapidgzip := by decide
  unfold indexedFirst
  simp only [Bool.and_eq_true, Bool.or_eq_true, List.contains_iff_mem, decide_eq_true_eq, Bool.not_eq_true', ← Bool.not_eq_true]
  constructor
  · rintro ⟨h, h'⟩
    obtain ⟨a, b, h1, h2, h3⟩ := indexOf_lt h
    refine ⟨a, b, h1, fun hm => ?_⟩
    rcases h' with ⟨_, hlt⟩ | hn
    · obtain ⟨c, d, h4, _⟩ := indexOf_lt (show rapidgzip ∈ a from hm)
      have : indexOf rapidgzip prioritized ≤ c.length := by
        rw [h1, h4, List.append_assoc]
        exact indexOf_le
      have : a.length = c.length + (d.length + 1) := by rw [h4]; simp
      omega
    · exact hn (by rw [h1]; exact List.mem_append_left _ hm)
  · rintro ⟨a, b, rfl, h⟩
    rw [show "indexed_gzip".toList = indexedGzip from rfl]
    rw [show "rapidgzip".toList = rapidgzip from rfl] at h
    refine ⟨List.mem_append_right _ List.mem_cons_self, ?_⟩
    by_cases hm : rapidgzip ∈ a ++ indexedGzip :: b
    · left
      refine ⟨hm, ?_⟩
      have h1 : indexOf indexedGzip (a ++ indexedGzip :: b) ≤ a.length := indexOf_le
      have h2 : indexOf rapidgzip (a ++ indexedGzip :: b) = a.length + indexOf rapidgzip (indexedGzip :: b) := indexOf_append h
      have h3 : indexOf rapidgzip (indexedGzip :: b) = indexOf rapidgzip b + 1 := by rw [indexOf, if_neg hne]
      show indexOf indexedGzip (a ++ indexedGzip :: b) < indexOf rapidgzip (a ++ indexedGzip :: b)
      omega
    · exact .inr hm

theorem tarBackends_gzip : ¬ (backends.filter (fun e : Str × Compression => tarBackends.contains e.1 && e.2.formats.contains 4098)).isEmpty = true := by
  decide +kernel

/-- C127: of the two libraries for gzip, rapidgzip is used exactly for files on disk with at least four chunks, unless indexed_gzip is
preferred. -/
theorem C127_choice (i : Input) (spacing : Nat) (prioritized : List Str) (hc : IsCompressed i 0x1002)
    (h1 : i.installed "rapidgzip".toList = true) (h2 : i.installed "indexed_gzip".toList = true) (hp : "libarchive".toList ∉ prioritized) :
    (openCompressed i spacing prioritized = .ok (.with_ "rapidgzip".toList) ↔
      (i.real = true ∧ 4 * spacing ≤ i.size ∧ ¬ Preferred prioritized)) ∧
    (openCompressed i spacing prioritized = .ok (.with_ "indexed_gzip".toList) ↔
      ¬ (i.real = true ∧ 4 * spacing ≤ i.size ∧ ¬ Preferred prioritized)) := by
  obtain ⟨⟨b', hu', hb'⟩, t, ht⟩ := reads_usable (i := i) .rapid_gzip h1
  obtain ⟨b, hb⟩ := available_some (prioritized := prioritized) hu'
  have hbl := available_other hp hu' hb' hb
  obtain ⟨u, hu⟩ := available_some (prioritized := prioritized) ht
  have hopen : openCompressed i spacing prioritized =
      if useRapidgzip i spacing prioritized then .ok (.with_ rapidgzip) else .ok (.with_ indexedGzip) := by
    unfold openCompressed
    rw [detect_single hc hb hbl formatIds (by decide)]
    simp only
    unfold openAs
    rw [if_neg tarBackends_gzip, hu]
    simp only
    rw [if_pos (show 4098 = gzipId from rfl), useLibrary, useLibrary, if_pos (show i.installed rapidgzip = true from h1),
      if_pos (show i.installed indexedGzip = true from h2)]
  have hiff : useRapidgzip i spacing prioritized = true ↔ (i.real = true ∧ 4 * spacing ≤ i.size ∧ ¬ Preferred prioritized) := by
    rw [← indexedFirst_iff]
    unfold useRapidgzip
    rw [show i.installed rapidgzip = true from h1]
    simp only [Bool.true_and, Bool.and_eq_true, Bool.not_eq_true', decide_eq_true_eq, ge_iff_le]
    constructor
    · rintro ⟨⟨x, y⟩, z⟩
      exact ⟨y, z, by rw [x]; decide⟩
    · rintro ⟨y, z, x⟩
      exact ⟨⟨by simpa using x, y⟩, z⟩
  have hne : rapidgzip ≠ indexedGzip := by decide
  rw [hopen, ← hiff]
  by_cases hr : useRapidgzip i spacing prioritized = true
  · rw [if_pos hr]
    refine ⟨⟨fun _ => hr, fun _ => rfl⟩, ⟨fun h => ?_, fun h => absurd hr h⟩⟩
    simp only [Except.ok.injEq, Opened.with_.injEq] at h
    exact absurd h hne
  · rw [if_neg hr]
    refine ⟨⟨fun h => ?_, fun h => absurd h hr⟩, ⟨fun _ => hr, fun _ => rfl⟩⟩
    simp only [Except.ok.injEq, Opened.with_.injEq] at h
    exact absurd h.symm hne

example : Preferred ["xz".toList, "indexed_gzip".toList, "rapidgzip".toList] := ⟨["xz".toList], ["rapidgzip".toList], rfl, by decide⟩
example : ¬ Preferred ["rapidgzip".toList, "indexed_gzip".toList] := by
  rw [← indexedFirst_iff]
  decide

/-! ## C128 -/

/-- The header of zlib data by RFC 1950: the method 8, a window of `2 ^ (8 + cinfo)` bytes with `cinfo` at most 7, a level, no dictionary,
and five check bits that make the number a multiple of 31. -/
def IsZlibHeader (a b : UInt8) : Prop :=
  ∃ cinfo level check : Nat, cinfo ≤ 7 ∧ level < 4 ∧ check < 32 ∧ a.toNat = cinfo * 16 + 8 ∧ b.toNat = level * 64 + check ∧
    31 ∣ a.toNat * 256 + b.toNat

/-- C128: exactly the files that start with a zlib header are accepted. -/
theorem C128_zlib (file : Data) : checkZlib file = true ↔ ∃ a b rest, file = a :: b :: rest ∧ IsZlibHeader a b := by
  unfold checkZlib
  split
  · next cmf flags rest =>
    simp only [Bool.and_eq_true, beq_iff_eq, decide_eq_true_eq]
    constructor
    · rintro ⟨⟨⟨h1, h2⟩, h3⟩, h4⟩
      have hf : flags.toNat < 256 := flags.toNat_lt
      exact ⟨cmf, flags, rest, rfl, cmf.toNat / 16, flags.toNat / 64, flags.toNat % 32, h2, by omega, by omega, by omega, by omega,
        Nat.dvd_of_mod_eq_zero h3⟩
    · rintro ⟨a, b, r, h, cinfo, level, check, h1, h2, h3, h4, h5, h6⟩
      cases h
      have := Nat.mod_eq_zero_of_dvd h6
      have h7 : flags.toNat / 32 = 2 * level := by omega
      exact ⟨⟨⟨by omega, by omega⟩, this⟩, by rw [h7]; omega⟩
  · next hn =>
    constructor
    · intro h; cases h
    · rintro ⟨a, b, r, h, _⟩
      exact absurd h (by intro h; exact hn a b r h)

example : checkZlib [0x78, 0x9c, 1, 2] = true ∧ IsZlibHeader 0x78 0x9c := ⟨by decide, 7, 2, 28, by decide, by decide, by decide, by decide, by decide, by decide⟩

end Verif.Detect
