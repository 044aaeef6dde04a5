import Verif.Detect.Backends
import Verif.Detect.Signatures
import Verif.Cli.InputFile
import Verif.Fuse.TarFiles

/-!
# C208: which backend opens a file, by its name
(core/ratarmountcore/mountsource/factory.py:245-262, 314-369, core/ratarmountcore/formats.py:105-128, 387-474,
core/ratarmountcore/compressions.py:90-147)
-/

namespace Verif.Detect.Extension

open Verif.Py Verif.Detect
open Verif.Tar (lower fromtarfile)
open Verif.Fuse.TarFiles (Packing Packed bytesOf members clean)
open Verif.Tar.Header (codec)

/-! ## model -/

/-- `COMPRESSION_FORMATS` (formats.py:387-414): the extensions. -/
def compressed : Dict Nat (List Str) :=
  [(0x1001, ["bz2".toList, "bzip2".toList]), (0x1002, ["gz".toList, "gzip".toList]), (0x1003, ["xz".toList]),
    (0x1004, ["zst".toList, "zstd".toList, "pzstd".toList]), (0x1005, ["zz".toList, "zlib".toList]), (0x1008, ["deflate".toList]),
    (0x1021, ["grz".toList, "grzip".toList]), (0x1022, ["lrz".toList, "lrzip".toList]), (0x1006, ["lz4".toList]),
    (0x1023, ["lz".toList, "lzip".toList]), (0x1007, ["lzma".toList]), (0x1024, ["lzo".toList, "lzop".toList]), (0x1025, ["rpm".toList]),
    (0x1026, ["uu".toList]), (0x1027, ["Z".toList])]

/-- All extensions of compressions (formats.py:442-443). -/
def suffixes : List Str := compressed.flatMap (fun e => e.2)

/-- The extensions of TAR archives (formats.py:440-444). -/
def tarExtensions : List Str :=
  ["tar".toList, "tb2".toList, "tbz".toList, "tbz2".toList, "tz2".toList, "taz".toList, "tgz".toList, "txz".toList, "tzst".toList, "cbt".toList] ++
    suffixes.map (fun e => 't' :: e) ++ suffixes.map (fun e => "tar.".toList ++ e)

/-- `FILE_FORMATS` (formats.py:417-474, 572-576): the extensions. -/
def formats : Dict Nat (List Str) :=
  [(0x101, ["7z".toList, "7zip".toList, "cb7".toList]), (0x102, ["rar".toList, "cbr".toList]), (0x103, ["zip".toList, "cbz".toList]),
    (0x104, ["sqlar".toList]), (0x105, ["cab".toList]), (0x106, ["ar".toList]),
    (0x107, ["a".toList, "ar".toList, "lib".toList, "deb".toList]), (0x110, ["a".toList, "ar".toList, "lib".toList]),
    (0x108, ["xar".toList]), (0x109, ["cpio".toList]), (0x201, tarExtensions), (0x202, ["asar".toList]),
    (0x301, ["squashfs".toList, "AppImage".toList, "snap".toList])] ++ compressed ++
  [(0x302, ["iso".toList]),
    (0x401, ["fat".toList, "img".toList, "dd".toList, "fat12".toList, "fat16".toList, "fat32".toList, "raw".toList]),
    (0x402, ["ext4".toList, "img".toList, "dd".toList, "raw".toList]), (0x902, ["warc".toList]), (0x903, ["html".toList, "htm".toList]),
    (0x904, ["pdf".toList]), (0x901, ["index.sqlite".toList]), (0x1101, ["avi".toList]),
    (0x1102, ["mkv".toList, "mka".toList, "mks".toList, "mk3d".toList, "webm".toList]), (0x1103, ["mp4".toList]),
    (0x1104, ["rmvb".toList, "rmb".toList]), (0x1105, ["ogm".toList, "ogv".toList])]

/-- `FILE_FORMATS[formatId].extensions` (factory.py:249); all formats are known (formats.py:580-581). -/
def extensions (fid : Nat) : List Str := (Dict.get? formats fid).getD []

/-- `_matches_extension` (factory.py:245-250). Only ASCII letters are lowered; of the other characters only the Kelvin sign is lowered to
an ASCII letter, which is part of no extension of a format with a backend. -/
def matchesExtension (name : Str) (fids : List Nat) : Bool :=
  fids.any (fun f => (extensions f).any (fun e => endsWith ('.' :: lower e) (lower name)))

/-- `delegatedArchiveBackend` of `COMPRESSION_BACKENDS` (compressions.py:90-147). -/
def delegated (name : Str) : Str := if name = "libarchive".toList then "libarchive".toList else "tarfile".toList

/-- `find_backends_by_extension` (factory.py:253-258). -/
def byExtension (name : Str) : List Str :=
  (InputFile.archiveBackends.filter (fun e => matchesExtension name e.2.formats)).map (fun e => e.1) ++
    (InputFile.compressionBackends.filter (fun e => matchesExtension name e.2.formats)).map (fun e => delegated e.1)

/-- `mapToArchiveBackend` (factory.py:312-314). -/
def toArchive : Dict Str Str := InputFile.compressionBackends.map (fun e => (e.1, delegated e.1))

/-- `ARCHIVE_BACKENDS` (archives.py:85-152) with what opening the file with each of them comes to. -/
def table (opens : Str → Nat → Outcome × Nat) : Dict Str Backend :=
  InputFile.archiveBackends.map (fun e => (e.1, ⟨e.2.formats, opens e.1⟩))

/-- `open_mount_source` for a path (factory.py:300-369). -/
def openPath (opens : Str → Nat → Outcome × Nat) (check : Nat → Nat → Except PyErr Bool) (prioritized : List Str) (name : Str) :
    Except PyErr (Option Str) × List Str :=
  openMountSource (table opens) check toArchive true false prioritized (byExtension name)

/-- `is_tar` (formats.py:119-127) at the begin of a file: `tarfile.open` reads the first header, an error at the begin raises `ReadError`. -/
def isTar (c : Tar.Codec) (b : Tar.Bytes) : Bool :=
  match fromtarfile c b 0 with
  | .member _ _ _ => true
  | .zero => true
  | .invalid => false
  | .empty => false
  | .truncated => false
  | .subsequent => false

/-- `might_be_format` (formats.py:607-620) for AR, thin AR, RAR (with the check of rar.py:19-39) and TAR; the other checks are given. -/
def checks (c : Tar.Codec) (sfx : Option (List UInt8 → Nat → Bool)) (other : Nat → Nat → Except PyErr Bool) (b : Tar.Bytes) (fid pos : Nat) :
    Except PyErr Bool :=
  if fid = 0x107 then (mightBe ⟨some [33, 60, 97, 114, 99, 104, 62, 10], none⟩ ⟨b, pos⟩).1
  else if fid = 0x110 then (mightBe ⟨some [33, 60, 116, 104, 105, 110, 62, 10], none⟩ ⟨b, pos⟩).1
  else if fid = 0x102 then (mightBe ⟨some rarMagic, some (isRarFile sfx)⟩ ⟨b, pos⟩).1
  else if fid = 0x201 then (mightBe ⟨none, some (fun d _ => (.ok (isTar c d), 0))⟩ ⟨b, pos⟩).1
  else other fid pos

/-! ## specification -/

/-- The name has the extension, in small or capital letters. -/
def Has (name ext : Str) : Prop := ∃ base, lower name = base ++ '.' :: ext

/-- The extensions, the formats that they mean and the backend for it. -/
def meanings : List (String × Nat × String) :=
  [("7z", 0x101, "libarchive"), ("7zip", 0x101, "libarchive"), ("cb7", 0x101, "libarchive"), ("rar", 0x102, "rarfile"), ("cbr", 0x102, "rarfile"),
   ("zip", 0x103, "zipfile"), ("cbz", 0x103, "zipfile"), ("sqlar", 0x104, "sqlar"), ("cab", 0x105, "libarchive"),
   ("a", 0x107, "ar"), ("ar", 0x107, "ar"), ("lib", 0x107, "ar"), ("deb", 0x107, "ar"), ("a", 0x110, "ar"), ("ar", 0x110, "ar"), ("lib", 0x110, "ar"),
   ("xar", 0x108, "libarchive"), ("cpio", 0x109, "libarchive"), ("iso", 0x302, "libarchive"), ("warc", 0x902, "libarchive"),
   ("tar", 0x201, "tarfile"), ("tb2", 0x201, "tarfile"), ("tbz", 0x201, "tarfile"), ("tbz2", 0x201, "tarfile"), ("tz2", 0x201, "tarfile"),
   ("taz", 0x201, "tarfile"), ("tgz", 0x201, "tarfile"), ("txz", 0x201, "tarfile"), ("tzst", 0x201, "tarfile"), ("cbt", 0x201, "tarfile"),
   ("asar", 0x202, "asar"), ("squashfs", 0x301, "PySquashfsImage"), ("appimage", 0x301, "PySquashfsImage"), ("snap", 0x301, "PySquashfsImage"),
   ("fat", 0x401, "pyfatfs"), ("img", 0x401, "pyfatfs"), ("dd", 0x401, "pyfatfs"), ("raw", 0x401, "pyfatfs"), ("fat12", 0x401, "pyfatfs"),
   ("fat16", 0x401, "pyfatfs"), ("fat32", 0x401, "pyfatfs"), ("ext4", 0x402, "ext4"), ("html", 0x903, "html"), ("htm", 0x903, "html"),
   ("pdf", 0x904, "pdf"), ("index.sqlite", 0x901, "RatarmountIndex"), ("ogm", 0x1105, "ogg"), ("ogv", 0x1105, "ogg"),
   ("bz2", 0x1001, "tarfile"), ("bzip2", 0x1001, "tarfile"), ("gz", 0x1002, "tarfile"), ("gzip", 0x1002, "tarfile"), ("xz", 0x1003, "tarfile"),
   ("zst", 0x1004, "tarfile"), ("zstd", 0x1004, "tarfile"), ("pzstd", 0x1004, "tarfile"), ("zz", 0x1005, "tarfile"), ("zlib", 0x1005, "tarfile"),
   ("deflate", 0x1008, "tarfile")]

/-- The same for compressions that only libarchive reads. A name like `a.tar.lz4` has an extension of TAR archives, too. -/
def others : List (String × Nat × String) :=
  [("grz", 0x1021, "libarchive"), ("grzip", 0x1021, "libarchive"), ("lrz", 0x1022, "libarchive"),
   ("lrzip", 0x1022, "libarchive"), ("lz4", 0x1006, "libarchive"), ("lz", 0x1023, "libarchive"), ("lzip", 0x1023, "libarchive"),
   ("lzma", 0x1007, "libarchive"), ("lzo", 0x1024, "libarchive"), ("lzop", 0x1024, "libarchive"), ("rpm", 0x1025, "libarchive"),
   ("uu", 0x1026, "libarchive"), ("z", 0x1027, "libarchive")]

/-! ## lemmas -/

/-- One of the two is a suffix of the other. -/
def clash (x e : Str) : Bool := endsWith ('.' :: lower x) ('.' :: e) || endsWith ('.' :: e) ('.' :: lower x)

theorem clash_of {x e name : Str} (h : Has name e) (hx : endsWith ('.' :: lower x) (lower name) = true) : clash x e = true := by
  obtain ⟨base, hb⟩ := h
  have h1 : '.' :: lower x <:+ lower name := List.isSuffixOf_iff_suffix.mp hx
  have h2 : '.' :: e <:+ lower name := ⟨base, hb.symm⟩
  unfold clash endsWith
  rw [Bool.or_eq_true, List.isSuffixOf_iff_suffix, List.isSuffixOf_iff_suffix]
  exact List.suffix_or_suffix_of_suffix h1 h2

/-- The backends before `b` have no extension that clashes. -/
def apart (e b : Str) : Bool :=
  (InputFile.archiveBackends.takeWhile (fun p => decide (p.1 ≠ b))).all (fun p => p.2.formats.all (fun f => (extensions f).all (fun x => !clash x e)))

/-- The backend `b` has the format and the format has the extension. -/
def supports (e : Str) (fid : Nat) (b : Str) : Bool :=
  match Dict.get? InputFile.archiveBackends b with
  | none => false
  | some i => decide (fid ∈ i.formats) && (extensions fid).any (fun x => decide (lower x = e))

set_option maxRecDepth 100000 in
theorem meanings_ok : meanings.all (fun m => apart m.1.toList m.2.2.toList && supports m.1.toList m.2.1 m.2.2.toList) = true := by decide +kernel

theorem find_split {α : Type} (b : Str) : ∀ (d : Dict Str α) (i : α), Dict.get? d b = some i →
    ∃ post, d = d.takeWhile (fun p => decide (p.1 ≠ b)) ++ (b, i) :: post
  | [], _, h => by cases h
  | (k, v) :: d, i, h => by
    by_cases hk : k = b
    · subst hk
      have : v = i := by
        unfold Dict.get? at h
        simpa using h
      subst this
      exact ⟨d, by simp⟩
    · have h' : Dict.get? d b = some i := by
        simpa [Dict.get?, hk] using h
      obtain ⟨post, hp⟩ := find_split b d i h'
      refine ⟨post, ?_⟩
      rw [List.takeWhile_cons, if_pos (by simpa using hk), List.cons_append, ← hp]

theorem by_extension {e b : Str} {fid : Nat} {name : Str} (hn : Has name e) (ha : apart e b = true) (hs : supports e fid b = true) :
    ∃ i rest, Dict.get? InputFile.archiveBackends b = some i ∧ fid ∈ i.formats ∧ byExtension name = b :: rest := by
  unfold supports at hs
  cases hg : Dict.get? InputFile.archiveBackends b with
  | none => rw [hg] at hs; cases hs
  | some i =>
    rw [hg] at hs
    simp only [Bool.and_eq_true, decide_eq_true_eq, List.any_eq_true] at hs
    obtain ⟨hf, x, hx, he⟩ := hs
    obtain ⟨post, hp⟩ := find_split b _ i hg
    have hm : matchesExtension name i.formats = true := by
      unfold matchesExtension
      rw [List.any_eq_true]
      refine ⟨fid, hf, ?_⟩
      rw [List.any_eq_true]
      refine ⟨x, hx, ?_⟩
      obtain ⟨base, hb⟩ := hn
      rw [he, hb]
      exact List.isSuffixOf_iff_suffix.mpr ⟨base, rfl⟩
    have hpre : (InputFile.archiveBackends.takeWhile (fun p => decide (p.1 ≠ b))).filter (fun e => matchesExtension name e.2.formats) = [] := by
      rw [List.filter_eq_nil_iff]
      intro p hp' hmp
      unfold apart at ha
      rw [List.all_eq_true] at ha
      have h1 := ha p hp'
      unfold matchesExtension at hmp
      rw [List.any_eq_true] at hmp
      obtain ⟨f, hf', h2⟩ := hmp
      rw [List.any_eq_true] at h2
      obtain ⟨x', hx', h3⟩ := h2
      rw [List.all_eq_true] at h1
      have h4 := h1 f hf'
      rw [List.all_eq_true] at h4
      have h5 := h4 x' hx'
      rw [clash_of hn h3] at h5
      cases h5
    refine ⟨i, ?_, rfl, hf, ?_⟩
    · exact (post.filter (fun e => matchesExtension name e.2.formats)).map (fun e => e.1) ++
        (InputFile.compressionBackends.filter (fun e => matchesExtension name e.2.formats)).map (fun e => delegated e.1)
    · unfold byExtension
      have : InputFile.archiveBackends.filter (fun e => matchesExtension name e.2.formats) =
          (b, i) :: post.filter (fun e => matchesExtension name e.2.formats) := by
        conv => lhs; rw [hp]
        rw [List.filter_append, hpre, List.nil_append, List.filter_cons, if_pos hm]
      rw [this]
      rfl

theorem get_table (opens : Str → Nat → Outcome × Nat) (b : Str) :
    Dict.get? (table opens) b = (Dict.get? InputFile.archiveBackends b).map (fun i => ⟨i.formats, opens b⟩) := by
  unfold table
  induction InputFile.archiveBackends with
  | nil => rfl
  | cons p d ih =>
    by_cases hk : p.1 = b
    · simp [Dict.get?, hk]
    · have h1 : Dict.get? (List.map (fun e => (e.1, (⟨e.2.formats, opens e.1⟩ : Backend))) (p :: d)) b =
          Dict.get? (List.map (fun e => (e.1, (⟨e.2.formats, opens e.1⟩ : Backend))) d) b := by
        simp [Dict.get?, hk]
      have h2 : Dict.get? (p :: d) b = Dict.get? d b := by simp [Dict.get?, hk]
      rw [h1, h2, ih]

theorem any_format {check : Nat → Nat → Except PyErr Bool} {pos fid : Nat} (hc : check fid pos = .ok true) : ∀ (fids : List Nat),
    fid ∈ fids → (∀ g ∈ fids, ∃ v, check g pos = .ok v) → anyFormat check fids pos = .ok true
  | [], h, _ => by cases h
  | g :: gs, h, hr => by
    obtain ⟨v, hv⟩ := hr g (by simp)
    unfold anyFormat
    rw [hv]
    cases v with
    | true => rfl
    | false =>
      simp only
      have hne : fid ≠ g := by
        rintro rfl
        rw [hc] at hv
        cases hv
      exact any_format hc gs (by simpa [hne] using h) (fun g' h' => hr g' (by simp [h']))

/-- The first candidate is taken. -/
theorem first_taken {opens : Str → Nat → Outcome × Nat} {check : Nat → Nat → Except PyErr Bool} {b n : Str} {names tried : List Str} {fid : Nat}
    {i : InputFile.Backend} (hb : (Dict.get? toArchive n).getD n = b) (hi : Dict.get? InputFile.archiveBackends b = some i) (hf : fid ∈ i.formats)
    (hc : check fid 0 = .ok true) (hr : ∀ g ∈ i.formats, ∃ v, check g 0 = .ok v) (ho : (opens b 0).1 = .mounted)
    (ht : b ∉ tried) : tryAll (table opens) check toArchive true (n :: names) tried 0 = (.ok (some b), [b]) := by
  have ht' : tried.contains b = false := by
    rw [← Bool.not_eq_true, List.contains_iff_mem]
    exact ht
  unfold tryAll
  simp only [hb, ht', Bool.false_eq_true, if_false, get_table, hi, Option.map_some]
  have hne : i.formats.isEmpty = false := by
    cases h : i.formats with
    | nil => rw [h] at hf; cases hf
    | cons _ _ => rfl
  rw [hne]
  simp only [Bool.false_eq_true, if_false, any_format hc i.formats hf hr, if_true]
  rcases hx : opens b 0 with ⟨r, p⟩
  rw [hx] at ho
  simp only at ho
  subst ho
  rfl

theorem names_fixed : InputFile.archiveBackends.all (fun e => decide ((Dict.get? toArchive e.1).getD e.1 = e.1)) = true := by decide +kernel

theorem fixed {b : Str} {i : InputFile.Backend} (h : Dict.get? InputFile.archiveBackends b = some i) : (Dict.get? toArchive b).getD b = b := by
  have := List.all_eq_true.mp names_fixed _ (Dict.mem_of_get? _ h)
  simpa using this

/-- **C208**: a file whose name has the extension of a format, and that passes the check for it, is mounted by the backend for this format:
no other backend and no check of another backend's formats comes before. -/
theorem C208_extension (opens : Str → Nat → Outcome × Nat) (check : Nat → Nat → Except PyErr Bool) (name : Str) (ext backend : String) (fid : Nat)
    (hm : (ext, fid, backend) ∈ meanings) (hn : Has name ext.toList) (hc : check fid 0 = .ok true)
    (hr : ∀ i, Dict.get? InputFile.archiveBackends backend.toList = some i → ∀ g ∈ i.formats, ∃ v, check g 0 = .ok v)
    (ho : (opens backend.toList 0).1 = .mounted) :
    openPath opens check [] name = (.ok (some backend.toList), [backend.toList]) := by
  have := List.all_eq_true.mp meanings_ok _ hm
  rw [Bool.and_eq_true] at this
  obtain ⟨i, rest, h1, h2, h3⟩ := by_extension hn this.1 this.2
  unfold openPath openMountSource
  rw [h3, List.nil_append, List.cons_append, first_taken (fixed h1) h1 h2 hc (hr i h1) ho List.not_mem_nil]

theorem none_fits {check : Nat → Nat → Except PyErr Bool} {pos : Nat} : ∀ (fids : List Nat), (∀ g ∈ fids, check g pos = .ok false) →
    anyFormat check fids pos = .ok false
  | [], _ => rfl
  | g :: gs, h => by
    unfold anyFormat
    rw [h g (by simp)]
    exact none_fits gs (fun g' h' => h g' (by simp [h']))

/-- A candidate with no format that the file might have is passed over. -/
theorem passed_over {opens : Str → Nat → Outcome × Nat} {check : Nat → Nat → Except PyErr Bool} {b : Str} {names tried : List Str}
    {i : InputFile.Backend} (hi : Dict.get? InputFile.archiveBackends b = some i) (hne : i.formats ≠ []) (hf : ∀ g ∈ i.formats, check g 0 = .ok false)
    (ht : b ∉ tried) :
    tryAll (table opens) check toArchive true (b :: names) tried 0 = tryAll (table opens) check toArchive true names (b :: tried) 0 := by
  have ht' : tried.contains b = false := by
    rw [← Bool.not_eq_true, List.contains_iff_mem]
    exact ht
  conv => lhs; unfold tryAll
  simp only [fixed hi, ht', Bool.false_eq_true, if_false, get_table, hi, Option.map_some]
  have : i.formats.isEmpty = false := by
    cases h : i.formats with
    | nil => exact absurd h hne
    | cons _ _ => rfl
  rw [this]
  simp only [Bool.false_eq_true, if_false, none_fits i.formats hf]

/-- The backends before libarchive, without that for TAR archives, have no extension that clashes. -/
def apartBut (e : Str) : Bool :=
  ((InputFile.archiveBackends.takeWhile (fun p => decide (p.1 ≠ "libarchive".toList))).filter (fun p => decide (p.1 ≠ "tarfile".toList))).all
    (fun p => p.2.formats.all (fun f => (extensions f).all (fun x => !clash x e)))

set_option maxRecDepth 100000 in
theorem others_ok : others.all (fun m => decide (m.2.2 = "libarchive") && (apartBut m.1.toList && supports m.1.toList m.2.1 "libarchive".toList)) = true := by
  decide +kernel

theorem not_matching {e name : Str} {fids : List Nat} (hn : Has name e) (h : fids.all (fun f => (extensions f).all (fun x => !clash x e)) = true) :
    matchesExtension name fids = false := by
  rw [← Bool.not_eq_true]
  intro hm
  unfold matchesExtension at hm
  rw [List.any_eq_true] at hm
  obtain ⟨f, hf, h2⟩ := hm
  rw [List.any_eq_true] at h2
  obtain ⟨x, hx, h3⟩ := h2
  have h5 := List.all_eq_true.mp (List.all_eq_true.mp h f hf) x hx
  rw [clash_of hn h3] at h5
  cases h5

theorem matching {e name : Str} {fids : List Nat} {fid : Nat} (hn : Has name e) (hf : fid ∈ fids)
    (hx : (extensions fid).any (fun x => decide (lower x = e)) = true) : matchesExtension name fids = true := by
  obtain ⟨x, hx, he⟩ := List.any_eq_true.mp hx
  rw [decide_eq_true_eq] at he
  refine List.any_eq_true.mpr ⟨fid, hf, List.any_eq_true.mpr ⟨x, hx, ?_⟩⟩
  obtain ⟨base, hb⟩ := hn
  rw [he, hb]
  exact List.isSuffixOf_iff_suffix.mpr ⟨base, rfl⟩

/-- The formats of the backends "ar", "rarfile", "tarfile", "zipfile", "PySquashfsImage". -/
theorem table_begin : ∃ rest, InputFile.archiveBackends =
    [("ar".toList, ⟨[0x107, 0x110], []⟩), ("rarfile".toList, ⟨[0x102], [("rarfile".toList, "rarfile".toList)]⟩),
     ("tarfile".toList, ⟨[0x201, 0x1002, 0x1005, 0x1008, 0x1001, 0x1003, 0x1004], [("tarfile".toList, [])]⟩),
     ("zipfile".toList, ⟨[0x103], [("zipfile".toList, [])]⟩),
     ("PySquashfsImage".toList, ⟨[0x301], [("PySquashfsImage".toList, "PySquashfsImage".toList)]⟩),
     ("libarchive".toList, ⟨InputFile.libarchiveFormats, [("libarchive".toList, "libarchive-c".toList)]⟩)] ++ rest :=
  ⟨_, rfl⟩

/-- **C208** for compressions that only libarchive reads: the backend for TAR archives may come before, but it does not open a file that
has none of its formats. -/
theorem C208_libarchive (opens : Str → Nat → Outcome × Nat) (check : Nat → Nat → Except PyErr Bool) (name : Str) (ext backend : String) (fid : Nat)
    (hm : (ext, fid, backend) ∈ others) (hn : Has name ext.toList) (hc : check fid 0 = .ok true)
    (hr : ∀ g ∈ InputFile.libarchiveFormats, ∃ v, check g 0 = .ok v)
    (ht : ∀ g ∈ [0x201, 0x1002, 0x1005, 0x1008, 0x1001, 0x1003, 0x1004], check g 0 = .ok false)
    (ho : (opens "libarchive".toList 0).1 = .mounted) :
    openPath opens check [] name = (.ok (some "libarchive".toList), ["libarchive".toList]) := by
  have h0 := List.all_eq_true.mp others_ok _ hm
  simp only [Bool.and_eq_true, decide_eq_true_eq] at h0
  obtain ⟨-, h1, h2⟩ := h0
  obtain ⟨rest, hrest⟩ := table_begin
  have hlib : Dict.get? InputFile.archiveBackends "libarchive".toList =
      some ⟨InputFile.libarchiveFormats, [("libarchive".toList, "libarchive-c".toList)]⟩ := by decide +kernel
  have htar : Dict.get? InputFile.archiveBackends "tarfile".toList =
      some ⟨[0x201, 0x1002, 0x1005, 0x1008, 0x1001, 0x1003, 0x1004], [("tarfile".toList, [])]⟩ := by decide +kernel
  unfold supports at h2
  rw [hlib] at h2
  simp only [Bool.and_eq_true, decide_eq_true_eq] at h2
  have hml := matching hn h2.1 h2.2
  have hap : ∀ p : Str × InputFile.Backend, p ∈ [("ar".toList, (⟨[0x107, 0x110], []⟩ : InputFile.Backend)),
      ("rarfile".toList, ⟨[0x102], [("rarfile".toList, "rarfile".toList)]⟩), ("zipfile".toList, ⟨[0x103], [("zipfile".toList, [])]⟩),
      ("PySquashfsImage".toList, ⟨[0x301], [("PySquashfsImage".toList, "PySquashfsImage".toList)]⟩)] → matchesExtension name p.2.formats = false := by
    intro p hp
    refine not_matching hn (List.all_eq_true.mp h1 p ?_)
    have : (InputFile.archiveBackends.takeWhile (fun p => decide (p.1 ≠ "libarchive".toList))).filter (fun p => decide (p.1 ≠ "tarfile".toList)) =
      [("ar".toList, (⟨[0x107, 0x110], []⟩ : InputFile.Backend)),
      ("rarfile".toList, ⟨[0x102], [("rarfile".toList, "rarfile".toList)]⟩), ("zipfile".toList, ⟨[0x103], [("zipfile".toList, [])]⟩),
      ("PySquashfsImage".toList, ⟨[0x301], [("PySquashfsImage".toList, "PySquashfsImage".toList)]⟩)] := by decide +kernel
    rw [this]
    exact hp
  have e1 := hap _ (List.mem_cons_self)
  have e2 := hap _ (List.mem_cons_of_mem _ List.mem_cons_self)
  have e3 := hap _ (List.mem_cons_of_mem _ (List.mem_cons_of_mem _ List.mem_cons_self))
  have e4 := hap _ (List.mem_cons_of_mem _ (List.mem_cons_of_mem _ (List.mem_cons_of_mem _ List.mem_cons_self)))
  simp only at e1 e2 e3 e4
  have hby : ∃ r, byExtension name = "libarchive".toList :: r ∨ byExtension name = "tarfile".toList :: "libarchive".toList :: r := by
    unfold byExtension
    rw [hrest]
    simp only [List.cons_append, List.nil_append, List.filter_cons, e1, e2, e3, e4, hml, if_true, Bool.false_eq_true, if_false]
    cases matchesExtension name [0x201, 0x1002, 0x1005, 0x1008, 0x1001, 0x1003, 0x1004] with
    | true => exact ⟨_, .inr rfl⟩
    | false => exact ⟨_, .inl rfl⟩
  unfold openPath openMountSource
  obtain ⟨r, h | h⟩ := hby
  · rw [h, List.nil_append, List.cons_append, first_taken (fixed hlib) hlib h2.1 hc hr ho List.not_mem_nil]
  · rw [h, List.nil_append, List.cons_append, passed_over htar (by simp) ht List.not_mem_nil, List.cons_append,
      first_taken (fixed hlib) hlib h2.1 hc hr ho (by decide)]

/-- **C208** for backends that the user prefers: the first of them, or the archive backend that undoes the compression, is tried first. -/
theorem C208_preferred (opens : Str → Nat → Outcome × Nat) (check : Nat → Nat → Except PyErr Bool) (name n b : Str) (ns : List Str) (fid : Nat)
    (i : InputFile.Backend) (hb : b = if n ∈ ["rapidgzip-bzip2".toList, "rapidgzip".toList, "indexed_gzip".toList, "xz".toList, "lzmaffi".toList,
      "indexed_zstd".toList] then "tarfile".toList else n) (hi : Dict.get? InputFile.archiveBackends b = some i) (hf : fid ∈ i.formats)
    (hc : check fid 0 = .ok true) (hr : ∀ g ∈ i.formats, ∃ v, check g 0 = .ok v) (ho : (opens b 0).1 = .mounted) :
    openPath opens check (n :: ns) name = (.ok (some b), [b]) := by
  have hb' : (Dict.get? toArchive n).getD n = b := by
    rw [hb]
    split
    · next h =>
      simp only [List.mem_cons, List.not_mem_nil, or_false] at h
      rcases h with rfl | rfl | rfl | rfl | rfl | rfl <;> decide +kernel
    · next h =>
      by_cases hl : n = "libarchive".toList
      · subst hl; decide +kernel
      · have : Dict.get? toArchive n = none := by
          cases hg : Dict.get? toArchive n with
          | none => rfl
          | some v =>
            have := Dict.mem_of_get? _ hg
            have hk : n ∈ toArchive.map (fun e => e.1) := List.mem_map.mpr ⟨_, this, rfl⟩
            rw [show toArchive.map (fun e => e.1) = ["rapidgzip-bzip2".toList, "rapidgzip".toList, "indexed_gzip".toList, "xz".toList,
              "lzmaffi".toList, "indexed_zstd".toList, "libarchive".toList] by decide +kernel] at hk
            simp only [List.mem_cons, List.not_mem_nil, or_false] at hk h
            rcases hk with h' | h' | h' | h' | h' | h' | h'
            · exact absurd (.inl h') h
            · exact absurd (.inr (.inl h')) h
            · exact absurd (.inr (.inr (.inl h'))) h
            · exact absurd (.inr (.inr (.inr (.inl h')))) h
            · exact absurd (.inr (.inr (.inr (.inr (.inl h'))))) h
            · exact absurd (.inr (.inr (.inr (.inr (.inr h'))))) h
            · exact absurd h' hl
        rw [this]
        rfl
  unfold openPath openMountSource
  rw [List.cons_append, List.cons_append, first_taken hb' hi hf hc hr ho List.not_mem_nil]

/-! ## TAR archives -/

/-- The begin of a packed archive passes the check. -/
theorem isTar_packed (esc : Tar.Bytes → Str) {ws : Packing} (hp : Packed ws) (hne : ws ≠ []) (zeros : Nat) : isTar (codec esc) (bytesOf ws zeros) = true := by
  have hok := (clean esc hp).ok
  cases ws with
  | nil => exact absurd rfl hne
  | cons p ws =>
    obtain ⟨own, h⟩ := (hok (p.2, p.1.hdr) (by simp [members])).own
    have h1 := Tar.fromtarfile_head (codec esc) p.2.block own p.2.aux p.1.hdr [] ((p.2.data ++ p.2.padding) ++ bytesOf ws zeros) h
    have hb : bytesOf (p :: ws) zeros =
        [] ++ (p.2.aux.flatMap (fun a => a.block ++ a.content) ++ p.2.block ++ ((p.2.data ++ p.2.padding) ++ bytesOf ws zeros)) := by
      unfold bytesOf Tar.Member.encode Tar.Member.head
      simp [List.append_assoc]
    rw [List.length_nil] at h1
    unfold isTar
    rw [hb, h1]

/-- The file begins with the bytes. -/
def Begins (b m : List UInt8) : Prop := ∃ rest, b = m ++ rest

theorem no_magic {m b : List UInt8} {f : Option (List UInt8 → Nat → Except PyErr Bool × Nat)} (hm : m ≠ []) (h : ¬ Begins b m) :
    (mightBe ⟨some m, f⟩ ⟨b, 0⟩).1 = .ok false := by
  unfold mightBe
  have h1 : Info.hasMagic ⟨some m, f⟩ = true := by
    cases m with
    | nil => exact absurd rfl hm
    | cons _ _ => rfl
  have h2 : (b.drop 0).take m.length ≠ m := by
    intro he
    rw [List.drop_zero] at he
    refine h ⟨b.drop m.length, ?_⟩
    have := List.take_append_drop m.length b
    rw [he] at this
    exact this.symm
  simp only [h1, Bool.true_and, Option.getD_some, File.read]
  rw [if_pos (by simpa using h2)]

theorem tar_check (c : Tar.Codec) (sfx : Option (List UInt8 → Nat → Bool)) (other : Nat → Nat → Except PyErr Bool) (b : Tar.Bytes) :
    checks c sfx other b 0x201 0 = .ok (isTar c b) := by
  unfold checks
  rw [if_neg (by decide), if_neg (by decide), if_neg (by decide), if_pos rfl]
  unfold mightBe
  have h1 : Info.hasMagic ⟨none, some (fun d _ => (.ok (isTar c d), 0))⟩ = false := rfl
  simp only [h1, Bool.false_and, Bool.false_eq_true, if_false]
  rfl

theorem tar_runs (c : Tar.Codec) (sfx : Option (List UInt8 → Nat → Bool)) (other : Nat → Nat → Except PyErr Bool) (b : Tar.Bytes)
    (hr : ∀ g ∈ [0x1002, 0x1005, 0x1008, 0x1001, 0x1003, 0x1004], ∃ v, other g 0 = .ok v) :
    ∀ g ∈ [0x201, 0x1002, 0x1005, 0x1008, 0x1001, 0x1003, 0x1004], ∃ v, checks c sfx other b g 0 = .ok v := by
  intro g hg
  rcases List.mem_cons.mp hg with rfl | hg
  · exact ⟨_, tar_check c sfx other b⟩
  · obtain ⟨v, hv⟩ := hr g hg
    refine ⟨v, ?_⟩
    simp only [List.mem_cons, List.not_mem_nil, or_false] at hg
    unfold checks
    rcases hg with rfl | rfl | rfl | rfl | rfl | rfl <;> simpa using hv

/-- **C208** for TAR archives with a name that says so: each of them is opened as TAR archive, whatever its members are named. -/
theorem C208_tar (esc : Tar.Bytes → Str) (sfx : Option (List UInt8 → Nat → Bool)) (other : Nat → Nat → Except PyErr Bool)
    (opens : Str → Nat → Outcome × Nat) (name : Str) {ws : Packing} (hp : Packed ws) (hne : ws ≠ []) (zeros : Nat) (ext : String)
    (he : ext ∈ ["tar", "tb2", "tbz", "tbz2", "tz2", "taz", "tgz", "txz", "tzst", "cbt"]) (hn : Has name ext.toList)
    (hr : ∀ g ∈ [0x1002, 0x1005, 0x1008, 0x1001, 0x1003, 0x1004], ∃ v, other g 0 = .ok v)
    (ho : (opens "tarfile".toList 0).1 = .mounted) :
    openPath opens (checks (codec esc) sfx other (bytesOf ws zeros)) [] name = (.ok (some "tarfile".toList), ["tarfile".toList]) := by
  have hm : (ext, 0x201, "tarfile") ∈ meanings := by
    simp only [List.mem_cons, List.not_mem_nil, or_false] at he
    rcases he with rfl | rfl | rfl | rfl | rfl | rfl | rfl | rfl | rfl | rfl <;> decide
  refine C208_extension opens _ name ext "tarfile" 0x201 hm hn ?_ ?_ ho
  · rw [tar_check, isTar_packed esc hp hne]
  · intro i hi g hg
    have htar : Dict.get? InputFile.archiveBackends "tarfile".toList =
      some ⟨[0x201, 0x1002, 0x1005, 0x1008, 0x1001, 0x1003, 0x1004], [("tarfile".toList, [])]⟩ := by decide +kernel
    rw [htar] at hi
    injection hi with hi
    subst hi
    exact tar_runs _ _ _ _ hr g hg

/-- The name ends like no format, in small or capital letters. -/
def Nameless (name : Str) : Prop := ∀ fid, ∀ e ∈ extensions fid, ¬ ∃ base, lower name = base ++ '.' :: lower e

theorem nameless_none {name : Str} (h : Nameless name) (fids : List Nat) : matchesExtension name fids = false := by
  rw [← Bool.not_eq_true]
  intro hm
  unfold matchesExtension at hm
  rw [List.any_eq_true] at hm
  obtain ⟨f, hf, h2⟩ := hm
  rw [List.any_eq_true] at h2
  obtain ⟨x, hx, h3⟩ := h2
  obtain ⟨base, hb⟩ := List.isSuffixOf_iff_suffix.mp h3
  exact h f x hx ⟨base, hb.symm⟩

/-- **C208** for TAR archives with any other name: they are opened as TAR archives unless the first member's name is the signature of AR or
RAR archives. -/
theorem C208_nameless (esc : Tar.Bytes → Str) (sfx : Option (List UInt8 → Nat → Bool)) (other : Nat → Nat → Except PyErr Bool)
    (opens : Str → Nat → Outcome × Nat) (name : Str) {ws : Packing} (hp : Packed ws) (hne : ws ≠ []) (zeros : Nat) (hn : Nameless name)
    (har : ¬ Begins (bytesOf ws zeros) [33, 60, 97, 114, 99, 104, 62, 10]) (hthin : ¬ Begins (bytesOf ws zeros) [33, 60, 116, 104, 105, 110, 62, 10])
    (hrar : ¬ Begins (bytesOf ws zeros) [0x52, 0x61, 0x72, 0x21, 0x1A, 0x07])
    (hr : ∀ g ∈ [0x1002, 0x1005, 0x1008, 0x1001, 0x1003, 0x1004], ∃ v, other g 0 = .ok v)
    (ho : (opens "tarfile".toList 0).1 = .mounted) :
    openPath opens (checks (codec esc) sfx other (bytesOf ws zeros)) [] name = (.ok (some "tarfile".toList), ["tarfile".toList]) := by
  have hby : byExtension name = [] := by
    unfold byExtension
    rw [List.filter_eq_nil_iff.mpr (fun e _ => by simp [nameless_none hn]), List.filter_eq_nil_iff.mpr (fun e _ => by simp [nameless_none hn])]
    rfl
  obtain ⟨rest, hrest⟩ := table_begin
  have hkeys : Dict.keys (table opens) = "ar".toList :: "rarfile".toList :: "tarfile".toList :: "zipfile".toList :: "PySquashfsImage".toList ::
      "libarchive".toList :: rest.map (fun e => e.1) := by
    unfold table Dict.keys
    rw [hrest, List.map_map]
    rfl
  have h1 : Dict.get? InputFile.archiveBackends "ar".toList = some ⟨[0x107, 0x110], []⟩ := by decide +kernel
  have h2 : Dict.get? InputFile.archiveBackends "rarfile".toList = some ⟨[0x102], [("rarfile".toList, "rarfile".toList)]⟩ := by decide +kernel
  have h3 : Dict.get? InputFile.archiveBackends "tarfile".toList =
      some ⟨[0x201, 0x1002, 0x1005, 0x1008, 0x1001, 0x1003, 0x1004], [("tarfile".toList, [])]⟩ := by decide +kernel
  unfold openPath openMountSource
  rw [hby, List.append_nil, List.nil_append, hkeys, passed_over h1 (by simp) ?_ List.not_mem_nil, passed_over h2 (by simp) ?_ (by decide),
    first_taken (fixed h3) h3 (List.mem_cons_self) ?_ (tar_runs _ _ _ _ hr) ho (by decide)]
  · rw [tar_check, isTar_packed esc hp hne]
  · intro g hg
    rw [List.mem_singleton.mp hg]
    unfold checks
    rw [if_neg (by decide), if_neg (by decide), if_pos rfl]
    exact no_magic (by decide) hrar
  · intro g hg
    simp only [List.mem_cons, List.not_mem_nil, or_false] at hg
    unfold checks
    rcases hg with rfl | rfl
    · rw [if_pos rfl]
      exact no_magic (by decide) har
    · rw [if_neg (by decide), if_pos rfl]
      exact no_magic (by decide) hthin

/-! ## examples -/

/-- Each backend opens what it is given. -/
def demoOpens (_ : Str) (pos : Nat) : Outcome × Nat := (.mounted, pos)

/-- C208: an image of capital letters. -/
example : openPath demoOpens (fun f _ => .ok (decide (f = 0x301))) [] "x.y/Some.AppImage".toList =
    (.ok (some "PySquashfsImage".toList), ["PySquashfsImage".toList]) :=
  C208_extension demoOpens _ _ "appimage" "PySquashfsImage" 0x301 (by decide) ⟨"x.y/some".toList, by decide⟩ rfl (fun _ _ g _ => ⟨_, rfl⟩) rfl

/-- C208: a compressed file that only libarchive reads, with a name that TAR archives have as well. -/
example : openPath demoOpens (fun f _ => .ok (decide (f = 0x1006))) [] "a.tar.lz4".toList = (.ok (some "libarchive".toList), ["libarchive".toList]) :=
  C208_libarchive demoOpens _ _ "lz4" "libarchive" 0x1006 (by decide) ⟨"a.tar".toList, by decide⟩ rfl (fun g _ => ⟨_, rfl⟩) (by decide) rfl

/-- C208: the user prefers libarchive for a ZIP archive, and then a compression for a TAR archive. -/
example : openPath demoOpens (fun f _ => .ok (decide (f = 0x103))) ["libarchive".toList] "a.zip".toList =
    (.ok (some "libarchive".toList), ["libarchive".toList]) :=
  C208_preferred demoOpens _ _ _ _ [] 0x103 ⟨InputFile.libarchiveFormats, [("libarchive".toList, "libarchive-c".toList)]⟩ rfl (by decide +kernel)
    (by decide +kernel)
    rfl (fun g _ => ⟨_, rfl⟩) rfl

example : openPath demoOpens (fun f _ => .ok (decide (f = 0x1002))) ["rapidgzip".toList] "noname".toList =
    (.ok (some "tarfile".toList), ["tarfile".toList]) :=
  C208_preferred demoOpens _ _ _ _ [] 0x1002 ⟨[0x201, 0x1002, 0x1005, 0x1008, 0x1001, 0x1003, 0x1004], [("tarfile".toList, [])]⟩ rfl
    (by decide +kernel) (by decide) rfl (fun g _ => ⟨_, rfl⟩) rfl

/-- C208: a TAR archive named "B.CBT". -/
example (esc : Tar.Bytes → Str) : openPath demoOpens (checks (codec esc) none (fun _ _ => .ok false) (bytesOf Fuse.TarFiles.demo 1024)) [] "B.CBT".toList =
    (.ok (some "tarfile".toList), ["tarfile".toList]) :=
  C208_tar esc none _ demoOpens _ Fuse.TarFiles.demo_packed (by simp [Fuse.TarFiles.demo]) 1024 "cbt" (by decide) ⟨['b'], by decide⟩ (fun g _ => ⟨_, rfl⟩) rfl

set_option maxRecDepth 100000 in
theorem demo_begin : ∃ rest, bytesOf Fuse.TarFiles.demo 1024 = 46 :: rest := by
  exact ⟨_, rfl⟩

/-- C208: a TAR archive without extension. -/
example (esc : Tar.Bytes → Str) : openPath demoOpens (checks (codec esc) none (fun _ _ => .ok false) (bytesOf Fuse.TarFiles.demo 1024)) [] "backup".toList =
    (.ok (some "tarfile".toList), ["tarfile".toList]) := by
  obtain ⟨rest, h⟩ := demo_begin
  refine C208_nameless esc none _ demoOpens _ Fuse.TarFiles.demo_packed (by simp [Fuse.TarFiles.demo]) 1024 ?_ ?_ ?_ ?_ (fun g _ => ⟨_, rfl⟩) rfl
  · rintro fid e _ ⟨base, hb⟩
    have : '.' ∈ lower "backup".toList := by rw [hb]; simp
    exact absurd this (by decide)
  · rintro ⟨r, hr⟩; rw [h] at hr; injection hr with hr; exact absurd hr (by decide)
  · rintro ⟨r, hr⟩; rw [h] at hr; injection hr with hr; exact absurd hr (by decide)
  · rintro ⟨r, hr⟩; rw [h] at hr; injection hr with hr; exact absurd hr (by decide)

end Verif.Detect.Extension
