import Verif.Detect.Open
import Verif.Tar.Index
import Verif.Index.Load

/-!
# C183, C184, C185: which files are accepted as arguments (ratarmount/CLIHelpers.py:29-149, ratarmount/actions.py:193-207)

`check_input_file_type` decides whether a path that is given on the command line may be mounted. The host is given by functions:
what files exist, what `detect_formats` finds (see Verif.Detect.Formats), and which Python modules are loaded or can be imported.
The test for random data (utils.py:380-401) is a parameter here, see Verif.Cli.Random.
-/

namespace Verif.InputFile

open Verif.Py

/-! ## Model -/

/-- A backend as far as it matters here: its formats and its required modules with their packages
(`ArchiveBackendInfo`, archives.py:67-77, `CompressionBackendInfo`, compressions.py:77-88). -/
structure Backend where
  formats : List Nat
  modules : List (Str × Str)
  deriving DecidableEq

/-- `FileFormatID.SQLAR` (formats.py:51). -/
def sqlar : Nat := 0x104
/-- `FileFormatID.RATARMOUNT_INDEX` (formats.py:68). -/
def ratarmountIndex : Nat := 0x901
/-- `FileFormatID.ZSTANDARD` (formats.py:77). -/
def zstd : Nat := 0x1004
/-- `FileFormatID.RAR` (formats.py:49). -/
def rar : Nat := 0x102

/-- A backend that needs the module and package of the same name (archives.py:85-152, compressions.py:90-147). -/
def needs (name : String) (formats : List Nat) : Str × Backend := (name.toList, ⟨formats, [(name.toList, name.toList)]⟩)

/-- A backend that needs no module (archives.py:85-152). -/
def plain (name : String) (formats : List Nat) : Str × Backend := (name.toList, ⟨formats, []⟩)

/-- The formats of the backend "libarchive" for archives (archives.py:109-134). -/
def libarchiveFormats : List Nat :=
  [0x105, 0x108, 0x109, 0x302, 0x902, 0x101, 0x102, 0x201, 0x103, 0x1001, 0x1002, 0x1003, 0x1004, 0x1021, 0x1022, 0x1006, 0x1023,
    0x1007, 0x1024, 0x1025, 0x1026, 0x1027]

/-- `ARCHIVE_BACKENDS` (archives.py:85-152). -/
def archiveBackends : Dict Str Backend :=
  [plain "ar" [0x107, 0x110], needs "rarfile" [rar],
    ("tarfile".toList, ⟨[0x201, 0x1002, 0x1005, 0x1008, 0x1001, 0x1003, zstd], [("tarfile".toList, [])]⟩),
    ("zipfile".toList, ⟨[0x103], [("zipfile".toList, [])]⟩),
    needs "PySquashfsImage" [0x301],
    ("libarchive".toList, ⟨libarchiveFormats, [("libarchive".toList, "libarchive-c".toList)]⟩),
    needs "py7zr" [0x101], needs "pyfatfs" [0x401], needs "ext4" [0x402], plain "asar" [0x202], plain "sqlar" [sqlar],
    plain "html" [0x903], ("pdf".toList, ⟨[0x904], [("pypdf".toList, "pypdf".toList)]⟩), plain "ogg" [0x1105],
    plain "RatarmountIndex" [ratarmountIndex]]

/-- `COMPRESSION_BACKENDS` (compressions.py:90-147). -/
def compressionBackends : Dict Str Backend :=
  [("rapidgzip-bzip2".toList, ⟨[0x1001], [("rapidgzip".toList, "rapidgzip".toList)]⟩),
    needs "rapidgzip" [0x1002, 0x1005, 0x1008], needs "indexed_gzip" [0x1002],
    ("xz".toList, ⟨[0x1003], [("xz".toList, "python-xz".toList)]⟩), needs "lzmaffi" [0x1003], needs "indexed_zstd" [zstd],
    ("libarchive".toList, ⟨Detect.libarchiveIds, [("libarchive".toList, "libarchive-c".toList)]⟩)]

/-- `list(ARCHIVE_BACKENDS.values()) + list(COMPRESSION_BACKENDS.values())` (CLIHelpers.py:84, 94, 103, 122). -/
def backends : List Backend := (archiveBackends ++ compressionBackends).map (·.2)

/-- The host and the Python installation, as far as arguments are concerned. `raises` are exceptions of `detect_formats`. `firstPart` is
`check_for_split_file_in_folder(path)[0][0]`. -/
structure World where
  /-- `fsspec.available_protocols()`, if fsspec is installed (CLIHelpers.py:15-18, 36) -/
  protocols : Option (List Str)
  isFile : Str → Bool
  isDir : Str → Bool
  realpath : Str → Str
  firstPart : Str → Option Str
  detect : Str → Except PyErr (List Nat)
  /-- `module in sys.modules` at the start -/
  loaded : Str → Bool
  /-- `importlib.import_module(module)` raises nothing -/
  importable : Str → Bool
  sqlcipher : Bool
  /-- `is_random` of the first 4096 bytes (utils.py:380-401) -/
  random : Str → Bool
  isZip : Str → Bool
  isRar : Str → Bool
  size : Str → Nat
  /-- The zstd file has more than one frame (`is_multiframe` of the library indexed_zstd) -/
  multiFrame : Str → Bool

/-- Why a path is refused. All but `raised` are `argparse.ArgumentTypeError` (CLIHelpers.py:35-41, 44, 119, 134-146). -/
inductive Refusal where
  | noFsspec
  | unknownProtocol
  | notAFile
  | cannotBeOpened
  | missing (module package : Str)
  | raised (e : PyErr)
  deriving DecidableEq

/-- `path.split('://')[0]` if there is more than one part (CLIHelpers.py:32-33). -/
def scheme : Str → Option Str
  | [] => none
  | c :: cs => if startsWith "://".toList (c :: cs) then some [] else (scheme cs).map (c :: ·)

/-- Puts a character in front of the first part (helper of `protocolsOf`, CLIHelpers.py:36). -/
def consFirst (c : Char) : List Str → List Str
  | [] => [[c]]
  | p :: ps => (c :: p) :: ps

/-- `splitURI[0].split('::')` (CLIHelpers.py:36). -/
def protocolsOf : Str → List Str
  | [] => [[]]
  | [c] => [[c]]
  | c :: d :: cs => if c = ':' ∧ d = ':' then [] :: protocolsOf cs else consFirst c (protocolsOf (d :: cs))

/-- The branch for URLs (CLIHelpers.py:33-41). -/
def checkUrl (w : World) (path head : Str) : Except Refusal Str :=
  match w.protocols with
  | none => .error .noFsspec
  | some known => if (protocolsOf head).all (fun p => decide (p ∈ known)) then .ok path else .error .unknownProtocol

/-- `formats.intersection(backend.formats)` is not empty (CLIHelpers.py:85, 95). -/
def meets (formats : List Nat) (b : Backend) : Bool := b.formats.any (fun f => decide (f ∈ formats))

/-- `module in sys.modules` after the modules of all matching backends have been imported (CLIHelpers.py:84-91). -/
def loadedAfter (w : World) (formats : List Nat) (module_ : Str) : Bool :=
  w.loaded module_ ||
    (w.importable module_ && backends.any (fun b => meets formats b && b.modules.any (fun m => decide (m.1 = module_))))

/-- `all(module in sys.modules for module, _ in backend.requiredModules)` (CLIHelpers.py:95-97, 105). -/
def usable (w : World) (formats : List Nat) (b : Backend) : Bool := b.modules.all (fun m => loadedAfter w formats m.1)

/-- `supportedCompressions` (CLIHelpers.py:101-106). -/
def supported (w : World) (formats : List Nat) : List Nat := (backends.filter (usable w formats)).flatMap (·.formats)

/-- The loop over the required modules of one backend that is meant to print helpful messages (CLIHelpers.py:127-146). -/
def complainModules (w : World) (formats : List Nat) : List (Str × Str) → Option Refusal
  | [] => none
  | m :: ms =>
    if loadedAfter w formats m.1 || m.2.isEmpty then complainModules w formats ms
    else if w.importable m.1 then complainModules w formats ms
    else some (.missing m.1 m.2)

/-- The loop over the backends that is meant to print helpful messages (CLIHelpers.py:122-146). -/
def complain (w : World) (formats : List Nat) : List Backend → Option Refusal
  | [] => none
  | b :: bs =>
    if b.formats.isEmpty then complain w formats bs
    else match complainModules w formats b.modules with
      | some r => some r
      | none => complain w formats bs

/-- The last steps (CLIHelpers.py:121-149). -/
def explain (w : World) (formats : List Nat) (path : Str) : Except Refusal Str :=
  match complain w formats backends with
  | some r => .error r
  | none => .ok path

/-- An encrypted SQLAR (CLIHelpers.py:108). -/
def encryptedSqlar (w : World) (path : Str) : Bool :=
  w.sqlcipher && endsWith ".sqlar".toList (Tar.lower path) && w.random path

/-- The steps after the modules have been imported (CLIHelpers.py:93-149). -/
def decideFormats (w : World) (formats : List Nat) (path : Str) : Except Refusal Str :=
  if backends.any (fun b => meets formats b && usable w formats b) then .ok path
  else if (supported w formats).all (fun f => decide (f ∉ formats)) then
    if encryptedSqlar w path then .ok path else .error .cannotBeOpened
  else explain w formats path

/-- The part with the opened file (CLIHelpers.py:51-149). `path` is a real path. -/
def checkOpened (w : World) (path : Str) : Except Refusal Str :=
  match w.detect path with
  | .error e => .error (.raised e)
  | .ok formats => decideFormats w (formats.filter (fun f => decide (f ≠ sqlar))) path

/-- The branch for files of the host (CLIHelpers.py:43-149). -/
def checkFile (w : World) (path : Str) : Except Refusal Str :=
  if w.isFile path then
    match w.firstPart (w.realpath path) with
    | some part => .ok part
    | none => checkOpened w (w.realpath path)
  else .error .notAFile

/-- `check_input_file_type` (CLIHelpers.py:29-149). -/
def checkInput (w : World) (path : Str) : Except Refusal Str :=
  match scheme path with
  | some head => checkUrl w path head
  | none => checkFile w path

/-- The fallback for errors of `check_input_file_type` (actions.py:196-207). -/
def fallback (w : World) (path : Str) (r : Refusal) : Except Refusal Str :=
  if !(w.isFile path || w.isDir path) then .error r
  else if w.isDir path || w.isZip path || (w.loaded "rarfile".toList && w.isRar path) then .ok (w.realpath path)
  else .error r

/-- `check_mount_source` (actions.py:194-207): only ArgumentTypeErrors are caught. Existing paths are files or folders here, other kinds are
not modelled. -/
def checkSource (w : World) (path : Str) : Except Refusal Str :=
  match checkInput w path with
  | .ok p => .ok p
  | .error (.raised e) => .error (.raised e)
  | .error r => fallback w path r

/-- The warning for a zstd file with one frame (CLIHelpers.py:59-79): the backend is looked up in the table, all exceptions are
swallowed. -/
def warnsZstd (w : World) (formats : List Nat) (path : Str) : Bool :=
  decide (zstd ∈ formats) &&
    (match Dict.get? compressionBackends "indexed_std".toList with
      | none => false
      | some b => b.modules.all (fun m => w.loaded m.1) && !w.multiFrame path && decide (1024 * 1024 < w.size path))

/-! ## Specification -/

/-- The module is there or can be imported. -/
def Available (w : World) (m : Str) : Prop := w.loaded m = true ∨ w.importable m = true

/-- Some backend of the project reads the format and has all its modules. -/
def Readable (w : World) (f : Nat) : Prop := ∃ b ∈ backends, f ∈ b.formats ∧ ∀ m ∈ b.modules, Available w m.1

/-- **C183**, as claimed: a file with a format some installed backend can read is accepted under its real path. -/
def C183_statement : Prop :=
  ∀ (w : World) (path : Str) (formats : List Nat) (f : Nat), scheme path = none → w.isFile path = true →
    w.firstPart (w.realpath path) = none → w.detect (w.realpath path) = .ok formats → f ∈ formats → Readable w f →
    checkInput w path = .ok (w.realpath path)

/-- **C184**, as claimed: if a file is refused although a backend for its format lacks only modules that can be installed, then
the error names such a module and its package. -/
def C184_statement : Prop :=
  ∀ (w : World) (path : Str) (formats : List Nat) (b : Backend), scheme path = none → w.isFile path = true →
    w.firstPart (w.realpath path) = none → w.detect (w.realpath path) = .ok formats → b ∈ backends → meets formats b = true →
    (∃ m ∈ b.modules, m.2 ≠ []) → (∀ p, checkInput w path ≠ .ok p) →
    ∃ m package, checkInput w path = .error (.missing m package) ∧ ∃ b' ∈ backends, meets formats b' = true ∧ (m, package) ∈ b'.modules

/-- **C185**, as claimed: for a large zstd file with only one frame there is a warning if the library for zstd is installed. -/
def C185_statement : Prop :=
  ∀ (w : World) (formats : List Nat) (path : Str), zstd ∈ formats → w.loaded "indexed_zstd".toList = true →
    w.multiFrame path = false → 1024 * 1024 < w.size path → warnsZstd w formats path = true

/-! ## Lemmas -/

theorem meets_iff (formats : List Nat) (b : Backend) : meets formats b = true ↔ ∃ f ∈ formats, f ∈ b.formats := by
  unfold meets
  rw [List.any_eq_true]
  exact ⟨fun ⟨f, hf, h⟩ => ⟨f, of_decide_eq_true h, hf⟩, fun ⟨f, hf, h⟩ => ⟨f, h, decide_eq_true hf⟩⟩

/-- For a backend that fits, all modules that are available are loaded afterwards. -/
theorem usable_iff (w : World) (formats : List Nat) (b : Backend) (hb : b ∈ backends) (hm : meets formats b = true) :
    usable w formats b = true ↔ ∀ m ∈ b.modules, Available w m.1 := by
  unfold usable
  rw [List.all_eq_true]
  refine ⟨fun h m hmem => ?_, fun h m hmem => ?_⟩
  · have := h m hmem
    unfold loadedAfter at this
    rw [Bool.or_eq_true, Bool.and_eq_true] at this
    exact this.elim Or.inl (fun x => Or.inr x.1)
  · unfold loadedAfter
    rw [Bool.or_eq_true, Bool.and_eq_true]
    refine (h m hmem).elim Or.inl (fun x => Or.inr ⟨x, ?_⟩)
    rw [List.any_eq_true]
    refine ⟨b, hb, ?_⟩
    rw [hm, Bool.true_and, List.any_eq_true]
    exact ⟨m, hmem, decide_eq_true rfl⟩

theorem any_iff (w : World) (formats : List Nat) :
    backends.any (fun b => meets formats b && usable w formats b) = true ↔ ∃ f ∈ formats, Readable w f := by
  rw [List.any_eq_true]
  constructor
  · rintro ⟨b, hb, h⟩
    rw [Bool.and_eq_true] at h
    obtain ⟨f, hf, hfb⟩ := (meets_iff formats b).1 h.1
    exact ⟨f, hf, b, hb, hfb, (usable_iff w formats b hb h.1).1 h.2⟩
  · rintro ⟨f, hf, b, hb, hfb, h⟩
    have hm : meets formats b = true := (meets_iff formats b).2 ⟨f, hf, hfb⟩
    refine ⟨b, hb, ?_⟩
    rw [Bool.and_eq_true]
    exact ⟨hm, (usable_iff w formats b hb hm).2 h⟩

/-- If no backend can be used for the formats, then none of the formats is among the supported ones. -/
theorem supported_none (w : World) (formats : List Nat) (h : ¬ ∃ f ∈ formats, Readable w f) :
    (supported w formats).all (fun f => decide (f ∉ formats)) = true := by
  rw [List.all_eq_true]
  intro f hf
  refine decide_eq_true (fun hmem => h ?_)
  unfold supported at hf
  rw [List.mem_flatMap] at hf
  obtain ⟨b, hb, hfb⟩ := hf
  rw [List.mem_filter] at hb
  have hm : meets formats b = true := (meets_iff formats b).2 ⟨f, hmem, hfb⟩
  exact ⟨f, hmem, b, hb.1, hfb, (usable_iff w formats b hb.1 hm).1 hb.2⟩

/-- The last steps are never reached. -/
theorem decideFormats_eq (w : World) (formats : List Nat) (path : Str) :
    decideFormats w formats path =
      (if backends.any (fun b => meets formats b && usable w formats b) || encryptedSqlar w path then .ok path
        else .error .cannotBeOpened) := by
  unfold decideFormats
  cases h : backends.any (fun b => meets formats b && usable w formats b) with
  | true => rfl
  | false =>
    have hno : ¬ ∃ f ∈ formats, Readable w f := fun hx => by
      rw [(any_iff w formats).2 hx] at h
      exact Bool.noConfusion h
    rw [supported_none w formats hno]
    rfl

theorem checkInput_file (w : World) (path : Str) (formats : List Nat) (hs : scheme path = none) (hf : w.isFile path = true)
    (hp : w.firstPart (w.realpath path) = none) (hd : w.detect (w.realpath path) = .ok formats) :
    checkInput w path = decideFormats w (formats.filter (fun f => decide (f ≠ sqlar))) (w.realpath path) := by
  unfold checkInput
  rw [hs]
  show checkFile w path = _
  unfold checkFile
  rw [if_pos hf, hp]
  show checkOpened w (w.realpath path) = _
  unfold checkOpened
  rw [hd]

/-! ## C183 -/

/-- **C183**, the exact criterion: a regular file that is no part of a split file is accepted if and only if one of its formats
other than SQLAR can be read by an installed backend, or it looks like an encrypted SQLAR: the library is installed, its name ends
with `.sqlar`, and its first bytes look random. It is then mounted by its real path; otherwise "cannot be opened" is reported. -/
theorem C183_criterion (w : World) (path : Str) (formats : List Nat) (hs : scheme path = none) (hf : w.isFile path = true)
    (hp : w.firstPart (w.realpath path) = none) (hd : w.detect (w.realpath path) = .ok formats) :
    ((∃ f ∈ formats, f ≠ sqlar ∧ Readable w f) ∨
        (w.sqlcipher = true ∧ endsWith ".sqlar".toList ((w.realpath path).map Char.toLower) = true ∧ w.random (w.realpath path) = true) →
      checkInput w path = .ok (w.realpath path)) ∧
    (¬ ((∃ f ∈ formats, f ≠ sqlar ∧ Readable w f) ∨
        (w.sqlcipher = true ∧ endsWith ".sqlar".toList ((w.realpath path).map Char.toLower) = true ∧ w.random (w.realpath path) = true)) →
      checkInput w path = .error .cannotBeOpened) := by
  rw [checkInput_file w path formats hs hf hp hd, decideFormats_eq]
  have hiff : (backends.any (fun b => meets (formats.filter (fun f => decide (f ≠ sqlar))) b &&
        usable w (formats.filter (fun f => decide (f ≠ sqlar))) b) || encryptedSqlar w (w.realpath path)) = true ↔
      ((∃ f ∈ formats, f ≠ sqlar ∧ Readable w f) ∨
        (w.sqlcipher = true ∧ endsWith ".sqlar".toList ((w.realpath path).map Char.toLower) = true ∧
          w.random (w.realpath path) = true)) := by
    rw [Bool.or_eq_true, any_iff]
    refine or_congr ⟨?_, ?_⟩ ?_
    · rintro ⟨f, hmem, hr⟩
      rw [List.mem_filter] at hmem
      exact ⟨f, hmem.1, of_decide_eq_true hmem.2, hr⟩
    · rintro ⟨f, hmem, hne, hr⟩
      exact ⟨f, List.mem_filter.2 ⟨hmem, decide_eq_true hne⟩, hr⟩
    · unfold encryptedSqlar Tar.lower
      rw [Bool.and_eq_true, Bool.and_eq_true, and_assoc]
  exact ⟨fun h => if_pos (hiff.2 h), fun h => if_neg (fun hx => h (hiff.1 hx))⟩

/-- **C183** for every format but SQLAR. Missing: SQLAR, see `C183_violated`. Plain SQLAR files are accepted because they begin like an
index of ratarmount. -/
theorem C183_partial (w : World) (path : Str) (formats : List Nat) (f : Nat) (hs : scheme path = none) (hf : w.isFile path = true)
    (hp : w.firstPart (w.realpath path) = none) (hd : w.detect (w.realpath path) = .ok formats) (hmem : f ∈ formats)
    (hr : Readable w f) (hne : f ≠ sqlar ∨ ratarmountIndex ∈ formats) : checkInput w path = .ok (w.realpath path) := by
  refine (C183_criterion w path formats hs hf hp hd).1 (Or.inl ?_)
  rcases hne with h | h
  · exact ⟨f, hmem, h, hr⟩
  · refine ⟨ratarmountIndex, h, by decide, ?_⟩
    refine ⟨⟨[ratarmountIndex], []⟩, by decide +kernel, by decide, fun m hm => by cases hm⟩

/-- A Python installation without any module but sqlcipher3, and an encrypted SQLAR named "a.db". -/
def demoWorld : World where
  protocols := none
  isFile := fun _ => true
  isDir := fun _ => false
  realpath := fun p => '/' :: p
  firstPart := fun _ => none
  detect := fun _ => .ok [sqlar]
  loaded := fun _ => false
  importable := fun _ => false
  sqlcipher := true
  random := fun _ => true
  isZip := fun _ => false
  isRar := fun _ => false
  size := fun _ => 1024 * 1024 + 1
  multiFrame := fun _ => false

/-- **C183** is violated: the backend "sqlar" needs no module and opens an encrypted SQLAR if passwords are given, but it is refused if
its name does not end with `.sqlar`. -/
theorem C183_violated : ¬ C183_statement := by
  intro h
  have h1 := h demoWorld "a.db".toList [sqlar] sqlar (by decide) rfl rfl rfl (by decide)
    ⟨⟨[sqlar], []⟩, by decide +kernel, by decide, fun m hm => by cases hm⟩
  revert h1
  decide +kernel

/-- **C183**: nothing is accepted that is not a file or has no readable format. An accepted path that is no URL is the first part of a
split file, or meets the criterion. -/
theorem C183_only (w : World) (path p : Str) (hs : scheme path = none) (h : checkInput w path = .ok p) :
    w.isFile path = true ∧
      (w.firstPart (w.realpath path) = some p ∨
        (p = w.realpath path ∧ ∃ formats, w.detect (w.realpath path) = .ok formats ∧
          ((∃ f ∈ formats, f ≠ sqlar ∧ Readable w f) ∨
            (w.sqlcipher = true ∧ endsWith ".sqlar".toList ((w.realpath path).map Char.toLower) = true ∧
              w.random (w.realpath path) = true)))) := by
  cases hf : w.isFile path with
  | false =>
    unfold checkInput at h
    rw [hs] at h
    replace h : checkFile w path = .ok p := h
    unfold checkFile at h
    rw [hf] at h
    cases h
  | true =>
    refine ⟨rfl, ?_⟩
    cases hp : w.firstPart (w.realpath path) with
    | some part =>
      unfold checkInput at h
      rw [hs] at h
      replace h : checkFile w path = .ok p := h
      unfold checkFile at h
      rw [if_pos hf, hp] at h
      cases h
      exact Or.inl rfl
    | none =>
      cases hd : w.detect (w.realpath path) with
      | error e =>
        unfold checkInput at h
        rw [hs] at h
        replace h : checkFile w path = .ok p := h
        unfold checkFile at h
        rw [if_pos hf, hp] at h
        replace h : checkOpened w (w.realpath path) = .ok p := h
        unfold checkOpened at h
        rw [hd] at h
        cases h
      | ok formats =>
        refine Or.inr ?_
        have hc := C183_criterion w path formats hs hf hp hd
        rcases Classical.em ((∃ f ∈ formats, f ≠ sqlar ∧ Readable w f) ∨
            (w.sqlcipher = true ∧ endsWith ".sqlar".toList ((w.realpath path).map Char.toLower) = true ∧
              w.random (w.realpath path) = true)) with hx | hx
        · exact ⟨by have := hc.1 hx; rw [h] at this; cases this; rfl, formats, rfl, hx⟩
        · rw [hc.2 hx] at h
          cases h

/-! ## URLs -/

/-- Protocols joined by `::`, as users write chained URLs for fsspec. -/
def joinProtocols : List Str → Str
  | [] => []
  | [p] => p
  | p :: ps => p ++ "::".toList ++ joinProtocols ps

theorem protocolsOf_append (p : Str) (h : ':' ∉ p) (s : Str) :
    protocolsOf (p ++ "::".toList ++ s) = p :: protocolsOf s := by
  induction p with
  | nil => rfl
  | cons c cs ih =>
    have hc : c ≠ ':' := fun e => h (by rw [e]; exact List.mem_cons_self)
    have hcs : ':' ∉ cs := fun e => h (List.mem_cons_of_mem _ e)
    have key : ∃ d ds, cs ++ "::".toList ++ s = d :: ds := by
      cases cs with
      | nil => exact ⟨':', ':' :: s, rfl⟩
      | cons d ds => exact ⟨d, ds ++ "::".toList ++ s, rfl⟩
    obtain ⟨d, ds, hd⟩ := key
    have ih' := ih hcs
    rw [hd] at ih'
    show protocolsOf (c :: (cs ++ "::".toList ++ s)) = _
    rw [hd, protocolsOf, if_neg (fun e => hc e.1), ih']
    rfl

theorem protocolsOf_self (p : Str) (h : ':' ∉ p) : protocolsOf p = [p] := by
  induction p with
  | nil => rfl
  | cons c cs ih =>
    have hc : c ≠ ':' := fun e => h (by rw [e]; exact List.mem_cons_self)
    have ih' := ih (fun e => h (List.mem_cons_of_mem _ e))
    cases cs with
    | nil => rfl
    | cons d ds =>
      rw [protocolsOf, if_neg (fun e => hc e.1), ih']
      rfl

theorem protocolsOf_join (ps : List Str) (hne : ps ≠ []) (h : ∀ p ∈ ps, ':' ∉ p) : protocolsOf (joinProtocols ps) = ps := by
  induction ps with
  | nil => exact absurd rfl hne
  | cons p ps ih =>
    cases ps with
    | nil => exact protocolsOf_self p (h p List.mem_cons_self)
    | cons q qs =>
      show protocolsOf (p ++ "::".toList ++ joinProtocols (q :: qs)) = _
      rw [protocolsOf_append p (h p List.mem_cons_self), ih (by simp) (fun x hx => h x (List.mem_cons_of_mem _ hx))]

theorem scheme_append (head rest : Str) (h : '/' ∉ head) : scheme (head ++ "://".toList ++ rest) = some head := by
  induction head with
  | nil => rfl
  | cons c cs ih =>
    have ih' := ih (fun e => h (List.mem_cons_of_mem _ e))
    show scheme (c :: (cs ++ "://".toList ++ rest)) = _
    rw [scheme, ih', if_neg]
    · rfl
    · intro hs
      have hlt : ∃ d e t, cs ++ "://".toList ++ rest = d :: e :: t ∧ (d ≠ '/') := by
        cases cs with
        | nil => exact ⟨':', '/', '/' :: rest, rfl, by decide⟩
        | cons d ds =>
          have hd : d ≠ '/' := fun e => h (by rw [e]; exact List.mem_cons_of_mem _ List.mem_cons_self)
          cases ds with
          | nil => exact ⟨d, ':', '/' :: '/' :: rest, rfl, hd⟩
          | cons e es => exact ⟨d, e, es ++ "://".toList ++ rest, rfl, hd⟩
      obtain ⟨d, e, t, heq, hd⟩ := hlt
      rw [heq] at hs
      replace hs : List.isPrefixOf [':', '/', '/'] (c :: d :: e :: t) = true := hs
      rw [List.isPrefixOf_cons_cons, List.isPrefixOf_cons_cons, Bool.and_eq_true, Bool.and_eq_true] at hs
      exact hd (eq_of_beq hs.2.1).symm

/-- **C183** for URLs: a URL whose chain of protocols before the first `://` is known is accepted as it is, without access to anything. -/
theorem C183_url (w : World) (known ps : List Str) (rest : Str) (hk : w.protocols = some known) (hne : ps ≠ [])
    (hc : ∀ p ∈ ps, ':' ∉ p ∧ '/' ∉ p) (hall : ∀ p ∈ ps, p ∈ known) :
    checkInput w (joinProtocols ps ++ "://".toList ++ rest) = .ok (joinProtocols ps ++ "://".toList ++ rest) := by
  have hs : '/' ∉ joinProtocols ps := by
    clear hne hall
    induction ps with
    | nil => simp [joinProtocols]
    | cons p ps ih =>
      have hp := hc p List.mem_cons_self
      have hps := ih (fun x hx => hc x (List.mem_cons_of_mem _ hx))
      cases ps with
      | nil => exact hp.2
      | cons q qs =>
        show '/' ∉ p ++ "::".toList ++ joinProtocols (q :: qs)
        simp only [List.mem_append, not_or]
        exact ⟨⟨hp.2, by decide⟩, hps⟩
  unfold checkInput
  rw [scheme_append _ _ hs]
  show checkUrl w _ (joinProtocols ps) = _
  unfold checkUrl
  rw [hk]
  show (if (protocolsOf (joinProtocols ps)).all (fun p => decide (p ∈ known)) = true then _ else _) = _
  rw [protocolsOf_join ps hne (fun p hp => (hc p hp).1), if_pos]
  rw [List.all_eq_true]
  exact fun p hp => decide_eq_true (hall p hp)

/-- **C183** for URLs: if one protocol of the chain is unknown or fsspec is not installed, then the URL is refused. -/
theorem C183_url_refused (w : World) (ps : List Str) (rest : Str) (hne : ps ≠ []) (hc : ∀ p ∈ ps, ':' ∉ p ∧ '/' ∉ p)
    (hno : ∀ known, w.protocols = some known → ∃ p ∈ ps, p ∉ known) :
    checkInput w (joinProtocols ps ++ "://".toList ++ rest) = .error .unknownProtocol ∨
      checkInput w (joinProtocols ps ++ "://".toList ++ rest) = .error .noFsspec := by
  have hs : '/' ∉ joinProtocols ps := by
    clear hne hno
    induction ps with
    | nil => simp [joinProtocols]
    | cons p ps ih =>
      have hp := hc p List.mem_cons_self
      have hps := ih (fun x hx => hc x (List.mem_cons_of_mem _ hx))
      cases ps with
      | nil => exact hp.2
      | cons q qs =>
        show '/' ∉ p ++ "::".toList ++ joinProtocols (q :: qs)
        simp only [List.mem_append, not_or]
        exact ⟨⟨hp.2, by decide⟩, hps⟩
  unfold checkInput
  rw [scheme_append _ _ hs]
  show checkUrl w _ (joinProtocols ps) = _ ∨ checkUrl w _ (joinProtocols ps) = _
  unfold checkUrl
  cases hk : w.protocols with
  | none => exact Or.inr rfl
  | some known =>
    refine Or.inl ?_
    show (if (protocolsOf (joinProtocols ps)).all (fun p => decide (p ∈ known)) = true then _ else _) = _
    rw [protocolsOf_join ps hne (fun p hp => (hc p hp).1), if_neg]
    rw [List.all_eq_true]
    obtain ⟨p, hp, hn⟩ := hno known hk
    exact fun hall => hn (of_decide_eq_true (hall p hp))

/-- `sftp::tar` is a chain of two protocols. -/
example : checkInput { demoWorld with protocols := some ["tar".toList, "ssh".toList] } "ssh::tar://host/a.tar".toList =
    .ok "ssh::tar://host/a.tar".toList := by decide +kernel

example : checkInput { demoWorld with protocols := some ["tar".toList] } "ssh::tar://host/a.tar".toList = .error .unknownProtocol := by
  decide +kernel

/-! ## check_mount_source -/

/-- **C183** for `check_mount_source`: folders are accepted under their real path, unless `://` is in their path. -/
theorem C183_folder (w : World) (path : Str) (hs : scheme path = none) (hd : w.isDir path = true) (hf : w.isFile path = false) :
    checkSource w path = .ok (w.realpath path) := by
  have hc : checkInput w path = .error .notAFile := by
    unfold checkInput
    rw [hs]
    show checkFile w path = _
    unfold checkFile
    rw [hf]
    rfl
  unfold checkSource
  rw [hc]
  show fallback w path .notAFile = _
  unfold fallback
  rw [hd, hf]
  rfl

/-- **C183** for `check_mount_source`: what does not exist is refused. -/
theorem C183_absent (w : World) (path : Str) (hs : scheme path = none) (hd : w.isDir path = false) (hf : w.isFile path = false) :
    checkSource w path = .error .notAFile := by
  have hc : checkInput w path = .error .notAFile := by
    unfold checkInput
    rw [hs]
    show checkFile w path = _
    unfold checkFile
    rw [hf]
    rfl
  unfold checkSource
  rw [hc]
  show fallback w path .notAFile = _
  unfold fallback
  rw [hd, hf]
  rfl

/-- **C183** for `check_mount_source`: a path that passes `check_input_file_type` is used as that returns it. -/
theorem C183_source (w : World) (path p : Str) (h : checkInput w path = .ok p) : checkSource w path = .ok p := by
  unfold checkSource
  rw [h]

/-! ### which formats -/

/-- **C183**: TAR, ZIP, AR, thin AR, ASAR, HTML, OGG and indexes need nothing that has to be installed, if the modules tarfile and zipfile of
the standard library can be imported. -/
theorem C183_builtin (w : World) (path : Str) (formats : List Nat) (f : Nat) (hs : scheme path = none) (hf : w.isFile path = true)
    (hp : w.firstPart (w.realpath path) = none) (hd : w.detect (w.realpath path) = .ok formats) (hmem : f ∈ formats)
    (h1 : Available w "tarfile".toList) (h2 : Available w "zipfile".toList)
    (hl : f ∈ [0x201, 0x103, 0x107, 0x110, 0x202, 0x903, 0x1105, 0x901]) : checkInput w path = .ok (w.realpath path) := by
  have h0 : ∀ g ∈ [0x201, 0x103, 0x107, 0x110, 0x202, 0x903, 0x1105, 0x901], g ≠ sqlar := by decide
  refine C183_partial w path formats f hs hf hp hd hmem ?_ (.inl (h0 f hl))
  have h3 : ∀ g ∈ [0x201, 0x103, 0x107, 0x110, 0x202, 0x903, 0x1105, 0x901], ∃ b ∈ backends, g ∈ b.formats ∧
      ∀ m ∈ b.modules, m.1 = "tarfile".toList ∨ m.1 = "zipfile".toList := by decide +kernel
  obtain ⟨b, hb, hg, hm⟩ := h3 f hl
  refine ⟨b, hb, hg, fun m hmm => ?_⟩
  rcases hm m hmm with e | e <;> rw [e] <;> assumption

/-- **C183**: with libarchive, also CAB, XAR, CPIO, ISO9660, WARC, 7-zip, RAR and the compressions bzip2, gzip, xz, Zstandard, grzip, lrzip, LZ4,
lzip, LZMA, lzop, RPM, uuencode and compress are accepted. -/
theorem C183_libarchive (w : World) (path : Str) (formats : List Nat) (f : Nat) (hs : scheme path = none) (hf : w.isFile path = true)
    (hp : w.firstPart (w.realpath path) = none) (hd : w.detect (w.realpath path) = .ok formats) (hmem : f ∈ formats)
    (h1 : Available w "libarchive".toList)
    (hl : f ∈ [0x105, 0x108, 0x109, 0x302, 0x902, 0x101, 0x102, 0x1001, 0x1002, 0x1003, 0x1004, 0x1021, 0x1022, 0x1006, 0x1023, 0x1007, 0x1024, 0x1025,
      0x1026, 0x1027]) : checkInput w path = .ok (w.realpath path) := by
  have h0 : ∀ g ∈ [0x105, 0x108, 0x109, 0x302, 0x902, 0x101, 0x102, 0x1001, 0x1002, 0x1003, 0x1004, 0x1021, 0x1022, 0x1006, 0x1023, 0x1007, 0x1024, 0x1025,
      0x1026, 0x1027], g ≠ sqlar := by decide
  refine C183_partial w path formats f hs hf hp hd hmem ?_ (.inl (h0 f hl))
  have h3 : ∀ g ∈ [0x105, 0x108, 0x109, 0x302, 0x902, 0x101, 0x102, 0x1001, 0x1002, 0x1003, 0x1004, 0x1021, 0x1022, 0x1006, 0x1023, 0x1007, 0x1024, 0x1025,
      0x1026, 0x1027], ∃ b ∈ backends, g ∈ b.formats ∧ ∀ m ∈ b.modules, m.1 = "libarchive".toList := by decide +kernel
  obtain ⟨b, hb, hg, hm⟩ := h3 f hl
  refine ⟨b, hb, hg, fun m hmm => ?_⟩
  rw [hm m hmm]
  exact h1

/-- **C183**: a file that is detected as SQLAR and as nothing else is refused, unless it looks like an encrypted one. -/
theorem C183_sqlar (w : World) (path : Str) (hs : scheme path = none) (hf : w.isFile path = true) (hp : w.firstPart (w.realpath path) = none)
    (hd : w.detect (w.realpath path) = .ok [0x104]) (hc : w.sqlcipher = false) : checkInput w path = .error .cannotBeOpened := by
  refine (C183_criterion w path _ hs hf hp hd).2 ?_
  rintro (⟨f, hm, hne, -⟩ | ⟨h, -⟩)
  · exact hne (List.mem_singleton.mp hm)
  · rw [hc] at h; cases h

/-! ## C184 -/

/-- No error names a missing module. -/
theorem C184_never (w : World) (path m package : Str) : checkInput w path ≠ .error (.missing m package) := by
  unfold checkInput
  cases scheme path with
  | some head =>
    show checkUrl w path head ≠ _
    unfold checkUrl
    cases w.protocols with
    | none => exact fun h => by cases h
    | some known =>
      show (if _ then _ else _) ≠ _
      split <;> exact fun h => by cases h
  | none =>
    show checkFile w path ≠ _
    unfold checkFile
    split
    · cases w.firstPart (w.realpath path) with
      | some part => exact fun h => by cases h
      | none =>
        show checkOpened w (w.realpath path) ≠ _
        unfold checkOpened
        cases w.detect (w.realpath path) with
        | error e => exact fun h => by cases h
        | ok formats =>
          show decideFormats w _ _ ≠ _
          rw [decideFormats_eq]
          split <;> exact fun h => by cases h
    · exact fun h => by cases h

/-- **C184** is violated: a RAR archive without the modules rarfile and libarchive is refused without naming any module. -/
theorem C184_violated : ¬ C184_statement := by
  intro h
  have h1 := h { demoWorld with detect := fun _ => .ok [rar] } "a.rar".toList [rar]
    ⟨[rar], [("rarfile".toList, "rarfile".toList)]⟩ (by decide) rfl rfl rfl (by decide +kernel) (by decide)
    ⟨("rarfile".toList, "rarfile".toList), by decide, by decide⟩
    (fun p hp => by
      have : checkInput { demoWorld with detect := fun _ => .ok [rar] } "a.rar".toList = .error .cannotBeOpened := by decide +kernel
      rw [this] at hp
      cases hp)
  obtain ⟨m, package, hx, -⟩ := h1
  exact C184_never _ _ _ _ hx

/-- **C184**, what holds: a file is not refused because of a missing module if another backend for one of its formats is complete, and if
it is refused then the error says that it cannot be opened. Missing: the name of the module and its package. -/
theorem C184_partial (w : World) (path : Str) (formats : List Nat) (hs : scheme path = none) (hf : w.isFile path = true)
    (hp : w.firstPart (w.realpath path) = none) (hd : w.detect (w.realpath path) = .ok formats) (hno : ∀ p, checkInput w path ≠ .ok p) :
    checkInput w path = .error .cannotBeOpened ∧
      ∀ f ∈ formats, f ≠ sqlar → ∀ b ∈ backends, f ∈ b.formats → ∃ m ∈ b.modules, ¬ Available w m.1 := by
  have hc := C183_criterion w path formats hs hf hp hd
  have hnot := fun hx => hno _ (hc.1 hx)
  refine ⟨hc.2 hnot, fun f hmem hne b hb hfb => Classical.byContradiction (fun hx => hnot (Or.inl ⟨f, hmem, hne, b, hb, hfb, ?_⟩))⟩
  intro m hm
  exact Classical.byContradiction (fun hav => hx ⟨m, hm, hav⟩)

/-- A `.tar.zst` file is accepted although the library for zstd is missing: the backend "tarfile" lists the format. -/
example : checkInput { demoWorld with detect := fun _ => .ok [zstd], loaded := fun m => m == "tarfile".toList } "a.tar.zst".toList =
    .ok "/a.tar.zst".toList := by decide +kernel

/-! ## C185 -/

/-- **C185**: there is never a warning. -/
theorem C185_never (w : World) (formats : List Nat) (path : Str) : warnsZstd w formats path = false := by
  unfold warnsZstd
  have : Dict.get? compressionBackends "indexed_std".toList = none := by decide +kernel
  rw [this, Bool.and_false]

/-- **C185** is violated: the backend is looked up under a misspelled name. -/
theorem C185_violated : ¬ C185_statement := by
  intro h
  have := h { demoWorld with loaded := fun _ => true } [zstd] [] (by decide) rfl rfl (by decide)
  rw [C185_never] at this
  cases this

/-- Under its real name the backend is in the table. -/
example : Dict.get? compressionBackends "indexed_zstd".toList ≠ none := by decide +kernel

/-! ## Examples -/

/-- A RAR archive is accepted if one of the two backends is complete. -/
example : checkInput { demoWorld with detect := fun _ => .ok [rar], importable := fun m => m == "libarchive".toList } "a.rar".toList =
    .ok "/a.rar".toList := by decide +kernel

/-- An encrypted SQLAR with the right name. -/
example : checkInput demoWorld "a.SQLAR".toList = .ok "/a.SQLAR".toList := by decide +kernel

example : checkInput { demoWorld with random := fun _ => false } "a.sqlar".toList = .error .cannotBeOpened := by decide +kernel

end Verif.InputFile
