import Verif.Compose.Automount
import Verif.Compose.SingleFile
import Verif.Names.SplitFile
import Verif.Cli.Suffix
import Verif.Cli.MountPoint
import Verif.Bytes

/-!
# C178, C179, C180: split files and archives met by recursive mounting

`_try_to_mount_file` (core/ratarmountcore/mountsource/compositing/automount.py:128-244) with its handling of split files, which
`Verif.Compose.Automount` leaves out. Contents of files are modelled: a joined file is the concatenation of its parts (see C03
for reading it). Not modelled: `transformRecursiveMountPoint` is a function that is given; the option `indexFilePath`.
-/

namespace Verif.Compose.Split

open Verif.Py Verif.Index Verif.Compose Verif.Names Verif.Suffix Verif.Bin
open Verif.MountPoint (splitextRoot)

/-- A mount source as far as it is used here: the names of `list_mode`, `lookup`, and reading what `open` returns
(MountSource.py:48-102). -/
structure Tree where
  names : Str → Option (List Str)
  lookup : Str → Option FileInfo
  content : FileInfo → Except PyErr Data

/-- What `_try_to_mount_file` depends on: the options and the file system. `real` is the last component of `os.path.realpath` of a
name (compressions.py:322), `archive` is `open_mount_source` (automount.py:209-226), for the other ones see `AutoConfig`. -/
structure Cfg where
  maxDepth : Nat
  rules : List Rule
  stripExt : Bool
  transform : Str → Str
  inner : FileInfo → Nat
  skip : FileInfo → Bool
  real : Str → Str
  archive : Tree → FileInfo → Except PyErr Tree

/-- `self.mounted`: sources and recursion depths (automount.py:37-41, 64-66). -/
abbrev Mounts := Dict Str (Tree × Nat)

/-- `os.path.splitext(path)[1]` (automount.py:180). -/
def extOf (p : Str) : Str := p.drop (splitextRoot p).length

/-- `0*[01]` (compressions.py:187), on the reversed extension. -/
def zeroOne : Str → Bool
  | [] => false
  | c :: zeros => (c == '0' || c == '1') && zeros.all (· == '0')

/-- `FIRST_SPLIT_EXTENSION_REGEX.fullmatch` (compressions.py:187, automount.py:180). -/
def firstSplit : Str → Bool
  | '.' :: ext => !ext.isEmpty && (ext.all (· == 'a') || ext.all (· == 'A') || zeroOne ext.reverse)
  | _ => false

/-- The mount point (automount.py:140-151). -/
def pointOf (cfg : Cfg) (path : Str) : Option Str :=
  if stripSuffix path cfg.rules = path then none
  else some (cfg.transform (if cfg.stripExt then stripSuffix path cfg.rules else path))

/-- The paths of the parts (automount.py:191). -/
def partPaths (folder : Str) (parts : List Str) : List Str := parts.map (fun part => '/' :: lstrip '/' (folder ++ '/' :: part))

/-- Opening one part (automount.py:193-197). The message of the error uses a variable that has no value yet. -/
def openPart (t : Tree) (path : Str) : Except PyErr Data :=
  match t.lookup path with
  | none => .error .unboundLocal
  | some i => t.content i

/-- `JoinedFileFromFactory` opens every part (automount.py:199-201, StenciledFile.py:197-213). -/
def readParts (t : Tree) : List Str → Except PyErr Data
  | [] => .ok []
  | p :: ps =>
    match openPart t p with
    | .error e => .error e
    | .ok d =>
      match readParts t ps with
      | .error e => .error e
      | .ok ds => .ok (d ++ ds)

/-- What the check for split files results in: it is no candidate; nothing is mounted; an exception, which nobody catches; a joined file
(automount.py:177-201). -/
inductive Check where
  | plain
  | stop
  | raises (e : PyErr)
  | joined (d : Data)
  deriving DecidableEq

/-- The parts are opened (automount.py:191-201). -/
def openParts (t : Tree) (folder : Str) (parts : List Str) : Check :=
  match readParts t (partPaths folder parts) with
  | .error e => .raises e
  | .ok d => .joined d

/-- The result of `check_for_split_file_in` (automount.py:186-201). -/
def afterSearch (t : Tree) (folder : Str) : Except PyErr (Option (List Str × Char)) → Check
  | .error e => .raises e
  | .ok none => .stop
  | .ok (some (parts, _)) => openParts t folder parts

/-- The listing of the folder (automount.py:181-201). The folder is that of the whole path, not that of the path inside of the source. -/
def searchParts (cfg : Cfg) (t : Tree) (folder name : Str) : Check :=
  match t.names folder with
  | none => .stop
  | some [] => .stop
  | some names => afterSearch t folder (checkSplit name (cfg.real name) names)

/-- The check for split files (automount.py:177-201). -/
def splitCheck (cfg : Cfg) (t : Tree) (path : Str) : Check :=
  if firstSplit (extOf path) then searchParts cfg t (osSplit path).1 (osSplit path).2 else .plain

/-- The metadata of the file in a `SingleFileMountSource` (singlefile.py:99-145). -/
def asInfo (i : PlainInfo) : FileInfo := ⟨i.mode, i.link, i.size, i.userdata⟩

/-- `open` of a `SingleFileMountSource` (singlefile.py:147-151). -/
def singleContent (s : SingleFile) (d : Data) (i : FileInfo) : Except PyErr Data :=
  if i = asInfo (createInfo s false s.size (s.mode &&& 0o777)) then .ok d else .error .valueError

/-- A `SingleFileMountSource` with the joined file (singlefile.py:32-151). -/
def singleTree (s : SingleFile) (d : Data) : Tree where
  names := s.list
  lookup p := (s.lookup p).map asInfo
  content := singleContent s d

/-- `SingleFileMountSource(os.path.split(mountPoint)[1], joinedFile)` (automount.py:208). Joined files can be read, not
written (StenciledFile.py:240-252). -/
def single (mountPoint : Str) (d : Data) : Except PyErr Tree :=
  match SingleFile.init (osSplit mountPoint).2 d.length false true 0 with
  | .error e => .error e
  | .ok s => .ok (singleTree s d)

/-- An exception leads to a warning, otherwise the source is mounted (automount.py:203, 227-244). -/
def finish (st : Mounts) (mountPoint : Str) (depth : Nat) : Except PyErr Tree → Mounts
  | .error _ => st
  | .ok t => st.set mountPoint (t, depth)

/-- The last part of `_try_to_mount_file` (automount.py:177-244). -/
def mountChecked (cfg : Cfg) (st : Mounts) (t : Tree) (info : FileInfo) (mountPoint : Str) (depth : Nat) : Check → Except PyErr Mounts
  | .plain => .ok (finish st mountPoint depth (cfg.archive t info))
  | .stop => .ok st
  | .raises e => .error e
  | .joined d => .ok (finish st mountPoint depth (single mountPoint d))

/-- `_try_to_mount_file` with the mount point (automount.py:152-244). -/
def mountAt (cfg : Cfg) (st : Mounts) (t : Tree) (info : FileInfo) (path mountPoint : Str) (depth : Nat) : Except PyErr Mounts :=
  if st.has mountPoint then .ok st
  else if cfg.skip info then .ok st
  else mountChecked cfg st t info mountPoint depth (splitCheck cfg t path)

/-- `_try_to_mount_file` with the parent (automount.py:135-244). -/
def mountIn (cfg : Cfg) (st : Mounts) (t : Tree) (parentDepth : Nat) (info : FileInfo) (path : Str) : Except PyErr Mounts :=
  if cfg.maxDepth < parentDepth + (cfg.inner info + 1) then .ok st
  else match pointOf cfg path with
    | none => .ok st
    | some mp => mountAt cfg st t info path mp (parentDepth + (cfg.inner info + 1))

/-- `_try_to_mount_file` (automount.py:128-244) with `get_recursion_depth` (automount.py:110-126). -/
def tryMount (cfg : Cfg) (st : Mounts) (path : Str) : Except PyErr Mounts :=
  match st.get? (findMounted st.keys path).1 with
  | none => .error .keyError
  | some (t, depth) =>
    match t.lookup (findMounted st.keys path).2 with
    | none => .ok st
    | some info => mountIn cfg st t depth info path

/-! ## lemmas -/

theorem firstSplit_iff (ext : Str) : firstSplit ('.' :: ext) = true ↔ FirstPart ext := by
  unfold FirstPart
  show (!ext.isEmpty && (ext.all (· == 'a') || ext.all (· == 'A') || zeroOne ext.reverse)) = true ↔ _
  have hz : zeroOne ext.reverse = true ↔ ∃ zeros last, ext = zeros ++ [last] ∧ (∀ c ∈ zeros, c = '0') ∧ (last = '0' ∨ last = '1') := by
    constructor
    · intro h
      cases hr : ext.reverse with
      | nil => rw [hr] at h; cases h
      | cons c zs =>
        rw [hr] at h
        have he : ext = zs.reverse ++ [c] := by
          have := congrArg List.reverse hr
          rw [List.reverse_reverse, List.reverse_cons] at this
          exact this
        simp only [zeroOne, Bool.and_eq_true, Bool.or_eq_true, beq_iff_eq, List.all_eq_true] at h
        exact ⟨zs.reverse, c, he, fun x hx => h.2 x (List.mem_reverse.mp hx), h.1⟩
    · rintro ⟨zs, c, rfl, h1, h2⟩
      rw [List.reverse_append]
      show zeroOne (c :: zs.reverse) = true
      simp only [zeroOne, Bool.and_eq_true, Bool.or_eq_true, beq_iff_eq, List.all_eq_true]
      exact ⟨h2, fun x hx => h1 x (List.mem_reverse.mp hx)⟩
  simp only [Bool.and_eq_true, Bool.or_eq_true, Bool.not_eq_true', List.isEmpty_eq_false_iff, List.all_eq_true, beq_iff_eq, hz]
  constructor
  · rintro ⟨h0, (h | h) | h⟩
    · exact .inl ⟨h0, h⟩
    · exact .inr (.inl ⟨h0, h⟩)
    · exact .inr (.inr h)
  · rintro (⟨h0, h⟩ | ⟨h0, h⟩ | ⟨zs, c, rfl, h⟩)
    · exact ⟨h0, .inl (.inl h)⟩
    · exact ⟨h0, .inl (.inr h)⟩
    · exact ⟨by simp, .inr ⟨zs, c, rfl, h⟩⟩

theorem extOf_canonical (cs : List Str) (stem ext : Str) (hs : '/' ∉ stem) (he : '/' ∉ ext) (hd : '.' ∉ ext)
    (hstem : ∃ c ∈ stem, c ≠ '.') : extOf (canonical (cs ++ [stem ++ '.' :: ext])) = '.' :: ext := by
  have hn : '/' ∉ stem ++ '.' :: ext := by simp [hs, he]
  have hall : stem.all (· = '.') = false := by
    obtain ⟨c, hc, hne⟩ := hstem
    cases h : stem.all (· = '.') with
    | false => rfl
    | true => exact absurd (by simpa using List.all_eq_true.mp h c hc) hne
  unfold extOf splitextRoot
  rw [canonical_append, rsplit1_append _ _ hn]
  simp only [splitextRoot.nameRoot, rsplit1_append stem ext hd, hall]
  show List.drop _ _ = _
  generalize (if cs = [] then [] else canonical cs) = pre
  rw [show pre ++ '/' :: (stem ++ '.' :: ext) = (pre ++ '/' :: stem) ++ '.' :: ext by simp]
  simp

theorem partPaths_canonical (cs : List Str) (hcs : ∀ n ∈ cs, IsName n) (parts : List Str) (hp : ∀ p ∈ parts, p ≠ [] ∧ '/' ∉ p) :
    partPaths (canonical cs) parts = parts.map (fun p => canonical (cs ++ [p])) := by
  unfold partPaths
  refine List.map_congr_left (fun p hmem => ?_)
  have hall : ∀ n ∈ cs ++ [p], n ≠ [] ∧ '/' ∉ n := by
    intro n hn
    rcases List.mem_append.mp hn with h | h
    · exact ⟨(hcs n h).1, (hcs n h).2.1⟩
    · rw [List.mem_singleton.mp h]; exact hp p hmem
  rw [canonical_eq (cs ++ [p])]
  congr 1
  have h1 := lstrip_canonical (cs ++ [p]) hall
  rw [canonical_append] at h1
  by_cases hc : cs = []
  · subst hc
    rw [if_pos rfl, List.nil_append] at h1
    rw [← h1]
    show lstrip '/' ('/' :: '/' :: p) = lstrip '/' ('/' :: p)
    unfold lstrip
    rw [List.dropWhile_cons_of_pos (by decide)]
  · rw [if_neg hc] at h1
    rw [← h1]

/-- Specification: `data` is the contents of the given files of a folder, one after the other. -/
def Concat (t : Tree) (cs : List Str) : List Str → Data → Prop
  | [], data => data = []
  | p :: ps, data => ∃ i d rest, t.lookup (canonical (cs ++ [p])) = some i ∧ t.content i = .ok d ∧ Concat t cs ps rest ∧ data = d ++ rest

theorem readParts_concat (t : Tree) (cs : List Str) (parts : List Str)
    (h : ∀ p ∈ parts, ∃ i d, t.lookup (canonical (cs ++ [p])) = some i ∧ t.content i = .ok d) :
    ∃ data, readParts t (parts.map (fun p => canonical (cs ++ [p]))) = .ok data ∧ Concat t cs parts data := by
  induction parts with
  | nil => exact ⟨[], rfl, rfl⟩
  | cons p ps ih =>
    obtain ⟨i, d, h1, h2⟩ := h p List.mem_cons_self
    obtain ⟨rest, h3, h4⟩ := ih (fun q hq => h q (List.mem_cons_of_mem _ hq))
    refine ⟨d ++ rest, ?_, i, d, rest, h1, h2, h4, rfl⟩
    show (match openPart t (canonical (cs ++ [p])) with
      | .error e => Except.error e
      | .ok d => match readParts t (ps.map (fun p => canonical (cs ++ [p]))) with
        | .error e => .error e
        | .ok ds => .ok (d ++ ds)) = _
    unfold openPart
    rw [h1, h3]
    simp only [h2]

theorem namesOf_name {n : Str} (h : IsName n) : namesOf n = [n] := by
  unfold namesOf
  rw [split_of_not_mem _ _ h.2.1]
  simp only [walk, h.1, h.2.2.1, h.2.2.2, or_self, if_false, List.nil_append]

/-- The joined file is the only file of its mount. -/
theorem single_spec (cs : List Str) (last : Str) (hcs : ∀ n ∈ cs, IsName n) (hl : IsName last) (d : Data) :
    ∃ T i, single (canonical (cs ++ [last])) d = .ok T ∧ T.names ['/'] = some [last] ∧ T.lookup (canonical [last]) = some i ∧
      T.content i = .ok d ∧ i.rest = d.length ∧ ∀ qs, (∀ n ∈ qs, IsName n) → qs ≠ [] → qs ≠ [last] → T.lookup (canonical qs) = none := by
  have hi := (C42_init last d.length false true 0).1 last (namesOf_name hl)
  have hs : single (canonical (cs ++ [last])) d = .ok (singleTree ⟨last, d.length, fileMode false true, 0⟩ d) := by
    unfold single
    rw [osSplit_canonical cs last hcs hl, hi]
  have hroot : ¬ (canonical [last] = [] ∨ canonical [last] = ['/']) := by
    rintro (h | h)
    · cases h
    · exact absurd (canonical_inj [last] [] (by simpa using hl) (by simp) h) (by simp)
  refine ⟨_, asInfo (createInfo ⟨last, d.length, fileMode false true, 0⟩ false d.length (fileMode false true &&& 0o777)), hs, rfl, ?_, ?_, ?_, ?_⟩
  · show (SingleFile.lookup _ _).map asInfo = _
    unfold SingleFile.lookup
    rw [if_neg hroot, strip_canonical [last] (by simpa using hl),
      if_pos (show join '/' [last] = last from rfl)]
    rfl
  · exact if_pos rfl
  · rfl
  · intro qs hqs h1 h2
    show (SingleFile.lookup _ _).map asInfo = _
    rw [((C42_tree ⟨last, d.length, fileMode false true, 0⟩ hl qs hqs).2.2 h1 h2).2]
    rfl

/-! ## C178 -/

/-- Specification: the folder `cs` of a source contains a split file `stem.ext`, `ext` being the suffix of a first part, and the file with the
next number, and all files that could be parts can be read. -/
structure Parted (t : Tree) (cs : List Str) (stem ext : Str) (names : List Str) : Prop where
  folder : ∀ n ∈ cs, IsName n
  stemSlash : '/' ∉ stem
  stemName : ∃ c ∈ stem, c ≠ '.'
  first : FirstPart ext
  kind : matching ext ext = true
  listed : t.names (canonical cs) = some names
  self : (stem ++ '.' :: ext) ∈ names
  two : ∃ base start s₀ s₁, base ∈ numberings.map (·.2) ∧ start ≤ 1 ∧ formatNumber start base ext.length = .ok s₀ ∧
    formatNumber (start + 1) base ext.length = .ok s₁ ∧ ((stem ++ '.' :: s₀) ∈ names ∧ matching s₀ ext = true) ∧
    ((stem ++ '.' :: s₁) ∈ names ∧ matching s₁ ext = true)
  readable : ∀ s, (stem ++ '.' :: s) ∈ names → matching s ext = true →
    '/' ∉ s ∧ ∃ i d, t.lookup (canonical (cs ++ [stem ++ '.' :: s])) = some i ∧ t.content i = .ok d

/-- Specification: nothing stands against mounting the file `path`, which is the file `inside` of a mounted source, at `mp`. -/
structure Allowed (cfg : Cfg) (st : Mounts) (t : Tree) (depth : Nat) (info : FileInfo) (path mp : Str) : Prop where
  shallow : depth + (cfg.inner info + 1) ≤ cfg.maxDepth
  point : pointOf cfg path = some mp
  free : mp ∉ st.keys
  noSkip : cfg.skip info = false

theorem mountIn_allowed {cfg : Cfg} {st : Mounts} {t : Tree} {depth : Nat} {info : FileInfo} {path mp : Str}
    (h : Allowed cfg st t depth info path mp) :
    mountIn cfg st t depth info path = mountChecked cfg st t info mp (depth + (cfg.inner info + 1)) (splitCheck cfg t path) := by
  unfold mountIn
  rw [if_neg (by have := h.shallow; omega), h.point]
  show mountAt cfg st t info path mp _ = _
  unfold mountAt
  rw [if_neg (by rw [Dict.has_iff]; exact h.free), h.noSkip]
  rfl

theorem tryMount_found {cfg : Cfg} {st : Mounts} {t : Tree} {depth : Nat} {info : FileInfo} {a b : List Str}
    (hab : ∀ n ∈ a ++ b, IsName n) (hm : st.get? (canonical a) = some (t, depth))
    (hlong : ∀ x, x <+: b → x ≠ [] → canonical (a ++ x) ∉ st.keys) (hi : t.lookup (canonical b) = some info) :
    tryMount cfg st (canonical (a ++ b)) = mountIn cfg st t depth info (canonical (a ++ b)) := by
  have hk : canonical a ∈ st.keys := (Dict.mem_keys_iff _ _).mpr (by rw [hm]; rfl)
  unfold tryMount
  rw [C40_longest st.keys a b hab hk hlong]
  simp only [hm, hi]

theorem firstPart_plain {ext : Str} (h : FirstPart ext) : '/' ∉ ext ∧ '.' ∉ ext ∧ ext ≠ [] := by
  have key : ∀ P : Char → Prop, (∀ c ∈ ext, P c) → ¬ P '/' → ¬ P '.' → '/' ∉ ext ∧ '.' ∉ ext :=
    fun P h h1 h2 => ⟨fun hm => h1 (h _ hm), fun hm => h2 (h _ hm)⟩
  rcases h with ⟨h0, h⟩ | ⟨h0, h⟩ | ⟨zs, c, he, h1, h2⟩
  · exact ⟨(key _ h (by decide) (by decide)).1, (key _ h (by decide) (by decide)).2, h0⟩
  · exact ⟨(key _ h (by decide) (by decide)).1, (key _ h (by decide) (by decide)).2, h0⟩
  · have h : ∀ x ∈ ext, x = '0' ∨ x = '1' := by
      intro x hx
      rw [he] at hx
      rcases List.mem_append.mp hx with hx | hx
      · exact .inl (h1 x hx)
      · rw [List.mem_singleton.mp hx]; exact h2
    exact ⟨(key _ h (by decide) (by decide)).1, (key _ h (by decide) (by decide)).2, by rw [he]; simp⟩

theorem isName_dotted {stem s : Str} (h : '/' ∉ stem) (hs : '/' ∉ s) (hd : ∃ c ∈ stem, c ≠ '.') : IsName (stem ++ '.' :: s) := by
  obtain ⟨c, hc, hne⟩ := hd
  refine ⟨by simp, by simp [h, hs], ?_, ?_⟩
  · intro he
    have : c ∈ ['.'] := by rw [← he]; exact List.mem_append_left _ hc
    exact hne (by simpa using this)
  · intro he
    have : c ∈ ['.', '.'] := by rw [← he]; exact List.mem_append_left _ hc
    exact hne (by simpa using this)

/-- The check for split files, when the folder of the path is the folder of the source. -/
theorem splitCheck_parted {cfg : Cfg} {t : Tree} {cs : List Str} {stem ext : Str} {names : List Str} (h : Parted t cs stem ext names)
    (hreal : cfg.real (stem ++ '.' :: ext) = stem ++ '.' :: ext) :
    ∃ parts data, GapFree [] stem ext names parts ∧ Concat t cs parts data ∧
      splitCheck cfg t (canonical (cs ++ [stem ++ '.' :: ext])) = .joined data := by
  obtain ⟨hslash, hdot, _⟩ := firstPart_plain h.first
  have hname := isName_dotted h.stemSlash hslash h.stemName
  obtain ⟨base, start, s₀, s₁, hb, hst, hf₀, hf₁, h₀, h₁⟩ := h.two
  obtain ⟨parts, c, hp⟩ := C13_detected (stem ++ '.' :: ext) stem ext names hdot h.self h.kind base hb start hst s₀ s₁ hf₀ hf₁ h₀ h₁
  have hg := C13_gap_free_partial [] stem ext names parts c hdot hp
  obtain ⟨_, _, suffixes, -, -, -, hparts, hall, -⟩ := hg.ex
  have hmem : ∀ p ∈ parts, ∃ s, p = stem ++ '.' :: s ∧ (stem ++ '.' :: s) ∈ names ∧ matching s ext = true := by
    intro p hpp
    rw [hparts, List.mem_map] at hpp
    obtain ⟨s, hs, rfl⟩ := hpp
    exact ⟨s, rfl, (hall s hs).1, (hall s hs).2.1⟩
  obtain ⟨data, hd1, hd2⟩ := readParts_concat t cs parts (by
    intro p hpp
    obtain ⟨s, rfl, h1, h2⟩ := hmem p hpp
    exact (h.readable s h1 h2).2)
  refine ⟨parts, data, hg, hd2, ?_⟩
  unfold splitCheck
  rw [extOf_canonical cs stem ext h.stemSlash hslash hdot h.stemName, if_pos ((firstSplit_iff ext).mpr h.first),
    osSplit_canonical cs _ h.folder hname]
  unfold searchParts
  rw [h.listed]
  have hne : names ≠ [] := List.ne_nil_of_mem h.self
  cases names with
  | nil => exact absurd rfl hne
  | cons n ns =>
    show afterSearch t (canonical cs) (checkSplit (stem ++ '.' :: ext) (cfg.real (stem ++ '.' :: ext)) (n :: ns)) = _
    rw [hreal, hp]
    show openParts t (canonical cs) parts = _
    unfold openParts
    rw [partPaths_canonical cs h.folder parts (by
      intro p hpp
      obtain ⟨s, rfl, h1, h2⟩ := hmem p hpp
      have := isName_dotted h.stemSlash (h.readable s h1 h2).1 h.stemName
      exact ⟨this.1, this.2.1⟩), hd1]

/-- Specification: at `mp` a folder is mounted which contains one file, named like the mount point, with the contents `data` and the size
of these. -/
def ShowsFile (st : Mounts) (mp last : Str) (data : Data) : Prop :=
  ∃ T depth i, st.get? mp = some (T, depth) ∧ T.names ['/'] = some [last] ∧ T.lookup (canonical [last]) = some i ∧ T.content i = .ok data ∧
    i.rest = data.length ∧ ∀ qs, (∀ n ∈ qs, IsName n) → qs ≠ [] → qs ≠ [last] → T.lookup (canonical qs) = none

/-- The full statement of C178 about joining: a split file in any mounted source `a`, in any folder `b` of it, is shown as a folder with one
file, which consists of all the parts in order. -/
def C178_statement : Prop :=
  ∀ (cfg : Cfg) (st : Mounts) (a b : List Str) (t : Tree) (depth : Nat) (stem ext : Str) (names : List Str) (info : FileInfo)
    (m : List Str) (last : Str),
    (∀ n ∈ a, IsName n) → st.get? (canonical a) = some (t, depth) →
    (∀ x, x <+: b ++ [stem ++ '.' :: ext] → x ≠ [] → canonical (a ++ x) ∉ st.keys) →
    Parted t b stem ext names → t.lookup (canonical (b ++ [stem ++ '.' :: ext])) = some info →
    cfg.real (stem ++ '.' :: ext) = stem ++ '.' :: ext → (∀ n ∈ m, IsName n) → IsName last →
    Allowed cfg st t depth info (canonical (a ++ (b ++ [stem ++ '.' :: ext]))) (canonical (m ++ [last])) →
    ∃ st' parts data, tryMount cfg st (canonical (a ++ (b ++ [stem ++ '.' :: ext]))) = .ok st' ∧ GapFree [] stem ext names parts ∧
      Concat t b parts data ∧ ShowsFile st' (canonical (m ++ [last])) last data

/-- **C178**, joining in the outermost source: a split file in any folder of it is shown as a folder with one file, which consists of
all the parts in order. Missing from the full claim: split files in nested archives, and what is inside of the joined file. -/
theorem C178_partial (cfg : Cfg) (st : Mounts) (b : List Str) (t : Tree) (depth : Nat) (stem ext : Str) (names : List Str)
    (info : FileInfo) (m : List Str) (last : Str) (hm : st.get? ['/'] = some (t, depth))
    (hlong : ∀ x, x <+: b ++ [stem ++ '.' :: ext] → x ≠ [] → canonical x ∉ st.keys) (h : Parted t b stem ext names)
    (hi : t.lookup (canonical (b ++ [stem ++ '.' :: ext])) = some info)
    (hreal : cfg.real (stem ++ '.' :: ext) = stem ++ '.' :: ext) (hmn : ∀ n ∈ m, IsName n) (hl : IsName last)
    (ha : Allowed cfg st t depth info (canonical (b ++ [stem ++ '.' :: ext])) (canonical (m ++ [last]))) :
    ∃ st' parts data, tryMount cfg st (canonical (b ++ [stem ++ '.' :: ext])) = .ok st' ∧ GapFree [] stem ext names parts ∧
      Concat t b parts data ∧ ShowsFile st' (canonical (m ++ [last])) last data := by
  obtain ⟨hslash, hdot, _⟩ := firstPart_plain h.first
  have hname := isName_dotted h.stemSlash hslash h.stemName
  obtain ⟨parts, data, hg, hc, hs⟩ := splitCheck_parted h hreal
  obtain ⟨T, i, h1, h2, h3, h4, hsz, h5⟩ := single_spec m last hmn hl data
  refine ⟨st.set (canonical (m ++ [last])) (T, depth + (cfg.inner info + 1)), parts, data, ?_, hg, hc, T, depth + (cfg.inner info + 1), i, ?_, h2, h3, h4, hsz, h5⟩
  · have := tryMount_found (cfg := cfg) (a := []) (b := b ++ [stem ++ '.' :: ext]) (st := st) (t := t) (depth := depth) (info := info)
      (by
        intro n hn
        rcases List.mem_append.mp hn with hn | hn
        · cases hn
        · rcases List.mem_append.mp hn with hn | hn
          · exact h.folder n hn
          · rw [List.mem_singleton.mp hn]; exact hname) hm hlong hi
    rw [List.nil_append] at this
    rw [this, mountIn_allowed ha, hs]
    show Except.ok (finish st _ _ (single _ data)) = _
    rw [h1]
    rfl
  · rw [Dict.get?_set, if_pos rfl]

/-! ## samples -/

/-- A source with some folders and files. -/
def treeOf (folders : Dict Str (List Str)) (files : Dict Str Data) : Tree where
  names p := folders.get? p
  lookup p := if files.has p then some ⟨0o100644, [], 0, [.str p]⟩ else if folders.has p then some ⟨0o40755, [], 0, [.str p]⟩ else none
  content i := match i.userdata with
    | [.str p] => match files.get? p with
      | some d => .ok d
      | none => .error .valueError
    | _ => .error .valueError

/-- The default rules, with fewer extensions. -/
def sampleRules : List Rule :=
  compile [("archive".toList, ["a".toList, "tar".toList, "zip".toList])] ["/archive".toList, "/split".toList]

/-- Mounting with the default options, three levels deep. Everything can be opened as an archive without files. -/
def sampleCfg : Cfg := ⟨3, sampleRules, false, id, fun _ => 0, fun _ => false, id, fun _ _ => .ok (treeOf [(['/'], [])] [])⟩

/-- A folder with the parts `x.001` and `x.002`. -/
def twoParts : Tree := treeOf [(['/'], ["x.001".toList, "x.002".toList])] [("/x.001".toList, [1, 2]), ("/x.002".toList, [3])]

theorem twoParts_parted : Parted twoParts [] ['x'] "001".toList ["x.001".toList, "x.002".toList] where
  folder := by simp
  stemSlash := by decide
  stemName := ⟨'x', by decide, by decide⟩
  first := .inr (.inr ⟨['0', '0'], '1', rfl, by decide, by decide⟩)
  kind := by decide
  listed := rfl
  self := by decide
  two := ⟨"0123456789".toList, 1, "001".toList, "002".toList, by decide, by decide, by decide +kernel, by decide +kernel,
    ⟨by decide, by decide⟩, ⟨by decide, by decide⟩⟩
  readable := by
    intro s hs _
    rw [show "x.001".toList = ['x'] ++ '.' :: "001".toList from rfl, show "x.002".toList = ['x'] ++ '.' :: "002".toList from rfl] at hs
    rcases List.mem_cons.mp hs with h | h
    · have : s = "001".toList := by simpa using h
      subst this
      exact ⟨by decide, _, _, rfl, rfl⟩
    · have : s = "002".toList := by simpa using h
      subst this
      exact ⟨by decide, _, _, rfl, rfl⟩

/-- The state in which the source with the parts is the root. -/
def sampleState : Mounts := [(['/'], (twoParts, 0))]

example : (tryMount sampleCfg sampleState "/x.001".toList).toOption.bind (fun st => (st.get? "/x.001".toList).map (fun m =>
    (m.1.names ['/'], (m.1.lookup "/x.001".toList).map (fun i => (m.1.content i).toOption), m.2))) =
    some (some ["x.001".toList], some (some [1, 2, 3]), 1) := by decide +kernel

example : Allowed sampleCfg sampleState twoParts 0 ⟨0o100644, [], 0, [.str "/x.001".toList]⟩ (canonical ([] ++ [['x'] ++ '.' :: "001".toList]))
    (canonical ([] ++ ["x.001".toList])) where
  shallow := by decide
  point := by decide +kernel
  free := by decide +kernel
  noSkip := rfl

/-- The same source as a nested archive. -/
def nestedState : Mounts := [(['/'], (treeOf [(['/'], ["n.tar".toList])] [("/n.tar".toList, [])], 0)), ("/n.tar".toList, (twoParts, 1))]

/-- **C178 is violated by the code**: in a nested archive, the folder is looked up with the path from the root of the mount, and the
split file is not found. -/
theorem C178_violated : ¬ C178_statement := by
  intro h
  obtain ⟨st', parts, data, h1, -, -, T, d, i, h2, -⟩ := h sampleCfg nestedState ["n.tar".toList] [] twoParts 1 ['x'] "001".toList
    ["x.001".toList, "x.002".toList] ⟨0o100644, [], 0, [.str "/x.001".toList]⟩ ["n.tar".toList] "x.001".toList
    (by intro n hn; rw [List.mem_singleton.mp hn]; unfold IsName; decide) rfl
    (by
      intro x hx hne
      have : x = [['x'] ++ '.' :: "001".toList] := by
        rw [List.nil_append] at hx
        cases x with
        | nil => exact absurd rfl hne
        | cons y ys =>
          obtain ⟨rfl, hys⟩ := List.cons_prefix_cons.mp hx
          rw [List.prefix_nil.mp hys]
      rw [this]
      decide +kernel)
    twoParts_parted rfl rfl (by intro n hn; rw [List.mem_singleton.mp hn]; unfold IsName; decide) (by unfold IsName; decide)
    ⟨by decide, by decide +kernel, by decide +kernel, rfl⟩
  have h3 : (tryMount sampleCfg nestedState (canonical (["n.tar".toList] ++ ([] ++ [['x'] ++ '.' :: "001".toList])))).toOption.map
      (fun st => st.has (canonical (["n.tar".toList] ++ ["x.001".toList]))) = some false := by decide +kernel
  rw [h1] at h3
  simp only [Except.toOption, Option.map_some, Dict.has, h2, Option.isSome_some] at h3
  cases h3

/-- The full claim that only the parts of a split file are joined: whatever is shown for a split file begins with the contents of a file
next to it. -/
def C178_right_statement : Prop :=
  ∀ (cfg : Cfg) (st st' : Mounts) (a b : List Str) (t : Tree) (depth : Nat) (name last : Str) (m : List Str) (info : FileInfo) (data : Data),
    (∀ n ∈ a ++ (b ++ [name]), IsName n) → st.get? (canonical a) = some (t, depth) →
    (∀ x, x <+: b ++ [name] → x ≠ [] → canonical (a ++ x) ∉ st.keys) → t.lookup (canonical (b ++ [name])) = some info →
    Allowed cfg st t depth info (canonical (a ++ (b ++ [name]))) (canonical (m ++ [last])) → firstSplit (extOf name) = true →
    tryMount cfg st (canonical (a ++ (b ++ [name]))) = .ok st' → ShowsFile st' (canonical (m ++ [last])) last data →
    ∃ sibling i d rest, IsName sibling ∧ t.lookup (canonical (b ++ [sibling])) = some i ∧ t.content i = .ok d ∧ data = d ++ rest

/-- A nested archive in which a folder has the name of the archive. -/
def confusing : Tree := treeOf [(['/'], ["x.1".toList, "n.tar".toList]), ("/n.tar".toList, ["x.1".toList, "x.2".toList])]
  [("/x.1".toList, [1]), ("/n.tar/x.1".toList, [7]), ("/n.tar/x.2".toList, [8])]

/-- The state with that archive at `/n.tar`. -/
def confusingState : Mounts := [(['/'], (treeOf [(['/'], ["n.tar".toList])] [("/n.tar".toList, [])], 0)), ("/n.tar".toList, (confusing, 1))]

/-- **C178 is violated by the code**: in a nested archive, files of another folder are joined and shown instead. -/
theorem C178_right_violated : ¬ C178_right_statement := by
  intro h
  have hs : splitCheck sampleCfg confusing (canonical (["n.tar".toList] ++ ([] ++ ["x.1".toList]))) = .joined [7, 8] := by decide +kernel
  have hn1 : IsName "n.tar".toList := by unfold IsName; decide
  have hn2 : IsName "x.1".toList := by unfold IsName; decide
  have hm : ∀ n ∈ ["n.tar".toList], IsName n := by intro n hn; rw [List.mem_singleton.mp hn]; exact hn1
  have hab : ∀ n ∈ ["n.tar".toList] ++ ([] ++ ["x.1".toList]), IsName n := by
    intro n hn
    rcases List.mem_cons.mp hn with rfl | hn
    · exact hn1
    · rw [List.mem_singleton.mp hn]; exact hn2
  have hlong : ∀ x, x <+: [] ++ ["x.1".toList] → x ≠ [] → canonical (["n.tar".toList] ++ x) ∉ confusingState.keys := by
    intro x hx hne
    have : x = ["x.1".toList] := by
      rw [List.nil_append] at hx
      cases x with
      | nil => exact absurd rfl hne
      | cons y ys =>
        obtain ⟨rfl, hys⟩ := List.cons_prefix_cons.mp hx
        rw [List.prefix_nil.mp hys]
    rw [this]
    decide +kernel
  have ha : Allowed sampleCfg confusingState confusing 1 ⟨0o100644, [], 0, [.str "/x.1".toList]⟩
      (canonical (["n.tar".toList] ++ ([] ++ ["x.1".toList]))) (canonical (["n.tar".toList] ++ ["x.1".toList])) :=
    ⟨by decide, by decide +kernel, by decide +kernel, rfl⟩
  obtain ⟨T, i, h1, h2, h3, h4, hsz, h5⟩ := single_spec ["n.tar".toList] "x.1".toList hm hn2 [7, 8]
  have ht := tryMount_found (cfg := sampleCfg) (st := confusingState) (t := confusing) (depth := 1)
    (info := ⟨0o100644, [], 0, [.str "/x.1".toList]⟩) hab rfl hlong rfl
  rw [mountIn_allowed ha, hs] at ht
  replace ht : _ = Except.ok (finish confusingState _ _ (single _ [7, 8])) := ht
  rw [h1] at ht
  obtain ⟨sibling, j, d, rest, hsib, h6, h7, h8⟩ := h sampleCfg confusingState _ ["n.tar".toList] [] confusing 1 "x.1".toList "x.1".toList
    ["n.tar".toList] ⟨0o100644, [], 0, [.str "/x.1".toList]⟩ [7, 8] hab rfl hlong rfl ha (by decide +kernel) ht
    ⟨T, _, i, by show Dict.get? (Dict.set _ _ _) _ = _; rw [Dict.get?_set, if_pos rfl], h2, h3, h4, hsz, h5⟩
  replace h6 : (if Dict.has _ _ then _ else if Dict.has _ _ then _ else none) = some j := h6
  have hslash : ∀ p q : Str, canonical ([] ++ [sibling]) = '/' :: (p ++ '/' :: q) → False := by
    intro p q he
    have : sibling = p ++ '/' :: q := (List.cons.inj he).2
    exact hsib.2.1 (by rw [this]; simp)
  split at h6
  · next hk =>
    rw [Dict.has_iff] at hk
    cases h6
    rcases List.mem_cons.mp hk with hk | hk
    · rw [hk] at h7
      cases h7
      cases h8
    · rcases List.mem_cons.mp hk with hk | hk
      · exact hslash "n.tar".toList "x.1".toList hk
      · exact hslash "n.tar".toList "x.2".toList (List.mem_singleton.mp hk)
  · next hk =>
    split at h6
    · cases h6
      replace h7 : (match Dict.get? _ (canonical ([] ++ [sibling])) with
        | some d => Except.ok d
        | none => Except.error PyErr.valueError) = Except.ok d := h7
      rw [Dict.has, Bool.not_eq_true, Option.isSome_eq_false_iff, Option.isNone_iff_eq_none] at hk
      rw [hk] at h7
      cases h7
    · cases h6

/-! ## plain archives -/

/-- A file whose name is not that of a first part is mounted if it can be opened as an archive; otherwise nothing happens. -/
theorem tryMount_plain {cfg : Cfg} {st : Mounts} {t : Tree} {depth : Nat} {info : FileInfo} {a b : List Str} {mp : Str}
    (hab : ∀ n ∈ a ++ b, IsName n) (hm : st.get? (canonical a) = some (t, depth))
    (hlong : ∀ x, x <+: b → x ≠ [] → canonical (a ++ x) ∉ st.keys) (hi : t.lookup (canonical b) = some info)
    (ha : Allowed cfg st t depth info (canonical (a ++ b)) mp) (hf : firstSplit (extOf (canonical (a ++ b))) = false) :
    tryMount cfg st (canonical (a ++ b)) = .ok (finish st mp (depth + (cfg.inner info + 1)) (cfg.archive t info)) := by
  rw [tryMount_found hab hm hlong hi, mountIn_allowed ha]
  unfold splitCheck
  rw [hf]
  rfl

/-- The full claim about the joined file: if it can be opened as an archive, what is inside of it is shown. `sub` is the mount point. -/
def C178_inside_statement : Prop :=
  ∀ (cfg : Cfg) (st : Mounts) (m : List Str) (last : Str) (data : Data) (T A : Tree) (depth : Nat) (i : FileInfo) (sub : Str),
    (∀ n ∈ m, IsName n) → IsName last → single (canonical (m ++ [last])) data = .ok T →
    st.get? (canonical (m ++ [last])) = some (T, depth) → (∀ n, canonical (m ++ [last] ++ [n]) ∉ st.keys) →
    T.lookup (canonical [last]) = some i → cfg.archive T i = .ok A → Allowed cfg st T depth i (canonical (m ++ [last] ++ [last])) sub →
    ∃ st' d, tryMount cfg st (canonical (m ++ [last] ++ [last])) = .ok st' ∧ st'.get? sub = some (A, d)

theorem prefix_single {x : List Str} {n : Str} (h : x <+: [n]) (hne : x ≠ []) : x = [n] := by
  cases x with
  | nil => exact absurd rfl hne
  | cons y ys =>
    obtain ⟨rfl, hys⟩ := List.cons_prefix_cons.mp h
    rw [List.prefix_nil.mp hys]

/-- **C178**, inside of the joined file: if the name it got is not that of a first part any more, as with
`stripRecursiveTarExtension`, and it can be opened as an archive, what is inside of it is shown. Missing from the full claim: files
that keep their name. -/
theorem C178_inside_partial (cfg : Cfg) (st : Mounts) (m : List Str) (last : Str) (T A : Tree) (depth : Nat)
    (i : FileInfo) (sub : Str) (hm : ∀ n ∈ m, IsName n) (hl : IsName last)
    (hst : st.get? (canonical (m ++ [last])) = some (T, depth)) (hfree : ∀ n, canonical (m ++ [last] ++ [n]) ∉ st.keys)
    (hi : T.lookup (canonical [last]) = some i) (hA : cfg.archive T i = .ok A)
    (ha : Allowed cfg st T depth i (canonical (m ++ [last] ++ [last])) sub)
    (hf : firstSplit (extOf (canonical (m ++ [last] ++ [last]))) = false) :
    ∃ st' d, tryMount cfg st (canonical (m ++ [last] ++ [last])) = .ok st' ∧ st'.get? sub = some (A, d) := by
  refine ⟨_, depth + (cfg.inner i + 1), tryMount_plain ?_ hst ?_ hi ha hf, ?_⟩
  · intro n hn
    simp only [List.mem_append, List.mem_singleton] at hn
    rcases hn with (hn | rfl) | rfl
    · exact hm n hn
    · exact hl
    · exact hl
  · intro x hx hne
    rw [prefix_single hx hne]
    exact hfree last
  · rw [hA]
    show Dict.get? (Dict.set _ _ _) _ = _
    rw [Dict.get?_set, if_pos rfl]

/-- **C178**: a joined file that keeps the name of a first part is never opened, whatever it contains and whatever could be made of it:
trying to mount it changes nothing. -/
theorem C178_kept (cfg : Cfg) (st : Mounts) (m : List Str) (last : Str) (data : Data) (T : Tree) (depth : Nat)
    (hm : ∀ n ∈ m, IsName n) (hl : IsName last) (hT : single (canonical (m ++ [last])) data = .ok T)
    (hst : st.get? (canonical (m ++ [last])) = some (T, depth)) (hfree : ∀ n, canonical (m ++ [last] ++ [n]) ∉ st.keys)
    (hf : firstSplit (extOf (canonical (m ++ [last] ++ [last]))) = true) :
    tryMount cfg st (canonical (m ++ [last] ++ [last])) = .ok st := by
  have hml : ∀ n ∈ m ++ [last], IsName n := by
    intro n hn
    simp only [List.mem_append, List.mem_singleton] at hn
    rcases hn with hn | rfl
    · exact hm n hn
    · exact hl
  have hab : ∀ n ∈ (m ++ [last]) ++ [last], IsName n := by
    intro n hn
    rcases List.mem_append.mp hn with hn | hn
    · exact hml n hn
    · rw [List.mem_singleton.mp hn]; exact hl
  obtain ⟨T', i, h1, -, h3, -, -⟩ := single_spec m last hm hl data
  rw [hT] at h1
  cases h1
  rw [tryMount_found hab hst (by intro x hx hne; rw [prefix_single hx hne]; exact hfree last) h3]
  have hnames : T.names (canonical (m ++ [last])) = none := by
    unfold single at hT
    split at hT
    · cases hT
    · next s hs =>
      cases hT
      show SingleFile.list s _ = none
      unfold SingleFile.list
      rw [if_neg]
      rintro (h | h)
      · simp [canonical_eq] at h
      · exact absurd (canonical_inj (m ++ [last]) [] hml (by simp) h) (by simp)
  have hcheck : splitCheck cfg T (canonical (m ++ [last] ++ [last])) = .stop := by
    unfold splitCheck
    rw [if_pos hf, osSplit_canonical (m ++ [last]) last hml hl]
    unfold searchParts
    rw [hnames]
  unfold mountIn
  split
  · rfl
  · cases hp : pointOf cfg (canonical (m ++ [last] ++ [last])) with
    | none => rfl
    | some mp =>
      show mountAt cfg st T i _ mp _ = _
      unfold mountAt
      rw [hcheck]
      split
      · rfl
      · split <;> rfl

/-- Mounting with `stripRecursiveTarExtension`. -/
def stripCfg : Cfg := { sampleCfg with stripExt := true }

/-- A case of `C178_inside_partial`: `x.zip.001` was joined at `/x.zip`, and the file in it is mounted at `/x.zip/x`. -/
example : ∃ T i, single (canonical ([] ++ ["x.zip".toList])) [1, 2, 3] = .ok T ∧ T.lookup (canonical ["x.zip".toList]) = some i ∧
    pointOf stripCfg "/x.zip.001".toList = some "/x.zip".toList ∧
    Allowed stripCfg [(['/'], (twoParts, 0)), ("/x.zip".toList, (T, 1))] T 1 i (canonical ([] ++ ["x.zip".toList] ++ ["x.zip".toList]))
      "/x.zip/x".toList ∧
    firstSplit (extOf (canonical ([] ++ ["x.zip".toList] ++ ["x.zip".toList]))) = false := by
  obtain ⟨T, i, h1, -, h3, -, -⟩ := single_spec [] "x.zip".toList (by simp) (by unfold IsName; decide) [1, 2, 3]
  refine ⟨T, i, h1, h3, by decide +kernel, ⟨show 1 + (0 + 1) ≤ 3 by decide, by decide +kernel, ?_, rfl⟩, by decide +kernel⟩
  show "/x.zip/x".toList ∉ [['/'], "/x.zip".toList]
  decide

/-- A state after the parts of `x.001` have been joined. -/
def joinedState (T : Tree) : Mounts := [(['/'], (twoParts, 0)), ("/x.001".toList, (T, 1))]

/-- **C178 is violated by the code**: without `stripRecursiveTarExtension`, the joined file has the name of a first part and is never opened. -/
theorem C178_inside_violated : ¬ C178_inside_statement := by
  intro h
  have hl : IsName "x.001".toList := by unfold IsName; decide
  obtain ⟨T, i, h1, h2, h3, h4, hsz, h5⟩ := single_spec [] "x.001".toList (by simp) hl [1, 2, 3]
  have hfree : ∀ n, canonical ([] ++ ["x.001".toList] ++ [n]) ∉ (joinedState T).keys := by
    intro n hn
    have hk : (joinedState T).keys = [['/'], "/x.001".toList] := rfl
    rw [hk] at hn
    have hc : canonical ([] ++ ["x.001".toList] ++ [n]) = "/x.001/".toList ++ n := rfl
    rw [hc] at hn
    simp only [List.mem_cons, List.not_mem_nil, or_false] at hn
    rcases hn with hn | hn
    · have := congrArg List.length hn
      simp at this
    · have := congrArg List.length hn
      simp at this
  have hsub : "/x.001/x.001".toList ∉ (joinedState T).keys := hfree "x.001".toList
  obtain ⟨st', d, h6, h7⟩ := h sampleCfg (joinedState T) [] "x.001".toList [1, 2, 3] T (treeOf [(['/'], [])] []) 1 i "/x.001/x.001".toList
    (by simp) hl h1 rfl hfree h3 rfl ⟨show 1 + (0 + 1) ≤ 3 by decide, by decide +kernel, hsub, rfl⟩
  rw [C178_kept sampleCfg (joinedState T) [] "x.001".toList [1, 2, 3] T 1 (by simp) hl h1 rfl hfree (by decide +kernel)] at h6
  cases h6
  exact hsub ((Dict.mem_keys_iff _ _).mpr (by rw [h7]; rfl))

/-! ## C179 -/

/-- The files are tried one after the other (automount.py:71-92). -/
def mountAll (cfg : Cfg) : Mounts → List Str → Except PyErr Mounts
  | st, [] => .ok st
  | st, p :: ps =>
    match tryMount cfg st p with
    | .error e => .error e
    | .ok st' => mountAll cfg st' ps

/-- The full statement of C179: whatever files there are, and whichever of them cannot be mounted, no exception is raised. -/
def C179_statement : Prop :=
  ∀ (cfg : Cfg) (st : Mounts) (paths : List Str), ['/'] ∈ st.keys → ∃ st', mountAll cfg st paths = .ok st'

theorem mountedLoop_mem (keys : List Str) (path left : Str) (right : List Str) :
    (mountedLoop keys path left right).1 ∈ keys ∨ (mountedLoop keys path left right).1 = ['/'] := by
  fun_induction mountedLoop keys path left right with
  | case1 => exact .inr rfl
  | case2 left right a b h hk => exact .inl hk
  | case3 left right a b h hk ih => exact ih

theorem finish_root {st : Mounts} (h : ['/'] ∈ st.keys) (mp : Str) (depth : Nat) (r : Except PyErr Tree) :
    ['/'] ∈ (finish st mp depth r).keys := by
  unfold finish
  split
  · exact h
  · rw [Dict.mem_keys_iff] at h ⊢
    rw [Dict.get?_set]
    split
    · rfl
    · exact h

/-- Nothing is raised for a file whose name is not that of a first part. -/
theorem tryMount_ok {cfg : Cfg} {st : Mounts} {path : Str} (hroot : ['/'] ∈ st.keys) (hf : firstSplit (extOf path) = false) :
    ∃ st', tryMount cfg st path = .ok st' ∧ ['/'] ∈ st'.keys := by
  have hkey : (findMounted st.keys path).1 ∈ st.keys := by
    rcases mountedLoop_mem st.keys path path [] with h | h
    · exact h
    · unfold findMounted; rw [h]; exact hroot
  unfold tryMount
  cases hg : st.get? (findMounted st.keys path).1 with
  | none => rw [Dict.mem_keys_iff, hg] at hkey; cases hkey
  | some m =>
    obtain ⟨t, depth⟩ := m
    simp only
    cases t.lookup (findMounted st.keys path).2 with
    | none => exact ⟨st, rfl, hroot⟩
    | some info =>
      show ∃ st', mountIn cfg st t depth info path = .ok st' ∧ _
      unfold mountIn
      split
      · exact ⟨st, rfl, hroot⟩
      · cases pointOf cfg path with
        | none => exact ⟨st, rfl, hroot⟩
        | some mp =>
          show ∃ st', mountAt cfg st t info path mp _ = .ok st' ∧ _
          unfold mountAt splitCheck
          rw [hf]
          split
          · exact ⟨st, rfl, hroot⟩
          · split
            · exact ⟨st, rfl, hroot⟩
            · exact ⟨_, rfl, finish_root hroot _ _ _⟩

/-- **C179**: as long as no file has the name of a first part of a split file, no exception is raised, whichever of them cannot be opened.
Missing from the full claim: split files with parts that cannot be opened. -/
theorem C179_partial (cfg : Cfg) (paths : List Str) (hf : ∀ p ∈ paths, firstSplit (extOf p) = false) :
    ∀ (st : Mounts), ['/'] ∈ st.keys → ∃ st', mountAll cfg st paths = .ok st' := by
  induction paths with
  | nil => intro st _; exact ⟨st, rfl⟩
  | cons p ps ih =>
    intro st hroot
    obtain ⟨st', h1, h2⟩ := tryMount_ok (cfg := cfg) hroot (hf p List.mem_cons_self)
    obtain ⟨st'', h3⟩ := ih (fun q hq => hf q (List.mem_cons_of_mem _ hq)) st' h2
    refine ⟨st'', ?_⟩
    unfold mountAll
    rw [h1]
    exact h3

/-- A file `x.1` beside a folder `x.2`. -/
def badParts : Mounts := [(['/'], (treeOf [(['/'], ["x.1".toList, "x.2".toList, "n.tar".toList]), ("/x.2".toList, [])]
  [("/x.1".toList, [1]), ("/n.tar".toList, [2])], 0))]

/-- **C179 is violated by the code**: a folder with the name of a second part ends mounting with an exception. -/
theorem C179_violated : ¬ C179_statement := by
  intro h
  obtain ⟨st', h1⟩ := h sampleCfg badParts ["/x.1".toList, "/n.tar".toList] (by decide +kernel)
  have h2 : (mountAll sampleCfg badParts ["/x.1".toList, "/n.tar".toList]).isOk = false := by decide +kernel
  rw [h1] at h2
  cases h2

example : (∀ p ∈ ["/n.tar".toList, "/y.zip".toList], firstSplit (extOf p) = false) ∧ ['/'] ∈ badParts.keys ∧
    (mountAll sampleCfg badParts ["/n.tar".toList, "/y.zip".toList]).toOption.map Dict.keys = some [['/'], "/n.tar".toList] := by
  decide +kernel

/-- A file `x.1` beside a name `x.2` that is listed but not found. -/
def lostPart : Tree := ⟨fun _ => some ["x.1".toList, "x.2".toList],
  fun p => if p = "/x.1".toList then some ⟨0o100644, [], 1, [.str p]⟩ else none, fun _ => .ok [1]⟩

/-- **C179 is also violated by** parts that are listed but not found: the message of the error uses a variable that has no value yet, and
no joined file is made of the parts that exist. -/
theorem C179_lost_violated : ¬ C179_statement := by
  intro h
  obtain ⟨st', h1⟩ := h sampleCfg [(['/'], (lostPart, 0))] ["/x.1".toList] (by decide +kernel)
  have h2 : (mountAll sampleCfg [(['/'], (lostPart, 0))] ["/x.1".toList]).isOk = false := by decide +kernel
  rw [h1] at h2
  cases h2

/-! ## C180 -/

/-- The full statement of C180: a file with the extension of an archive that can be opened as an archive is mounted. -/
def C180_statement : Prop :=
  ∀ (cfg : Cfg) (st : Mounts) (a b : List Str) (t A : Tree) (depth : Nat) (info : FileInfo) (mp : Str),
    (∀ n ∈ a ++ b, IsName n) → st.get? (canonical a) = some (t, depth) → (∀ x, x <+: b → x ≠ [] → canonical (a ++ x) ∉ st.keys) →
    t.lookup (canonical b) = some info → Allowed cfg st t depth info (canonical (a ++ b)) mp → cfg.archive t info = .ok A →
    (∀ names, t.names (osSplit (canonical b)).1 = some names →
      checkSplit (osSplit (canonical b)).2 (cfg.real (osSplit (canonical b)).2) names = .ok none) →
    ∃ st' d, tryMount cfg st (canonical (a ++ b)) = .ok st' ∧ st'.get? mp = some (A, d)

/-- **C180**: a file with the extension of an archive that can be opened as an archive is mounted, in any source and any folder, unless its
extension is one of first parts. Missing from the full claim: the latter, like `.a`. -/
theorem C180_partial (cfg : Cfg) (st : Mounts) (a b : List Str) (t A : Tree) (depth : Nat) (info : FileInfo) (mp : Str)
    (hab : ∀ n ∈ a ++ b, IsName n) (hm : st.get? (canonical a) = some (t, depth))
    (hlong : ∀ x, x <+: b → x ≠ [] → canonical (a ++ x) ∉ st.keys) (hi : t.lookup (canonical b) = some info)
    (ha : Allowed cfg st t depth info (canonical (a ++ b)) mp) (hA : cfg.archive t info = .ok A)
    (hf : firstSplit (extOf (canonical (a ++ b))) = false) :
    ∃ st' d, tryMount cfg st (canonical (a ++ b)) = .ok st' ∧ st'.get? mp = some (A, d) ∧ ∀ k, k ≠ mp → st'.get? k = st.get? k := by
  refine ⟨_, depth + (cfg.inner info + 1), tryMount_plain hab hm hlong hi ha hf, ?_, ?_⟩
  · rw [hA]
    show Dict.get? (Dict.set _ _ _) _ = _
    rw [Dict.get?_set, if_pos rfl]
  · intro k hk
    rw [hA]
    show Dict.get? (Dict.set _ _ _) _ = _
    rw [Dict.get?_set, if_neg (fun h => hk h.symm)]

/-- **C180**: files without the extension of an archive are not mounted, and nothing is raised. -/
theorem C180_only (cfg : Cfg) (st : Mounts) (path : Str) (hroot : ['/'] ∈ st.keys) (hx : stripSuffix path cfg.rules = path) :
    tryMount cfg st path = .ok st := by
  have hkey : (findMounted st.keys path).1 ∈ st.keys := by
    rcases mountedLoop_mem st.keys path path [] with h | h
    · exact h
    · unfold findMounted; rw [h]; exact hroot
  have hp : pointOf cfg path = none := by unfold pointOf; rw [if_pos hx]
  unfold tryMount
  cases hg : st.get? (findMounted st.keys path).1 with
  | none => rw [Dict.mem_keys_iff, hg] at hkey; cases hkey
  | some m =>
    obtain ⟨t, depth⟩ := m
    simp only
    cases t.lookup (findMounted st.keys path).2 with
    | none => rfl
    | some info =>
      show mountIn cfg st t depth info path = .ok st
      unfold mountIn
      split
      · rfl
      · rw [hp]

example : stripSuffix "/readme".toList sampleCfg.rules = "/readme".toList := by decide +kernel

/-- A folder with a library `z.a`. -/
def library : Tree := treeOf [(['/'], ["z.a".toList])] [("/z.a".toList, [1])]

/-- **C180 is violated by the code**: a static library `z.a` is taken for the first part of a split file and not mounted. -/
theorem C180_violated : ¬ C180_statement := by
  intro h
  obtain ⟨st', d, h1, h2⟩ := h sampleCfg [(['/'], (library, 0))] [] ["z.a".toList] library (treeOf [(['/'], [])] []) 0
    ⟨0o100644, [], 0, [.str "/z.a".toList]⟩ "/z.a".toList
    (by intro n hn; rw [List.mem_singleton.mp hn]; unfold IsName; decide) rfl
    (by intro x hx hne; rw [prefix_single hx hne]; decide +kernel) rfl ⟨by decide, by decide +kernel, by decide +kernel, rfl⟩ rfl
    (by
      intro names hn
      have : names = ["z.a".toList] := (Option.some.inj (show some ["z.a".toList] = some names from hn)).symm
      rw [this]
      decide +kernel)
  have h3 : (tryMount sampleCfg [(['/'], (library, 0))] (canonical ([] ++ ["z.a".toList]))).toOption.map (fun st => st.has "/z.a".toList) =
      some false := by decide +kernel
  rw [h1] at h3
  simp only [Except.toOption, Option.map_some, Dict.has, h2, Option.isSome_some] at h3
  cases h3

example : (∀ n ∈ [] ++ ["n.tar".toList], IsName n) ∧ firstSplit (extOf (canonical ([] ++ ["n.tar".toList]))) = false ∧
    (tryMount sampleCfg badParts (canonical ([] ++ ["n.tar".toList]))).toOption.map Dict.keys = some [['/'], "/n.tar".toList] := by
  refine ⟨?_, by decide +kernel, by decide +kernel⟩
  intro n hn
  rw [List.mem_singleton.mp hn]
  unfold IsName
  decide

end Verif.Compose.Split
