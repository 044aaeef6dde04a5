import Verif.Index.Normpath
import Verif.Py

/-!
# Where indexes are stored (C85)

`SQLiteIndex.get_possible_index_file_paths` of core/ratarmountcore/SQLiteIndex.py:307-360 and `FuseMount._path_provided_by_us`,
`FuseMount._filter_index_locations_in_fuse_mount` of ratarmount/FuseMount.py:417-459.

The host gives `os.path.expanduser`, `os.path.realpath`, the current folder and the sizes of files. The extensions of the compression
backends are a list. `os.path.sep` is a slash.
-/

namespace Verif.IndexPaths

open Verif.Py (Str split join startsWith)
open Verif.Index (posixNormpath canonical IsName)

/-- The host: what the functions ask the operating system for (SQLiteIndex.py:337-355, FuseMount.py:417-437). -/
structure Host where
  cwd : Str
  expanduser : Str → Str
  realpath : Str → Str
  /-- A regular file that is not empty (SQLiteIndex.py:344). -/
  filled : Str → Bool
  /-- The extensions of all formats of all compression backends (SQLiteIndex.py:339-341). -/
  extensions : List Str

/-- `':memory:'` (SQLiteIndex.py:348-350). -/
def memory : Str := ":memory:".toList

/-- `'://' in s` (SQLiteIndex.py:326) -/
def hasScheme : Str → Bool
  | [] => false
  | c :: cs => startsWith "://".toList (c :: cs) || hasScheme cs

/-- `s.count('://')`; occurrences cannot overlap (FuseMount.py:417-437). -/
def schemes : Str → Nat
  | [] => 0
  | c :: cs => (if startsWith "://".toList (c :: cs) then 1 else 0) + schemes cs

/-- `os.path.join(a, b)` (Python library, used at SQLiteIndex.py:355) -/
def pathJoin (a b : Str) : Str :=
  if startsWith ['/'] b then b else if a = [] ∨ a.getLast? = some '/' then a ++ b else a ++ '/' :: b

/-- `os.path.abspath(p)` (Python library, used at SQLiteIndex.py:331-337) -/
def abspath (h : Host) (p : Str) : Str := posixNormpath (if startsWith ['/'] p then p else pathJoin h.cwd p)

/-- `defaultIndexFilePath` (SQLiteIndex.py:337). -/
def defaultPath (archive : Str) : Str := archive ++ ".index.sqlite".toList

/-- `defaultIndexFilePaths` (SQLiteIndex.py:338-345). -/
def defaultPaths (h : Host) (archive : Str) : List Str :=
  defaultPath archive :: (h.extensions.map (fun e => defaultPath archive ++ '.' :: e)).filter h.filled

/-- `indexPathAsName` (SQLiteIndex.py:352). -/
def pathAsName (archive : Str) : Str := (defaultPath archive).map (fun c => if c = '/' then '_' else c)

/-- The loop over the folders (SQLiteIndex.py:353-359). -/
def addFolders (h : Host) (archive : Str) (ignoreCurrent : Bool) : List Str → List Str → List Str
  | [], paths => paths
  | f :: fs, paths =>
    addFolders h archive ignoreCurrent fs
      (if f ≠ [] then paths ++ [abspath h (h.expanduser (pathJoin f (pathAsName archive)))]
       else if ignoreCurrent then paths else paths ++ defaultPaths h archive)

/-- What follows an explicit URL or nothing (SQLiteIndex.py:330-360). -/
def addDefaults (h : Host) (folders : List Str) (archive : Str) (ignoreCurrent : Bool) (paths : List Str) : List Str :=
  if archive = [] then paths
  else if folders = [] then paths ++ defaultPaths h archive ++ [memory]
  else addFolders h archive ignoreCurrent folders paths

/-- `get_possible_index_file_paths` (SQLiteIndex.py:308-359). No path is the same as the empty one, no archive as well. -/
def possible (h : Host) (indexFile : Str) (folders : List Str) (archive : Str) (ignoreCurrent : Bool) : List Str :=
  if indexFile = memory then []
  else if indexFile = [] then addDefaults h folders archive ignoreCurrent []
  else if hasScheme indexFile then addDefaults h folders archive ignoreCurrent [indexFile]
  else [abspath h (h.expanduser indexFile)]

/-- `_path_provided_by_us` (FuseMount.py:417-425). -/
def providedByUs (mountPoint path : Str) : Option Str :=
  let n := posixNormpath path
  if n = mountPoint then some []
  else if startsWith (mountPoint ++ ['/']) n then some (n.drop (mountPoint.length + 1))
  else none

/-- The options that matter here: `none` if they are not set (FuseMount.py:427-459). -/
structure Options where
  indexFile : Option Str
  folders : Option (List Str)
  deriving DecidableEq

/-- The path that is tested (FuseMount.py:431-437). -/
def testedPath (h : Host) (indexFile : Str) : Str :=
  let stripped := if schemes indexFile = 1 ∧ startsWith "file://".toList indexFile then indexFile.drop 7 else indexFile
  if hasScheme stripped then stripped else h.realpath indexFile

/-- The folders that are kept (FuseMount.py:446-452). -/
def keptFolders (h : Host) (mountPoint : Str) : List Str → List Str → List Str
  | [], kept => kept
  | f :: fs, kept => keptFolders h mountPoint fs (if (providedByUs mountPoint f).isSome then kept else kept ++ [h.realpath f])

/-- `_filter_index_locations_in_fuse_mount` (FuseMount.py:427-459). -/
def filterLocations (h : Host) (mountPoint : Str) (o : Options) : Options :=
  let file : Option Str := match o.indexFile with
    | none => none
    | some p => if (providedByUs mountPoint (testedPath h p)).isSome then none else some (testedPath h p)
  let folders := o.folders.map (fun fs => keptFolders h mountPoint fs [])
  let found := file.isSome || (folders.getD []).any (fun _ => true)
  if found then ⟨file, folders⟩ else ⟨some memory, folders⟩

/-- The candidates for an archive. Without the option for folders, `SQLiteIndex` takes its default (SQLiteIndex.py:274-281), here
`defaults`. -/
def candidates (h : Host) (defaults : List Str) (o : Options) (archive : Str) (ignoreCurrent : Bool) : List Str :=
  possible h (o.indexFile.getD []) (o.folders.getD defaults) archive ignoreCurrent

/-! ## specification -/

/-- The absolute path of names lies strictly below a folder. -/
def Below (path mountPoint : Str) : Prop :=
  ∃ ms rest, (∀ n ∈ ms ++ rest, IsName n) ∧ rest ≠ [] ∧ mountPoint = canonical ms ∧ path = canonical (ms ++ rest)

/-- The host agrees that absolute paths of names are what they seem: no symbolic links, nothing to expand. -/
def Plain (h : Host) : Prop :=
  ∀ ns, (∀ n ∈ ns, IsName n) → h.realpath (canonical ns) = canonical ns ∧ h.expanduser (canonical ns) = canonical ns

/-- The last part of C85: no candidate lies in the mount point. -/
def C85_outside_statement : Prop :=
  ∀ (h : Host) (defaults : List Str) (mountPoint : Str) (o : Options) (archive : Str) (ignoreCurrent : Bool), Plain h →
    ∀ c ∈ candidates h defaults (filterLocations h mountPoint o) archive ignoreCurrent, ¬ Below c mountPoint

/-- The third part of C85: an index in memory stays in memory. -/
def C85_memory_statement : Prop :=
  ∀ (h : Host) (defaults : List Str) (mountPoint : Str) (folders : Option (List Str)) (archive : Str) (ignoreCurrent : Bool), Plain h →
    candidates h defaults (filterLocations h mountPoint ⟨some memory, folders⟩) archive ignoreCurrent = []

/-- The first part of C85 with a mount point: locations that have nothing to do with the mount point stay what they are. -/
def C85_order_statement : Prop :=
  ∀ (h : Host) (defaults : List Str) (mountPoint : Str) (folders : List Str) (archive : Str), Plain h → mountPoint ≠ [] → folders ≠ [] →
    (∀ c ∈ candidates h defaults ⟨none, some folders⟩ archive false, ¬ Below c mountPoint) →
    candidates h defaults (filterLocations h mountPoint ⟨none, some folders⟩) archive false =
      candidates h defaults ⟨none, some folders⟩ archive false

/-! ## proofs: paths -/

theorem split_append (c : Char) (a b : Str) : split c (a ++ c :: b) = split c a ++ split c b := by
  induction a with
  | nil => rw [List.nil_append, Verif.Py.split_cons_eq]; rfl
  | cons x a ih =>
    rw [List.cons_append]
    by_cases hx : x = c
    · rw [hx, Verif.Py.split_cons_eq, Verif.Py.split_cons_eq, ih]; rfl
    · rw [split, if_neg hx, split, if_neg hx, ih]
      cases hs : split c a with
      | nil => exact absurd hs (Verif.Py.split_ne_nil c a)
      | cons y ys => rfl

theorem split_canonical_names (ns : List Str) (hne : ns ≠ []) (h : ∀ n ∈ ns, IsName n) : split '/' (canonical ns) = [] :: ns := by
  rw [Verif.Index.canonical_eq, Verif.Py.split_cons_eq, Verif.Py.split_join '/' ns hne (fun n hn => (h n hn).2.1)]

theorem initialSlashes_canonical (ns : List Str) (h : ∀ n ∈ ns, IsName n) : Verif.Index.initialSlashes (canonical ns) = 1 := by
  have hh := Verif.Index.join_head ns (fun n hn => ⟨(h n hn).1, (h n hn).2.1⟩)
  rw [Verif.Index.canonical_eq]
  unfold Verif.Index.initialSlashes
  have h2 : startsWith ['/', '/'] ('/' :: join '/' ns) = false := by
    cases hj : join '/' ns with
    | nil => rfl
    | cons c cs =>
      rw [hj] at hh
      have hc : c ≠ '/' := by intro he; rw [he] at hh; exact hh rfl
      unfold startsWith
      simp [List.isPrefixOf, Ne.symm hc]
  rw [if_neg (by rw [h2]; simp), if_pos (by unfold startsWith; simp [List.isPrefixOf])]

theorem posixNormpath_canonical (ns : List Str) (h : ∀ n ∈ ns, IsName n) : posixNormpath (canonical ns) = canonical ns := by
  have hw := Verif.Index.normLoop_walk 1 (by omega) (split '/' (canonical ns)) [] (by simp) (Verif.Py.not_mem_of_mem_split '/' _)
  rw [Verif.Index.split_canonical ns h] at hw
  unfold posixNormpath
  rw [if_neg (by rw [Verif.Index.canonical_eq]; simp), initialSlashes_canonical ns h]
  simp only [hw.1]
  rw [if_neg (by simp), Verif.Index.canonical_eq]
  rfl

theorem canonical_inj {a b : List Str} (ha : ∀ n ∈ a, IsName n) (hb : ∀ n ∈ b, IsName n) (h : canonical a = canonical b) : a = b := by
  rw [← Verif.Index.split_canonical a ha, h, Verif.Index.split_canonical b hb]

theorem join_append (a b : List Str) (ha : a ≠ []) (hb : b ≠ []) : join '/' (a ++ b) = join '/' a ++ '/' :: join '/' b := by
  induction a with
  | nil => exact absurd rfl ha
  | cons x a ih =>
    cases a with
    | nil =>
      cases b with
      | nil => exact absurd rfl hb
      | cons y b => rfl
    | cons z a =>
      rw [List.cons_append, List.cons_append, join, ← List.cons_append, ih (by simp), join, List.append_assoc]
      rfl

theorem canonical_append (a b : List Str) (ha : a ≠ []) (hb : b ≠ []) : canonical (a ++ b) = canonical a ++ '/' :: join '/' b := by
  rw [Verif.Index.canonical_eq, Verif.Index.canonical_eq, join_append a b ha hb, List.cons_append]

/-- A canonical path is provided by us exactly at and below the mount point. -/
theorem provided_iff (ms fs : List Str) (hm : ms ≠ []) (h1 : ∀ n ∈ ms, IsName n) (h2 : ∀ n ∈ fs, IsName n) :
    (providedByUs (canonical ms) (canonical fs)).isSome = true ↔ ms <+: fs := by
  unfold providedByUs
  simp only [posixNormpath_canonical fs h2]
  by_cases he : canonical fs = canonical ms
  · rw [if_pos he, canonical_inj h2 h1 he]
    exact ⟨fun _ => List.prefix_refl _, fun _ => rfl⟩
  · rw [if_neg he]
    constructor
    · intro h
      split at h
      · next hs =>
        obtain ⟨t, ht⟩ := List.isPrefixOf_iff_prefix.mp hs
        rw [List.append_assoc, List.singleton_append] at ht
        have hsp := congrArg (split '/') ht
        rw [split_append, split_canonical_names ms hm h1] at hsp
        have hf : fs ≠ [] := by
          intro h0
          rw [h0] at ht
          have hl := congrArg List.length ht
          cases ms with
          | nil => exact hm rfl
          | cons m ms =>
            have := (h1 m List.mem_cons_self).1
            rw [Verif.Index.canonical_eq, Verif.Index.canonical_eq] at hl
            simp only [List.length_append, List.length_cons, join, List.length_nil] at hl
            omega
        rw [split_canonical_names fs hf h2, List.cons_append] at hsp
        exact ⟨split '/' t, (List.cons.inj hsp).2⟩
      · cases h
    · rintro ⟨rest, rfl⟩
      have hr : rest ≠ [] := by
        intro h0; rw [h0, List.append_nil] at he; exact he rfl
      rw [if_pos]
      · rfl
      · exact List.isPrefixOf_iff_prefix.mpr ⟨join '/' rest, by rw [canonical_append ms rest hm hr]; simp⟩

theorem pathJoin_canonical (fs : List Str) (n : Str) (hf : ∀ m ∈ fs, IsName m) (hn : IsName n) :
    pathJoin (canonical fs) n = canonical (fs ++ [n]) := by
  have hs : startsWith ['/'] n = false := by
    obtain ⟨h1, h2, _⟩ := hn
    cases n with
    | nil => rfl
    | cons c n =>
      unfold startsWith
      have : c ≠ '/' := by rintro rfl; exact h2 List.mem_cons_self
      simp [List.isPrefixOf, Ne.symm this]
  unfold pathJoin
  rw [hs]
  simp only [Bool.false_eq_true, if_false]
  by_cases hne : fs = []
  · rw [hne, if_pos (show canonical [] = [] ∨ (canonical []).getLast? = some '/' from Or.inr (by decide))]; rfl
  · rw [if_neg, canonical_append fs [n] hne (by simp)]
    · rfl
    · rintro (h | h)
      · rw [Verif.Index.canonical_eq] at h; cases h
      · obtain ⟨a, l, rfl⟩ : ∃ a l, fs = a ++ [l] := ⟨fs.dropLast, fs.getLast hne, (List.dropLast_concat_getLast hne).symm⟩
        obtain ⟨l1, l2, _⟩ := hf l (by simp)
        by_cases ha : a = []
        · rw [ha, List.nil_append] at h
          have : canonical [l] = '/' :: l := rfl
          rw [this, List.getLast?_cons] at h
          cases hl : l.getLast? with
          | none => exact l1 (List.getLast?_eq_none_iff.mp hl)
          | some x =>
            rw [hl] at h
            cases h
            exact l2 (List.mem_of_getLast? hl)
        · rw [canonical_append a [l] ha (by simp), List.getLast?_append] at h
          have : join '/' [l] = l := rfl
          rw [this, List.getLast?_cons] at h
          cases hl : l.getLast? with
          | none => exact l1 (List.getLast?_eq_none_iff.mp hl)
          | some x =>
            rw [hl] at h
            cases h
            exact l2 (List.mem_of_getLast? hl)

theorem pathAsName_isName (archive : Str) : IsName (pathAsName archive) := by
  have hlen : 13 ≤ (pathAsName archive).length := by
    unfold pathAsName defaultPath
    rw [List.length_map, List.length_append]
    have : ".index.sqlite".toList.length = 13 := by decide
    omega
  refine ⟨?_, ?_, ?_, ?_⟩
  · intro h; rw [h] at hlen; simp at hlen
  · unfold pathAsName
    intro hm
    obtain ⟨c, _, hc⟩ := List.mem_map.mp hm
    split at hc
    · exact absurd hc (by decide)
    · next hne => exact hne hc
  · intro h; rw [h] at hlen; simp at hlen
  · intro h; rw [h] at hlen; simp at hlen

theorem abspath_canonical (h : Host) (ns : List Str) (hn : ∀ n ∈ ns, IsName n) : abspath h (canonical ns) = canonical ns := by
  unfold abspath
  have : startsWith ['/'] (canonical ns) = true := by
    rw [Verif.Index.canonical_eq]; unfold startsWith; simp [List.isPrefixOf]
  rw [if_pos this, posixNormpath_canonical ns hn]

/-! ## proofs: the candidates -/

/-- The candidates of one folder: beside the archive for the empty folder, otherwise a file in the folder. -/
def ofFolder (h : Host) (archive : Str) (ignoreCurrent : Bool) (f : Str) : List Str :=
  if f = [] then (if ignoreCurrent then [] else defaultPaths h archive)
  else [abspath h (h.expanduser (pathJoin f (pathAsName archive)))]

theorem addFolders_eq (h : Host) (archive : Str) (ignoreCurrent : Bool) : ∀ (fs paths : List Str),
    addFolders h archive ignoreCurrent fs paths = paths ++ fs.flatMap (ofFolder h archive ignoreCurrent) := by
  intro fs
  induction fs with
  | nil => intro paths; simp [addFolders]
  | cons f fs ih =>
    intro paths
    rw [addFolders, ih, List.flatMap_cons, ← List.append_assoc]
    congr 1
    unfold ofFolder
    by_cases hf : f = []
    · rw [if_neg (Classical.not_not.mpr hf), if_pos hf]
      cases ignoreCurrent <;> simp
    · rw [if_pos hf, if_neg hf]

/-- **C85**: the candidates are those of the folders, in the order of the folders; an explicit URL comes before them. -/
theorem C85_order (h : Host) (url : Str) (folders : List Str) (archive : Str) (ignoreCurrent : Bool) (hf : folders ≠ []) (ha : archive ≠ [])
    (hu : url = [] ∨ hasScheme url = true) (hm : url ≠ memory) :
    possible h url folders archive ignoreCurrent =
      (if url = [] then [] else [url]) ++ folders.flatMap (ofFolder h archive ignoreCurrent) := by
  unfold possible addDefaults
  rw [if_neg hm]
  by_cases h0 : url = []
  · rw [if_pos h0, if_neg ha, if_neg hf, addFolders_eq, if_pos h0]
  · rw [if_neg h0, if_pos (hu.resolve_left h0), if_neg ha, if_neg hf, addFolders_eq, if_neg h0]

/-- **C85**: an explicit path is the only candidate. -/
theorem C85_explicit (h : Host) (file : Str) (folders : List Str) (archive : Str) (ignoreCurrent : Bool) (h0 : file ≠ [])
    (hu : hasScheme file = false) (hm : file ≠ memory) :
    possible h file folders archive ignoreCurrent = [abspath h (h.expanduser file)] := by
  unfold possible
  rw [if_neg hm, if_neg h0, hu]
  simp

/-- **C85**: beside the archive, the first candidate is the archive with the extension, and the others are existing compressed files. -/
theorem C85_beside (h : Host) (archive : Str) : (ofFolder h archive false []).head? = some (archive ++ ".index.sqlite".toList) ∧
    ∀ c ∈ (ofFolder h archive false []).tail, h.filled c = true ∧ ∃ e ∈ h.extensions, c = archive ++ ".index.sqlite".toList ++ '.' :: e := by
  refine ⟨rfl, ?_⟩
  intro c hc
  have hc : c ∈ (h.extensions.map (fun e => defaultPath archive ++ '.' :: e)).filter h.filled := hc
  obtain ⟨h1, h2⟩ := List.mem_filter.mp hc
  obtain ⟨e, he, rfl⟩ := List.mem_map.mp h1
  exact ⟨h2, e, he, rfl⟩

/-! ## proofs: the filter -/

theorem keptFolders_eq (h : Host) (mountPoint : Str) : ∀ (fs kept : List Str),
    keptFolders h mountPoint fs kept = kept ++ (fs.filter (fun f => !(providedByUs mountPoint f).isSome)).map h.realpath := by
  intro fs
  induction fs with
  | nil => intro kept; simp [keptFolders]
  | cons f fs ih =>
    intro kept
    rw [keptFolders, ih]
    cases hp : (providedByUs mountPoint f).isSome with
    | true =>
      rw [List.filter_cons, hp]
      simp
    | false =>
      rw [List.filter_cons, hp]
      simp

theorem hasScheme_canonical (h : Str) : hasScheme h = true ↔ ∃ a b, h = a ++ "://".toList ++ b := by
  induction h with
  | nil =>
    constructor
    · intro h; cases h
    · rintro ⟨a, b, h⟩
      have := congrArg List.length h
      simp at this
  | cons c cs ih =>
    rw [hasScheme, Bool.or_eq_true, ih]
    constructor
    · rintro (h | ⟨a, b, rfl⟩)
      · obtain ⟨t, ht⟩ := List.isPrefixOf_iff_prefix.mp h
        exact ⟨[], t, ht.symm⟩
      · exact ⟨c :: a, b, rfl⟩
    · rintro ⟨a, b, h⟩
      cases a with
      | nil => exact Or.inl (List.isPrefixOf_iff_prefix.mpr ⟨b, h.symm⟩)
      | cons x a =>
        rw [List.cons_append, List.cons_append] at h
        exact Or.inr ⟨a, b, (List.cons.inj h).2⟩

/-- There are no two slashes in a canonical path. -/
theorem canonical_noScheme (ns : List Str) (hn : ∀ n ∈ ns, IsName n) : hasScheme (canonical ns) = false := by
  rw [Bool.eq_false_iff]
  intro h
  obtain ⟨a, b, he⟩ := (hasScheme_canonical _).mp h
  have h1 : canonical ns = (a ++ [':']) ++ '/' :: ([] ++ '/' :: b) := by rw [he]; simp
  have hsp := congrArg (split '/') h1
  rw [split_append, split_append] at hsp
  have hmem : ([] : Str) ∈ (split '/' (canonical ns)).tail := by
    rw [hsp]
    cases hs : split '/' (a ++ [':']) with
    | nil => exact absurd hs (Verif.Py.split_ne_nil _ _)
    | cons x xs =>
      rw [List.cons_append, List.tail_cons]
      exact List.mem_append_right _ (List.mem_append_left _ (by decide))
  by_cases hne : ns = []
  · rw [hne] at h1
    have := congrArg List.length h1
    simp [canonical] at this
    omega
  · rw [split_canonical_names ns hne hn, List.tail_cons] at hmem
    exact (hn [] hmem).1 rfl

theorem schemes_zero : ∀ (s : Str), hasScheme s = false → schemes s = 0 := by
  intro s
  induction s with
  | nil => intro _; rfl
  | cons c cs ih =>
    intro h
    rw [hasScheme, Bool.or_eq_false_iff] at h
    rw [schemes, h.1, ih h.2]
    rfl

theorem testedPath_canonical (h : Host) (hp : Plain h) (ns : List Str) (hn : ∀ n ∈ ns, IsName n) :
    testedPath h (canonical ns) = canonical ns := by
  have hs := canonical_noScheme ns hn
  unfold testedPath
  simp only [schemes_zero _ hs]
  rw [if_neg (show ¬ (0 = 1 ∧ _) from fun h => absurd h.1 (by decide)), hs]
  simp only [Bool.false_eq_true, if_false]
  exact (hp ns hn).1

theorem canonical_ne_memory (ns : List Str) : canonical ns ≠ memory := by
  rw [Verif.Index.canonical_eq]
  intro h
  have := congrArg List.head? h
  rw [List.head?_cons] at this
  exact absurd this (by decide)

theorem not_below_of {ms fs : List Str} (h1 : ∀ n ∈ ms, IsName n) (h2 : ∀ n ∈ fs, IsName n) (h : ¬ (ms <+: fs ∧ ms ≠ fs)) :
    ¬ Below (canonical fs) (canonical ms) := by
  rintro ⟨ms', rest, hn, hr, e1, e2⟩
  have hm' := canonical_inj h1 (fun n hn' => hn n (List.mem_append_left _ hn')) e1
  have hf' := canonical_inj h2 hn e2
  rw [hm', hf'] at h
  apply h
  refine ⟨⟨rest, rfl⟩, ?_⟩
  intro he
  have := congrArg List.length he
  rw [List.length_append] at this
  exact hr (List.length_eq_zero_iff.mp (by omega))

/-- Options in which all locations are absolute paths of names. -/
def Absolute (o : Options) : Prop :=
  (∀ p, o.indexFile = some p → ∃ ns, (∀ n ∈ ns, IsName n) ∧ p = canonical ns) ∧
  (∀ fs, o.folders = some fs → ∀ f ∈ fs, ∃ ns, (∀ n ∈ ns, IsName n) ∧ f = canonical ns)

theorem filter_file (h : Host) (hp : Plain h) (ms : List Str) (hm : ms ≠ []) (h1 : ∀ n ∈ ms, IsName n) (o : Options)
    (ns : List Str) (hn : ∀ n ∈ ns, IsName n) (ho : o.indexFile = some (canonical ns)) (hout : ¬ ms <+: ns) :
    filterLocations h (canonical ms) o = ⟨some (canonical ns), o.folders.map (fun fs => keptFolders h (canonical ms) fs [])⟩ := by
  unfold filterLocations
  rw [ho]
  simp only [testedPath_canonical h hp ns hn]
  have : (providedByUs (canonical ms) (canonical ns)).isSome = false := by
    rw [Bool.eq_false_iff]; intro hc; exact hout ((provided_iff ms ns hm h1 hn).mp hc)
  rw [this]
  simp

/-- **C85**, provable part: with a mount point that is not the root and locations that are absolute paths of names, no candidate lies in
the mount point. Missing: relative locations, locations in the home folder, symbolic links. -/
theorem C85_outside_partial (h : Host) (defaults : List Str) (hp : Plain h) (ms : List Str) (hm : ms ≠ []) (h1 : ∀ n ∈ ms, IsName n)
    (o : Options) (hf : o.folders.isSome = true) (ho : Absolute o) (archive : Str) (ignoreCurrent : Bool) :
    ∀ c ∈ candidates h defaults (filterLocations h (canonical ms) o) archive ignoreCurrent, ¬ Below c (canonical ms) := by
  cases hfo : o.folders with
  | none => rw [hfo] at hf; cases hf
  | some fs =>
  have hkept : ∀ f ∈ keptFolders h (canonical ms) fs [], ∃ ns, (∀ n ∈ ns, IsName n) ∧ f = canonical ns ∧ ¬ ms <+: ns := by
    intro f hf
    rw [keptFolders_eq, List.nil_append] at hf
    obtain ⟨g, hg, rfl⟩ := List.mem_map.mp hf
    obtain ⟨hg1, hg2⟩ := List.mem_filter.mp hg
    obtain ⟨ns, hns, rfl⟩ := ho.2 fs hfo g hg1
    refine ⟨ns, hns, (hp ns hns).1, ?_⟩
    intro hc
    rw [(provided_iff ms ns hm h1 hns).mpr hc] at hg2
    cases hg2
  have hfolders : keptFolders h (canonical ms) fs [] ≠ [] →
      ∀ c ∈ possible h [] (keptFolders h (canonical ms) fs []) archive ignoreCurrent, ¬ Below c (canonical ms) := by
    intro hne c hc
    by_cases ha : archive = []
    · rw [ha] at hc
      unfold possible addDefaults at hc
      rw [if_neg (by decide), if_pos rfl, if_pos rfl] at hc
      cases hc
    · rw [C85_order h [] _ archive ignoreCurrent hne ha (Or.inl rfl) (by decide), if_pos rfl, List.nil_append] at hc
      obtain ⟨f, hf, hcf⟩ := List.mem_flatMap.mp hc
      obtain ⟨ns, hns, rfl, hout⟩ := hkept f hf
      have hname := pathAsName_isName archive
      have hall : ∀ n ∈ ns ++ [pathAsName archive], IsName n := by
        intro n hn
        rcases List.mem_append.mp hn with hn | hn
        · exact hns n hn
        · rw [List.mem_singleton.mp hn]; exact hname
      unfold ofFolder at hcf
      rw [if_neg (by rw [Verif.Index.canonical_eq]; simp), pathJoin_canonical ns _ hns hname, (hp _ hall).2, abspath_canonical h _ hall] at hcf
      rw [List.mem_singleton.mp hcf]
      apply not_below_of h1 hall
      rintro ⟨⟨t, ht⟩, hne⟩
      apply hout
      obtain ⟨a, l, rfl⟩ : ∃ a l, t = a ++ [l] := by
        have htn : t ≠ [] := by rintro rfl; rw [List.append_nil] at ht; exact hne ht
        exact ⟨t.dropLast, t.getLast htn, (List.dropLast_concat_getLast htn).symm⟩
      rw [← List.append_assoc] at ht
      exact ⟨a, (List.append_inj' ht rfl).1⟩
  have hmem : candidates h defaults ⟨some memory, some (keptFolders h (canonical ms) fs [])⟩ archive ignoreCurrent = [] := by
    unfold candidates possible
    simp only [Option.getD_some, if_true]
  have hdrop : o.indexFile = none ∨ (∃ ns, (∀ n ∈ ns, IsName n) ∧ o.indexFile = some (canonical ns) ∧ ms <+: ns) →
      ∀ c ∈ candidates h defaults (filterLocations h (canonical ms) o) archive ignoreCurrent, ¬ Below c (canonical ms) := by
    intro hd
    have hfl : filterLocations h (canonical ms) o =
        (if (keptFolders h (canonical ms) fs []).any (fun _ => true) then ⟨none, some (keptFolders h (canonical ms) fs [])⟩
        else ⟨some memory, some (keptFolders h (canonical ms) fs [])⟩) := by
      unfold filterLocations
      rw [hfo]
      rcases hd with hd | ⟨ns, hns, hd, hin⟩
      · rw [hd]; simp only [Option.map_some, Option.isSome_none, Option.getD_some, Bool.false_or]
      · rw [hd]
        simp only [testedPath_canonical h hp ns hns, (provided_iff ms ns hm h1 hns).mpr hin, if_true, Option.map_some, Option.isSome_none,
          Option.getD_some, Bool.false_or]
    rw [hfl]
    by_cases hk : keptFolders h (canonical ms) fs [] = []
    · rw [hk] at hmem ⊢
      intro c hc
      rw [if_neg (by simp), hmem] at hc
      cases hc
    · rw [if_pos]
      · exact hfolders hk
      · cases hkk : keptFolders h (canonical ms) fs [] with
        | nil => exact absurd hkk hk
        | cons _ _ => rfl
  cases hfi : o.indexFile with
  | none => exact hdrop (Or.inl hfi)
  | some p =>
    obtain ⟨ns, hns, rfl⟩ := ho.1 p hfi
    by_cases hin : ms <+: ns
    · exact hdrop (Or.inr ⟨ns, hns, hfi, hin⟩)
    · rw [filter_file h hp ms hm h1 o ns hns hfi hin]
      intro c hc
      unfold candidates at hc
      simp only [Option.getD_some] at hc
      rw [C85_explicit h _ _ _ _ (by rw [Verif.Index.canonical_eq]; simp) (canonical_noScheme ns hns) (canonical_ne_memory ns),
        (hp ns hns).2, abspath_canonical h ns hns] at hc
      rw [List.mem_singleton.mp hc]
      exact not_below_of h1 hns (fun hc => hin hc.1)

/-- **C85**: if all locations are in the mount point, the index is kept in memory. -/
theorem C85_all_inside (h : Host) (defaults : List Str) (hp : Plain h) (ms : List Str) (hm : ms ≠ []) (h1 : ∀ n ∈ ms, IsName n)
    (fs : List Str) (hin : ∀ f ∈ fs, ∃ ns, (∀ n ∈ ns, IsName n) ∧ f = canonical ns ∧ ms <+: ns)
    (p : Option Str) (hpin : ∀ q, p = some q → ∃ ns, (∀ n ∈ ns, IsName n) ∧ q = canonical ns ∧ ms <+: ns) (archive : Str) (ignoreCurrent : Bool) :
    candidates h defaults (filterLocations h (canonical ms) ⟨p, some fs⟩) archive ignoreCurrent = [] := by
  have hk : keptFolders h (canonical ms) fs [] = [] := by
    rw [keptFolders_eq, List.nil_append, List.map_eq_nil_iff, List.filter_eq_nil_iff]
    intro f hf
    obtain ⟨ns, hns, rfl, hpre⟩ := hin f hf
    rw [(provided_iff ms ns hm h1 hns).mpr hpre]
    simp
  have hfl : filterLocations h (canonical ms) ⟨p, some fs⟩ = ⟨some memory, some []⟩ := by
    unfold filterLocations
    simp only [Option.map_some, hk]
    cases p with
    | none => simp
    | some q =>
      obtain ⟨ns, hns, rfl, hpre⟩ := hpin q rfl
      simp only [testedPath_canonical h hp ns hns, (provided_iff ms ns hm h1 hns).mpr hpre, if_true]
      simp
  rw [hfl]
  unfold candidates possible
  simp only [Option.getD_some, if_true]

/-- **C85**: folders outside the mount point are kept, in order, and those in it are dropped. -/
theorem C85_kept (h : Host) (hp : Plain h) (ms : List Str) (hm : ms ≠ []) (h1 : ∀ n ∈ ms, IsName n)
    (nss : List (List Str)) (hn : ∀ ns ∈ nss, ∀ n ∈ ns, IsName n) (p : Option Str) :
    (filterLocations h (canonical ms) ⟨p, some (nss.map canonical)⟩).folders =
      some ((nss.filter (fun ns => !decide (ms <+: ns))).map canonical) := by
  have hk : keptFolders h (canonical ms) (nss.map canonical) [] = (nss.filter (fun ns => !decide (ms <+: ns))).map canonical := by
    rw [keptFolders_eq, List.nil_append]
    induction nss with
    | nil => rfl
    | cons ns nss ih =>
      have ih := ih (fun x hx => hn x (List.mem_cons_of_mem _ hx))
      have hns := hn ns List.mem_cons_self
      by_cases hpre : ms <+: ns
      · have := (provided_iff ms ns hm h1 hns).mpr hpre
        rw [List.map_cons, List.filter_cons, this, List.filter_cons]
        simpa [hpre] using ih
      · have : (providedByUs (canonical ms) (canonical ns)).isSome = false := by
          rw [Bool.eq_false_iff]; intro hc; exact hpre ((provided_iff ms ns hm h1 hns).mp hc)
        rw [List.map_cons, List.filter_cons, this, List.filter_cons]
        simp only [Bool.not_false, if_true, hpre, decide_false, List.map_cons, (hp ns hns).1]
        rw [ih]
  unfold filterLocations
  simp only [Option.map_some, hk]
  generalize (match p with | none => none | some p => _ : Option Str) = file
  by_cases hfound : (file.isSome || ((some ((nss.filter (fun ns => !decide (ms <+: ns))).map canonical)).getD []).any (fun _ => true)) = true
  · rw [if_pos hfound]
  · rw [if_neg hfound]

/-- **C85**: without an explicit path and without folders the index is stored beside the archive, or else in memory. -/
theorem C85_default (h : Host) (archive : Str) (ha : archive ≠ []) (ignoreCurrent : Bool) :
    (possible h [] [] archive ignoreCurrent).head? = some (archive ++ ".index.sqlite".toList) ∧
      (possible h [] [] archive ignoreCurrent).getLast? = some ":memory:".toList := by
  have e : possible h [] [] archive ignoreCurrent = defaultPaths h archive ++ [":memory:".toList] := by
    unfold possible addDefaults
    rw [if_neg (by decide), if_pos rfl, if_neg ha, if_pos rfl]
    rfl
  rw [e]
  refine ⟨?_, List.getLast?_concat⟩
  unfold defaultPaths
  rfl

theorem last_canonical (cs : List Str) (hne : cs ≠ []) (h : ∀ n ∈ cs, IsName n) : (canonical cs).getLast? ≠ some '/' := by
  rcases List.eq_nil_or_concat cs with h0 | ⟨a, x, h0⟩
  · exact absurd h0 hne
  · rw [List.concat_eq_append] at h0
    have hx := h x (by rw [h0]; simp)
    have e : ∃ p : Str, canonical cs = p ++ x := by
      rw [Verif.Index.canonical_eq, h0]
      by_cases ha : a = []
      · exact ⟨['/'], by rw [ha]; rfl⟩
      · rw [join_append a [x] ha (by simp)]
        exact ⟨'/' :: (join '/' a ++ ['/']), by simp [join]⟩
    obtain ⟨p, e⟩ := e
    rw [e]
    rcases List.eq_nil_or_concat x with h1 | ⟨b, c, h1⟩
    · exact absurd h1 hx.1
    · rw [List.concat_eq_append] at h1
      rw [h1, ← List.append_assoc, List.getLast?_concat]
      intro hc
      cases hc
      exact hx.2.1 (by rw [h1]; simp)

/-- **C85**: an explicit path that is relative is below the current folder. -/
theorem C85_relative (h : Host) (ws ns : List Str) (hw : ∀ n ∈ ws, IsName n) (hn : ∀ n ∈ ns, IsName n) (hne : ns ≠ []) (hcwd : h.cwd = canonical ws)
    (he : h.expanduser (join '/' ns) = join '/' ns) (hs : hasScheme (join '/' ns) = false) (hm : join '/' ns ≠ memory) (folders : List Str) (archive : Str)
    (ignoreCurrent : Bool) : possible h (join '/' ns) folders archive ignoreCurrent = [canonical (ws ++ ns)] := by
  have hjne : join '/' ns ≠ [] := by
    cases ns with
    | nil => exact absurd rfl hne
    | cons n ns =>
      intro hc
      have : split '/' (join '/' (n :: ns)) = n :: ns := Verif.Py.split_join '/' _ (by simp) (fun x hx => (hn x hx).2.1)
      rw [hc] at this
      have h1 : ([] : Str) = n := by
        have : [[]] = n :: ns := this
        simp only [List.cons.injEq] at this
        exact this.1
      exact (hn n (by simp)).1 h1.symm
  have habs : startsWith ['/'] (join '/' ns) = false := by
    cases ns with
    | nil => exact absurd rfl hne
    | cons n ns =>
      have h1 := hn n (by simp)
      cases n with
      | nil => exact absurd rfl h1.1
      | cons c n =>
        have hc : c ≠ '/' := fun e => h1.2.1 (by rw [e]; simp)
        have : ∃ t, join '/' ((c :: n) :: ns) = c :: t := by
          cases ns with
          | nil => exact ⟨n, rfl⟩
          | cons x xs => exact ⟨n ++ '/' :: join '/' (x :: xs), rfl⟩
        obtain ⟨t, ht⟩ := this
        rw [ht]
        unfold startsWith
        simp [List.isPrefixOf, Ne.symm hc]
  rw [C85_explicit h _ folders archive ignoreCurrent hjne hs hm, he]
  unfold abspath
  rw [if_neg (by rw [habs]; simp), hcwd]
  have hall : ∀ n ∈ ws ++ ns, IsName n := fun n hx => (List.mem_append.mp hx).elim (hw n) (hn n)
  have e : posixNormpath (pathJoin (canonical ws) (join '/' ns)) = canonical (ws ++ ns) := by
    unfold pathJoin
    rw [if_neg (by rw [habs]; simp)]
    by_cases hw0 : ws = []
    · subst hw0
      rw [if_pos (.inr (by decide))]
      have : canonical [] ++ join '/' ns = canonical ns := by rw [Verif.Index.canonical_eq ns]; rfl
      rw [this]
      exact posixNormpath_canonical _ hall
    · rw [if_neg ?_]
      · have : canonical ws ++ '/' :: join '/' ns = canonical (ws ++ ns) := by
          rw [Verif.Index.canonical_eq, Verif.Index.canonical_eq, join_append _ _ hw0 hne]
          rfl
        rw [this]
        exact posixNormpath_canonical _ hall
      · rintro (hc | hc)
        · rw [Verif.Index.canonical_eq] at hc; cases hc
        · exact last_canonical ws hw0 hw hc
  rw [e]

/-! ## violations -/

/-- A host with the current folder `/home/u`, the home folder `/home/u`, and no links. -/
def sampleHost : Host :=
  { cwd := "/home/u".toList
    expanduser := fun s => if s = "~".toList ∨ startsWith "~/".toList s then "/home/u".toList ++ s.drop 1 else s
    realpath := fun s => posixNormpath (if startsWith ['/'] s then s else "/home/u/".toList ++ s)
    filled := fun _ => false
    extensions := [] }

theorem sampleHost_plain : Plain sampleHost := by
  intro ns hn
  have h1 : startsWith ['/'] (canonical ns) = true := by
    rw [Verif.Index.canonical_eq]; unfold startsWith; simp [List.isPrefixOf]
  constructor
  · show posixNormpath (if startsWith ['/'] (canonical ns) then canonical ns else _) = _
    rw [if_pos h1, posixNormpath_canonical ns hn]
  · show (if canonical ns = "~".toList ∨ startsWith "~/".toList (canonical ns) then _ else canonical ns) = _
    rw [if_neg]
    rw [Verif.Index.canonical_eq]
    rintro (h | h)
    · exact absurd (congrArg List.head? h) (by rw [List.head?_cons]; decide)
    · obtain ⟨t, ht⟩ := List.isPrefixOf_iff_prefix.mp h
      exact absurd (congrArg List.head? ht) (by rw [List.head?_cons]; show ¬ some '~' = some '/'; decide)

/-- C85 is violated: a relative folder in the mount point is kept. -/
theorem C85_violated : ¬ C85_outside_statement := by
  intro h
  refine h sampleHost [] "/home/u/mnt".toList ⟨none, some ["mnt/x".toList]⟩ "/a.tar".toList false sampleHost_plain
    "/home/u/mnt/x/_a.tar.index.sqlite".toList (by decide +kernel) ?_
  refine ⟨["home".toList, "u".toList, "mnt".toList], ["x".toList, "_a.tar.index.sqlite".toList], ?_, by simp, by decide, by decide⟩
  unfold IsName
  decide

/-- C85 is violated: an index in memory becomes the file `/home/u/:memory:`. -/
theorem C85_memory_violated : ¬ C85_memory_statement := by
  intro h
  have := h sampleHost [] "/mnt".toList none "/a.tar".toList false sampleHost_plain
  have h2 : candidates sampleHost [] (filterLocations sampleHost "/mnt".toList ⟨some memory, none⟩) "/a.tar".toList false =
      ["/home/u/:memory:".toList] := by decide +kernel
  rw [h2] at this
  cases this

/-- C85 is violated: the default locations, beside the archive and in the home folder, become the current folder and a folder named `~`
in it. -/
theorem C85_order_violated : ¬ C85_order_statement := by
  intro h
  have h1 : candidates sampleHost [] ⟨none, some [[], "~/.ratarmount".toList]⟩ "/b/a.tar".toList false =
      ["/b/a.tar.index.sqlite".toList, "/home/u/.ratarmount/_b_a.tar.index.sqlite".toList] := by decide +kernel
  have h2 : candidates sampleHost [] (filterLocations sampleHost "/mnt".toList ⟨none, some [[], "~/.ratarmount".toList]⟩)
      "/b/a.tar".toList false =
      ["/home/u/_b_a.tar.index.sqlite".toList, "/home/u/~/.ratarmount/_b_a.tar.index.sqlite".toList] := by decide +kernel
  have := h sampleHost [] "/mnt".toList [[], "~/.ratarmount".toList] "/b/a.tar".toList sampleHost_plain (by decide) (by decide) ?_
  · rw [h1, h2] at this
    exact absurd this (by decide)
  · rw [h1]
    rintro c hc ⟨ms, rest, hn, _, hm, he⟩
    have hms : ms = ["mnt".toList] := by
      have : "/mnt".toList = canonical ["mnt".toList] := by decide
      rw [this] at hm
      exact (canonical_inj (by unfold IsName; decide) (fun n h => hn n (List.mem_append_left _ h)) hm).symm
    rw [hms] at he hn
    rw [show canonical (["mnt".toList] ++ rest) = '/' :: join '/' ("mnt".toList :: rest) from rfl] at he
    have hh : c.take 2 = "/m".toList := by
      rw [he]
      cases rest with
      | nil => rfl
      | cons r rest => rfl
    rcases List.mem_cons.mp hc with rfl | hc
    · exact absurd hh (by decide)
    · rw [List.mem_singleton.mp hc] at hh
      exact absurd hh (by decide)

/-- A URL of a file is not understood: it becomes a path in the current folder. -/
example : testedPath sampleHost "file:///x.sqlite".toList = "/home/u/file:/x.sqlite".toList := by decide +kernel

example : (filterLocations sampleHost "/mnt".toList ⟨some "/mnt/i".toList, some ["/mnt".toList, "/idx".toList, "/mnt/a".toList]⟩) =
    ⟨none, some ["/idx".toList]⟩ := by decide +kernel

/-- What is expected of a URL of the file system as the path of the index: it is the file that it names. -/
def C85_url_statement : Prop :=
  ∀ (h : Host) (defaults : List Str) (mountPoint : Str) (ns : List Str) (archive : Str) (ignoreCurrent : Bool), Plain h → ns ≠ [] →
    (∀ n ∈ ns, IsName n) → providedByUs mountPoint (canonical ns) = none →
    (candidates h defaults (filterLocations h mountPoint ⟨some ("file://".toList ++ canonical ns), none⟩) archive ignoreCurrent).head? = some (canonical ns)

/-- C85 is violated: after `file://` has been recognized, the real path of the whole URL is taken, which is below the current folder. -/
theorem C85_url_violated : ¬ C85_url_statement := by
  intro h
  have := h sampleHost [] "/mnt".toList ["i".toList] "/a.tar".toList false sampleHost_plain (by decide) (by unfold IsName; decide) (by decide +kernel)
  revert this
  decide +kernel

/-- C85: what is used instead. -/
example : candidates sampleHost [] (filterLocations sampleHost "/mnt".toList ⟨some "file:///i".toList, none⟩) "/a.tar".toList false =
    ["/home/u/file:/i".toList] := by decide +kernel

/-- C85: hypotheses of `C85_relative`. -/
example : sampleHost.cwd = canonical ["home".toList, "u".toList] ∧ sampleHost.expanduser "x/i.db".toList = "x/i.db".toList ∧
    hasScheme "x/i.db".toList = false ∧ "x/i.db".toList ≠ memory ∧ "x/i.db".toList = join '/' ["x".toList, "i.db".toList] := by decide +kernel

end Verif.IndexPaths
