import Verif.Py
import Verif.PyStr
import Verif.Index.Normpath
import Verif.Compose.Prefix

/-!
# C115, C116, C117: paths on FAT volumes
(core/ratarmountcore/mountsource/formats/fat.py:49-135; core/ratarmountcore/_external/pyfatfs/FATDirectoryEntry.py:337-481,
551-580; core/ratarmountcore/_external/pyfatfs/EightDotThree.py:37-54; core/ratarmountcore/_external/pyfatfs/FatIO.py:41-45)

The entries of a folder are given by its first cluster (`parse_dir_entries_in_cluster_chain`, see Fat/Names.lean), names
are decoded. Loading folders when they are needed and keeping them (`lazy_load`) is not modelled.
-/

namespace Verif.FatSource

open Verif.Py

/-- A directory entry (FATDirectoryEntry.py:60-116) with its decoded names. -/
structure DEnt where
  short : Str
  long : Option Str
  attr : Nat
  cluster : Nat
  size : Nat
  mtime : Nat
  deriving DecidableEq

/-- The entries of the folder at a cluster, or the failure of reading them (PyFat.py:518-532). -/
abbrev Vol := Nat → Except PyErr (List DEnt)

/-- `errno.ENOENT` (FATDirectoryEntry.py:468). -/
def ENOENT : Nat := 2
/-- `errno.ENOTDIR` (FATDirectoryEntry.py:381). -/
def ENOTDIR : Nat := 20

/-- `is_directory` (FATDirectoryEntry.py:383-388). -/
def DEnt.isDirectory (e : DEnt) : Bool := e.attr &&& 0x10 > 0
/-- `is_volume_id` (FATDirectoryEntry.py:366-371). -/
def DEnt.isVolumeId (e : DEnt) : Bool := e.attr &&& 0x08 > 0
/-- `is_special` (FATDirectoryEntry.py:337-343). -/
def DEnt.isSpecial (e : DEnt) : Bool := e.short = ['.'] || e.short = ['.', '.']

/-- `__repr__` (FATDirectoryEntry.py:551-559). -/
def DEnt.display (e : DEnt) : Str := e.long.getD e.short

/-- `get_entries` (FATDirectoryEntry.py:426-448): the folders and then the other entries. -/
def getEntries (v : Vol) (e : DEnt) : Except PyErr (List DEnt) :=
  if e.isDirectory then
    (v e.cluster).map (fun raw =>
      raw.filter (fun d => !(d.isSpecial || d.isVolumeId) && d.isDirectory) ++
      raw.filter (fun d => !(d.isSpecial || d.isVolumeId) && !d.isDirectory))
  else .error (.os ENOTDIR)

/-- The comparison in `_search_entry` (FATDirectoryEntry.py:459-465). -/
def DEnt.hasName (name : Str) (e : DEnt) : Bool := e.long = some name || e.short = name

/-- `_search_entry` (FATDirectoryEntry.py:450-468). -/
def searchEntry (v : Vol) (e : DEnt) (name : Str) : Except PyErr DEnt :=
  match getEntries v e with
  | .error x => .error x
  | .ok es => match es.find? (DEnt.hasName name) with
    | some d => .ok d
    | none => .error (.os ENOENT)

/-- The loop of `get_entry` (FATDirectoryEntry.py:477-481). -/
def descend (v : Vol) : List Str → DEnt → Except PyErr DEnt
  | [], e => .ok e
  | n :: ns, e =>
    if e.isDirectory then
      match searchEntry v e n with
      | .error x => .error x
      | .ok d => descend v ns d
    else .error (.os ENOTDIR)

/-- `get_entry` (FATDirectoryEntry.py:470-481). -/
def getEntry (v : Vol) (root : DEnt) (path : Str) : Except PyErr DEnt := descend v ((split '/' path).filter (· ≠ [])) root

/-- What `_convert_fatdirectory_entry_to_file_info` gives (fat.py:61-79), without owner. -/
structure FileInfo where
  size : Nat
  mtime : Nat
  mode : Nat
  path : Str
  deriving DecidableEq

/-- `_convert_fatdirectory_entry_to_file_info` (fat.py:61-79). -/
def convert (e : DEnt) (path : Str) : FileInfo :=
  ⟨e.size, e.mtime, 0o777 ||| (if e.isDirectory then 0o40000 else 0o100000), path⟩

/-- `FATMountSource.exists` (fat.py:86-93). -/
def exists_ (v : Vol) (root : DEnt) (path : Str) : Except PyErr Bool :=
  match getEntry v root path with
  | .ok _ => .ok true
  | .error (.os n) => if n = ENOENT then .ok false else .error (.os n)
  | .error x => .error x

/-- `FATMountSource._list` (fat.py:95-102). -/
def list (v : Vol) (root : DEnt) (path : Str) : Except PyErr (Option (List Str)) :=
  match (getEntry v root (Index.posixNormpath path)).bind (getEntries v) with
  | .ok es => .ok (some (es.map DEnt.display))
  | .error (.os n) => if n = ENOENT ∨ n = ENOTDIR then .ok none else .error (.os n)
  | .error x => .error x

/-- `FATMountSource.lookup` (fat.py:109-117). -/
def lookup (v : Vol) (root : DEnt) (path : Str) : Except PyErr (Option FileInfo) :=
  match getEntry v root path with
  | .ok e => .ok (some (convert e path))
  | .error (.os n) => if n = ENOTDIR ∨ n = ENOENT then .ok none else .error (.os n)
  | .error x => .error x

/-- `FATMountSource.open` (fat.py:123-128, FatIO.py:41-45): the entry whose clusters are read. -/
def open_ (v : Vol) (root : DEnt) (fi : FileInfo) : Except PyErr DEnt :=
  match getEntry v root fi.path with
  | .error x => .error x
  | .ok e => if e.isDirectory || e.isSpecial then .error (.os 21) else if e.isVolumeId then .error (.os 2) else .ok e

/-- `EightDotThree.__str__` (EightDotThree.py:37-54) with the code page as a parameter. -/
def shortStr (dec : UInt8 → Char) (space : Char → Bool) (name : List UInt8) : Str :=
  let name := if name.head? = some 5 then 0xE5 :: name.drop 1 else name
  let base := (((name.take 8).map dec).reverse.dropWhile space).reverse
  let ext := ((((name.drop 8).take 3).map dec).reverse.dropWhile space).reverse
  if ext.length > 0 then base ++ '.' :: ext else base ++ ext

/-! ## Specification -/

/-- An entry that is shown: neither the folder itself, its parent nor the label of the volume. -/
def Visible (raw : List DEnt) (e : DEnt) : Prop :=
  e ∈ raw ∧ e.short ≠ ['.'] ∧ e.short ≠ ['.', '.'] ∧ e.attr &&& 0x08 = 0

/-- The names that an entry has. -/
def Named (e : DEnt) (n : Str) : Prop := e.long = some n ∨ e.short = n

/-- No two entries of a folder that are shown have a name in common. -/
def Unambiguous (raw : List DEnt) : Prop := ∀ a b n, Visible raw a → Visible raw b → Named a n → Named b n → a = b

/-- A path of names through folders of a volume, from one entry to another. -/
inductive Leads (v : Vol) : DEnt → List Str → DEnt → Prop
  | here {e} : Leads v e [] e
  | step {e raw d n ns x} : e.attr &&& 0x10 ≠ 0 → v e.cluster = .ok raw → Visible raw d → Named d n → Leads v d ns x →
      Leads v e (n :: ns) x

/-- All folders that are reached have unambiguous names. -/
def Clean (v : Vol) : Prop := ∀ c raw, v c = .ok raw → Unambiguous raw

/-! ## Lemmas -/

theorem mem_getEntries {v : Vol} {e : DEnt} {es : List DEnt} (h : getEntries v e = .ok es) :
    e.attr &&& 0x10 ≠ 0 ∧ ∃ raw, v e.cluster = .ok raw ∧ ∀ d, d ∈ es ↔ Visible raw d := by
  unfold getEntries at h
  split at h
  · next hd =>
    refine ⟨by unfold DEnt.isDirectory at hd; simp at hd; omega, ?_⟩
    cases hv : v e.cluster with
    | error x => rw [hv] at h; cases h
    | ok raw =>
      rw [hv] at h
      simp only [Except.map, Except.ok.injEq] at h
      refine ⟨raw, rfl, fun d => ?_⟩
      rw [← h, List.mem_append, List.mem_filter, List.mem_filter]
      unfold Visible DEnt.isSpecial DEnt.isVolumeId
      have : (d.attr &&& 8 = 0) ↔ ¬ (d.attr &&& 8 > 0) := by omega
      rw [this]
      cases d.isDirectory <;> simp [and_assoc]
  · cases h

theorem hasName_iff (e : DEnt) (n : Str) : e.hasName n = true ↔ Named e n := by
  unfold DEnt.hasName Named
  simp

theorem isDirectory_iff (e : DEnt) : e.isDirectory = true ↔ e.attr &&& 0x10 ≠ 0 := by
  unfold DEnt.isDirectory
  rw [decide_eq_true_eq]
  omega

theorem descend_leads {v : Vol} : ∀ (ns : List Str) (e x : DEnt), descend v ns e = .ok x → Leads v e ns x := by
  intro ns
  induction ns with
  | nil =>
    intro e x h
    rw [descend, Except.ok.injEq] at h
    subst h
    exact .here
  | cons n ns ih =>
    intro e x h
    rw [descend] at h
    split at h
    · split at h
      · cases h
      · next d hd =>
        unfold searchEntry at hd
        split at hd
        · cases hd
        · next es hes =>
          obtain ⟨h1, raw, h2, h3⟩ := mem_getEntries hes
          split at hd
          · next d' hf =>
            rw [Except.ok.injEq] at hd
            subst hd
            exact .step h1 h2 ((h3 _).mp (List.mem_of_find?_eq_some hf)) ((hasName_iff _ _).mp (List.find?_some hf)) (ih _ _ h)
          · cases hd
    · cases h

theorem leads_descend {v : Vol} (hc : Clean v) {ns : List Str} {e x : DEnt} (h : Leads v e ns x) : descend v ns e = .ok x := by
  induction h with
  | here => rfl
  | @step e raw d n ns x h1 h2 h3 h4 h5 ih =>
    rw [descend, if_pos ((isDirectory_iff e).mpr h1)]
    have hs : searchEntry v e n = .ok d := by
      unfold searchEntry
      cases hg : getEntries v e with
      | error y =>
        unfold getEntries at hg
        rw [if_pos ((isDirectory_iff e).mpr h1), h2] at hg
        cases hg
      | ok es =>
        obtain ⟨-, raw', h2', hm⟩ := mem_getEntries hg
        rw [h2, Except.ok.injEq] at h2'
        subst h2'
        simp only
        cases hf : es.find? (DEnt.hasName n) with
        | none =>
          rw [List.find?_eq_none] at hf
          exact absurd ((hasName_iff d n).mpr h4) (hf d ((hm d).mpr h3))
        | some d' =>
          simp only
          rw [hc _ _ h2 d' d n ((hm d').mp (List.mem_of_find?_eq_some hf)) h3 ((hasName_iff _ _).mp (List.find?_some hf)) h4]
    rw [hs]
    exact ih

theorem parts_canonical (ns : List Str) (h : ∀ n ∈ ns, Index.IsName n) : (split '/' (Index.canonical ns)).filter (· ≠ []) = ns := by
  rw [Index.canonical_eq, split_cons_eq]
  cases ns with
  | nil => decide
  | cons a l =>
    rw [split_join '/' _ (by simp) (fun p hp => (h p hp).2.1), List.filter_cons, if_neg (by simp), List.filter_eq_self]
    intro x hx
    simpa using (h x hx).1

theorem leads_append {v : Vol} {a b c : DEnt} {ns ms : List Str} (h : Leads v a ns b) (h' : Leads v b ms c) :
    Leads v a (ns ++ ms) c := by
  induction h with
  | here => exact h'
  | step h1 h2 h3 h4 _ ih => exact .step h1 h2 h3 h4 (ih h')

theorem leads_visible {v : Vol} {a b : DEnt} {ns : List Str} (h : Leads v a ns b) : b = a ∨ ∃ raw, Visible raw b := by
  induction h with
  | here => exact .inl rfl
  | step h1 h2 h3 h4 _ ih =>
    rcases ih with rfl | h
    · exact .inr ⟨_, h3⟩
    · exact .inr h

theorem normpath_canonical (ns : List Str) (hn : ∀ n ∈ ns, Index.IsName n) :
    Index.posixNormpath (Index.canonical ns) = Index.canonical ns := by
  have h1 := (Compose.posixNormpath_rooted (join '/' ns) (Index.join_head ns fun n h => ⟨(hn n h).1, (hn n h).2.1⟩)).1
  rw [← Index.canonical_eq] at h1
  rw [h1]
  have h2 := Index.split_canonical ns hn
  rw [Index.canonical_eq, split_cons_eq] at h2
  rw [show Index.walk [] ([] :: split '/' (join '/' ns)) = Index.walk [] (split '/' (join '/' ns)) by simp [Index.walk]] at h2
  rw [h2]

/-! ## C115 -/

/-- C115: what is found under a path is an entry with this path, and no path of an unambiguous volume is missed, whether
long or short names are used. -/
theorem C115_found (v : Vol) (root : DEnt) (hc : Clean v) (ns : List Str) (hn : ∀ n ∈ ns, Index.IsName n) (fi : FileInfo) :
    lookup v root (Index.canonical ns) = .ok (some fi) ↔
      ∃ e, Leads v root ns e ∧ fi = ⟨e.size, e.mtime, if e.attr &&& 0x10 ≠ 0 then 0o40777 else 0o100777, Index.canonical ns⟩ := by
  have hconv : ∀ e : DEnt, convert e (Index.canonical ns) =
      ⟨e.size, e.mtime, if e.attr &&& 0x10 ≠ 0 then 0o40777 else 0o100777, Index.canonical ns⟩ := by
    intro e
    unfold convert
    by_cases hd : e.attr &&& 0x10 ≠ 0
    · rw [if_pos hd, if_pos ((isDirectory_iff e).mpr hd)]
      rfl
    · rw [if_neg hd, if_neg (fun h => hd ((isDirectory_iff e).mp h))]
      rfl
  unfold lookup getEntry
  rw [parts_canonical ns hn]
  constructor
  · intro h
    split at h
    · next e he =>
      rw [Except.ok.injEq, Option.some.injEq] at h
      exact ⟨e, descend_leads _ _ _ he, by rw [← h, hconv]⟩
    · split at h <;> cases h
    · cases h
  · rintro ⟨e, he, rfl⟩
    rw [leads_descend hc he]
    simp only
    rw [hconv]

/-- C115: every name that a folder lists leads to an entry of this folder with this name. -/
theorem C115_listed (v : Vol) (root : DEnt) (hc : Clean v) (ns : List Str) (hn : ∀ n ∈ ns, Index.IsName n) (names : List Str)
    (h : list v root (Index.canonical ns) = .ok (some names)) :
    ∃ d raw, Leads v root ns d ∧ d.attr &&& 0x10 ≠ 0 ∧ v d.cluster = .ok raw ∧
      (∀ n, n ∈ names ↔ ∃ e, Visible raw e ∧ e.long.getD e.short = n) ∧
      ∀ e, Visible raw e → Index.IsName (e.long.getD e.short) →
        getEntry v root (Index.canonical (ns ++ [e.long.getD e.short])) = .ok e := by
  unfold list at h
  rw [normpath_canonical ns hn] at h
  split at h
  · next es hes =>
    rw [Except.ok.injEq, Option.some.injEq] at h
    subst h
    cases hg : getEntry v root (Index.canonical ns) with
    | error x => rw [hg] at hes; cases hes
    | ok d =>
      rw [hg] at hes
      obtain ⟨h1, raw, h2, h3⟩ := mem_getEntries hes
      have hl : Leads v root ns d := by
        unfold getEntry at hg
        rw [parts_canonical ns hn] at hg
        exact descend_leads _ _ _ hg
      refine ⟨d, raw, hl, h1, h2, ?_, ?_⟩
      · intro n
        rw [List.mem_map]
        constructor
        · rintro ⟨e, he, rfl⟩
          exact ⟨e, (h3 e).mp he, rfl⟩
        · rintro ⟨e, he, rfl⟩
          exact ⟨e, (h3 e).mpr he, rfl⟩
      · intro e he hname
        unfold getEntry
        rw [parts_canonical]
        · apply leads_descend hc
          have hnamed : Named e (e.long.getD e.short) := by
            unfold Named
            cases e.long with
            | none => right; rfl
            | some l => left; rfl
          exact leads_append hl (.step h1 h2 he hnamed .here)
        · intro n hmem
          rcases List.mem_append.mp hmem with h | h
          · exact hn n h
          · rw [List.mem_singleton] at h
            exact h ▸ hname
  · split at h <;> cases h
  · cases h

/-- C115: every folder that can be read is listed. -/
theorem C115_folder (v : Vol) (root : DEnt) (hc : Clean v) (ns : List Str) (hn : ∀ n ∈ ns, Index.IsName n) (d : DEnt) (raw : List DEnt)
    (hl : Leads v root ns d) (hd : d.attr &&& 0x10 ≠ 0) (hr : v d.cluster = .ok raw) :
    ∃ names, list v root (Index.canonical ns) = .ok (some names) := by
  unfold list getEntry
  rw [normpath_canonical ns hn, parts_canonical ns hn, leads_descend hc hl]
  simp only [Except.bind]
  unfold getEntries
  rw [if_pos ((isDirectory_iff d).mpr hd), hr]
  exact ⟨_, rfl⟩

/-- C115: what was found is what is read: folders are refused, for files the entry with this path is read. -/
theorem C115_open (v : Vol) (root : DEnt) (hr : root.attr &&& 0x08 = 0 ∧ root.attr &&& 0x10 ≠ 0) (hc : Clean v) (ns : List Str)
    (hn : ∀ n ∈ ns, Index.IsName n) (fi : FileInfo) (h : lookup v root (Index.canonical ns) = .ok (some fi)) :
    ∃ e, Leads v root ns e ∧
      open_ v root fi = if e.attr &&& 0x10 ≠ 0 then .error (.os 21) else .ok e := by
  obtain ⟨e, he, rfl⟩ := (C115_found v root hc ns hn fi).mp h
  refine ⟨e, he, ?_⟩
  unfold open_ getEntry
  simp only
  rw [parts_canonical ns hn, leads_descend hc he]
  simp only
  by_cases hd : e.attr &&& 0x10 ≠ 0
  · rw [if_pos hd, if_pos (by rw [(isDirectory_iff e).mpr hd]; rfl)]
  · have hv : e.short ≠ ['.'] ∧ e.short ≠ ['.', '.'] ∧ e.attr &&& 0x08 = 0 := by
      rcases leads_visible he with rfl | ⟨raw, hv⟩
      · exact absurd hr.2 hd
      · exact hv.2
    rw [if_neg hd, if_neg, if_neg]
    · unfold DEnt.isVolumeId
      rw [hv.2.2]
      decide
    · have : e.isDirectory = false := by
        cases hh : e.isDirectory with
        | false => rfl
        | true => exact absurd ((isDirectory_iff e).mp hh) hd
      rw [this]
      unfold DEnt.isSpecial
      simp [hv.1, hv.2.1]

/-! ## C116 -/

/-- C116 as claimed: `exists` tells whether `lookup` finds something. -/
def C116_statement : Prop :=
  ∀ (v : Vol) (root : DEnt) (path : Str) (r : Option FileInfo), lookup v root path = .ok r → exists_ v root path = .ok r.isSome

/-- A volume with a folder `d` that holds the file `f`, whose alias is `F~1`. -/
def sample : Vol := fun c =>
  if c = 0 then .ok [⟨"VOL".toList, none, 8, 0, 0, 0⟩, ⟨"D".toList, some "d".toList, 16, 1, 0, 3⟩]
  else if c = 1 then .ok [⟨".".toList, none, 16, 1, 0, 0⟩, ⟨"..".toList, none, 16, 0, 0, 0⟩, ⟨"F~1".toList, some "f".toList, 32, 2, 5, 4⟩]
  else .error (.fat)

/-- The root folder of `sample`. -/
def sampleRoot : DEnt := ⟨[], none, 16, 0, 0, 0⟩

/-- C116 does not hold: a path below a file raises `ENOTDIR`. -/
theorem C116_violated : ¬ C116_statement := by
  intro h
  have := h sample sampleRoot "/d/f/x".toList none (by decide +kernel)
  revert this
  decide +kernel

/-- C116: every path that does not lead through a file is answered as by `lookup`. -/
theorem C116_exists_partial (v : Vol) (root : DEnt) (path : Str) (r : Option FileInfo) (h : lookup v root path = .ok r)
    (hf : ∀ (ns ms : List Str) (e : DEnt), (split '/' path).filter (· ≠ []) = ns ++ ms → ms ≠ [] → Leads v root ns e →
      e.attr &&& 0x10 ≠ 0) (hv : ∀ c, v c ≠ .error (.os 20)) : exists_ v root path = .ok r.isSome := by
  have hnd : ∀ (ns pre : List Str) (e : DEnt), (split '/' path).filter (· ≠ []) = pre ++ ns → Leads v root pre e →
      descend v ns e ≠ .error (.os 20) := by
    intro ns
    induction ns with
    | nil => intro pre e _ _ h; rw [descend] at h; cases h
    | cons n ns ih =>
      intro pre e hp hl hd
      have hdir := hf pre (n :: ns) e hp (by simp) hl
      rw [descend, if_pos ((isDirectory_iff e).mpr hdir)] at hd
      split at hd
      · next x hs =>
        rw [Except.error.injEq] at hd
        subst hd
        unfold searchEntry at hs
        split at hs
        · next y hg =>
          rw [Except.error.injEq] at hs
          subst hs
          unfold getEntries at hg
          rw [if_pos ((isDirectory_iff e).mpr hdir)] at hg
          cases hc : v e.cluster with
          | error z =>
            rw [hc] at hg
            simp only [Except.map, Except.error.injEq] at hg
            exact hv _ (hg ▸ hc)
          | ok raw => rw [hc] at hg; cases hg
        · split at hs
          · cases hs
          · cases hs
      · next d hs =>
        refine ih (pre ++ [n]) d (by rw [hp]; simp) (leads_append hl ?_) hd
        have : descend v [n] e = .ok d := by
          rw [descend, if_pos ((isDirectory_iff e).mpr hdir), hs]
          rfl
        exact descend_leads _ _ _ this
  have hne := hnd _ [] root rfl .here
  unfold lookup getEntry at h
  unfold exists_ getEntry
  cases hg : descend v ((split '/' path).filter (· ≠ [])) root with
  | ok e =>
    rw [hg] at h
    simp only [Except.ok.injEq] at h
    rw [← h]
    rfl
  | error x =>
    rw [hg] at h hne
    cases x with
    | os n =>
      simp only at h ⊢
      split at h
      · next hcase =>
        rcases hcase with hcase | hcase
        · exact absurd (by rw [hcase]; rfl) hne
        · rw [if_pos hcase]
          rw [Except.ok.injEq] at h
          rw [← h]
          rfl
      · cases h
    | _ => cases h

/-! ## C117 -/

theorem unpad (dec : UInt8 → Char) (space : Char → Bool) (hsp : space (dec 0x20) = true) (k : Nat) (l : List UInt8)
    (h : ∀ c, l.getLast? = some c → space (dec c) = false) :
    (((l ++ List.replicate k 0x20).map dec).reverse.dropWhile space).reverse = l.map dec := by
  induction k with
  | zero =>
    rw [List.replicate_zero, List.append_nil]
    cases hl : l.getLast? with
    | none =>
      rw [List.getLast?_eq_none_iff] at hl
      subst hl
      rfl
    | some c =>
      obtain ⟨m, rfl⟩ := List.getLast?_eq_some_iff.mp hl
      rw [List.map_append, List.reverse_append]
      simp [h c hl]
  | succ k ih =>
    rw [List.replicate_succ', ← List.append_assoc, List.map_append, List.reverse_append, ← ih]
    simp [hsp]

/-- C117: a short name that was padded with spaces is shown as its base and its extension after a dot. -/
theorem C117_shown (dec : UInt8 → Char) (space : Char → Bool) (base ext : List UInt8) (hsp : space (dec 0x20) = true)
    (hb : base.length ≤ 8) (he : ext.length ≤ 3) (hbl : ∀ c, base.getLast? = some c → space (dec c) = false)
    (hel : ∀ c, ext.getLast? = some c → space (dec c) = false) (h5 : base.head? ≠ some 5) (hne : base ≠ []) :
    shortStr dec space (base ++ List.replicate (8 - base.length) 0x20 ++ (ext ++ List.replicate (3 - ext.length) 0x20)) =
      base.map dec ++ (if ext = [] then [] else '.' :: ext.map dec) := by
  have hlen : (base ++ List.replicate (8 - base.length) (0x20 : UInt8)).length = 8 := by
    rw [List.length_append, List.length_replicate]
    omega
  have hlen3 : (ext ++ List.replicate (3 - ext.length) (0x20 : UInt8)).length = 3 := by
    rw [List.length_append, List.length_replicate]
    omega
  have hhead : (base ++ List.replicate (8 - base.length) (0x20 : UInt8) ++ (ext ++ List.replicate (3 - ext.length) 0x20)).head? ≠
      some 5 := by
    cases base with
    | nil => exact absurd rfl hne
    | cons a l => simpa using h5
  unfold shortStr
  simp only [if_neg hhead]
  rw [List.take_left' hlen, List.drop_left' hlen, List.take_of_length_le (by omega), unpad dec space hsp _ _ hbl,
    unpad dec space hsp _ _ hel]
  cases ext with
  | nil => simp
  | cons a l => simp

/-- C117: a first byte of 5 stands for the character 0xE5, whose code marks removed entries. -/
theorem C117_first (dec : UInt8 → Char) (space : Char → Bool) (rest : List UInt8) :
    shortStr dec space (5 :: rest) = shortStr dec space (0xE5 :: rest) := by
  unfold shortStr
  simp

/-- Code page 437 below 128 (used at EightDotThree.py:43-44). -/
def ascii (b : UInt8) : Char := Char.ofNat b.toNat

example : shortStr ascii (fun c => decide (c = ' ')) [82, 69, 65, 68, 77, 69, 32, 32, 77, 68, 32] = "README.MD".toList ∧
    shortStr ascii (fun c => decide (c = ' ')) [66, 73, 78, 32, 32, 32, 32, 32, 32, 32, 32] = "BIN".toList := by decide +kernel

example : ascii 0x20 = ' ' ∧ (∀ c, [82, 69].getLast? = some c → decide (ascii c = ' ') = false) ∧ [82, 69].head? ≠ some (5 : UInt8) := by
  decide +kernel

/-! ## Examples -/

example : Clean sample := by
  intro c raw h a b n ha hb hna hnb
  unfold sample at h
  split at h
  · rw [Except.ok.injEq] at h
    subst h
    simp [Visible] at ha hb
    rcases ha with ⟨ha | ha, -, -, ha'⟩ <;> rcases hb with ⟨hb | hb, -, -, hb'⟩ <;> subst ha <;> subst hb <;> simp_all
  · split at h
    · rw [Except.ok.injEq] at h
      subst h
      simp [Visible] at ha hb
      rcases ha with ⟨ha | ha | ha, ha1, ha2, ha'⟩ <;> rcases hb with ⟨hb | hb | hb, hb1, hb2, hb'⟩ <;> subst ha <;> subst hb <;>
        simp_all
    · cases h

example : lookup sample sampleRoot "/d/F~1".toList = .ok (some ⟨5, 4, 0o100777, "/d/F~1".toList⟩) ∧
    list sample sampleRoot "/".toList = .ok (some ["d".toList]) ∧ list sample sampleRoot "/d/".toList = .ok (some ["f".toList]) ∧
    open_ sample sampleRoot ⟨5, 4, 0o100777, "/d/f".toList⟩ = .ok ⟨"F~1".toList, some "f".toList, 32, 2, 5, 4⟩ ∧
    open_ sample sampleRoot ⟨0, 3, 0o40777, "/d".toList⟩ = .error (.os 21) ∧
    lookup sample sampleRoot "/VOL".toList = .ok none ∧ exists_ sample sampleRoot "/d/x".toList = .ok false ∧
    exists_ sample sampleRoot "/d/f".toList = .ok true := by
  decide +kernel

example : sampleRoot.attr &&& 0x08 = 0 ∧ sampleRoot.attr &&& 0x10 ≠ 0 ∧ (∀ c, sample c ≠ .error (.os 20)) := by
  refine ⟨by decide, by decide, fun c => ?_⟩
  unfold sample
  split
  · simp
  · split <;> simp

end Verif.FatSource
