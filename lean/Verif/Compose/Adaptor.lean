import Verif.Compose.Source
import Verif.Py
import Verif.Bits

/-!
# C145, C146, C147: mount sources as file systems of fsspec
(core/ratarmountcore/SQLiteIndexedTarFsspec.py)
-/

namespace Verif.Adaptor

open Verif.Py Verif.Index Verif.Compose

/-- `_stripProtocol` (SQLiteIndexedTarFsspec.py:21-23): an index, not a slice. -/
def stripProtocol (protocol path : Str) : Except PyErr Str :=
  if startsWith (protocol ++ "://".toList) path then
    match path[path.length - (protocol.length + 3)]? with
    | some c => .ok [c]
    | none => .error .indexError
  else .ok path

/-- The dictionary of `_file_info_to_dict` (SQLiteIndexedTarFsspec.py:25-32). -/
structure Item where
  directory : Bool
  name : Str
  mode : Nat
  rest : Nat
  deriving DecidableEq, Repr

/-- `_file_info_to_dict` (SQLiteIndexedTarFsspec.py:25-32). -/
def toItem (name : Str) (i : FileInfo) : Item := ⟨isDir i.mode, name, i.mode, i.rest⟩

/-- `prefix_path` (SQLiteIndexedTarFsspec.py:44-45). -/
def prefixPath (path name : Str) : Str := if path ≠ [] then rstrip '/' path ++ '/' :: name else name

/-- The dictionary made of names (SQLiteIndexedTarFsspec.py:52-53). -/
def lookupNames (s : Source) (path : Str) (l : List Str) : Dict Str (Option FileInfo) :=
  l.foldl (fun d name => Dict.set d (prefixPath path name) (s.lookup name 0)) []

/-- The list comprehension of `ls` for one entry (SQLiteIndexedTarFsspec.py:54-56). -/
def entryItem (path : Str) : Str × Option FileInfo → Option Item
  | (name, some i) => some (toItem (prefixPath path name) i)
  | (_, none) => none

/-- The part of `ls` after the listing (SQLiteIndexedTarFsspec.py:50-56). -/
def lsListing (s : Source) (path : Str) : Option (Listing FileInfo) → Except PyErr (List Item)
  | none => .error .fileNotFound
  | some (.names l) => .ok ((lookupNames s path l).filterMap (entryItem path))
  | some (.dict d) => .ok (d.filterMap (fun e => entryItem path (e.1, some e.2)))

/-- `ls(path, detail=True)` (SQLiteIndexedTarFsspec.py:35-56). -/
def ls (s : Source) (protocol path : Str) : Except PyErr (List Item) :=
  match stripProtocol protocol path with
  | .error e => .error e
  | .ok p => lsListing s path (s.list p)

/-- `ls(path, detail=False)` (SQLiteIndexedTarFsspec.py:58-63). -/
def lsNames (s : Source) (protocol path : Str) : Except PyErr (List Str) :=
  match stripProtocol protocol path with
  | .error e => .error e
  | .ok p => match s.listMode p with
    | none => .error .fileNotFound
    | some l => .ok (l.keys.map (prefixPath path))

/-- The lookup of `info` and `_open` (SQLiteIndexedTarFsspec.py:67-69, 84-86). -/
def find (s : Source) (protocol path : Str) : Except PyErr FileInfo :=
  match stripProtocol protocol path with
  | .error e => .error e
  | .ok p => match s.lookup p 0 with
    | none => .error .fileNotFound
    | some i => .ok i

/-- `info` (SQLiteIndexedTarFsspec.py:66-70). -/
def info (s : Source) (protocol path : Str) : Except PyErr Item := (find s protocol path).map (toItem path)

/-- `_open` (SQLiteIndexedTarFsspec.py:73-87): what is opened. -/
def open_ (s : Source) (protocol path mode : Str) : Except PyErr FileInfo :=
  if mode ≠ "rb".toList then .error .valueError else find s protocol path

/-- The keyword arguments of `SQLiteIndexedTar` that are changed (SQLiteIndexedTarFsspec.py:109-135). -/
structure Opts where
  tarFileName : Option Str
  indexFilePath : Option Str
  writeIndex : Option Bool
  fileObject : Bool
  deriving DecidableEq, Repr

/-- The argument `fo` (SQLiteIndexedTarFsspec.py:103). -/
inductive Fo where
  | none
  | path (s : Str)
  | object
  deriving DecidableEq, Repr

/-- `if 'writeIndex' not in options` (SQLiteIndexedTarFsspec.py:123-124, 130-131). -/
def orTrue : Option Bool → Option Bool
  | none => some true
  | some b => some b

/-- The options for chained URLs of local files (SQLiteIndexedTarFsspec.py:119-124). -/
def fileOpts (o : Opts) (fo protocol : Str) : Opts :=
  if protocol = "file".toList then
    { o with tarFileName := some fo, indexFilePath := some (o.indexFilePath.getD (fo ++ ".index.sqlite".toList)), writeIndex := orTrue o.writeIndex }
  else o

/-- `SQLiteIndexedTarFileSystem.__init__` (SQLiteIndexedTarFsspec.py:99-137): the options given to `SQLiteIndexedTar`. `targetOptions` tells
whether `target_options` is given: `**None` is no mapping. Opening the file with fsspec is taken to succeed. -/
def init (fo : Fo) (targetProtocol : Option Str) (targetOptions : Bool) (o : Opts) : Except PyErr Opts :=
  match fo with
  | .none => .ok o
  | .object => .ok { o with fileObject := true }
  | .path p => match targetProtocol with
    | none => .ok { o with tarFileName := some p, writeIndex := orTrue o.writeIndex }
    | some [] => .ok { o with tarFileName := some p, writeIndex := orTrue o.writeIndex }
    | some t => if targetOptions = false then .error .typeError else .ok { fileOpts o p t with fileObject := true }

/-! ## Specification -/

/-- The names of a path. -/
def names (path : Str) : List Str := (split '/' path).filter (fun n => decide (n ≠ []))

/-- Two entries look the same from outside. -/
def Same (a b : FileInfo) : Prop := a.mode = b.mode ∧ a.rest = b.rest

/-- A source whose paths are sequences of names and whose listings are dictionaries of what lookups find. -/
structure Lawful (s : Source) : Prop where
  spelled : ∀ p q, names p = names q → s.lookup p 0 = s.lookup q 0
  listed : ∀ p d n i, s.list p = some (.dict d) → (n, i) ∈ d → n ≠ [] ∧ '/' ∉ n ∧
    ∀ q, names q = names p ++ [n] → ∃ j, s.lookup q 0 = some j ∧ Same i j
  complete : ∀ p d n q j, s.list p = some (.dict d) → names q = names p ++ [n] → s.lookup q 0 = some j → ∃ i, (n, i) ∈ d ∧ Same i j

/-- The path has no protocol. -/
def Bare (protocol path : Str) : Prop := ¬ (protocol ++ "://".toList) <+: path

/-- With and without the protocol, the same is opened. -/
def C145_statement : Prop :=
  ∀ (s : Source), Lawful s → ∀ protocol path : Str,
    find s protocol (protocol ++ "://".toList ++ path) = find s protocol path

/-- Listing a folder gives what `info` tells about each path in it. -/
def C146_statement : Prop :=
  ∀ (s : Source) (protocol path : Str) (l : List Item), Bare protocol path → (∀ p q, names p = names q → s.lookup p 0 = s.lookup q 0) →
    (∀ p m n, s.list p = some m → n ∈ m.keys → ∀ q, names q = names p ++ [n] → ∃ j, s.lookup q 0 = some j) →
    ls s protocol path = .ok l → ∀ m n, s.list path = some m → n ∈ m.keys → ∃ e ∈ l, names e.name = names path ++ [n]

/-- A file that is given by its path is opened, whatever protocol it is read with. -/
def C147_statement : Prop := ∀ (p : Str) (t : Option Str) (given : Bool) (o : Opts), ∃ r, init (.path p) t given o = .ok r

/-! ## Proofs -/

theorem startsWith_iff (a b : Str) : startsWith a b = true ↔ a <+: b := by
  unfold startsWith
  exact List.isPrefixOf_iff_prefix

theorem stripProtocol_bare {protocol path : Str} (h : Bare protocol path) : stripProtocol protocol path = .ok path := by
  unfold stripProtocol
  rw [if_neg (fun hh => h ((startsWith_iff _ _).mp hh))]

/-- C145, without the protocol: the path is looked up. -/
theorem C145_bare (s : Source) (protocol path : Str) (h : Bare protocol path) :
    find s protocol path = (match s.lookup path 0 with | some i => .ok i | none => .error .fileNotFound) := by
  unfold find
  rw [stripProtocol_bare h]
  simp only
  cases s.lookup path 0 <;> rfl

/-- C145, what is done instead: only one character is looked up, whose position is the length of the path without the protocol. -/
theorem C145_character (s : Source) (protocol path : Str) : ∃ c, (protocol ++ "://".toList ++ path)[path.length]? = some c ∧
    find s protocol (protocol ++ "://".toList ++ path) = (match s.lookup [c] 0 with | some i => .ok i | none => .error .fileNotFound) := by
  have hlen : (protocol ++ "://".toList ++ path).length = protocol.length + 3 + path.length := by
    simp only [List.length_append]; rfl
  have hlt : path.length < (protocol ++ "://".toList ++ path).length := by omega
  refine ⟨(protocol ++ "://".toList ++ path)[path.length], List.getElem?_eq_getElem hlt, ?_⟩
  unfold find stripProtocol
  rw [if_pos ((startsWith_iff _ _).mpr ⟨path, rfl⟩), hlen,
    show protocol.length + 3 + path.length - (protocol.length + 3) = path.length from by omega, List.getElem?_eq_getElem hlt]
  simp only
  cases s.lookup [(protocol ++ "://".toList ++ path)[path.length]] 0 <;> rfl

theorem split_append (c : Char) (b : Str) : ∀ a : Str, split c (a ++ c :: b) = split c a ++ split c b := by
  intro a
  induction a with
  | nil => simp [split]
  | cons x a ih =>
    rw [List.cons_append]
    by_cases h : x = c
    · subst h
      rw [split_cons_eq, split_cons_eq, ih]; rfl
    · obtain ⟨p, ps, h1, h2⟩ := split_cons_ne c x a h
      obtain ⟨r, rs, h3, h4⟩ := split_cons_ne c x (a ++ c :: b) h
      rw [h2, h4]
      rw [ih, h1, List.cons_append] at h3
      injection h3 with h5 h6
      rw [← h5, ← h6]
      rfl

theorem names_append (a b : Str) : names (a ++ '/' :: b) = names a ++ names b := by
  unfold names
  rw [split_append, List.filter_append]

theorem names_single (n : Str) (hn : n ≠ []) (hs : '/' ∉ n) : names n = [n] := by
  unfold names
  rw [split_of_not_mem _ _ hs]
  simp [hn]

theorem names_snoc_slash (a : Str) : names (a ++ ['/']) = names a := by
  rw [names_append]
  simp [names, split]

theorem names_slashes (a : Str) : ∀ k, names (a ++ List.replicate k '/') = names a := by
  intro k
  induction k generalizing a with
  | zero => simp
  | succ k ih =>
    rw [List.replicate_succ, show a ++ '/' :: List.replicate k '/' = (a ++ ['/']) ++ List.replicate k '/' from by simp, ih, names_snoc_slash]

theorem dropWhile_replicate (r : Str) : ∃ k, r = List.replicate k '/' ++ r.dropWhile (· = '/') := by
  induction r with
  | nil => exact ⟨0, rfl⟩
  | cons x r ih =>
    by_cases h : x = '/'
    · obtain ⟨k, hk⟩ := ih
      refine ⟨k + 1, ?_⟩
      rw [List.dropWhile_cons_of_pos (by simpa using h), List.replicate_succ, List.cons_append, ← hk, h]
    · exact ⟨0, by rw [List.dropWhile_cons_of_neg (by simpa using h)]; rfl⟩

theorem names_rstrip (p : Str) : names (rstrip '/' p) = names p := by
  obtain ⟨k, hk⟩ := dropWhile_replicate p.reverse
  have : p = rstrip '/' p ++ List.replicate k '/' := by
    have := congrArg List.reverse hk
    rw [List.reverse_reverse, List.reverse_append, List.reverse_replicate] at this
    exact this
  rw [this, names_slashes, ← this]

theorem names_prefixPath (path n : Str) (hn : n ≠ []) (hs : '/' ∉ n) : names (prefixPath path n) = names path ++ [n] := by
  unfold prefixPath
  split
  · rw [names_append, names_rstrip, names_single n hn hs]
  · rename_i h
    have : path = [] := by simpa using h
    rw [this, names_single n hn hs]
    rfl

/-- Prefixed paths have no protocol. -/
def Relative (protocol path : Str) : Prop := ∀ n : Str, Bare protocol (prefixPath path n)

/-- C146 for sources that list dictionaries: each listed item is what `info` tells about its path, and everything in the folder is listed. -/
theorem C146_partial (s : Source) (hs : Lawful s) (protocol path : Str) (d : Dict Str FileInfo) (hp : Bare protocol path) (hr : Relative protocol path)
    (hd : s.list path = some (.dict d)) : ∃ l, ls s protocol path = .ok l ∧
    (∀ e ∈ l, info s protocol e.name = .ok e ∧ ∃ n, names e.name = names path ++ [n]) ∧
    ∀ q n j, names q = names path ++ [n] → s.lookup q 0 = some j → ∃ e ∈ l, names e.name = names q ∧ e.mode = j.mode ∧ e.rest = j.rest := by
  refine ⟨d.filterMap (fun e => entryItem path (e.1, some e.2)), ?_, ?_, ?_⟩
  · unfold ls
    rw [stripProtocol_bare hp]
    simp only
    rw [hd]
    rfl
  · intro e he
    obtain ⟨⟨n, i⟩, hm, hx⟩ := List.mem_filterMap.mp he
    simp only [entryItem, Option.some.injEq] at hx
    subst hx
    obtain ⟨h1, h2, h3⟩ := hs.listed path d n i hd hm
    obtain ⟨j, hj, h4, h5⟩ := h3 (prefixPath path n) (names_prefixPath path n h1 h2)
    refine ⟨?_, n, names_prefixPath path n h1 h2⟩
    unfold info toItem
    simp only
    rw [C145_bare s protocol _ (hr n), hj]
    simp only [Except.map, h4, h5]
  · intro q n j hq hj
    obtain ⟨i, hm, h4, h5⟩ := hs.complete path d n q j hd hq hj
    obtain ⟨h1, h2, h3⟩ := hs.listed path d n i hd hm
    refine ⟨toItem (prefixPath path n) i, List.mem_filterMap.mpr ⟨(n, i), hm, rfl⟩, ?_, h4, h5⟩
    show names (prefixPath path n) = _
    rw [names_prefixPath path n h1 h2, hq]

theorem prefixPath_inj {path a b : Str} (h : prefixPath path a = prefixPath path b) : a = b := by
  unfold prefixPath at h
  split at h
  · exact (List.cons.inj (List.append_cancel_left h)).2
  · exact h

theorem lookupNames_get (s : Source) (path n : Str) : ∀ (l : List Str) (d : Dict Str (Option FileInfo)),
    Dict.get? (l.foldl (fun d name => Dict.set d (prefixPath path name) (s.lookup name 0)) d) (prefixPath path n) =
      if n ∈ l then some (s.lookup n 0) else d.get? (prefixPath path n) := by
  intro l
  induction l with
  | nil => intro d; rfl
  | cons m l ih =>
    intro d
    rw [List.foldl_cons, ih]
    by_cases hl : n ∈ l
    · rw [if_pos hl, if_pos (List.mem_cons_of_mem _ hl)]
    · rw [if_neg hl, Dict.get?_set]
      by_cases hm : n = m
      · subst hm
        rw [if_pos rfl, if_pos List.mem_cons_self]
      · rw [if_neg (fun e => hm (prefixPath_inj e).symm), if_neg (by simp [hm, hl])]

theorem lookupNames_keys (s : Source) (path k : Str) : ∀ (l : List Str) (d : Dict Str (Option FileInfo)),
    k ∈ (l.foldl (fun d name => Dict.set d (prefixPath path name) (s.lookup name 0)) d).keys →
      k ∈ d.keys ∨ ∃ n ∈ l, k = prefixPath path n := by
  intro l
  induction l with
  | nil => intro d h; exact .inl h
  | cons m l ih =>
    intro d h
    rw [List.foldl_cons] at h
    rcases ih _ h with h | ⟨n, hn, h⟩
    · rw [Dict.mem_keys_iff, Dict.get?_set] at h
      split at h
      · next e => exact .inr ⟨m, List.mem_cons_self, e.symm⟩
      · exact .inl ((Dict.mem_keys_iff _ _).mpr h)
    · exact .inr ⟨n, List.mem_cons_of_mem _ hn, h⟩

theorem lookupNames_nodup (s : Source) (path : Str) : ∀ (l : List Str) (d : Dict Str (Option FileInfo)), d.keys.Nodup →
    (l.foldl (fun d name => Dict.set d (prefixPath path name) (s.lookup name 0)) d).keys.Nodup := by
  intro l
  induction l with
  | nil => intro d h; exact h
  | cons m l ih =>
    intro d h
    rw [List.foldl_cons]
    exact ih _ (Dict.nodup_set d h _ _)

/-- C146 for sources that list names: the items are those whose bare names are found from the root, and the folder is in front of
their names twice. -/
theorem C146_bare_names (s : Source) (protocol path : Str) (l : List Str) (hp : Bare protocol path) (hd : s.list path = some (.names l))
    (hn : ∀ n ∈ l, n ≠ [] ∧ '/' ∉ n) :
    ∃ items, ls s protocol path = .ok items ∧
      (∀ n ∈ l, ∀ i, s.lookup n 0 = some i → ∃ e ∈ items, names e.name = names path ++ (names path ++ [n]) ∧ e.mode = i.mode ∧ e.rest = i.rest) ∧
      ∀ e ∈ items, ∃ n ∈ l, ∃ i, s.lookup n 0 = some i ∧ names e.name = names path ++ (names path ++ [n]) ∧ e.mode = i.mode ∧ e.rest = i.rest := by
  have twice : ∀ n, n ≠ [] ∧ '/' ∉ n → names (prefixPath path (prefixPath path n)) = names path ++ (names path ++ [n]) := by
    intro n h
    rw [← names_prefixPath path n h.1 h.2]
    unfold prefixPath
    split
    · rw [names_append, names_rstrip]
    · next e =>
      have : path = [] := by simpa using e
      rw [this]
      rfl
  refine ⟨(lookupNames s path l).filterMap (entryItem path), ?_, ?_, ?_⟩
  · unfold ls
    rw [stripProtocol_bare hp]
    simp only
    rw [hd]
    rfl
  · intro n hl i hi
    refine ⟨toItem (prefixPath path (prefixPath path n)) i, List.mem_filterMap.mpr ⟨(prefixPath path n, some i), ?_, rfl⟩, twice n (hn n hl), rfl, rfl⟩
    apply Dict.mem_of_get?
    unfold lookupNames
    rw [lookupNames_get, if_pos hl, hi]
  · intro e he
    obtain ⟨⟨k, v⟩, hm, hx⟩ := List.mem_filterMap.mp he
    cases v with
    | none => cases hx
    | some i =>
      obtain rfl := Option.some.inj hx
      have hk : k ∈ (lookupNames s path l).keys := List.mem_map.mpr ⟨(k, some i), hm, rfl⟩
      rcases lookupNames_keys s path k l [] hk with hk | ⟨n, hl, rfl⟩
      · cases hk
      · have hg := Dict.get?_eq_some_of_mem _ (lookupNames_nodup s path l [] List.nodup_nil) hm
        rw [lookupNames_get, if_pos hl] at hg
        exact ⟨n, hl, i, Option.some.inj hg, twice n (hn n hl), rfl, rfl⟩

/-- C146, names only: they are the paths of what the source lists, for all sources. -/
theorem C146_names (s : Source) (protocol path : Str) (m : Listing Nat) (hp : Bare protocol path) (hd : s.listMode path = some m)
    (hn : ∀ n ∈ m.keys, n ≠ [] ∧ '/' ∉ n) :
    ∃ l, lsNames s protocol path = .ok l ∧ l.map names = m.keys.map (fun n => names path ++ [n]) := by
  refine ⟨m.keys.map (prefixPath path), ?_, ?_⟩
  · unfold lsNames
    rw [stripProtocol_bare hp]
    simp only
    rw [hd]
  · rw [List.map_map]
    exact List.map_congr_left (fun n h => names_prefixPath path n (hn n h).1 (hn n h).2)

/-- C146, missing folders are reported. -/
theorem C146_missing (s : Source) (protocol path : Str) (hp : Bare protocol path) (hd : s.list path = none) :
    ls s protocol path = .error .fileNotFound := by
  unfold ls
  rw [stripProtocol_bare hp]
  simp only
  rw [hd]
  rfl

/-- C146, missing folders are reported, also when only names are asked for. -/
theorem C146_missing_names (s : Source) (protocol path : Str) (hp : Bare protocol path) (hd : s.listMode path = none) :
    lsNames s protocol path = .error .fileNotFound := by
  unfold lsNames
  rw [stripProtocol_bare hp]
  simp only
  rw [hd]

theorem toItem_type (name : Str) (i : FileInfo) : (toItem name i).directory = true ↔ i.mode / 4096 % 16 = 4 := by
  show (i.mode &&& 0xF000 == 0x4000) = true ↔ _
  rw [and_fmt, beq_iff_eq]
  unfold typeBits
  omega

/-- C146, types: exactly folders are shown as directories. -/
theorem C146_type (s : Source) (protocol path : Str) (e : Item) (h : info s protocol path = .ok e) :
    e.name = path ∧ (e.directory = true ↔ e.mode / 4096 % 16 = 4) := by
  unfold info at h
  cases hf : find s protocol path with
  | error x => rw [hf] at h; cases h
  | ok i =>
    rw [hf] at h
    injection h with h
    subst h
    exact ⟨rfl, toItem_type path i⟩

/-- C145: only reading is possible. -/
theorem C145_mode (s : Source) (protocol path mode : Str) (h : mode ≠ "rb".toList) : open_ s protocol path mode = .error .valueError := by
  unfold open_
  rw [if_pos h]

/-- A tree with the files `foo` and `a`. -/
def sample (asDict : Bool) : Source where
  id := 0
  immutable := true
  lookup := fun path _ => if names path = ["foo".toList] then some ⟨0o100644, [], 1, []⟩
    else if names path = ["a".toList] then some ⟨0o100644, [], 2, []⟩
    else if names path = ["d".toList, "x".toList] then some ⟨0o100644, [], 3, []⟩
    else if names path = ["d".toList] then some ⟨0o40755, [], 4, []⟩ else none
  versions := fun _ => 1
  list := fun path => if names path = [] then
      (if asDict then some (.dict [("foo".toList, ⟨0o100644, [], 1, []⟩), ("a".toList, ⟨0o100644, [], 2, []⟩), ("d".toList, ⟨0o40755, [], 4, []⟩)])
        else some (.names ["foo".toList, "a".toList, "d".toList]))
    else if names path = ["d".toList] then
      (if asDict then some (.dict [("x".toList, ⟨0o100644, [], 3, []⟩)]) else some (.names ["x".toList])) else none
  listMode := fun _ => none

theorem sample_lawful : Lawful (sample true) where
  spelled := by
    intro p q h
    simp only [sample, h]
  listed := by
    intro p d n i h hm
    simp only [sample, if_true] at h ⊢
    split at h
    · rename_i hp
      have hd := Listing.dict.inj (Option.some.inj h)
      subst hd
      rw [hp]
      simp only [List.mem_cons, Prod.mk.injEq, List.not_mem_nil, or_false] at hm
      rcases hm with ⟨rfl, rfl⟩ | ⟨rfl, rfl⟩ | ⟨rfl, rfl⟩
      · exact ⟨by decide, by decide, fun q hq => ⟨_, by rw [hq]; rfl, rfl, rfl⟩⟩
      · exact ⟨by decide, by decide, fun q hq => ⟨_, by rw [hq]; rfl, rfl, rfl⟩⟩
      · exact ⟨by decide, by decide, fun q hq => ⟨_, by rw [hq]; rfl, rfl, rfl⟩⟩
    · split at h
      · rename_i _ hp
        have hd := Listing.dict.inj (Option.some.inj h)
        subst hd
        rw [hp]
        simp only [List.mem_cons, Prod.mk.injEq, List.not_mem_nil, or_false] at hm
        obtain ⟨rfl, rfl⟩ := hm
        exact ⟨by decide, by decide, fun q hq => ⟨_, by rw [hq]; rfl, rfl, rfl⟩⟩
      · cases h
  complete := by
    intro p d n q j h hq hj
    simp only [sample, if_true, hq] at h hj
    split at h
    · rename_i hp
      rw [hp] at hj
      rw [← Listing.dict.inj (Option.some.inj h)]
      try simp only [List.nil_append, List.cons.injEq, and_true] at hj
      split at hj
      · rename_i e; subst e; cases hj; exact ⟨_, List.mem_cons_self, rfl, rfl⟩
      · split at hj
        · rename_i e; subst e; cases hj; exact ⟨_, List.mem_cons_of_mem _ List.mem_cons_self, rfl, rfl⟩
        · split at hj
          · rename_i e; simp at e
          · split at hj
            · rename_i e; subst e; cases hj; exact ⟨_, List.mem_cons_of_mem _ (List.mem_cons_of_mem _ List.mem_cons_self), rfl, rfl⟩
            · cases hj
    · split at h
      · rename_i _ hp
        rw [hp] at hj
        rw [← Listing.dict.inj (Option.some.inj h)]
        try simp only [List.cons_append, List.nil_append, List.cons.injEq, and_true, true_and] at hj
        split at hj
        · rename_i e; simp at e
        · split at hj
          · rename_i e; simp at e
          · split at hj
            · rename_i e; subst e; cases hj; exact ⟨_, List.mem_cons_self, rfl, rfl⟩
            · split at hj
              · rename_i e; simp at e
              · cases hj
      · cases h

/-- C145 is violated: `ratar://foo` opens the file `a`. -/
theorem C145_violated : ¬ C145_statement := by
  intro h
  have := h (sample true) sample_lawful "ratar".toList "foo".toList
  have h1 : find (sample true) "ratar".toList ("ratar".toList ++ "://".toList ++ "foo".toList) = .ok ⟨0o100644, [], 2, []⟩ := by rfl
  have h2 : find (sample true) "ratar".toList "foo".toList = .ok ⟨0o100644, [], 1, []⟩ := by rfl
  rw [h1, h2] at this
  cases this

/-- C146 is violated for sources that list names: what is in a folder other than the root is not listed. -/
theorem C146_violated : ¬ C146_statement := by
  intro h
  have hl : ls (sample false) "ratar".toList "/d".toList = .ok [] := by rfl
  obtain ⟨e, he, _⟩ := h (sample false) "ratar".toList "/d".toList [] (by unfold Bare; decide) sample_lawful.spelled (by
    intro p m n hm hn q hq
    simp only [sample, hq] at hm ⊢
    simp only [Bool.false_eq_true, if_false] at hm
    split at hm
    · rename_i hp
      rw [hp]
      rw [← Option.some.inj hm] at hn
      simp only [Listing.keys, List.mem_cons, List.not_mem_nil, or_false] at hn
      rcases hn with rfl | rfl | rfl
      · exact ⟨_, rfl⟩
      · exact ⟨_, rfl⟩
      · exact ⟨_, rfl⟩
    · split at hm
      · rename_i _ hp
        rw [hp]
        rw [← Option.some.inj hm] at hn
        simp only [Listing.keys, List.mem_cons, List.not_mem_nil, or_false] at hn
        rw [hn]
        exact ⟨_, rfl⟩
      · cases hm) hl (.names ["x".toList]) "x".toList rfl List.mem_cons_self
  cases he

/-- The hypotheses of `C146_partial` can be met. -/
example : ∃ l, ls (sample true) "ratar".toList "/d/".toList = .ok l ∧ ∃ e ∈ l, names e.name = ["d".toList, "x".toList] ∧ e.rest = 3 := by
  obtain ⟨l, h1, _, h3⟩ := C146_partial (sample true) sample_lawful "ratar".toList "/d/".toList _ (by unfold Bare; decide)
    (by
      intro n hn
      obtain ⟨t, ht⟩ := hn
      cases ht) rfl
  obtain ⟨e, he, hn, _, hr⟩ := h3 "/d/x".toList "x".toList _ rfl rfl
  exact ⟨l, h1, e, he, hn, hr⟩

/-! ### opening archives -/

/-- C147, file objects: they are used, with the given options. -/
theorem C147_object (t : Option Str) (given : Bool) (o : Opts) : ∃ r, init .object t given o = .ok r ∧ r.fileObject = true ∧
    r.tarFileName = o.tarFileName ∧ r.indexFilePath = o.indexFilePath ∧ r.writeIndex = o.writeIndex := ⟨_, rfl, rfl, rfl, rfl, rfl⟩

/-- C147, other protocols: the opened file is used, with the given options. -/
theorem C147_remote (p t : Str) (o : Opts) (h : t ≠ []) (hf : t ≠ "file".toList) : ∃ r, init (.path p) (some t) true o = .ok r ∧
    r.fileObject = true ∧ r.tarFileName = o.tarFileName ∧ r.indexFilePath = o.indexFilePath ∧ r.writeIndex = o.writeIndex := by
  cases t with
  | nil => exact absurd rfl h
  | cons c cs =>
    refine ⟨{ fileOpts o p (c :: cs) with fileObject := true }, rfl, rfl, ?_⟩
    unfold fileOpts
    rw [if_neg hf]
    exact ⟨rfl, rfl, rfl⟩

/-- C147: what is given explicitly is kept, a path of a local file makes the index be found and stored beside it. -/
theorem C147_partial (p : Str) (t : Option Str) (o : Opts) : ∃ r, init (.path p) t true o = .ok r ∧
    (∀ b, o.writeIndex = some b → r.writeIndex = some b) ∧ (∀ q, o.indexFilePath = some q → r.indexFilePath = some q) ∧
    (t = none → r.tarFileName = some p ∧ r.fileObject = o.fileObject ∧ (o.writeIndex = none → r.writeIndex = some true) ∧ r.indexFilePath = o.indexFilePath) ∧
    (t = some "file".toList → r.tarFileName = some p ∧ r.fileObject = true ∧ (o.writeIndex = none → r.writeIndex = some true) ∧
      (o.indexFilePath = none → r.indexFilePath = some (p ++ ".index.sqlite".toList))) := by
  cases t with
  | none =>
    refine ⟨_, rfl, ?_, fun q h => h, fun _ => ⟨rfl, rfl, ?_, rfl⟩, fun h => by cases h⟩
    · intro b h; simp [h, orTrue]
    · intro h; simp [h, orTrue]
  | some t =>
    cases t with
    | nil =>
      refine ⟨_, rfl, ?_, fun q h => h, (fun h => by cases h), (fun h => by cases h)⟩
      intro b h; simp [h, orTrue]
    | cons c cs =>
      refine ⟨{ fileOpts o p (c :: cs) with fileObject := true }, rfl, ?_, ?_, (fun h => by cases h), ?_⟩
      · intro b h
        unfold fileOpts
        split
        · simp [h, orTrue]
        · exact h
      · intro q h
        unfold fileOpts
        split
        · simp [h]
        · exact h
      · intro h
        rw [Option.some.inj h]
        unfold fileOpts
        rw [if_pos rfl]
        refine ⟨rfl, rfl, ?_, ?_⟩
        · intro h; simp [h, orTrue]
        · intro h; simp [h]

/-- C147 is violated: a protocol without options for it fails. -/
theorem C147_violated : ¬ C147_statement := by
  intro h
  obtain ⟨r, hr⟩ := h "a.tar".toList (some "file".toList) false ⟨none, none, none, false⟩
  cases hr

/-- What the index of a chained URL is. -/
example : init (.path "a.tar".toList) (some "file".toList) true ⟨none, none, none, false⟩ =
    .ok ⟨some "a.tar".toList, some "a.tar.index.sqlite".toList, some true, true⟩ := by rfl

end Verif.Adaptor
