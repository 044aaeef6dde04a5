import Verif.Compose.Union
import Verif.Py

/-!
# C148, C149: remote folders
(core/ratarmountcore/mountsource/formats/fsspec.py:72-310)

The file system of the library is given by what its functions answer. The contents of files are not modelled; times are numbers, and parsing
`modify` is left to the library.
-/

namespace Verif.Fsspec

open Verif.Py Verif.Index Verif.Compose

/-- What `info` and `listdir` tell about a file (fsspec.py:139-142, 155-170, 199-225); `directory` is `entry.get('type', '') == 'directory'`,
`modify` is the parsed `entry['modify']` if it is a string. -/
structure Entry where
  name : Str
  directory : Bool
  size : Option Nat
  mtime : Option Nat
  modify : Option Nat
  deriving DecidableEq, Repr

/-- A file system (fsspec.py:78-107). -/
structure FS where
  lexists : Str → Bool
  isdir : Str → Bool
  info : Str → Except PyErr Entry
  listdir : Str → Except PyErr (List Entry)
  http : Bool
  requireQuoting : Bool
  withoutLeadingSlash : Bool
  dropbox : Bool
  quote : Str → Str
  unquote : Str → Str
  -- `get_userid()` and `get_groupid()`
  uid : Nat
  gid : Nat

/-- `s.strip('/')` (Python library, used at fsspec.py:104, 226-234). -/
def strip (s : Str) : Str := rstrip '/' (lstrip '/' s)

/-- The prefix kept by `__init__` (fsspec.py:104). -/
def keepPrefix (f : FS) : Option Str → Option Str
  | none => none
  | some p => if p ≠ [] ∧ strip p ≠ [] ∧ f.isdir p = true then some (rstrip '/' p) else none

/-- The path as the file system wants it quoted (fsspec.py:110-111). -/
def quoted (f : FS) (path : Str) : Str := if f.requireQuoting then f.quote path else path

/-- The end of `_get_path`, without a prefix (fsspec.py:116-126). -/
def getBare (f : FS) (path : Str) : Str :=
  if f.withoutLeadingSlash then lstrip '/' path
  else if f.lexists path = false ∧ f.lexists (lstrip '/' path) = true then lstrip '/' path else path

/-- `_get_path` with a prefix (fsspec.py:112-115). -/
def getPrefixed (pre path : Str) : Str := if path = [] ∨ path = ['/'] then pre else rstrip '/' pre ++ '/' :: lstrip '/' path

/-- `_get_path` (fsspec.py:109-126). -/
def getPath (f : FS) (pre : Option Str) (path : Str) : Str :=
  match pre with
  | some p => if p = [] then getBare f (quoted f path) else getPrefixed p (quoted f path)
  | none => getBare f (quoted f path)

/-- A file as it is shown (fsspec.py:155-171); `path` is the entry of `userdata`. -/
structure Info where
  mode : Nat
  size : Nat
  mtime : Nat
  linkname : Str
  uid : Nat
  gid : Nat
  path : Str
  deriving DecidableEq, Repr

/-- `_get_mode` (fsspec.py:128-130). -/
def getMode (e : Entry) : Nat := 0o555 ||| (if e.directory then 0x4000 else 0x8000)

/-- `_get_modification_time` (fsspec.py:132-149). -/
def modified (e : Entry) : Nat :=
  match e.mtime with
  | some t => t
  | none => match e.modify with
    | some t => t
    | none => 0

/-- `_convert_to_file_info` (fsspec.py:152-171). -/
def convert (f : FS) (e : Entry) (path : Str) : Info := ⟨getMode e, e.size.getD 0, modified e, [], f.uid, f.gid, path⟩

/-- The name of an entry in a listing (fsspec.py:226-234). -/
def listName (stripped name : Str) : Str :=
  if startsWith stripped (strip name) then strip ((strip name).drop stripped.length) else name

/-- The dictionary of a listing (fsspec.py:227-241). -/
def listDict (f : FS) (stripped : Str) (es : List Entry) : Dict Str Info :=
  es.foldl (fun d e => Dict.set d (listName stripped e.name) (convert f e e.name)) []

/-- `if '' in result: del result['']` (fsspec.py:252-253). -/
def dropSelf (d : Dict Str Info) : Dict Str Info := Dict.del d []

/-- The last step for HTTP (fsspec.py:255-260). -/
def httpNames (f : FS) (d : Dict Str Info) : Dict Str Info :=
  if f.http then
    (d.filter (fun e => !(startsWith ['?'] e.1 || startsWith ['#'] e.1))).foldl (fun r e => Dict.set r (f.unquote e.1) e.2) []
  else d

/-- The path that is listed (fsspec.py:180-188). -/
def listPath (f : FS) (path : Str) : Str := if path = ['/'] ∧ f.dropbox = true then [] else path

/-- `_list` after `listdir` (fsspec.py:190-262). -/
def listResult (f : FS) (p : Str) : List Entry → Dict Str Info
  | [] => []
  | es => httpNames f (dropSelf (listDict f (lstrip '/' p) es))

/-- `list` (fsspec.py:177-266). A result is never `None`; an empty list of names is an empty dictionary here. -/
def list (f : FS) (pre : Option Str) (path : Str) : Except PyErr (Dict Str Info) :=
  match f.listdir (listPath f (getPath f pre path)) with
  | .error e => .error e
  | .ok es => .ok (listResult f (listPath f (getPath f pre path)) es)

/-- `rootFileInfo` (fsspec.py:94, 300). -/
def root (f : FS) : Info := ⟨0o40777, 0, 0, [], f.uid, f.gid, ['/']⟩

/-- `lookup` (fsspec.py:292-306), not for HTTP. -/
def lookup (f : FS) (pre : Option Str) (path : Str) : Except PyErr (Option Info) :=
  if getPath f pre path = ['/'] ∨ getPath f pre path = [] then .ok (some (root f))
  else if f.lexists (getPath f pre path) = false then .ok none
  else match f.info (getPath f pre path) with
    | .error e => .error e
    | .ok e => .ok (some (convert f e (getPath f pre path)))

/-- `_lookup_http` (fsspec.py:274-289); `html` tells whether the MIME type is that of a page. -/
def lookupHttp (f : FS) (html : Str → Bool) (pre : Option Str) (path : Str) : Except PyErr (Option Info) :=
  if f.lexists (getPath f pre path) = false then .ok none
  else match f.info (getPath f pre path) with
    | .error e => .error e
    | .ok e =>
      if html (getPath f pre path) = true ∧ f.isdir (getPath f pre path) = true then
        .ok (some (convert f ⟨[], true, none, none, none⟩ (getPath f pre path)))
      else .ok (some (convert f e (getPath f pre path)))

/-- `exists` (fsspec.py:173-175). -/
def exists_ (f : FS) (pre : Option Str) (path : Str) : Bool := f.lexists (getPath f pre path)

/-- `UnionMountSource._list` over the names in the folder (union.py:152-177); what a source raises is passed on. -/
def unionNames (path : Str) : List (Str → Except PyErr (Option (List Str))) → Except PyErr (Option (List Str))
  | [] => .ok none
  | s :: ss => match s path with
    | .error e => .error e
    | .ok r => match unionNames path ss with
      | .error e => .error e
      | .ok none => .ok r
      | .ok (some l) => .ok (some (r.getD [] ++ l))

/-! ## Specification -/

/-- What is known about a file on the remote side. -/
structure Meta where
  directory : Bool
  size : Nat
  mtime : Nat
  deriving DecidableEq, Repr

/-- A remote tree: what is at a sequence of names. -/
abbrev Tree := List Str → Option Meta

/-- An entry of the library tells about a file; missing sizes and times are 0. -/
def Tells (e : Entry) (m : Meta) : Prop := e.directory = m.directory ∧ e.size.getD 0 = m.size ∧ (e.mtime.or e.modify).getD 0 = m.mtime

/-- A file is shown with its type, size and time, as belonging to the user, and can be read by everyone. It is no link. -/
def Shows (f : FS) (i : Info) (m : Meta) : Prop :=
  i.mode = (if m.directory then 0o40555 else 0o100555) ∧ i.size = m.size ∧ i.mtime = m.mtime ∧ i.linkname = [] ∧ i.uid = f.uid ∧ i.gid = f.gid

/-- The file system serves the tree; `sp` is how paths are written. Listings may spell paths with or without slashes around them, and may
contain the folder itself. -/
structure Serves (f : FS) (T : Tree) (sp : List Str → Str) : Prop where
  found : ∀ ns, (∀ n ∈ ns, IsName n) → ns ≠ [] → f.lexists (sp ns) = (T ns).isSome
  told : ∀ ns m, (∀ n ∈ ns, IsName n) → ns ≠ [] → T ns = some m → ∃ e, f.info (sp ns) = .ok e ∧ Tells e m
  listed : ∀ ns m, (∀ n ∈ ns, IsName n) → T ns = some m → m.directory = true → ∃ es, f.listdir (sp ns) = .ok es ∧
    (∀ e ∈ es, strip e.name = join '/' ns ∨ ∃ n m', IsName n ∧ T (ns ++ [n]) = some m' ∧ Tells e m' ∧ strip e.name = join '/' (ns ++ [n])) ∧
    ∀ n m', IsName n → T (ns ++ [n]) = some m' → ∃ e ∈ es, strip e.name = join '/' (ns ++ [n])

/-- How Dropbox wants its paths: the root is empty. -/
def dropboxPath (ns : List Str) : Str := if ns = [] then [] else canonical ns

/-- How the paths of a mount are written: with a prefix, without leading slashes (known for GitHub, or found out by trying), or with;
and those of Dropbox. -/
inductive Style (f : FS) : (pre : Option Str) → (base : List Str) → (sp : List Str → Str) → Prop where
  | slashPrefix (base : List Str) (h : base ≠ []) (hn : ∀ n ∈ base, IsName n) : Style f (some (canonical base)) base canonical
  | barePrefix (base : List Str) (h : base ≠ []) (hn : ∀ n ∈ base, IsName n) : Style f (some (join '/' base)) base (join '/')
  | github (h : f.withoutLeadingSlash = true) (hd : f.dropbox = false) : Style f none [] (join '/')
  | bare (h : f.withoutLeadingSlash = false) (hd : f.dropbox = false) (h1 : ∀ ns, (∀ n ∈ ns, IsName n) → f.lexists (canonical ns) = false) (h2 : f.lexists [] = true) :
    Style f none [] (join '/')
  | slash (h : f.withoutLeadingSlash = false) (hd : f.dropbox = false) (h1 : ∀ ns, (∀ n ∈ ns, IsName n) → f.lexists (join '/' ns) = f.lexists (canonical ns)) : Style f none [] canonical
  | dropbox (h : f.withoutLeadingSlash = false) (hd : f.dropbox = true) (h1 : ∀ ns, ns ≠ [] → (∀ n ∈ ns, IsName n) → f.lexists (join '/' ns) = false) :
    Style f none [] dropboxPath

/-- The address of something below a URL: every name is quoted. -/
def address (url : Str) (quote : Str → Str) : List Str → Str
  | [] => url
  | n :: ns => address (url ++ '/' :: quote n) quote ns

/-- Quoting works name by name and can be undone; quoted names do not look like queries or fragments. -/
structure Quoting (f : FS) : Prop where
  names : ∀ ns, (∀ n ∈ ns, IsName n) → f.quote (canonical ns) = canonical (ns.map f.quote)
  name : ∀ n, IsName n → IsName (f.quote n)
  undone : ∀ n, IsName n → f.unquote (f.quote n) = n
  plain : ∀ n, IsName n → startsWith ['?'] (f.quote n) = false ∧ startsWith ['#'] (f.quote n) = false

/-- A web server: pages of folders link to what is in them, to themselves and to pages that differ in queries and fragments. Sizes and
times of folders are not known. -/
structure ServesHttp (f : FS) (html : Str → Bool) (T : Tree) (url : Str) : Prop where
  found : ∀ ns, (∀ n ∈ ns, IsName n) → f.lexists (address url f.quote ns) = (T ns).isSome
  folder : ∀ ns m, (∀ n ∈ ns, IsName n) → T ns = some m → (html (address url f.quote ns) && f.isdir (address url f.quote ns)) = m.directory
  told : ∀ ns m, (∀ n ∈ ns, IsName n) → T ns = some m → ∃ e, f.info (address url f.quote ns) = .ok e ∧ (m.directory = false → Tells e m)
  listed : ∀ ns m, (∀ n ∈ ns, IsName n) → T ns = some m → m.directory = true → ∃ es, f.listdir (address url f.quote ns) = .ok es ∧
    (∀ e ∈ es, strip e.name = address url f.quote ns ∨
      (∃ rest, strip e.name = address url f.quote ns ++ '/' :: rest ∧ (startsWith ['?'] (strip rest) ∨ startsWith ['#'] (strip rest)) ∧ strip rest = rest) ∨
      ∃ n m', IsName n ∧ T (ns ++ [n]) = some m' ∧ Tells e m' ∧ strip e.name = address url f.quote (ns ++ [n])) ∧
    ∀ n m', IsName n → T (ns ++ [n]) = some m' → ∃ e ∈ es, strip e.name = address url f.quote (ns ++ [n])

/-- The contract of `list`: there is no listing exactly if there is no folder. -/
def C149_statement : Prop :=
  ∀ (f : FS) (T : Tree), Serves f T canonical → Style f none [] canonical → f.http = false → f.requireQuoting = false → f.dropbox = false →
    ∀ (others : List (Str → Except PyErr (Option (List Str)))) (ns : List Str), (∀ n ∈ ns, IsName n) →
    (∀ s ∈ others, ∃ r, s (canonical ns) = .ok r) →
    ∃ r, unionNames (canonical ns) (others ++ [fun path => (list f none path).map (fun d => some d.keys)]) = .ok r

/-! ## Proofs -/

theorem lstrip_of_head {s : Str} (h : s.head? ≠ some '/') : lstrip '/' s = s := by
  unfold lstrip
  cases s with
  | nil => rfl
  | cons x s =>
    rw [List.dropWhile_cons_of_neg]
    simp only [decide_eq_true_eq]
    intro hx
    exact h (by rw [hx]; rfl)

theorem rstrip_of_last {s : Str} (h : s.getLast? ≠ some '/') : rstrip '/' s = s := by
  unfold rstrip
  have := lstrip_of_head (s := s.reverse) (by rw [List.head?_reverse]; exact h)
  unfold lstrip at this
  rw [this, List.reverse_reverse]

theorem join_lstrip (ns : List Str) (h : ∀ n ∈ ns, IsName n) : lstrip '/' (join '/' ns) = join '/' ns :=
  lstrip_of_head (join_head ns (fun n hn => ⟨(h n hn).1, (h n hn).2.1⟩))

theorem canonical_lstrip (ns : List Str) (h : ∀ n ∈ ns, IsName n) : lstrip '/' (canonical ns) = join '/' ns := by
  cases ns with
  | nil => rfl
  | cons n ns =>
    show lstrip '/' ('/' :: join '/' (n :: ns)) = _
    unfold lstrip
    rw [List.dropWhile_cons_of_pos (by simp)]
    exact join_lstrip (n :: ns) h

theorem join_ne_nil (ns : List Str) (hne : ns ≠ []) (h : ∀ n ∈ ns, IsName n) : join '/' ns ≠ [] := by
  cases ns with
  | nil => exact absurd rfl hne
  | cons n ns =>
    have hn := (h n List.mem_cons_self).1
    cases ns with
    | nil => exact hn
    | cons m ms => simp [join, hn]

theorem join_append (a b : List Str) (ha : a ≠ []) (hb : b ≠ []) : join '/' (a ++ b) = join '/' a ++ '/' :: join '/' b := by
  induction a with
  | nil => exact absurd rfl ha
  | cons x a ih =>
    cases a with
    | nil =>
      cases b with
      | nil => exact absurd rfl hb
      | cons y b => rfl
    | cons y a =>
      rw [List.cons_append, List.cons_append, show join '/' (x :: y :: (a ++ b)) = x ++ '/' :: join '/' (y :: a ++ b) from rfl,
        ih (by simp)]
      simp [join]

theorem name_strip {n : Str} (h : IsName n) : strip n = n := by
  unfold strip
  have h1 : n.head? ≠ some '/' := by
    intro hh
    exact h.2.1 (List.mem_of_mem_head? (by rw [hh]; rfl))
  rw [lstrip_of_head h1, rstrip_of_last]
  intro hh
  exact h.2.1 (List.mem_of_getLast? hh)

theorem slash_name_strip {n : Str} (h : IsName n) : strip ('/' :: n) = n := by
  have : lstrip '/' ('/' :: n) = lstrip '/' n := by
    unfold lstrip
    rw [List.dropWhile_cons_of_pos (by simp)]
  unfold strip
  rw [this]
  exact name_strip h

/-- The name of a listed entry. -/
theorem listName_child (ns : List Str) (n : Str) (hn : IsName n) (name : Str) (h : strip name = join '/' (ns ++ [n])) :
    listName (join '/' ns) name = n := by
  unfold listName
  rw [h]
  cases ns with
  | nil =>
    rw [if_pos (by rfl)]
    show strip n = n
    exact name_strip hn
  | cons x ns =>
    rw [join_append_single (x :: ns) n (by simp)]
    have : startsWith (join '/' (x :: ns)) (join '/' (x :: ns) ++ '/' :: n) = true := by
      unfold startsWith
      exact List.isPrefixOf_iff_prefix.mpr ⟨_, rfl⟩
    rw [if_pos this, List.drop_left]
    exact slash_name_strip hn

theorem listName_self (ns : List Str) (name : Str) (h : strip name = join '/' ns) : listName (join '/' ns) name = [] := by
  unfold listName
  rw [h]
  have : startsWith (join '/' ns) (join '/' ns) = true := by
    unfold startsWith
    exact List.isPrefixOf_iff_prefix.mpr ⟨[], by simp⟩
  rw [if_pos this, List.drop_length]
  rfl

theorem foldl_set_get {α : Type} (key : α → Str) (value : α → Info) : ∀ (es : List α) (d : Dict Str Info) (k : Str),
    Dict.get? (es.foldl (fun d e => Dict.set d (key e) (value e)) d) k =
      match (es.filter (fun e => decide (key e = k))).getLast? with
      | some e => some (value e)
      | none => Dict.get? d k := by
  intro es
  induction es with
  | nil => intro d k; rfl
  | cons e es ih =>
    intro d k
    rw [List.foldl_cons, ih]
    by_cases h : key e = k
    · rw [List.filter_cons_of_pos (by simpa using h), List.getLast?_cons]
      cases (es.filter (fun e => decide (key e = k))).getLast? with
      | some x => rfl
      | none =>
        simp only [Option.getD_none]
        rw [Dict.get?_set, if_pos h]
    · rw [List.filter_cons_of_neg (by simpa using h)]
      cases (es.filter (fun e => decide (key e = k))).getLast? with
      | some x => rfl
      | none =>
        simp only
        rw [Dict.get?_set, if_neg h]

theorem foldl_set_nodup {α : Type} (key : α → Str) (value : α → Info) : ∀ (es : List α) (d : Dict Str Info), d.keys.Nodup →
    (Dict.keys (es.foldl (fun d e => Dict.set d (key e) (value e)) d)).Nodup := by
  intro es
  induction es with
  | nil => intro d h; exact h
  | cons e es ih => intro d h; exact ih _ (Dict.nodup_set d h _ _)

theorem listResult_get (f : FS) (hf : f.http = false) (p : Str) (es : List Entry) (k : Str) (hk : k ≠ []) :
    Dict.get? (listResult f p es) k =
      ((es.filter (fun e => decide (listName (lstrip '/' p) e.name = k))).getLast?).map (fun e => convert f e e.name) := by
  cases es with
  | nil => rfl
  | cons e es =>
    show Dict.get? (httpNames f (dropSelf (listDict f (lstrip '/' p) (e :: es)))) k = _
    unfold httpNames dropSelf
    rw [hf, if_neg (by simp)]
    unfold listDict
    rw [Dict.get?_del _ (foldl_set_nodup _ _ _ _ (by simp [Dict.keys])), if_neg (fun h => hk h.symm),
      foldl_set_get (fun e : Entry => listName (lstrip '/' p) e.name) (fun e : Entry => convert f e e.name)]
    cases ((e :: es).filter (fun e => decide (listName (lstrip '/' p) e.name = k))).getLast? <;> rfl

theorem listResult_nil (f : FS) (hf : f.http = false) (p : Str) (es : List Entry) : Dict.get? (listResult f p es) [] = none := by
  cases es with
  | nil => rfl
  | cons e es =>
    show Dict.get? (httpNames f (dropSelf (listDict f (lstrip '/' p) (e :: es)))) [] = _
    unfold httpNames dropSelf
    rw [hf, if_neg (by simp)]
    unfold listDict
    rw [Dict.get?_del _ (foldl_set_nodup _ _ _ _ (by simp [Dict.keys])), if_pos rfl]

theorem convert_shows {f : FS} {e : Entry} {m : Meta} (h : Tells e m) (path : Str) : Shows f (convert f e path) m := by
  obtain ⟨h1, h2, h3⟩ := h
  refine ⟨?_, h2, ?_, rfl, rfl, rfl⟩
  · show getMode e = _
    unfold getMode
    rw [h1]
    cases m.directory <;> rfl
  · show modified e = _
    rw [← h3]
    unfold modified
    cases e.mtime <;> cases e.modify <;> rfl

theorem style_lstrip {f : FS} {pre : Option Str} {base : List Str} {sp : List Str → Str} (h : Style f pre base sp) (ns : List Str)
    (hn : ∀ n ∈ ns, IsName n) : lstrip '/' (sp ns) = join '/' ns := by
  cases h with
  | slashPrefix => exact canonical_lstrip ns hn
  | slash => exact canonical_lstrip ns hn
  | barePrefix => exact join_lstrip ns hn
  | github => exact join_lstrip ns hn
  | bare => exact join_lstrip ns hn
  | dropbox =>
    unfold dropboxPath
    split
    · rename_i h; rw [h]; rfl
    · exact canonical_lstrip ns hn

theorem canonical_eq_slash (ns : List Str) (h : ∀ n ∈ ns, IsName n) : (canonical ns = [] ∨ canonical ns = ['/']) ↔ ns = [] := by
  cases ns with
  | nil => simp [canonical]
  | cons n ns =>
    have := join_ne_nil (n :: ns) (by simp) h
    simp [canonical, this]

theorem canonical_rstrip (base : List Str) (h : base ≠ []) (hn : ∀ n ∈ base, IsName n) : rstrip '/' (canonical base) = canonical base := by
  refine rstrip_of_last ?_
  rw [canonical_eq, List.getLast?_cons]
  have := getLast_join base h hn
  cases hg : (join '/' base).getLast? with
  | none => exact absurd (List.getLast?_eq_none_iff.mp hg) (join_ne_nil base h hn)
  | some c => rw [hg] at this; simpa using this

theorem getPrefixed_eq (base ns : List Str) (hb : base ≠ []) (hbn : ∀ n ∈ base, IsName n) (hn : ∀ n ∈ ns, IsName n) :
    getPrefixed (canonical base) (canonical ns) = canonical (base ++ ns) ∧ getPrefixed (join '/' base) (canonical ns) = join '/' (base ++ ns) := by
  unfold getPrefixed
  cases ns with
  | nil => rw [if_pos (by simp [canonical]), if_pos (by simp [canonical]), List.append_nil]; exact ⟨rfl, rfl⟩
  | cons n ns =>
    have h0 : ¬ (canonical (n :: ns) = [] ∨ canonical (n :: ns) = ['/']) := by
      rw [canonical_eq_slash _ hn]; simp
    rw [if_neg h0, if_neg h0, canonical_lstrip _ hn, canonical_rstrip base hb hbn, rstrip_of_last (getLast_join base hb hbn),
      join_append base (n :: ns) hb (by simp)]
    refine ⟨?_, rfl⟩
    rw [canonical_eq, canonical_eq, join_append base (n :: ns) hb (by simp)]
    rfl

/-- The path that the file system gets for something that exists. -/
theorem getPath_found {f : FS} {T : Tree} {pre : Option Str} {base : List Str} {sp : List Str → Str} (hs : Serves f T sp) (h : Style f pre base sp)
    (hq : f.requireQuoting = false) (ns : List Str) (hn : ∀ n ∈ ns, IsName n) (hT : (T (base ++ ns)).isSome = true)
    (hne : f.dropbox = false ∨ ns ≠ []) : getPath f pre (canonical ns) = sp (base ++ ns) := by
  have hqq : quoted f (canonical ns) = canonical ns := by unfold quoted; rw [hq]; rfl
  unfold getPath
  rw [hqq]
  cases h with
  | slashPrefix base hb hbn =>
    simp only
    rw [if_neg (by intro hh; rw [canonical_eq] at hh; cases hh)]
    exact (getPrefixed_eq _ ns hb hbn hn).1
  | barePrefix base hb hbn =>
    simp only
    rw [if_neg (join_ne_nil _ hb hbn)]
    exact (getPrefixed_eq _ ns hb hbn hn).2
  | github h hd =>
    simp only [List.nil_append]
    unfold getBare
    rw [if_pos h, canonical_lstrip ns hn]
  | bare h hd h1 h2 =>
    simp only [List.nil_append] at hT ⊢
    unfold getBare
    rw [if_neg (by simp [h]), canonical_lstrip ns hn, if_pos]
    refine ⟨h1 ns hn, ?_⟩
    cases ns with
    | nil => exact h2
    | cons n ns => rw [hs.found (n :: ns) hn (by simp)]; exact hT
  | slash h hd h1 =>
    simp only [List.nil_append]
    unfold getBare
    rw [if_neg (by simp [h]), canonical_lstrip ns hn, if_neg]
    rintro ⟨ha, hb⟩
    rw [h1 ns hn, ha] at hb
    cases hb
  | dropbox h hd h1 =>
    simp only [List.nil_append]
    have hne' : ns ≠ [] := by
      rcases hne with hne | hne
      · rw [hd] at hne; cases hne
      · exact hne
    unfold getBare dropboxPath
    rw [if_neg (by simp [h]), canonical_lstrip ns hn, if_neg, if_neg hne']
    rintro ⟨_, hb⟩
    rw [h1 ns hne' hn] at hb
    cases hb

/-- The path that is listed for something that exists. -/
theorem listPath_found {f : FS} {T : Tree} {pre : Option Str} {base : List Str} {sp : List Str → Str} (hs : Serves f T sp) (h : Style f pre base sp)
    (hq : f.requireQuoting = false) (ns : List Str) (hn : ∀ n ∈ base ++ ns, IsName n) (hT : (T (base ++ ns)).isSome = true) :
    listPath f (getPath f pre (canonical ns)) = sp (base ++ ns) := by
  have hn' : ∀ n ∈ ns, IsName n := fun n h => hn n (List.mem_append_right _ h)
  by_cases hd : f.dropbox = false
  · rw [getPath_found hs h hq ns hn' hT (Or.inl hd)]
    unfold listPath
    rw [if_neg (by simp [hd])]
  · by_cases hne : ns ≠ []
    · rw [getPath_found hs h hq ns hn' hT (Or.inr hne)]
      have hl := style_lstrip h (base ++ ns) hn
      unfold listPath
      rw [if_neg]
      rintro ⟨hh, _⟩
      rw [hh] at hl
      exact join_ne_nil _ (by simp [hne]) hn hl.symm
    · have hns := Classical.not_not.mp hne
      subst hns
      have hqq : quoted f (canonical []) = ['/'] := by unfold quoted; rw [hq]; rfl
      cases h with
      | github _ h => exact absurd h hd
      | bare _ h => exact absurd h hd
      | slash _ h => exact absurd h hd
      | slashPrefix base hb hbn =>
        unfold getPath
        rw [hqq]
        simp only
        rw [if_neg (by intro hh; rw [canonical_eq] at hh; cases hh), List.append_nil]
        show listPath f (canonical base) = _
        unfold listPath
        rw [if_neg]
        rintro ⟨hh, _⟩
        exact hb ((canonical_eq_slash base hbn).mp (Or.inr hh))
      | barePrefix base hb hbn =>
        unfold getPath
        rw [hqq]
        simp only
        rw [if_neg (join_ne_nil _ hb hbn), List.append_nil]
        show listPath f (join '/' base) = _
        unfold listPath
        rw [if_neg]
        rintro ⟨hh, _⟩
        have := getLast_join base hb hbn
        rw [hh] at this
        exact this rfl
      | dropbox hw hd' h1 =>
        unfold getPath
        rw [hqq]
        show listPath f (getBare f ['/']) = []
        unfold getBare
        rw [if_neg (by simp [hw])]
        split
        · rfl
        · unfold listPath
          rw [if_pos ⟨rfl, hd'⟩]

theorem getPath_missing {f : FS} {T : Tree} {pre : Option Str} {base : List Str} {sp : List Str → Str} (hs : Serves f T sp) (h : Style f pre base sp)
    (hq : f.requireQuoting = false) (ns : List Str) (hne : ns ≠ []) (hn : ∀ n ∈ ns, IsName n) (hT : T (base ++ ns) = none) :
    f.lexists (getPath f pre (canonical ns)) = false ∧ getPath f pre (canonical ns) ≠ ['/'] ∧ getPath f pre (canonical ns) ≠ [] := by
  have hqq : quoted f (canonical ns) = canonical ns := by unfold quoted; rw [hq]; rfl
  have hcan : ∀ ms : List Str, ms ≠ [] → (∀ n ∈ ms, IsName n) → canonical ms ≠ ['/'] ∧ canonical ms ≠ [] := by
    intro ms h1 h2
    exact ⟨fun hh => h1 ((canonical_eq_slash ms h2).mp (Or.inr hh)), fun hh => h1 ((canonical_eq_slash ms h2).mp (Or.inl hh))⟩
  have hjoin : ∀ ms : List Str, ms ≠ [] → (∀ n ∈ ms, IsName n) → join '/' ms ≠ ['/'] ∧ join '/' ms ≠ [] := by
    intro ms h1 h2
    refine ⟨fun hh => ?_, join_ne_nil ms h1 h2⟩
    have := getLast_join ms h1 h2
    rw [hh] at this
    exact this rfl
  unfold getPath
  rw [hqq]
  cases h with
  | slashPrefix base hb hbn =>
    simp only
    rw [if_neg (by intro hh; rw [canonical_eq] at hh; cases hh), (getPrefixed_eq _ ns hb hbn hn).1]
    have hall : ∀ n ∈ base ++ ns, IsName n := by
      intro n h; rcases List.mem_append.mp h with h | h
      · exact hbn n h
      · exact hn n h
    exact ⟨by rw [hs.found _ hall (by simp [hne]), hT]; rfl, hcan _ (by simp [hne]) hall⟩
  | barePrefix base hb hbn =>
    simp only
    rw [if_neg (join_ne_nil _ hb hbn), (getPrefixed_eq _ ns hb hbn hn).2]
    have hall : ∀ n ∈ base ++ ns, IsName n := by
      intro n h; rcases List.mem_append.mp h with h | h
      · exact hbn n h
      · exact hn n h
    exact ⟨by rw [hs.found _ hall (by simp [hne]), hT]; rfl, hjoin _ (by simp [hne]) hall⟩
  | github h hd =>
    simp only [List.nil_append] at hT ⊢
    unfold getBare
    rw [if_pos h, canonical_lstrip ns hn]
    exact ⟨by rw [hs.found _ hn hne, hT]; rfl, hjoin _ hne hn⟩
  | bare h hd h1 h2 =>
    simp only [List.nil_append] at hT ⊢
    unfold getBare
    rw [if_neg (by simp [h]), canonical_lstrip ns hn, if_neg]
    · exact ⟨h1 ns hn, hcan _ hne hn⟩
    · rintro ⟨_, hb⟩
      rw [hs.found _ hn hne, hT] at hb
      cases hb
  | slash h hd h1 =>
    simp only [List.nil_append] at hT ⊢
    unfold getBare
    rw [if_neg (by simp [h]), canonical_lstrip ns hn, if_neg]
    · exact ⟨by rw [hs.found _ hn hne, hT]; rfl, hcan _ hne hn⟩
    · rintro ⟨ha, hb⟩
      rw [h1 ns hn, ha] at hb
      cases hb
  | dropbox h hd h1 =>
    simp only [List.nil_append] at hT ⊢
    have hfound := hs.found _ hn hne
    unfold dropboxPath at hfound
    rw [if_neg hne, hT] at hfound
    unfold getBare
    rw [if_neg (by simp [h]), canonical_lstrip ns hn, if_neg]
    · exact ⟨hfound, hcan _ hne hn⟩
    · rintro ⟨_, hb⟩
      rw [h1 ns hne hn] at hb
      cases hb

/-- C148, listings: a folder lists exactly what is in it on the remote side, with type, size and time. -/
theorem C148_list (f : FS) (T : Tree) (pre : Option Str) (base : List Str) (sp : List Str → Str) (hs : Serves f T sp) (hst : Style f pre base sp)
    (hq : f.requireQuoting = false) (hh : f.http = false) (ns : List Str) (hn : ∀ n ∈ base ++ ns, IsName n) (m : Meta)
    (hT : T (base ++ ns) = some m) (hm : m.directory = true) : ∃ d, list f pre (canonical ns) = .ok d ∧
    (∀ n m', IsName n → T (base ++ ns ++ [n]) = some m' → ∃ i, d.get? n = some i ∧ Shows f i m') ∧
    ∀ n i, d.get? n = some i → IsName n ∧ ∃ m', T (base ++ ns ++ [n]) = some m' ∧ Shows f i m' := by
  have hpath := listPath_found hs hst hq ns hn (by rw [hT]; rfl)
  obtain ⟨es, h1, h2, h3⟩ := hs.listed (base ++ ns) m hn hT hm
  have hstrip := style_lstrip hst (base ++ ns) hn
  refine ⟨listResult f (sp (base ++ ns)) es, ?_, ?_, ?_⟩
  · unfold list
    rw [hpath, h1]
  · intro n m' hnm hT'
    rw [listResult_get f hh _ _ n hnm.1, hstrip]
    obtain ⟨e, he, hen⟩ := h3 n m' hnm hT'
    cases hg : (es.filter (fun e => decide (listName (join '/' (base ++ ns)) e.name = n))).getLast? with
    | none =>
      exfalso
      have := List.getLast?_eq_none_iff.mp hg
      have hmem : e ∈ es.filter (fun e => decide (listName (join '/' (base ++ ns)) e.name = n)) :=
        List.mem_filter.mpr ⟨he, by simpa using listName_child _ _ hnm _ hen⟩
      rw [this] at hmem
      cases hmem
    | some x =>
      obtain ⟨hx1, hx2⟩ := List.mem_filter.mp (List.mem_of_getLast? hg)
      simp only [decide_eq_true_eq] at hx2
      refine ⟨_, rfl, ?_⟩
      rcases h2 x hx1 with hself | ⟨n', m'', hn', hT'', ht, hx⟩
      · rw [listName_self _ _ hself] at hx2
        exact absurd hx2.symm hnm.1
      · rw [listName_child _ _ hn' _ hx] at hx2
        subst hx2
        rw [hT'] at hT''
        rw [Option.some.inj hT'']
        exact convert_shows ht _
  · intro n i hget
    have hne : n ≠ [] := by
      intro h
      rw [h, listResult_nil f hh] at hget
      cases hget
    rw [listResult_get f hh _ _ n hne, hstrip] at hget
    cases hg : (es.filter (fun e => decide (listName (join '/' (base ++ ns)) e.name = n))).getLast? with
    | none => rw [hg] at hget; cases hget
    | some x =>
      rw [hg] at hget
      simp only [Option.map_some, Option.some.injEq] at hget
      obtain ⟨hx1, hx2⟩ := List.mem_filter.mp (List.mem_of_getLast? hg)
      simp only [decide_eq_true_eq] at hx2
      rcases h2 x hx1 with hself | ⟨n', m'', hn', hT'', ht, hx⟩
      · rw [listName_self _ _ hself] at hx2
        exact absurd hx2.symm hne
      · rw [listName_child _ _ hn' _ hx] at hx2
        subst hx2
        exact ⟨hn', m'', hT'', by rw [← hget]; exact convert_shows ht _⟩

/-- C148, lookups: what is looked up is shown as it is on the remote side, and nothing else is found. -/
theorem C148_lookup (f : FS) (T : Tree) (pre : Option Str) (base : List Str) (sp : List Str → Str) (hs : Serves f T sp) (hst : Style f pre base sp)
    (hq : f.requireQuoting = false) (ns : List Str) (hne : ns ≠ []) (hn : ∀ n ∈ base ++ ns, IsName n) :
    (∀ m, T (base ++ ns) = some m → ∃ i, lookup f pre (canonical ns) = .ok (some i) ∧ Shows f i m) ∧
    (T (base ++ ns) = none → lookup f pre (canonical ns) = .ok none) ∧ exists_ f pre (canonical ns) = (T (base ++ ns)).isSome := by
  have hn' : ∀ n ∈ ns, IsName n := fun n h => hn n (List.mem_append_right _ h)
  have hne' : base ++ ns ≠ [] := by simp [hne]
  cases hT : T (base ++ ns) with
  | none =>
    obtain ⟨h1, h2, h3⟩ := getPath_missing hs hst hq ns hne hn' hT
    refine ⟨(fun m h => by cases h), (fun _ => ?_), h1⟩
    unfold lookup
    rw [if_neg (by simp [h2, h3]), if_pos h1]
  | some m =>
    have hpath := getPath_found hs hst hq ns hn' (by rw [hT]; rfl) (Or.inr hne)
    obtain ⟨e, he, ht⟩ := hs.told _ m hn hne' hT
    have hex : f.lexists (sp (base ++ ns)) = true := by rw [hs.found _ hn hne', hT]; rfl
    refine ⟨(fun m' hm' => ?_), (fun h => by cases h), by unfold exists_; rw [hpath, hex]; rfl⟩
    cases hm'
    refine ⟨convert f e (sp (base ++ ns)), ?_, convert_shows ht _⟩
    unfold lookup
    rw [hpath, if_neg, if_neg (by simp [hex]), he]
    rintro (h | h)
    · have := style_lstrip hst (base ++ ns) hn
      rw [h] at this
      exact join_ne_nil _ hne' hn this.symm
    · have := style_lstrip hst (base ++ ns) hn
      rw [h] at this
      exact join_ne_nil _ hne' hn this.symm

/-! ### HTTP -/

theorem address_append (url : Str) (q : Str → Str) : ∀ (a b : List Str), address url q (a ++ b) = address (address url q a) q b := by
  intro a
  induction a generalizing url with
  | nil => intro b; rfl
  | cons n a ih => intro b; exact ih _ b

theorem address_eq (q : Str → Str) : ∀ (ns : List Str) (url : Str), ns ≠ [] → address url q ns = url ++ '/' :: join '/' (ns.map q) := by
  intro ns
  induction ns with
  | nil => intro url h; exact absurd rfl h
  | cons n ns ih =>
    intro url _
    cases ns with
    | nil => rfl
    | cons m ms =>
      rw [address, ih _ (by simp)]
      simp [join]

theorem names_map {f : FS} (hq : Quoting f) {ns : List Str} (hn : ∀ n ∈ ns, IsName n) : ∀ n ∈ ns.map f.quote, IsName n := by
  intro n h
  obtain ⟨x, hx, rfl⟩ := List.mem_map.mp h
  exact hq.name x (hn x hx)

theorem getPath_http {f : FS} (hr : f.requireQuoting = true) (hq : Quoting f) (url : Str) (hu : url ≠ []) (hl : url.getLast? ≠ some '/')
    (ns : List Str) (hn : ∀ n ∈ ns, IsName n) : getPath f (some url) (canonical ns) = address url f.quote ns := by
  unfold getPath quoted
  simp only
  rw [if_neg hu, if_pos hr, hq.names ns hn]
  unfold getPrefixed
  cases ns with
  | nil => rw [if_pos (by simp [canonical])]; rfl
  | cons n ns =>
    rw [if_neg (by rw [canonical_eq_slash _ (names_map hq hn)]; simp), canonical_lstrip _ (names_map hq hn), rstrip_of_last hl,
      address_eq f.quote (n :: ns) url (by simp)]

theorem address_head (url : Str) (hu : url ≠ []) (hh : url.head? ≠ some '/') (q : Str → Str) (ns : List Str) :
    (address url q ns).head? ≠ some '/' ∧ address url q ns ≠ [] := by
  cases ns with
  | nil => exact ⟨hh, hu⟩
  | cons n ns =>
    rw [address_eq q (n :: ns) url (by simp)]
    cases url with
    | nil => exact absurd rfl hu
    | cons c url => exact ⟨hh, by simp⟩

/-- The name of an entry below a path. -/
theorem listName_below (p rest name : Str) (hrest : strip ('/' :: rest) = rest) (h : strip name = p ++ '/' :: rest) : listName p name = rest := by
  unfold listName
  have : startsWith p (strip name) = true := by
    unfold startsWith
    rw [h]
    exact List.isPrefixOf_iff_prefix.mpr ⟨_, rfl⟩
  rw [if_pos this, h, List.drop_left]
  exact hrest

theorem listName_same (p name : Str) (h : strip name = p) : listName p name = [] := by
  unfold listName
  have : startsWith p (strip name) = true := by
    unfold startsWith
    rw [h]
    exact List.isPrefixOf_iff_prefix.mpr ⟨[], by simp⟩
  rw [if_pos this, h, List.drop_length]
  rfl

theorem strip_slash (rest : Str) : strip ('/' :: rest) = strip rest := by
  unfold strip lstrip
  rw [List.dropWhile_cons_of_pos (by simp)]

/-- C148, quoting: where paths have to be quoted, everything is as without quoting at the quoted path. -/
theorem C148_quoted (f : FS) (hr : f.requireQuoting = true) (pre : Option Str) (path : Str) :
    lookup f pre path = lookup { f with requireQuoting := false } pre (f.quote path) ∧
    list f pre path = list { f with requireQuoting := false } pre (f.quote path) ∧
    exists_ f pre path = exists_ { f with requireQuoting := false } pre (f.quote path) := by
  have h : getPath f pre path = getPath { f with requireQuoting := false } pre (f.quote path) := by
    cases pre <;> simp [getPath, quoted, hr, getBare]
  refine ⟨?_, ?_, ?_⟩
  · unfold lookup
    rw [h]
    rfl
  · unfold list
    rw [h]
    rfl
  · unfold exists_
    rw [h]

/-- C148, HTTP: a folder lists exactly what is in it, by unquoted names; links to queries and fragments of the page are left out. -/
theorem C148_http_list (f : FS) (html : Str → Bool) (T : Tree) (url : Str) (hs : ServesHttp f html T url) (hq : Quoting f)
    (hr : f.requireQuoting = true) (hh : f.http = true) (hd : f.dropbox = false) (hu : url ≠ []) (hu1 : url.head? ≠ some '/')
    (hu2 : url.getLast? ≠ some '/') (ns : List Str) (hn : ∀ n ∈ ns, IsName n) (m : Meta) (hT : T ns = some m) (hm : m.directory = true) :
    ∃ d, list f (some url) (canonical ns) = .ok d ∧
    (∀ n m', IsName n → T (ns ++ [n]) = some m' → ∃ i, d.get? n = some i ∧ Shows f i m') ∧
    ∀ n i, d.get? n = some i → IsName n ∧ ∃ m', T (ns ++ [n]) = some m' ∧ Shows f i m' := by
  have hpath := getPath_http hr hq url hu hu2 ns hn
  obtain ⟨es, h1, h2, h3⟩ := hs.listed ns m hn hT hm
  generalize hp : address url f.quote ns = p at hpath h1 h2
  have hph : lstrip '/' p = p := by
    rw [← hp]
    exact lstrip_of_head (address_head url hu hu1 f.quote ns).1
  have hsub : ∀ n, address url f.quote (ns ++ [n]) = p ++ '/' :: f.quote n := by
    intro n
    rw [address_append, hp]
    rfl
  have hlp : listPath f p = p := by
    unfold listPath
    rw [if_neg (by simp [hd])]
  -- the names before unquoting
  let key : Entry → Str := fun e => listName p e.name
  let raw := es.foldl (fun d e => Dict.set d (key e) (convert f e e.name)) ([] : Dict Str Info)
  have hrawn : raw.keys.Nodup := foldl_set_nodup key _ es [] (by simp [Dict.keys])
  have hraw : ∀ k, raw.get? k = ((es.filter (fun e => decide (key e = k))).getLast?).map (fun e => convert f e e.name) := by
    intro k
    rw [show raw.get? k = _ from foldl_set_get key (fun e => convert f e e.name) es [] k]
    cases (es.filter (fun e => decide (key e = k))).getLast? <;> rfl
  have hkey : ∀ e ∈ es, key e = [] ∨ (startsWith ['?'] (key e) = true ∨ startsWith ['#'] (key e) = true) ∨
      ∃ n m', IsName n ∧ T (ns ++ [n]) = some m' ∧ Tells e m' ∧ key e = f.quote n := by
    intro e he
    rcases h2 e he with h | ⟨rest, ha, hb, hc⟩ | ⟨n, m', ha, hb, hc, hx⟩
    · exact Or.inl (listName_same p e.name h)
    · right; left
      have : key e = rest := listName_below p rest e.name (by rw [strip_slash, hc]) ha
      rw [this, ← hc]
      exact hb
    · right; right
      rw [hsub] at hx
      exact ⟨n, m', ha, hb, hc, listName_below p _ e.name (slash_name_strip (hq.name n ha)) hx⟩
  have hget : ∀ k i, raw.get? k = some i → ∃ e ∈ es, key e = k ∧ i = convert f e e.name := by
    intro k i hk
    rw [hraw] at hk
    cases hg : (es.filter (fun e => decide (key e = k))).getLast? with
    | none => rw [hg] at hk; cases hk
    | some x =>
      rw [hg] at hk
      obtain ⟨ha, hb⟩ := List.mem_filter.mp (List.mem_of_getLast? hg)
      exact ⟨x, ha, by simpa using hb, (Option.some.inj hk).symm⟩
  let kept := (Dict.del raw []).filter (fun e => !(startsWith ['?'] e.1 || startsWith ['#'] e.1))
  have hkept : ∀ k i, (k, i) ∈ kept ↔ raw.get? k = some i ∧ k ≠ [] ∧ startsWith ['?'] k = false ∧ startsWith ['#'] k = false := by
    intro k i
    have hdn := Dict.nodup_del raw hrawn []
    rw [List.mem_filter]
    constructor
    · rintro ⟨ha, hb⟩
      have := Dict.get?_eq_some_of_mem _ hdn ha
      rw [Dict.get?_del raw hrawn] at this
      split at this
      · cases this
      · rename_i hne
        simp only [Bool.not_eq_true', Bool.or_eq_false_iff] at hb
        exact ⟨this, fun hk => hne hk.symm, hb⟩
    · rintro ⟨ha, hb, hc, hd'⟩
      refine ⟨Dict.mem_of_get? _ ?_, by simp [hc, hd']⟩
      rw [Dict.get?_del raw hrawn, if_neg (fun hk => hb hk.symm)]
      exact ha
  have hname : ∀ k i, (k, i) ∈ kept → ∃ n m', IsName n ∧ T (ns ++ [n]) = some m' ∧ Shows f i m' ∧ k = f.quote n := by
    intro k i hki
    obtain ⟨ha, hb, hc, hd'⟩ := (hkept k i).mp hki
    obtain ⟨e, he, hke, hi⟩ := hget k i ha
    rcases hkey e he with h | (h | h) | ⟨n, m', hx1, hx2, hx3, hx4⟩
    · rw [hke] at h; exact absurd h hb
    · rw [hke, hc] at h; cases h
    · rw [hke, hd'] at h; cases h
    · exact ⟨n, m', hx1, hx2, by rw [hi]; exact convert_shows hx3 _, by rw [← hke]; exact hx4⟩
  let final := kept.foldl (fun r e => Dict.set r (f.unquote e.1) e.2) ([] : Dict Str Info)
  have hfinal : ∀ k, final.get? k = ((kept.filter (fun e => decide (f.unquote e.1 = k))).getLast?).map Prod.snd := by
    intro k
    rw [show final.get? k = _ from foldl_set_get (fun e : Str × Info => f.unquote e.1) (fun e => e.2) kept [] k]
    cases (kept.filter (fun e => decide (f.unquote e.1 = k))).getLast? <;> rfl
  have hres : listResult f p es = final := by
    cases es with
    | nil => rfl
    | cons e es =>
      show httpNames f (dropSelf (listDict f (lstrip '/' p) (e :: es))) = final
      rw [hph]
      unfold httpNames
      rw [if_pos hh]
      rfl
  refine ⟨final, ?_, ?_, ?_⟩
  · unfold list
    rw [hpath, hlp, h1]
    simp only
    rw [hres]
  · intro n m' hnm hT'
    rw [hfinal]
    obtain ⟨e, he, hen⟩ := h3 n m' hnm hT'
    rw [hsub] at hen
    have hek : key e = f.quote n := listName_below p _ e.name (slash_name_strip (hq.name n hnm)) hen
    have hsome : ∃ i, (f.quote n, i) ∈ kept := by
      have : ∃ i, raw.get? (f.quote n) = some i := by
        rw [hraw]
        cases hg : (es.filter (fun e => decide (key e = f.quote n))).getLast? with
        | none =>
          have := List.getLast?_eq_none_iff.mp hg
          have hmem : e ∈ es.filter (fun e => decide (key e = f.quote n)) := List.mem_filter.mpr ⟨he, by simpa using hek⟩
          rw [this] at hmem
          cases hmem
        | some x => exact ⟨_, rfl⟩
      obtain ⟨i, hi⟩ := this
      exact ⟨i, (hkept _ i).mpr ⟨hi, (hq.name n hnm).1, (hq.plain n hnm).1, (hq.plain n hnm).2⟩⟩
    obtain ⟨i, hi⟩ := hsome
    cases hg : (kept.filter (fun e => decide (f.unquote e.1 = n))).getLast? with
    | none =>
      have := List.getLast?_eq_none_iff.mp hg
      have hmem : (f.quote n, i) ∈ kept.filter (fun e => decide (f.unquote e.1 = n)) :=
        List.mem_filter.mpr ⟨hi, by simpa using hq.undone n hnm⟩
      rw [this] at hmem
      cases hmem
    | some x =>
      obtain ⟨ha, hb⟩ := List.mem_filter.mp (List.mem_of_getLast? hg)
      refine ⟨x.2, rfl, ?_⟩
      obtain ⟨n', m'', hx1, hx2, hx3, hx4⟩ := hname x.1 x.2 ha
      simp only [decide_eq_true_eq] at hb
      rw [hx4, hq.undone n' hx1] at hb
      subst hb
      rw [hT'] at hx2
      rw [Option.some.inj hx2]
      exact hx3
  · intro n i hi
    rw [hfinal] at hi
    cases hg : (kept.filter (fun e => decide (f.unquote e.1 = n))).getLast? with
    | none => rw [hg] at hi; cases hi
    | some x =>
      rw [hg] at hi
      obtain ⟨ha, hb⟩ := List.mem_filter.mp (List.mem_of_getLast? hg)
      obtain ⟨n', m'', hx1, hx2, hx3, hx4⟩ := hname x.1 x.2 ha
      simp only [decide_eq_true_eq] at hb
      rw [hx4, hq.undone n' hx1] at hb
      subst hb
      refine ⟨hx1, m'', hx2, ?_⟩
      rw [← Option.some.inj hi]
      exact hx3

/-- C148, HTTP: files are shown as they are; of folders the type is known. -/
theorem C148_http_lookup (f : FS) (html : Str → Bool) (T : Tree) (url : Str) (hs : ServesHttp f html T url) (hq : Quoting f)
    (hr : f.requireQuoting = true) (hu : url ≠ []) (hu2 : url.getLast? ≠ some '/') (ns : List Str) (hn : ∀ n ∈ ns, IsName n) :
    (∀ m, T ns = some m → ∃ i, lookupHttp f html (some url) (canonical ns) = .ok (some i) ∧
      (m.directory = false → Shows f i m) ∧ (m.directory = true → i.mode = 0o40555)) ∧
    (T ns = none → lookupHttp f html (some url) (canonical ns) = .ok none) := by
  unfold lookupHttp
  rw [getPath_http hr hq url hu hu2 ns hn, hs.found ns hn]
  constructor
  · intro m hT
    obtain ⟨e, he, ht⟩ := hs.told ns m hn hT
    have hf := hs.folder ns m hn hT
    rw [hT, if_neg (by simp), he]
    simp only
    cases hm : m.directory with
    | true =>
      rw [hm, Bool.and_eq_true] at hf
      rw [if_pos hf]
      exact ⟨_, rfl, fun h => absurd h (by simp), fun _ => rfl⟩
    | false =>
      rw [hm] at hf
      rw [if_neg (by rintro ⟨ha, hb⟩; rw [ha, hb] at hf; cases hf)]
      exact ⟨_, rfl, fun _ => convert_shows (ht hm) _, fun h => absurd h (by simp)⟩
  · intro hT
    rw [hT, if_pos (by rfl)]

/-- **C148** A prefix that is a folder is kept, and slashes at its end make no difference: the root is the folder itself, and everything
else is below it. A prefix that is no folder is ignored. -/
theorem C148_prefix (f : FS) (hq : f.requireQuoting = false) (p : Str) (k : Nat) (hp : p ≠ []) (hl : p.getLast? ≠ some '/')
    (hd : f.isdir (p ++ List.replicate k '/') = true) (path : Str) :
    getPath f (keepPrefix f (some (p ++ List.replicate k '/'))) ['/'] = p ∧
    getPath f (keepPrefix f (some (p ++ List.replicate k '/'))) [] = p ∧
    (path.head? ≠ some '/' → path ≠ [] → getPath f (keepPrefix f (some (p ++ List.replicate k '/'))) ('/' :: path) = p ++ '/' :: path) := by
  have hr : rstrip '/' (p ++ List.replicate k '/') = p := by
    unfold rstrip
    rw [List.reverse_append, List.reverse_replicate]
    have hd : ∀ k : Nat, (List.replicate k '/' ++ p.reverse).dropWhile (fun x => decide (x = '/')) = p.reverse := by
      intro k
      induction k with
      | zero =>
        cases hc : p.reverse with
        | nil => rfl
        | cons c s =>
          have : c ≠ '/' := by
            intro e
            apply hl
            rw [← List.head?_reverse, hc, e]
            rfl
          simp [this]
      | succ k ih =>
        rw [List.replicate_succ, List.cons_append, List.dropWhile_cons_of_pos (by simp)]
        exact ih
    rw [hd, List.reverse_reverse]
  have hr0 : rstrip '/' p = p := by
    have h0 : rstrip '/' (p ++ List.replicate 0 '/') = p := by
      rcases List.eq_nil_or_concat p with h | ⟨q, c, h⟩
      · exact absurd h hp
      · rw [List.concat_eq_append] at h
        subst h
        rw [List.getLast?_concat] at hl
        unfold rstrip
        simp only [List.replicate_zero, List.append_nil, List.reverse_append, List.reverse_cons, List.reverse_nil, List.nil_append, List.cons_append]
        rw [List.dropWhile_cons_of_neg (by simpa using hl)]
        simp
    simpa using h0
  have hs : strip (p ++ List.replicate k '/') ≠ [] := by
    unfold strip
    intro hc
    have hdrop : ∀ s : Str, (∀ c ∈ s.dropWhile (fun x => decide (x = '/')), c = '/') → ∀ c ∈ s, c = '/' := by
      intro s
      induction s with
      | nil => intro _ c hc; cases hc
      | cons x s ih =>
        intro h c hc
        by_cases hx : x = '/'
        · rw [List.dropWhile_cons_of_pos (by simpa using hx)] at h
          rcases List.mem_cons.mp hc with rfl | h1
          · exact hx
          · exact ih h c h1
        · rw [List.dropWhile_cons_of_neg (by simpa using hx)] at h
          exact h c hc
    have hall : ∀ s : Str, rstrip '/' s = [] → ∀ c ∈ s, c = '/' := by
      intro s h c hcm
      unfold rstrip at h
      rw [List.reverse_eq_nil_iff] at h
      exact hdrop s.reverse (by rw [h]; simp) c (List.mem_reverse.mpr hcm)
    have hall2 : ∀ s : Str, (∀ c ∈ lstrip '/' s, c = '/') → ∀ c ∈ s, c = '/' := hdrop
    have := hall2 _ (hall _ hc)
    rcases List.eq_nil_or_concat p with h | ⟨q, c, h⟩
    · exact hp h
    · rw [List.concat_eq_append] at h
      subst h
      rw [List.getLast?_concat] at hl
      exact hl (by rw [this c (by simp)])
  have hk : keepPrefix f (some (p ++ List.replicate k '/')) = some p := by
    unfold keepPrefix
    simp only
    rw [if_pos ⟨by simp [hp], hs, hd⟩, hr]
  rw [hk]
  have hquote : ∀ x, quoted f x = x := by intro x; unfold quoted; rw [hq]; rfl
  refine ⟨?_, ?_, ?_⟩
  · unfold getPath
    simp only
    rw [if_neg hp, hquote]
    exact if_pos (.inr rfl)
  · unfold getPath
    simp only
    rw [if_neg hp, hquote]
    exact if_pos (.inl rfl)
  · intro hh hne
    unfold getPath
    simp only
    rw [if_neg hp, hquote]
    unfold getPrefixed
    rw [if_neg (by simp [hne]), hr0]
    have hl : lstrip '/' ('/' :: path) = path := by
      unfold lstrip
      rw [List.dropWhile_cons_of_pos (by simp)]
      cases path with
      | nil => rfl
      | cons c s =>
        have : c ≠ '/' := by simpa using hh
        rw [List.dropWhile_cons_of_neg (by simpa using this)]
    rw [hl]

theorem C148_no_prefix (f : FS) (p : Str) (h : f.isdir p = false) : keepPrefix f (some p) = none ∧ keepPrefix f none = none := by
  unfold keepPrefix
  simp [h]

/-- C149, what happens: whatever the library raises for a path that is no folder is raised by `list` and by every union of sources with it. -/
theorem C149_raised (f : FS) (pre : Option Str) (path : Str) (e : PyErr) (h : f.listdir (listPath f (getPath f pre path)) = .error e)
    (others : List (Str → Except PyErr (Option (List Str)))) (ho : ∀ s ∈ others, ∃ r, s path = .ok r) :
    list f pre path = .error e ∧ unionNames path (others ++ [fun path => (list f pre path).map (fun d => some d.keys)]) = .error e := by
  have h1 : list f pre path = .error e := by
    unfold list
    rw [h]
  refine ⟨h1, ?_⟩
  induction others with
  | nil => rw [List.nil_append, unionNames, h1]; rfl
  | cons s others ih =>
    obtain ⟨r, hr⟩ := ho s List.mem_cons_self
    rw [List.cons_append, unionNames, hr]
    simp only
    rw [ih (fun x hx => ho x (List.mem_cons_of_mem _ hx))]

/-- C149 for folders that the remote side has: the union lists the names of all sources. What is missing: folders that it does not have. -/
theorem C149_partial (f : FS) (T : Tree) (pre : Option Str) (base : List Str) (sp : List Str → Str) (hs : Serves f T sp) (hst : Style f pre base sp)
    (hq : f.requireQuoting = false) (hh : f.http = false) (ns : List Str) (hn : ∀ n ∈ base ++ ns, IsName n) (m : Meta)
    (hT : T (base ++ ns) = some m) (hm : m.directory = true) (others : List (Str → Except PyErr (Option (List Str))))
    (ho : ∀ s ∈ others, ∃ r, s (canonical ns) = .ok r) :
    ∃ l, unionNames (canonical ns) (others ++ [fun path => (list f pre path).map (fun d => some d.keys)]) = .ok (some l) ∧
      ∀ n, n ∈ l ↔ (IsName n ∧ (T (base ++ ns ++ [n])).isSome = true) ∨ ∃ s ∈ others, ∃ r, s (canonical ns) = .ok (some r) ∧ n ∈ r := by
  obtain ⟨d, h1, h2, h3⟩ := C148_list f T pre base sp hs hst hq hh ns hn m hT hm
  have hkeys : ∀ n, n ∈ d.keys ↔ IsName n ∧ (T (base ++ ns ++ [n])).isSome = true := by
    intro n
    rw [Dict.mem_keys_iff]
    constructor
    · intro h
      obtain ⟨i, hi⟩ := Option.isSome_iff_exists.mp h
      obtain ⟨ha, m', hb, _⟩ := h3 n i hi
      exact ⟨ha, by rw [hb]; rfl⟩
    · rintro ⟨ha, hb⟩
      obtain ⟨m', hm'⟩ := Option.isSome_iff_exists.mp hb
      obtain ⟨i, hi, _⟩ := h2 n m' ha hm'
      rw [hi]; rfl
  induction others with
  | nil =>
    refine ⟨d.keys, ?_, ?_⟩
    · rw [List.nil_append, unionNames, h1]; rfl
    · intro n
      rw [hkeys n]
      simp
  | cons s others ih =>
    obtain ⟨r, hr⟩ := ho s List.mem_cons_self
    obtain ⟨l, hl1, hl2⟩ := ih (fun x hx => ho x (List.mem_cons_of_mem _ hx))
    refine ⟨r.getD [] ++ l, ?_, ?_⟩
    · rw [List.cons_append, unionNames, hr]
      simp only
      rw [hl1]
    · intro n
      rw [List.mem_append, hl2 n]
      constructor
      · rintro (h | h | ⟨x, hx, r', h4, h5⟩)
        · cases r with
          | none => cases h
          | some r => exact Or.inr ⟨s, List.mem_cons_self, r, hr, h⟩
        · exact Or.inl h
        · exact Or.inr ⟨x, List.mem_cons_of_mem _ hx, r', h4, h5⟩
      · rintro (h | ⟨x, hx, r', h4, h5⟩)
        · exact Or.inr (Or.inl h)
        · rcases List.mem_cons.mp hx with rfl | hx
          · rw [hr] at h4
            injection h4 with h4
            rw [h4]
            exact Or.inl h5
          · exact Or.inr (Or.inr ⟨x, hx, r', h4, h5⟩)

/-- A file system with only the file `a`, of 5 bytes. -/
def sample : FS where
  lexists := fun p => strip p = "a".toList || strip p = []
  isdir := fun p => strip p = []
  info := fun p => if strip p = "a".toList then .ok ⟨p, false, some 5, none, none⟩ else .error .fileNotFound
  listdir := fun p => if strip p = [] ∨ strip p = "a".toList then .ok [⟨"/a".toList, false, some 5, none, none⟩] else .error .fileNotFound
  http := false
  requireQuoting := false
  withoutLeadingSlash := false
  dropbox := false
  quote := id
  unquote := id
  uid := 1000
  gid := 100

/-- What it serves. -/
def sampleTree : Tree := fun ns => if ns = ["a".toList] then some ⟨false, 5, 0⟩ else if ns = [] then some ⟨true, 0, 0⟩ else none

theorem strip_canonical (ns : List Str) (h : ∀ n ∈ ns, IsName n) : strip (canonical ns) = join '/' ns := by
  unfold strip
  rw [canonical_lstrip ns h]
  cases ns with
  | nil => rfl
  | cons n ns => exact rstrip_of_last (getLast_join _ (by simp) h)

theorem strip_join (ns : List Str) (h : ∀ n ∈ ns, IsName n) : strip (join '/' ns) = join '/' ns := by
  unfold strip
  rw [join_lstrip ns h]
  cases ns with
  | nil => rfl
  | cons n ns => exact rstrip_of_last (getLast_join _ (by simp) h)

theorem join_eq_a (ns : List Str) (h : ∀ n ∈ ns, IsName n) : join '/' ns = "a".toList ↔ ns = ["a".toList] := by
  constructor
  · intro hh
    refine canonical_inj _ _ h (by unfold IsName; decide) ?_
    rw [canonical_eq, hh]
    rfl
  · rintro rfl
    rfl

theorem sample_serves : Serves sample sampleTree canonical where
  found := by
    intro ns hn hne
    show (decide (strip (canonical ns) = "a".toList) || decide (strip (canonical ns) = [])) = _
    rw [strip_canonical ns hn, decide_eq_false (join_ne_nil ns hne hn), Bool.or_false]
    unfold sampleTree
    by_cases h : ns = ["a".toList]
    · rw [if_pos h, h]; rfl
    · rw [if_neg h, if_neg hne, decide_eq_false (fun hh => h ((join_eq_a ns hn).mp hh))]; rfl
  told := by
    intro ns m hn hne hT
    unfold sampleTree at hT
    split at hT
    · rename_i h
      subst h
      cases hT
      exact ⟨_, rfl, rfl, rfl, rfl⟩
    · first | cases hT | (rw [if_neg hne] at hT; cases hT)
  listed := by
    intro ns m hn hT hm
    unfold sampleTree at hT
    split at hT
    · cases hT; cases hm
    · split at hT
      · rename_i h
        subst h
        refine ⟨_, rfl, ?_, ?_⟩
        · intro e he
          rw [List.mem_singleton.mp he]
          exact Or.inr ⟨"a".toList, ⟨false, 5, 0⟩, by unfold IsName; decide, rfl, ⟨rfl, rfl, rfl⟩, rfl⟩
        · intro n m' hn' hT'
          unfold sampleTree at hT'
          simp only [List.nil_append] at hT'
          split at hT'
          · rename_i h
            injection h with h _
            subst h
            exact ⟨_, List.mem_cons_self, rfl⟩
          · simp at hT'
      · cases hT

theorem sample_style : Style sample none [] canonical := by
  refine .slash rfl rfl ?_
  intro ns hn
  show (decide (strip _ = "a".toList) || decide (strip _ = [])) = (decide (strip _ = "a".toList) || decide (strip _ = []))
  rw [strip_join ns hn, strip_canonical ns hn]

/-- C149 is violated: a union with a remote folder cannot list a folder that only another source has. -/
theorem C149_violated : ¬ C149_statement := by
  intro h
  obtain ⟨r, hr⟩ := h sample sampleTree sample_serves sample_style rfl rfl rfl [fun _ => .ok (some ["x".toList])] ["d".toList]
    (by unfold IsName; decide) (by intro s hs; rw [List.mem_singleton.mp hs]; exact ⟨_, rfl⟩)
  have : unionNames (canonical ["d".toList]) ([fun _ => .ok (some ["x".toList])] ++
    [fun path => (list sample none path).map (fun d => some d.keys)]) = .error .fileNotFound := by rfl
  rw [this] at hr
  cases hr

/-- A file is listed as if it were an empty folder. -/
theorem C149_file_violated : ∃ d, list sample none "/a".toList = .ok d ∧ d.keys = [] ∧ sampleTree ["a".toList] = some ⟨false, 5, 0⟩ :=
  ⟨[], rfl, rfl, rfl⟩

/-- The hypotheses can be met. -/
example : ∃ d i, list sample none "/".toList = .ok d ∧ d.get? "a".toList = some i ∧ Shows sample i ⟨false, 5, 0⟩ := by
  obtain ⟨d, h1, h2, _⟩ := C148_list sample sampleTree none [] canonical sample_serves sample_style rfl rfl [] (by simp) ⟨true, 0, 0⟩ rfl rfl
  obtain ⟨i, h3, h4⟩ := h2 "a".toList ⟨false, 5, 0⟩ (by unfold IsName; decide) rfl
  exact ⟨d, i, h1, h3, h4⟩

/-- The sample as Dropbox would answer. -/
def sampleDropbox : FS := { sample with
  lexists := fun p => p = "/a".toList
  listdir := fun p => if p = [] then .ok [⟨"/a".toList, false, some 5, none, some 7⟩] else .error .valueError
  info := fun p => if p = "/a".toList then .ok ⟨p, false, some 5, none, some 7⟩ else .error .valueError
  dropbox := true }

/-- Its root is listed, which would be an error with the path `/`. -/
example : (∃ d, list sampleDropbox none "/".toList = .ok d ∧ d.keys = ["a".toList]) ∧ sampleDropbox.listdir ['/'] = .error .valueError ∧
    lookup sampleDropbox none "/a".toList = .ok (some ⟨0o100555, 5, 7, [], 1000, 100, "/a".toList⟩) := ⟨⟨_, rfl, rfl⟩, rfl, rfl⟩

/-- The paths of Dropbox are a style. -/
example : Style sampleDropbox none [] dropboxPath := by
  refine .dropbox rfl rfl ?_
  intro ns _ hn
  show decide (join '/' ns = "/a".toList) = false
  refine decide_eq_false ?_
  intro h
  have := join_head ns (fun n hx => ⟨(hn n hx).1, (hn n hx).2.1⟩)
  rw [h] at this
  exact this rfl

/-- The hypotheses of `C148_lookup` can be met. -/
example : ∃ i, lookup sample none (canonical ["a".toList]) = .ok (some i) ∧ Shows sample i ⟨false, 5, 0⟩ :=
  (C148_lookup sample sampleTree none [] canonical sample_serves sample_style rfl ["a".toList] (by simp) (by unfold IsName; decide)).1 _ rfl

/-- A way of quoting: a `%` before every character that is no slash. -/
def pct (s : Str) : Str := s.flatMap (fun c => if c = '/' then ['/'] else ['%', c])

/-- The way back. -/
def unpct : Str → Str
  | '%' :: c :: s => c :: unpct s
  | s => s

/-- A server with the file `?`, whose page also links to a way of sorting and to itself. -/
def web : FS where
  lexists := fun p => p = "http://h".toList || p = "http://h/%?".toList
  isdir := fun p => p = "http://h".toList
  info := fun p => .ok ⟨p, false, some 5, none, none⟩
  listdir := fun p => if p = "http://h".toList then
      .ok [⟨"http://h/".toList, true, none, none, none⟩, ⟨"http://h/?S=D".toList, false, none, none, none⟩, ⟨"http://h/%?".toList, false, some 5, none, none⟩]
    else .error .fileNotFound
  http := true
  requireQuoting := true
  withoutLeadingSlash := false
  dropbox := false
  quote := pct
  unquote := unpct
  uid := 0
  gid := 0

/-- What it serves. -/
def webTree : Tree := fun ns => if ns = ["?".toList] then some ⟨false, 5, 0⟩ else if ns = [] then some ⟨true, 0, 0⟩ else none

theorem pct_name : ∀ n : Str, '/' ∉ n → '/' ∉ pct n ∧ unpct (pct n) = n := by
  intro n
  induction n with
  | nil => intro _; exact ⟨by simp [pct], rfl⟩
  | cons c n ih =>
    intro h
    simp only [List.mem_cons, not_or] at h
    obtain ⟨h1, h2⟩ := ih h.2
    have : pct (c :: n) = '%' :: c :: pct n := by
      unfold pct
      rw [List.flatMap_cons, if_neg (fun hh => h.1 hh.symm)]
      rfl
    rw [this]
    refine ⟨?_, by rw [unpct, h2]⟩
    simp only [List.mem_cons, not_or]
    exact ⟨by decide, h.1, h1⟩

theorem pct_cons (c : Char) (n : Str) (h : '/' ∉ c :: n) : pct (c :: n) = '%' :: c :: pct n := by
  unfold pct
  rw [List.flatMap_cons, if_neg (fun hh => h (by rw [hh]; exact List.mem_cons_self))]
  rfl

theorem pct_join (ns : List Str) : pct (join '/' ns) = join '/' (ns.map pct) := by
  induction ns with
  | nil => rfl
  | cons n ns ih =>
    cases ns with
    | nil => rfl
    | cons m ms =>
      rw [show join '/' (n :: m :: ms) = n ++ '/' :: join '/' (m :: ms) from rfl]
      unfold pct at ih ⊢
      rw [List.flatMap_append, List.flatMap_cons, ih]
      rfl

theorem web_quoting : Quoting web where
  names := by
    intro ns _
    show pct (canonical ns) = canonical (ns.map pct)
    rw [canonical_eq, canonical_eq, ← pct_join]
    rfl
  name := by
    intro n hn
    show IsName (pct n)
    cases n with
    | nil => exact absurd rfl hn.1
    | cons c n =>
      refine ⟨?_, (pct_name _ hn.2.1).1, ?_, ?_⟩ <;> rw [pct_cons c n hn.2.1] <;> simp
  undone := fun n hn => (pct_name n hn.2.1).2
  plain := by
    intro n hn
    cases n with
    | nil => exact absurd rfl hn.1
    | cons c n =>
      show startsWith ['?'] (pct (c :: n)) = false ∧ startsWith ['#'] (pct (c :: n)) = false
      rw [pct_cons c n hn.2.1]
      exact ⟨rfl, rfl⟩

theorem web_address (ns : List Str) (hn : ∀ n ∈ ns, IsName n) : address "http://h".toList pct ns = "http://h/%?".toList ↔ ns = ["?".toList] := by
  constructor
  · intro h
    have hne : ns ≠ [] := by
      intro hh
      rw [hh] at h
      exact absurd h (by decide)
    rw [address_eq pct ns _ hne, show "http://h/%?".toList = "http://h".toList ++ '/' :: "%?".toList from rfl] at h
    have h1 := List.append_cancel_left h
    injection h1 with _ h1
    have h2 : canonical (ns.map pct) = canonical (["?".toList].map pct) := by
      rw [canonical_eq, h1]
      rfl
    have h3 := canonical_inj _ _ (names_map web_quoting hn) (by unfold IsName; decide) h2
    have h4 : (ns.map pct).map unpct = (["?".toList].map pct).map unpct := congrArg (List.map unpct) h3
    rw [List.map_map] at h4
    have h5 : ns.map (unpct ∘ pct) = ns.map id := List.map_congr_left (fun n hx => (pct_name n (hn n hx).2.1).2)
    rw [h5, List.map_id] at h4
    exact h4
  · rintro rfl
    rfl

theorem web_serves : ServesHttp web (fun p => p = "http://h".toList) webTree "http://h".toList where
  found := by
    intro ns hn
    show (decide (address "http://h".toList pct ns = "http://h".toList) || decide (address "http://h".toList pct ns = "http://h/%?".toList)) = _
    unfold webTree
    by_cases h : ns = ["?".toList]
    · subst h; rfl
    · rw [if_neg h, decide_eq_false (fun hh => h ((web_address ns hn).mp hh)), Bool.or_false]
      by_cases h0 : ns = []
      · subst h0; rfl
      · rw [if_neg h0, decide_eq_false]
        · rfl
        · rw [address_eq pct ns _ h0]
          intro hh
          have := congrArg List.length hh
          simp at this
  folder := by
    intro ns m hn hT
    unfold webTree at hT
    split at hT
    · rename_i h; subst h; cases hT; rfl
    · split at hT
      · rename_i h; subst h; cases hT; rfl
      · cases hT
  told := by
    intro ns m hn hT
    refine ⟨_, rfl, ?_⟩
    intro hm
    unfold webTree at hT
    split at hT
    · cases hT; exact ⟨rfl, rfl, rfl⟩
    · split at hT
      · cases hT; cases hm
      · cases hT
  listed := by
    intro ns m hn hT hm
    unfold webTree at hT
    split at hT
    · cases hT; cases hm
    · split at hT
      · rename_i h
        subst h
        refine ⟨_, rfl, ?_, ?_⟩
        · intro e he
          simp only [List.mem_cons, List.not_mem_nil, or_false] at he
          rcases he with rfl | rfl | rfl
          · exact Or.inl rfl
          · exact Or.inr (Or.inl ⟨"?S=D".toList, rfl, Or.inl rfl, rfl⟩)
          · exact Or.inr (Or.inr ⟨"?".toList, ⟨false, 5, 0⟩, by unfold IsName; decide, rfl, ⟨rfl, rfl, rfl⟩, rfl⟩)
        · intro n m' hn' hT'
          unfold webTree at hT'
          simp only [List.nil_append] at hT'
          split at hT'
          · rename_i h
            injection h with h _
            subst h
            exact ⟨_, List.mem_cons_of_mem _ (List.mem_cons_of_mem _ List.mem_cons_self), rfl⟩
          · simp at hT'
      · cases hT

/-- The hypotheses for HTTP can be met. -/
example : ∃ d i, list web (some "http://h".toList) "/".toList = .ok d ∧ d.get? "?".toList = some i ∧ Shows web i ⟨false, 5, 0⟩ := by
  obtain ⟨d, h1, h2, _⟩ := C148_http_list web _ webTree "http://h".toList web_serves web_quoting rfl rfl rfl (by decide) (by decide) (by decide)
    [] (by simp) ⟨true, 0, 0⟩ rfl rfl
  obtain ⟨i, h3, h4⟩ := h2 "?".toList ⟨false, 5, 0⟩ (by unfold IsName; decide) rfl
  exact ⟨d, i, h1, h3, h4⟩

end Verif.Fsspec
