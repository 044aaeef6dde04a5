import Verif.Index.Normpath
import Verif.Dict
import Verif.Sort

/-!
# C15, C16: versions, lookups and listings of the index (core/ratarmountcore/SQLiteIndex.py:819-972)

The SQL table "files" (create-index-tables.sql:3-26) is a dictionary from its primary key
(path, name, offsetheader) to the other columns. SQL `ORDER BY` is a stable sort of the selected rows; the order
of rows that tie is not used by the theorems. Only indexes with all columns are modelled (the branches for
indexes older than version 0.6.0 in `list` select fewer columns).
-/

namespace Verif.Index

open Verif.Py

/-- Primary key of "files" (create-index-tables.sql, used at SQLiteIndex.py:819-970). -/
structure Key where
  path : Str
  name : Str
  oh : Int
  deriving DecidableEq

/-- The columns of "files" outside its primary key (create-index-tables.sql, used at SQLiteIndex.py:819-970). `rest` stands for those that are only copied: size, mtime,
type, linkname, uid, gid, istar, issparse, recursiondepth. -/
structure Info where
  offset : Int
  mode : Nat
  generated : Bool
  rest : Nat
  deriving DecidableEq

/-- The table "files" (SQLiteIndex.py:819-970). -/
abbrev Table := Dict Key Info

/-- What `_row_to_file_info` (SQLiteIndex.py:781-799) makes of a row: the columns and the header offset as user data. -/
structure FileInfo where
  oh : Int
  info : Info
  deriving DecidableEq

/-- `_row_to_file_info` (SQLiteIndex.py:781-800). -/
def toFileInfo (r : Key × Info) : FileInfo := ⟨r.1.oh, r.2⟩

/-- `create_root_file_info(userdata=[SQLiteIndexedTarUserData(0, 0, False, False, True, 0)])`
(MountSource.py:135-153): a folder with mode 0o777. -/
def rootInfo : FileInfo := ⟨0, 0, 0o40777, true, 0⟩

/-- `ORDER BY "offsetheader" ASC` (SQLiteIndex.py:939-970). -/
def orderAsc (rows : List (Key × Info)) : List (Key × Info) := sortBy (fun a b => decide (a.1.oh ≤ b.1.oh)) rows

/-- `ORDER BY "offsetheader" DESC` (SQLiteIndex.py:939-970). -/
def orderDesc (rows : List (Key × Info)) : List (Key × Info) := sortBy (fun a b => decide (b.1.oh ≤ a.1.oh)) rows

/-- `WHERE "path" == (?) AND "name" == (?)` (SQLiteIndex.py:921-970). -/
def rowsAt (t : Table) (path name : Str) : List (Key × Info) :=
  t.filter (fun r => decide (r.1.path = path ∧ r.1.name = name))

/-- `WHERE "path" == (?)` (SQLiteIndex.py:819-919). -/
def rowsIn (t : Table) (path : Str) : List (Key × Info) := t.filter (fun r => decide (r.1.path = path))

/-- `path, name = path.rsplit('/', 1)` for a path that contains a slash (SQLiteIndex.py:921-970). -/
def splitPath (path : Str) : Str × Str := (rsplit1 '/' path).getD ([], path)

/-- `SQLiteIndex.lookup` (SQLiteIndex.py:939-970). `LIMIT 1 OFFSET k` is element number `k`. -/
def lookup (t : Table) (path : Str) (version : Int) : Option FileInfo :=
  let path := queryNormpath path
  if path = ['/'] then some rootInfo
  else
    let (path, name) := splitPath path
    let rows := if version ≤ 0 then orderDesc (rowsAt t path name) else orderAsc (rowsAt t path name)
    let k := if version > 0 then version - 1 else -version
    (rows[k.toNat]?).map toFileInfo

/-- `SQLiteIndex.versions` (SQLiteIndex.py:921-937). The dictionary keys are the decimal strings of 1, 2, ... (here the
numbers themselves), except for the root, whose only key is '/' (here 0). -/
def versions (t : Table) (path : Str) : Dict Nat FileInfo :=
  let path := queryNormpath path
  if path = ['/'] then [(0, rootInfo)]
  else
    let (path, name) := splitPath path
    let rows := orderAsc (rowsAt t path name)
    Dict.update [] (rows.mapIdx (fun i r => (i + 1, toFileInfo r)))

/-- `SQLiteIndex.list` (SQLiteIndex.py:819-896). -/
def list (t : Table) (path : Str) : Option (Dict Str FileInfo) :=
  let d : Dict Str FileInfo := Dict.update []
    ((orderAsc (rowsIn t (rstrip '/' (queryNormpath path)))).map (fun r => (r.1.name, toFileInfo r)))
  if d.isEmpty then none else some (d.del [])

/-- `SQLiteIndex.list_mode` (SQLiteIndex.py:898-919). -/
def listMode (t : Table) (path : Str) : Option (Dict Str Nat) :=
  let d : Dict Str Nat := Dict.update []
    ((orderAsc (rowsIn t (rstrip '/' (queryNormpath path)))).map (fun r => (r.1.name, r.2.mode)))
  if d.isEmpty then none else some (d.del [])

/-! ## specification -/

/-- `es` are the entries recorded for `name` in the folder `folder`, oldest (smallest archive offset) first. -/
structure Entries (t : Table) (folder name : Str) (es : List (Key × Info)) : Prop where
  mem : ∀ r, r ∈ es ↔ r ∈ t ∧ r.1.path = folder ∧ r.1.name = name
  sorted : es.Pairwise (fun a b => a.1.oh < b.1.oh)

/-- How the index stores the folder with the canonical path of `ns`: without trailing slash, the root as the
empty string. -/
def folderPath : List Str → Str
  | [] => []
  | n :: ns => canonical (n :: ns)

/-! ## lemmas -/

theorem oh_trans (a b c : Key × Info) : decide (a.1.oh ≤ b.1.oh) = true → decide (b.1.oh ≤ c.1.oh) = true →
    decide (a.1.oh ≤ c.1.oh) = true := by simp only [decide_eq_true_eq]; omega

theorem oh_total (a b : Key × Info) : decide (a.1.oh ≤ b.1.oh) = true ∨ decide (b.1.oh ≤ a.1.oh) = true := by
  simp only [decide_eq_true_eq]; omega

theorem orderAsc_perm (l : List (Key × Info)) : (orderAsc l).Perm l := sortBy_perm _ _
theorem orderDesc_perm (l : List (Key × Info)) : (orderDesc l).Perm l := sortBy_perm _ _

theorem orderAsc_sorted (l : List (Key × Info)) : (orderAsc l).Pairwise (fun a b => a.1.oh ≤ b.1.oh) :=
  (sortBy_pairwise oh_trans oh_total l).imp (by simp)

theorem orderDesc_sorted (l : List (Key × Info)) : (orderDesc l).Pairwise (fun a b => b.1.oh ≤ a.1.oh) :=
  (sortBy_pairwise (le := fun a b => decide (b.1.oh ≤ a.1.oh)) (fun a b c h1 h2 => oh_trans c b a h2 h1)
    (fun a b => oh_total b a) l).imp (by simp)

theorem nodup_of_keys {K V : Type} (t : Dict K V) (h : t.keys.Nodup) : t.Nodup :=
  List.Pairwise.of_map (·.1) (fun _ _ hne he => hne (by rw [he])) h

theorem eq_of_key {K V : Type} [DecidableEq K] (t : Dict K V) (h : t.keys.Nodup) {a b : K × V} (ha : a ∈ t)
    (hb : b ∈ t) (hk : a.1 = b.1) : a = b := by
  have h1 := Dict.get?_eq_some_of_mem t h (k := a.1) (v := a.2) ha
  have h2 := Dict.get?_eq_some_of_mem t h (k := b.1) (v := b.2) hb
  rw [hk, h2] at h1
  exact Prod.ext hk (Option.some.inj h1).symm

theorem mem_rowsAt (t : Table) (p n : Str) (r : Key × Info) :
    r ∈ rowsAt t p n ↔ r ∈ t ∧ r.1.path = p ∧ r.1.name = n := by simp [rowsAt]

theorem mem_rowsIn (t : Table) (p : Str) (r : Key × Info) : r ∈ rowsIn t p ↔ r ∈ t ∧ r.1.path = p := by simp [rowsIn]

theorem entries_perm {t : Table} (ht : t.keys.Nodup) {p n : Str} {es : List (Key × Info)} (h : Entries t p n es) :
    es.Perm (rowsAt t p n) := by
  refine (List.perm_ext_iff_of_nodup ?_ ((nodup_of_keys t ht).filter _)).mpr ?_
  · exact h.sorted.imp (fun hlt he => by rw [he] at hlt; omega)
  · intro r; rw [h.mem]; exact (mem_rowsAt t p n r).symm

theorem rowsAt_oh_inj {t : Table} (ht : t.keys.Nodup) {p n : Str} {a b : Key × Info} (ha : a ∈ rowsAt t p n)
    (hb : b ∈ rowsAt t p n) (h : a.1.oh = b.1.oh) : a = b := by
  rw [mem_rowsAt] at ha hb
  refine eq_of_key t ht ha.1 hb.1 ?_
  obtain ⟨⟨p1, n1, o1⟩, i1⟩ := a
  obtain ⟨⟨p2, n2, o2⟩, i2⟩ := b
  simp_all

theorem orderAsc_eq {t : Table} (ht : t.keys.Nodup) {p n : Str} {es : List (Key × Info)} (h : Entries t p n es) :
    orderAsc (rowsAt t p n) = es := by
  refine List.Perm.eq_of_pairwise (le := fun a b => a.1.oh ≤ b.1.oh) ?_ (orderAsc_sorted _)
    (h.sorted.imp (fun h => by omega)) ((orderAsc_perm _).trans (entries_perm ht h).symm)
  intro a b ha hb h1 h2
  exact rowsAt_oh_inj ht ((orderAsc_perm _).mem_iff.mp ha) ((entries_perm ht h).mem_iff.mp hb) (by omega)

theorem orderDesc_eq {t : Table} (ht : t.keys.Nodup) {p n : Str} {es : List (Key × Info)} (h : Entries t p n es) :
    orderDesc (rowsAt t p n) = es.reverse := by
  refine List.Perm.eq_of_pairwise (le := fun a b => b.1.oh ≤ a.1.oh) ?_ (orderDesc_sorted _)
    (List.pairwise_reverse.mpr (h.sorted.imp (fun h => by omega)))
    ((orderDesc_perm _).trans ((entries_perm ht h).symm.trans (List.reverse_perm es).symm))
  intro a b ha hb h1 h2
  exact rowsAt_oh_inj ht ((orderDesc_perm _).mem_iff.mp ha)
    ((entries_perm ht h).mem_iff.mp (List.mem_reverse.mp hb)) (by omega)

/-- The entries of a path are unique and exist. -/
theorem entries_exist {t : Table} (ht : t.keys.Nodup) (p n : Str) : Entries t p n (orderAsc (rowsAt t p n)) where
  mem r := by rw [(orderAsc_perm _).mem_iff, mem_rowsAt]
  sorted := by
    have hnd : (orderAsc (rowsAt t p n)).Nodup :=
      (orderAsc_perm _).nodup_iff.mpr ((nodup_of_keys t ht).filter _)
    refine List.Pairwise.imp_of_mem ?_ ((orderAsc_sorted (rowsAt t p n)).and hnd)
    intro a b ha hb ⟨h1, h2⟩
    have : a.1.oh ≠ b.1.oh := fun h => h2 (rowsAt_oh_inj ht ((orderAsc_perm _).mem_iff.mp ha) ((orderAsc_perm _).mem_iff.mp hb) h)
    omega

theorem canonical_append (ns : List Str) (n : Str) : canonical (ns ++ [n]) = folderPath ns ++ '/' :: n := by
  have key : ∀ (m : Str) (ms : List Str), join '/' ((m :: ms) ++ [n]) = join '/' (m :: ms) ++ '/' :: n := by
    intro m ms
    induction ms generalizing m with
    | nil => simp [join]
    | cons q qs ih =>
      have := ih q
      simp only [List.cons_append] at this ⊢
      simp only [join] at this ⊢
      rw [this]; simp
  rw [canonical_eq]
  cases ns with
  | nil => simp [join, folderPath]
  | cons m ms => rw [key]; simp [folderPath, canonical_eq]

/-- A canonical path, asked for, is split into folder and name as they are stored. -/
theorem query_name (ns : List Str) (n : Str) (h : ∀ m ∈ ns ++ [n], IsName m) (path : Str)
    (hp : queryNormpath path = canonical (ns ++ [n])) :
    queryNormpath path ≠ ['/'] ∧ splitPath (queryNormpath path) = (folderPath ns, n) := by
  have hn := h n (by simp)
  rw [hp, canonical_append]
  constructor
  · intro he
    have := congrArg List.length he
    simp only [List.length_append, List.length_cons, List.length_nil] at this
    exact hn.1 (List.length_eq_zero_iff.mp (by omega))
  · simp [splitPath, rsplit1_append _ _ hn.2.1]

theorem query_canonical (ns : List Str) (h : ∀ m ∈ ns, IsName m) : queryNormpath (canonical ns) = canonical ns := by
  rw [C14_query _ (by rw [canonical_eq]; rfl), C14_fixed ns h]

theorem rstrip_canonical (ns : List Str) (h : ∀ m ∈ ns, IsName m) : rstrip '/' (canonical ns) = folderPath ns := by
  rcases List.eq_nil_or_concat ns with rfl | ⟨ms, n, rfl⟩
  · rfl
  · rw [List.concat_eq_append] at h ⊢
    have hn := h n (by simp)
    have h1 : folderPath (ms ++ [n]) = canonical (ms ++ [n]) := by cases ms <;> rfl
    rw [h1, canonical_append]
    obtain ⟨hne, hs, -⟩ := hn
    rw [rstrip]
    rcases List.eq_nil_or_concat n with rfl | ⟨a, x, rfl⟩
    · exact absurd rfl hne
    · rw [List.concat_eq_append] at hs ⊢
      have hx : x ≠ '/' := by rintro rfl; simp at hs
      simp [hx]

theorem get?_mapIdx {α : Type} (f : α → FileInfo) (es : List α) (v : Nat) (b : Nat) :
    Dict.get? (es.mapIdx (fun i r => (i + b + 1, f r))) v =
      if v ≤ b then none else (es[v - b - 1]?).map f := by
  induction es generalizing b with
  | nil => simp
  | cons e es ih =>
    rw [List.mapIdx_cons]
    have := ih (b + 1)
    simp only [Dict.get?, show ∀ i, i + 1 + b + 1 = i + (b + 1) + 1 by intro i; omega, this, Nat.zero_add]
    by_cases h1 : b + 1 = v
    · subst h1; simp
    · rw [if_neg h1]
      by_cases h2 : v ≤ b
      · rw [if_pos (by omega), if_pos h2]
      · rw [if_neg (by omega), if_neg h2]
        rw [show v - b - 1 = (v - (b + 1) - 1) + 1 by omega, List.getElem?_cons_succ]

theorem keys_mapIdx {α : Type} (f : α → FileInfo) (es : List α) (b : Nat) :
    Dict.keys (es.mapIdx (fun i r => (i + b + 1, f r))) = List.range' (b + 1) es.length := by
  induction es generalizing b with
  | nil => rfl
  | cons e es ih =>
    rw [List.mapIdx_cons, Dict.keys_cons]
    have := ih (b + 1)
    simp only [show ∀ i, i + 1 + b + 1 = i + (b + 1) + 1 by intro i; omega, this, List.length_cons,
      List.range'_succ, Nat.zero_add]

/-! ## C15 -/

/-- **C15**: for a path with the recorded entries `es` (oldest first), versions 1, 2, ... are the entries in that
order, 0, -1, ... are the entries from the newest back, all others find nothing. -/
theorem C15_lookup (t : Table) (ht : t.keys.Nodup) (ns : List Str) (n : Str) (hns : ∀ m ∈ ns ++ [n], IsName m)
    (path : Str) (hp : queryNormpath path = canonical (ns ++ [n])) (es : List (Key × Info))
    (hes : Entries t (folderPath ns) n es) (version : Int) :
    lookup t path version =
      if version ≥ 1 then (es[(version - 1).toNat]?).map toFileInfo
      else (es.reverse[(-version).toNat]?).map toFileInfo := by
  obtain ⟨h1, h2⟩ := query_name ns n hns path hp
  unfold lookup
  simp only [if_neg h1, h2]
  by_cases hv : version ≥ 1
  · rw [if_pos hv, if_neg (by omega), if_pos (by omega), orderAsc_eq ht hes]
  · rw [if_neg hv, if_pos (by omega), if_neg (by omega), orderDesc_eq ht hes]

/-- **C15**: the list of versions has exactly one entry for every recorded entry, numbered from 1 in order. -/
theorem C15_versions (t : Table) (ht : t.keys.Nodup) (ns : List Str) (n : Str) (hns : ∀ m ∈ ns ++ [n], IsName m)
    (path : Str) (hp : queryNormpath path = canonical (ns ++ [n])) (es : List (Key × Info))
    (hes : Entries t (folderPath ns) n es) :
    (versions t path).length = es.length ∧ (∀ k, k ∈ (versions t path).keys ↔ 1 ≤ k ∧ k ≤ es.length) ∧
      ∀ v : Nat, 1 ≤ v → (versions t path).get? v = lookup t path v := by
  have hl := C15_lookup t ht ns n hns path hp es hes
  obtain ⟨h1, h2⟩ := query_name ns n hns path hp
  have hk := keys_mapIdx toFileInfo es 0
  have hg := fun v => get?_mapIdx toFileInfo es v 0
  simp only [Nat.add_zero] at hk hg
  have hv : versions t path = Dict.update [] (es.mapIdx (fun i r => (i + 1, toFileInfo r))) := by
    unfold versions
    simp only [if_neg h1, h2, orderAsc_eq ht hes]
  have hnd : (Dict.keys (es.mapIdx (fun i r => (i + 1, toFileInfo r)))).Nodup := by
    rw [hk]; exact List.nodup_range'
  have hmem : ∀ k, k ∈ (versions t path).keys ↔ 1 ≤ k ∧ k ≤ es.length := by
    intro k
    rw [hv, Dict.mem_keys_update, hk, List.mem_range'_1]
    simp [Dict.keys]; omega
  refine ⟨?_, hmem, ?_⟩
  · have hp : (versions t path).keys.Perm (List.range' 1 es.length) := by
      refine (List.perm_ext_iff_of_nodup ?_ List.nodup_range').mpr ?_
      · rw [hv]; exact Dict.nodup_update _ _ List.nodup_nil
      · intro k; rw [hmem, List.mem_range'_1]; omega
    rw [← Dict.length_keys, hp.length_eq, List.length_range']
  · intro v hv1
    rw [hl, if_pos (by omega), hv, Dict.get?_update _ hnd, hg, if_neg (by omega)]
    have : ((v : Int) - 1).toNat = v - 1 := by omega
    simp [this]

/-- **C15** for the root, which has no recorded entries: always one folder. -/
theorem C15_root (t : Table) (path : Str) (hp : queryNormpath path = ['/']) (v : Int) :
    lookup t path v = some rootInfo ∧ (versions t path).length = 1 := by
  simp [lookup, versions, hp]

/-- A small table: `/d/f` twice, `/g` once. -/
def exampleTable : Table :=
  [(⟨"/d".toList, "f".toList, 1024⟩, ⟨1536, 0o100644, false, 2⟩), (⟨"/d".toList, "f".toList, 0⟩, ⟨512, 0o100600, false, 1⟩),
    (⟨[], "g".toList, 512⟩, ⟨1024, 0o100600, false, 3⟩)]

example : exampleTable.keys.Nodup ∧ queryNormpath "/d/f".toList = canonical (["d".toList] ++ ["f".toList]) ∧
    (lookup exampleTable "/d/f".toList 0).map (·.oh) = some 1024 ∧
    (lookup exampleTable "/d/f".toList (-1)).map (·.oh) = some 0 ∧
    (lookup exampleTable "/d/f".toList 1).map (·.oh) = some 0 ∧ lookup exampleTable "/d/f".toList 3 = none ∧
    (versions exampleTable "/d/f".toList).length = 2 := by decide +kernel

example : Entries exampleTable (folderPath ["d".toList]) "f".toList
    (orderAsc (rowsAt exampleTable (folderPath ["d".toList]) "f".toList)) :=
  entries_exist (by decide +kernel) _ _

/-! ## C16 -/

/-- The names in the table are names (the archive's own root entry has the empty name). -/
def NamesOk (t : Table) : Prop := ∀ r ∈ t, r.1.name = [] ∨ IsName r.1.name

theorem get?_update_last {V : Type} (l : List (Str × V)) : ∀ (d : Dict Str V) (k : Str),
    (Dict.update d l).get? k = ((l.filter (fun p => decide (p.1 = k))).getLast?.map (·.2)).or (d.get? k) := by
  induction l with
  | nil => intro d k; simp [Dict.update]
  | cons p l ih =>
    intro d k
    have h1 : Dict.update d (p :: l) = Dict.update (d.set p.1 p.2) l := rfl
    rw [h1, ih, Dict.get?_set]
    by_cases hk : p.1 = k
    · rw [if_pos hk, List.filter_cons, if_pos (by simpa using hk)]
      cases hl : l.filter (fun p => decide (p.1 = k)) with
      | nil => simp
      | cons a b => simp [List.getLast?_cons]
    · rw [if_neg hk, List.filter_cons, if_neg (by simpa using hk)]

/-- What `list` and `list_mode` collect before removing the empty name. -/
theorem listed {V : Type} (t : Table) (ht : t.keys.Nodup) (p : Str) (f : Key × Info → V) (n : Str) :
    (Dict.update [] ((orderAsc (rowsIn t p)).map (fun r => (r.1.name, f r)))).get? n =
      ((orderAsc (rowsAt t p n)).getLast?).map f := by
  rw [get?_update_last]
  have h1 : ((orderAsc (rowsIn t p)).map (fun r => (r.1.name, f r))).filter (fun q => decide (q.1 = n)) =
      ((orderAsc (rowsIn t p)).filter (fun r => decide (r.1.name = n))).map (fun r => (r.1.name, f r)) := by
    rw [List.filter_map]; rfl
  have h2 : (orderAsc (rowsIn t p)).filter (fun r => decide (r.1.name = n)) = orderAsc (rowsAt t p n) := by
    refine (orderAsc_eq ht ⟨?_, ?_⟩).symm
    · intro r
      rw [List.mem_filter, (orderAsc_perm _).mem_iff, mem_rowsIn]
      simp [and_assoc]
    · have hs : ((orderAsc (rowsIn t p)).filter (fun r => decide (r.1.name = n))).Pairwise
          (fun a b => a.1.oh ≤ b.1.oh) := (orderAsc_sorted _).filter _
      have hnd : ((orderAsc (rowsIn t p)).filter (fun r => decide (r.1.name = n))).Nodup :=
        ((orderAsc_perm _).nodup_iff.mpr ((nodup_of_keys t ht).filter _)).filter _
      refine List.Pairwise.imp_of_mem ?_ (hs.and hnd)
      intro a b ha hb ⟨h3, h4⟩
      rw [List.mem_filter, (orderAsc_perm _).mem_iff, mem_rowsIn] at ha hb
      have : a.1.oh ≠ b.1.oh := fun h => h4 (rowsAt_oh_inj (p := p) (n := n) ht ((mem_rowsAt _ _ _ _).mpr ⟨ha.1.1, ha.1.2, by simpa using ha.2⟩)
        ((mem_rowsAt _ _ _ _).mpr ⟨hb.1.1, hb.1.2, by simpa using hb.2⟩) h)
      omega
  rw [h1, h2]
  simp [List.getLast?_map, Function.comp_def]

theorem update_isEmpty {V : Type} (l : List (Str × V)) : (Dict.update [] l).isEmpty = l.isEmpty := by
  have key : ∀ (l : List (Str × V)) (d : Dict Str V), d ≠ [] → Dict.update d l ≠ [] := by
    intro l
    induction l with
    | nil => intro d h; exact h
    | cons p l ih =>
      intro d _
      refine ih (d.set p.1 p.2) ?_
      cases d with
      | nil => simp [Dict.set]
      | cons q d => obtain ⟨a, b⟩ := q; simp only [Dict.set]; split <;> simp
  cases l with
  | nil => rfl
  | cons p l =>
    have h : Dict.update ([] : Dict Str V) (p :: l) ≠ [] := by
      refine key l (Dict.set [] p.1 p.2) ?_
      simp [Dict.set]
    cases hd : Dict.update ([] : Dict Str V) (p :: l) with
    | nil => exact absurd hd h
    | cons a b => rfl

theorem getLast_desc {t : Table} (ht : t.keys.Nodup) (p n : Str) :
    (orderAsc (rowsAt t p n)).getLast? = (orderDesc (rowsAt t p n))[0]? := by
  rw [orderDesc_eq ht (entries_exist ht p n), ← List.head?_eq_getElem?, List.head?_reverse]

/-- **C16**: the listing of a folder shows a name exactly if a lookup finds it, with the metadata of that lookup;
the modes listing shows the same names with the modes of these. -/
theorem C16_list_lookup (t : Table) (ht : t.keys.Nodup) (ns : List Str) (n : Str)
    (hns : ∀ m ∈ ns ++ [n], IsName m) (folder path : Str) (hf : queryNormpath folder = canonical ns)
    (hp : queryNormpath path = canonical (ns ++ [n])) :
    (list t folder).bind (fun d => d.get? n) = lookup t path 0 ∧
    (listMode t folder).bind (fun d => d.get? n) = (lookup t path 0).map (·.info.mode) := by
  have hn := hns n (by simp)
  have hns' : ∀ m ∈ ns, IsName m := fun m hm => hns m (by simp [hm])
  obtain ⟨h1, h2⟩ := query_name ns n hns path hp
  have hlook : lookup t path 0 = ((orderDesc (rowsAt t (folderPath ns) n))[0]?).map toFileInfo := by
    unfold lookup; simp [h1, h2]
  have hr : rstrip '/' (queryNormpath folder) = folderPath ns := by rw [hf]; exact rstrip_canonical ns hns'
  have hdel : ∀ {V : Type} (d : Dict Str V), d.keys.Nodup → (d.del []).get? n = d.get? n := by
    intro V d hd
    rw [Dict.get?_del _ hd, if_neg (fun h => hn.1 h.symm)]
  have key : ∀ {V : Type} (f : Key × Info → V),
      (let d : Dict Str V := Dict.update [] ((orderAsc (rowsIn t (folderPath ns))).map (fun r => (r.1.name, f r)))
       if d.isEmpty then none else some (d.del [])).bind (fun d => d.get? n) =
        ((orderDesc (rowsAt t (folderPath ns) n))[0]?).map f := by
    intro V f
    rw [← getLast_desc ht, ← listed t ht (folderPath ns) f n]
    simp only
    split
    · next he => rw [List.isEmpty_iff.mp he]; rfl
    · simp only [Option.bind_some]
      exact hdel _ (Dict.nodup_update _ _ List.nodup_nil)
  unfold list listMode
  rw [hr, hlook]
  refine ⟨key toFileInfo, ?_⟩
  rw [key (fun r => r.2.mode)]
  simp [Function.comp_def, toFileInfo]

/-- **C16**: every listed name is a name that can be looked up. -/
theorem C16_listed_names (t : Table) (hok : NamesOk t) (folder : Str) (d : Dict Str FileInfo)
    (h : list t folder = some d) : ∀ n ∈ d.keys, IsName n := by
  intro n hn
  unfold list at h
  simp only at h
  split at h
  · cases h
  · simp only [Option.some.injEq] at h
    subst h
    have hnd := Dict.nodup_update ((orderAsc (rowsIn t (rstrip '/' (queryNormpath folder)))).map
      (fun r => (r.1.name, toFileInfo r))) ([] : Dict Str FileInfo) List.nodup_nil
    obtain ⟨hn0, this⟩ := (Dict.mem_keys_del _ hnd _ _).mp hn
    rw [Dict.mem_keys_update] at this
    rcases this with h1 | h1
    · rw [Dict.keys, List.map_map, List.mem_map] at h1
      obtain ⟨r, hr, rfl⟩ := h1
      rw [(orderAsc_perm _).mem_iff, mem_rowsIn] at hr
      exact (hok r hr.1).resolve_left hn0
    · simp [Dict.keys] at h1

/-- **C16**: nothing is listed exactly if the folder has no rows; both listings agree on that. -/
theorem C16_none (t : Table) (ns : List Str) (hns : ∀ m ∈ ns, IsName m) (folder : Str)
    (hf : queryNormpath folder = canonical ns) :
    (list t folder = none ↔ ∀ r ∈ t, r.1.path ≠ folderPath ns) ∧
    (listMode t folder = none ↔ ∀ r ∈ t, r.1.path ≠ folderPath ns) := by
  have hr : rstrip '/' (queryNormpath folder) = folderPath ns := by rw [hf]; exact rstrip_canonical ns hns
  have hempty : (orderAsc (rowsIn t (folderPath ns))).isEmpty = true ↔ ∀ r ∈ t, r.1.path ≠ folderPath ns := by
    rw [List.isEmpty_iff, List.eq_nil_iff_forall_not_mem]
    constructor
    · intro h r hr he; exact h r ((orderAsc_perm _).mem_iff.mpr ((mem_rowsIn _ _ _).mpr ⟨hr, he⟩))
    · intro h r hr
      rw [(orderAsc_perm _).mem_iff, mem_rowsIn] at hr
      exact h r hr.1 hr.2
  unfold list listMode
  simp only [hr, update_isEmpty, List.isEmpty_map]
  constructor <;> (rw [← hempty]; split <;> simp_all)

example : NamesOk exampleTable := by
  intro r hr
  right
  simp only [exampleTable, List.mem_cons, List.not_mem_nil, or_false] at hr
  rcases hr with rfl | rfl | rfl <;> (unfold IsName; decide)
example : ((list exampleTable "/d".toList).bind (fun d => d.get? "f".toList)).map (·.oh) = some 1024 ∧
    list exampleTable "/e".toList = none ∧ (listMode exampleTable "/".toList) = some [("g".toList, 0o100600)] := by
  decide +kernel

end Verif.Index
