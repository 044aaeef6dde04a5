import Verif.Formats.Sqlar
import Verif.Fuse.LibMount
import Verif.Fuse.ThinMount

/-!
# C213: a mounted SQLAR archive
(core/ratarmountcore/mountsource/formats/sqlar.py, core/ratarmountcore/mountsource/compositing/versioning.py, ratarmount/FuseMount.py)

The archive is the list of the rows of the table "sqlar" in the order of their ids; what is found and listed is modelled in
`Verif.Formats.Sqlar`. `FileVersionLayer` and `FuseMount` are above it, as for the other archives (`Verif.Fuse.LibMount`).

Simplified: the archive is not encrypted, Python is at least 3.11 (so that `blobopen` exists), and zlib data is decompressed by a function: rapidgzip
reads ranges of what it gives. A row whose data is text is a symbolic link; opening it as a file is not modelled, the kernel does not do it. The root has the
row id 0 instead of -1, there is no such row either.
-/

namespace Verif.Fuse.SqlarMount

open Verif.Py Verif.Index
open Verif.Tar (Bytes)
open Verif.Compose (Source Listing dotVersions)
open Verif.Fuse.TarMount (mp mlookup mreaddir Call)
open Verif.Fuse.IndexMount (FRow Stat column statOf mgetattr mreadlink)
open Verif.Fuse.LibMount (Lib Mount mopen mread calls start Serves)

/-! ## model -/

/-- The column data (sqlar.py:62-78). -/
inductive Data where
  | null
  | blob (b : Bytes)
  | text (t : Str)
  deriving DecidableEq, Repr

/-- A row of the table "sqlar" (sqlar.py:62-68). -/
structure Rec where
  rowid : Nat
  name : Str
  mode : Nat
  mtime : Nat
  sz : Int
  data : Data
  deriving DecidableEq, Repr

/-- The columns that decide what is found (sqlar.py:190-198). -/
def toS (r : Rec) : Sqlar.Row := ⟨r.rowid, r.name, 0⟩

/-- `CASE WHEN sz=-1 THEN data ELSE '' END` (sqlar.py:147). -/
def linkOf (r : Rec) : Str :=
  if r.sz = -1 then
    match r.data with
    | .text t => t
    | _ => []
  else []

/-- The columns that are shown, by `_convert_to_file_info` (sqlar.py:258-270). The id of the row is kept as the offset. -/
def frow (uid gid : Nat) (r : Rec) : FRow := ⟨[], [], 0, r.rowid, r.sz.toNat, r.mtime, r.mode, linkOf r, uid, gid, false⟩

/-- The rows with the columns that are shown (sqlar.py:258-270). -/
def frows (uid gid : Nat) (rs : List Rec) : List FRow := rs.map (frow uid gid)

/-- `_convert_to_file_info` (sqlar.py:258-270). The columns that are only copied are referred to by the number of the row. -/
def info (k : Nat) (r : Rec) : Compose.FileInfo := ⟨r.mode, linkOf r, k + 1, [.own r.rowid]⟩

/-- The row with this id (sqlar.py:334-336). -/
def infoAt (rs : List Rec) (i : Nat) : Option Compose.FileInfo :=
  match rs.findIdx? (fun r => decide (r.rowid = i)) with
  | none => none
  | some k => (rs[k]?).map (info k)

/-- `lookup` (sqlar.py:322-342). -/
def lookup (rs : List Rec) (path : Str) : Option Compose.FileInfo :=
  match Sqlar.lookup (rs.map toS) path with
  | none => none
  | some .root => some ⟨0o40777, [], 0, [.own 0]⟩
  | some (.row i) => infoAt rs i

/-- The rows that `list` and `list_mode` select (sqlar.py:299-306, 314-319). -/
def selected (rs : List Rec) (path : Str) : List (Nat × Rec) :=
  (rs.mapIdx (fun k r => (k, r))).filter (fun p => Sqlar.glob (Sqlar.pathGlob path) p.2.name &&
    !Sqlar.glob ['*', '/', '*'] (p.2.name.drop ((Sqlar.pathGlob path).length - 1)))

/-- The part of the name that is shown (sqlar.py:303). -/
def shownName (path : Str) (r : Rec) : Str := r.name.drop ((Sqlar.pathGlob path).length - 1)

/-- `list` (sqlar.py:294-308). -/
def list (rs : List Rec) (path : Str) : Listing Compose.FileInfo :=
  if Sqlar.filesOf (rs.map toS) = [] then .dict (Dict.update [] ((selected rs path).map (fun p => (shownName path p.2, info p.1 p.2))))
  else .names (Sqlar.listNames (Sqlar.filesOf (rs.map toS)) path)

/-- `list_mode` (sqlar.py:310-320). -/
def listMode (rs : List Rec) (path : Str) : Listing Nat :=
  if Sqlar.filesOf (rs.map toS) = [] then .dict (Dict.update [] ((selected rs path).map (fun p => (shownName path p.2, p.2.mode))))
  else .names (Sqlar.listNames (Sqlar.filesOf (rs.map toS)) path)

/-- `SQLARMountSource` (sqlar.py:272-342); `versions` is inherited (MountSource.py:83-84). -/
def source (rs : List Rec) : Source where
  id := 0
  immutable := true
  lookup path _ := lookup rs path
  versions path := if (lookup rs path).isSome then 1 else 0
  list path := some (list rs path)
  listMode path := some (listMode rs path)

/-- The file objects (sqlar.py:359-366): a stored file is read from the blob, with a position, a compressed one by rapidgzip. -/
inductive Obj where
  | stored (b : Bytes) (pos : Nat)
  | packed (b : Bytes)
  deriving DecidableEq, Repr

/-- `open` (sqlar.py:344-366) for a row id; `LENGTH(data)` is the length of the blob, and a blob cannot be opened if it is NULL. -/
def openId (rs : List Rec) (i : Nat) : Except PyErr Obj :=
  match rs.find? (fun r => decide (r.rowid = i)) with
  | none => .error .fileNotFound
  | some r =>
    match r.data with
    | .null => .error .runtimeError
    | .text _ => .error .runtimeError
    | .blob b => if r.sz = b.length then .ok (.stored b 0) else .ok (.packed b)

/-- `seek(offset)` and `read(size)`: `FixedSqliteBlob` (sqlar.py:129-144) is a `LambdaReaderFile` (StenciledFile.py:388-407) whose function calls
`sqlite3.Blob.seek`, which raises for positions behind the end. -/
def pread (inflate : Bytes → Option Bytes) (o : Obj) (size offset : Nat) : Obj × Except PyErr Bytes :=
  match o with
  | .stored b _ =>
    if b.length < offset then (.stored b offset, .error .valueError)
    else (.stored b (offset + ((b.drop offset).take (min size (b.length - offset))).length),
      .ok ((b.drop offset).take (min size (b.length - offset))))
  | .packed b =>
    match inflate b with
    | none => (.packed b, .error .runtimeError)
    | some d => (.packed b, .ok ((d.drop offset).take size))

/-- The mount source (sqlar.py:344-366). -/
def lib (inflate : Bytes → Option Bytes) (rs : List Rec) : Lib Unit Obj where
  openRow _ r := ((), openId rs r.offset)
  pread _ o size offset := ((), pread inflate o size offset)
  close _ _ := ()

/-! ## specification -/

/-- The names of a path, without empty components and `.`. -/
def placeOf (name : Str) : List Str := (split '/' name).filter (fun c => decide (c ≠ [] ∧ c ≠ ['.']))

/-- The last row with this place. -/
def lastAt (rs : List Rec) (ns : List Str) : Option Rec := (rs.filter (fun r => decide (placeOf r.name = ns))).getLast?

/-- What the programs that write such archives keep: ids and names are unique, names do not go up, and only symbolic links have the size -1. -/
structure Sane (rs : List Rec) : Prop where
  ids : (rs.map Rec.rowid).Nodup
  names : (rs.map Rec.name).Nodup
  up : ∀ r ∈ rs, ['.', '.'] ∉ split '/' r.name
  link : ∀ r ∈ rs, r.sz = -1 → r.mode &&& 0xF000 = 0xA000

/-- The folder of every row has a row as well. -/
def Closed (rs : List Rec) : Prop :=
  ∀ r ∈ rs, ∀ ns n, placeOf r.name = ns ++ [n] → ns ≠ [] → ∃ q ∈ rs, placeOf q.name = ns

/-- The row has this content, stored or compressed. -/
def Stores (inflate : Bytes → Option Bytes) (r : Rec) (d : Bytes) : Prop :=
  r.sz = d.length ∧ ∃ b, r.data = .blob b ∧ (b = d ∨ (b.length < d.length ∧ inflate b = some d))

/-! ## names -/

theorem placeOf_name {name : Str} (hu : ['.', '.'] ∉ split '/' name) : ∀ n ∈ placeOf name, IsName n := by
  intro n hn
  unfold placeOf at hn
  rw [List.mem_filter] at hn
  obtain ⟨h1, h2⟩ := hn
  simp only [decide_eq_true_eq] at h2
  exact ⟨h2.1, not_mem_of_mem_split _ _ _ h1, h2.2, fun e => hu (e ▸ h1)⟩

theorem placeOf_join {ns : List Str} (hne : ns ≠ []) (hn : ∀ n ∈ ns, IsName n) : placeOf (join '/' ns) = ns := by
  unfold placeOf
  rw [split_join '/' ns hne (fun n h => (hn n h).2.1), List.filter_eq_self]
  intro n h
  simp only [decide_eq_true_eq]
  exact ⟨(hn n h).1, (hn n h).2.2.1⟩

theorem placeOf_lstrip (name : Str) : placeOf (lstrip '/' name) = placeOf name := by
  induction name with
  | nil => rfl
  | cons x s ih =>
    by_cases h : x = '/'
    · subst h
      have : lstrip '/' ('/' :: s) = lstrip '/' s := by simp [lstrip]
      rw [this, ih]
      unfold placeOf
      rw [split_cons_eq, List.filter_cons_of_neg (by simp)]
    · have : lstrip '/' (x :: s) = x :: s := by simp [lstrip, h]
      rw [this]

theorem up_lstrip {name : Str} (hu : ['.', '.'] ∉ split '/' name) : ['.', '.'] ∉ split '/' (lstrip '/' name) := by
  induction name with
  | nil => exact hu
  | cons x s ih =>
    by_cases h : x = '/'
    · subst h
      have : lstrip '/' ('/' :: s) = lstrip '/' s := by simp [lstrip]
      rw [this]
      rw [split_cons_eq, List.mem_cons, not_or] at hu
      exact ih hu.2
    · have : lstrip '/' (x :: s) = x :: s := by simp [lstrip, h]
      rw [this]
      exact hu

theorem normLoop_place (cs : List Str) (h : ['.', '.'] ∉ cs) : ∀ new : List Str,
    normLoop 0 new cs = new ++ cs.filter (fun c => decide (c ≠ [] ∧ c ≠ ['.'])) := by
  induction cs with
  | nil => intro new; simp [normLoop]
  | cons c cs ih =>
    intro new
    rw [List.mem_cons, not_or] at h
    rw [normLoop]
    by_cases hc : c = [] ∨ c = ['.']
    · rw [if_pos hc, ih h.2, List.filter_cons_of_neg]
      simp only [decide_eq_true_eq]
      rintro ⟨h1, h2⟩
      rcases hc with hc | hc
      · exact h1 hc
      · exact h2 hc
    · rw [if_neg hc, if_pos (Or.inl (Ne.symm h.1)), ih h.2, List.filter_cons_of_pos]
      · simp
      · simp only [decide_eq_true_eq]
        exact not_or.mp hc

/-- The normalisation of the constructor. -/
theorem norm_eq {name : Str} (hu : ['.', '.'] ∉ split '/' name) :
    Sqlar.norm name = if placeOf name = [] then ['.'] else join '/' (placeOf name) := by
  have hn := placeOf_name hu
  have hp := placeOf_lstrip name
  have hu' := up_lstrip hu
  have hh := Compose.lstrip_head name
  unfold Sqlar.norm
  rw [← hp] at hn ⊢
  generalize lstrip '/' name = s at *
  unfold posixNormpath
  by_cases e : s = []
  · subst e
    rw [if_pos rfl, if_pos (by decide)]
  · have hi : initialSlashes s = 0 := by
      unfold initialSlashes
      cases s with
      | nil => exact absurd rfl e
      | cons x xs =>
        have hxs : x ≠ '/' := by rintro rfl; exact hh rfl
        have h1 : startsWith ['/', '/'] (x :: xs) = false := by simp [startsWith, List.isPrefixOf, Ne.symm hxs]
        have h2 : startsWith ['/'] (x :: xs) = false := by simp [startsWith, List.isPrefixOf, Ne.symm hxs]
        rw [h1, h2]; simp
    rw [if_neg e, hi, normLoop_place _ hu' []]
    simp only [List.replicate_zero, List.nil_append]
    show (if join '/' (placeOf s) = [] then _ else _) = _
    by_cases hpl : placeOf s = []
    · rw [if_pos hpl, hpl]; rfl
    · rw [if_neg hpl, if_neg (Compose.join_ne_nil _ hpl hn)]
      rfl

theorem dot_ne_join {ns : List Str} (hne : ns ≠ []) (hn : ∀ n ∈ ns, IsName n) : ['.'] ≠ join '/' ns := by
  intro h
  have h1 := placeOf_join hne hn
  rw [← h] at h1
  exact hne (h1 ▸ rfl)

theorem norm_join_iff {name : Str} (hu : ['.', '.'] ∉ split '/' name) {ns : List Str} (hne : ns ≠ []) (hn : ∀ n ∈ ns, IsName n) :
    Sqlar.norm name = join '/' ns ↔ placeOf name = ns := by
  rw [norm_eq hu]
  constructor
  · intro h
    split at h
    · exact absurd h (dot_ne_join hne hn)
    · next hp =>
      rw [← placeOf_join hne hn, ← h, placeOf_join hp (placeOf_name hu)]
  · rintro rfl
    rw [if_neg hne]

/-! ## what is found -/

theorem find_last {α β : Type} (f : α → β) (p : α → Bool) (c : β) (hp : ∀ x, p x = true → f x = c) : ∀ (l : List α), (l.map f).Nodup →
    (l.filter p).getLast? = l.find? p := by
  intro l
  induction l with
  | nil => intro _; rfl
  | cons x l ih =>
    intro h
    rw [List.map_cons, List.nodup_cons] at h
    by_cases hx : p x = true
    · rw [List.filter_cons_of_pos hx, List.find?_cons_of_pos hx]
      have : l.filter p = [] := by
        rw [List.filter_eq_nil_iff]
        intro y hy hpy
        exact h.1 (List.mem_map.mpr ⟨y, hy, by rw [hp y hpy, hp x hx]⟩)
      rw [this]
      rfl
    · rw [List.filter_cons_of_neg hx, List.find?_cons_of_neg hx]
      exact ih h.2

theorem get_last (k : Str) : ∀ (l : List Rec) (d : Dict Str Nat),
    (Dict.update d ((l.map toS).map (fun r => (Sqlar.norm r.name, r.rowid)))).get? k =
      match (l.filter (fun r => decide (Sqlar.norm r.name = k))).getLast? with
      | some r => some r.rowid
      | none => d.get? k := by
  intro l
  induction l with
  | nil => intro d; rfl
  | cons r l ih =>
    intro d
    show (Dict.update (d.set (Sqlar.norm r.name) r.rowid) _).get? k = _
    rw [ih]
    by_cases h : Sqlar.norm r.name = k
    · rw [List.filter_cons_of_pos (by simpa using h)]
      cases hl : (l.filter (fun r => decide (Sqlar.norm r.name = k))) with
      | nil =>
        simp only [List.getLast?_nil, List.getLast?_singleton]
        rw [Dict.get?_set, if_pos h]
      | cons a b =>
        rw [List.getLast?_cons_cons]
        cases hb : (a :: b).getLast? with
        | none => simp at hb
        | some q => rfl
    · rw [List.filter_cons_of_neg (by simpa using h)]
      cases (l.filter (fun r => decide (Sqlar.norm r.name = k))).getLast? with
      | none => simp only; rw [Dict.get?_set, if_neg h]
      | some q => rfl

theorem eq_of_id {rs : List Rec} (h : (rs.map Rec.rowid).Nodup) : ∀ {r q : Rec}, r ∈ rs → q ∈ rs → r.rowid = q.rowid → r = q := by
  induction rs with
  | nil => intro r q hr; cases hr
  | cons x rs ih =>
    intro r q hr hq he
    rw [List.map_cons, List.nodup_cons] at h
    rcases List.mem_cons.mp hr with rfl | hr <;> rcases List.mem_cons.mp hq with rfl | hq
    · rfl
    · exact absurd (List.mem_map.mpr ⟨q, hq, he.symm⟩) h.1
    · exact absurd (List.mem_map.mpr ⟨r, by assumption, he⟩) h.1
    · exact ih h.2 hr hq he

theorem infoAt_mem {rs : List Rec} (h : (rs.map Rec.rowid).Nodup) {r : Rec} (hr : r ∈ rs) :
    ∃ k, rs[k]? = some r ∧ infoAt rs r.rowid = some (info k r) := by
  unfold infoAt
  cases hk : rs.findIdx? (fun q => decide (q.rowid = r.rowid)) with
  | none =>
    rw [List.findIdx?_eq_none_iff] at hk
    have := hk r hr
    simp at this
  | some k =>
    rw [List.findIdx?_eq_some_iff_getElem] at hk
    obtain ⟨hlt, hp, -⟩ := hk
    have he : rs[k] = r := eq_of_id h (List.getElem_mem hlt) hr (by simpa using hp)
    refine ⟨k, ?_, ?_⟩
    · rw [List.getElem?_eq_getElem hlt, he]
    · simp only [List.getElem?_eq_getElem hlt, he, Option.map_some]

theorem find_id {rs : List Rec} (h : (rs.map Rec.rowid).Nodup) {r : Rec} (hr : r ∈ rs) :
    rs.find? (fun q => decide (q.rowid = r.rowid)) = some r := by
  cases hf : rs.find? (fun q => decide (q.rowid = r.rowid)) with
  | none =>
    rw [List.find?_eq_none] at hf
    have := hf r hr
    simp at this
  | some q =>
    have h1 := List.find?_some hf
    rw [eq_of_id h (List.mem_of_find?_eq_some hf) hr (by simpa using h1)]

theorem canonical_root {ns : List Str} (hne : ns ≠ []) (hn : ∀ n ∈ ns, IsName n) : canonical ns ≠ ['/'] := by
  intro he
  have := congrArg (lstrip '/') he
  rw [Compose.lstrip_canonical _ (fun n h => ⟨(hn n h).1, (hn n h).2.1⟩)] at this
  exact Compose.join_ne_nil _ hne hn this

theorem lastAt_mem {rs : List Rec} {ns : List Str} {r : Rec} (h : lastAt rs ns = some r) : r ∈ rs ∧ placeOf r.name = ns := by
  unfold lastAt at h
  have := List.mem_of_getLast? h
  rw [List.mem_filter] at this
  exact ⟨this.1, by simpa using this.2⟩

/-- What the lookup of the table finds is the last row with the place. -/
theorem found {rs : List Rec} (hs : Sane rs) {ns : List Str} (hne : ns ≠ []) (hn : ∀ n ∈ ns, IsName n) :
    Sqlar.lookup (rs.map toS) (canonical ns) = (lastAt rs ns).map (fun r => .row r.rowid) := by
  have hfil : rs.filter (fun r => decide (Sqlar.norm r.name = join '/' ns)) = rs.filter (fun r => decide (placeOf r.name = ns)) := by
    apply List.filter_congr
    intro r hr
    rw [decide_eq_decide]
    exact norm_join_iff (hs.up r hr) hne hn
  unfold Sqlar.lookup
  rw [if_neg (canonical_root hne hn)]
  split
  · next hf =>
    have hnorm : ∀ r ∈ rs, Sqlar.norm r.name = r.name := by
      intro r hr
      unfold Sqlar.filesOf at hf
      split at hf
      · next ha =>
        have := (Dict.mem_keys_update ((rs.map toS).map (fun r => (Sqlar.norm r.name, r.rowid))) [] (Sqlar.norm r.name)).mpr
          (Or.inl (List.mem_map.mpr ⟨(Sqlar.norm r.name, r.rowid), List.mem_map.mpr ⟨toS r, List.mem_map.mpr ⟨r, hr, rfl⟩, rfl⟩, rfl⟩))
        rw [hf] at this
        cases this
      · next ha =>
        rw [List.any_eq_true] at ha
        apply Decidable.byContradiction
        intro hc
        exact ha ⟨toS r, List.mem_map.mpr ⟨r, hr, rfl⟩, decide_eq_true hc⟩
    have hstrip : Compose.stripSlashes (canonical ns) = join '/' ns := Compose.strip_canonical ns hn
    rw [hstrip]
    unfold lastAt
    rw [← hfil]
    have h1 : rs.filter (fun r => decide (Sqlar.norm r.name = join '/' ns)) = rs.filter (fun r => decide (r.name = join '/' ns)) := by
      apply List.filter_congr
      intro r hr
      rw [hnorm r hr]
    rw [h1, find_last Rec.name _ (join '/' ns) (fun x hx => by simpa using hx) rs hs.names, List.find?_map]
    rw [Option.map_map]
    rfl
  · next hf =>
    have hup : Sqlar.filesOf (rs.map toS) = Dict.update [] ((rs.map toS).map (fun r => (Sqlar.norm r.name, r.rowid))) := by
      unfold Sqlar.filesOf at hf ⊢
      split
      · rfl
      · next ha => rw [if_neg ha] at hf; exact absurd rfl hf
    rw [hup, Compose.lstrip_canonical _ (fun n h => ⟨(hn n h).1, (hn n h).2.1⟩), get_last, hfil]
    unfold lastAt
    cases hl : (rs.filter (fun r => decide (placeOf r.name = ns))).getLast? with
    | none => rfl
    | some r =>
      simp only [Option.map_some]
      have hm := (lastAt_mem (show lastAt rs ns = some r from hl)).1
      have := find_id hs.ids hm
      rw [List.find?_map]
      have hc : ((fun q : Sqlar.Row => decide (q.rowid = r.rowid)) ∘ toS) = (fun q : Rec => decide (q.rowid = r.rowid)) := rfl
      rw [hc, this]
      rfl

theorem lookup_some {rs : List Rec} (hs : Sane rs) {ns : List Str} (hne : ns ≠ []) (hn : ∀ n ∈ ns, IsName n) {r : Rec}
    (hl : lastAt rs ns = some r) : ∃ k, rs[k]? = some r ∧ lookup rs (canonical ns) = some (info k r) := by
  obtain ⟨k, h1, h2⟩ := infoAt_mem hs.ids (lastAt_mem hl).1
  refine ⟨k, h1, ?_⟩
  unfold lookup
  rw [found hs hne hn, hl]
  exact h2

theorem lookup_none {rs : List Rec} (hs : Sane rs) {ns : List Str} (hne : ns ≠ []) (hn : ∀ n ∈ ns, IsName n)
    (hl : lastAt rs ns = none) : lookup rs (canonical ns) = none := by
  unfold lookup
  rw [found hs hne hn, hl]
  rfl

theorem lookup_root (rs : List Rec) : lookup rs ['/'] = some ⟨0o40777, [], 0, [.own 0]⟩ := by
  unfold lookup Sqlar.lookup
  rw [if_pos rfl]

theorem info_hard {rs : List Rec} (hs : Sane rs) {r : Rec} (hr : r ∈ rs) (k : Nat) : Compose.isHardLink (info k r) = false := by
  unfold Compose.isHardLink info linkOf
  simp only
  by_cases h : r.sz = -1
  · rw [hs.link r hr h]
    simp
  · rw [if_neg h]
    simp

theorem mlookup_rec {rs : List Rec} (hs : Sane rs) {ns : List Str} (hne : ns ≠ []) (hn : ∀ n ∈ ns, IsName n) {r : Rec}
    (hl : lastAt rs ns = some r) : ∃ k, rs[k]? = some r ∧ mlookup (source rs) (canonical ns) = .ok ((info k r).push .file) := by
  obtain ⟨k, h1, h2⟩ := lookup_some hs hne hn hl
  refine ⟨k, h1, ?_⟩
  unfold mlookup
  rw [Compose.C34_other (source rs) mp _ _ h2 (info_hard hs (lastAt_mem hl).1 k)]

theorem column_frow {uid gid : Nat} {rs : List Rec} {k : Nat} {r : Rec} (h : rs[k]? = some r) :
    column (frows uid gid rs) (k + 1) = some (frow uid gid r) := by
  unfold column frows
  rw [if_neg (by omega), Nat.add_sub_cancel, List.getElem?_map, h]
  rfl

/-! ## reading -/

/-- The object gives this content. -/
def Gives (inflate : Bytes → Option Bytes) : Option Bytes → Obj → Prop
  | none, _ => True
  | some d, .stored b _ => b = d
  | some d, .packed b => inflate b = some d

theorem serves (inflate : Bytes → Option Bytes) (uid gid : Nat) (rs : List Rec) :
    Serves (lib inflate rs) (frows uid gid rs) (fun _ => True) (Gives inflate) (fun length offset => offset ≤ length) where
  openJ := fun _ _ _ _ => trivial
  openI := fun _ _ _ _ _ _ => ⟨none, trivial⟩
  preadJ := by
    intro g d o size offset _ hi
    refine ⟨trivial, ?_⟩
    cases d with
    | none => trivial
    | some d =>
      show Gives inflate (some d) (pread inflate o size offset).1
      unfold pread
      cases o with
      | stored b pos =>
        simp only
        split <;> exact hi
      | packed b =>
        simp only
        split <;> exact hi
  pread := by
    intro g d o size offset _ hi hr
    show (pread inflate o size offset).2 = _
    unfold pread
    cases o with
    | stored b pos =>
      have hb : b = d := hi
      subst hb
      simp only
      rw [if_neg (by omega)]
      simp only
      congr 1
      rcases Nat.le_total size (b.length - offset) with h | h
      · rw [Nat.min_eq_left h]
      · rw [Nat.min_eq_right h, List.take_of_length_le (by simp), List.take_of_length_le (by simp; omega)]
    | packed b =>
      have hb : inflate b = some d := hi
      simp only [hb]
  closeJ := fun _ _ _ _ _ => trivial

theorem openId_stores {inflate : Bytes → Option Bytes} {rs : List Rec} (hs : Sane rs) {r : Rec} (hr : r ∈ rs) {d : Bytes} (hd : Stores inflate r d) :
    ∃ o, openId rs r.rowid = .ok o ∧ Gives inflate (some d) o := by
  obtain ⟨hsz, b, hb, hc⟩ := hd
  unfold openId
  rw [find_id hs.ids hr]
  simp only [hb]
  rcases hc with rfl | ⟨hlt, hin⟩
  · rw [if_pos hsz]
    exact ⟨_, rfl, rfl⟩
  · rw [if_neg (by rw [hsz]; omega)]
    exact ⟨_, rfl, hin⟩

/-- **C213**, reading: after any calls, a file of the archive, stored or compressed, can be opened at its place, and whatever is opened, read and
closed meanwhile, every read with that handle gives exactly the requested range of the content. -/
theorem C213_read (inflate : Bytes → Option Bytes) (uid gid : Nat) (rs : List Rec) (hs : Sane rs) (ns : List Str) (hne : ns ≠ [])
    (hn : ∀ n ∈ ns, IsName n) (r : Rec) (hl : lastAt rs ns = some r) (d : Bytes) (hd : Stores inflate r d) (before : List Call) :
    ∃ m fh, mopen (lib inflate rs) (frows uid gid rs) (source rs) (calls (lib inflate rs) (frows uid gid rs) (source rs) (start ()) before)
        (canonical ns) = (m, .ok fh) ∧
      ∀ (between : List Call) (size offset : Nat), Call.release fh ∉ between → offset ≤ d.length →
        (mread (lib inflate rs) (calls (lib inflate rs) (frows uid gid rs) (source rs) m between) fh size offset).2 =
          .ok ((d.drop offset).take size) := by
  obtain ⟨k, hk, h1⟩ := mlookup_rec hs hne hn hl
  have hS := serves inflate uid gid rs
  obtain ⟨hg, -⟩ := LibMount.calls_good hS (source rs) before (LibMount.start_good (σ := Obj) (I := Gives inflate) (g := ()) trivial)
  obtain ⟨o, ho, hi⟩ := openId_stores hs (lastAt_mem hl).1 hd
  generalize calls (lib inflate rs) (frows uid gid rs) (source rs) (start ()) before = m₀ at *
  have hv : LibMount.openObj (lib inflate rs) (frows uid gid rs) m₀.shared ((info k r).push .file) = ((), .ok o) := by
    show (match column (frows uid gid rs) (k + 1) with
      | some r => (lib inflate rs).openRow m₀.shared r
      | none => (_, .error (.os 21))) = _
    rw [column_frow hk]
    show ((), openId rs r.rowid) = _
    rw [ho]
  obtain ⟨g1, g2, -⟩ := LibMount.addHandle_good hg (g := ()) trivial hi
  refine ⟨LibMount.addHandle m₀ () o, m₀.last + 1, ?_, ?_⟩
  · unfold mopen
    rw [h1]
    simp only [hv]
  · intro between size offset hb hrg
    obtain ⟨q1, q2⟩ := LibMount.calls_good hS (source rs) between g1
    exact LibMount.mread_holds hS q1 (q2 _ _ hb (g2 _ rfl)) size offset hrg

/-- **C213**, attributes: what is at a place has the mode and the time of its row, the size of the content, and the target of a symbolic link. -/
theorem C213_attributes (uid gid : Nat) (rs : List Rec) (hs : Sane rs) (ns : List Str) (hne : ns ≠ []) (hn : ∀ n ∈ ns, IsName n) (r : Rec)
    (hl : lastAt rs ns = some r) :
    ∃ size target, mgetattr (frows uid gid rs) (source rs) (canonical ns) = .ok ⟨r.mode, size, r.mtime, uid, gid⟩ ∧
      mreadlink (source rs) (canonical ns) = .ok target ∧
      (0 ≤ r.sz → (size : Int) = r.sz ∧ target = []) ∧ ∀ t, r.sz = -1 → r.data = .text t → size = 0 ∧ target = t := by
  obtain ⟨k, hk, h1⟩ := mlookup_rec hs hne hn hl
  refine ⟨r.sz.toNat, linkOf r, ?_, ?_, ?_, ?_⟩
  · unfold mgetattr
    rw [h1]
    have hc := column_frow (uid := uid) (gid := gid) hk
    show Except.ok (statOf (frows uid gid rs) ((info k r).push .file)) = _
    unfold statOf IndexMount.sizeAt IndexMount.ownerAt
    show Except.ok (Stat.mk r.mode ((column (frows uid gid rs) (k + 1)).map (·.size) |>.getD 0) _ _ _) = _
    have hrest : ((info k r).push .file).rest = k + 1 := rfl
    rw [hrest, hc]
    rfl
  · unfold mreadlink
    rw [h1]
    rfl
  · intro h
    refine ⟨by omega, ?_⟩
    unfold linkOf
    rw [if_neg (by omega)]
  · intro t h ht
    refine ⟨by omega, ?_⟩
    unfold linkOf
    rw [if_pos h, ht]

/-- **C213**, folders cannot be opened as files, and leave no handle. -/
theorem C213_folder (inflate : Bytes → Option Bytes) (uid gid : Nat) (rs : List Rec) (hs : Sane rs) (ns : List Str) (hne : ns ≠ [])
    (hn : ∀ n ∈ ns, IsName n) (r : Rec) (hl : lastAt rs ns = some r) (hd : r.data = .null) (m : Mount Unit Obj) :
    (mopen (lib inflate rs) (frows uid gid rs) (source rs) m (canonical ns)).2 = .error (.os 5) ∧
      (mopen (lib inflate rs) (frows uid gid rs) (source rs) m (canonical ns)).1.opened = m.opened := by
  obtain ⟨k, hk, h1⟩ := mlookup_rec hs hne hn hl
  have hv : LibMount.openObj (lib inflate rs) (frows uid gid rs) m.shared ((info k r).push .file) = ((), .error .runtimeError) := by
    show (match column (frows uid gid rs) (k + 1) with
      | some r => (lib inflate rs).openRow m.shared r
      | none => (_, .error (.os 21))) = _
    rw [column_frow hk]
    show ((), openId rs r.rowid) = _
    unfold openId
    rw [find_id hs.ids (lastAt_mem hl).1]
    simp only [hd]
  unfold mopen
  rw [h1]
  simp only [hv]
  exact ⟨trivial, trivial⟩

/-- **C213**, what is missing: a place without a row does not exist, unless the path asks for versions. -/
theorem C213_absent (uid gid : Nat) (rs : List Rec) (hs : Sane rs) (ns : List Str) (hne : ns ≠ []) (hn : ∀ n ∈ ns, IsName n)
    (hv : ∀ n ∈ ns, endsWith ".versions".toList n = false) (hl : lastAt rs ns = none) :
    mgetattr (frows uid gid rs) (source rs) (canonical ns) = .error (.os 2) := by
  unfold mgetattr mlookup
  rw [Compose.C34_missing (source rs) mp ns hne (fun n h => ⟨(hn n h).1, (hn n h).2.1⟩) hv (lookup_none hs hne hn hl)]
  rfl

/-! ## listing -/

theorem lastAt_isSome {rs : List Rec} {ns : List Str} : (∃ r ∈ rs, placeOf r.name = ns) ↔ ∃ r, lastAt rs ns = some r := by
  constructor
  · rintro ⟨r, hr, h⟩
    unfold lastAt
    cases hl : (rs.filter (fun r => decide (placeOf r.name = ns))).getLast? with
    | some q => exact ⟨q, rfl⟩
    | none =>
      rw [List.getLast?_eq_none_iff, List.filter_eq_nil_iff] at hl
      exact absurd (by simpa using h) (hl r hr)
  · rintro ⟨r, h⟩
    exact ⟨r, lastAt_mem h⟩

theorem closed_above {rs : List Rec} (hc : Closed rs) : ∀ (m : Nat) (ns rest : List Str), rest.length = m → ns ≠ [] →
    (∃ r ∈ rs, placeOf r.name = ns ++ rest) → ∃ r ∈ rs, placeOf r.name = ns := by
  intro m
  induction m with
  | zero =>
    intro ns rest h _ he
    rw [List.eq_nil_of_length_eq_zero h, List.append_nil] at he
    exact he
  | succ m ih =>
    intro ns rest h hne he
    rcases List.eq_nil_or_concat rest with rfl | ⟨q, x, rfl⟩
    · cases h
    · rw [List.concat_eq_append] at *
      obtain ⟨r, hr, he⟩ := he
      rw [← List.append_assoc] at he
      exact ih ns q (by simpa using h) hne (hc r hr _ x he (by simp [hne]))

theorem pathOf_slash {ns : List Str} (hne : ns ≠ []) : '/' ∈ Rar.pathOf ns true := by
  rw [Rar.pathOf_true ns hne]
  simp

theorem plain_pathOf (ns : List Str) (hp : ∀ n ∈ ns, Sqlar.Plain n) : Sqlar.Plain (Rar.pathOf ns true) := by
  have : ∀ c : Char, c ≠ '/' → (∀ n ∈ ns, c ∉ n) → c ∉ Rar.pathOf ns true := by
    intro c hc hn
    clear hp
    induction ns with
    | nil => simp [Rar.pathOf]
    | cons n ns ih =>
      rw [Rar.pathOf, if_neg (fun h => by cases h.2)]
      intro hm
      rcases List.mem_append.mp hm with hm | hm
      · exact hn n List.mem_cons_self hm
      · rcases List.mem_cons.mp hm with hm | hm
        · exact hc hm
        · exact ih (fun m hm => hn m (List.mem_cons_of_mem _ hm)) hm
  exact ⟨this _ (by decide) (fun n hn => (hp n hn).1), this _ (by decide) (fun n hn => (hp n hn).2.1),
    this _ (by decide) (fun n hn => (hp n hn).2.2)⟩

theorem listPath (ns : List Str) (hns : ∀ n ∈ ns, IsName n) :
    (if lstrip '/' (canonical ns) ≠ [] ∧ endsWith ['/'] (lstrip '/' (canonical ns)) = false then lstrip '/' (canonical ns) ++ ['/']
      else lstrip '/' (canonical ns)) = Rar.pathOf ns true := by
  rw [Compose.lstrip_canonical _ (fun n hn => ⟨(hns n hn).1, (hns n hn).2.1⟩)]
  by_cases hne : ns = []
  · subst hne; rfl
  · rw [if_pos, Rar.pathOf_true ns hne]
    refine ⟨Compose.join_ne_nil ns hne hns, ?_⟩
    rw [Bool.eq_false_iff]
    intro hs
    obtain ⟨t, ht⟩ := List.isSuffixOf_iff_suffix.mp hs
    have := Compose.getLast_join ns hne hns
    rw [← ht] at this
    simp at this

theorem mem_update {V : Type} (l : List (Str × V)) (n : Str) : n ∈ (Dict.update [] l).keys ↔ ∃ p ∈ l, p.1 = n := by
  rw [Dict.mem_keys_update]
  simp [Dict.keys]

theorem mem_selected (rs : List Rec) (path : Str) (n : Str) :
    (∃ p ∈ selected rs path, shownName path p.2 = n) ↔
      ∃ r ∈ rs, Sqlar.glob (Sqlar.pathGlob path) r.name = true ∧ Sqlar.glob ['*', '/', '*'] (r.name.drop ((Sqlar.pathGlob path).length - 1)) = false ∧
        r.name.drop ((Sqlar.pathGlob path).length - 1) = n := by
  unfold selected shownName
  constructor
  · rintro ⟨p, hp, h⟩
    rw [List.mem_filter, Bool.and_eq_true, Bool.not_eq_true'] at hp
    obtain ⟨h1, h2, h3⟩ := hp
    rw [List.mem_mapIdx] at h1
    obtain ⟨k, hk, rfl⟩ := h1
    exact ⟨_, List.getElem_mem hk, h2, h3, h⟩
  · rintro ⟨r, hr, h1, h2, h3⟩
    obtain ⟨k, hk, he⟩ := List.getElem_of_mem hr
    refine ⟨(k, r), ?_, h3⟩
    rw [List.mem_filter, Bool.and_eq_true, Bool.not_eq_true']
    exact ⟨List.mem_mapIdx.mpr ⟨k, hk, by rw [he]⟩, h1, h2⟩

theorem filesOf_normal {rs : List Rec} : Sqlar.filesOf (rs.map toS) = [] ↔ ∀ r ∈ rs, Sqlar.norm r.name = r.name := by
  constructor
  · intro hf r hr
    unfold Sqlar.filesOf at hf
    split at hf
    · next ha =>
      have := (Dict.mem_keys_update ((rs.map toS).map (fun r => (Sqlar.norm r.name, r.rowid))) [] (Sqlar.norm r.name)).mpr
        (Or.inl (List.mem_map.mpr ⟨(Sqlar.norm r.name, r.rowid), List.mem_map.mpr ⟨toS r, List.mem_map.mpr ⟨r, hr, rfl⟩, rfl⟩, rfl⟩))
      rw [hf] at this
      cases this
    · next ha =>
      rw [List.any_eq_true] at ha
      apply Decidable.byContradiction
      intro hc
      exact ha ⟨toS r, List.mem_map.mpr ⟨r, hr, rfl⟩, decide_eq_true hc⟩
  · intro h
    unfold Sqlar.filesOf
    rw [if_neg]
    rw [List.any_eq_true]
    rintro ⟨q, hq, hd⟩
    obtain ⟨r, hr, rfl⟩ := List.mem_map.mp hq
    exact absurd (h r hr) (of_decide_eq_true hd)

theorem list_normal {rs : List Rec} (hs : Sane rs) (hf : Sqlar.filesOf (rs.map toS) = []) {ns : List Str} (hn : ∀ n ∈ ns, IsName n)
    (hp : ∀ n ∈ ns, Sqlar.Plain n) (n : Str) :
    n ∈ (list rs (canonical ns)).keys ↔ (ns = [] ∧ n = ['.'] ∧ ∃ r ∈ rs, r.name = ['.']) ∨ (IsName n ∧ ∃ r ∈ rs, placeOf r.name = ns ++ [n]) := by
  have hnorm := filesOf_normal.mp hf
  have hname : ∀ r ∈ rs, placeOf r.name ≠ [] → r.name = join '/' (placeOf r.name) := by
    intro r hr hne
    have := hnorm r hr
    rw [norm_eq (hs.up r hr), if_neg hne] at this
    exact this.symm
  have hdot : ∀ r ∈ rs, placeOf r.name = [] → r.name = ['.'] := by
    intro r hr he
    have := hnorm r hr
    rw [norm_eq (hs.up r hr), if_pos he] at this
    exact this.symm
  have hproper : Sqlar.Proper ((rs.filter (fun r => decide (placeOf r.name ≠ []))).map toS) := by
    intro q hq
    obtain ⟨r, hr, rfl⟩ := List.mem_map.mp hq
    rw [List.mem_filter, decide_eq_true_eq] at hr
    exact ⟨_, hr.2, placeOf_name (hs.up r hr.1), hname r hr.1 hr.2⟩
  obtain ⟨l, hl, hmem⟩ := Sqlar.C79_children_partial _ hproper ns hn hp
  unfold Sqlar.list at hl
  rw [if_pos (Sqlar.filesOf_proper _ hproper)] at hl
  have hl' := Option.some.inj hl
  have hin : n ∈ l ↔ ∃ r ∈ rs, placeOf r.name ≠ [] ∧ Sqlar.glob (Sqlar.pathGlob (canonical ns)) r.name = true ∧
      Sqlar.glob ['*', '/', '*'] (r.name.drop ((Sqlar.pathGlob (canonical ns)).length - 1)) = false ∧
        r.name.drop ((Sqlar.pathGlob (canonical ns)).length - 1) = n := by
    rw [← hl']
    constructor
    · intro h
      obtain ⟨q, hq, he⟩ := List.mem_map.mp h
      rw [List.mem_filter, Bool.and_eq_true, Bool.not_eq_true'] at hq
      obtain ⟨h1, h2, h3⟩ := hq
      obtain ⟨r, hr, rfl⟩ := List.mem_map.mp h1
      rw [List.mem_filter, decide_eq_true_eq] at hr
      exact ⟨r, hr.1, hr.2, h2, h3, he⟩
    · rintro ⟨r, hr, h0, h1, h2, h3⟩
      refine List.mem_map.mpr ⟨toS r, ?_, h3⟩
      rw [List.mem_filter, Bool.and_eq_true, Bool.not_eq_true']
      exact ⟨List.mem_map.mpr ⟨r, List.mem_filter.mpr ⟨hr, decide_eq_true h0⟩, rfl⟩, h1, h2⟩
  have hrow : (∃ q ∈ (rs.filter (fun r => decide (placeOf r.name ≠ []))).map toS, q.name = join '/' (ns ++ [n]) ∧ IsName n) ↔
      (IsName n ∧ ∃ r ∈ rs, placeOf r.name = ns ++ [n]) := by
    have hall : IsName n → ∀ x ∈ ns ++ [n], IsName x := by
      intro h x hx
      rcases List.mem_append.mp hx with hx | hx
      · exact hn x hx
      · rw [List.mem_singleton.mp hx]; exact h
    constructor
    · rintro ⟨q, hq, he, hi⟩
      obtain ⟨r, hr, rfl⟩ := List.mem_map.mp hq
      rw [List.mem_filter, decide_eq_true_eq] at hr
      refine ⟨hi, r, hr.1, ?_⟩
      have he' : r.name = join '/' (ns ++ [n]) := he
      rw [he', placeOf_join (by simp) (hall hi)]
    · rintro ⟨hi, r, hr, he⟩
      refine ⟨toS r, List.mem_map.mpr ⟨r, List.mem_filter.mpr ⟨hr, by simp [he]⟩, rfl⟩, ?_, hi⟩
      show r.name = _
      rw [hname r hr (by simp [he]), he]
  unfold list
  rw [if_pos hf]
  show n ∈ (Dict.update [] _).keys ↔ _
  rw [mem_update, ← hrow, ← hmem n, hin]
  have hsel : (∃ p ∈ (selected rs (canonical ns)).map (fun p => (shownName (canonical ns) p.2, info p.1 p.2)), p.1 = n) ↔
      ∃ p ∈ selected rs (canonical ns), shownName (canonical ns) p.2 = n := by
    constructor
    · rintro ⟨p, hp, rfl⟩
      obtain ⟨q, hq, rfl⟩ := List.mem_map.mp hp
      exact ⟨q, hq, rfl⟩
    · rintro ⟨q, hq, rfl⟩
      exact ⟨_, List.mem_map.mpr ⟨q, hq, rfl⟩, rfl⟩
  rw [hsel, mem_selected]
  have hg := Sqlar.pathGlob_canonical ns hn
  constructor
  · rintro ⟨r, hr, h1, h2, h3⟩
    by_cases he : placeOf r.name = []
    · left
      have hd := hdot r hr he
      have hns : ns = [] := by
        apply Decidable.byContradiction
        intro hne
        rw [hg] at h1
        have hpl : Sqlar.Plain (Rar.pathOf ns true) := plain_pathOf ns hp
        obtain ⟨t, ht, -⟩ := (Sqlar.glob_plain ['*'] _ hpl r.name).mp h1
        have : '/' ∈ r.name := by rw [ht]; exact List.mem_append_left _ (pathOf_slash hne)
        rw [hd] at this
        simp at this
      subst hns
      refine ⟨rfl, ?_, r, hr, hd⟩
      rw [← h3, hd]
      rfl
    · right
      exact ⟨r, hr, he, h1, h2, h3⟩
  · rintro (⟨rfl, rfl, r, hr, he⟩ | ⟨r, hr, -, h⟩)
    · refine ⟨r, hr, ?_, ?_, ?_⟩
      · rw [he]; decide +kernel
      · rw [he]; decide +kernel
      · rw [he]; rfl
    · exact ⟨r, hr, h⟩

theorem list_denormal {rs : List Rec} (hs : Sane rs) (hf : Sqlar.filesOf (rs.map toS) ≠ []) {ns : List Str} (hn : ∀ n ∈ ns, IsName n) (n : Str) :
    n ∈ (list rs (canonical ns)).keys ↔
      (ns = [] ∧ n = ['.'] ∧ ∃ r ∈ rs, placeOf r.name = []) ∨ ∃ rest, (∀ m ∈ n :: rest, IsName m) ∧ ∃ r ∈ rs, placeOf r.name = ns ++ n :: rest := by
  have hkeys : ∀ k, k ∈ (Sqlar.filesOf (rs.map toS)).keys ↔ ∃ r ∈ rs, Sqlar.norm r.name = k := by
    intro k
    unfold Sqlar.filesOf at hf ⊢
    split
    · rw [mem_update]
      constructor
      · rintro ⟨p, hp, rfl⟩
        obtain ⟨q, hq, rfl⟩ := List.mem_map.mp hp
        obtain ⟨r, hr, rfl⟩ := List.mem_map.mp hq
        exact ⟨r, hr, rfl⟩
      · rintro ⟨r, hr, rfl⟩
        exact ⟨_, List.mem_map.mpr ⟨toS r, List.mem_map.mpr ⟨r, hr, rfl⟩, rfl⟩, rfl⟩
    · next ha => rw [if_neg ha] at hf; exact absurd rfl hf
  unfold list
  rw [if_neg hf]
  show n ∈ Sqlar.listNames _ _ ↔ _
  generalize hF : Sqlar.filesOf (rs.map toS) = files at *
  have hd := Sqlar.C79_denormal_partial (files.filter (fun p => decide (p.1 ≠ ['.']))) (by
    intro k hk
    obtain ⟨p, hp, rfl⟩ := List.mem_map.mp hk
    rw [List.mem_filter, decide_eq_true_eq] at hp
    obtain ⟨r, hr, he⟩ := (hkeys p.1).mp (List.mem_map.mpr ⟨p, hp.1, rfl⟩)
    rw [norm_eq (hs.up r hr)] at he
    split at he
    · exact absurd he.symm hp.2
    · next h0 => exact ⟨_, h0, placeOf_name (hs.up r hr), he.symm⟩) ns hn n
  have hk' : ∀ k, k ∈ Dict.keys (files.filter (fun p => decide (p.1 ≠ ['.']))) ↔ k ∈ files.keys ∧ k ≠ ['.'] := by
    intro k
    unfold Dict.keys
    simp only [List.mem_map, List.mem_filter, decide_eq_true_eq]
    constructor
    · rintro ⟨p, ⟨h1, h2⟩, rfl⟩; exact ⟨⟨p, h1, rfl⟩, h2⟩
    · rintro ⟨⟨p, h1, rfl⟩, h2⟩; exact ⟨p, ⟨h1, h2⟩, rfl⟩
  have hright : (∃ rest, join '/' (ns ++ n :: rest) ∈ Dict.keys (files.filter (fun p => decide (p.1 ≠ ['.']))) ∧ ∀ m ∈ n :: rest, IsName m) ↔
      ∃ rest, (∀ m ∈ n :: rest, IsName m) ∧ ∃ r ∈ rs, placeOf r.name = ns ++ n :: rest := by
    constructor
    · rintro ⟨rest, h1, h2⟩
      have hall : ∀ m ∈ ns ++ n :: rest, IsName m := by
        intro m hm
        rcases List.mem_append.mp hm with hm | hm
        · exact hn m hm
        · exact h2 m hm
      obtain ⟨r, hr, he⟩ := (hkeys _).mp ((hk' _).mp h1).1
      exact ⟨rest, h2, r, hr, (norm_join_iff (hs.up r hr) (by simp) hall).mp he⟩
    · rintro ⟨rest, h2, r, hr, he⟩
      have hall : ∀ m ∈ ns ++ n :: rest, IsName m := by
        intro m hm
        rcases List.mem_append.mp hm with hm | hm
        · exact hn m hm
        · exact h2 m hm
      exact ⟨rest, (hk' _).mpr ⟨(hkeys _).mpr ⟨r, hr, (norm_join_iff (hs.up r hr) (by simp) hall).mpr he⟩, Ne.symm (dot_ne_join (by simp) hall)⟩, h2⟩
  rw [← hright, ← hd]
  have hpath : (if lstrip '/' (canonical ns) ≠ [] ∧ endsWith ['/'] (lstrip '/' (canonical ns)) = false then lstrip '/' (canonical ns) ++ ['/']
      else lstrip '/' (canonical ns)) = Rar.pathOf ns true := listPath ns hn
  unfold Sqlar.listNames
  simp only
  rw [hpath, Sqlar.mem_namesLoop, Sqlar.mem_namesLoop]
  constructor
  · rintro (h | ⟨x, hx, h1, h2⟩)
    · cases h
    · by_cases hxd : x = ['.']
      · left
        subst hxd
        obtain ⟨t, ht⟩ := (Rar.startsWith_iff _ _).mp h1
        have hns : ns = [] := by
          apply Decidable.byContradiction
          intro hne
          have : '/' ∈ ['.'] := by rw [← ht]; exact List.mem_append_left _ (pathOf_slash hne)
          simp at this
        subst hns
        obtain ⟨r, hr, he⟩ := (hkeys _).mp hx
        refine ⟨rfl, ?_, r, hr, ?_⟩
        · rw [← h2]; rfl
        · rw [norm_eq (hs.up r hr)] at he
          split at he
          · assumption
          · next h0 => exact absurd he.symm (dot_ne_join h0 (placeOf_name (hs.up r hr)))
      · right; right
        exact ⟨x, (hk' x).mpr ⟨hx, hxd⟩, h1, h2⟩
  · rintro (⟨rfl, rfl, r, hr, he⟩ | h | ⟨x, hx, h1, h2⟩)
    · right
      refine ⟨['.'], (hkeys _).mpr ⟨r, hr, by rw [norm_eq (hs.up r hr), if_pos he]⟩, rfl, rfl⟩
    · cases h
    · right
      exact ⟨x, ((hk' x).mp hx).1, h1, h2⟩

/-- **C213**, listing: a folder shows exactly the names of the rows in it, if the names on its path have no characters `*`, `?`, `[`, or some name
in the archive is not normal. Missing: the other folders (see `C213_listing_violated`). -/
theorem C213_list_partial (rs : List Rec) (hs : Sane rs) (hc : Closed rs) (ns : List Str) (hn : ∀ n ∈ ns, IsName n)
    (hp : (∀ n ∈ ns, '*' ∉ n ∧ '?' ∉ n ∧ '[' ∉ n) ∨ ∃ r ∈ rs, r.name ≠ ['.'] ∧ r.name ≠ join '/' (placeOf r.name)) (n : Str) :
    n ∈ mreaddir (source rs) (canonical ns) ↔ n = ['.'] ∨ n = ['.', '.'] ∨ (IsName n ∧ ∃ r ∈ rs, placeOf r.name = ns ++ [n]) := by
  have hm : n ∈ mreaddir (source rs) (canonical ns) ↔ n = ['.'] ∨ n = ['.', '.'] ∨ n ∈ (list rs (canonical ns)).keys := by
    unfold mreaddir Compose.vlist source
    simp only [Option.map_some, Option.getD_some, List.mem_cons]
    have : (Compose.pushAll (list rs (canonical ns))).keys = (list rs (canonical ns)).keys := by
      cases list rs (canonical ns) with
      | names l => rfl
      | dict d => simp [Compose.pushAll, Compose.Listing.keys, Dict.keys, List.map_map]
    rw [this]
  rw [hm]
  by_cases hf : Sqlar.filesOf (rs.map toS) = []
  · have hpl : ∀ n ∈ ns, Sqlar.Plain n := by
      rcases hp with hp | ⟨r, hr, h1, h2⟩
      · exact hp
      · have := filesOf_normal.mp hf r hr
        rw [norm_eq (hs.up r hr)] at this
        split at this
        · exact absurd this.symm h1
        · exact absurd this.symm h2
    rw [list_normal hs hf hn hpl]
    constructor
    · rintro (h | h | ⟨-, h, -⟩ | h)
      · exact Or.inl h
      · exact Or.inr (Or.inl h)
      · exact Or.inl h
      · exact Or.inr (Or.inr h)
    · rintro (h | h | h)
      · exact Or.inl h
      · exact Or.inr (Or.inl h)
      · exact Or.inr (Or.inr (Or.inr h))
  · rw [list_denormal hs hf hn]
    constructor
    · rintro (h | h | ⟨-, h, -⟩ | ⟨rest, h1, h2⟩)
      · exact Or.inl h
      · exact Or.inr (Or.inl h)
      · exact Or.inl h
      · exact Or.inr (Or.inr ⟨h1 n List.mem_cons_self, closed_above hc rest.length (ns ++ [n]) rest rfl (by simp) (by simpa using h2)⟩)
    · rintro (h | h | ⟨h1, h2⟩)
      · exact Or.inl h
      · exact Or.inr (Or.inl h)
      · exact Or.inr (Or.inr (Or.inr ⟨[], by simpa using h1, h2⟩))

/-- **C213**, listing: `list_mode`, which FUSE uses, gives the same names as `list`. -/
theorem C213_modes (rs : List Rec) (path : Str) (n : Str) : n ∈ (listMode rs path).keys ↔ n ∈ (list rs path).keys := by
  unfold listMode list
  split
  · show n ∈ (Dict.update [] _).keys ↔ n ∈ (Dict.update [] _).keys
    rw [mem_update, mem_update]
    constructor
    · rintro ⟨p, hp, rfl⟩
      obtain ⟨q, hq, rfl⟩ := List.mem_map.mp hp
      exact ⟨_, List.mem_map.mpr ⟨q, hq, rfl⟩, rfl⟩
    · rintro ⟨p, hp, rfl⟩
      obtain ⟨q, hq, rfl⟩ := List.mem_map.mp hp
      exact ⟨_, List.mem_map.mpr ⟨q, hq, rfl⟩, rfl⟩
  · exact Iff.rfl

/-! ## versions -/

theorem api_plain (ds : List Str) : Compose.apiPath (ds.map (fun x => ((x, none) : Compose.Step))) = ds := by
  unfold Compose.apiPath
  rw [List.flatMap_map]
  simp only [Compose.Step.parts]
  exact List.flatMap_singleton' ds

theorem plain_plain (ds : List Str) : Compose.plainPath (ds.map (fun x => ((x, none) : Compose.Step))) = ds := by
  unfold Compose.plainPath
  rw [List.map_map]
  exact List.map_id ds

theorem readable {rs : List Rec} (hs : Sane rs) (hc : Closed rs) {ds : List Str} (hn : ∀ x ∈ ds, IsName x) (hd : ds = [] ∨ ∃ r ∈ rs, placeOf r.name = ds) :
    Compose.Readable (source rs) (ds.map (fun x => ((x, none) : Compose.Step))) := by
  intro pre st post he
  obtain ⟨a, b, rfl, ha, hb⟩ := List.map_eq_append_iff.mp he
  obtain ⟨x, b', rfl, rfl, hb'⟩ := List.map_eq_cons_iff.mp hb
  simp only
  rw [← ha, plain_plain]
  have hex : ∃ r ∈ rs, placeOf r.name = a ++ [x] := by
    rcases hd with e | hd
    · simp at e
    · exact closed_above hc b'.length (a ++ [x]) b' rfl (by simp) (by simpa using hd)
  obtain ⟨r, hr⟩ := lastAt_isSome.mp hex
  obtain ⟨k, -, h1⟩ := lookup_some hs (by simp) (fun y hy => hn y (by
    simp at hy ⊢
    rcases hy with e | e
    · exact Or.inl e
    · exact Or.inr (Or.inl e))) hr
  have : (source rs).lookup (canonical (a ++ [x])) 0 = lookup rs (canonical (a ++ [x])) := rfl
  rw [this, h1]
  rfl

/-- **C213**, versions: there is one version, and it is found for every number. -/
theorem C213_version (rs : List Rec) (hs : Sane rs) (hc : Closed rs) (ds : List Str) (n : Str) (hn : ∀ x ∈ ds ++ [n], IsName x)
    (hex : ∃ r ∈ rs, placeOf r.name = ds ++ [n]) (hfree : ∀ r ∈ rs, placeOf r.name ≠ ds ++ [n ++ ".versions".toList]) (k : Nat) :
    (source rs).versions (canonical (ds ++ [n])) = 1 ∧
      mlookup (source rs) (canonical (ds ++ [n ++ ".versions".toList, natStr k])) = mlookup (source rs) (canonical (ds ++ [n])) := by
  have hdv : ".versions".toList = dotVersions := rfl
  have hlen : dotVersions.length = 9 := rfl
  have hsl : '/' ∉ dotVersions := by decide
  rw [hdv] at *
  have hmem : ∀ x ∈ ds, IsName x := fun x hx => hn x (by simp [hx])
  have hnn := hn n (by simp)
  have hvn : IsName (n ++ dotVersions) := by
    refine ⟨by simp [hnn.1], by rw [List.mem_append]; rintro (e | e); exact hnn.2.1 e; exact hsl e, ?_, ?_⟩
    · intro e; have := congrArg List.length e; simp [hlen] at this
    · intro e; have := congrArg List.length e; simp [hlen] at this
  have hkn : IsName (natStr k) := ThinMount.isName_natStr k
  obtain ⟨r, hr⟩ := lastAt_isSome.mp hex
  obtain ⟨j, hj, hlk⟩ := lookup_some hs (by simp) hn hr
  have hd : ds = [] ∨ ∃ r ∈ rs, placeOf r.name = ds := by
    by_cases e : ds = []
    · exact Or.inl e
    · exact Or.inr (closed_above hc 1 ds [n] rfl e hex)
  have hnv : lastAt rs (ds ++ [n ++ dotVersions]) = none := by
    cases h : lastAt rs (ds ++ [n ++ dotVersions]) with
    | none => rfl
    | some q => exact absurd (lastAt_mem h).2 (hfree q (lastAt_mem h).1)
  have hnvk : lastAt rs (ds ++ [n ++ dotVersions, natStr k]) = none := by
    cases h : lastAt rs (ds ++ [n ++ dotVersions, natStr k]) with
    | none => rfl
    | some q =>
      obtain ⟨q', hq', he'⟩ := hc q (lastAt_mem h).1 (ds ++ [n ++ dotVersions]) (natStr k) (by rw [(lastAt_mem h).2]; simp) (by simp)
      exact absurd he' (hfree q' hq')
  have hlv : (source rs).lookup (canonical (ds ++ [n ++ dotVersions])) 0 = none := lookup_none hs (by simp) (by
    intro x hx
    rcases List.mem_append.mp hx with e | e
    · exact hmem x e
    · rw [List.mem_singleton.mp e]; exact hvn) hnv
  have hdeep : (source rs).lookup (canonical (ds ++ [n ++ dotVersions, natStr k])) 0 = none := lookup_none hs (by simp) (by
    intro x hx
    rcases List.mem_append.mp hx with e | e
    · exact hmem x e
    · simp only [List.mem_cons, List.not_mem_nil, or_false] at e
      rcases e with rfl | rfl
      · exact hvn
      · exact hkn) hnvk
  refine ⟨?_, ?_⟩
  · show (if (lookup rs (canonical (ds ++ [n]))).isSome then 1 else 0) = 1
    rw [hlk]
    rfl
  · have hr' : Compose.Readable (source rs) (ds.map (fun x => ((x, none) : Compose.Step)) ++ [(n, some (k : Int))]) := by
      intro pre st post he
      rcases List.eq_nil_or_concat post with rfl | ⟨post', z, rfl⟩
      · have := List.append_inj' he rfl
        obtain ⟨h1, h2⟩ := this
        cases h2
        simp only
        rw [← h1, plain_plain]
        exact hlv
      · rw [List.concat_eq_append] at he
        have he' : ds.map (fun x => ((x, none) : Compose.Step)) ++ [(n, some (k : Int))] = (pre ++ st :: post') ++ [z] := by rw [he]; simp
        obtain ⟨h1, h2⟩ := List.append_inj' he' rfl
        exact readable hs hc hmem hd pre st post' h1
    have hint : intStr (k : Int) = natStr k := rfl
    have hapi : Compose.apiPath (ds.map (fun x => ((x, none) : Compose.Step)) ++ [(n, some (k : Int))]) = ds ++ [n ++ dotVersions, natStr k] := by
      have := api_plain ds
      unfold Compose.apiPath at this ⊢
      rw [List.flatMap_append, this]
      simp [Compose.Step.parts, hint]
    have hplain : Compose.plainPath (ds.map (fun x => ((x, none) : Compose.Step)) ++ [(n, some (k : Int))]) = ds ++ [n] := by
      have := plain_plain ds
      unfold Compose.plainPath at this ⊢
      rw [List.map_append, this]
      rfl
    have hlast : Compose.lastVersion (ds.map (fun x => ((x, none) : Compose.Step)) ++ [(n, some (k : Int))]) = k := by
      unfold Compose.lastVersion
      rw [List.getLast?_concat]
    have := Compose.C34_version (source rs) mp _ (by simp) (by
      intro st hst
      rcases List.mem_append.mp hst with e | e
      · obtain ⟨x, hx, rfl⟩ := List.mem_map.mp e
        exact ⟨(hmem x hx).1, (hmem x hx).2.1⟩
      · rw [List.mem_singleton.mp e]; exact ⟨hnn.1, hnn.2.1⟩) hr' (by rw [hapi]; exact hdeep)
    rw [hapi, hplain, hlast] at this
    have hlk' : ∀ v, (source rs).lookup (canonical (ds ++ [n])) v = some (info j r) := fun _ => hlk
    rw [hlk'] at this
    unfold mlookup
    rw [this, Compose.C34_other _ mp _ _ (hlk' 0) (info_hard hs (lastAt_mem hr).1 j)]
    rfl

/-! ## what is missing -/

/-- The whole claim about names: everything in the archive is in a folder that exists and lists it, and its versions folder lists the version. -/
def C213_statement : Prop :=
  ∀ (rs : List Rec), Sane rs → ∀ r ∈ rs, ∀ ns n, placeOf r.name = ns ++ [n] →
    (∃ st, mgetattr (frows 0 0 rs) (source rs) (canonical ns) = .ok st) ∧ n ∈ mreaddir (source rs) (canonical ns) ∧
      ((∀ q ∈ rs, placeOf q.name ≠ ns ++ [n ++ ".versions".toList]) → ['1'] ∈ mreaddir (source rs) (canonical (ns ++ [n ++ ".versions".toList])))

/-- Only the file was added to the archive, not its folder. -/
def alone : List Rec := [⟨1, "d/x".toList, 0o100644, 5, 2, .blob [1, 2]⟩]

/-- Two folders, a stored and a compressed file, and a link. -/
def sample : List Rec := [⟨1, "d".toList, 0o40755, 5, 0, .null⟩, ⟨2, "d/x".toList, 0o100644, 6, 2, .blob [1, 2]⟩,
  ⟨3, "d/y".toList, 0o100600, 7, 4, .blob [9]⟩, ⟨4, "d/l".toList, 0o120777, 8, -1, .text "x".toList⟩]

/-- A decompression for the examples. -/
def unpack (b : Bytes) : Option Bytes := if b = [9] then some [5, 6, 7, 8] else none

/-- A folder whose name is a pattern. -/
def odd : List Rec := [⟨1, "[a]".toList, 0o40755, 5, 0, .null⟩, ⟨2, "[a]/x".toList, 0o100644, 6, 2, .blob [1, 2]⟩]

instance (rs : List Rec) : Decidable (Sane rs) :=
  decidable_of_iff ((rs.map Rec.rowid).Nodup ∧ (rs.map Rec.name).Nodup ∧ (∀ r ∈ rs, ['.', '.'] ∉ split '/' r.name) ∧
      ∀ r ∈ rs, r.sz = -1 → r.mode &&& 0xF000 = 0xA000)
    ⟨fun ⟨a, b, c, d⟩ => ⟨a, b, c, d⟩, fun ⟨a, b, c, d⟩ => ⟨a, b, c, d⟩⟩

theorem alone_sane : Sane alone := by decide +kernel
theorem sample_sane : Sane sample := by decide +kernel
theorem odd_sane : Sane odd := by decide +kernel

theorem sample_closed : Closed sample := by
  intro r hr ns n he hne
  have hall : ∀ r ∈ sample, placeOf r.name = ["d".toList] ∨ (placeOf r.name).dropLast = ["d".toList] := by decide +kernel
  rcases hall r hr with h | h
  · rw [h] at he
    have := congrArg List.length he
    have : ns.length = 0 := by simpa using this.symm
    exact absurd (List.eq_nil_of_length_eq_zero this) hne
  · rw [he, List.dropLast_concat] at h
    exact ⟨_, List.mem_cons_self, by rw [h]; decide +kernel⟩

theorem name_d : IsName ['d'] := by unfold IsName; decide
theorem name_x : IsName ['x'] := by unfold IsName; decide

/-- The hypotheses of the theorems are met. -/
example : lastAt sample [['d'], ['x']] = some ⟨2, "d/x".toList, 0o100644, 6, 2, .blob [1, 2]⟩ ∧
    Stores unpack ⟨2, "d/x".toList, 0o100644, 6, 2, .blob [1, 2]⟩ [1, 2] ∧ Stores unpack ⟨3, "d/y".toList, 0o100600, 7, 4, .blob [9]⟩ [5, 6, 7, 8] ∧
    lastAt sample [['d'], ['z']] = none ∧ lastAt sample [['d']] = some ⟨1, "d".toList, 0o40755, 5, 0, .null⟩ :=
  ⟨by decide +kernel, ⟨by decide, [1, 2], rfl, Or.inl rfl⟩, ⟨by decide, [9], rfl, Or.inr ⟨by decide, by decide⟩⟩, by decide +kernel, by decide +kernel⟩

/-- What is read, listed and shown. -/
example : (mread (lib unpack sample) (mopen (lib unpack sample) (frows 0 0 sample) (source sample) (start ()) "/d/y".toList).1 1 2 1).2 = .ok [6, 7] ∧
    mreaddir (source sample) "/d".toList = [['.'], ['.', '.'], ['x'], ['y'], ['l']] ∧
    mreadlink (source sample) "/d/l".toList = .ok ['x'] ∧
    mgetattr (frows 1000 100 sample) (source sample) "/d/x".toList = .ok ⟨0o100644, 2, 6, 1000, 100⟩ := by decide +kernel

/-- An archive with the names that `.` as an argument gives. -/
example : mreaddir (source [⟨1, ".".toList, 0o40755, 5, 0, .null⟩, ⟨2, "./[a]".toList, 0o40755, 5, 0, .null⟩, ⟨3, "./[a]/x".toList, 0o100644, 6, 2, .blob [1, 2]⟩])
    "/[a]".toList = [['.'], ['.', '.'], ['x']] := by decide +kernel

/-- C213 is violated: of an archive to which only the file `d/x` was added, the folder `d` does not exist, so that nothing can reach the file. -/
theorem C213_violated : ¬ C213_statement := by
  intro h
  obtain ⟨⟨st, hst⟩, -⟩ := h alone alone_sane _ List.mem_cons_self [['d']] ['x'] (by decide +kernel)
  have : mgetattr (frows 0 0 alone) (source alone) (canonical [['d']]) = .error (.os 2) := by decide +kernel
  rw [this] at hst
  cases hst

/-- C213 is violated: such a file is in no folder that is listed. -/
theorem C213_alone_violated : mreaddir (source alone) ['/'] = [['.'], ['.', '.']] := by decide +kernel

/-- C213 is violated: the folder `[a]` exists, but does not show its file, which can be opened. -/
theorem C213_listing_violated : mreaddir (source odd) "/[a]".toList = [['.'], ['.', '.']] ∧
    (mread (lib unpack odd) (mopen (lib unpack odd) (frows 0 0 odd) (source odd) (start ()) "/[a]/x".toList).1 1 2 0).2 = .ok [1, 2] := by decide +kernel

/-- C213 is violated: versions folders are empty, and so are the versions of folders; what is in them exists nevertheless. -/
theorem C213_versions_violated :
    mreaddir (source sample) "/d/x.versions".toList = [['.'], ['.', '.']] ∧
    mreaddir (source sample) "/d.versions/1".toList = [['.'], ['.', '.']] ∧
    mgetattr (frows 0 0 sample) (source sample) "/d/x.versions/1".toList = .ok ⟨0o100644, 2, 6, 0, 0⟩ ∧
    mgetattr (frows 0 0 sample) (source sample) "/d/x.versions/7".toList = .ok ⟨0o100644, 2, 6, 0, 0⟩ := by decide +kernel

/-- Reading behind the end of a stored file is an error, but of a compressed file it is not. The kernel does not do it. -/
theorem C213_behind_violated :
    (mread (lib unpack sample) (mopen (lib unpack sample) (frows 0 0 sample) (source sample) (start ()) "/d/x".toList).1 1 1 3).2 = .error .valueError ∧
    (mread (lib unpack sample) (mopen (lib unpack sample) (frows 0 0 sample) (source sample) (start ()) "/d/y".toList).1 1 1 5).2 = .ok [] := by decide +kernel

end Verif.Fuse.SqlarMount
