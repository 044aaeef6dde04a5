import Verif.Formats.Rar
import Verif.Fuse.SqlarMount

/-!
# C214: a mounted RAR archive
(core/ratarmountcore/mountsource/formats/rar.py, core/ratarmountcore/mountsource/compositing/versioning.py, ratarmount/FuseMount.py)

The library rarfile is represented by the entries it gives and by the contents it opens; what is found and listed is modelled in
`Verif.Formats.Rar`. `FileVersionLayer` and `FuseMount` are above it, as for the other archives (`Verif.Fuse.LibMount`).

`file_redir` of rarfile is the kind of a redirection, its flags and its target. The kinds of RAR 5 are 1: a symbolic link of Unix, 2 and 3: of Windows,
4: a hard link, 5: a copy of another file. For the last two, the target is the path of the other file in the archive, and `RarFile.open` opens that file.

Simplified: the archive is not encrypted, file objects of rarfile give ranges of the contents. Opening links of the kinds 1 to 3 as files is not modelled, the
kernel does not do it. The time of folders without an entry is not modelled.
-/

namespace Verif.Fuse.RarMount

open Verif.Py Verif.Index
open Verif.Tar (Bytes)
open Verif.Compose (Source Listing dotVersions)
open Verif.Fuse.TarMount (mp mlookup mreaddir Call)
open Verif.Fuse.IndexMount (FRow Stat column statOf mgetattr mreadlink)
open Verif.Fuse.LibMount (Lib Mount mopen mread calls start Serves)
open Verif.Rar (pathOf Files Found)

/-! ## model -/

/-- An entry of `infolist()` (rar.py:51, 91-113): `RarInfo`, and what is stored for it. -/
structure Entry where
  path : Str
  dir : Bool
  redir : Option (Nat × Str)
  mode : Nat
  mtime : Nat
  data : Bytes
  deriving DecidableEq, Repr

/-- `_get_mode` (rar.py:90-92). -/
def getMode (e : Entry) : Nat := e.mode ||| (if e.redir.isSome then 0xA000 else if e.dir then 0x4000 else 0x8000)

/-- `info.file_redir[2] if info.file_redir else ""` (rar.py:109). -/
def linkOf (e : Entry) : Str := (e.redir.map Prod.snd).getD []

/-- `self.files` (rar.py:51). The attributes are referred to by the number of the entry. -/
def files (es : List Entry) : Files := Rar.files (es.mapIdx (fun k e => (e.path, ⟨e.dir, e.redir.isSome, k⟩)))

/-- The columns that are shown, by `_convert_to_file_info` (rar.py:94-115). The number of the entry is kept as the offset. -/
def frow (uid gid : Nat) (k : Nat) (e : Entry) : FRow := ⟨[], [], 0, k, e.data.length, e.mtime, getMode e, linkOf e, uid, gid, false⟩

/-- All of them (rar.py:94-115). -/
def frows (uid gid : Nat) (es : List Entry) : List FRow := es.mapIdx (frow uid gid)

/-- `_convert_to_file_info` (rar.py:94-115). -/
def info (k : Nat) (e : Entry) : Compose.FileInfo := ⟨getMode e, linkOf e, k + 1, [.own k]⟩

/-- What `_lookups` gives (rar.py:164-194). The root and folders without entry have no data (`None`). -/
def infoOf (es : List Entry) : Found → Option Compose.FileInfo
  | .root => some ⟨0o40777, [], 0, [.own 0]⟩
  | .implied => some ⟨0o40777, [], 0, [.own 0]⟩
  | .entry _ i => (es[i.id]?).map (info i.id)

/-- `RarMountSource` (rar.py:117-203). -/
def source (es : List Entry) : Source where
  id := 0
  immutable := true
  lookup path v := (Rar.lookup (files es) path v).bind (infoOf es)
  versions path := Rar.versions (files es) path
  list path := some (.dict ((Rar.listing (files es) path).filterMap (fun p => (es[p.2.id]?).map (fun e => (p.1, info p.2.id e)))))
  listMode path := some (.dict ((Rar.listing (files es) path).filterMap (fun p => (es[p.2.id]?).map (fun e => (p.1, getMode e)))))

/-- `open` (rar.py:205-210) and `RarFile.open`: hard links and copies are opened at their target. -/
def openEntry (es : List Entry) (k : Nat) : Except PyErr Bytes :=
  match es[k]? with
  | none => .error .typeError
  | some e =>
    if e.dir then .error .runtimeError
    else
      match e.redir with
      | none => .ok e.data
      | some (kind, target) =>
        if kind = 4 ∨ kind = 5 then
          match es.find? (fun q => decide (q.path = target)) with
          | none => .error .runtimeError
          | some q => .ok q.data
        else .error .runtimeError

/-- The mount source and the file objects of rarfile (rar.py:205-210). -/
def lib (es : List Entry) : Lib Unit Bytes where
  openRow _ r := ((), openEntry es r.offset)
  pread _ o size offset := ((), o, .ok ((o.drop offset).take size))
  close _ _ := ()

/-! ## specification -/

/-- The names of a path, without empty components and `.`. -/
def placeOf (name : Str) : List Str := (split '/' name).filter (fun c => decide (c ≠ [] ∧ c ≠ ['.']))

/-- What the programs that write such archives keep: paths are relative and made of names, folders end with a slash, and no place is
that of two entries. -/
structure Packed (es : List Entry) : Prop where
  path : ∀ e ∈ es, ∃ ms, ms ≠ [] ∧ (∀ m ∈ ms, IsName m) ∧ e.path = join '/' ms ++ (if e.dir then ['/'] else [])
  once : (es.map (fun e => placeOf e.path)).Nodup

/-- The file type in the attributes, if there is one, is the one of the entry. -/
def Typed (e : Entry) : Prop :=
  match e.redir with
  | some _ => e.mode &&& 0xF000 = 0 ∨ e.mode &&& 0xF000 = 0x8000 ∨ e.mode &&& 0xF000 = 0xA000
  | none => e.mode &&& 0xF000 = 0 ∨ e.mode &&& 0xF000 = if e.dir then 0x4000 else 0x8000

instance (e : Entry) : Decidable (Typed e) := by unfold Typed; exact (by split <;> infer_instance)

/-- Where the kernel goes for a relative target of a link in this folder. -/
def follow (folder : List Str) (target : Str) : Str := canonical (Index.walk folder (split '/' target))

/-! ## what is found -/

theorem placeOf_eq (name : Str) : placeOf name = SqlarMount.placeOf name := rfl

theorem path_eq (ms : List Str) (hne : ms ≠ []) (b : Bool) : join '/' ms ++ (if b then ['/'] else []) = pathOf ms b := by
  cases b with
  | false => simp [Rar.pathOf_false]
  | true => rw [Rar.pathOf_true ms hne]; rfl

theorem placeOf_pathOf {ms : List Str} (hne : ms ≠ []) (hn : ∀ m ∈ ms, IsName m) (b : Bool) : placeOf (pathOf ms b) = ms := by
  unfold placeOf
  rw [Rar.split_pathOf ms b hne hn, List.filter_append]
  have h1 : ms.filter (fun c => decide (c ≠ [] ∧ c ≠ ['.'])) = ms := by
    rw [List.filter_eq_self]
    intro n h
    simp only [decide_eq_true_eq]
    exact ⟨(hn n h).1, (hn n h).2.2.1⟩
  rw [h1]
  cases b <;> simp

theorem update_nodup {V : Type} (l : List (Str × V)) : ∀ (d : Dict Str V), ((d.keys ++ l.map Prod.fst).Nodup) → Dict.update d l = d ++ l := by
  induction l with
  | nil => intro d _; simp [Dict.update]
  | cons p l ih =>
    intro d h
    show Dict.update (d.set p.1 p.2) l = _
    have hnew : p.1 ∉ d.keys := by
      intro hm
      rw [List.nodup_append] at h
      exact h.2.2 _ hm p.1 (by simp) rfl
    have hset : d.set p.1 p.2 = d ++ [p] := by
      clear ih h
      induction d with
      | nil => rfl
      | cons q d ih =>
        rw [Dict.keys_cons, List.mem_cons, not_or] at hnew
        have := ih hnew.2
        simp only [Dict.set]
        rw [if_neg (fun e => hnew.1 e.symm), this]
        rfl
    rw [hset, ih (d ++ [p])]
    · simp
    · simpa [Dict.keys] using h

theorem files_eq {es : List Entry} (hp : Packed es) : files es = es.mapIdx (fun k e => (e.path, ⟨e.dir, e.redir.isSome, k⟩)) := by
  unfold files Rar.files
  have hclean : ∀ e ∈ es, Rar.clean e.path = e.path := by
    intro e he
    obtain ⟨ms, hne, hn, h⟩ := hp.path e he
    rw [h, path_eq ms hne]
    exact Rar.C76_clean ms _ hne hn
  have hmap : (es.mapIdx (fun k e => (e.path, (⟨e.dir, e.redir.isSome, k⟩ : Rar.Info)))).map (fun e => (Rar.clean e.1, e.2)) =
      es.mapIdx (fun k e => (e.path, ⟨e.dir, e.redir.isSome, k⟩)) := by
    apply List.ext_getElem?
    intro i
    simp only [List.getElem?_map, List.getElem?_mapIdx]
    cases hi : es[i]? with
    | none => rfl
    | some e => simp [hclean e (List.mem_of_getElem? hi)]
  rw [hmap, update_nodup]
  · rfl
  · have hk : (es.mapIdx (fun k e => (e.path, (⟨e.dir, e.redir.isSome, k⟩ : Rar.Info)))).map Prod.fst = es.map Entry.path := by
      apply List.ext_getElem?
      intro i
      simp only [List.getElem?_map, List.getElem?_mapIdx]
      cases es[i]? <;> rfl
    show ([] ++ _).Nodup
    rw [hk, List.nil_append]
    have := hp.once
    rw [show es.map (fun e => placeOf e.path) = (es.map Entry.path).map placeOf by simp [List.map_map]] at this
    exact List.Pairwise.of_map _ (fun a b h e => h (by rw [e])) this

theorem files_proper {es : List Entry} (hp : Packed es) : Rar.Proper (files es) := by
  intro q hq
  rw [files_eq hp, List.mem_mapIdx] at hq
  obtain ⟨k, hk, rfl⟩ := hq
  obtain ⟨ms, hne, hn, h⟩ := hp.path _ (List.getElem_mem hk)
  exact ⟨ms, es[k].dir, hne, hn, by rw [← path_eq ms hne]; exact h⟩

theorem place_path {es : List Entry} (hp : Packed es) {e : Entry} (he : e ∈ es) {ns : List Str} (hne : ns ≠ []) (hn : ∀ m ∈ ns, IsName m) :
    placeOf e.path = ns ↔ ∃ b, e.path = pathOf ns b := by
  constructor
  · intro h
    obtain ⟨ms, hm, hmn, hpa⟩ := hp.path e he
    rw [path_eq ms hm] at hpa
    rw [hpa, placeOf_pathOf hm hmn] at h
    subst h
    exact ⟨_, hpa⟩
  · rintro ⟨b, h⟩
    rw [h, placeOf_pathOf hne hn]

theorem get_of_place {es : List Entry} (hp : Packed es) {i j : Nat} {a b : Entry} (ha : es[i]? = some a) (hb : es[j]? = some b)
    (h : placeOf a.path = placeOf b.path) : i = j := by
  have h1 : (es.map (fun e => placeOf e.path))[i]? = some (placeOf a.path) := by rw [List.getElem?_map, ha]; rfl
  have h2 : (es.map (fun e => placeOf e.path))[j]? = some (placeOf a.path) := by rw [List.getElem?_map, hb, h]; rfl
  have hi : i < (es.map (fun e => placeOf e.path)).length := by
    apply Decidable.byContradiction
    intro hc
    rw [List.getElem?_eq_none (by omega)] at h1
    cases h1
  have hj : j < (es.map (fun e => placeOf e.path)).length := by
    apply Decidable.byContradiction
    intro hc
    rw [List.getElem?_eq_none (by omega)] at h2
    cases h2
  rw [List.getElem?_eq_getElem hi] at h1
  rw [List.getElem?_eq_getElem hj] at h2
  have hnd := hp.once
  rw [List.nodup_iff_pairwise_ne, List.pairwise_iff_getElem] at hnd
  rcases Nat.lt_trichotomy i j with hlt | he | hgt
  · exact absurd (by rw [Option.some.inj h1, Option.some.inj h2]) (hnd i j hi hj hlt)
  · exact he
  · exact absurd (by rw [Option.some.inj h1, Option.some.inj h2]) (hnd j i hj hi hgt)

/-- An entry is found at its place. -/
theorem lookup_entry {es : List Entry} (hp : Packed es) {k : Nat} {e : Entry} (hk : es[k]? = some e) {ns : List Str} (hne : ns ≠ [])
    (hn : ∀ m ∈ ns, IsName m) (hpl : placeOf e.path = ns) : (source es).lookup (canonical ns) 0 = some (info k e) := by
  have hf := files_eq hp
  obtain ⟨b, hb⟩ := (place_path hp (List.mem_of_getElem? hk) hne hn).mp hpl
  have hget : (files es)[k]? = some (e.path, ⟨e.dir, e.redir.isSome, k⟩) := by
    rw [hf, List.getElem?_mapIdx, hk]
    rfl
  have hsplit : files es = (files es).take k ++ (e.path, ⟨e.dir, e.redir.isSome, k⟩) :: (files es).drop (k + 1) := by
    have hlt : k < (files es).length := by
      apply Decidable.byContradiction
      intro hc
      rw [List.getElem?_eq_none (by omega)] at hget
      cases hget
    rw [List.getElem?_eq_getElem hlt] at hget
    rw [← Option.some.inj hget, List.getElem_cons_drop, List.take_append_drop]
  have hpre : ∀ x ∈ (files es).take k, ∀ b, x.1 ≠ pathOf ns b := by
    intro x hx b' hxb
    obtain ⟨j, hj, hxe⟩ := List.getElem_of_mem hx
    have hjk : j < k := by
      have := hj
      rw [List.length_take] at this
      omega
    rw [List.getElem_take] at hxe
    have hxj : (files es)[j]? = some x := by rw [← hxe]; exact List.getElem?_eq_getElem _
    rw [hf, List.getElem?_mapIdx] at hxj
    cases hq : es[j]? with
    | none => rw [hq] at hxj; cases hxj
    | some q =>
      rw [hq] at hxj
      have hx1 : x.1 = q.path := by
        have := Option.some.inj hxj
        rw [← this]
      have hqp : placeOf q.path = ns := by rw [← hx1, hxb, placeOf_pathOf hne hn]
      have := get_of_place hp hq hk (by rw [hqp, hpl])
      omega
  have := (Rar.C76_lookup (files es) (files_proper hp) ns hne hn).2.2 _ _ _ hsplit ⟨b, hb⟩ hpre
  show (Rar.lookup (files es) (canonical ns) 0).bind (infoOf es) = _
  rw [this]
  show (es[k]?).map (info k) = _
  rw [hk]
  rfl

theorem below_iff {es : List Entry} (hp : Packed es) {ns : List Str} (hn : ∀ m ∈ ns, IsName m) :
    (∃ q ∈ files es, Rar.Below ns q) ↔ ∃ e ∈ es, ∃ rest, placeOf e.path = ns ++ rest := by
  rw [files_eq hp]
  constructor
  · rintro ⟨q, hq, rest, b, hr, h⟩
    rw [List.mem_mapIdx] at hq
    obtain ⟨k, hk, rfl⟩ := hq
    have he := List.getElem_mem hk
    refine ⟨_, he, rest, ?_⟩
    have h' : es[k].path = pathOf (ns ++ rest) b := h
    obtain ⟨ms, hm, hmn, hpa⟩ := hp.path _ he
    rw [h']
    apply placeOf_pathOf
    · intro hnil
      rw [h', hnil] at hpa
      have := congrArg List.length hpa
      rw [path_eq ms hm] at hpa
      have h2 := congrArg placeOf hpa
      rw [placeOf_pathOf hm hmn] at h2
      rw [← h2] at hm
      exact hm rfl
    · intro m hm'
      rcases List.mem_append.mp hm' with e | e
      · exact hn m e
      · exact hr m e
  · rintro ⟨e, he, rest, h⟩
    obtain ⟨k, hk, hke⟩ := List.getElem_of_mem he
    refine ⟨_, List.mem_mapIdx.mpr ⟨k, hk, rfl⟩, rest, e.dir, ?_, ?_⟩
    · obtain ⟨ms, hm, hmn, hpa⟩ := hp.path e he
      rw [path_eq ms hm] at hpa
      rw [hpa, placeOf_pathOf hm hmn] at h
      intro m hx
      exact hmn m (by rw [h]; exact List.mem_append_right _ hx)
    · show es[k].path = _
      rw [hke]
      obtain ⟨ms, hm, hmn, hpa⟩ := hp.path e he
      rw [path_eq ms hm] at hpa
      rw [hpa, placeOf_pathOf hm hmn] at h
      rw [hpa, h]

theorem lookup_implied {es : List Entry} (hp : Packed es) {ns : List Str} (hne : ns ≠ []) (hn : ∀ m ∈ ns, IsName m)
    (h0 : ∀ e ∈ es, placeOf e.path ≠ ns) (hb : ∃ e ∈ es, ∃ rest, placeOf e.path = ns ++ rest) :
    (source es).lookup (canonical ns) 0 = some ⟨0o40777, [], 0, [.own 0]⟩ := by
  have := (Rar.C76_lookup (files es) (files_proper hp) ns hne hn).2.1 (by
    intro q hq b hqb
    rw [files_eq hp, List.mem_mapIdx] at hq
    obtain ⟨k, hk, rfl⟩ := hq
    exact h0 _ (List.getElem_mem hk) ((place_path hp (List.getElem_mem hk) hne hn).mpr ⟨b, hqb⟩)) ((below_iff hp hn).mpr hb)
  show (Rar.lookup (files es) (canonical ns) 0).bind (infoOf es) = _
  rw [this]
  rfl

theorem lookup_missing {es : List Entry} (hp : Packed es) {ns : List Str} (hne : ns ≠ []) (hn : ∀ m ∈ ns, IsName m)
    (hb : ¬ ∃ e ∈ es, ∃ rest, placeOf e.path = ns ++ rest) : (source es).lookup (canonical ns) 0 = none := by
  have := (Rar.C76_lookup (files es) (files_proper hp) ns hne hn).1
  rw [below_iff hp hn] at this
  show (Rar.lookup (files es) (canonical ns) 0).bind (infoOf es) = _
  cases h : Rar.lookup (files es) (canonical ns) 0 with
  | none => rfl
  | some f => exact absurd (this.mp (by rw [h]; rfl)) hb

theorem type_or (m t : Nat) (ht : t &&& 0xF000 = t) : (m ||| t) &&& 0xF000 = (m &&& 0xF000) ||| t := by
  rw [Nat.and_or_distrib_right, ht]

theorem getMode_type {e : Entry} (ht : Typed e) :
    getMode e &&& 0xF000 = if e.redir.isSome then 0xA000 else if e.dir then 0x4000 else 0x8000 := by
  unfold getMode
  unfold Typed at ht
  rw [type_or _ _ (by split <;> (try split) <;> decide)]
  cases hr : e.redir with
  | some x =>
    rw [hr] at ht
    simp only [Option.isSome_some, if_true]
    rcases ht with h | h | h <;> rw [h] <;> decide
  | none =>
    rw [hr] at ht
    simp only [Option.isSome_none, Bool.false_eq_true, if_false]
    rcases ht with h | h <;> rw [h] <;> cases e.dir <;> decide

theorem info_hard {e : Entry} (ht : Typed e) (k : Nat) : Compose.isHardLink (info k e) = false := by
  have := getMode_type ht
  unfold Compose.isHardLink info linkOf
  simp only [this]
  cases hr : e.redir with
  | some x => simp
  | none => simp

theorem mlookup_entry {es : List Entry} (hp : Packed es) {k : Nat} {e : Entry} (hk : es[k]? = some e) (ht : Typed e) {ns : List Str} (hne : ns ≠ [])
    (hn : ∀ m ∈ ns, IsName m) (hpl : placeOf e.path = ns) : mlookup (source es) (canonical ns) = .ok ((info k e).push .file) := by
  unfold mlookup
  rw [Compose.C34_other (source es) mp _ _ (lookup_entry hp hk hne hn hpl) (info_hard ht k)]

theorem column_frow {uid gid : Nat} {es : List Entry} {k : Nat} {e : Entry} (h : es[k]? = some e) :
    column (frows uid gid es) (k + 1) = some (frow uid gid k e) := by
  unfold column frows
  rw [if_neg (by omega), Nat.add_sub_cancel, List.getElem?_mapIdx, h]
  rfl

/-! ## C214 -/

theorem serves (uid gid : Nat) (es : List Entry) :
    Serves (lib es) (frows uid gid es) (fun _ => True) (fun d o => ∀ b, d = some b → o = b) (fun _ _ => True) where
  openJ := fun _ _ _ _ => trivial
  openI := fun _ _ _ _ _ _ => ⟨none, fun _ h => by cases h⟩
  preadJ := fun _ _ _ _ _ _ h => ⟨trivial, h⟩
  pread := by
    intro g d o size offset _ hi _
    have := hi d rfl
    subst this
    rfl
  closeJ := fun _ _ _ _ _ => trivial

/-- What is opened for an entry that has contents. -/
theorem reads {uid gid : Nat} {es : List Entry} {k : Nat} {e : Entry} (hk : es[k]? = some e) {path : Str}
    (h1 : mlookup (source es) path = .ok ((info k e).push .file)) {d : Bytes} (ho : openEntry es k = .ok d) (before : List Call) :
    ∃ m fh, mopen (lib es) (frows uid gid es) (source es) (calls (lib es) (frows uid gid es) (source es) (start ()) before) path = (m, .ok fh) ∧
      ∀ (between : List Call) (size offset : Nat), Call.release fh ∉ between →
        (mread (lib es) (calls (lib es) (frows uid gid es) (source es) m between) fh size offset).2 = .ok ((d.drop offset).take size) := by
  have hS := serves uid gid es
  obtain ⟨hg, -⟩ := LibMount.calls_good hS (source es) before
    (LibMount.start_good (σ := Bytes) (I := fun d o => ∀ b, d = some b → o = b) (g := ()) trivial)
  generalize calls (lib es) (frows uid gid es) (source es) (start ()) before = m₀ at *
  have hv : LibMount.openObj (lib es) (frows uid gid es) m₀.shared ((info k e).push .file) = ((), .ok d) := by
    show (match column (frows uid gid es) (k + 1) with
      | some r => (lib es).openRow m₀.shared r
      | none => (_, .error (.os 21))) = _
    rw [column_frow hk]
    show ((), openEntry es k) = _
    rw [ho]
  obtain ⟨g1, g2, -⟩ := LibMount.addHandle_good hg (g := ()) trivial (d := some d) (o := d) (fun b hb => Option.some.inj hb)
  refine ⟨LibMount.addHandle m₀ () d, m₀.last + 1, ?_, ?_⟩
  · unfold mopen
    rw [h1]
    simp only [hv]
  · intro between size offset hb
    obtain ⟨q1, q2⟩ := LibMount.calls_good hS (source es) between g1
    exact LibMount.mread_holds hS q1 (q2 _ _ hb (g2 _ rfl)) size offset trivial

/-- **C214**, reading: after any calls, a file of the archive can be opened at its place, and whatever is opened, read and closed meanwhile, every read
with that handle gives exactly the requested range of the contents. -/
theorem C214_read (uid gid : Nat) (es : List Entry) (hp : Packed es) (e : Entry) (he : e ∈ es) (ht : Typed e) (hd : e.dir = false) (hr : e.redir = none)
    (ns : List Str) (hne : ns ≠ []) (hn : ∀ m ∈ ns, IsName m) (hpl : placeOf e.path = ns) (before : List Call) :
    ∃ m fh, mopen (lib es) (frows uid gid es) (source es) (calls (lib es) (frows uid gid es) (source es) (start ()) before) (canonical ns) = (m, .ok fh) ∧
      ∀ (between : List Call) (size offset : Nat), Call.release fh ∉ between →
        (mread (lib es) (calls (lib es) (frows uid gid es) (source es) m between) fh size offset).2 = .ok ((e.data.drop offset).take size) := by
  obtain ⟨k, hk⟩ := List.getElem?_of_mem he
  refine reads hk (mlookup_entry hp hk ht hne hn hpl) ?_ before
  unfold openEntry
  rw [hk]
  simp only [hd, hr, Bool.false_eq_true, if_false]

/-- **C214**, attributes: what is at a place has the type, the permissions, the time and the size of its entry, and a link has its target. -/
theorem C214_attributes (uid gid : Nat) (es : List Entry) (hp : Packed es) (e : Entry) (he : e ∈ es) (ht : Typed e)
    (ns : List Str) (hne : ns ≠ []) (hn : ∀ m ∈ ns, IsName m) (hpl : placeOf e.path = ns) :
    ∃ mode target, mgetattr (frows uid gid es) (source es) (canonical ns) = .ok ⟨mode, e.data.length, e.mtime, uid, gid⟩ ∧
      mode &&& 0xFFF = e.mode &&& 0xFFF ∧
      mode &&& 0xF000 = (if e.redir.isSome then 0xA000 else if e.dir then 0x4000 else 0x8000) ∧
      mreadlink (source es) (canonical ns) = .ok target ∧ target = match e.redir with
        | some (_, t) => t
        | none => [] := by
  obtain ⟨k, hk⟩ := List.getElem?_of_mem he
  have h1 := mlookup_entry hp hk ht hne hn hpl
  refine ⟨getMode e, linkOf e, ?_, ?_, getMode_type ht, ?_, ?_⟩
  · unfold mgetattr
    rw [h1]
    have hc := column_frow (uid := uid) (gid := gid) hk
    show Except.ok (statOf (frows uid gid es) ((info k e).push .file)) = _
    have hrest : ((info k e).push .file).rest = k + 1 := rfl
    unfold statOf IndexMount.sizeAt IndexMount.ownerAt
    rw [hrest, hc]
    rfl
  · unfold getMode
    rw [Nat.and_or_distrib_right]
    have : (if e.redir.isSome then 0xA000 else if e.dir then 0x4000 else 0x8000 : Nat) &&& 0xFFF = 0 := by
      split <;> (try split) <;> decide
    rw [this, Nat.or_zero]
  · unfold mreadlink
    rw [h1]
    rfl
  · unfold linkOf
    cases e.redir with
    | none => rfl
    | some x => rfl

/-- **C214**, folders without an entry: they exist, as folders. -/
theorem C214_implied (uid gid : Nat) (es : List Entry) (hp : Packed es) (ns : List Str) (hne : ns ≠ []) (hn : ∀ m ∈ ns, IsName m)
    (h0 : ∀ e ∈ es, placeOf e.path ≠ ns) (e : Entry) (he : e ∈ es) (rest : List Str) (hb : placeOf e.path = ns ++ rest) :
    ∃ st, mgetattr (frows uid gid es) (source es) (canonical ns) = .ok st ∧ st.mode = 0o40777 ∧ st.size = 0 := by
  unfold mgetattr mlookup
  rw [Compose.C34_other (source es) mp _ _ (lookup_implied hp hne hn h0 ⟨e, he, rest, hb⟩) (by decide)]
  exact ⟨_, rfl, rfl, rfl⟩

/-- **C214**, what is missing: a place with no entry at or below it does not exist, unless the path asks for versions. -/
theorem C214_absent (uid gid : Nat) (es : List Entry) (hp : Packed es) (ns : List Str) (hne : ns ≠ []) (hn : ∀ m ∈ ns, IsName m)
    (hv : ∀ n ∈ ns, endsWith ".versions".toList n = false) (hb : ∀ e ∈ es, ∀ rest, placeOf e.path ≠ ns ++ rest) :
    mgetattr (frows uid gid es) (source es) (canonical ns) = .error (.os 2) := by
  unfold mgetattr mlookup
  rw [Compose.C34_missing (source es) mp ns hne (fun n h => ⟨(hn n h).1, (hn n h).2.1⟩) hv
    (lookup_missing hp hne hn (by rintro ⟨e, he, rest, h⟩; exact hb e he rest h))]
  rfl

/-- The listing of a folder names exactly what is in it. -/
theorem listing_names {es : List Entry} (hp : Packed es) (ns : List Str) (hn : ∀ m ∈ ns, IsName m) (n : Str) :
    n ∈ (Rar.listing (files es) (canonical ns)).keys ↔ IsName n ∧ ∃ e ∈ es, ∃ rest, placeOf e.path = ns ++ n :: rest := by
  have hall : IsName n → ∀ m ∈ ns ++ [n], IsName m := by
    intro h m hm
    rcases List.mem_append.mp hm with e | e
    · exact hn m e
    · rw [List.mem_singleton.mp e]; exact h
  constructor
  · intro h
    have hin : IsName n := by
      unfold Rar.listing at h
      rw [SqlarMount.mem_update] at h
      obtain ⟨p, hpm, rfl⟩ := h
      rw [List.mem_filterMap] at hpm
      obtain ⟨q, hq, hqe⟩ := hpm
      cases hg : Rar.getName (Rar.folderOf (canonical ns)) q.1 with
      | none => rw [hg] at hqe; simp at hqe
      | some x =>
        rw [hg] at hqe
        obtain ⟨ms, b, -, hms, hqp⟩ := files_proper hp q hq
        rw [hqp, Rar.getName_iff ns ms b x hn hms] at hg
        obtain ⟨rest, hrest⟩ := hg
        have hx : x = p.1 := by
          have := Option.some.inj hqe
          rw [← this]
        rw [← hx]
        exact hms x (by rw [hrest]; simp)
    refine ⟨hin, ?_⟩
    have := (below_iff hp (hall hin)).mp ((Rar.C76_names (files es) (files_proper hp) ns n (hall hin)).mp h)
    simpa using this
  · rintro ⟨hin, h⟩
    exact (Rar.C76_names (files es) (files_proper hp) ns n (hall hin)).mpr ((below_iff hp (hall hin)).mpr (by simpa using h))

theorem listed_id {es : List Entry} (path : Str) : ∀ p ∈ Rar.listing (files es) path, ∃ e, es[p.2.id]? = some e := by
  have hup : ∀ {V : Type} (P : V → Prop) (l : List (Str × V)) (d : Dict Str V), (∀ p ∈ d, P p.2) → (∀ p ∈ l, P p.2) → ∀ p ∈ Dict.update d l, P p.2 := by
    intro V P l
    induction l with
    | nil => intro d hd _ p hp; exact hd p hp
    | cons q l ih =>
      intro d hd hl p hp
      refine ih (d.set q.1 q.2) ?_ (fun x hx => hl x (List.mem_cons_of_mem _ hx)) p hp
      clear hp ih
      induction d with
      | nil =>
        intro x hx
        rw [List.mem_singleton.mp hx]
        exact hl q List.mem_cons_self
      | cons y d ihd =>
        intro x hx
        simp only [Dict.set] at hx
        split at hx
        · rcases List.mem_cons.mp hx with rfl | hx
          · exact hl q List.mem_cons_self
          · exact hd x (List.mem_cons_of_mem _ hx)
        · rcases List.mem_cons.mp hx with rfl | hx
          · exact hd _ List.mem_cons_self
          · exact ihd (fun z hz => hd z (List.mem_cons_of_mem _ hz)) x hx
  have h1 : ∀ p ∈ files es, ∃ e, es[p.2.id]? = some e := by
    unfold files Rar.files
    refine hup (fun i : Rar.Info => ∃ e, es[i.id]? = some e) _ [] (fun _ h => by cases h) ?_
    intro p hp
    obtain ⟨q, hq, rfl⟩ := List.mem_map.mp hp
    rw [List.mem_mapIdx] at hq
    obtain ⟨k, hk, rfl⟩ := hq
    exact ⟨_, List.getElem?_eq_getElem hk⟩
  unfold Rar.listing
  refine hup (fun i : Rar.Info => ∃ e, es[i.id]? = some e) _ [] (fun _ h => by cases h) ?_
  intro p hp
  obtain ⟨q, hq, hqe⟩ := List.mem_filterMap.mp hp
  obtain ⟨n, -, rfl⟩ := Option.map_eq_some_iff.mp hqe
  exact h1 q hq

theorem keys_filterMap {V W : Type} (f : V → Option W) (l : List (Str × V)) (h : ∀ p ∈ l, ∃ w, f p.2 = some w) :
    (l.filterMap (fun p => (f p.2).map (fun w => (p.1, w)))).map Prod.fst = l.map Prod.fst := by
  induction l with
  | nil => rfl
  | cons p l ih =>
    obtain ⟨w, hw⟩ := h p List.mem_cons_self
    rw [List.filterMap_cons, hw]
    simp only [Option.map_some, List.map_cons]
    rw [ih (fun q hq => h q (List.mem_cons_of_mem _ hq))]

theorem list_keys (es : List Entry) (path : Str) :
    mreaddir (source es) path = ['.'] :: ['.', '.'] :: (Rar.listing (files es) path).keys := by
  unfold mreaddir Compose.vlist source
  simp only [Option.map_some, Option.getD_some, Compose.pushAll, Compose.Listing.keys, Dict.keys, List.map_map]
  congr 2
  have := keys_filterMap (fun i : Rar.Info => (es[i.id]?).map (info i.id)) (Rar.listing (files es) path) (by
    intro p hp
    obtain ⟨e, he⟩ := listed_id path p hp
    exact ⟨_, by rw [he]; rfl⟩)
  rw [← this]
  simp only [Option.map_map]
  rfl

/-- **C214**, listing: a folder shows exactly what has an entry or is above one. -/
theorem C214_list (es : List Entry) (hp : Packed es) (ns : List Str) (hn : ∀ m ∈ ns, IsName m) (n : Str) :
    n ∈ mreaddir (source es) (canonical ns) ↔
      n = ['.'] ∨ n = ['.', '.'] ∨ (IsName n ∧ ∃ e ∈ es, ∃ rest, placeOf e.path = ns ++ n :: rest) := by
  rw [list_keys, List.mem_cons, List.mem_cons, listing_names hp ns hn n]

/-- **C214**, listing: `list_mode`, which FUSE uses, gives the same names as `list`. -/
theorem C214_modes (es : List Entry) (path : Str) :
    ((source es).listMode path).map Listing.keys = ((source es).list path).map Listing.keys := by
  unfold source
  simp only [Option.map_some, Compose.Listing.keys, Dict.keys]
  congr 1
  have h := listed_id (es := es) path
  generalize Rar.listing (files es) path = l at h
  induction l with
  | nil => rfl
  | cons p l ih =>
    obtain ⟨e, he⟩ := h p List.mem_cons_self
    simp only [List.filterMap_cons, he, Option.map_some, List.map_cons]
    rw [ih (fun q hq => h q (List.mem_cons_of_mem _ hq))]

/-! ## hard links -/

theorem follow_names {ms : List Str} (hm : ms ≠ []) (hn : ∀ m ∈ ms, IsName m) (folder : List Str) :
    follow folder (join '/' ms) = canonical (folder ++ ms) := by
  unfold follow
  rw [split_join '/' ms hm (fun m h => (hn m h).2.1)]
  rw [Index.walk_names ms folder hn]

/-- The whole claim about hard links and copies: where the kernel is led to, the contents of the other file are read. -/
def C214_statement : Prop :=
  ∀ (es : List Entry), Packed es → (∀ e ∈ es, Typed e) → ∀ e ∈ es, ∀ kind target, e.redir = some (kind, target) → kind = 4 ∨ kind = 5 →
    ∀ q ∈ es, q.path = target → q.dir = false → q.redir = none → ∀ folder n, placeOf e.path = folder ++ [n] →
      ∃ t m fh, mreadlink (source es) (canonical (folder ++ [n])) = .ok t ∧
        mopen (lib es) (frows 0 0 es) (source es) (start ()) (follow folder t) = (m, .ok fh) ∧
        ∀ size offset, (mread (lib es) m fh size offset).2 = .ok ((q.data.drop offset).take size)

/-- **C214**, hard links and copies in the root folder of the archive: they are shown as symbolic links that lead to the other file.
Missing: those in other folders (see `C214_violated`). -/
theorem C214_links_partial (es : List Entry) (hp : Packed es) (ht : ∀ e ∈ es, Typed e) (e : Entry) (he : e ∈ es) (kind : Nat) (target : Str)
    (hr : e.redir = some (kind, target)) (q : Entry) (hq : q ∈ es) (hqt : q.path = target) (hqd : q.dir = false) (hqr : q.redir = none)
    (n : Str) (hn : IsName n) (hpl : placeOf e.path = [n]) :
    ∃ t m fh, mreadlink (source es) (canonical [n]) = .ok t ∧
      mopen (lib es) (frows 0 0 es) (source es) (start ()) (follow [] t) = (m, .ok fh) ∧
      ∀ size offset, (mread (lib es) m fh size offset).2 = .ok ((q.data.drop offset).take size) := by
  obtain ⟨ms, hm, hmn, hpa⟩ := hp.path q hq
  have hqp : placeOf q.path = ms := by rw [hpa, path_eq ms hm, placeOf_pathOf hm hmn]
  obtain ⟨mode, t, -, -, -, h1, h2⟩ := C214_attributes 0 0 es hp e he (ht e he) [n] (by simp) (by simpa using hn) hpl
  rw [hr] at h2
  subst h2
  obtain ⟨m, fh, h3, h4⟩ := C214_read 0 0 es hp q hq (ht q hq) hqd hqr ms hm hmn hqp []
  refine ⟨_, m, fh, h1, ?_, fun size offset => h4 [] size offset (by simp)⟩
  rw [← hqt, hpa, hqd]
  simp only [Bool.false_eq_true, if_false, List.append_nil]
  rw [follow_names hm hmn []]
  exact h3

/-! ## examples -/

/-- A file in a folder without an entry, a folder, and two names for the file. -/
def sample : List Entry :=
  [⟨"d/a".toList, false, none, 0o100644, 5, [1, 2, 3]⟩, ⟨"e/".toList, true, none, 0o40755, 6, []⟩,
   ⟨"b".toList, false, some (4, "d/a".toList), 0o100644, 5, []⟩, ⟨"d/c".toList, false, some (4, "d/a".toList), 0o100644, 5, []⟩,
   ⟨"e/l".toList, false, some (1, "../b".toList), 0o120777, 7, []⟩]

theorem sample_packed : Packed sample where
  path := by
    intro e he
    simp only [sample, List.mem_cons, List.not_mem_nil, or_false] at he
    rcases he with rfl | rfl | rfl | rfl | rfl
    · exact ⟨["d".toList, "a".toList], by decide, by unfold IsName; decide, by decide⟩
    · exact ⟨["e".toList], by decide, by unfold IsName; decide, by decide⟩
    · exact ⟨["b".toList], by decide, by unfold IsName; decide, by decide⟩
    · exact ⟨["d".toList, "c".toList], by decide, by unfold IsName; decide, by decide⟩
    · exact ⟨["e".toList, "l".toList], by decide, by unfold IsName; decide, by decide⟩
  once := by decide +kernel

theorem sample_typed : ∀ e ∈ sample, Typed e := by decide +kernel

example : mreaddir (source sample) "/".toList = [['.'], ['.', '.'], ['d'], ['e'], ['b']] ∧
    mgetattr (frows 1 2 sample) (source sample) "/d/a".toList = .ok ⟨0o100644, 3, 5, 1, 2⟩ ∧
    (mread (lib sample) (mopen (lib sample) (frows 0 0 sample) (source sample) (start ()) "/d/a".toList).1 1 2 1).2 = .ok [2, 3] ∧
    mreadlink (source sample) "/e/l".toList = .ok "../b".toList := by decide +kernel

example : ∃ m fh, mopen (lib sample) (frows 0 0 sample) (source sample)
      (calls (lib sample) (frows 0 0 sample) (source sample) (start ()) [.open "/d/a".toList, .read 1 2 1]) "/d/a".toList = (m, .ok fh) ∧
      ∀ (between : List Call) (size offset : Nat), Call.release fh ∉ between →
        (mread (lib sample) (calls (lib sample) (frows 0 0 sample) (source sample) m between) fh size offset).2 = .ok (([1, 2, 3].drop offset).take size) :=
  C214_read 0 0 sample sample_packed ⟨"d/a".toList, false, none, 0o100644, 5, [1, 2, 3]⟩ (by decide) (by decide) rfl rfl
    ["d".toList, "a".toList] (by decide) (by unfold IsName; decide) (by decide +kernel) _

example : ∃ st, mgetattr (frows 0 0 sample) (source sample) (canonical ["d".toList]) = .ok st ∧ st.mode = 0o40777 ∧ st.size = 0 :=
  C214_implied 0 0 sample sample_packed ["d".toList] (by decide) (by unfold IsName; decide) (by decide +kernel) _ (List.mem_cons_self) ["a".toList]
    (by decide +kernel)

example : ∃ t m fh, mreadlink (source sample) (canonical ["b".toList]) = .ok t ∧
      mopen (lib sample) (frows 0 0 sample) (source sample) (start ()) (follow [] t) = (m, .ok fh) ∧
      ∀ size offset, (mread (lib sample) m fh size offset).2 = .ok (([1, 2, 3].drop offset).take size) :=
  C214_links_partial sample sample_packed sample_typed ⟨"b".toList, false, some (4, "d/a".toList), 0o100644, 5, []⟩ (by decide) 4 "d/a".toList rfl
    ⟨"d/a".toList, false, none, 0o100644, 5, [1, 2, 3]⟩ (by decide) rfl rfl rfl "b".toList (by unfold IsName; decide) (by decide +kernel)

/-! ## what is missing -/

/-- C214 is violated: a hard link in a folder is shown as a symbolic link with a target that is relative to the root of the archive. The kernel takes it as
relative to the folder, and finds nothing there. -/
theorem C214_violated : ¬ C214_statement := by
  intro h
  obtain ⟨t, m, fh, h1, h2, -⟩ := h sample sample_packed sample_typed ⟨"d/c".toList, false, some (4, "d/a".toList), 0o100644, 5, []⟩ (by decide) 4 "d/a".toList rfl
    (Or.inl rfl) ⟨"d/a".toList, false, none, 0o100644, 5, [1, 2, 3]⟩ (by decide) rfl rfl rfl ["d".toList] "c".toList (by decide +kernel)
  have e1 : mreadlink (source sample) (canonical (["d".toList] ++ ["c".toList])) = .ok "d/a".toList := by decide +kernel
  rw [e1] at h1
  cases h1
  have e2 : (mopen (lib sample) (frows 0 0 sample) (source sample) (start ()) (follow ["d".toList] "d/a".toList)).2 = .error (.os 2) := by decide +kernel
  rw [h2] at e2
  cases e2

/-- Although opening the hard link itself would give the contents. -/
theorem C214_opened_violated :
    mgetattr (frows 0 0 sample) (source sample) "/d/c".toList = .ok ⟨0o120644, 0, 5, 0, 0⟩ ∧
    (mread (lib sample) (mopen (lib sample) (frows 0 0 sample) (source sample) (start ()) "/d/c".toList).1 1 3 0).2 = .ok [1, 2, 3] := by decide +kernel

/-- Attributes of an archive that was written on Windows: `FILE_ATTRIBUTE_ARCHIVE` is 0x20, `FILE_ATTRIBUTE_DIRECTORY` is 0x10, and
`FILE_ATTRIBUTE_NOT_CONTENT_INDEXED` is 0x2000. -/
def windows : List Entry :=
  [⟨"a".toList, false, none, 0x20, 5, [1, 2, 3]⟩, ⟨"d/".toList, true, none, 0x10, 5, []⟩,
   ⟨"b".toList, false, none, 0x2020, 5, [1, 2, 3]⟩, ⟨"e/".toList, true, none, 0x2010, 5, []⟩]

/-- C214 is violated: the attributes of Windows are taken for permissions and for a type. Files are readable for the group only, nobody may list a folder, files
that are not indexed are symbolic links without target, and folders that are not indexed are block devices. -/
theorem C214_windows_violated :
    mgetattr (frows 0 0 windows) (source windows) "/a".toList = .ok ⟨0o100040, 3, 5, 0, 0⟩ ∧
    mgetattr (frows 0 0 windows) (source windows) "/d".toList = .ok ⟨0o40020, 0, 5, 0, 0⟩ ∧
    (mgetattr (frows 0 0 windows) (source windows) "/b".toList).map (fun s => s.mode &&& 0xF000) = .ok 0xA000 ∧
    mreadlink (source windows) "/b".toList = .ok [] ∧
    (mgetattr (frows 0 0 windows) (source windows) "/e".toList).map (fun s => s.mode &&& 0xF000) = .ok 0x6000 := by decide +kernel

/-- C214 is violated: the folder of versions is empty, and the only version has the number 0 instead of 1. -/
theorem C214_versions_violated :
    (source sample).versions "/d/a".toList = 1 ∧
    mreaddir (source sample) "/d/a.versions".toList = [['.'], ['.', '.']] ∧
    mgetattr (frows 0 0 sample) (source sample) "/d/a.versions/1".toList = .error (.os 2) ∧
    mgetattr (frows 0 0 sample) (source sample) "/d/a.versions/0".toList = .ok ⟨0o100644, 3, 5, 0, 0⟩ := by decide +kernel

end Verif.Fuse.RarMount
