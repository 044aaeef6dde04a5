import Verif.Fuse.OldVersions
import Verif.Compose.Layers

/-!
# C209: several TAR archives that are mounted at the same place

`FileVersionLayer` above `UnionMountSource` above one `SQLiteIndexedTar` for each archive (FuseMount.py:225-254, 463-464,
core/ratarmountcore/mountsource/compositing/union.py, versioning.py). The operations of the mount are those of `Verif.Fuse.TarMount`; only
opening a file goes through the union to the archive that the entry came from (union.py:192-199).
-/

namespace Verif.Fuse.UnionMount

open Verif.Py Verif.Index
open Verif.Tar (Codec Hdr Member IRow Bytes archiveOf)
open Verif.Compose (Source Union Listing vlookup vlist dotVersions)
open Verif.Stencil (Raw Store)
open Verif.Fuse.TarMount
open Verif.Fuse.TarFiles (Packing Packed bytesOf members mounted Batches lastFile Inside bits inserted mounted_eq)
open Verif.Tar.Header (codec File)

/-! ## model -/

/-- A mount source as an object of its own (union.py:38). -/
def numbered (k : Nat) (s : Source) : Source := ⟨k, s.immutable, s.lookup, s.versions, s.list, s.listMode⟩

/-- One mount source for each archive, given by its bytes and the batches of its index (FuseMount.py:178-200). -/
def sources (esc : Bytes → Str) (ign : Bool) (as : List (Bytes × List (List Row))) : List Source :=
  as.mapIdx (fun k a => numbered k (mounted esc ign a.1 a.2))

/-- `UnionMountSource` as a mount source (union.py:101-190). -/
def unionSource (u : Union) : Source :=
  ⟨u.sources.length, u.sources.all (fun s => s.immutable), u.lookup, u.versions, u.list, u.listMode⟩

/-- The limits of the cache (union.py:16-44). -/
structure Limits where
  depth : Nat
  entries : Int
  timeUp : Nat → Bool

/-- The mount of several archives (FuseMount.py:225-254, 463-464). -/
def together (esc : Bytes → Str) (ign : Bool) (o : Limits) (as : List (Bytes × List (List Row))) : Source :=
  unionSource (Union.new (sources esc ign as) o.depth o.entries o.timeUp)

/-- `FileVersionLayer.open` (versioning.py:232-243), `UnionMountSource.open` (union.py:192-199) and `SQLiteIndexedTar.open`
(tar.py:1023-1030) for a member that is not sparse. The file object of archive number `k` has the number `k`. -/
def openIn (i : Compose.FileInfo) : Except PyErr Raw :=
  match i.userdata with
  | .file :: .source k :: .own offset :: _ => Raw.init [(k, (offset : Int), (i.rest : Int))]
  | _ => .error .fileNotFound

/-- `open` (FuseMount.py:776-791). -/
def uopen (s : Source) (m : Mount) (path : Str) : Mount × Except PyErr Nat :=
  match mlookup s path with
  | .error e => (m, .error e)
  | .ok i =>
    match openIn i with
    | .error _ => (m, .error (.os 5))
    | .ok r => (addHandle m r, .ok (m.last + 1))

/-- One call (FuseMount.py:776-833). -/
def ucall (s : Source) (m : Mount) : Call → Mount
  | .open path => (uopen s m path).1
  | .read fh size offset => (mread m fh size offset).1
  | .release _ => m

/-- Any calls (FuseMount.py:776-833). -/
def ucalls (s : Source) (m : Mount) (cs : List Call) : Mount := cs.foldl (ucall s) m

/-- The file objects of the archives (tar.py:570-640). -/
def files (as : List Bytes) : Store UInt8 := fun k => ⟨as[k]?.getD [], 0, false⟩

/-- A new mount of the archives (FuseMount.py:120-246). -/
def begin (as : List Bytes) : Mount := ⟨files as, [], 0⟩

/-! ## specification -/

/-- One of the archives: its files, the number of zeros at its end and the batches in which its index was written. -/
structure Part where
  ws : Packing
  zeros : Nat
  bs : List (List Row)

/-- The bytes of the archive. -/
def Part.archive (a : Part) : Bytes := bytesOf a.ws a.zeros

/-- The files that were packed. -/
def Part.files (a : Part) : List File := a.ws.map (fun p => p.1)

/-- The archives as they are given to the mount. -/
def given (as : List Part) : List (Bytes × List (List Row)) := as.map (fun a => (a.archive, a.bs))

/-- A file is packed at this place or somewhere below it. -/
def At (fs : List File) (ns : List Str) : Prop := ∃ f ∈ fs, ∃ rest, place f.name = ns ++ rest

/-- The place is a folder. -/
def IsFolder (fs : List File) (ns : List Str) : Prop := Inside fs ns ∨ ∃ f, lastFile fs ns = some f ∧ f.kind = .folder

/-- No place is a folder in one archive and something else in another one. -/
def Agree (as : List Part) : Prop :=
  ∀ a ∈ as, ∀ b ∈ as, ∀ ns, ns ≠ [] → IsFolder a.files ns → At b.files ns → IsFolder b.files ns

/-- All archives are packed, and their indexes hold all of their rows. -/
def Ready (esc : Bytes → Str) (ign : Bool) (as : List Part) : Prop := ∀ a ∈ as, Packed a.ws ∧ Batches esc ign a.archive a.bs

/-- The last archive that has something at the place has this file there. -/
def Top (as : List Part) (ns : List Str) (f : File) : Prop :=
  ∃ before a after, as = before ++ a :: after ∧ lastFile a.files ns = some f ∧ ∀ b ∈ after, ¬ At b.files ns

/-- The name of a link as names with single slashes between them; only at its start there may be any number of slashes. -/
def Tidy (link : Str) : Prop := ∃ k ns, ns ≠ [] ∧ (∀ n ∈ ns, IsName n) ∧ link = List.replicate k '/' ++ join '/' ns

/-- Following `k` hard links from the place `ns` leads to the file `f`; every step begins with all archives again. -/
inductive Leads (as : List Part) : Nat → List Str → File → Prop where
  | here (ns : List Str) (f : File) (hne : ns ≠ []) (ht : Top as ns f) (hk : f.kind ≠ .hardlink) : Leads as 0 ns f
  | link (k : Nat) (ns : List Str) (g f : File) (hne : ns ≠ []) (ht : Top as ns g) (hk : g.kind = .hardlink) (hl : Tidy g.link)
      (hother : place g.link ≠ ns) (hr : Leads as k (place g.link) f) : Leads as (k + 1) ns f

/-! ## lemmas: one archive -/

section one

variable {c : Codec} {ign : Bool} {ms : List (Member × Hdr)} {z : Nat} {bs : List (List Row)}

/-- Every row is for a place that a member is at or below. -/
theorem row_place (hI : Inserted c ign ms z bs) {x : Row} (hx : x ∈ build bs) :
    ∃ cs, (∀ y ∈ cs, IsName y) ∧ (x.1.path, x.1.name) = splitPath (canonical cs) ∧ ∃ q ∈ ms, ∃ rest, place q.2.name = cs ++ rest := by
  rcases mem_build bs x hx with hm | hg
  · rw [hI.rows] at hm
    obtain ⟨k, p, r, hk, hr, hi, rfl⟩ := mem_toRows hI.clean ign z x hm
    exact ⟨place p.2.name, place_names _, hi.place, p, List.mem_of_getElem? hk, [], by simp⟩
  · obtain ⟨⟨q, hq, ha⟩, -⟩ := generated_row hg
    rw [hI.rows] at hq
    obtain ⟨k, p, r, hk, hr, hi, rfl⟩ := mem_toRows hI.clean ign z q hq
    have hpath := path_of_row (place_names _) hi.place
    have hd : ∀ y ∈ (place p.2.name).dropLast, IsName y := fun y hy => place_names _ y (List.dropLast_subset _ hy)
    replace ha : (x.1.path, x.1.name) ∈ ancestorPairs r.path := ha
    rw [hpath, mem_ancestorPairs _ hd] at ha
    obtain ⟨j, hj, he⟩ := ha
    have hn : ∀ y ∈ (place p.2.name).dropLast.take j ++ [(place p.2.name).dropLast[j]], IsName y := by
      intro y hy
      rcases List.mem_append.mp hy with hy | hy
      · exact hd y (List.mem_of_mem_take hy)
      · rw [List.mem_singleton] at hy; subst hy; exact hd _ (List.getElem_mem hj)
    refine ⟨_, hn, ?_, p, List.mem_of_getElem? hk, (place p.2.name).drop (j + 1), ?_⟩
    · rw [splitPath_canonical hn, he]
    · have hj' : j < (place p.2.name).length := by rw [List.length_dropLast] at hj; omega
      have h4 : (place p.2.name).dropLast[j] = (place p.2.name)[j] := by rw [List.getElem_dropLast]
      have h5 : (place p.2.name).dropLast.take j = (place p.2.name).take j := by
        rw [List.dropLast_eq_take, List.take_take, Nat.min_eq_left (by rw [List.length_dropLast] at hj; omega)]
      rw [h4, h5, List.append_assoc, List.singleton_append, ← List.drop_eq_getElem_cons hj', List.take_append_drop]

theorem splitPath_eq {a b : Str} (ha : '/' ∈ a) (hb : '/' ∈ b) (h : splitPath a = splitPath b) : a = b := by
  have key : ∀ s : Str, '/' ∈ s → s = (splitPath s).1 ++ '/' :: (splitPath s).2 := by
    intro s hs
    unfold splitPath
    cases hr : rsplit1 '/' s with
    | none => exact absurd hs (rsplit1_none.mp hr)
    | some p => obtain ⟨x, y⟩ := p; exact (rsplit1_some hr).1
  rw [key a ha, key b hb, h]

theorem query_slash (p : Str) : '/' ∈ queryNormpath p := by unfold queryNormpath; simp

theorem canonical_slash (cs : List Str) : '/' ∈ canonical cs := by cases cs <;> simp [canonical]

/-- Whatever the archive has is at a place of a member or above it. -/
theorem has_place (hI : Inserted c ign ms z bs) {p : Str} (h : Compose.Has (tarSource (rowsOf c ign ms z) bs) p) :
    ∃ cs, (∀ y ∈ cs, IsName y) ∧ queryNormpath p = canonical cs ∧ (cs = [] ∨ ∃ q ∈ ms, ∃ rest, place q.2.name = cs ++ rest) := by
  by_cases hq : queryNormpath p = ['/']
  · exact ⟨[], by simp, hq, .inl rfl⟩
  · have hrow : ∃ x ∈ build bs, (x.1.path, x.1.name) = splitPath (queryNormpath p) := by
      have key : ∀ rows : List (Key × Info), (∀ x ∈ rows, x ∈ rowsAt (build bs) (splitPath (queryNormpath p)).1 (splitPath (queryNormpath p)).2) →
          rows ≠ [] → ∃ x ∈ build bs, (x.1.path, x.1.name) = splitPath (queryNormpath p) := by
        intro rows hr hne
        cases rows with
        | nil => exact absurd rfl hne
        | cons x rows =>
          obtain ⟨h1, h2, h3⟩ := (mem_rowsAt _ _ _ _).mp (hr x (by simp))
          exact ⟨x, h1, by rw [h2, h3]⟩
      rcases h with h | ⟨v, h⟩
      · replace h : (Index.versions (build bs) p).length ≠ 0 := h
        unfold Index.versions at h
        simp only [hq, if_false] at h
        refine key (orderAsc (rowsAt (build bs) (splitPath (queryNormpath p)).1 (splitPath (queryNormpath p)).2))
          (fun x hx => (orderAsc_perm _).mem_iff.mp hx) ?_
        intro hnil
        rw [hnil] at h
        exact h rfl
      · replace h : (Index.lookup (build bs) p v).map (toInfo (rowsOf c ign ms z)) ≠ none := h
        unfold Index.lookup at h
        simp only [hq, if_false] at h
        split at h
        · refine key (orderDesc (rowsAt (build bs) (splitPath (queryNormpath p)).1 (splitPath (queryNormpath p)).2))
            (fun x hx => (orderDesc_perm _).mem_iff.mp hx) ?_
          intro hnil
          rw [hnil] at h
          simp at h
        · refine key (orderAsc (rowsAt (build bs) (splitPath (queryNormpath p)).1 (splitPath (queryNormpath p)).2))
            (fun x hx => (orderAsc_perm _).mem_iff.mp hx) ?_
          intro hnil
          rw [hnil] at h
          simp at h
    obtain ⟨x, hx, he⟩ := hrow
    obtain ⟨cs, h1, h2, h3⟩ := row_place hI hx
    refine ⟨cs, h1, splitPath_eq (query_slash p) (canonical_slash cs) (by rw [← he, h2]), .inr h3⟩

theorem isDir_type (t : Char) (mode : Nat) (hm : mode < 4096) : Compose.isDir (mode ||| typeOf t) = true ↔ t = '5' := by
  unfold Compose.isDir
  rw [type_bits t mode hm]
  unfold typeOf
  split
  · simp_all
  · rename_i h5
    split
    · simp [h5]
    · split <;> simp [h5]

/-- What is a folder. -/
theorem isDirAt_iff (hI : Inserted c ign ms z bs) {p : Str} {cs : List Str} (hne : cs ≠ []) (hn : ∀ y ∈ cs, IsName y)
    (hp : queryNormpath p = canonical cs) :
    (tarSource (rowsOf c ign ms z) bs).isDirAt p = true ↔ Below ms cs ∨ ∃ q, lastAt ms cs = some q ∧ q.2.type = '5' := by
  unfold Source.isDirAt
  cases hl : lastAt ms cs with
  | some q =>
    obtain ⟨hmem, off, h1, -⟩ := source_member hI hne hn hp hl
    rw [h1]
    show Compose.isDir (q.2.mode ||| typeOf q.2.type) = true ↔ _
    rw [isDir_type _ _ (hI.clean.modes q hmem)]
    constructor
    · intro h; exact .inr ⟨q, rfl, h⟩
    · rintro (h | ⟨q', he, h⟩)
      · obtain ⟨k, hk, hpl, -⟩ := lastAt_spec hl
        exact hI.clean.tree q hmem (by rw [hpl]; exact h)
      · cases he; exact h
  | none =>
    rcases List.eq_nil_or_concat cs with rfl | ⟨a, x, rfl⟩
    · exact absurd rfl hne
    · rw [List.concat_eq_append] at hn hp hl ⊢
      by_cases hb : Below ms (a ++ [x])
      · obtain ⟨f, h1, h2, -⟩ := found_generated hI hn hp hl hb
        have : (tarSource (rowsOf c ign ms z) bs).lookup p 0 = some (toInfo (rowsOf c ign ms z) f) := by
          show (Index.lookup (build bs) p 0).map _ = _
          rw [h1]; rfl
        rw [this]
        show Compose.isDir f.info.mode = true ↔ _
        rw [h2]
        exact ⟨fun _ => .inl hb, fun _ => by decide⟩
      · have : (tarSource (rowsOf c ign ms z) bs).lookup p 0 = none := by
          show (Index.lookup (build bs) p 0).map _ = _
          rw [found_nothing hI hn hp hl hb]; rfl
        rw [this]
        constructor
        · intro h; cases h
        · rintro (h | ⟨q', he, h⟩)
          · exact absurd h hb
          · cases he

theorem root_isDir (rs : List IRow) (bs : List (List Row)) {p : Str} (hp : queryNormpath p = ['/']) : (tarSource rs bs).isDirAt p = true := by
  have : (tarSource rs bs).lookup p 0 = some (toInfo rs Index.rootInfo) := by
    show (Index.lookup (build bs) p 0).map _ = _
    unfold Index.lookup
    simp only [hp, if_true]
    rfl
  unfold Source.isDirAt
  rw [this]
  show Compose.isDir 0o40777 = true
  decide

/-- Names in listings. -/
theorem mem_namesIn (hI : Inserted c ign ms z bs) {ns : List Str} (hn : ∀ x ∈ ns, IsName x) (n : Str) :
    n ∈ (tarSource (rowsOf c ign ms z) bs).namesIn (canonical ns) ↔ ∃ p ∈ ms, ∃ rest, place p.2.name = ns ++ n :: rest := by
  have hnd := build_nodup bs
  have hN : IsName n → ∀ x ∈ ns ++ [n], IsName x := by
    intro hnn x hx
    rcases List.mem_append.mp hx with hx | hx
    · exact hn x hx
    · rw [List.mem_singleton] at hx; subst hx; exact hnn
  have hnames : (∃ p ∈ ms, ∃ rest, place p.2.name = ns ++ n :: rest) → IsName n := by
    rintro ⟨p, -, rest, he⟩
    exact place_names p.2.name n (by rw [he]; simp)
  have h16 : IsName n → (Index.list (build bs) (canonical ns)).bind (fun d => d.get? n) = Index.lookup (build bs) (canonical (ns ++ [n])) 0 :=
    fun hnn => (C16_list_lookup (build bs) hnd ns n (hN hnn) _ _ (query_canonical _ hn) (query_canonical _ (hN hnn))).1
  have hin : (tarSource (rowsOf c ign ms z) bs).namesIn (canonical ns) = ((Index.list (build bs) (canonical ns)).map (fun d => d.keys)).getD [] := by
    unfold Source.namesIn
    rw [source_list]
    cases Index.list (build bs) (canonical ns) with
    | none => rfl
    | some d => simp [Listing.keys, Dict.keys, Function.comp_def]
  rw [hin]
  cases hl : Index.list (build bs) (canonical ns) with
  | none =>
    simp only [Option.map_none, Option.getD_none, List.not_mem_nil, false_iff]
    intro hex
    have hnn := hnames hex
    have h1 := h16 hnn
    rw [hl] at h1
    have h2 := (found_iff hI (hN hnn)).mpr hex
    rw [← h1] at h2
    cases h2
  | some d =>
    simp only [Option.map_some, Option.getD_some]
    constructor
    · intro hmem
      have hnn := C16_listed_names (build bs) (namesOk hI) _ d hl n hmem
      have h1 := h16 hnn
      rw [hl] at h1
      refine (found_iff hI (hN hnn)).mp ?_
      rw [← h1]
      rw [Dict.mem_keys_iff] at hmem
      exact hmem
    · intro hex
      have hnn := hnames hex
      have h1 := h16 hnn
      rw [hl] at h1
      have h2 := (found_iff hI (hN hnn)).mpr hex
      rw [← h1] at h2
      rw [Dict.mem_keys_iff]
      exact h2

/-- The archive is a tree. -/
theorem tar_tree (hI : Inserted c ign ms z bs) : Compose.Tree (tarSource (rowsOf c ign ms z) bs) where
  names := by
    intro p n hn
    unfold Source.namesIn at hn
    rw [source_list] at hn
    cases hl : Index.list (build bs) p with
    | none => rw [hl] at hn; simp at hn
    | some d =>
      rw [hl] at hn
      simp only [Option.map_some, Listing.keys, Dict.keys, List.map_map, Function.comp_def] at hn
      exact C16_listed_names (build bs) (namesOk hI) _ d hl n hn
  has := by
    intro cs n hn hhas
    obtain ⟨cs', h1, h2, h3⟩ := has_place hI hhas
    rw [query_canonical _ hn] at h2
    have he := TarMount.canonical_inj hn h1 h2
    subst he
    rcases h3 with h3 | ⟨q, hq, rest, he⟩
    · simp at h3
    · have hcs : ∀ x ∈ cs, IsName x := fun x hx => hn x (by simp [hx])
      refine ⟨?_, (mem_namesIn hI hcs n).mpr ⟨q, hq, rest, by rw [he]; simp⟩⟩
      rintro pre m ⟨t, ht⟩
      have hpre : ∀ x ∈ pre ++ [m], IsName x := fun x hx => hcs x (by rw [← ht]; simp only [List.mem_append] at hx ⊢; exact .inl hx)
      refine ⟨(mem_namesIn hI (fun x hx => hpre x (by simp [hx])) m).mpr ⟨q, hq, t ++ n :: rest, by rw [he, ← ht]; simp⟩, ?_⟩
      refine (isDirAt_iff hI (by simp) hpre (query_canonical _ hpre)).mpr (.inl ?_)
      cases t with
      | nil => exact ⟨q, hq, n, rest, by rw [he, ← ht]; simp⟩
      | cons y t => exact ⟨q, hq, y, t ++ n :: rest, by rw [he, ← ht]; simp⟩

end one

/-! ## lemmas: all archives -/

theorem part_inserted {esc : Bytes → Str} {ign : Bool} {a : Part} (h : Packed a.ws ∧ Batches esc ign a.archive a.bs) :
    Inserted (codec esc) ign (members a.ws) a.zeros a.bs := inserted h.1 h.2

/-- The mount source of an archive. -/
def partSource (esc : Bytes → Str) (ign : Bool) (k : Nat) (a : Part) : Source :=
  numbered k (tarSource (rowsOf (codec esc) ign (members a.ws) a.zeros) a.bs)

theorem sources_get (esc : Bytes → Str) (ign : Bool) (as : List Part) (k : Nat) :
    (sources esc ign (given as))[k]? = (as[k]?).map (partSource esc ign k) := by
  unfold sources given
  rw [List.getElem?_mapIdx, List.getElem?_map, Option.map_map]
  cases as[k]? with
  | none => rfl
  | some a =>
    show some (numbered k (mounted esc ign (bytesOf a.ws a.zeros) a.bs)) = _
    rw [mounted_eq]
    rfl

theorem mem_sources {esc : Bytes → Str} {ign : Bool} {as : List Part} {s : Source} (h : s ∈ sources esc ign (given as)) :
    ∃ k a, as[k]? = some a ∧ s = partSource esc ign k a := by
  obtain ⟨k, hk⟩ := List.mem_iff_getElem?.mp h
  rw [sources_get, Option.map_eq_some_iff] at hk
  obtain ⟨a, h1, h2⟩ := hk
  exact ⟨k, a, h1, h2.symm⟩

theorem numbered_tree {k : Nat} {s : Source} (h : Compose.Tree s) : Compose.Tree (numbered k s) := ⟨h.names, h.has⟩

theorem at_iff (ws : Packing) (ns : List Str) :
    At (ws.map (fun p => p.1)) ns ↔ ∃ q ∈ members ws, ∃ rest, place q.2.name = ns ++ rest := by
  unfold At members
  constructor
  · rintro ⟨f, hf, rest, he⟩
    obtain ⟨q, hq, rfl⟩ := List.mem_map.mp hf
    exact ⟨_, List.mem_map.mpr ⟨q, hq, rfl⟩, rest, he⟩
  · rintro ⟨p, hp, rest, he⟩
    obtain ⟨q, hq, rfl⟩ := List.mem_map.mp hp
    exact ⟨q.1, List.mem_map.mpr ⟨q, hq, rfl⟩, rest, he⟩

theorem folder_iff (ws : Packing) (ns : List Str) :
    IsFolder (ws.map (fun p => p.1)) ns ↔ Below (members ws) ns ∨ ∃ q, lastAt (members ws) ns = some q ∧ q.2.type = '5' := by
  unfold IsFolder
  rw [TarFiles.inside_iff]
  refine or_congr Iff.rfl ?_
  constructor
  · rintro ⟨f, h1, h2⟩
    obtain ⟨m, -, h3⟩ := TarFiles.last_some h1
    exact ⟨_, h3, (TarFiles.kind_folder _).mpr h2⟩
  · rintro ⟨q, h1, h2⟩
    cases hl : lastFile (ws.map (fun p => p.1)) ns with
    | none => rw [TarFiles.last_none hl] at h1; cases h1
    | some f =>
      obtain ⟨m, -, h3⟩ := TarFiles.last_some hl
      rw [h1] at h3
      cases h3
      exact ⟨f, rfl, (TarFiles.kind_folder _).mp h2⟩

theorem isDirAt_numbered (k : Nat) (s : Source) (p : Str) : (numbered k s).isDirAt p = s.isDirAt p := rfl
theorem has_numbered (k : Nat) (s : Source) (p : Str) : Compose.Has (numbered k s) p ↔ Compose.Has s p := Iff.rfl

theorem no_conflict {esc : Bytes → Str} {ign : Bool} {as : List Part} (hr : Ready esc ign as) (hag : Agree as) :
    Compose.NoConflict (sources esc ign (given as)) := by
  intro s hs t ht p htd hhas
  obtain ⟨k, a, hk, rfl⟩ := mem_sources hs
  obtain ⟨j, b, hj, rfl⟩ := mem_sources ht
  have ha := List.mem_of_getElem? hk
  have hb := List.mem_of_getElem? hj
  obtain ⟨cs, h1, h2, h3⟩ := has_place (part_inserted (hr a ha)) hhas
  by_cases hne : cs = []
  · subst hne
    exact root_isDir _ _ h2
  · replace htd := (isDirAt_iff (part_inserted (hr b hb)) hne h1 h2).mp htd
    exact (isDirAt_iff (part_inserted (hr a ha)) hne h1 h2).mpr ((folder_iff _ _).mp (hag b hb a ha cs hne ((folder_iff _ _).mpr htd)
      ((at_iff _ _).mpr (h3.resolve_left hne))))

theorem together_lookup {esc : Bytes → Str} {ign : Bool} {as : List Part} (hr : Ready esc ign as) (hag : Agree as) (o : Limits)
    {ns : List Str} (hne : ns ≠ []) (hn : ∀ x ∈ ns, IsName x) (v : Int) :
    (together esc ign o (given as)).lookup (canonical ns) v = Compose.lookupIn (sources esc ign (given as)) (canonical ns) v := by
  refine Compose.C30_invisible_partial _ _ _ _ ?_ (no_conflict hr hag) ns hne hn v
  intro s hs _
  obtain ⟨k, a, hk, rfl⟩ := mem_sources hs
  exact numbered_tree (tar_tree (part_inserted (hr a (List.mem_of_getElem? hk))))

theorem back_skip (path : Str) (i : Compose.FileInfo) (s : Source) (ss : List Source) (hs : s.lookup path 0 = some i) (after : List Source)
    (hafter : ∀ t ∈ after, ¬ Compose.Has t path) : Compose.lookupBack path (after ++ s :: ss) 0 = some (i.push (.source s.id)) := by
  induction after with
  | nil => rw [List.nil_append]; unfold Compose.lookupBack; rw [hs]
  | cons t after ih =>
    have ht := hafter t (by simp)
    have h1 : t.versions path = 0 := Classical.byContradiction fun h => ht (.inl h)
    have h2 : t.lookup path 0 = none := Classical.byContradiction fun h => ht (.inr ⟨0, h⟩)
    rw [List.cons_append]
    unfold Compose.lookupBack
    rw [h2, h1]
    simp only [Int.natCast_zero, Int.add_zero, gt_iff_lt, Int.lt_irrefl, if_false]
    exact ih (fun u hu => hafter u (List.mem_cons_of_mem _ hu))

theorem back_none (path : Str) (ss : List Source) (h : ∀ t ∈ ss, ¬ Compose.Has t path) : Compose.lookupBack path ss 0 = none := by
  induction ss with
  | nil => rfl
  | cons t ss ih =>
    have ht := h t (by simp)
    have h1 : t.versions path = 0 := Classical.byContradiction fun h => ht (.inl h)
    have h2 : t.lookup path 0 = none := Classical.byContradiction fun h => ht (.inr ⟨0, h⟩)
    unfold Compose.lookupBack
    rw [h2, h1]
    simp only [Int.natCast_zero, Int.add_zero, gt_iff_lt, Int.lt_irrefl, if_false]
    exact ih (fun u hu => h u (List.mem_cons_of_mem _ hu))

theorem not_has {esc : Bytes → Str} {ign : Bool} {b : Part} (hb : Packed b.ws ∧ Batches esc ign b.archive b.bs) {ns : List Str} (hne : ns ≠ [])
    (hn : ∀ x ∈ ns, IsName x) (hat : ¬ At b.files ns) (k : Nat) : ¬ Compose.Has (partSource esc ign k b) (canonical ns) := by
  intro h
  obtain ⟨cs, h1, h2, h3⟩ := has_place (part_inserted hb) h
  rw [query_canonical _ hn] at h2
  have he := TarMount.canonical_inj hn h1 h2
  subst he
  exact hat ((at_iff _ _).mpr (h3.resolve_left hne))

/-- The sources around one archive. -/
theorem sources_split (esc : Bytes → Str) (ign : Bool) (before : List Part) (a : Part) (after : List Part) :
    ∃ before' after', sources esc ign (given (before ++ a :: after)) = before' ++ partSource esc ign before.length a :: after' ∧
      ∀ t ∈ after', ∃ k, ∃ b ∈ after, t = partSource esc ign k b := by
  have hlen : (sources esc ign (given (before ++ a :: after)))[before.length]? = some (partSource esc ign before.length a) := by
    rw [sources_get, List.getElem?_append_right (Nat.le_refl _), Nat.sub_self]
    rfl
  obtain ⟨hlt, hval⟩ := List.getElem?_eq_some_iff.mp hlen
  refine ⟨(sources esc ign (given (before ++ a :: after))).take before.length,
    (sources esc ign (given (before ++ a :: after))).drop (before.length + 1), ?_, ?_⟩
  · rw [← hval, ← List.drop_eq_getElem_cons hlt, List.take_append_drop]
  · intro t ht
    obtain ⟨j, hj⟩ := List.mem_iff_getElem?.mp ht
    rw [List.getElem?_drop, sources_get, Option.map_eq_some_iff] at hj
    obtain ⟨b, h1, h2⟩ := hj
    rw [List.getElem?_append_right (by omega)] at h1
    have : before.length + 1 + j - before.length = j + 1 := by omega
    rw [this, List.getElem?_cons_succ] at h1
    exact ⟨_, b, List.mem_of_getElem? h1, h2.symm⟩

/-- The lookup in the last archive that has the place. -/
theorem lookup_last {esc : Bytes → Str} {ign : Bool} {before after : List Part} {a : Part} (hr : Ready esc ign (before ++ a :: after))
    (hag : Agree (before ++ a :: after)) (o : Limits) {ns : List Str} (hne : ns ≠ []) (hn : ∀ x ∈ ns, IsName x)
    (hafter : ∀ b ∈ after, ¬ At b.files ns) {i : Compose.FileInfo}
    (hi : (tarSource (rowsOf (codec esc) ign (members a.ws) a.zeros) a.bs).lookup (canonical ns) 0 = some i) :
    (together esc ign o (given (before ++ a :: after))).lookup (canonical ns) 0 = some (i.push (.source before.length)) := by
  rw [together_lookup hr hag o hne hn]
  obtain ⟨before', after', h1, h2⟩ := sources_split esc ign before a after
  unfold Compose.lookupIn
  rw [if_pos (by decide), h1, List.reverse_append, List.reverse_cons, List.append_assoc, List.singleton_append]
  refine back_skip _ i (partSource esc ign before.length a) _ hi _ ?_
  intro t ht
  obtain ⟨k, b, hb, rfl⟩ := h2 t (List.mem_reverse.mp ht)
  exact not_has (hr b (by simp [hb])) hne hn (hafter b hb) k

theorem lookup_nothing {esc : Bytes → Str} {ign : Bool} {as : List Part} (hr : Ready esc ign as)
    (hag : Agree as) (o : Limits) {ns : List Str} (hne : ns ≠ []) (hn : ∀ x ∈ ns, IsName x)
    (hall : ∀ b ∈ as, ¬ At b.files ns) : (together esc ign o (given as)).lookup (canonical ns) 0 = none := by
  rw [together_lookup hr hag o hne hn]
  unfold Compose.lookupIn
  rw [if_pos (by decide)]
  refine back_none _ _ ?_
  intro t ht
  obtain ⟨k, b, hk, rfl⟩ := mem_sources (List.mem_reverse.mp ht)
  have hb := List.mem_of_getElem? hk
  exact not_has (hr b hb) hne hn (hall b hb) k

/-- The file in the last archive that has the place. -/
theorem lookup_top {esc : Bytes → Str} {ign : Bool} {as : List Part} (hr : Ready esc ign as) (hag : Agree as) (o : Limits) {ns : List Str}
    (hne : ns ≠ []) (hn : ∀ x ∈ ns, IsName x) {f : File} (ht : Top as ns f) :
    ∃ k a m offset, as[k]? = some a ∧ (f, m) ∈ a.ws ∧
      (together esc ign o (given as)).lookup (canonical ns) 0 = some ((infoOf (m, f.hdr) offset).push (.source k)) ∧
      Tar.readAt a.archive offset f.data.length = f.data ∧ offset + f.data.length ≤ a.archive.length := by
  obtain ⟨before, a, after, rfl, hl, hafter⟩ := ht
  have ha := hr a (by simp)
  obtain ⟨m, h1, h2⟩ := TarFiles.last_some hl
  obtain ⟨-, offset, h3, h4, h5⟩ := source_member (part_inserted ha) hne hn (query_canonical _ hn) h2
  refine ⟨before.length, a, m, offset, by rw [List.getElem?_append_right (Nat.le_refl _), Nat.sub_self]; rfl, h1,
    lookup_last hr hag o hne hn hafter h3, ?_, ?_⟩
  · have hd := TarFiles.data_eq (ha.1.written _ h1)
    simp only at hd
    rw [TarFiles.archive_eq] at h4
    rw [← hd]; exact h4
  · have hd := TarFiles.data_eq (ha.1.written _ h1)
    simp only at hd
    rw [TarFiles.archive_eq] at h5
    rw [← hd]; exact h5

theorem hardLink_file {esc : Bytes → Str} {ign : Bool} {a : Part} (ha : Packed a.ws ∧ Batches esc ign a.archive a.bs) {f : File} {m : Member}
    (h : (f, m) ∈ a.ws) (offset k : Nat) :
    Compose.isHardLink ((infoOf (m, f.hdr) offset).push (.source k)) = true ↔ f.kind = .hardlink ∧ f.link ≠ [] := by
  have h1 := hardLink_iff (part_inserted ha).clean (p := (m, f.hdr)) (List.mem_map.mpr ⟨_, h, rfl⟩) offset
  have h2 : Compose.isHardLink ((infoOf (m, f.hdr) offset).push (.source k)) = Compose.isHardLink (infoOf (m, f.hdr) offset) := rfl
  rw [h2, h1]
  exact and_congr (TarFiles.kind_hard _) Iff.rfl

theorem tidy_place {k : Nat} {ns : List Str} (hn : ∀ n ∈ ns, IsName n) : place (List.replicate k '/' ++ join '/' ns) = ns := by
  have key : ∀ (k : Nat) (s : Str), walk [] (split '/' (List.replicate k '/' ++ s)) = walk [] (split '/' s) := by
    intro k s
    induction k with
    | zero => rfl
    | succ k ih =>
      rw [List.replicate_succ, List.cons_append, split_cons_eq]
      simpa [walk] using ih
  have h := split_canonical ns hn
  unfold place
  have hc : canonical ns = '/' :: join '/' ns := by cases ns <;> rfl
  rw [hc, split_cons_eq] at h
  rw [key]
  simpa [walk] using h

theorem tidy_target {k : Nat} {ns : List Str} (hne : ns ≠ []) (hn : ∀ n ∈ ns, IsName n) {i : Compose.FileInfo}
    (hi : i.link = List.replicate k '/' ++ join '/' ns) : Compose.linkTarget mp i = canonical ns :=
  Compose.C36_target mp i [] ns k (by simp) hn hne rfl hi

/-- Following hard links. -/
theorem chain_leads {esc : Bytes → Str} {ign : Bool} {as : List Part} (hr : Ready esc ign as) (hag : Agree as) (o : Limits) {k : Nat}
    {ns : List Str} {f : File} (h : Leads as k ns f) : (∀ x ∈ ns, IsName x) →
    ∃ i j a m offset, (together esc ign o (given as)).lookup (canonical ns) 0 = some i ∧
      Compose.LinkChain (together esc ign o (given as)) mp (canonical ns) i ((infoOf (m, f.hdr) offset).push (.source j)) k ∧
      as[j]? = some a ∧ (f, m) ∈ a.ws ∧ Tar.readAt a.archive offset f.data.length = f.data ∧ offset + f.data.length ≤ a.archive.length := by
  induction h with
  | here ns f hne ht hk =>
    intro hn
    obtain ⟨j, a, m, offset, h1, h2, h3, h4, h5⟩ := lookup_top hr hag o hne hn ht
    refine ⟨_, j, a, m, offset, h3, .done _ _ ?_, h1, h2, h4, h5⟩
    rw [Bool.eq_false_iff]
    intro hh
    exact hk ((hardLink_file (hr a (List.mem_of_getElem? h1)) h2 offset j).mp hh).1
  | link k ns g f hne ht hk hl hother hrest ih =>
    intro hn
    obtain ⟨j, a, m, offset, h1, h2, h3, -, -⟩ := lookup_top hr hag o hne hn ht
    obtain ⟨n0, ls, hlne, hln, hle⟩ := hl
    have hpl : place g.link = ls := by rw [hle]; exact tidy_place hln
    rw [hpl] at ih hother
    have htarget : Compose.linkTarget mp ((infoOf (m, g.hdr) offset).push (.source j)) = canonical ls := tidy_target hlne hln hle
    obtain ⟨i', j', a', m', offset', g1, g2, g3⟩ := ih hln
    refine ⟨_, j', a', m', offset', h3, .step _ _ i' _ _ ((hardLink_file (hr a (List.mem_of_getElem? h1)) h2 offset j).mpr ⟨hk, ?_⟩) ?_ ?_ ?_, g3⟩
    · rw [hle]
      intro h0
      have : place (List.replicate n0 '/' ++ join '/' ls) = ls := tidy_place hln
      rw [h0] at this
      exact hlne (this.symm.trans (by decide))
    · rw [htarget]
      intro he
      exact hother (TarMount.canonical_inj hln hn he)
    · rw [htarget]; exact g1
    · rw [htarget]; exact g2

theorem leads_kind {as : List Part} {k : Nat} {ns : List Str} {f : File} (h : Leads as k ns f) : f.kind ≠ .hardlink := by
  induction h with
  | here ns f hne ht hk => exact hk
  | link k ns g f hne ht hk hl hother hrest ih => exact ih

theorem mlookup_leads {esc : Bytes → Str} {ign : Bool} {as : List Part} (hr : Ready esc ign as) (hag : Agree as) (o : Limits) {k : Nat}
    {ns : List Str} {f : File} (h : Leads as k ns f) (hk : k ≤ 128) (hn : ∀ x ∈ ns, IsName x) :
    ∃ j a m offset, mlookup (together esc ign o (given as)) (canonical ns) = .ok (((infoOf (m, f.hdr) offset).push (.source j)).push .file) ∧
      as[j]? = some a ∧ (f, m) ∈ a.ws ∧ Tar.readAt a.archive offset f.data.length = f.data ∧ offset + f.data.length ≤ a.archive.length := by
  obtain ⟨i, j, a, m, offset, h1, h2, h3⟩ := chain_leads hr hag o h hn
  refine ⟨j, a, m, offset, ?_, h3⟩
  have := Compose.C36_chain_partial _ mp _ _ _ _ h1 h2 hk
  unfold mlookup vlookup
  rw [if_neg (by simp), this]

/-! ## lemmas: the views -/

/-- The file objects still hold the archives, and all views are views of them. -/
structure Good (as : List Bytes) (m : Mount) : Prop where
  same : Stencil.SameData m.store (files as)
  fresh : ∀ fh r, m.opened.get? fh = some r → fh ≤ m.last
  wf : ∀ fh r, m.opened.get? fh = some r → Stencil.WF m.store r

theorem mread_spec {as : List Bytes} {m : Mount} (hg : Good as m) {fh : Nat} {r : Raw} (hr : m.opened.get? fh = some r) (size offset : Nat) :
    ∃ store r', mread m fh size offset = (update m fh store r', .ok (((Stencil.pieces m.store r.stencils).drop offset).take size)) ∧
      Stencil.SameData store m.store ∧ r'.stencils = r.stencils ∧ Stencil.WF m.store r' := by
  unfold mread
  rw [hr]
  have hseek : r.seek (offset : Int) .set = ({ r with offset := (offset : Int) }, .ok (offset : Int)) := by
    unfold Raw.seek
    have : r.target (offset : Int) .set = (offset : Int) := rfl
    rw [this, if_neg (by omega)]
  have hwf := (hg.wf fh r hr).offset (offset : Int)
  obtain ⟨st', h1, h2⟩ := Stencil.read_spec hwf offset rfl (size : Int)
  have hn1 : ¬ (size : Int) = -1 := by omega
  rw [if_neg hn1, Int.toNat_natCast] at h1
  refine ⟨st', { r with offset := ((offset + (((Stencil.pieces m.store r.stencils).drop offset).take size).length : Nat) : Int) }, ?_, h2, rfl, ?_⟩
  · show seekRead m fh r size offset = _
    unfold seekRead
    rw [hseek]
    show readView m fh { r with offset := (offset : Int) } size = _
    unfold readView
    rw [h1]
  · exact hwf.offset _

theorem update_good {as : List Bytes} {m : Mount} (hg : Good as m) {fh : Nat} {r : Raw} (hr : m.opened.get? fh = some r)
    {store : Store UInt8} {r' : Raw} (hs : Stencil.SameData store m.store) (hst : r'.stencils = r.stencils) (hwf : Stencil.WF m.store r') :
    Good as (update m fh store r') ∧ ∀ g data, Holds m g data → Holds (update m fh store r') g data := by
  refine ⟨⟨hs.trans hg.same, ?_, ?_⟩, ?_⟩
  · intro g q hq
    replace hq : (m.opened.set fh r').get? g = some q := hq
    rw [Dict.get?_set] at hq
    split at hq
    · next he => subst he; exact hg.fresh _ r hr
    · exact hg.fresh g q hq
  · intro g q hq
    replace hq : (m.opened.set fh r').get? g = some q := hq
    rw [Dict.get?_set] at hq
    split at hq
    · cases hq; exact hwf.same hs
    · exact (hg.wf g q hq).same hs
  · rintro g data ⟨q, hq, hd⟩
    by_cases he : fh = g
    · subst he
      rw [hr] at hq
      cases hq
      refine ⟨r', ?_, ?_⟩
      · show (m.opened.set fh r').get? fh = some r'
        rw [Dict.get?_set, if_pos rfl]
      · show Stencil.pieces store r'.stencils = data
        rw [hs.pieces, hst, hd]
    · refine ⟨q, ?_, ?_⟩
      · show (m.opened.set fh r').get? g = some q
        rw [Dict.get?_set, if_neg he, hq]
      · show Stencil.pieces store q.stencils = data
        rw [hs.pieces, hd]

theorem addHandle_good {as : List Bytes} {m : Mount} (hg : Good as m) {r : Raw} (hwf : Stencil.WF m.store r) :
    Good as (addHandle m r) ∧ Holds (addHandle m r) (m.last + 1) (Stencil.pieces m.store r.stencils) ∧
      ∀ g data, Holds m g data → Holds (addHandle m r) g data := by
  refine ⟨⟨hg.same, ?_, ?_⟩, ⟨r, ?_, rfl⟩, ?_⟩
  · intro g q hq
    replace hq : (m.opened.set (m.last + 1) r).get? g = some q := hq
    show g ≤ m.last + 1
    rw [Dict.get?_set] at hq
    split at hq
    · omega
    · have := hg.fresh g q hq; omega
  · intro g q hq
    replace hq : (m.opened.set (m.last + 1) r).get? g = some q := hq
    rw [Dict.get?_set] at hq
    split at hq
    · cases hq; exact hwf
    · exact hg.wf g q hq
  · show (m.opened.set (m.last + 1) r).get? (m.last + 1) = some r
    rw [Dict.get?_set, if_pos rfl]
  · rintro g data ⟨q, hq, hd⟩
    refine ⟨q, ?_, hd⟩
    show (m.opened.set (m.last + 1) r).get? g = some q
    have := hg.fresh g q hq
    rw [Dict.get?_set, if_neg (by omega), hq]

theorem openIn_wf {as : List Bytes} {m : Mount} (hg : Good as m) {k : Nat} {archive : Bytes} (hk : as[k]? = some archive) (offset size : Nat)
    (h : size = 0 ∨ offset + size ≤ archive.length) :
    ∃ r, Raw.init [(k, (offset : Int), (size : Int))] = .ok r ∧ Stencil.WF m.store r ∧
      Stencil.pieces m.store r.stencils = Tar.readAt archive offset size := by
  have hc : (m.store k).content = archive := by
    have := (hg.same k).1
    rw [this]
    show as[k]?.getD [] = archive
    rw [hk]; rfl
  have hcl := (hg.same k).2
  rcases h with rfl | h
  · refine ⟨⟨0, [], [0]⟩, ?_, ⟨rfl, by simp, by simp⟩, by simp [Stencil.pieces, Tar.readAt]⟩
    unfold Raw.init
    rw [if_neg (by simp), if_neg (by simp)]
    simp [Stencil.cumulate]
  · obtain ⟨r, h1, -, h2, h3⟩ := Stencil.init_ok m.store [(k, (offset : Int), (size : Int))] (by
      intro s hs
      rw [List.mem_singleton] at hs
      subst hs
      refine ⟨by simp, by simp, ?_, hcl⟩
      rw [hc]
      simp only
      omega)
    refine ⟨r, h1, h2, ?_⟩
    rw [h3]
    unfold Stencil.joined Tar.readAt
    simp only [List.flatMap_cons, List.flatMap_nil, List.append_nil, hc, Int.toNat_natCast]

/-- The bytes of the archives. -/
def archives (as : List Part) : List Bytes := as.map (fun a => a.archive)

theorem together_sources (esc : Bytes → Str) (ign : Bool) (o : Limits) (as : List (Bytes × List (List Row))) :
    (Union.new (sources esc ign as) o.depth o.entries o.timeUp).sources = sources esc ign as := by unfold Union.new; split <;> rfl

/-- What can be opened lies in one of the archives. -/
theorem mlookup_any {esc : Bytes → Str} {ign : Bool} {as : List Part} (hr : Ready esc ign as) (o : Limits)
    {path : Str} {i : Compose.FileInfo} (h : mlookup (together esc ign o (given as)) path = .ok i) :
    (∃ k archive offset, i.userdata = [.file, .source k, .own offset] ∧ (archives as)[k]? = some archive ∧
      (i.rest = 0 ∨ offset + i.rest ≤ archive.length)) ∨ openIn i = .error .fileNotFound := by
  have hv : vlookup (together esc ign o (given as)) mp path 0 = .ok (some i) := by
    unfold mlookup at h
    split at h
    · cases h
    · cases h
    · next e => cases h; exact e
  rcases Compose.C32_versions_tags _ mp path i hv with ⟨h1, -⟩ | ⟨q, w, j, h1, rfl⟩
  · right; unfold openIn; rw [h1]
  · rcases Compose.C32_union_tags _ q w j h1 with rfl | ⟨s, hs, w', j', h2, rfl⟩
    · right; rfl
    · left
      rw [together_sources] at hs
      obtain ⟨k, a, hk, rfl⟩ := mem_sources hs
      obtain ⟨offset, h3, h4⟩ := source_any (part_inserted (hr a (List.mem_of_getElem? hk))) h2
      refine ⟨k, a.archive, offset, ?_, ?_, ?_⟩
      · show [Compose.Tag.file, .source k] ++ j'.userdata = _
        rw [h3]; rfl
      · unfold archives; rw [List.getElem?_map, hk]; rfl
      · rw [TarFiles.archive_eq] at h4
        exact h4

theorem call_good {esc : Bytes → Str} {ign : Bool} {as : List Part} (hr : Ready esc ign as) (o : Limits) {m : Mount}
    (hg : Good (archives as) m) (cl : Call) :
    Good (archives as) (ucall (together esc ign o (given as)) m cl) ∧
      ∀ g data, Holds m g data → Holds (ucall (together esc ign o (given as)) m cl) g data := by
  cases cl with
  | release fh => exact ⟨hg, fun _ _ h => h⟩
  | read fh size offset =>
    show Good (archives as) (mread m fh size offset).1 ∧ ∀ g data, Holds m g data → Holds (mread m fh size offset).1 g data
    cases hr : m.opened.get? fh with
    | none =>
      have : mread m fh size offset = (m, .error .unsupported) := by unfold mread; rw [hr]
      rw [this]
      exact ⟨hg, fun _ _ h => h⟩
    | some r =>
      obtain ⟨store, r', h1, h2, h3, h4⟩ := mread_spec hg hr size offset
      rw [h1]
      exact update_good hg hr h2 h3 h4
  | «open» path =>
    show Good (archives as) (uopen (together esc ign o (given as)) m path).1 ∧
      ∀ g data, Holds m g data → Holds (uopen (together esc ign o (given as)) m path).1 g data
    unfold uopen
    cases hl : mlookup (together esc ign o (given as)) path with
    | error e => exact ⟨hg, fun _ _ h => h⟩
    | ok i =>
      simp only
      rcases mlookup_any hr o hl with ⟨k, archive, offset, h1, h0, h2⟩ | h1
      · obtain ⟨r, h3, h4, -⟩ := openIn_wf hg h0 offset i.rest h2
        have : openIn i = .ok r := by unfold openIn; rw [h1]; exact h3
        rw [this]
        exact ⟨(addHandle_good hg h4).1, (addHandle_good hg h4).2.2⟩
      · rw [h1]
        exact ⟨hg, fun _ _ h => h⟩

theorem calls_good {esc : Bytes → Str} {ign : Bool} {as : List Part} (hr : Ready esc ign as) (o : Limits) (cs : List Call) :
    ∀ {m : Mount}, Good (archives as) m → Good (archives as) (ucalls (together esc ign o (given as)) m cs) ∧
      ∀ g data, Holds m g data → Holds (ucalls (together esc ign o (given as)) m cs) g data := by
  induction cs with
  | nil => intro m hg; exact ⟨hg, fun _ _ h => h⟩
  | cons cl cs ih =>
    intro m hg
    obtain ⟨h1, h2⟩ := call_good hr o hg cl
    obtain ⟨h3, h4⟩ := ih h1
    exact ⟨h3, fun g data h => h4 g data (h2 g data h)⟩

theorem begin_good (as : List Bytes) : Good as (begin as) :=
  ⟨Stencil.SameData.refl _, (fun _ _ h => by cases h), (fun _ _ h => by cases h)⟩

/-! ## C209 -/

/-- What is found can be opened and read. -/
theorem reads {esc : Bytes → Str} {ign : Bool} {as : List Part} (hr : Ready esc ign as) (o : Limits) {path : Str} {f : File} {j : Nat} {a : Part}
    {mem : Member} {offset : Nat} (h1 : mlookup (together esc ign o (given as)) path = .ok (((infoOf (mem, f.hdr) offset).push (.source j)).push .file))
    (h2 : as[j]? = some a) (h3 : (f, mem) ∈ a.ws) (h4 : Tar.readAt a.archive offset f.data.length = f.data)
    (h5 : offset + f.data.length ≤ a.archive.length) (before : List Call) :
    ∃ m fh, uopen (together esc ign o (given as)) (ucalls (together esc ign o (given as)) (begin (archives as)) before) path = (m, .ok fh) ∧
      ∀ (between : List Call) (size offset : Nat),
        (mread (ucalls (together esc ign o (given as)) m between) fh size offset).2 = .ok ((f.data.drop offset).take size) := by
  obtain ⟨hg, -⟩ := calls_good hr o before (begin_good (archives as))
  have hj : (archives as)[j]? = some a.archive := by unfold archives; rw [List.getElem?_map, h2]; rfl
  have hd := TarFiles.data_eq ((hr a (List.mem_of_getElem? h2)).1.written _ h3)
  simp only at hd
  obtain ⟨r, g1, g2, g3⟩ := openIn_wf hg hj offset f.data.length (.inr h5)
  have hv : openIn (((infoOf (mem, f.hdr) offset).push (.source j)).push .file) = .ok r := by
    show Raw.init [(j, (offset : Int), (mem.data.length : Int))] = .ok r
    rw [hd]; exact g1
  obtain ⟨k1, k2, -⟩ := addHandle_good hg g2
  refine ⟨_, _, by unfold uopen; rw [h1]; simp only [hv]; rfl, ?_⟩
  intro between size off
  obtain ⟨k3, k4⟩ := calls_good hr o between k1
  obtain ⟨q, hq, hd'⟩ := k4 _ _ k2
  obtain ⟨store, r', e, -⟩ := mread_spec k3 hq size off
  rw [e, hd', g3, h4]

/-- **C209**: after any calls, the place of a file can be opened, and whatever is opened, read and closed in between, every read gives exactly
the requested range of the data of the file in the last archive that has something at this place, also through at most 128
hard links. Missing from the full claim: hard links are not followed in their own archive, and not at all if the name of the link is not
written with single slashes and without `.`, see `C209_violated` and `C209_dot_violated`. -/
theorem C209_read_partial {esc : Bytes → Str} {ign : Bool} {as : List Part} (hr : Ready esc ign as) (hag : Agree as) (o : Limits) {k : Nat}
    {ns : List Str} {f : File} (h : Leads as k ns f) (hk : k ≤ 128) (hn : ∀ x ∈ ns, IsName x) (before : List Call) :
    ∃ m fh, uopen (together esc ign o (given as)) (ucalls (together esc ign o (given as)) (begin (as.map (fun a => a.archive))) before)
        (canonical ns) = (m, .ok fh) ∧
      ∀ (between : List Call) (size offset : Nat),
        (mread (ucalls (together esc ign o (given as)) m between) fh size offset).2 = .ok ((f.data.drop offset).take size) := by
  rw [show as.map (fun a => a.archive) = archives as from rfl]
  obtain ⟨j, a, mem, offset, h1, h2, h3, h4, h5⟩ := mlookup_leads hr hag o h hk hn
  exact reads hr o h1 h2 h3 h4 h5 before

/-- **C209**: size, type, permissions and target of a link are those of this file. -/
theorem C209_attributes_partial {esc : Bytes → Str} {ign : Bool} {as : List Part} (hr : Ready esc ign as) (hag : Agree as) (o : Limits) {k : Nat}
    {ns : List Str} {f : File} (h : Leads as k ns f) (hk : k ≤ 128) (hn : ∀ x ∈ ns, IsName x) :
    mgetattr (together esc ign o (given as)) (canonical ns) = .ok (f.mode ||| bits f.kind, f.data.length) ∧
      mreadlink (together esc ign o (given as)) (canonical ns) = .ok f.link := by
  obtain ⟨j, a, mem, offset, h1, h2, h3, h4, h5⟩ := mlookup_leads hr hag o h hk hn
  have hd := TarFiles.data_eq ((hr a (List.mem_of_getElem? h2)).1.written _ h3)
  simp only at hd
  unfold mgetattr mreadlink
  rw [h1]
  refine ⟨?_, rfl⟩
  show Except.ok (f.mode ||| typeOf f.kind.char, mem.data.length) = _
  rw [hd, TarFiles.typeOf_kind _ (leads_kind h)]

/-- **C209**: a folder that was not packed itself, in the last archive that has something at the place, is shown as a folder. -/
theorem C209_folder {esc : Bytes → Str} {ign : Bool} {before after : List Part} {a : Part} (hr : Ready esc ign (before ++ a :: after))
    (hag : Agree (before ++ a :: after)) (o : Limits) {ns : List Str} (hne : ns ≠ []) (hn : ∀ x ∈ ns, IsName x)
    (hl : lastFile a.files ns = none) (hi : Inside a.files ns) (hafter : ∀ b ∈ after, ¬ At b.files ns) :
    mgetattr (together esc ign o (given (before ++ a :: after))) (canonical ns) = .ok (0o40555, 0) := by
  rcases List.eq_nil_or_concat ns with rfl | ⟨ms, x, rfl⟩
  · exact absurd rfl hne
  · rw [List.concat_eq_append] at hn hl hi hne hafter ⊢
    obtain ⟨f, h1, h2, h3⟩ := found_generated (part_inserted (hr a (by simp))) hn (query_canonical _ hn) (TarFiles.last_none hl)
      ((TarFiles.inside_iff _ _).mpr hi)
    have hs : (tarSource (rowsOf (codec esc) ign (members a.ws) a.zeros) a.bs).lookup (canonical (ms ++ [x])) 0 =
        some (toInfo (rowsOf (codec esc) ign (members a.ws) a.zeros) f) := by
      show (Index.lookup (build a.bs) _ 0).map _ = _
      rw [h1]; rfl
    have hnl : Compose.isHardLink ((toInfo (rowsOf (codec esc) ign (members a.ws) a.zeros) f).push (.source before.length)) = false := by
      show Compose.isHardLink (toInfo (rowsOf (codec esc) ign (members a.ws) a.zeros) f) = false
      unfold Compose.isHardLink toInfo linkAt column
      rw [h3]
      simp
    unfold mgetattr mlookup
    rw [Compose.C34_other _ mp _ _ (lookup_last hr hag o hne hn hafter hs) hnl]
    show Except.ok (f.info.mode, sizeAt (rowsOf (codec esc) ign (members a.ws) a.zeros) f.info.rest) = _
    rw [h2, h3]
    rfl

/-- **C209**: what is in none of the archives does not exist. -/
theorem C209_absent {esc : Bytes → Str} {ign : Bool} {as : List Part} (hr : Ready esc ign as) (hag : Agree as) (o : Limits) {ns : List Str}
    (hne : ns ≠ []) (hn : ∀ x ∈ ns, IsName x) (hv : ∀ x ∈ ns, endsWith dotVersions x = false) (hall : ∀ a ∈ as, ¬ At a.files ns) (m : Mount) :
    mgetattr (together esc ign o (given as)) (canonical ns) = .error (.os 2) ∧
      uopen (together esc ign o (given as)) m (canonical ns) = (m, .error (.os 2)) := by
  have h2 := Compose.C34_missing _ mp ns hne (fun x hx => ⟨(hn x hx).1, (hn x hx).2.1⟩) hv (lookup_nothing hr hag o hne hn hall)
  have h3 : mlookup (together esc ign o (given as)) (canonical ns) = .error (.os 2) := by
    unfold mlookup; rw [h2]
  unfold mgetattr uopen
  rw [h3]
  exact ⟨rfl, rfl⟩

/-- **C209**: the root is a folder. -/
theorem C209_root (esc : Bytes → Str) (ign : Bool) (as : List Part) (o : Limits) :
    mgetattr (together esc ign o (given as)) ['/'] = .ok (0o40777, 0) := by
  have hs : (together esc ign o (given as)).lookup ['/'] 0 = some (Compose.rootInfo [.none]) := by
    show Compose.Union.lookup (Union.new (sources esc ign (given as)) o.depth o.entries o.timeUp) ['/'] 0 = _
    unfold Union.lookup
    rw [if_pos (by decide)]
  unfold mgetattr mlookup
  rw [Compose.C34_other _ mp _ _ hs (by decide)]
  rfl

theorem union_names (u : Union) {ns : List Str} (hn : ∀ x ∈ ns, IsName x) (hv : ∀ x ∈ ns, endsWith dotVersions x = false) :
    ((vlist (unionSource u) (canonical ns)).map (fun l => l.keys)).getD [] = ((u.list (canonical ns)).map (fun l => l.keys)).getD [] := by
  unfold vlist
  rw [show (unionSource u).list (canonical ns) = u.list (canonical ns) from rfl]
  cases hl : u.list (canonical ns) with
  | some l => cases l <;> simp [Compose.pushAll, Listing.keys, Dict.keys, Function.comp_def]
  | none =>
    rcases decode_plain (unionSource u) ns hn hv with h | ⟨v, h⟩
    · simp only [h]
    · simp only [h]
      rw [show (unionSource u).list (canonical ns) = u.list (canonical ns) from rfl, hl]
      rfl

theorem fold_nodup {V : Type} (f : Source → Option (Listing V)) (ss : List Source)
    (h : ∀ s ∈ ss, ∀ l, f s = some l → ∃ d : Dict Str V, l = .dict d ∧ d.keys.Nodup) : ∀ acc : Option (Listing V),
    (∀ l, acc = some l → ∃ d : Dict Str V, l = .dict d ∧ d.keys.Nodup) →
    ∀ l, ss.foldl (fun files s => Compose.mergeListing files (f s)) acc = some l → ∃ d : Dict Str V, l = .dict d ∧ d.keys.Nodup := by
  induction ss with
  | nil => intro acc ha l hl; exact ha l hl
  | cons s ss ih =>
    intro acc ha l hl
    rw [List.foldl_cons] at hl
    refine ih (fun t ht => h t (List.mem_cons_of_mem _ ht)) _ ?_ l hl
    intro l' hl'
    cases acc with
    | none => exact h s (by simp) l' hl'
    | some a =>
      obtain ⟨d, rfl, hd⟩ := ha a rfl
      cases hf : f s with
      | none => rw [hf] at hl'; cases hl'; exact ⟨d, rfl, hd⟩
      | some b =>
        obtain ⟨e, rfl, he⟩ := h s (by simp) b hf
        rw [hf] at hl'
        cases hl'
        exact ⟨_, rfl, Dict.nodup_update _ _ hd⟩

/-- **C209**: a folder lists exactly the names of the files of all archives below it, and no name twice; here the archives may also
disagree about what is a folder. -/
theorem C209_list {esc : Bytes → Str} {ign : Bool} {as : List Part} (hr : Ready esc ign as) (o : Limits) {ns : List Str}
    (hn : ∀ x ∈ ns, IsName x) (hv : ∀ x ∈ ns, endsWith dotVersions x = false) :
    (mreaddir (together esc ign o (given as)) (canonical ns)).Nodup ∧
      ∀ n, n ∈ mreaddir (together esc ign o (given as)) (canonical ns) ↔
        n = ['.'] ∨ n = ['.', '.'] ∨ ∃ a ∈ as, ∃ f ∈ a.files, ∃ rest, place f.name = ns ++ n :: rest := by
  have hkeys : ∀ n, n ∈ ((vlist (together esc ign o (given as)) (canonical ns)).map (fun l => l.keys)).getD [] ↔
      ∃ a ∈ as, ∃ f ∈ a.files, ∃ rest, place f.name = ns ++ n :: rest := by
    intro n
    have hname : ∀ a ∈ as, ∀ k, n ∈ (partSource esc ign k a).namesIn (canonical ns) ↔ ∃ f ∈ a.files, ∃ rest, place f.name = ns ++ n :: rest := by
      intro a ha k
      refine (mem_namesIn (part_inserted (hr a ha)) hn n).trans ?_
      constructor
      · rintro ⟨p, hp, rest, he⟩
        obtain ⟨q, hq, rfl⟩ := List.mem_map.mp hp
        exact ⟨q.1, List.mem_map.mpr ⟨q, hq, rfl⟩, rest, he⟩
      · rintro ⟨f, hf, rest, he⟩
        obtain ⟨q, hq, rfl⟩ := List.mem_map.mp hf
        exact ⟨_, List.mem_map.mpr ⟨q, hq, rfl⟩, rest, he⟩
    have hin : ∀ s : Source, n ∈ s.namesIn (canonical ns) ↔ ∃ l, s.list (canonical ns) = some l ∧ n ∈ l.keys := by
      intro s
      unfold Source.namesIn
      cases s.list (canonical ns) with
      | none => simp
      | some l => simp
    unfold together
    rw [union_names _ hn hv]
    obtain ⟨⟨h1, h2⟩, -⟩ := Compose.C31_names (Union.new (sources esc ign (given as)) o.depth o.entries o.timeUp) (canonical ns)
    rw [together_sources] at h1 h2
    have hall : (∃ s ∈ sources esc ign (given as), ∃ l, s.list (canonical ns) = some l ∧ n ∈ l.keys) ↔
        ∃ a ∈ as, ∃ f ∈ a.files, ∃ rest, place f.name = ns ++ n :: rest := by
      constructor
      · rintro ⟨s, hs, h⟩
        obtain ⟨k, a, hk, rfl⟩ := mem_sources hs
        have ha := List.mem_of_getElem? hk
        exact ⟨a, ha, (hname a ha k).mp ((hin _).mpr h)⟩
      · rintro ⟨a, ha, h⟩
        obtain ⟨k, hk⟩ := List.mem_iff_getElem?.mp ha
        refine ⟨partSource esc ign k a, ?_, (hin _).mp ((hname a ha k).mpr h)⟩
        refine List.mem_iff_getElem?.mpr ⟨k, ?_⟩
        rw [sources_get, hk]; rfl
    rw [← hall]
    cases hl : (Union.new (sources esc ign (given as)) o.depth o.entries o.timeUp).list (canonical ns) with
    | none =>
      have := h1.mp hl
      simp only [Option.map_none, Option.getD_none, List.not_mem_nil, false_iff]
      rintro ⟨s, hs, l, hl', -⟩
      rw [this s hs] at hl'
      cases hl'
    | some l => exact h2 l hl n
  constructor
  · unfold mreaddir
    have hnot : ∀ n, n ∈ ((vlist (together esc ign o (given as)) (canonical ns)).map (fun l => l.keys)).getD [] → n ≠ ['.'] ∧ n ≠ ['.', '.'] := by
      intro n hm
      obtain ⟨a, -, f, -, rest, he⟩ := (hkeys n).mp hm
      have := place_names f.name n (by rw [he]; simp)
      exact ⟨this.2.2.1, this.2.2.2⟩
    rw [List.nodup_cons, List.nodup_cons, List.mem_cons]
    refine ⟨?_, fun h => (hnot _ h).2 rfl, ?_⟩
    · rintro (h | h)
      · exact absurd h (by decide)
      · exact (hnot _ h).1 rfl
    · unfold together
      rw [union_names _ hn hv]
      cases hl : (Union.new (sources esc ign (given as)) o.depth o.entries o.timeUp).list (canonical ns) with
      | none => exact List.nodup_nil
      | some l =>
        unfold Union.list at hl
        rw [together_sources] at hl
        obtain ⟨d, rfl, hd⟩ := fold_nodup (fun s => s.list (canonical ns)) _ (by
          intro s hs l hl
          obtain ⟨k, a, hk, rfl⟩ := mem_sources (List.mem_reverse.mp hs)
          replace hl : (tarSource (rowsOf (codec esc) ign (members a.ws) a.zeros) a.bs).list (canonical ns) = some l := hl
          rw [source_list, Option.map_eq_some_iff] at hl
          obtain ⟨d, hd, rfl⟩ := hl
          refine ⟨_, rfl, ?_⟩
          have := list_nodup _ _ _ hd
          simpa [Dict.keys, Function.comp_def] using this) none (by intro l h; cases h) l hl
        exact hd
  · intro n
    unfold mreaddir
    rw [List.mem_cons, List.mem_cons, hkeys]

/-! ## hard links -/

/-- The full statement of C209 for hard links: as after unpacking the archives one after the other, a hard link shows the file that it leads
to in its own archive, if no later archive has something at the place of the link. -/
def C209_statement : Prop :=
  ∀ (esc : Bytes → Str) (ign : Bool) (before after : List Part) (a : Part) (o : Limits) (k : Nat) (ns : List Str) (f : File),
    Ready esc ign (before ++ a :: after) → Agree (before ++ a :: after) → TarFiles.Leads a.files k ns f → k ≤ 128 → (∀ x ∈ ns, IsName x) →
    (∀ b ∈ after, ¬ At b.files ns) →
    mgetattr (together esc ign o (given (before ++ a :: after))) (canonical ns) = .ok (f.mode ||| bits f.kind, f.data.length)

def fileA : File := ⟨.file, "d/a".toList, 0o644, [1], []⟩
def linkA : File := ⟨.hardlink, "d/h".toList, 0o644, [], "d/a".toList⟩
def dotA : File := ⟨.hardlink, "./d/p".toList, 0o644, [], "./d/b".toList⟩
def fileC : File := ⟨.file, "./d/b".toList, 0o600, [7, 8, 9], []⟩
def fileB : File := ⟨.file, "d/a".toList, 0o600, [2, 3], []⟩

open Verif.Fuse.TarFiles (someone someone_ok)

/-- The first archive: `d/a` and the hard link `d/h` to it, and `./d/b` with the hard link `./d/p` to it. -/
def packA : Packing := [(fileA, Tar.Header.gnu someone fileA), (linkA, Tar.Header.gnu someone linkA), (fileC, Tar.Header.gnu someone fileC),
  (dotA, Tar.Header.gnu someone dotA)]

/-- The second archive: another file `d/a`. -/
def packB : Packing := [(fileB, Tar.Header.gnu someone fileB)]

def esc0 : Bytes → Str := fun _ => []
def batchesA : List (List Row) := [toRows (Tar.newIndex (codec esc0) (plain false) 0 (bytesOf packA 1024))]
def batchesB : List (List Row) := [toRows (Tar.newIndex (codec esc0) (plain false) 0 (bytesOf packB 1024))]

def partA : Part := ⟨packA, 1024, batchesA⟩
def partB : Part := ⟨packB, 1024, batchesB⟩

theorem placesA : ∀ f ∈ partA.files, place f.name = [['d'], ['a']] ∨ place f.name = [['d'], ['h']] ∨ place f.name = [['d'], ['b']] ∨
    place f.name = [['d'], ['p']] := by
  decide

theorem placesB : ∀ f ∈ partB.files, place f.name = [['d'], ['a']] := by decide

theorem tree_of {fs : List File} (h : ∀ f ∈ fs, ∃ x, place f.name = [['d'], x]) : ∀ f ∈ fs, ¬ Inside fs (place f.name) := by
  rintro f hf ⟨g, hg, n, rest, he⟩
  obtain ⟨x, hx⟩ := h f hf
  obtain ⟨y, hy⟩ := h g hg
  rw [hx, hy] at he
  simp at he

theorem shapeA : ∀ f ∈ partA.files, ∃ x, place f.name = [['d'], x] := by
  intro f hf
  rcases placesA f hf with h | h | h | h <;> exact ⟨_, h⟩

theorem shapeB : ∀ f ∈ partB.files, ∃ x, place f.name = [['d'], x] := fun f hf => ⟨_, placesB f hf⟩

theorem packA_packed : Packed packA where
  written := by
    intro p hp
    simp only [packA, List.mem_cons, List.not_mem_nil, or_false] at hp
    rcases hp with rfl | rfl | rfl | rfl <;> exact .gnu someone someone_ok _
  ok := by
    intro p hp
    simp only [packA, List.mem_cons, List.not_mem_nil, or_false] at hp
    rcases hp with rfl | rfl | rfl | rfl <;>
      exact ⟨by decide, by decide, by decide, by decide, by decide, by decide⟩
  names := by
    intro p hp
    simp only [packA, List.mem_cons, List.not_mem_nil, or_false] at hp
    rcases hp with rfl | rfl | rfl | rfl <;> exact ⟨by unfold Tar.Header.Storable; decide, by unfold Tar.Header.Storable; decide⟩
  tree p hp hi := absurd hi (tree_of shapeA p.1 (List.mem_map.mpr ⟨p, hp, rfl⟩))

theorem packB_packed : Packed packB where
  written := by
    intro p hp
    simp only [packB, List.mem_cons, List.not_mem_nil, or_false] at hp
    rcases hp with rfl; exact .gnu someone someone_ok _
  ok := by
    intro p hp
    simp only [packB, List.mem_cons, List.not_mem_nil, or_false] at hp
    rcases hp with rfl; exact ⟨by decide, by decide, by decide, by decide, by decide, by decide⟩
  names := by
    intro p hp
    simp only [packB, List.mem_cons, List.not_mem_nil, or_false] at hp
    rcases hp with rfl; exact ⟨by unfold Tar.Header.Storable; decide, by unfold Tar.Header.Storable; decide⟩
  tree p hp hi := absurd hi (tree_of shapeB p.1 (List.mem_map.mpr ⟨p, hp, rfl⟩))

theorem demo_ready : Ready esc0 false [partA, partB] := by
  intro a ha
  simp only [List.mem_cons, List.not_mem_nil, or_false] at ha
  rcases ha with rfl | rfl
  · exact ⟨packA_packed, by unfold Batches; exact List.append_nil _⟩
  · exact ⟨packB_packed, by unfold Batches; exact List.append_nil _⟩

theorem demo_agree : Agree [partA, partB] := by
  have hshape : ∀ a ∈ [partA, partB], a.files ≠ [] ∧ ∀ f ∈ a.files, (∃ x, place f.name = [['d'], x]) ∧ f.kind ≠ .folder := by
    intro a ha
    simp only [List.mem_cons, List.not_mem_nil, or_false] at ha
    rcases ha with rfl | rfl
    · exact ⟨by decide, fun f hf => ⟨shapeA f hf, by revert f; decide⟩⟩
    · exact ⟨by decide, fun f hf => ⟨shapeB f hf, by revert f; decide⟩⟩
  rintro a ha b hb ns hne (⟨f, hf, n, rest, he⟩ | ⟨f, h1, h2⟩) hat
  · obtain ⟨x, hx⟩ := ((hshape a ha).2 f hf).1
    rw [hx] at he
    have hns : ns = [['d']] := by
      cases ns with
      | nil => exact absurd rfl hne
      | cons y ys =>
        cases ys with
        | nil => simp at he; rw [he.1]
        | cons z zs => simp at he
    subst hns
    left
    obtain ⟨g, hg⟩ := List.exists_mem_of_ne_nil _ (hshape b hb).1
    obtain ⟨x, hx⟩ := ((hshape b hb).2 g hg).1
    exact ⟨g, hg, x, [], hx⟩
  · exact absurd h2 ((hshape a ha).2 f (List.mem_filter.mp (List.mem_of_getLast? h1)).1).2

theorem demo_leads : Leads [partA, partB] 1 [['d'], ['h']] fileB := by
  refine .link 0 _ linkA fileB (by decide) ⟨[], partA, [partB], rfl, by decide, ?_⟩ rfl ⟨0, [['d'], ['a']], by decide, by unfold IsName; decide, by decide⟩
    (by decide) ?_
  · rintro b hb ⟨f, hf, rest, he⟩
    rw [List.mem_singleton] at hb
    subst hb
    rw [placesB f hf] at he
    simp at he
  · exact .here _ fileB (by decide) ⟨[partA], partB, [], rfl, by decide, by simp⟩ (by decide)

/-- **C209 is violated by the code**: the second archive replaces the target of a hard link of the first one, and then the link shows the
file of the second archive. -/
theorem C209_violated : ¬ C209_statement := by
  intro h
  have h1 := h esc0 false [] [partB] partA ⟨1024, 100000, fun _ => false⟩ 1 [['d'], ['h']] fileA demo_ready demo_agree
    (.link 0 _ linkA fileA (by decide) (by decide) rfl (by decide) (by decide) (.here _ fileA (by decide) (by decide) (by decide)))
    (by decide) (by unfold IsName; decide) (by
      rintro b hb ⟨f, hf, rest, he⟩
      rw [List.mem_singleton] at hb
      subst hb
      rw [placesB f hf] at he
      simp at he)
  have h2 := (C209_attributes_partial demo_ready demo_agree ⟨1024, 100000, fun _ => false⟩ demo_leads (by decide) (by unfold IsName; decide)).1
  rw [List.nil_append, h2] at h1
  revert h1
  decide

/-- The hard link is shown as a file without a type and without data if the name of its target begins with `./`, as in archives that were
written with `tar -c .`. -/
def C209_dot_statement : Prop :=
  ∀ (esc : Bytes → Str) (ign : Bool) (before after : List Part) (a : Part) (o : Limits) (ns : List Str) (f : File),
    Ready esc ign (before ++ a :: after) → Agree (before ++ a :: after) → TarFiles.Leads a.files 1 ns f → (∀ x ∈ ns, IsName x) →
    (∀ b ∈ before ++ after, ¬ At b.files ns ∧ ¬ At b.files (place f.name)) →
    mgetattr (together esc ign o (given (before ++ a :: after))) (canonical ns) = .ok (f.mode ||| bits f.kind, f.data.length)

set_option maxRecDepth 100000 in
/-- What is shown for the hard link to `./d/b`: mode and size of the link itself. -/
theorem C209_dot_shown : mgetattr (together esc0 false ⟨1024, 100000, fun _ => false⟩ (given [partA, partB])) "/d/p".toList = .ok (0o644, 0) := by
  decide +kernel

/-- **C209 is violated by the code** also if the other archive has nothing to do with the hard link: its target is not found in the
cache of folders, because the name in the archive begins with `./`. -/
theorem C209_dot_violated : ¬ C209_dot_statement := by
  intro h
  have h1 := h esc0 false [] [partB] partA ⟨1024, 100000, fun _ => false⟩ [['d'], ['p']] fileC demo_ready demo_agree
    (.link 0 _ dotA fileC (by decide) (by decide) rfl (by decide) (by decide) (.here _ fileC (by decide) (by decide) (by decide)))
    (by unfold IsName; decide) (by
      intro b hb
      rw [List.nil_append, List.mem_singleton] at hb
      subst hb
      constructor
      · rintro ⟨f, hf, rest, he⟩
        rw [placesB f hf] at he
        simp at he
      · rintro ⟨f, hf, rest, he⟩
        rw [placesB f hf, show place fileC.name = [['d'], ['b']] by decide] at he
        simp at he)
  rw [List.nil_append, show canonical [['d'], ['p']] = "/d/p".toList by decide, C209_dot_shown] at h1
  revert h1
  decide

/-! ## older versions -/

open Verif.Fuse.OldVersions (versionsOf versionsAt versionPath held_tar)

theorem flat_split {α β : Type} (g : α → List β) {f : β} : ∀ (as : List α) (k : Nat), (as.flatMap g)[k]? = some f →
    ∃ before a after k', as = before ++ a :: after ∧ k = (before.flatMap g).length + k' ∧ (g a)[k']? = some f := by
  intro as
  induction as with
  | nil => intro k h; simp at h
  | cons a as ih =>
    intro k h
    rw [List.flatMap_cons] at h
    by_cases hk : k < (g a).length
    · rw [List.getElem?_append_left hk] at h
      exact ⟨[], a, as, k, rfl, by simp, h⟩
    · rw [List.getElem?_append_right (Nat.le_of_not_lt hk)] at h
      obtain ⟨before, b, after, k', rfl, h1, h2⟩ := ih _ h
      refine ⟨a :: before, b, after, k', rfl, ?_, h2⟩
      rw [List.flatMap_cons, List.length_append]
      omega

theorem last_split {α : Type} (P : α → Prop) (as : List α) (h : ∃ a ∈ as, P a) :
    ∃ before a after, as = before ++ a :: after ∧ P a ∧ ∀ b ∈ after, ¬ P b := by
  induction as with
  | nil => obtain ⟨a, ha, -⟩ := h; cases ha
  | cons x as ih =>
    by_cases hex : ∃ a ∈ as, P a
    · obtain ⟨before, a, after, rfl, h1, h2⟩ := ih hex
      exact ⟨x :: before, a, after, rfl, h1, h2⟩
    · obtain ⟨a, ha, hP⟩ := h
      rcases List.mem_cons.mp ha with rfl | ha
      · exact ⟨[], a, as, rfl, hP, fun b hb hb' => hex ⟨b, hb, hb'⟩⟩
      · exact absurd ⟨a, ha, hP⟩ hex

theorem sources_eq (esc : Bytes → Str) (ign : Bool) (as : List Part) :
    sources esc ign (given as) = as.mapIdx (fun k a => partSource esc ign (0 + k) a) := by
  apply List.ext_getElem?
  intro k
  rw [sources_get, List.getElem?_mapIdx, Nat.zero_add]

theorem forth_parts {esc : Bytes → Str} {ign : Bool} (g : Part → List File) (path : Str) : ∀ (before : List Part),
    (∀ b ∈ before, ∀ k, (partSource esc ign k b).versions path = (g b).length ∧
      ∀ v : Nat, (g b).length < v → (partSource esc ign k b).lookup path (v : Int) = none) →
    ∀ (a : Part) (after : List Part) (k0 k' : Nat) (i : Compose.FileInfo),
    (partSource esc ign (k0 + before.length) a).lookup path ((k' + 1 : Nat) : Int) = some i →
    Compose.lookupForth path ((before ++ a :: after).mapIdx (fun k a => partSource esc ign (k0 + k) a))
      (((before.flatMap g).length + k' + 1 : Nat) : Int) = some (i.push (.source (k0 + before.length))) := by
  intro before
  induction before with
  | nil =>
    intro _ a after k0 k' i hi
    rw [List.nil_append, List.mapIdx_cons]
    unfold Compose.lookupForth
    simp only [List.flatMap_nil, List.length_nil, Nat.zero_add, Nat.add_zero] at hi ⊢
    rw [hi]
    rfl
  | cons b before ih =>
    intro h a after k0 k' i hi
    obtain ⟨h1, h2⟩ := h b (by simp) (k0 + 0)
    rw [List.cons_append, List.mapIdx_cons]
    unfold Compose.lookupForth
    rw [h2 _ (by rw [List.flatMap_cons, List.length_append]; omega), h1, List.flatMap_cons, List.length_append]
    simp only
    rw [if_neg (by omega)]
    have he : ((((g b).length + (before.flatMap g).length + k' + 1 : Nat) : Int) - ((g b).length : Int)) =
        (((before.flatMap g).length + k' + 1 : Nat) : Int) := by omega
    rw [he]
    have hf : (fun k a => partSource esc ign (k0 + (k + 1)) a) = (fun k a => partSource esc ign (k0 + 1 + k) a) := by
      funext k a
      rw [show k0 + (k + 1) = k0 + 1 + k by omega]
    rw [hf, List.length_cons, show k0 + (before.length + 1) = k0 + 1 + before.length by omega]
    refine ih (fun c hc => h c (List.mem_cons_of_mem _ hc)) a after (k0 + 1) k' i ?_
    rw [List.length_cons, show k0 + (before.length + 1) = k0 + 1 + before.length by omega] at hi
    exact hi

theorem versionsOf_length (ws : Packing) (pl : List Str) : (versionsOf (ws.map (fun p => p.1)) pl).length =
    (versionsAt (fun p : Member × Hdr => place p.2.name) (members ws) pl).length := by
  unfold versionsOf versionsAt members
  rw [List.filter_map, List.length_map, List.filter_map, List.length_map]
  rfl

/-- How many versions an archive has. -/
theorem part_versions {esc : Bytes → Str} {ign : Bool} {a : Part} (ha : Packed a.ws ∧ Batches esc ign a.archive a.bs) {ns : List Str} {n : Str}
    (hn : ∀ x ∈ ns ++ [n], IsName x) (hin : versionsOf a.files (ns ++ [n]) = [] → ¬ Inside a.files (ns ++ [n])) (k : Nat) :
    (partSource esc ign k a).versions (canonical (ns ++ [n])) = (versionsOf a.files (ns ++ [n])).length ∧
      ∀ v : Nat, (versionsOf a.files (ns ++ [n])).length < v → (partSource esc ign k a).lookup (canonical (ns ++ [n])) (v : Int) = none := by
  have hI := part_inserted ha
  by_cases he : versionsOf a.files (ns ++ [n]) = []
  · have hat : ¬ At a.files (ns ++ [n]) := by
      rintro ⟨f, hf, rest, h⟩
      cases rest with
      | nil =>
        have : f ∈ versionsOf a.files (ns ++ [n]) := List.mem_filter.mpr ⟨hf, by simpa using h⟩
        rw [he] at this
        cases this
      | cons x rest => exact hin he ⟨f, hf, x, rest, h⟩
    have hno := not_has ha (by simp) hn hat k
    rw [he]
    exact ⟨Classical.byContradiction fun h => hno (.inl h), fun v _ => Classical.byContradiction fun h => hno (.inr ⟨_, h⟩)⟩
  · obtain ⟨f, hf⟩ := List.exists_mem_of_ne_nil _ he
    obtain ⟨j, hj⟩ := List.getElem?_of_mem hf
    obtain ⟨m, -, h2⟩ := OldVersions.version_file hj
    have hm := List.mem_filter.mp (List.mem_of_getElem? h2)
    have hex : ∃ p ∈ members a.ws, place p.2.name = ns ++ [n] := ⟨_, hm.1, of_decide_eq_true hm.2⟩
    rw [show a.files = a.ws.map (fun p => p.1) from rfl, versionsOf_length]
    refine ⟨OldVersions.versions_length (held_tar hI) hn hex, ?_⟩
    intro v hv
    show (Index.lookup (build a.bs) _ _).map _ = none
    have hes := OldVersions.entries (held_tar hI) hn hex
    rw [C15_lookup _ (build_nodup a.bs) ns n hn _ (query_canonical _ hn) _ hes, if_pos (by omega),
      List.getElem?_eq_none (by rw [OldVersions.rowsAt_length (held_tar hI).length]; omega)]
    rfl

theorem part_version {esc : Bytes → Str} {ign : Bool} {a : Part} (ha : Packed a.ws ∧ Batches esc ign a.archive a.bs) {ns : List Str} {n : Str}
    (hn : ∀ x ∈ ns ++ [n], IsName x) {k : Nat} {f : File} (hf : (versionsOf a.files (ns ++ [n]))[k]? = some f) (j : Nat) :
    ∃ m offset, (f, m) ∈ a.ws ∧ (partSource esc ign j a).lookup (canonical (ns ++ [n])) ((k + 1 : Nat) : Int) = some (infoOf (m, f.hdr) offset) ∧
      Tar.readAt a.archive offset f.data.length = f.data ∧ offset + f.data.length ≤ a.archive.length := by
  have hI := part_inserted ha
  obtain ⟨m, h1, h2⟩ := OldVersions.version_file hf
  have hd := TarFiles.data_eq (ha.1.written _ h1)
  simp only at hd
  have hm := List.mem_filter.mp (List.mem_of_getElem? h2)
  obtain ⟨j', r, hj, hr, hl⟩ := OldVersions.lookup_version (held_tar hI) hn h2
  unfold toRows at hr
  rw [List.getElem?_mapIdx, Option.map_eq_some_iff] at hr
  obtain ⟨q, hq, rfl⟩ := hr
  obtain ⟨q', hq', hi⟩ := row_of hI.clean ign a.zeros j' _ hj
  rw [hq] at hq'
  cases hq'
  refine ⟨m, q.offset, h1, ?_, ?_, ?_⟩
  · show (Index.lookup (build a.bs) _ _).map _ = _
    rw [hl, Option.map_some, toInfo_row hq hi (hI.clean.kinds _ hm.1)]
  · have := hi.data
    rw [hi.size, TarFiles.archive_eq] at this
    rw [← hd]; exact this
  · have := hi.inside
    rw [hi.size, TarFiles.archive_eq] at this
    rw [← hd]; exact this

theorem lookup_at {esc : Bytes → Str} {ign : Bool} {as : List Part} (hr : Ready esc ign as) (hag : Agree as) (o : Limits) {ns : List Str}
    (hne : ns ≠ []) (hn : ∀ x ∈ ns, IsName x) (h : ∃ a ∈ as, At a.files ns) :
    ((together esc ign o (given as)).lookup (canonical ns) 0).isSome = true := by
  obtain ⟨before, a, after, rfl, ⟨f, hf, rest, he⟩, hafter⟩ := last_split (fun a : Part => At a.files ns) as h
  rcases List.eq_nil_or_concat ns with rfl | ⟨ms, x, rfl⟩
  · exact absurd rfl hne
  · rw [List.concat_eq_append] at hn hafter he ⊢
    obtain ⟨p, hp, rfl⟩ := List.mem_map.mp hf
    have h1 := (found_iff (part_inserted (hr a (by simp))) hn).mpr ⟨(p.2, p.1.hdr), List.mem_map.mpr ⟨p, hp, rfl⟩, rest, by
      show place p.1.name = _
      rw [he]; simp⟩
    obtain ⟨y, hy⟩ := Option.isSome_iff_exists.mp h1
    have hs : (tarSource (rowsOf (codec esc) ign (members a.ws) a.zeros) a.bs).lookup (canonical (ms ++ [x])) 0 =
        some (toInfo (rowsOf (codec esc) ign (members a.ws) a.zeros) y) := by
      show (Index.lookup (build a.bs) _ 0).map _ = _
      rw [hy]; rfl
    rw [lookup_last hr hag o (by simp) hn hafter hs]
    rfl

/-- Nothing is at `<path>.versions` or below it in any archive, and an archive that has something below the path has packed the path itself. -/
structure Old (as : List Part) (ns : List Str) (n : Str) : Prop where
  free : ∀ a ∈ as, ¬ At a.files (ns ++ [n ++ ".versions".toList])
  packed : ∀ a ∈ as, versionsOf a.files (ns ++ [n]) = [] → ¬ Inside a.files (ns ++ [n])
  some : as.flatMap (fun a => versionsOf a.files (ns ++ [n])) ≠ []

theorem old_at {as : List Part} {ns : List Str} {n : Str} (h : Old as ns n) : ∃ a ∈ as, ∃ f ∈ a.files, place f.name = ns ++ [n] := by
  obtain ⟨f, hf⟩ := List.exists_mem_of_ne_nil _ h.some
  obtain ⟨a, ha, hf⟩ := List.mem_flatMap.mp hf
  have := List.mem_filter.mp hf
  exact ⟨a, ha, f, this.1, of_decide_eq_true this.2⟩

theorem old_ready {esc : Bytes → Str} {ign : Bool} {as : List Part} (hr : Ready esc ign as) (hag : Agree as) (o : Limits) {ns : List Str} {n : Str}
    (hn : ∀ x ∈ ns ++ [n], IsName x) (h : Old as ns n) :
    OldVersions.Parents (together esc ign o (given as)) ns ∧
    (together esc ign o (given as)).lookup (canonical (ns ++ [n ++ dotVersions])) 0 = none ∧
    (∀ k, (together esc ign o (given as)).lookup (canonical (ns ++ [n ++ dotVersions, natStr (k + 1)])) 0 = none) ∧
    (together esc ign o (given as)).list (canonical (ns ++ [n ++ dotVersions])) = none := by
  have hv : ∀ x ∈ ns ++ [n ++ dotVersions], IsName x := by
    intro x hx
    rcases List.mem_append.mp hx with h | h
    · exact hn x (by simp [h])
    · rw [List.mem_singleton.mp h]
      exact OldVersions.isName_versions (hn n (by simp))
  have hfree : ∀ a ∈ as, ¬ At a.files (ns ++ [n ++ dotVersions]) := h.free
  refine ⟨?_, ?_, ?_, ?_⟩
  · intro a b hab hne
    obtain ⟨p, hp, f, hf, he⟩ := old_at h
    exact lookup_at hr hag o hne (fun x hx => hn x (by rw [hab]; simp [hx])) ⟨p, hp, f, hf, b ++ [n], by rw [he, hab]; simp⟩
  · exact lookup_nothing hr hag o (by simp) hv hfree
  · intro k
    refine lookup_nothing hr hag o (by simp) ?_ ?_
    · intro y hy
      rw [show ns ++ [n ++ dotVersions, natStr (k + 1)] = (ns ++ [n ++ dotVersions]) ++ [natStr (k + 1)] by simp] at hy
      rcases List.mem_append.mp hy with h | h
      · exact hv y h
      · rw [List.mem_singleton.mp h]
        exact ThinMount.isName_natStr _
    · rintro a ha ⟨f, hf, rest, he⟩
      exact hfree a ha ⟨f, hf, natStr (k + 1) :: rest, by rw [he]; simp⟩
  · show Compose.Union.list (Union.new (sources esc ign (given as)) o.depth o.entries o.timeUp) _ = none
    rw [(Compose.C31_names _ _).1.1, together_sources]
    intro s hs
    obtain ⟨k, a, hk, rfl⟩ := mem_sources hs
    have ha := List.mem_of_getElem? hk
    show (Index.list (build a.bs) _).map _ = none
    rw [Option.map_eq_none_iff]
    refine OldVersions.list_none (held_tar (part_inserted (hr a ha))) hv ?_
    rintro p hp ⟨rest, he⟩
    obtain ⟨q, hq, rfl⟩ := List.mem_map.mp hp
    exact hfree a ha ⟨q.1, List.mem_map.mpr ⟨q, hq, rfl⟩, rest, he.symm⟩

theorem mlookup_old {esc : Bytes → Str} {ign : Bool} {as : List Part} (hr : Ready esc ign as) (hag : Agree as) (o : Limits) {ns : List Str} {n : Str}
    (hn : ∀ x ∈ ns ++ [n], IsName x) (h : Old as ns n) {k : Nat} {f : File}
    (hf : (as.flatMap (fun a => versionsOf a.files (ns ++ [n])))[k]? = some f) :
    ∃ j a m offset, mlookup (together esc ign o (given as)) (canonical (ns ++ [n ++ dotVersions, natStr (k + 1)])) =
        .ok (((infoOf (m, f.hdr) offset).push (.source j)).push .file) ∧
      as[j]? = some a ∧ (f, m) ∈ a.ws ∧ Tar.readAt a.archive offset f.data.length = f.data ∧ offset + f.data.length ≤ a.archive.length := by
  obtain ⟨h1, h2, h3, -⟩ := old_ready hr hag o hn h
  obtain ⟨before, a, after, k', rfl, rfl, hf'⟩ := flat_split _ _ _ hf
  obtain ⟨m, offset, g1, g2, g3, g4⟩ := part_version (hr a (by simp)) hn hf' (0 + before.length)
  refine ⟨before.length, a, m, offset, OldVersions.mlookup_version hn h1 h2 (h3 _) ?_, ?_, g1, g3, g4⟩
  · rw [together_lookup hr hag o (by simp) hn]
    unfold Compose.lookupIn
    rw [if_neg (by omega), sources_eq]
    have := forth_parts (esc := esc) (ign := ign) (fun a => versionsOf a.files (ns ++ [n])) (canonical (ns ++ [n])) before
      (fun b hb k => part_versions (hr b (by simp [hb])) hn (h.packed b (by simp [hb])) k) a after 0 k' _ g2
    rw [Nat.zero_add] at this
    exact this
  · rw [List.getElem?_append_right (Nat.le_refl _), Nat.sub_self]
    rfl

/-- **C209**: every version of a path, of all archives in their order, can be opened at `<path>.versions/<number>` and gives its own data.
Missing from the full claim: versions that are hard links show no data. -/
theorem C209_versions_partial {esc : Bytes → Str} {ign : Bool} {as : List Part} (hr : Ready esc ign as) (hag : Agree as) (o : Limits)
    {ns : List Str} {n : Str} (hn : ∀ x ∈ ns ++ [n], IsName x) (h : Old as ns n) {k : Nat} {f : File}
    (hf : (as.flatMap (fun a => versionsOf a.files (ns ++ [n])))[k]? = some f) (before : List Call) :
    ∃ m fh, uopen (together esc ign o (given as)) (ucalls (together esc ign o (given as)) (begin (as.map (fun a => a.archive))) before)
        (canonical (versionPath ns n (k + 1))) = (m, .ok fh) ∧
      ∀ (between : List Call) (size offset : Nat),
        (mread (ucalls (together esc ign o (given as)) m between) fh size offset).2 = .ok ((f.data.drop offset).take size) := by
  rw [show as.map (fun a => a.archive) = archives as from rfl,
    show versionPath ns n (k + 1) = ns ++ [n ++ dotVersions, natStr (k + 1)] from rfl]
  obtain ⟨j, a, mem, offset, h1, h2, h3, h4, h5⟩ := mlookup_old hr hag o hn h hf
  exact reads hr o h1 h2 h3 h4 h5 before

/-- **C209**: `<path>.versions` lists the numbers of all versions in all archives. -/
theorem C209_versions_list {esc : Bytes → Str} {ign : Bool} {as : List Part} (hr : Ready esc ign as) (hag : Agree as) (o : Limits)
    {ns : List Str} {n : Str} (hn : ∀ x ∈ ns ++ [n], IsName x) (h : Old as ns n) :
    mreaddir (together esc ign o (given as)) (canonical (ns ++ [n ++ ".versions".toList])) =
      ['.'] :: ['.', '.'] :: (List.range (as.flatMap (fun a => versionsOf a.files (ns ++ [n]))).length).map (fun k => natStr (k + 1)) := by
  obtain ⟨h1, h2, -, h4⟩ := old_ready hr hag o hn h
  obtain ⟨a, ha, f, hf, he⟩ := old_at h
  obtain ⟨i, hi⟩ := Option.isSome_iff_exists.mp (lookup_at hr hag o (by simp) hn ⟨a, ha, f, hf, [], by rw [he]; simp⟩)
  rw [show n ++ ".versions".toList = n ++ dotVersions from rfl, OldVersions.readdir_versions hn h1 h2 h4 hi]
  congr 4
  show Compose.Union.versions (Union.new (sources esc ign (given as)) o.depth o.entries o.timeUp) _ = _
  unfold Union.versions
  rw [together_sources, List.length_flatMap]
  congr 1
  apply List.ext_getElem?
  intro k
  rw [List.getElem?_map, sources_get, List.getElem?_map, Option.map_map]
  cases hk : as[k]? with
  | none => rfl
  | some b =>
    have hb := List.mem_of_getElem? hk
    exact congrArg some (part_versions (hr b hb) hn (h.packed b hb) k).1

/-! ## examples -/

/-- C209: `d/h` gives the data of the second archive, also with a cache of one entry. -/
example : ∃ m fh, uopen (together esc0 false ⟨1024, 1, fun _ => false⟩ (given [partA, partB]))
      (ucalls (together esc0 false ⟨1024, 1, fun _ => false⟩ (given [partA, partB])) (begin [partA.archive, partB.archive]) [.open "/d/b".toList, .read 1 2 0])
      "/d/h".toList = (m, .ok fh) ∧
    (mread (ucalls (together esc0 false ⟨1024, 1, fun _ => false⟩ (given [partA, partB])) m [.read 1 1 1]) fh 5 1).2 = .ok [3] := by
  obtain ⟨m, fh, h1, h2⟩ := C209_read_partial demo_ready demo_agree ⟨1024, 1, fun _ => false⟩ demo_leads (by decide) (by unfold IsName; decide)
    [.open "/d/b".toList, .read 1 2 0]
  exact ⟨m, fh, h1, h2 [.read 1 1 1] 5 1⟩

/-- C209: the folder lists the files of both archives. -/
example : ['b'] ∈ mreaddir (together esc0 false ⟨1024, 100000, fun _ => false⟩ (given [partA, partB])) "/d".toList :=
  ((C209_list demo_ready _ (ns := [['d']]) (by unfold IsName; decide) (by decide)).2 ['b']).mpr
    (.inr (.inr ⟨partA, by simp, fileC, by decide, [], by decide⟩))

/-- C209: the folder `d` was packed in none of the archives. -/
example : mgetattr (together esc0 false ⟨1024, 100000, fun _ => false⟩ (given [partA, partB])) "/d".toList = .ok (0o40555, 0) :=
  C209_folder (before := [partA]) (after := []) (a := partB) demo_ready demo_agree _ (ns := [['d']]) (by decide) (by unfold IsName; decide) (by decide)
    ⟨fileB, by decide, ['a'], [], by decide⟩ (by simp)

theorem demo_old : Old [partA, partB] [['d']] ['a'] where
  free := by
    rintro a ha ⟨f, hf, rest, he⟩
    simp only [List.mem_cons, List.not_mem_nil, or_false] at ha
    rcases ha with rfl | rfl
    · rcases placesA f hf with h | h | h | h <;> rw [h] at he <;> revert he <;> simp
    · rw [placesB f hf] at he; revert he; simp
  packed := by
    intro a ha
    simp only [List.mem_cons, List.not_mem_nil, or_false] at ha
    rcases ha with rfl | rfl
    · intro h; exact absurd h (by decide)
    · intro h; exact absurd h (by decide)
  some := by decide

/-- C209: the first version of `d/a` is the one of the first archive. -/
example : ∃ m fh, uopen (together esc0 false ⟨1024, 100000, fun _ => false⟩ (given [partA, partB]))
      (ucalls (together esc0 false ⟨1024, 100000, fun _ => false⟩ (given [partA, partB])) (begin [partA.archive, partB.archive]) [.open "/d/b".toList])
      (canonical (versionPath [['d']] ['a'] 1)) = (m, .ok fh) ∧
    (mread (ucalls (together esc0 false ⟨1024, 100000, fun _ => false⟩ (given [partA, partB])) m [.read 1 1 1]) fh 5 0).2 = .ok [1] := by
  obtain ⟨m, fh, h1, h2⟩ := C209_versions_partial demo_ready demo_agree ⟨1024, 100000, fun _ => false⟩ (by unfold IsName; decide) demo_old (k := 0) (f := fileA)
    (by decide) [.open "/d/b".toList]
  exact ⟨m, fh, h1, h2 [.read 1 1 1] 5 0⟩

example : ["1".toList, "2".toList] = (mreaddir (together esc0 false ⟨1024, 100000, fun _ => false⟩ (given [partA, partB]))
    (canonical ([['d']] ++ [['a'] ++ ".versions".toList]))).drop 2 := by
  rw [C209_versions_list demo_ready demo_agree _ (by unfold IsName; decide) demo_old]
  decide +kernel

end Verif.Fuse.UnionMount
