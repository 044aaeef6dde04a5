import Verif.Fuse.IndexMount
import Verif.Formats.Asar

/-!
# C197: an ASAR archive that is mounted shows the files of its header with their bytes

`find_asar_header` and `_create_index` (`Verif.Formats.Asar`), the rows (asar.py:91-128), the index, the versions layer and the views of the archive
(`Verif.Fuse.IndexMount`) are put together. `json.load` is a parameter.
-/

namespace Verif.Fuse.AsarMount

open Verif.Py Verif.Index Verif.Fuse.IndexMount
open Verif.Tar (Bytes)
open Verif.Bin (Data)
open Verif.Asar (Forest Kind findHeader writeHeader fill all)
open Verif.Fuse.TarMount (Call start mread mreaddir mlookup)
open Verif.Compose (dotVersions)

/-! ## model -/

/-- The tuple of `_convert_to_row` (asar.py:97-118). -/
def toF (r : Asar.Row) : FRow := ⟨r.path, r.name, 0, r.offset, r.size, 0, if r.dir then 0o40777 else 0o100777, [], 0, 0, false⟩

/-- The calls of `set_file_infos` (asar.py:148-154). The rows are numbered from `start` on. -/
def batched (start : Nat) : List (List Asar.Row) → List (List Row)
  | [] => []
  | b :: bs => (b.map toF).mapIdx (fun k r => toRow (start + k + 1) r) :: batched (start + b.length) bs

/-- Loading the header and creating the index (asar.py:73-78, 130-154). -/
def create (load : Data → Except PyErr Forest) (archive : Bytes) (h : Nat × Nat × Nat) : Except PyErr (List (List Asar.Row)) :=
  if h.1 + h.2.1 - 1 < archive.length then
    match load ((archive.drop h.1).take h.2.1) with
    | .error e => .error e
    | .ok header => Asar.createIndex h.2.2 header
  else .error .valueError

/-- `__init__` (asar.py:66-89). -/
def index (load : Data → Except PyErr Forest) (archive : Bytes) : Except PyErr (List (List Asar.Row)) :=
  match findHeader archive with
  | .error e => .error e
  | .ok h => create load archive h

/-- The columns of all rows. -/
def columns (bs : List (List Asar.Row)) : List FRow := bs.flatten.map toF

/-- `open` opens everything (asar.py:176-178). -/
def refuse (_ : Nat) : Bool := false

/-- The mount source. -/
def src (bs : List (List Asar.Row)) : Compose.Source := source (columns bs) (batched 0 bs)

/-! ## specification -/

/-- An archive: the text of the header, which is loaded as this tree, and the data. All files are inside of the data. -/
structure Archived (load : Data → Except PyErr Forest) (json : Data) (header : Forest) (rest : Bytes) : Prop where
  small : (fill json).length + 8 < 2 ^ 32
  loads : load json = .ok header
  names : header.Names
  packed : header.Packed
  dict : header.Dict
  inside : ∀ ns o s, (ns, Kind.file o s) ∈ all 0 [] header → s = 0 ∨ o + s ≤ rest.length

/-! ## lemmas -/

theorem flatten_batched (start : Nat) (bs : List (List Asar.Row)) :
    (batched start bs).flatten = (columns bs).mapIdx (fun k r => toRow (start + k + 1) r) := by
  unfold columns
  induction bs generalizing start with
  | nil => rfl
  | cons b bs ih =>
    show (b.map toF).mapIdx (fun k r => toRow (start + k + 1) r) ++ (batched (start + b.length) bs).flatten = _
    rw [ih, List.flatten_cons, List.map_append, List.mapIdx_append]
    congr 1
    apply List.mapIdx_eq_mapIdx_iff.mpr
    intro k hk
    rw [List.length_map]
    congr 1
    omega

/-- A permutation of images is the image of a permutation. -/
theorem perm_map {α β : Type} (c : α → β) {l m : List β} (h : l.Perm m) : ∀ t : List α, m = t.map c → ∃ t' : List α, t'.Perm t ∧ t'.map c = l := by
  induction h with
  | nil => intro t ht; exact ⟨t, .refl _, ht.symm⟩
  | cons x h ih =>
    intro t ht
    cases t with
    | nil => cases ht
    | cons a t =>
      injection ht with h1 h2
      obtain ⟨t', g1, g2⟩ := ih t h2
      exact ⟨a :: t', g1.cons a, by rw [List.map_cons, g2, h1]⟩
  | swap x y l =>
    intro t ht
    cases t with
    | nil => cases ht
    | cons a t =>
      cases t with
      | nil => simp at ht
      | cons b t =>
        simp only [List.map_cons, List.cons.injEq] at ht
        obtain ⟨h1, h2, h3⟩ := ht
        exact ⟨b :: a :: t, .swap _ _ _, by simp [h1, h2, h3]⟩
  | trans h1 h2 ih1 ih2 =>
    intro t ht
    obtain ⟨t1, g1, g2⟩ := ih2 t ht
    obtain ⟨t2, g3, g4⟩ := ih1 t1 g2.symm
    exact ⟨t2, g3.trans g1, g4⟩

theorem splitPath_slash (p : Str) : '/' ∉ (Asar.splitPath p).2 := by
  unfold Asar.splitPath
  cases h : rsplit1 '/' (normpath p) with
  | none => simp
  | some q => exact (rsplit1_some h).2

/-- A row: the name has no slash, and folders have no size. -/
def RowOk (r : Asar.Row) : Prop := '/' ∉ r.name ∧ (r.dir = true → r.size = 0)

theorem children_ok (pre : Str) (dataOffset : Nat) (f : Forest) : ∀ r, Asar.children pre dataOffset f = .ok r → ∀ x ∈ r.1, RowOk x := by
  induction f with
  | nil => intro r h; injection h with h; subst h; simp
  | file name o s next ih =>
    intro r h
    simp only [Asar.children] at h
    cases hn : Asar.children pre dataOffset next with
    | error e => rw [hn] at h; cases h
    | ok p =>
      rw [hn] at h
      injection h with h
      subst h
      intro x hx
      rcases List.mem_cons.mp hx with rfl | hx
      · exact ⟨splitPath_slash _, by simp⟩
      · exact ih p hn x hx
  | folder name kids next _ ih =>
    intro r h
    simp only [Asar.children] at h
    cases hn : Asar.children pre dataOffset next with
    | error e => rw [hn] at h; cases h
    | ok p =>
      rw [hn] at h
      injection h with h
      subst h
      intro x hx
      rcases List.mem_cons.mp hx with rfl | hx
      · exact ⟨splitPath_slash _, by simp⟩
      · exact ih p hn x hx
  | other name next => intro r h; cases h

theorem process_ok (dataOffset : Nat) (stack : List (Str × Forest)) (infos : List Asar.Row) : (∀ x ∈ infos, RowOk x) →
    ∀ bs, Asar.process dataOffset stack infos = .ok bs → ∀ x ∈ bs.flatten, RowOk x := by
  fun_induction Asar.process dataOffset stack infos with
  | case1 infos =>
    intro h bs hb x hx
    injection hb with hb
    subst hb
    split at hx
    · simp at hx
    · simp at hx; exact h x hx
  | case2 => intro _ bs hb; cases hb
  | case3 => intro _ bs hb; cases hb
  | case4 infos pre f rest rows folders h infos' hlen batches hrec ih =>
    intro hi bs hb x hx
    injection hb with hb
    subst hb
    rw [List.flatten_cons, List.mem_append] at hx
    rcases hx with hx | hx
    · rcases List.mem_append.mp hx with hx | hx
      · exact hi x hx
      · exact children_ok _ _ _ _ h x hx
    · exact ih (by simp) batches hrec x hx
  | case5 infos pre f rest rows folders h infos' hlen ih =>
    intro hi bs hb
    refine ih ?_ bs hb
    intro x hx
    rcases List.mem_append.mp hx with hx | hx
    · exact hi x hx
    · exact children_ok _ _ _ _ h x hx

/-- Data of the archive that starts behind the header. -/
def shift (k : Nat) : Kind → Kind
  | .folder => .folder
  | .file o s => .file (k + o) s
  | .other => .other

theorem all_shift (k : Nat) (pre : List Str) (f : Forest) : all k pre f = (all 0 pre f).map (fun e => (e.1, shift k e.2)) := by
  induction f generalizing pre with
  | nil => rfl
  | file name o s next ih => simp only [all, List.map_cons, ih pre, shift, Nat.zero_add]
  | folder name kids next ih1 ih2 => simp only [all, List.map_cons, List.map_append, ih1, ih2 pre, shift]
  | other name next ih => simp only [all, List.map_cons, ih pre, shift]

theorem all_names (k : Nat) (pre : List Str) (f : Forest) (hf : f.Names) (hp : ∀ x ∈ pre, IsName x) : ∀ e ∈ all k pre f, ∀ x ∈ e.1, IsName x := by
  have hsub : ∀ name, IsName name → ∀ n ∈ pre ++ [name], IsName n := by
    intro name hn n hm
    rcases List.mem_append.mp hm with h | h
    · exact hp n h
    · rw [List.mem_singleton.mp h]; exact hn
  induction f generalizing pre with
  | nil => intro e he; cases he
  | file name o s next ih =>
    intro e he
    rcases List.mem_cons.mp he with rfl | he
    · exact hsub name hf.1
    · exact ih pre hf.2 hp hsub e he
  | folder name kids next ih1 ih2 =>
    intro e he
    rcases List.mem_cons.mp he with rfl | he
    · exact hsub name hf.1
    · rcases List.mem_append.mp he with he | he
      · refine ih1 (pre ++ [name]) hf.2.1 (hsub name hf.1) ?_ e he
        intro n hn m hm
        rcases List.mem_append.mp hm with h | h
        · exact hsub name hf.1 m h
        · rw [List.mem_singleton.mp h]; exact hn
      · exact ih2 pre hf.2.2 hp hsub e he
  | other name next ih =>
    intro e he
    rcases List.mem_cons.mp he with rfl | he
    · exact hsub name hf.1
    · exact ih pre hf.2 hp hsub e he

theorem all_packed (k : Nat) (pre : List Str) (f : Forest) (hf : f.Packed) : ∀ e ∈ all k pre f, e.2 ≠ .other := by
  induction f generalizing pre with
  | nil => intro e he; cases he
  | file name o s next ih =>
    intro e he
    rcases List.mem_cons.mp he with rfl | he
    · simp
    · exact ih pre hf e he
  | folder name kids next ih1 ih2 =>
    intro e he
    rcases List.mem_cons.mp he with rfl | he
    · simp
    · rcases List.mem_append.mp he with he | he
      · exact ih1 _ hf.1 e he
      · exact ih2 _ hf.2 e he
  | other name next ih => exact absurd hf id

/-- Entries that are below one another. -/
def Over (e e' : List Str × Kind) : Prop := ∃ n rest, e'.1 = e.1 ++ n :: rest

theorem over_prefix {e e' : List Str × Kind} (h : Over e e') {pre : List Str} {n n' : Str} {r r' : List Str} (he : e.1 = pre ++ n :: r)
    (he' : e'.1 = pre ++ n' :: r') : n = n' ∧ r.length < r'.length := by
  obtain ⟨m, t, h⟩ := h
  rw [he, he', List.append_assoc] at h
  have := List.append_cancel_left h
  injection this with h1 h2
  refine ⟨h1.symm, ?_⟩
  rw [h2]
  simp

/-- Only folders have entries below them. -/
theorem all_tree (k : Nat) (pre : List Str) (f : Forest) (hf : f.Dict) : ∀ e ∈ all k pre f, ∀ e' ∈ all k pre f, Over e e' → e.2 = .folder := by
  induction f generalizing pre with
  | nil => intro e he; cases he
  | file name o s next ih =>
    intro e he e' he' ho
    rcases List.mem_cons.mp he with rfl | he <;> rcases List.mem_cons.mp he' with rfl | he'
    · exact absurd (over_prefix ho (pre := pre) rfl rfl).2 (by simp)
    · obtain ⟨n', h1, r, h2⟩ := Asar.all_prefix k pre next e' he'
      exact absurd ((over_prefix ho (pre := pre) rfl h2).1 ▸ h1) hf.1
    · obtain ⟨n', h1, r, h2⟩ := Asar.all_prefix k pre next e he
      exact absurd (over_prefix ho (pre := pre) h2 rfl).2 (by simp)
    · exact ih pre hf.2 e he e' he' ho
  | other name next ih =>
    intro e he e' he' ho
    rcases List.mem_cons.mp he with rfl | he <;> rcases List.mem_cons.mp he' with rfl | he'
    · exact absurd (over_prefix ho (pre := pre) rfl rfl).2 (by simp)
    · obtain ⟨n', h1, r, h2⟩ := Asar.all_prefix k pre next e' he'
      exact absurd ((over_prefix ho (pre := pre) rfl h2).1 ▸ h1) hf.1
    · obtain ⟨n', h1, r, h2⟩ := Asar.all_prefix k pre next e he
      exact absurd (over_prefix ho (pre := pre) h2 rfl).2 (by simp)
    · exact ih pre hf.2 e he e' he' ho
  | folder name kids next ih1 ih2 =>
    intro e he e' he' ho
    have hkid : ∀ x ∈ all k (pre ++ [name]) kids, ∃ r, x.1 = pre ++ name :: r := by
      intro x hx
      obtain ⟨n', h1, r, h2⟩ := Asar.all_prefix k _ kids x hx
      exact ⟨n' :: r, by rw [h2]; simp⟩
    rcases List.mem_cons.mp he with rfl | he
    · rfl
    · rcases List.mem_append.mp he with he | he
      · obtain ⟨r1, h1⟩ := hkid e he
        rcases List.mem_cons.mp he' with rfl | he'
        · exact absurd (over_prefix ho (pre := pre) h1 rfl).2 (by simp)
        · rcases List.mem_append.mp he' with he' | he'
          · exact ih1 _ hf.2.1 e he e' he' ho
          · obtain ⟨n2, h3, r2, h4⟩ := Asar.all_prefix k pre next e' he'
            exact absurd ((over_prefix ho h1 h4).1 ▸ h3) hf.1
      · obtain ⟨n1, h1, r1, h2⟩ := Asar.all_prefix k pre next e he
        rcases List.mem_cons.mp he' with rfl | he'
        · exact absurd (over_prefix ho (pre := pre) h2 rfl).2 (by simp)
        · rcases List.mem_append.mp he' with he' | he'
          · obtain ⟨r3, h3⟩ := hkid e' he'
            exact absurd ((over_prefix ho h2 h3).1 ▸ h1) hf.1
          · exact ih2 _ hf.2.2 e he e' he' ho

/-- All folders on the way to an entry are entries. -/
theorem all_parents (k : Nat) (pre : List Str) (f : Forest) : ∀ e ∈ all k pre f, ∀ a b : List Str, a ≠ [] → b ≠ [] → e.1 = pre ++ a ++ b →
    (pre ++ a, Kind.folder) ∈ all k pre f := by
  have short : ∀ (pre : List Str) (name : Str) (a b : List Str), a ≠ [] → b ≠ [] → pre ++ [name] = pre ++ a ++ b → False := by
    intro pre name a b ha hb h
    have := congrArg List.length h
    have h1 := List.length_pos_iff.mpr ha
    have h2 := List.length_pos_iff.mpr hb
    simp at this
    omega
  induction f generalizing pre with
  | nil => intro e he; cases he
  | file name o s next ih =>
    intro e he a b ha hb heq
    rcases List.mem_cons.mp he with rfl | he
    · exact absurd (short pre name a b ha hb heq) id
    · exact List.mem_cons_of_mem _ (ih pre e he a b ha hb heq)
  | other name next ih =>
    intro e he a b ha hb heq
    rcases List.mem_cons.mp he with rfl | he
    · exact absurd (short pre name a b ha hb heq) id
    · exact List.mem_cons_of_mem _ (ih pre e he a b ha hb heq)
  | folder name kids next ih1 ih2 =>
    intro e he a b ha hb heq
    rcases List.mem_cons.mp he with rfl | he
    · exact absurd (short pre name a b ha hb heq) id
    · rcases List.mem_append.mp he with he | he
      · obtain ⟨n1, h1, r1, h2⟩ := Asar.all_prefix k _ kids e he
        cases a with
        | nil => exact absurd rfl ha
        | cons x a =>
          have hx : name = x := by
            have := h2.symm.trans heq
            simp only [List.append_assoc] at this
            have := List.append_cancel_left this
            injection this
          subst hx
          cases a with
          | nil => exact List.mem_cons_self
          | cons y a =>
            refine List.mem_cons_of_mem _ (List.mem_append_left _ ?_)
            have := ih1 (pre ++ [name]) e he (y :: a) b (by simp) hb (by rw [heq]; simp)
            rw [List.append_assoc] at this
            exact this
      · exact List.mem_cons_of_mem _ (List.mem_append_right _ (ih2 pre e he a b ha hb heq))

/-- The record of an entry. -/
def recOf (archive : Bytes) (e : List Str × Kind) : Rec :=
  match e.2 with
  | .file o s => ⟨e.1, 0o100777, [], 0, 0, 0, Tar.readAt archive o s⟩
  | _ => ⟨e.1, 0o40777, [], 0, 0, 0, []⟩

theorem recOf_place (archive : Bytes) (e : List Str × Kind) : (recOf archive e).place = e.1 := by
  unfold recOf
  split <;> rfl

theorem recOf_link (archive : Bytes) (e : List Str × Kind) : (recOf archive e).link = [] := by
  unfold recOf
  split <;> rfl

/-- The columns of the row of an entry. -/
theorem row_ok {archive : Bytes} {e : List Str × Kind} {r : Asar.Row} (hs : '/' ∉ r.name)
    (hsh : r.shown = (canonical e.1, e.2)) (hsz : r.dir = true → r.size = 0) (hin : ∀ o s, e.2 = .file o s → s = 0 ∨ o + s ≤ archive.length) :
    IsRow refuse archive (recOf archive e) (toF r) := by
  unfold Asar.Row.shown at hsh
  injection hsh with h1 h2
  have hp : (r.path, r.name) = splitPath (canonical e.1) := by
    unfold splitPath
    rw [← h1, rsplit1_append _ _ hs]
    rfl
  cases hd : r.dir with
  | true =>
    rw [hd, if_pos rfl] at h2
    have he : recOf archive e = ⟨e.1, 0o40777, [], 0, 0, 0, []⟩ := by unfold recOf; rw [← h2]
    have hz := hsz hd
    rw [he]
    refine ⟨hp, hz, ?_, rfl, rfl, .inr ?_, .inr (.inl hz)⟩
    · show (if r.dir = true then _ else _) = _
      rw [hd, if_pos rfl]
    · show Tar.readAt archive r.offset r.size = []
      rw [hz]
      simp [Tar.readAt]
  | false =>
    rw [hd, if_neg (by simp)] at h2
    have he : recOf archive e = ⟨e.1, 0o100777, [], 0, 0, 0, Tar.readAt archive r.offset r.size⟩ := by unfold recOf; rw [← h2]
    have hi := hin r.offset r.size h2.symm
    rw [he]
    refine ⟨hp, ?_, ?_, rfl, rfl, .inr rfl, .inr hi⟩
    · show r.size = (Tar.readAt archive r.offset r.size).length
      unfold Tar.readAt
      rw [List.length_take, List.length_drop]
      omega
    · show (if r.dir = true then _ else _) = _
      rw [hd, if_neg (by simp)]

/-- The bytes of the archive. -/
def bytesOf (json : Data) (rest : Bytes) : Bytes := writeHeader json ++ rest

/-- All entries, with the root, and where their data is in the archive. -/
def entriesOf (json : Data) (header : Forest) : List (List Str × Kind) := ([], .folder) :: all (16 + (fill json).length) [] header

theorem index_eq {load : Data → Except PyErr Forest} {json : Data} {header : Forest} {rest : Bytes} (h : Archived load json header rest) :
    index load (bytesOf json rest) = Asar.createIndex (16 + (fill json).length) header := by
  obtain ⟨h1, h2, h3⟩ := (Asar.C62_header (bytesOf json rest)).2 json rest rfl h.small
  have hl : 16 + json.length ≤ (bytesOf json rest).length := by
    unfold bytesOf
    rw [Asar.writeHeader_eq]
    simp only [List.length_append, Bin.length_toLE, Asar.length_fill]
    omega
  unfold index
  rw [h1]
  simp only [create]
  rw [if_pos (by omega), h2, h.loads]

theorem readAt_rest {json : Data} {rest : Bytes} (hs : (fill json).length + 8 < 2 ^ 32) (o s : Nat) :
    Tar.readAt (bytesOf json rest) (16 + (fill json).length + o) s = (rest.drop o).take s := by
  obtain ⟨-, -, h3⟩ := (Asar.C62_header (bytesOf json rest)).2 json rest rfl hs
  unfold Tar.readAt
  rw [← List.drop_drop, h3]

theorem length_rest (json : Data) (rest : Bytes) :
    (bytesOf json rest).length = 16 + (fill json).length + rest.length := by
  unfold bytesOf
  rw [Asar.writeHeader_eq]
  simp only [List.length_append, Bin.length_toLE]
  omega

theorem mem_all_shift {k : Nat} {header : Forest} {e : List Str × Kind} (h : e ∈ all k [] header) :
    ∃ e0 ∈ all 0 [] header, e = (e0.1, shift k e0.2) := by
  rw [all_shift] at h
  obtain ⟨e0, h1, h2⟩ := List.mem_map.mp h
  exact ⟨e0, h1, h2.symm⟩

theorem entries_names {load : Data → Except PyErr Forest} {json : Data} {header : Forest} {rest : Bytes} (h : Archived load json header rest) :
    ∀ e ∈ entriesOf json header, ∀ x ∈ e.1, IsName x := by
  intro e he
  rcases List.mem_cons.mp he with rfl | he
  · intro x hx; cases hx
  · exact all_names _ [] header h.names (fun x hx => by cases hx) e he

theorem entries_nodup {load : Data → Except PyErr Forest} {json : Data} {header : Forest} {rest : Bytes} (h : Archived load json header rest) :
    ((entriesOf json header).map (fun e => e.1)).Nodup := by
  unfold entriesOf
  rw [List.map_cons, List.nodup_cons]
  refine ⟨?_, Asar.C62_once _ [] header h.dict⟩
  intro hm
  obtain ⟨e, he, heq⟩ := List.mem_map.mp hm
  obtain ⟨n, -, r, h2⟩ := Asar.all_prefix _ [] header e he
  rw [heq] at h2
  cases h2

theorem entries_tree {load : Data → Except PyErr Forest} {json : Data} {header : Forest} {rest : Bytes} (h : Archived load json header rest) :
    ∀ e ∈ entriesOf json header, ∀ e' ∈ entriesOf json header, Over e e' → e.2 = .folder := by
  intro e he e' he' ho
  rcases List.mem_cons.mp he with rfl | he
  · rfl
  · rcases List.mem_cons.mp he' with rfl | he'
    · obtain ⟨n, r, hc⟩ := ho
      have := congrArg List.length hc
      simp at this
    · exact all_tree _ [] header h.dict e he e' he' ho

theorem entries_inside {load : Data → Except PyErr Forest} {json : Data} {header : Forest} {rest : Bytes} (h : Archived load json header rest) :
    ∀ e ∈ entriesOf json header, ∀ o s, e.2 = .file o s → s = 0 ∨ o + s ≤ (bytesOf json rest).length := by
  intro e he o s hk
  rcases List.mem_cons.mp he with rfl | he
  · cases hk
  · obtain ⟨⟨ns, k⟩, h1, rfl⟩ := mem_all_shift he
    cases k with
    | folder => cases hk
    | other => cases hk
    | file o' s' =>
      injection hk with e1 e2
      subst e1 e2
      rw [length_rest]
      have := h.inside ns o' s' h1
      omega

theorem map_inj {α β : Type} {f : α → β} {l : List α} (h : (l.map f).Nodup) {a b : α} (ha : a ∈ l) (hb : b ∈ l) (he : f a = f b) : a = b := by
  induction l with
  | nil => cases ha
  | cons x l ih =>
    rw [List.map_cons, List.nodup_cons] at h
    rcases List.mem_cons.mp ha with ha | ha <;> rcases List.mem_cons.mp hb with hb | hb
    · rw [ha, hb]
    · exact absurd (List.mem_map.mpr ⟨b, hb, by rw [← he, ha]⟩) h.1
    · exact absurd (List.mem_map.mpr ⟨a, ha, by rw [he, hb]⟩) h.1
    · exact ih h.2 ha hb

/-- The rows of an archive. -/
theorem index_spec {load : Data → Except PyErr Forest} {json : Data} {header : Forest} {rest : Bytes} (h : Archived load json header rest) :
    ∃ bs, index load (bytesOf json rest) = .ok bs ∧ ∃ es : List (List Str × Kind), es.Perm (entriesOf json header) ∧
      Indexed refuse (bytesOf json rest) (es.map (recOf (bytesOf json rest))) (columns bs) (batched 0 bs) := by
  rw [index_eq h]
  obtain ⟨bs, h1, h2⟩ := Asar.C62_tree_partial (16 + (fill json).length) header h.names h.packed
  refine ⟨bs, h1, ?_⟩
  obtain ⟨es, g1, g2⟩ := perm_map (fun e : List Str × Kind => (canonical e.1, e.2)) h2 (entriesOf json header) rfl
  have hok : ∀ x ∈ bs.flatten, RowOk x := by
    refine process_ok _ _ _ ?_ bs h1
    intro x hx
    rw [List.mem_singleton.mp hx]
    exact ⟨splitPath_slash _, (fun _ => rfl)⟩
  have hmem : ∀ {e}, e ∈ es → e ∈ entriesOf json header := fun he => g1.mem_iff.mp he
  have hshown : ∀ (k : Nat) (e : List Str × Kind) (r : Asar.Row), es[k]? = some e → bs.flatten[k]? = some r → r.shown = (canonical e.1, e.2) := by
    intro k e r he hr
    have := congrArg (fun l => l[k]?) g2
    simp only [List.getElem?_map, he, hr, Option.map_some, Option.some.injEq] at this
    exact this.symm
  have hrow : ∀ (k : Nat) (e : List Str × Kind) (r : Asar.Row), es[k]? = some e → bs.flatten[k]? = some r →
      IsRow refuse (bytesOf json rest) (recOf (bytesOf json rest) e) (toF r) := by
    intro k e r he hr
    obtain ⟨o1, o2⟩ := hok r (List.mem_of_getElem? hr)
    exact row_ok o1 (hshown k e r he hr) o2 (entries_inside h e (hmem (List.mem_of_getElem? he)))
  have hlen : bs.flatten.length = es.length := by
    have := congrArg List.length g2
    rw [List.length_map, List.length_map] at this
    exact this.symm
  refine ⟨es, g1, ?_, ?_, ?_, ?_, ?_, ?_⟩
  · intro p hp
    obtain ⟨e, he, rfl⟩ := List.mem_map.mp hp
    rw [recOf_place]
    exact entries_names h e (hmem he)
  · unfold columns
    rw [List.length_map, List.length_map, hlen]
  · intro k p r hk hr
    unfold columns at hr
    rw [List.getElem?_map, Option.map_eq_some_iff] at hk hr
    obtain ⟨e, he, rfl⟩ := hk
    obtain ⟨r, hr, rfl⟩ := hr
    exact hrow k e r he hr
  · intro i j r r' hij hr hr' hp hn
    exfalso
    unfold columns at hr hr'
    rw [List.getElem?_map, Option.map_eq_some_iff] at hr hr'
    obtain ⟨q, hq, rfl⟩ := hr
    obtain ⟨q', hq', rfl⟩ := hr'
    have hi : i < es.length := by rw [← hlen]; exact (List.getElem?_eq_some_iff.mp hq).1
    have hj : j < es.length := by rw [← hlen]; exact (List.getElem?_eq_some_iff.mp hq').1
    have e1 := hshown i es[i] q (List.getElem?_eq_getElem hi) hq
    have e2 := hshown j es[j] q' (List.getElem?_eq_getElem hj) hq'
    have e3 : canonical es[i].1 = canonical es[j].1 := by
      refine (congrArg Prod.fst e1).symm.trans (Eq.trans ?_ (congrArg Prod.fst e2))
      have hp' : q.path = q'.path := hp
      have hn' : q.name = q'.name := hn
      show q.path ++ '/' :: q.name = q'.path ++ '/' :: q'.name
      rw [hp', hn']
    have e4 := TarMount.canonical_inj (entries_names h _ (hmem (List.getElem_mem hi))) (entries_names h _ (hmem (List.getElem_mem hj))) e3
    have hnd : (es.map (fun e => e.1)).Nodup := (g1.map _).nodup_iff.mpr (entries_nodup h)
    have := List.pairwise_iff_getElem.mp hnd i j (by simpa using hi) (by simpa using hj) hij
    rw [List.getElem_map, List.getElem_map] at this
    exact this e4
  · rintro p hp ⟨q, hq, n, rest', he⟩
    obtain ⟨e, he1, rfl⟩ := List.mem_map.mp hp
    obtain ⟨e', he2, rfl⟩ := List.mem_map.mp hq
    rw [recOf_place, recOf_place] at he
    have := entries_tree h e (hmem he1) e' (hmem he2) ⟨n, rest', he⟩
    have hr : recOf (bytesOf json rest) e = ⟨e.1, 0o40777, [], 0, 0, 0, []⟩ := by unfold recOf; rw [this]
    refine ⟨_, hp, rfl, ?_⟩
    rw [hr]
    show dirBit 0o40777 = true
    decide
  · intro q
    rw [flatten_batched]
    unfold toRows
    simp only [Nat.zero_add]

/-! ## C197 -/

theorem mounted {load : Data → Except PyErr Forest} {json : Data} {header : Forest} {rest : Bytes} (h : Archived load json header rest)
    {bs : List (List Asar.Row)} (hi : index load (bytesOf json rest) = .ok bs) : ∃ es : List (List Str × Kind), es.Perm (entriesOf json header) ∧
      Indexed refuse (bytesOf json rest) (es.map (recOf (bytesOf json rest))) (columns bs) (batched 0 bs) := by
  obtain ⟨bs', h1, h2⟩ := index_spec h
  rw [hi] at h1
  cases h1
  exact h2

theorem lastAt_entry {load : Data → Except PyErr Forest} {json : Data} {header : Forest} {rest : Bytes} (h : Archived load json header rest)
    {es : List (List Str × Kind)} (hp : es.Perm (entriesOf json header)) {e : List Str × Kind} (he : e ∈ entriesOf json header) (archive : Bytes) :
    lastAt (es.map (recOf archive)) e.1 = some (recOf archive e) := by
  cases hl : lastAt (es.map (recOf archive)) e.1 with
  | none => exact absurd (recOf_place archive e) (lastAt_none hl _ (List.mem_map.mpr ⟨e, hp.mem_iff.mpr he, rfl⟩))
  | some p =>
    obtain ⟨hm, hpl⟩ := List.mem_filter.mp (List.mem_of_getLast? hl)
    obtain ⟨e', he', rfl⟩ := List.mem_map.mp hm
    have hpl := of_decide_eq_true hpl
    rw [recOf_place] at hpl
    rw [map_inj (entries_nodup h) (hp.mem_iff.mp he') he hpl]

theorem entry_of {json : Data} {header : Forest} {ns : List Str} {k : Kind} (he : (ns, k) ∈ all 0 [] header) :
    (ns, shift (16 + (fill json).length) k) ∈ entriesOf json header := by
  unfold entriesOf
  rw [all_shift]
  exact List.mem_cons_of_mem _ (List.mem_map.mpr ⟨_, he, rfl⟩)

theorem entry_ne {header : Forest} {ns : List Str} {k : Kind} (he : (ns, k) ∈ all 0 [] header) : ns ≠ [] := by
  obtain ⟨n, -, r, h2⟩ := Asar.all_prefix 0 [] header _ he
  intro hc
  rw [hc] at h2
  cases h2

theorem entry_reaches {load : Data → Except PyErr Forest} {json : Data} {header : Forest} {rest : Bytes} (h : Archived load json header rest)
    {es : List (List Str × Kind)} (hp : es.Perm (entriesOf json header)) {ns : List Str} {k : Kind} (he : (ns, k) ∈ all 0 [] header) (archive : Bytes) :
    Reaches (es.map (recOf archive)) 0 ns (recOf archive (ns, shift (16 + (fill json).length) k)) := by
  refine .here _ _ (entry_ne he) (lastAt_entry h hp (entry_of he) archive) ?_
  unfold Rec.isHard
  rw [recOf_link]
  simp

/-- **C197** Every archive of files and folders can be mounted. -/
theorem C197_mounts {load : Data → Except PyErr Forest} {json : Data} {header : Forest} {rest : Bytes} (h : Archived load json header rest) :
    ∃ bs, index load (bytesOf json rest) = .ok bs := by
  obtain ⟨bs, h1, -⟩ := index_spec h
  exact ⟨bs, h1⟩

/-- **C197** After any calls, every file of the header can be opened, and all reads return the bytes of its range of the data, whatever else
is called in between. -/
theorem C197_read {load : Data → Except PyErr Forest} {json : Data} {header : Forest} {rest : Bytes} (h : Archived load json header rest)
    {bs : List (List Asar.Row)} (hi : index load (bytesOf json rest) = .ok bs) {ns : List Str} {o s : Nat}
    (he : (ns, Kind.file o s) ∈ all 0 [] header) (before : List Call) :
    ∃ m fh, mopen refuse (columns bs) (src bs) (calls refuse (columns bs) (src bs) (start (bytesOf json rest)) before) (canonical ns) = (m, .ok fh) ∧
      ∀ (between : List Call) (size offset : Nat),
        (mread (calls refuse (columns bs) (src bs) m between) fh size offset).2 = .ok ((((rest.drop o).take s).drop offset).take size) := by
  obtain ⟨es, hp, hI⟩ := mounted h hi
  have hr := entry_reaches h hp he (bytesOf json rest)
  have hd : (recOf (bytesOf json rest) (ns, shift (16 + (fill json).length) (.file o s))).data = (rest.drop o).take s := readAt_rest h.small o s
  have := reads hI hr (by decide) (all_names 0 [] header h.names (fun x hx => by cases hx) _ he) rfl before
  rw [hd] at this
  exact this

/-- **C197** The attributes of files. -/
theorem C197_file {load : Data → Except PyErr Forest} {json : Data} {header : Forest} {rest : Bytes} (h : Archived load json header rest)
    {bs : List (List Asar.Row)} (hi : index load (bytesOf json rest) = .ok bs) {ns : List Str} {o s : Nat}
    (he : (ns, Kind.file o s) ∈ all 0 [] header) : mgetattr (columns bs) (src bs) (canonical ns) = .ok ⟨0o100777, s, 0, 0, 0⟩ := by
  obtain ⟨es, hp, hI⟩ := mounted h hi
  have hr := entry_reaches h hp he (bytesOf json rest)
  have := (attributes hI hr (by decide) (all_names 0 [] header h.names (fun x hx => by cases hx) _ he)).1
  refine this.trans ?_
  show Except.ok (Stat.mk 0o100777 (Tar.readAt (bytesOf json rest) (16 + (fill json).length + o) s).length 0 0 0) = _
  rw [readAt_rest h.small, List.length_take, List.length_drop]
  have := h.inside ns o s he
  have e : min s (rest.length - o) = s := by omega
  rw [e]

/-- **C197** The attributes of folders. -/
theorem C197_folder {load : Data → Except PyErr Forest} {json : Data} {header : Forest} {rest : Bytes} (h : Archived load json header rest)
    {bs : List (List Asar.Row)} (hi : index load (bytesOf json rest) = .ok bs) {ns : List Str}
    (he : (ns, Kind.folder) ∈ all 0 [] header) : mgetattr (columns bs) (src bs) (canonical ns) = .ok ⟨0o40777, 0, 0, 0, 0⟩ := by
  obtain ⟨es, hp, hI⟩ := mounted h hi
  exact (attributes hI (entry_reaches h hp he (bytesOf json rest)) (by decide)
    (all_names 0 [] header h.names (fun x hx => by cases hx) _ he)).1

theorem mem_recs {json : Data} {header : Forest} {es : List (List Str × Kind)} (hp : es.Perm (entriesOf json header)) (archive : Bytes)
    (pl : List Str) (hne : pl ≠ []) : (∃ p ∈ es.map (recOf archive), p.place = pl) ↔ ∃ k, (pl, k) ∈ all 0 [] header := by
  constructor
  · rintro ⟨p, hm, rfl⟩
    obtain ⟨e, he, rfl⟩ := List.mem_map.mp hm
    rcases List.mem_cons.mp (hp.mem_iff.mp he) with rfl | he
    · rw [recOf_place] at hne
      exact absurd rfl hne
    · obtain ⟨e0, h1, rfl⟩ := mem_all_shift he
      exact ⟨e0.2, by rw [recOf_place]; exact h1⟩
  · rintro ⟨k, hk⟩
    exact ⟨_, List.mem_map.mpr ⟨_, hp.mem_iff.mpr (entry_of hk), rfl⟩, recOf_place _ _⟩

/-- **C197** Nothing else exists. -/
theorem C197_absent {load : Data → Except PyErr Forest} {json : Data} {header : Forest} {rest : Bytes} (h : Archived load json header rest)
    {bs : List (List Asar.Row)} (hi : index load (bytesOf json rest) = .ok bs) {ns : List Str} (hn : ∀ x ∈ ns, IsName x) (hne : ns ≠ [])
    (hv : ∀ x ∈ ns, endsWith dotVersions x = false) (ha : ∀ k, (ns, k) ∉ all 0 [] header) (m : TarMount.Mount) :
    mgetattr (columns bs) (src bs) (canonical ns) = .error (.os 2) ∧ mopen refuse (columns bs) (src bs) m (canonical ns) = (m, .error (.os 2)) := by
  obtain ⟨es, hp, hI⟩ := mounted h hi
  refine absent hI hn hne hv ?_ ?_ m
  · cases hl : lastAt (es.map (recOf (bytesOf json rest))) ns with
    | none => rfl
    | some p =>
      obtain ⟨hm, hpl⟩ := List.mem_filter.mp (List.mem_of_getLast? hl)
      obtain ⟨k, hk⟩ := (mem_recs hp (bytesOf json rest) ns hne).mp ⟨p, hm, of_decide_eq_true hpl⟩
      exact absurd hk (ha k)
  · rintro ⟨p, hm, n, rest', hpl⟩
    obtain ⟨k, hk⟩ := (mem_recs hp (bytesOf json rest) p.place (by rw [hpl]; simp)).mp ⟨p, hm, rfl⟩
    exact ha .folder (all_parents 0 [] header _ hk ns (n :: rest') hne (by simp) hpl)

/-- **C197** Every folder, also the root, lists exactly its entries. -/
theorem C197_list {load : Data → Except PyErr Forest} {json : Data} {header : Forest} {rest : Bytes} (h : Archived load json header rest)
    {bs : List (List Asar.Row)} (hi : index load (bytesOf json rest) = .ok bs) {ns : List Str} (hn : ∀ x ∈ ns, IsName x)
    (hv : ∀ x ∈ ns, endsWith dotVersions x = false) (n : Str) :
    n ∈ mreaddir (src bs) (canonical ns) ↔ n = ['.'] ∨ n = ['.', '.'] ∨ ∃ k, (ns ++ [n], k) ∈ all 0 [] header := by
  obtain ⟨es, hp, hI⟩ := mounted h hi
  unfold src
  rw [lists hI hn hv]
  constructor
  · rintro (e | e | ⟨p, hm, rest', he⟩)
    · exact .inl e
    · exact .inr (.inl e)
    · refine .inr (.inr ?_)
      obtain ⟨k, hk⟩ := (mem_recs hp (bytesOf json rest) p.place (by rw [he]; simp)).mp ⟨p, hm, rfl⟩
      cases rest' with
      | nil => exact ⟨k, he ▸ hk⟩
      | cons r rs => exact ⟨.folder, all_parents 0 [] header _ hk (ns ++ [n]) (r :: rs) (by simp) (by simp) (by rw [he]; simp)⟩
  · rintro (e | e | ⟨k, hk⟩)
    · exact .inl e
    · exact .inr (.inl e)
    · obtain ⟨p, hm, hpl⟩ := (mem_recs hp (bytesOf json rest) (ns ++ [n]) (by simp)).mpr ⟨k, hk⟩
      exact .inr (.inr ⟨p, hm, [], hpl⟩)

/-- **C197** No name is listed twice. -/
theorem C197_nodup {load : Data → Except PyErr Forest} {json : Data} {header : Forest} {rest : Bytes} (h : Archived load json header rest)
    {bs : List (List Asar.Row)} (hi : index load (bytesOf json rest) = .ok bs) {ns : List Str} (hn : ∀ x ∈ ns, IsName x)
    (hv : ∀ x ∈ ns, endsWith dotVersions x = false) : (mreaddir (src bs) (canonical ns)).Nodup := by
  obtain ⟨es, hp, hI⟩ := mounted h hi
  exact once hI hn hv

/-! ### packing -/

/-- Files and folders that are packed. -/
inductive Disk where
  | nil
  | file (name : Str) (data : Bytes) (next : Disk)
  | folder (name : Str) (kids next : Disk)

/-- The data of all files, one after the other. -/
def Disk.data : Disk → Bytes
  | .nil => []
  | .file _ d next => d ++ next.data
  | .folder _ kids next => kids.data ++ next.data

/-- The header: where the files are if the first one is at `pos`. -/
def Disk.header (pos : Nat) : Disk → Forest
  | .nil => .nil
  | .file name d next => .file name pos d.length (next.header (pos + d.length))
  | .folder name kids next => .folder name (kids.header pos) (next.header (pos + kids.data.length))

/-- All files and folders with their paths and contents. -/
def Disk.contents (pre : List Str) : Disk → List (List Str × Option Bytes)
  | .nil => []
  | .file name d next => (pre ++ [name], some d) :: next.contents pre
  | .folder name kids next => (pre ++ [name], none) :: (kids.contents (pre ++ [name]) ++ next.contents pre)

/-- An entry of the header for a file or folder. -/
def Fits (all : List Bytes) (e : List Str × Option Bytes) (k : List Str × Kind) : Prop :=
  k.1 = e.1 ∧ match e.2 with
    | none => k.2 = .folder
    | some d => ∃ o, k.2 = .file o d.length ∧ o + d.length ≤ all.flatten.length ∧ (all.flatten.drop o).take d.length = d

theorem header_entries (disk : Disk) : ∀ (pre : List Str) (before after : Bytes),
    (∀ e ∈ disk.contents pre, ∃ k ∈ all 0 pre (disk.header before.length), Fits [before, disk.data, after] e k) ∧
    (∀ k ∈ all 0 pre (disk.header before.length), ∃ e ∈ disk.contents pre, Fits [before, disk.data, after] e k) := by
  induction disk with
  | nil => intro pre before after; exact ⟨by simp [Disk.contents], by simp [Disk.header, all]⟩
  | file name d next ih =>
    intro pre before after
    obtain ⟨h1, h2⟩ := ih pre (before ++ d) after
    have hl : (before ++ d).length = before.length + d.length := List.length_append
    rw [hl] at h1 h2
    have hf : ∀ e k, Fits [before ++ d, next.data, after] e k ↔ Fits [before, (Disk.file name d next).data, after] e k := by
      intro e k
      unfold Fits
      simp only [Disk.data, List.flatten_cons, List.flatten_nil, List.append_nil, List.append_assoc]
    have h0 : Fits [before, (Disk.file name d next).data, after] (pre ++ [name], some d) (pre ++ [name], .file (0 + before.length) d.length) := by
      refine ⟨rfl, before.length, by rw [Nat.zero_add], ?_, ?_⟩
      · simp only [Disk.data, List.flatten_cons, List.flatten_nil, List.append_nil, List.length_append]; omega
      · simp only [Disk.data, List.flatten_cons, List.flatten_nil, List.append_nil, List.drop_left, List.append_assoc, List.take_left]
    constructor
    · intro e he
      rcases List.mem_cons.mp he with rfl | he
      · exact ⟨_, List.mem_cons_self, h0⟩
      · obtain ⟨k, g1, g2⟩ := h1 e he
        exact ⟨k, List.mem_cons_of_mem _ g1, (hf e k).mp g2⟩
    · intro k hk
      rcases List.mem_cons.mp hk with rfl | hk
      · exact ⟨_, List.mem_cons_self, h0⟩
      · obtain ⟨e, g1, g2⟩ := h2 k hk
        exact ⟨e, List.mem_cons_of_mem _ g1, (hf e k).mp g2⟩
  | folder name kids next ih1 ih2 =>
    intro pre before after
    obtain ⟨a1, a2⟩ := ih1 (pre ++ [name]) before (next.data ++ after)
    obtain ⟨b1, b2⟩ := ih2 pre (before ++ kids.data) after
    have hl : (before ++ kids.data).length = before.length + kids.data.length := List.length_append
    rw [hl] at b1 b2
    have ha : ∀ e k, Fits [before, kids.data, next.data ++ after] e k ↔ Fits [before, (Disk.folder name kids next).data, after] e k := by
      intro e k
      unfold Fits
      simp only [Disk.data, List.flatten_cons, List.flatten_nil, List.append_nil, List.append_assoc]
    have hb : ∀ e k, Fits [before ++ kids.data, next.data, after] e k ↔ Fits [before, (Disk.folder name kids next).data, after] e k := by
      intro e k
      unfold Fits
      simp only [Disk.data, List.flatten_cons, List.flatten_nil, List.append_nil, List.append_assoc]
    have h0 : Fits [before, (Disk.folder name kids next).data, after] (pre ++ [name], none) (pre ++ [name], .folder) := ⟨rfl, rfl⟩
    constructor
    · intro e he
      rcases List.mem_cons.mp he with rfl | he
      · exact ⟨_, List.mem_cons_self, h0⟩
      · rcases List.mem_append.mp he with he | he
        · obtain ⟨k, g1, g2⟩ := a1 e he
          exact ⟨k, List.mem_cons_of_mem _ (List.mem_append_left _ g1), (ha e k).mp g2⟩
        · obtain ⟨k, g1, g2⟩ := b1 e he
          exact ⟨k, List.mem_cons_of_mem _ (List.mem_append_right _ g1), (hb e k).mp g2⟩
    · intro k hk
      rcases List.mem_cons.mp hk with rfl | hk
      · exact ⟨_, List.mem_cons_self, h0⟩
      · rcases List.mem_append.mp hk with hk | hk
        · obtain ⟨e, g1, g2⟩ := a2 k hk
          exact ⟨e, List.mem_cons_of_mem _ (List.mem_append_left _ g1), (ha e k).mp g2⟩
        · obtain ⟨e, g1, g2⟩ := b2 k hk
          exact ⟨e, List.mem_cons_of_mem _ (List.mem_append_right _ g1), (hb e k).mp g2⟩

theorem packed_header (disk : Disk) (pos : Nat) : (disk.header pos).Packed := by
  induction disk generalizing pos with
  | nil => trivial
  | file name d next ih => exact ih _
  | folder name kids next ih1 ih2 => exact ⟨ih1 _, ih2 _⟩

theorem flatten_three (d : Bytes) : ([[], d, []] : List Bytes).flatten = d := by simp

/-- Files and folders with proper names, each name only once in a folder, can be packed. -/
theorem archived_disk (load : Data → Except PyErr Forest) (json : Data) (disk : Disk) (hs : (fill json).length + 8 < 2 ^ 32)
    (hl : load json = .ok (disk.header 0)) (hn : (disk.header 0).Names) (hd : (disk.header 0).Dict) :
    Archived load json (disk.header 0) disk.data := by
  refine ⟨hs, hl, hn, packed_header disk 0, hd, ?_⟩
  intro ns o s hm
  obtain ⟨e, h1, h2, h3⟩ := (header_entries disk [] [] []).2 _ hm
  rw [flatten_three] at h3
  cases he : e.2 with
  | none => rw [he] at h3; cases h3
  | some d =>
    rw [he] at h3
    obtain ⟨o', e1, e2, -⟩ := h3
    injection e1 with e1 e3
    omega

/-- **C197** Whatever is packed is read back: every file has its bytes and size, and every folder is a folder. -/
theorem C197_packed (load : Data → Except PyErr Forest) (json : Data) (disk : Disk) (hs : (fill json).length + 8 < 2 ^ 32)
    (hl : load json = .ok (disk.header 0)) (hn : (disk.header 0).Names) (hd : (disk.header 0).Dict) :
    ∃ bs, index load (bytesOf json disk.data) = .ok bs ∧
      (∀ ns d, (ns, some d) ∈ disk.contents [] → mgetattr (columns bs) (src bs) (canonical ns) = .ok ⟨0o100777, d.length, 0, 0, 0⟩ ∧
        ∀ before, ∃ m fh, mopen refuse (columns bs) (src bs) (calls refuse (columns bs) (src bs) (start (bytesOf json disk.data)) before)
            (canonical ns) = (m, .ok fh) ∧
          ∀ (between : List Call) (size offset : Nat),
            (mread (calls refuse (columns bs) (src bs) m between) fh size offset).2 = .ok ((d.drop offset).take size)) ∧
      (∀ ns, (ns, none) ∈ disk.contents [] → mgetattr (columns bs) (src bs) (canonical ns) = .ok ⟨0o40777, 0, 0, 0, 0⟩) := by
  have hA := archived_disk load json disk hs hl hn hd
  obtain ⟨bs, hi⟩ := C197_mounts hA
  refine ⟨bs, hi, ?_, ?_⟩
  · intro ns d hm
    obtain ⟨⟨ns', k⟩, g1, g2, g3⟩ := (header_entries disk [] [] []).1 _ hm
    rw [flatten_three] at g3
    obtain ⟨o, e1, e2, e3⟩ := g3
    have g2 : ns' = ns := g2
    have e1 : k = .file o d.length := e1
    subst g2 e1
    refine ⟨C197_file hA hi g1, ?_⟩
    intro before
    have := C197_read hA hi g1 before
    rw [e3] at this
    exact this
  · intro ns hm
    obtain ⟨⟨ns', k⟩, g1, g2, g3⟩ := (header_entries disk [] [] []).1 _ hm
    have g2 : ns' = ns := g2
    have g3 : k = .folder := g3
    subst g2 g3
    exact C197_folder hA hi g1

/-! ## a concrete archive -/

def demoDisk : Disk :=
  .folder "tmp".toList .nil (.folder "usr".toList (.file "ls".toList [1, 2, 3] .nil) (.file "hosts".toList [4, 5] .nil))

/-- A text that stands for the header. -/
def demoLoad (d : Data) : Except PyErr Forest := if d = [123, 125, 32] then .ok (demoDisk.header 0) else .error .valueError

theorem demo_ok : (fill [123, 125, 32]).length + 8 < 2 ^ 32 ∧ demoLoad [123, 125, 32] = .ok (demoDisk.header 0) ∧ (demoDisk.header 0).Names ∧
    (demoDisk.header 0).Dict := by
  refine ⟨by decide, rfl, ?_, ?_⟩
  · simp only [demoDisk, Disk.header, Forest.Names]
    unfold IsName
    decide
  · simp only [demoDisk, Disk.header, Forest.Dict, Forest.keys]
    decide

/-- C197: the file in the folder is read with other calls before and in between. -/
example : ∃ bs, index demoLoad (bytesOf [123, 125, 32] demoDisk.data) = .ok bs ∧ ∃ m fh,
    mopen refuse (columns bs) (src bs) (calls refuse (columns bs) (src bs) (start (bytesOf [123, 125, 32] demoDisk.data))
      [.open "/hosts".toList, .read 1 1 1]) "/usr/ls".toList = (m, .ok fh) ∧
    (mread (calls refuse (columns bs) (src bs) m [.read 1 2 0]) fh 5 1).2 = .ok [2, 3] := by
  obtain ⟨bs, h1, h2, -⟩ := C197_packed demoLoad [123, 125, 32] demoDisk demo_ok.1 demo_ok.2.1 demo_ok.2.2.1 demo_ok.2.2.2
  obtain ⟨m, fh, h3, h4⟩ := (h2 ["usr".toList, "ls".toList] [1, 2, 3] (by decide)).2 [.open "/hosts".toList, .read 1 1 1]
  exact ⟨bs, h1, m, fh, h3, h4 [.read 1 2 0] 5 1⟩

/-- C197: a listing and a path that does not exist. -/
example (bs : List (List Asar.Row)) (h : index demoLoad (bytesOf [123, 125, 32] demoDisk.data) = .ok bs) :
    "ls".toList ∈ mreaddir (src bs) "/usr".toList ∧ mgetattr (columns bs) (src bs) "/usr/x".toList = .error (.os 2) := by
  have hA := archived_disk demoLoad [123, 125, 32] demoDisk demo_ok.1 demo_ok.2.1 demo_ok.2.2.1 demo_ok.2.2.2
  refine ⟨(C197_list hA h (ns := ["usr".toList]) (by unfold IsName; decide) (by decide) "ls".toList).mpr (.inr (.inr ⟨.file 0 3, by decide⟩)), ?_⟩
  refine (C197_absent hA h (ns := ["usr".toList, "x".toList]) (by unfold IsName; decide) (by decide) (by decide) ?_ (start [])).1
  intro k hk
  have : ("usr".toList :: ["x".toList]) ∈ (all 0 [] (demoDisk.header 0)).map (fun e => e.1) := List.mem_map.mpr ⟨_, hk, rfl⟩
  revert this
  decide

end Verif.Fuse.AsarMount
