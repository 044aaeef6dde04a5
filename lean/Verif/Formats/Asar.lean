import Verif.Bytes
import Verif.Py
import Verif.Index.Normpath
import Verif.Detect.Frames

/-!
# C62: ASAR archives (core/ratarmountcore/formats.py:135-175, core/ratarmountcore/mountsource/formats/asar.py:91-149)

The JSON text is represented by its tree. `self.transform` is the identity. The integer conversions of offsets and sizes are
done.
-/

namespace Verif.Asar

open Verif.Py Verif.Bin Verif.Detect Verif.Index

/-! ## the header -/

/-- `find_asar_header` (formats.py:135-170) at position 0: start and size of the JSON text, start of the data. -/
def findHeader (d : Data) : Except PyErr (Nat × Nat × Nat) :=
  match uint 4 d 0, uint 4 d 4, uint 4 d 8, uint 4 d 12 with
  | some a, some b, some c, some s =>
    if a ≠ 4 then .error .valueError
    else if b ≠ c + 4 then .error .valueError
    else
      let padding := (4 - s % 4) % 4
      if c ≠ s + padding + 4 then .error .valueError
      else .ok (16, s, 16 + s + padding)
  | _, _, _, _ => .error .structError

/-- `Pickle` of Chromium: a value, filled up to a multiple of four bytes, behind its length. -/
def pickle (payload : Data) : Data := toLE payload.length 4 ++ payload

def fill (d : Data) : Data := d ++ List.replicate ((4 - d.length % 4) % 4) 0

/-- The beginning of an archive: the pickled size of the pickled header, and the pickled header, a string. -/
def writeHeader (json : Data) : Data :=
  let headerPickle := pickle (toLE json.length 4 ++ fill json)
  pickle (toLE headerPickle.length 4) ++ headerPickle

theorem length_fill (json : Data) : (fill json).length = json.length + (4 - json.length % 4) % 4 := by simp [fill]

theorem writeHeader_eq (json : Data) : writeHeader json = toLE 4 4 ++ (toLE (json.length + (4 - json.length % 4) % 4 + 8) 4 ++
    (toLE (json.length + (4 - json.length % 4) % 4 + 4) 4 ++ (toLE json.length 4 ++ fill json))) := by
  have h1 : (toLE json.length 4 ++ fill json).length = json.length + (4 - json.length % 4) % 4 + 4 := by
    rw [List.length_append, length_toLE, length_fill]; omega
  have h2 : (pickle (toLE json.length 4 ++ fill json)).length = json.length + (4 - json.length % 4) % 4 + 8 := by
    rw [pickle, List.length_append, length_toLE, h1]; omega
  unfold writeHeader
  simp only [h2]
  unfold pickle
  rw [h1, length_toLE]
  simp only [List.append_assoc]

/-- **C62**, the header: exactly the consistent sizes are accepted, and the parts are where a writer puts them. -/
theorem C62_header (d : Data) :
    (∀ r, findHeader d = .ok r → ∃ s, s + (4 - s % 4) % 4 + 8 < 2 ^ 32 ∧ r = (16, s, 16 + s + (4 - s % 4) % 4) ∧
      toLE 4 4 ++ toLE (s + (4 - s % 4) % 4 + 8) 4 ++ toLE (s + (4 - s % 4) % 4 + 4) 4 ++ toLE s 4 <+: d) ∧
    (∀ json rest, d = writeHeader json ++ rest → (fill json).length + 8 < 2 ^ 32 →
      findHeader d = .ok (16, json.length, 16 + (fill json).length) ∧ (d.drop 16).take json.length = json ∧
      d.drop (16 + (fill json).length) = rest) := by
  constructor
  · intro r h
    unfold findHeader at h
    split at h
    · next a b c s h1 h2 h3 h4 =>
      split at h
      · cases h
      · next ha =>
        split at h
        · cases h
        · next hb =>
          simp only at h
          split at h
          · cases h
          · next hc =>
            injection h with h
            obtain ⟨r1, e1⟩ := uint_split h1
            obtain ⟨r2, e2⟩ := uint_split h2
            obtain ⟨r3, e3⟩ := uint_split h3
            obtain ⟨r4, e4⟩ := uint_split h4
            have ha : a = 4 := by omega
            have hb : b = c + 4 := by omega
            have hc : c = s + (4 - s % 4) % 4 + 4 := by omega
            subst ha hb hc
            refine ⟨s, by omega, h.symm, d.drop 16, ?_⟩
            simp only [List.drop_zero] at e1
            have e : ∀ t, t = d.drop 16 → d = toLE 4 4 ++ (toLE (s + (4 - s % 4) % 4 + 8) 4 ++
                (toLE (s + (4 - s % 4) % 4 + 4) 4 ++ (toLE s 4 ++ t))) := by
              intro t ht
              rw [e1, e2, e3, e4, ht]
            rw [List.append_assoc, List.append_assoc, List.append_assoc]
            exact (e _ rfl).symm
    · cases h
  · intro json rest hd hs
    rw [length_fill] at hs
    rw [writeHeader_eq] at hd
    have hd0 : d.drop 0 = toLE 4 4 ++ (toLE (json.length + (4 - json.length % 4) % 4 + 8) 4 ++
        (toLE (json.length + (4 - json.length % 4) % 4 + 4) 4 ++ (toLE json.length 4 ++ (fill json ++ rest)))) := by
      rw [List.drop_zero, hd]; simp only [List.append_assoc]
    have u1 := uint_front 4 4 0 d _ (by decide) hd0
    have t1 := drop_front _ 4 0 d _ (by simp) hd0
    have u2 := uint_front 4 _ (0 + 4) d _ (by omega) t1
    have t2 := drop_front _ 4 (0 + 4) d _ (by simp) t1
    have u3 := uint_front 4 _ (0 + 4 + 4) d _ (by omega) t2
    have t3 := drop_front _ 4 (0 + 4 + 4) d _ (by simp) t2
    have u4 := uint_front 4 _ (0 + 4 + 4 + 4) d _ (by omega) t3
    have t4 := drop_front _ 4 (0 + 4 + 4 + 4) d _ (by simp) t3
    refine ⟨?_, ?_, ?_⟩
    · unfold findHeader
      simp only [Nat.zero_add, Nat.reduceAdd] at u1 u2 u3 u4
      rw [u1, u2, u3, u4]
      simp only
      rw [if_neg (by simp), if_neg (by simp), if_neg (by simp), length_fill, Nat.add_assoc]
    · simp only [Nat.zero_add, Nat.reduceAdd] at t4
      rw [t4]
      unfold fill
      rw [List.append_assoc]
      exact List.take_left
    · simp only [Nat.zero_add, Nat.reduceAdd] at t4
      exact drop_front _ _ 16 d _ rfl t4

example : findHeader (writeHeader [123, 125, 32] ++ [1, 2]) = .ok (16, 3, 20) := by decide +kernel

/-! ## the tree -/

/-- The value of a key `files`: its items in order. An entry is a file (it has an offset and a size), a folder (it has files),
or something else: links, which have a key `link`, and files that are kept outside, which have a size only. -/
inductive Forest where
  | nil
  | file (name : Str) (offset size : Nat) (next : Forest)
  | folder (name : Str) (kids : Forest) (next : Forest)
  | other (name : Str) (next : Forest)
  deriving DecidableEq, Repr

/-- The columns of a row (asar.py:98-118) that differ. -/
structure Row where
  path : Str
  name : Str
  offset : Nat
  size : Nat
  dir : Bool
  deriving DecidableEq, Repr

/-- `SQLiteIndex.normpath(fullPath).rsplit("/", 1)` (asar.py:92). -/
def splitPath (fullPath : Str) : Str × Str := (rsplit1 '/' (normpath fullPath)).getD ([], [])

/-- The rows for the items of a folder (asar.py:140-142) and the folders among them (formats.py:146). `_convert_to_row` (formats.py:91-121) asserts that an
entry is either a file or a folder. -/
def children (pre : Str) (dataOffset : Nat) : Forest → Except PyErr (List Row × List (Str × Forest))
  | .nil => .ok ([], [])
  | .file name offset size next =>
    match children pre dataOffset next with
    | .error e => .error e
    | .ok (rows, folders) =>
      .ok (⟨(splitPath (pre ++ '/' :: name)).1, (splitPath (pre ++ '/' :: name)).2, dataOffset + offset, size, false⟩ :: rows,
        folders)
  | .folder name kids next =>
    match children pre dataOffset next with
    | .error e => .error e
    | .ok (rows, folders) =>
      .ok (⟨(splitPath (pre ++ '/' :: name)).1, (splitPath (pre ++ '/' :: name)).2, dataOffset, 0, true⟩ :: rows,
        (pre ++ '/' :: name, kids) :: folders)
  | .other _ _ => .error .assertionError

def Forest.size : Forest → Nat
  | .nil => 1
  | .file _ _ _ next => next.size + 1
  | .folder _ kids next => kids.size + next.size + 1
  | .other _ next => next.size + 1

def stackSize (l : List (Str × Forest)) : Nat := (l.map (fun e : Str × Forest => e.2.size)).sum

theorem Forest.size_pos (f : Forest) : 0 < f.size := by cases f <;> simp [Forest.size]

theorem children_size {pre : Str} {dataOffset : Nat} {f : Forest} {r : List Row × List (Str × Forest)}
    (h : children pre dataOffset f = .ok r) : stackSize r.2 < f.size := by
  induction f generalizing r with
  | nil => injection h with h; subst h; simp [stackSize, Forest.size]
  | file name o s next ih =>
    simp only [children] at h
    cases hn : children pre dataOffset next with
    | error e => rw [hn] at h; cases h
    | ok p =>
      rw [hn] at h
      injection h with h
      subst h
      have := ih hn
      simp only [Forest.size]; omega
  | folder name kids next _ ih =>
    simp only [children] at h
    cases hn : children pre dataOffset next with
    | error e => rw [hn] at h; cases h
    | ok p =>
      rw [hn] at h
      injection h with h
      subst h
      have := ih hn
      simp only [Forest.size, stackSize, List.map_cons, List.sum_cons] at this ⊢
      omega
  | other name next => cases h

/-- The loop of `_create_index` (asar.py:137-152). The last element of `toProcess` comes first here. The result lists the calls of
`set_file_infos`. -/
def process (dataOffset : Nat) (toProcess : List (Str × Forest)) (fileInfos : List Row) : Except PyErr (List (List Row)) :=
  match toProcess with
  | [] => .ok (if fileInfos = [] then [] else [fileInfos])
  | (pre, f) :: rest =>
    match _h : children pre dataOffset f with
    | .error e => .error e
    | .ok (rows, folders) =>
      let infos := fileInfos ++ rows
      if infos.length > 1000 then
        match process dataOffset (folders.reverse ++ rest) [] with
        | .error e => .error e
        | .ok batches => .ok (infos :: batches)
      else process dataOffset (folders.reverse ++ rest) infos
  termination_by stackSize toProcess
  decreasing_by
    all_goals
      have := children_size _h
      simp only [stackSize, List.map_append, List.map_reverse, List.sum_append, List.sum_reverse, List.map_cons,
        List.sum_cons] at this ⊢
      omega

/-- `_create_index` (asar.py:130-154). -/
def createIndex (dataOffset : Nat) (header : Forest) : Except PyErr (List (List Row)) :=
  process dataOffset [(['/'], header)] [⟨(splitPath ['/']).1, (splitPath ['/']).2, dataOffset, 0, true⟩]

/-! ### specification -/

inductive Kind where
  | folder
  | file (offset size : Nat)
  | other
  deriving DecidableEq, Repr

/-- All entries below a folder with their paths. -/
def all (dataOffset : Nat) (pre : List Str) : Forest → List (List Str × Kind)
  | .nil => []
  | .file name offset size next => (pre ++ [name], .file (dataOffset + offset) size) :: all dataOffset pre next
  | .folder name kids next => (pre ++ [name], .folder) :: (all dataOffset (pre ++ [name]) kids ++ all dataOffset pre next)
  | .other name next => (pre ++ [name], .other) :: all dataOffset pre next

def Forest.Names : Forest → Prop
  | .nil => True
  | .file name _ _ next => IsName name ∧ next.Names
  | .folder name kids next => IsName name ∧ kids.Names ∧ next.Names
  | .other name next => IsName name ∧ next.Names

/-- Files and folders only. -/
def Forest.Packed : Forest → Prop
  | .nil => True
  | .file _ _ _ next => next.Packed
  | .folder _ kids next => kids.Packed ∧ next.Packed
  | .other _ _ => False

/-- What a row shows: its path and what it is. -/
def Row.shown (r : Row) : Str × Kind := (r.path ++ '/' :: r.name, if r.dir then .folder else .file r.offset r.size)

/-- Every entry of the tree has one row with its path; there are no other rows. -/
def Indexed (dataOffset : Nat) (header : Forest) (result : Except PyErr (List (List Row))) : Prop :=
  ∃ batches, result = .ok batches ∧
    (batches.flatten.map (fun r : Row => r.shown)).Perm
      (('/' :: [], .folder) :: (all dataOffset [] header).map (fun e : List Str × Kind => (canonical e.1, e.2)))

def C62_statement : Prop :=
  ∀ (dataOffset : Nat) (header : Forest), header.Names → Indexed dataOffset header (createIndex dataOffset header)

/-! ### proofs -/

/-- The paths as the code writes them: the root is a slash, everything else has two of them in front. -/
def rawPath : List Str → Str
  | [] => ['/']
  | ns => '/' :: canonical ns

theorem join_concat (ns : List Str) (hne : ns ≠ []) (n : Str) : join '/' (ns ++ [n]) = join '/' ns ++ '/' :: n := by
  induction ns with
  | nil => exact absurd rfl hne
  | cons a as ih =>
    cases as with
    | nil => rfl
    | cons b bs => simp only [List.cons_append, join, List.append_assoc] at ih ⊢; rw [ih (by simp)]

theorem rawPath_concat (ns : List Str) (n : Str) : rawPath ns ++ '/' :: n = rawPath (ns ++ [n]) := by
  cases ns with
  | nil => rfl
  | cons a as =>
    show '/' :: canonical (a :: as) ++ '/' :: n = '/' :: canonical (a :: as ++ [n])
    rw [canonical_eq, canonical_eq, join_concat _ (by simp)]
    rfl

theorem splitPath_raw (ns : List Str) (h : ∀ n ∈ ns, IsName n) :
    (splitPath (rawPath ns)).1 ++ '/' :: (splitPath (rawPath ns)).2 = canonical ns := by
  have hn : normpath (rawPath ns) = canonical ns := by
    cases ns with
    | nil => decide +kernel
    | cons a as =>
      show normpath ('/' :: canonical (a :: as)) = _
      rw [(C14_canonical _).1, split_cons_eq]
      have : walk [] ([] :: split '/' (canonical (a :: as))) = walk [] (split '/' (canonical (a :: as))) := by simp [walk]
      rw [this, split_canonical _ h]
  unfold splitPath
  rw [hn]
  cases hr : rsplit1 '/' (canonical ns) with
  | none =>
    have := rsplit1_none.mp hr
    rw [canonical_eq] at this
    exact absurd List.mem_cons_self this
  | some p => exact (rsplit1_some hr).1.symm

/-- What is still to be done: everything below the folders. -/
def below (dataOffset : Nat) (l : List (List Str × Forest)) : List (Str × Kind) :=
  (l.map (fun e : List Str × Forest =>
    (all dataOffset e.1 e.2).map (fun x : List Str × Kind => (canonical x.1, x.2)))).flatten

theorem children_spec (dataOffset : Nat) (ns : List Str) (hns : ∀ n ∈ ns, IsName n) (f : Forest) (hf : f.Names)
    (hp : f.Packed) : ∃ rows, ∃ folders : List (List Str × Forest),
    children (rawPath ns) dataOffset f = .ok (rows, folders.map (fun e : List Str × Forest => (rawPath e.1, e.2))) ∧
      (∀ e ∈ folders, (∀ n ∈ e.1, IsName n) ∧ e.2.Names ∧ e.2.Packed) ∧
      (rows.map (fun r : Row => r.shown) ++ below dataOffset folders).Perm
        ((all dataOffset ns f).map (fun e : List Str × Kind => (canonical e.1, e.2))) := by
  have hsub : ∀ name, IsName name → ∀ n ∈ ns ++ [name], IsName n := by
    intro name hn n hm
    rcases List.mem_append.mp hm with h | h
    · exact hns n h
    · rw [List.mem_singleton.mp h]; exact hn
  induction f with
  | nil => exact ⟨[], [], rfl, by simp, by simp [all, below]⟩
  | file name o s next ih =>
    obtain ⟨rows, folders, h1, h2, h3⟩ := ih hf.2 hp
    refine ⟨⟨(splitPath (rawPath ns ++ '/' :: name)).1, (splitPath (rawPath ns ++ '/' :: name)).2, dataOffset + o, s, false⟩ ::
      rows, folders, ?_, h2, ?_⟩
    · simp only [children, h1]
    · simp only [List.map_cons, List.cons_append, all, Row.shown]
      rw [rawPath_concat, splitPath_raw _ (hsub name hf.1)]
      exact h3.cons _
  | folder name kids next _ ih =>
    obtain ⟨rows, folders, h1, h2, h3⟩ := ih hf.2.2 hp.2
    refine ⟨⟨(splitPath (rawPath ns ++ '/' :: name)).1, (splitPath (rawPath ns ++ '/' :: name)).2, dataOffset, 0, true⟩ ::
      rows, (ns ++ [name], kids) :: folders, ?_, ?_, ?_⟩
    · simp only [children, h1, List.map_cons, rawPath_concat]
    · intro e he
      rcases List.mem_cons.mp he with rfl | he
      · exact ⟨hsub name hf.1, hf.2.1, hp.1⟩
      · exact h2 e he
    · simp only [List.map_cons, List.cons_append, all, Row.shown]
      rw [rawPath_concat, splitPath_raw _ (hsub name hf.1)]
      refine List.Perm.cons _ ?_
      rw [List.map_append]
      have hb : below dataOffset ((ns ++ [name], kids) :: folders) =
          (all dataOffset (ns ++ [name]) kids).map (fun x : List Str × Kind => (canonical x.1, x.2)) ++
            below dataOffset folders := by
        simp [below]
      rw [hb]
      refine (List.perm_append_comm_assoc _ _ _).trans ?_
      exact h3.append_left _
  | other name next => exact absurd hp id

theorem below_append (dataOffset : Nat) (a b : List (List Str × Forest)) :
    below dataOffset (a ++ b) = below dataOffset a ++ below dataOffset b := by simp [below]

theorem below_reverse (dataOffset : Nat) (a : List (List Str × Forest)) :
    (below dataOffset a.reverse).Perm (below dataOffset a) := by
  induction a with
  | nil => exact .refl _
  | cons x a ih =>
    rw [List.reverse_cons, below_append, show x :: a = [x] ++ a from rfl, below_append]
    exact List.perm_append_comm.trans (ih.append_left _)

theorem process_spec (dataOffset : Nat) (stack : List (Str × Forest)) (infos : List Row) :
    ∀ st : List (List Str × Forest), stack = st.map (fun e : List Str × Forest => (rawPath e.1, e.2)) →
    (∀ e ∈ st, (∀ n ∈ e.1, IsName n) ∧ e.2.Names ∧ e.2.Packed) →
    ∃ batches, process dataOffset stack infos = .ok batches ∧
      (batches.flatten.map (fun r : Row => r.shown)).Perm (infos.map (fun r : Row => r.shown) ++ below dataOffset st) := by
  fun_induction process dataOffset stack infos with
  | case1 infos =>
    intro st hst _
    cases st with
    | cons e st => simp at hst
    | nil =>
      refine ⟨_, rfl, ?_⟩
      split
      · next h => simp [h, below]
      · simp [below]
  | case2 infos pre f rest e h =>
    intro st hst hok
    cases st with
    | nil => simp at hst
    | cons x st =>
      simp only [List.map_cons, List.cons.injEq, Prod.mk.injEq] at hst
      obtain ⟨⟨rfl, rfl⟩, rfl⟩ := hst
      obtain ⟨h1, h2, h3⟩ := hok x (by simp)
      obtain ⟨rows, folders, g1, -⟩ := children_spec dataOffset x.1 h1 x.2 h2 h3
      cases h.symm.trans g1
  | case3 infos pre f rest rows folders h infos' hlen e hrec ih =>
    intro st hst hok
    cases st with
    | nil => simp at hst
    | cons x st =>
      simp only [List.map_cons, List.cons.injEq, Prod.mk.injEq] at hst
      obtain ⟨⟨rfl, rfl⟩, rfl⟩ := hst
      obtain ⟨h1, h2, h3⟩ := hok x (by simp)
      obtain ⟨rows', folders', g1, g2, g3⟩ := children_spec dataOffset x.1 h1 x.2 h2 h3
      have := h.symm.trans g1
      injection this with this
      injection this with ha hb
      obtain ⟨b, hb1, -⟩ := ih (folders'.reverse ++ st) (by rw [hb]; simp) (by
        intro y hy
        rcases List.mem_append.mp hy with hy | hy
        · exact g2 y (List.mem_reverse.mp hy)
        · exact hok y (by simp [hy]))
      cases hrec.symm.trans hb1
  | case4 infos pre f rest rows folders h infos' hlen batches hrec ih =>
    intro st hst hok
    cases st with
    | nil => simp at hst
    | cons x st =>
      simp only [List.map_cons, List.cons.injEq, Prod.mk.injEq] at hst
      obtain ⟨⟨rfl, rfl⟩, rfl⟩ := hst
      obtain ⟨h1, h2, h3⟩ := hok x (by simp)
      obtain ⟨rows', folders', g1, g2, g3⟩ := children_spec dataOffset x.1 h1 x.2 h2 h3
      have := h.symm.trans g1
      injection this with this
      injection this with ha hb
      obtain ⟨b, hb1, hb2⟩ := ih (folders'.reverse ++ st) (by rw [hb]; simp) (by
        intro y hy
        rcases List.mem_append.mp hy with hy | hy
        · exact g2 y (List.mem_reverse.mp hy)
        · exact hok y (by simp [hy]))
      have hbb : batches = b := by have := hrec.symm.trans hb1; injection this
      subst hbb
      refine ⟨infos' :: batches, rfl, ?_⟩
      simp only [List.flatten_cons, List.map_append, infos', List.append_assoc]
      refine List.Perm.append_left _ ?_
      simp only [List.map_nil, List.nil_append] at hb2
      refine (hb2.append_left _).trans ?_
      rw [below_append, show x :: st = [x] ++ st from rfl, below_append, ← List.append_assoc]
      refine List.Perm.append_right _ ?_
      rw [ha]
      refine ((below_reverse dataOffset folders').append_left _).trans ?_
      refine g3.trans ?_
      simp [below]
  | case5 infos pre f rest rows folders h infos' hlen ih =>
    intro st hst hok
    cases st with
    | nil => simp at hst
    | cons x st =>
      simp only [List.map_cons, List.cons.injEq, Prod.mk.injEq] at hst
      obtain ⟨⟨rfl, rfl⟩, rfl⟩ := hst
      obtain ⟨h1, h2, h3⟩ := hok x (by simp)
      obtain ⟨rows', folders', g1, g2, g3⟩ := children_spec dataOffset x.1 h1 x.2 h2 h3
      have := h.symm.trans g1
      injection this with this
      injection this with ha hb
      obtain ⟨b, hb1, hb2⟩ := ih (folders'.reverse ++ st) (by rw [hb]; simp) (by
        intro y hy
        rcases List.mem_append.mp hy with hy | hy
        · exact g2 y (List.mem_reverse.mp hy)
        · exact hok y (by simp [hy]))
      refine ⟨b, hb1, hb2.trans ?_⟩
      simp only [List.map_append, infos', List.append_assoc]
      refine List.Perm.append_left _ ?_
      rw [below_append, show x :: st = [x] ++ st from rfl, below_append, ← List.append_assoc]
      refine List.Perm.append_right _ ?_
      rw [ha]
      refine ((below_reverse dataOffset folders').append_left _).trans ?_
      refine g3.trans ?_
      simp [below]

/-- **C62**, the tree, for archives of files and folders. Missing: links and files outside of the archive; the code violates
the claim for them. -/
theorem C62_tree_partial (dataOffset : Nat) (header : Forest) (hn : header.Names) (hp : header.Packed) :
    Indexed dataOffset header (createIndex dataOffset header) := by
  obtain ⟨b, h1, h2⟩ := process_spec dataOffset [(['/'], header)]
    [⟨(splitPath ['/']).1, (splitPath ['/']).2, dataOffset, 0, true⟩] [([], header)] rfl (by
      intro e he
      rw [List.mem_singleton.mp he]
      exact ⟨by simp, hn, hp⟩)
  refine ⟨b, h1, ?_⟩
  have hroot : (splitPath ['/']).1 ++ '/' :: (splitPath ['/']).2 = ['/'] := splitPath_raw [] (by simp)
  have hr : (Row.mk (splitPath ['/']).1 (splitPath ['/']).2 dataOffset 0 true).shown = (['/'], .folder) := by
    simp [Row.shown, hroot]
  simp only [List.map_cons, List.map_nil, hr] at h2
  simpa [below] using h2

/-- Different entries have different paths if the keys of every dictionary differ, as they do in a dictionary. -/
def Forest.keys : Forest → List Str
  | .nil => []
  | .file name _ _ next => name :: next.keys
  | .folder name _ next => name :: next.keys
  | .other name next => name :: next.keys

def Forest.Dict : Forest → Prop
  | .nil => True
  | .file name _ _ next => name ∉ next.keys ∧ next.Dict
  | .folder name kids next => name ∉ next.keys ∧ kids.Dict ∧ next.Dict
  | .other name next => name ∉ next.keys ∧ next.Dict

theorem all_prefix (dataOffset : Nat) (pre : List Str) (f : Forest) :
    ∀ e ∈ all dataOffset pre f, ∃ n ∈ f.keys, ∃ rest, e.1 = pre ++ n :: rest := by
  induction f generalizing pre with
  | nil => simp [all]
  | file name o s next ih =>
    intro e he
    rcases List.mem_cons.mp he with rfl | he
    · exact ⟨name, by simp [Forest.keys], [], rfl⟩
    · obtain ⟨n, h1, r, h2⟩ := ih pre e he
      exact ⟨n, by simp [Forest.keys, h1], r, h2⟩
  | folder name kids next ih1 ih2 =>
    intro e he
    rcases List.mem_cons.mp he with rfl | he
    · exact ⟨name, by simp [Forest.keys], [], rfl⟩
    · rcases List.mem_append.mp he with he | he
      · obtain ⟨n, h1, r, h2⟩ := ih1 (pre ++ [name]) e he
        exact ⟨name, by simp [Forest.keys], n :: r, by rw [h2]; simp⟩
      · obtain ⟨n, h1, r, h2⟩ := ih2 pre e he
        exact ⟨n, by simp [Forest.keys, h1], r, h2⟩
  | other name next ih =>
    intro e he
    rcases List.mem_cons.mp he with rfl | he
    · exact ⟨name, by simp [Forest.keys], [], rfl⟩
    · obtain ⟨n, h1, r, h2⟩ := ih pre e he
      exact ⟨n, by simp [Forest.keys, h1], r, h2⟩

/-- **C62**: no path occurs twice. -/
theorem C62_once (dataOffset : Nat) (pre : List Str) (f : Forest) (h : f.Dict) :
    ((all dataOffset pre f).map (fun e : List Str × Kind => e.1)).Nodup := by
  have sep : ∀ (name : Str) (rest : List Str) (g : Forest), name ∉ g.keys → ∀ e ∈ all dataOffset pre g,
      pre ++ name :: rest ≠ e.1 := by
    intro name rest g hk e he heq
    obtain ⟨n, h1, r, h2⟩ := all_prefix dataOffset pre g e he
    rw [h2] at heq
    have := List.append_cancel_left heq
    injection this with this _
    exact hk (this ▸ h1)
  induction f generalizing pre with
  | nil => simp [all]
  | file name o s next ih =>
    simp only [all, List.map_cons, List.nodup_cons]
    refine ⟨?_, ih pre h.2 sep⟩
    intro hm
    obtain ⟨e, he, heq⟩ := List.mem_map.mp hm
    exact sep name [] next h.1 e he heq.symm
  | folder name kids next ih1 ih2 =>
    simp only [all, List.map_cons, List.map_append, List.nodup_cons]
    have sep' : ∀ (n : Str) (rest : List Str) (g : Forest), n ∉ g.keys → ∀ e ∈ all dataOffset (pre ++ [name]) g,
        (pre ++ [name]) ++ n :: rest ≠ e.1 := by
      intro n rest g hk e he heq
      obtain ⟨n', h1, r, h2⟩ := all_prefix dataOffset (pre ++ [name]) g e he
      rw [h2] at heq
      have := List.append_cancel_left heq
      injection this with this _
      exact hk (this ▸ h1)
    refine ⟨?_, List.nodup_append.mpr ⟨ih1 (pre ++ [name]) h.2.1 sep', ih2 pre h.2.2 sep, ?_⟩⟩
    · intro hm
      rcases List.mem_append.mp hm with hm | hm
      · obtain ⟨e, he, heq⟩ := List.mem_map.mp hm
        obtain ⟨n', h1, r, h2⟩ := all_prefix dataOffset (pre ++ [name]) kids e he
        have hl := congrArg List.length (heq.symm.trans h2)
        simp at hl
      · obtain ⟨e, he, heq⟩ := List.mem_map.mp hm
        exact sep name [] next h.1 e he heq.symm
    · intro a ha b hb heq
      obtain ⟨e, he, rfl⟩ := List.mem_map.mp ha
      obtain ⟨e', he', rfl⟩ := List.mem_map.mp hb
      obtain ⟨n', h1, r, h2⟩ := all_prefix dataOffset (pre ++ [name]) kids e he
      refine sep name (n' :: r) next h.1 e' he' ?_
      rw [← heq, h2]
      simp
  | other name next ih =>
    simp only [all, List.map_cons, List.nodup_cons]
    refine ⟨?_, ih pre h.2 sep⟩
    intro hm
    obtain ⟨e, he, heq⟩ := List.mem_map.mp hm
    exact sep name [] next h.1 e he heq.symm

/-- The example of the comment (asar.py:24-60). -/
def sampleHeader : Forest :=
  .folder "tmp".toList .nil (.folder "usr".toList (.folder "bin".toList (.file "ls".toList 0 100 .nil) .nil)
    (.folder "etc".toList (.file "hosts".toList 200 32 .nil) .nil))

example : sampleHeader.Names ∧ sampleHeader.Packed ∧ sampleHeader.Dict ∧
    (createIndex 64 sampleHeader).toOption.map (fun b => b.flatten.map (fun r : Row => r.path ++ '/' :: r.name)) =
      some ["/".toList, "/tmp".toList, "/usr".toList, "/etc".toList, "/etc/hosts".toList, "/usr/bin".toList,
        "/usr/bin/ls".toList] := by
  refine ⟨?_, ?_, ?_, by decide +kernel⟩
  · simp only [sampleHeader, Forest.Names]
    unfold IsName
    decide
  · simp only [sampleHeader, Forest.Packed, and_self]
  · simp only [sampleHeader, Forest.Dict, Forest.keys]
    decide

/-- C62 is violated: a single link and the archive cannot be opened. -/
theorem C62_violated : ¬ C62_statement := by
  intro h
  obtain ⟨b, hb, -⟩ := h 0 (.file "a".toList 0 1 (.other "b".toList .nil)) (by
    simp only [Forest.Names]; unfold IsName; decide)
  have : createIndex 0 (.file "a".toList 0 1 (.other "b".toList .nil)) = .error .assertionError := by decide +kernel
  rw [this] at hb
  cases hb

end Verif.Asar
