import Verif.Fuse.IndexMount

/-!
# A mounted archive whose members are opened by a library

`ZipMountSource.open` (zip.py:138-147) and others give file objects of libraries, which have their own contents and position. This file has
the part that they have in common: from the rows to the answers of the FUSE operations of a mount (FuseMount.py:655-833). What is found is
the same as in `Verif.Fuse.IndexMount`.

As there, the archive is below `FileVersionLayer`, there is no write overlay and no control interface, and FUSE calls one operation at a
time. The kernel does not open folders; in the model, opening a folder that the index made itself is an error.
-/

namespace Verif.Fuse.ObjectMount

open Verif.Py Verif.Index Verif.Fuse.IndexMount
open Verif.Tar (Bytes)
open Verif.Compose (Source dotVersions)
open Verif.Fuse.TarMount (mp mlookup mreaddir Call)

/-! ## model -/

/-- A file object of a library, which reads the contents of a member (zip.py:147). -/
structure Obj where
  data : Bytes
  pos : Nat
  closed : Bool
  deriving DecidableEq, Repr

/-- `seek(offset)` (FuseMount.py:815). -/
def Obj.seek (f : Obj) (offset : Nat) : Obj := ⟨f.data, offset, f.closed⟩

/-- `read(size)` (FuseMount.py:816). -/
def Obj.read (f : Obj) (size : Nat) : Obj × Bytes :=
  (⟨f.data, f.pos + ((f.data.drop f.pos).take size).length, f.closed⟩, (f.data.drop f.pos).take size)

/-- `openedFiles` and `lastFileHandle` (FuseMount.py:655-833). -/
structure Mount where
  opened : Dict Nat Obj
  last : Nat
  deriving DecidableEq

/-- `FileVersionLayer.open` (versioning.py:232-243) above `open` of the mount source, which gets the columns of the row. -/
def openObj (f : FRow → Except PyErr Bytes) (rs : List FRow) (i : Compose.FileInfo) : Except PyErr Obj :=
  match i.userdata with
  | .file :: .own _ :: _ =>
    match column rs i.rest with
    | some r => (f r).map (fun d => ⟨d, 0, false⟩)
    | none => .error (.os 21)
  | _ => .error .fileNotFound

/-- `_add_new_handle` (FuseMount.py:648-653). -/
def addHandle (m : Mount) (o : Obj) : Mount := ⟨m.opened.set (m.last + 1) o, m.last + 1⟩

/-- `open` (FuseMount.py:776-791). -/
def mopen (f : FRow → Except PyErr Bytes) (rs : List FRow) (s : Source) (m : Mount) (path : Str) : Mount × Except PyErr Nat :=
  match mlookup s path with
  | .error e => (m, .error e)
  | .ok i =>
    match openObj f rs i with
    | .error _ => (m, .error (.os 5))
    | .ok o => (addHandle m o, .ok (m.last + 1))

/-- `read` (FuseMount.py:808-833). Reading with a handle that does not exist, "this should never happen", is not modelled. -/
def mread (m : Mount) (fh size offset : Nat) : Mount × Except PyErr Bytes :=
  match m.opened.get? fh with
  | none => (m, .error .unsupported)
  | some o =>
    if o.closed then (m, .error .valueError)
    else (⟨m.opened.set fh ((o.seek offset).read size).1, m.last⟩, .ok ((o.seek offset).read size).2)

/-- `release` (FuseMount.py:793-806): the file is closed, but the handle stays. -/
def mrelease (m : Mount) (fh : Nat) : Mount :=
  match m.opened.get? fh with
  | none => m
  | some o => ⟨m.opened.set fh ⟨o.data, o.pos, true⟩, m.last⟩

/-- One call (FuseMount.py:776-833). -/
def call (f : FRow → Except PyErr Bytes) (rs : List FRow) (s : Source) (m : Mount) : Call → Mount
  | .open path => (mopen f rs s m path).1
  | .read fh size offset => (mread m fh size offset).1
  | .release fh => mrelease m fh

/-- Any calls (FuseMount.py:776-833). -/
def calls (f : FRow → Except PyErr Bytes) (rs : List FRow) (s : Source) (m : Mount) (cs : List Call) : Mount := cs.foldl (call f rs s) m

/-- A new mount (FuseMount.py:120-246). -/
def start : Mount := ⟨[], 0⟩

/-! ## handles -/

/-- Handles are numbered in the order of opening. -/
def Good (m : Mount) : Prop := ∀ fh o, m.opened.get? fh = some o → fh ≤ m.last

/-- The handle is open, and its file has this data. -/
def Holds (m : Mount) (fh : Nat) (data : Bytes) : Prop := ∃ o, m.opened.get? fh = some o ∧ o.data = data ∧ o.closed = false

theorem start_good : Good start := by
  intro fh o h
  cases h

theorem addHandle_good {m : Mount} (hg : Good m) (o : Obj) (hc : o.closed = false) :
    Good (addHandle m o) ∧ Holds (addHandle m o) (m.last + 1) o.data ∧ ∀ g d, Holds m g d → Holds (addHandle m o) g d := by
  refine ⟨?_, ⟨o, ?_, rfl, hc⟩, ?_⟩
  · intro fh o' h
    unfold addHandle at h ⊢
    simp only [Dict.get?_set] at h ⊢
    split at h
    · omega
    · have := hg fh o' h; omega
  · unfold addHandle
    simp only [Dict.get?_set, if_pos]
  · rintro g d ⟨o', h1, h2⟩
    refine ⟨o', ?_, h2⟩
    unfold addHandle
    have := hg g o' h1
    simp only [Dict.get?_set]
    rw [if_neg (by omega)]
    exact h1

theorem mread_good {m : Mount} (hg : Good m) (fh size offset : Nat) :
    Good (mread m fh size offset).1 ∧ ∀ g d, Holds m g d → Holds (mread m fh size offset).1 g d := by
  unfold mread
  cases hr : m.opened.get? fh with
  | none => exact ⟨hg, fun _ _ h => h⟩
  | some o =>
    simp only
    split
    · exact ⟨hg, fun _ _ h => h⟩
    constructor
    · intro g o' h
      simp only [Dict.get?_set] at h
      split at h
      · next e => subst e; exact hg _ _ hr
      · exact hg _ _ h
    · rintro g d ⟨o', h1, h2⟩
      by_cases e : fh = g
      · subst e
        rw [hr] at h1
        cases h1
        exact ⟨((o.seek offset).read size).1, by simp only [Dict.get?_set, if_pos], h2⟩
      · exact ⟨o', by simp only [Dict.get?_set]; rw [if_neg e]; exact h1, h2⟩

theorem openObj_open {f : FRow → Except PyErr Bytes} {rs : List FRow} {i : Compose.FileInfo} {o : Obj} (h : openObj f rs i = .ok o) :
    o.closed = false := by
  unfold openObj at h
  split at h
  · split at h
    · next r _ =>
      cases hf : f r with
      | error e => rw [hf] at h; cases h
      | ok d => rw [hf] at h; cases h; rfl
    · cases h
  · cases h

theorem mrelease_good {m : Mount} (hg : Good m) (fh : Nat) :
    Good (mrelease m fh) ∧ ∀ g d, g ≠ fh → Holds m g d → Holds (mrelease m fh) g d := by
  unfold mrelease
  cases hr : m.opened.get? fh with
  | none => exact ⟨hg, fun _ _ _ h => h⟩
  | some o =>
    simp only
    constructor
    · intro g o' h
      simp only [Dict.get?_set] at h
      split at h
      · next e => subst e; exact hg _ _ hr
      · exact hg _ _ h
    · rintro g d hne ⟨o', h1, h2⟩
      exact ⟨o', by simp only [Dict.get?_set]; rw [if_neg (fun e => hne e.symm)]; exact h1, h2⟩

theorem call_good (f : FRow → Except PyErr Bytes) (rs : List FRow) (s : Source) {m : Mount} (hg : Good m) (c : Call) :
    Good (call f rs s m c) ∧ ∀ g d, c ≠ .release g → Holds m g d → Holds (call f rs s m c) g d := by
  cases c with
  | release fh => exact ⟨(mrelease_good hg fh).1, fun g d hne h => (mrelease_good hg fh).2 g d (fun e => hne (e ▸ rfl)) h⟩
  | read fh size offset => exact ⟨(mread_good hg fh size offset).1, fun g d _ h => (mread_good hg fh size offset).2 g d h⟩
  | «open» path =>
    have : (call f rs s m (.open path)) = (mopen f rs s m path).1 := rfl
    rw [this]
    unfold mopen
    cases mlookup s path with
    | error e => exact ⟨hg, fun _ _ _ h => h⟩
    | ok i =>
      simp only
      cases ho : openObj f rs i with
      | error e => exact ⟨hg, fun _ _ _ h => h⟩
      | ok o =>
        have hc : o.closed = false := openObj_open ho
        exact ⟨(addHandle_good hg o hc).1, fun g d _ h => (addHandle_good hg o hc).2.2 g d h⟩

theorem calls_good (f : FRow → Except PyErr Bytes) (rs : List FRow) (s : Source) (cs : List Call) : ∀ {m : Mount}, Good m →
    Good (calls f rs s m cs) ∧ ∀ g d, Call.release g ∉ cs → Holds m g d → Holds (calls f rs s m cs) g d := by
  induction cs with
  | nil => intro m hg; exact ⟨hg, fun _ _ _ h => h⟩
  | cons c cs ih =>
    intro m hg
    obtain ⟨h1, h2⟩ := call_good f rs s hg c
    obtain ⟨h3, h4⟩ := ih h1
    refine ⟨h3, fun g d hne h => h4 g d (fun hm => hne (List.mem_cons_of_mem _ hm)) (h2 g d ?_ h)⟩
    rintro rfl
    exact hne List.mem_cons_self

theorem mread_holds {m : Mount} {fh : Nat} {data : Bytes} (h : Holds m fh data) (size offset : Nat) :
    (mread m fh size offset).2 = .ok ((data.drop offset).take size) := by
  obtain ⟨o, h1, rfl, hc⟩ := h
  unfold mread
  rw [h1]
  simp only [hc]
  rfl

/-! ## what is found -/

/-- The archives of libraries: nothing is said about where the data is. -/
abbrev Listed (ms : List Rec) (rs : List FRow) (bs : List (List Row)) : Prop := Indexed (fun _ => true) [] ms rs bs

theorem mlookup_member {ms : List Rec} {rs : List FRow} {bs : List (List Row)} (hI : Listed ms rs bs) {ns : List Str} (hne : ns ≠ [])
    (hn : ∀ x ∈ ns, IsName x) {p : Rec} (hl : lastAt ms ns = some p) (hh : p.isHard = false) :
    ∃ k r, ms[k]? = some p ∧ rs[k]? = some r ∧ mlookup (source rs bs) (canonical ns) = .ok ((infoOf p k r.offset).push .file) := by
  rcases List.eq_nil_or_concat ns with rfl | ⟨a, x, rfl⟩
  · exact absurd rfl hne
  · rw [List.concat_eq_append] at hn hl ⊢
    obtain ⟨k, r, hk, hr, hi, hf⟩ := found_member hI hn (query_canonical _ hn) hl
    refine ⟨k, r, hk, hr, ?_⟩
    have hs : (source rs bs).lookup (canonical (a ++ [x])) 0 = some (infoOf p k r.offset) := by
      show (Index.lookup (build bs) _ 0).map _ = _
      rw [hf, Option.map_some, toInfo_row hr hi]
    unfold mlookup
    rw [Compose.C34_other _ mp _ _ hs (by rw [hardLink_eq]; exact hh)]

/-- After any calls, a place can be opened, and whatever is opened, read and closed in between, as long as the handle is not released, every read with that handle gives exactly the
requested range of the data that the library gives for the last member with that place. -/
theorem reads {ms : List Rec} {rs : List FRow} {bs : List (List Row)} (hI : Listed ms rs bs) (f : FRow → Except PyErr Bytes) {ns : List Str}
    (hne : ns ≠ []) (hn : ∀ x ∈ ns, IsName x) {p : Rec} (hl : lastAt ms ns = some p) (hh : p.isHard = false) {data : Bytes}
    (hf : ∀ (k : Nat) (r : FRow), ms[k]? = some p → rs[k]? = some r → f r = .ok data) (before : List Call) :
    ∃ m fh, mopen f rs (source rs bs) (calls f rs (source rs bs) start before) (canonical ns) = (m, .ok fh) ∧
      ∀ (between : List Call) (size offset : Nat), Call.release fh ∉ between →
        (mread (calls f rs (source rs bs) m between) fh size offset).2 = .ok ((data.drop offset).take size) := by
  obtain ⟨k, r, hk, hr, h1⟩ := mlookup_member hI hne hn hl hh
  obtain ⟨hg, -⟩ := calls_good f rs (source rs bs) before start_good
  have hv : openObj f rs ((infoOf p k r.offset).push .file) = .ok ⟨data, 0, false⟩ := by
    show (match column rs (k + 1) with
      | some r => (f r).map (fun d => (⟨d, 0, false⟩ : Obj))
      | none => .error (.os 21)) = _
    rw [column_row hr]
    simp only
    rw [hf k r hk hr]
    rfl
  obtain ⟨g1, g2, -⟩ := addHandle_good hg ⟨data, 0, false⟩ rfl
  refine ⟨_, _, by unfold mopen; rw [h1]; simp only [hv]; rfl, ?_⟩
  intro between size offset hb
  exact mread_holds ((calls_good f rs (source rs bs) between g1).2 _ _ hb g2) size offset

/-- If the library cannot open the member, this is an error, and nothing else happens. -/
theorem refused {ms : List Rec} {rs : List FRow} {bs : List (List Row)} (hI : Listed ms rs bs) (f : FRow → Except PyErr Bytes) {ns : List Str}
    (hne : ns ≠ []) (hn : ∀ x ∈ ns, IsName x) {p : Rec} (hl : lastAt ms ns = some p) (hh : p.isHard = false)
    (hf : ∀ (k : Nat) (r : FRow), ms[k]? = some p → rs[k]? = some r → ∃ e, f r = .error e) (m : Mount) :
    mopen f rs (source rs bs) m (canonical ns) = (m, .error (.os 5)) := by
  obtain ⟨k, r, hk, hr, h1⟩ := mlookup_member hI hne hn hl hh
  obtain ⟨e, he⟩ := hf k r hk hr
  have hv : openObj f rs ((infoOf p k r.offset).push .file) = .error e := by
    show (match column rs (k + 1) with
      | some r => (f r).map (fun d => (⟨d, 0, false⟩ : Obj))
      | none => .error (.os 21)) = _
    rw [column_row hr]
    simp only
    rw [he]
    rfl
  unfold mopen
  rw [h1]
  simp only [hv]

/-- The attributes of a member. -/
theorem attributes {ms : List Rec} {rs : List FRow} {bs : List (List Row)} (hI : Listed ms rs bs) {ns : List Str}
    (hne : ns ≠ []) (hn : ∀ x ∈ ns, IsName x) {p : Rec} (hl : lastAt ms ns = some p) (hh : p.isHard = false) :
    mgetattr rs (source rs bs) (canonical ns) = .ok p.stat ∧ mreadlink (source rs bs) (canonical ns) = .ok p.link :=
  IndexMount.attributes hI (.here ns p hne hl hh) (by decide) hn

/-- What is neither a member nor a folder of one does not exist. -/
theorem absent {ms : List Rec} {rs : List FRow} {bs : List (List Row)} (hI : Listed ms rs bs) (f : FRow → Except PyErr Bytes) {ns : List Str}
    (hn : ∀ x ∈ ns, IsName x) (hne : ns ≠ []) (hv : ∀ x ∈ ns, endsWith dotVersions x = false) (hl : lastAt ms ns = none)
    (hb : ¬ Below ms ns) (m : Mount) :
    mgetattr rs (source rs bs) (canonical ns) = .error (.os 2) ∧ mopen f rs (source rs bs) m (canonical ns) = (m, .error (.os 2)) := by
  obtain ⟨h1, -⟩ := IndexMount.absent hI hn hne hv hl hb (TarMount.start [])
  refine ⟨h1, ?_⟩
  unfold mgetattr at h1
  unfold mopen
  cases hm : mlookup (source rs bs) (canonical ns) with
  | error e =>
    rw [hm] at h1
    cases h1
    rfl
  | ok i => rw [hm] at h1; cases h1

end Verif.Fuse.ObjectMount
