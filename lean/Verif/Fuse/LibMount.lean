import Verif.Fuse.ObjectMount

/-!
# A mounted archive whose members are opened by file objects with a state

The file objects of SquashFS images (squashfs.py:141-289) and of libarchive (libarchive.py) keep a buffer, and those of libarchive share readers of the
archive. This file has the part that such archives have in common: from the rows to the answers of the FUSE operations of a mount
(FuseMount.py:655-833). What is found is the same as in `Verif.Fuse.IndexMount`; the simplifications are those of `Verif.Fuse.ObjectMount`.
-/

namespace Verif.Fuse.LibMount

open Verif.Py Verif.Index Verif.Fuse.IndexMount
open Verif.Tar (Bytes)
open Verif.Compose (Source dotVersions)
open Verif.Fuse.TarMount (mp mlookup mreaddir Call)
open Verif.Fuse.ObjectMount (Listed mlookup_member)

/-! ## model -/

/-- What a mount source does: `open` for a row (SQLiteIndexMountSource.py:60-170), `seek(offset)` and `read(size)` of the file object
(FuseMount.py:815-816), and `close` (FuseMount.py:801). All of them can change what the file objects share. -/
structure Lib (γ σ : Type) where
  openRow : γ → FRow → γ × Except PyErr σ
  pread : γ → σ → Nat → Nat → γ × σ × Except PyErr Bytes
  close : γ → σ → γ

/-- `openedFiles`, with closed files as `none`, and `lastFileHandle` (FuseMount.py:655-833). -/
structure Mount (γ σ : Type) where
  shared : γ
  opened : Dict Nat (Option σ)
  last : Nat

variable {γ σ : Type}

/-- `FileVersionLayer.open` (versioning.py:232-243) above `open` of the mount source, which gets the columns of the row. -/
def openObj (L : Lib γ σ) (rs : List FRow) (g : γ) (i : Compose.FileInfo) : γ × Except PyErr σ :=
  match i.userdata with
  | .file :: .own _ :: _ =>
    match column rs i.rest with
    | some r => L.openRow g r
    | none => (g, .error (.os 21))
  | _ => (g, .error .fileNotFound)

/-- The handles after `_add_new_handle` (FuseMount.py:648-653). -/
def addHandle (m : Mount γ σ) (g : γ) (o : σ) : Mount γ σ := ⟨g, m.opened.set (m.last + 1) (some o), m.last + 1⟩

/-- `open` (FuseMount.py:776-791). -/
def mopen (L : Lib γ σ) (rs : List FRow) (s : Source) (m : Mount γ σ) (path : Str) : Mount γ σ × Except PyErr Nat :=
  match mlookup s path with
  | .error e => (m, .error e)
  | .ok i =>
    match openObj L rs m.shared i with
    | (g, .error _) => (⟨g, m.opened, m.last⟩, .error (.os 5))
    | (g, .ok o) => (addHandle m g o, .ok (m.last + 1))

/-- `read` (FuseMount.py:808-833). Reading with a handle that does not exist, "this should never happen", is not modelled. -/
def mread (L : Lib γ σ) (m : Mount γ σ) (fh size offset : Nat) : Mount γ σ × Except PyErr Bytes :=
  match m.opened.get? fh with
  | none => (m, .error .unsupported)
  | some none => (m, .error .valueError)
  | some (some o) =>
    (⟨(L.pread m.shared o size offset).1, m.opened.set fh (some (L.pread m.shared o size offset).2.1), m.last⟩,
      (L.pread m.shared o size offset).2.2)

/-- `release` (FuseMount.py:793-806): the file is closed, but the handle stays. -/
def mrelease (L : Lib γ σ) (m : Mount γ σ) (fh : Nat) : Mount γ σ :=
  match m.opened.get? fh with
  | some (some o) => ⟨L.close m.shared o, m.opened.set fh none, m.last⟩
  | _ => m

/-- One call (FuseMount.py:776-833). -/
def call (L : Lib γ σ) (rs : List FRow) (s : Source) (m : Mount γ σ) : Call → Mount γ σ
  | .open path => (mopen L rs s m path).1
  | .read fh size offset => (mread L m fh size offset).1
  | .release fh => mrelease L m fh

/-- Any calls (FuseMount.py:776-833). -/
def calls (L : Lib γ σ) (rs : List FRow) (s : Source) (m : Mount γ σ) (cs : List Call) : Mount γ σ := cs.foldl (call L rs s) m

/-- A new mount (FuseMount.py:120-246). -/
def start (g : γ) : Mount γ σ := ⟨g, [], 0⟩

/-! ## what has to be known about a mount source -/

/-- The mount source gives the contents of the rows: `J` holds for what is shared, `I (some data) o` for a file object with this data,
`I none o` for one of which nothing is known. Reads are only
right if `range length offset` holds. -/
structure Serves (L : Lib γ σ) (rs : List FRow) (J : γ → Prop) (I : Option Bytes → σ → Prop) (range : Nat → Nat → Prop) : Prop where
  openJ : ∀ g, ∀ r ∈ rs, J g → J (L.openRow g r).1
  openI : ∀ g, ∀ r ∈ rs, J g → ∀ o, (L.openRow g r).2 = .ok o → ∃ d, I d o
  preadJ : ∀ g d o size offset, J g → I d o → J (L.pread g o size offset).1 ∧ I d (L.pread g o size offset).2.1
  pread : ∀ g d o size offset, J g → I (some d) o → range d.length offset → (L.pread g o size offset).2.2 = .ok ((d.drop offset).take size)
  closeJ : ∀ g d o, J g → I d o → J (L.close g o)

/-! ## handles -/

/-- Handles are numbered in the order of opening, and all files are in order. -/
def Good (J : γ → Prop) (I : Option Bytes → σ → Prop) (m : Mount γ σ) : Prop :=
  J m.shared ∧ ∀ fh o, m.opened.get? fh = some o → fh ≤ m.last ∧ ∀ f, o = some f → ∃ d, I d f

/-- The handle is open, and its file has this data. -/
def Holds (I : Option Bytes → σ → Prop) (m : Mount γ σ) (fh : Nat) (data : Bytes) : Prop := ∃ o, m.opened.get? fh = some (some o) ∧ I (some data) o

theorem start_good {J : γ → Prop} {I : Option Bytes → σ → Prop} {g : γ} (h : J g) : Good J I (start (σ := σ) g) := by
  refine ⟨h, ?_⟩
  intro fh o h
  cases h

theorem addHandle_good {J : γ → Prop} {I : Option Bytes → σ → Prop} {m : Mount γ σ} (hg : Good J I m) {g : γ} (hj : J g) {o : σ} {d : Option Bytes} (hi : I d o) :
    Good J I (addHandle m g o) ∧ (∀ b, d = some b → Holds I (addHandle m g o) (m.last + 1) b) ∧ ∀ h d, Holds I m h d → Holds I (addHandle m g o) h d := by
  refine ⟨⟨hj, ?_⟩, fun b hb => ⟨o, ?_, hb ▸ hi⟩, ?_⟩
  · intro fh o' h
    unfold addHandle at h ⊢
    simp only [Dict.get?_set] at h ⊢
    split at h
    · cases h
      exact ⟨by omega, fun f hf => by cases hf; exact ⟨d, hi⟩⟩
    · have := hg.2 fh o' h
      exact ⟨by omega, this.2⟩
  · unfold addHandle
    simp only [Dict.get?_set, if_pos]
  · rintro h d ⟨o', h1, h2⟩
    refine ⟨o', ?_, h2⟩
    unfold addHandle
    have := (hg.2 h _ h1).1
    simp only [Dict.get?_set]
    rw [if_neg (by omega)]
    exact h1

theorem mread_good {L : Lib γ σ} {rs : List FRow} {J : γ → Prop} {I : Option Bytes → σ → Prop} {range : Nat → Nat → Prop} (hL : Serves L rs J I range)
    {m : Mount γ σ} (hg : Good J I m) (fh size offset : Nat) :
    Good J I (mread L m fh size offset).1 ∧ ∀ h d, Holds I m h d → Holds I (mread L m fh size offset).1 h d := by
  unfold mread
  cases hr : m.opened.get? fh with
  | none => exact ⟨hg, fun _ _ h => h⟩
  | some o =>
    cases o with
    | none => exact ⟨hg, fun _ _ h => h⟩
    | some o =>
      obtain ⟨hlt, hex⟩ := hg.2 fh _ hr
      obtain ⟨d, hd⟩ := hex o rfl
      refine ⟨⟨(hL.preadJ _ _ _ size offset hg.1 hd).1, ?_⟩, ?_⟩
      · intro h o' hh
        simp only [Dict.get?_set] at hh
        split at hh
        · next e =>
          subst e
          cases hh
          exact ⟨hlt, fun f hf => by cases hf; exact ⟨d, (hL.preadJ _ _ _ size offset hg.1 hd).2⟩⟩
        · exact hg.2 h o' hh
      · rintro h d' ⟨o', h1, h2⟩
        by_cases e : fh = h
        · subst e
          rw [hr] at h1
          cases h1
          exact ⟨_, by simp only [Dict.get?_set, if_pos], (hL.preadJ _ _ _ size offset hg.1 h2).2⟩
        · exact ⟨o', by simp only [Dict.get?_set]; rw [if_neg e]; exact h1, h2⟩

theorem mrelease_good {L : Lib γ σ} {rs : List FRow} {J : γ → Prop} {I : Option Bytes → σ → Prop} {range : Nat → Nat → Prop} (hL : Serves L rs J I range)
    {m : Mount γ σ} (hg : Good J I m) (fh : Nat) :
    Good J I (mrelease L m fh) ∧ ∀ h d, h ≠ fh → Holds I m h d → Holds I (mrelease L m fh) h d := by
  unfold mrelease
  cases hr : m.opened.get? fh with
  | none => exact ⟨hg, fun _ _ _ h => h⟩
  | some o =>
    cases o with
    | none => exact ⟨hg, fun _ _ _ h => h⟩
    | some o =>
      obtain ⟨hlt, hex⟩ := hg.2 fh _ hr
      obtain ⟨d, hd⟩ := hex o rfl
      refine ⟨⟨hL.closeJ _ _ _ hg.1 hd, ?_⟩, ?_⟩
      · intro h o' hh
        simp only [Dict.get?_set] at hh
        split at hh
        · next e => subst e; cases hh; exact ⟨hlt, fun f hf => by cases hf⟩
        · exact hg.2 _ _ hh
      · rintro h d hne ⟨o', h1, h2⟩
        exact ⟨o', by simp only [Dict.get?_set]; rw [if_neg (fun e => hne e.symm)]; exact h1, h2⟩

theorem column_mem {rs : List FRow} {n : Nat} {r : FRow} (h : column rs n = some r) : r ∈ rs := by
  unfold column at h
  split at h
  · cases h
  · exact List.mem_of_getElem? h

theorem openObj_good {L : Lib γ σ} {rs : List FRow} {J : γ → Prop} {I : Option Bytes → σ → Prop} {range : Nat → Nat → Prop} (hL : Serves L rs J I range)
    {g : γ} (hg : J g) (i : Compose.FileInfo) :
    J (openObj L rs g i).1 ∧ ∀ o, (openObj L rs g i).2 = .ok o → ∃ d, I d o := by
  unfold openObj
  split
  · split
    · next r hr =>
      have hm := column_mem hr
      exact ⟨hL.openJ g r hm hg, hL.openI g r hm hg⟩
    · exact ⟨hg, fun o h => by cases h⟩
  · exact ⟨hg, fun o h => by cases h⟩

theorem call_good {L : Lib γ σ} {rs : List FRow} {J : γ → Prop} {I : Option Bytes → σ → Prop} {range : Nat → Nat → Prop} (hL : Serves L rs J I range)
    (s : Source) {m : Mount γ σ} (hg : Good J I m) (c : Call) :
    Good J I (call L rs s m c) ∧ ∀ h d, c ≠ .release h → Holds I m h d → Holds I (call L rs s m c) h d := by
  cases c with
  | release fh => exact ⟨(mrelease_good hL hg fh).1, fun g d hne h => (mrelease_good hL hg fh).2 g d (fun e => hne (e ▸ rfl)) h⟩
  | read fh size offset => exact ⟨(mread_good hL hg fh size offset).1, fun g d _ h => (mread_good hL hg fh size offset).2 g d h⟩
  | «open» path =>
    have : (call L rs s m (.open path)) = (mopen L rs s m path).1 := rfl
    rw [this]
    unfold mopen
    cases mlookup s path with
    | error e => exact ⟨hg, fun _ _ _ h => h⟩
    | ok i =>
      simp only
      obtain ⟨h1, h2⟩ := openObj_good hL hg.1 i
      cases ho : openObj L rs m.shared i with
      | mk g r =>
        rw [ho] at h1 h2
        cases r with
        | error e => exact ⟨⟨h1, hg.2⟩, fun _ _ _ h => h⟩
        | ok o =>
          obtain ⟨d, hd⟩ := h2 o rfl
          exact ⟨(addHandle_good hg h1 hd).1, fun g d _ h => (addHandle_good hg h1 hd).2.2 g d h⟩

theorem calls_good {L : Lib γ σ} {rs : List FRow} {J : γ → Prop} {I : Option Bytes → σ → Prop} {range : Nat → Nat → Prop} (hL : Serves L rs J I range)
    (s : Source) (cs : List Call) : ∀ {m : Mount γ σ}, Good J I m →
    Good J I (calls L rs s m cs) ∧ ∀ h d, Call.release h ∉ cs → Holds I m h d → Holds I (calls L rs s m cs) h d := by
  induction cs with
  | nil => intro m hg; exact ⟨hg, fun _ _ _ h => h⟩
  | cons c cs ih =>
    intro m hg
    obtain ⟨h1, h2⟩ := call_good hL s hg c
    obtain ⟨h3, h4⟩ := ih h1
    refine ⟨h3, fun g d hne h => h4 g d (fun hm => hne (List.mem_cons_of_mem _ hm)) (h2 g d ?_ h)⟩
    rintro rfl
    exact hne List.mem_cons_self

theorem mread_holds {L : Lib γ σ} {rs : List FRow} {J : γ → Prop} {I : Option Bytes → σ → Prop} {range : Nat → Nat → Prop} (hL : Serves L rs J I range)
    {m : Mount γ σ} (hg : Good J I m) {fh : Nat} {data : Bytes} (h : Holds I m fh data) (size offset : Nat) (hr : range data.length offset) :
    (mread L m fh size offset).2 = .ok ((data.drop offset).take size) := by
  obtain ⟨o, h1, h2⟩ := h
  unfold mread
  rw [h1]
  exact hL.pread _ _ _ _ _ hg.1 h2 hr

/-! ## what is found -/

/-- After any calls, a place can be opened if the mount source opens its row, and whatever is opened, read and closed in between, as long as the
handle is not released, every read with that handle gives exactly the requested range of the data. -/
theorem reads {L : Lib γ σ} {ms : List Rec} {rs : List FRow} {bs : List (List Row)} {J : γ → Prop} {I : Option Bytes → σ → Prop} {range : Nat → Nat → Prop}
    (hL : Serves L rs J I range) (hI : Listed ms rs bs) {ns : List Str} (hne : ns ≠ []) (hn : ∀ x ∈ ns, IsName x) {p : Rec}
    (hl : lastAt ms ns = some p) (hh : p.isHard = false) {data : Bytes}
    (hf : ∀ (k : Nat) (r : FRow), ms[k]? = some p → rs[k]? = some r → ∀ g, J g → ∃ o, (L.openRow g r).2 = .ok o ∧ I (some data) o)
    {g₀ : γ} (h₀ : J g₀) (before : List Call) :
    ∃ m fh, mopen L rs (source rs bs) (calls L rs (source rs bs) (start g₀) before) (canonical ns) = (m, .ok fh) ∧
      ∀ (between : List Call) (size offset : Nat), Call.release fh ∉ between → range data.length offset →
        (mread L (calls L rs (source rs bs) m between) fh size offset).2 = .ok ((data.drop offset).take size) := by
  obtain ⟨k, r, hk, hr, h1⟩ := mlookup_member hI hne hn hl hh
  obtain ⟨hg, -⟩ := calls_good hL (source rs bs) before (start_good (σ := σ) (I := I) h₀)
  obtain ⟨o, ho, hi⟩ := hf k r hk hr _ hg.1
  have hj := hL.openJ _ r (List.mem_of_getElem? hr) hg.1
  have hv : openObj L rs (calls L rs (source rs bs) (start g₀) before).shared ((infoOf p k r.offset).push .file) =
      L.openRow (calls L rs (source rs bs) (start g₀) before).shared r := by
    show (match column rs (k + 1) with
      | some r => L.openRow _ r
      | none => (_, .error (.os 21))) = _
    rw [column_row hr]
  obtain ⟨g1, g2, -⟩ := addHandle_good hg hj hi
  refine ⟨addHandle (calls L rs (source rs bs) (start g₀) before) (L.openRow (calls L rs (source rs bs) (start g₀) before).shared r).1 o,
    (calls L rs (source rs bs) (start g₀) before).last + 1, ?_, ?_⟩
  · unfold mopen
    rw [h1]
    simp only [hv]
    cases hop : L.openRow (calls L rs (source rs bs) (start g₀) before).shared r with
    | mk a b =>
      rw [hop] at ho
      simp only at ho
      subst ho
      rfl
  · intro between size offset hb hrg
    obtain ⟨q1, q2⟩ := calls_good hL (source rs bs) between g1
    exact mread_holds hL q1 (q2 _ _ hb (g2 _ rfl)) size offset hrg

/-- If the mount source cannot open the row, this is an error, and no handle is made. -/
theorem refused {L : Lib γ σ} {ms : List Rec} {rs : List FRow} {bs : List (List Row)} (hI : Listed ms rs bs) {ns : List Str} (hne : ns ≠ [])
    (hn : ∀ x ∈ ns, IsName x) {p : Rec} (hl : lastAt ms ns = some p) (hh : p.isHard = false) (m : Mount γ σ)
    (hf : ∀ (k : Nat) (r : FRow), ms[k]? = some p → rs[k]? = some r → ∃ e, (L.openRow m.shared r).2 = .error e) :
    (mopen L rs (source rs bs) m (canonical ns)).2 = .error (.os 5) ∧ (mopen L rs (source rs bs) m (canonical ns)).1.opened = m.opened := by
  obtain ⟨k, r, hk, hr, h1⟩ := mlookup_member hI hne hn hl hh
  obtain ⟨e, he⟩ := hf k r hk hr
  have hv : openObj L rs m.shared ((infoOf p k r.offset).push .file) = L.openRow m.shared r := by
    show (match column rs (k + 1) with
      | some r => L.openRow _ r
      | none => (_, .error (.os 21))) = _
    rw [column_row hr]
  unfold mopen
  rw [h1]
  simp only [hv]
  cases hop : L.openRow m.shared r with
  | mk a b =>
    rw [hop] at he
    simp only at he
    subst he
    exact ⟨rfl, rfl⟩

/-- What is neither a member nor a folder of one cannot be opened. -/
theorem absent {L : Lib γ σ} {ms : List Rec} {rs : List FRow} {bs : List (List Row)} (hI : Listed ms rs bs) {ns : List Str}
    (hn : ∀ x ∈ ns, IsName x) (hne : ns ≠ []) (hv : ∀ x ∈ ns, endsWith dotVersions x = false) (hl : lastAt ms ns = none)
    (hb : ¬ Below ms ns) (m : Mount γ σ) :
    mgetattr rs (source rs bs) (canonical ns) = .error (.os 2) ∧ mopen L rs (source rs bs) m (canonical ns) = (m, .error (.os 2)) := by
  obtain ⟨h1, -⟩ := IndexMount.absent hI hn hne hv hl hb (TarMount.start [])
  refine ⟨h1, ?_⟩
  unfold mgetattr at h1
  unfold mopen
  cases hm : mlookup (source rs bs) (canonical ns) with
  | error e =>
    rw [hm] at h1
    cases h1
    rfl
  | ok i => rw [hm] at h1; cases h1

end Verif.Fuse.LibMount
