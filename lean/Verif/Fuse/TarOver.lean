import Verif.Fuse.OldVersions
import Verif.Cache.BlockReader
import Verif.Stencil.Joined

/-!
# C205: a TAR archive whose bytes come from another file object

In `Verif.Fuse.TarMount` the file of the archive is a plain file. Archives that are split into several files are read through
`RawJoinedFileFromFactory` (factory.py:303-313, StenciledFile.py:179-315), and XZ archives can be read through `BlockParallelReader`
(BlockParallelReaders.py:24-246). Here, the views of members (StenciledFile.py:10-176) and the FUSE operations (FuseMount.py:655-833) are
modelled over any file object, which may also give less than was asked for. All calls give the same answers as for a plain file with the same bytes.

Not modelled: the buffer of `io.BufferedReader` around `RawJoinedFileFromFactory` (StenciledFile.py:340-352). The headers are
read from the same bytes as those of a plain file.
-/

namespace Verif.Fuse.TarOver

open Verif.Py Verif.Index Verif.Fuse.TarMount Verif.Fuse.TarFiles
open Verif.Tar (Bytes)
open Verif.Tar.Header (File)
open Verif.Compose (Source)
open Verif.Stencil (Raw Store)

/-! ## model -/

/-- `seek(position)` and `read(size)` of a file object, as they are called by views (StenciledFile.py:133, 137). -/
structure Obj (φ : Type) where
  seek : φ → Nat → φ
  read : φ → Nat → φ × Except PyErr Bytes

/-- The state of the mount (FuseMount.py:655-833): the file object of the archive, `openedFiles` and `lastFileHandle`. -/
structure OMount (φ : Type) where
  file : φ
  opened : Dict Nat Raw
  last : Nat

variable {φ : Type}

/-- The file object of the archive is open as long as it is mounted (StenciledFile.py:127-128). -/
def isOpen : Store UInt8 := fun _ => ⟨[], 0, false⟩

/-- The last half of `_read1_unlocked` (StenciledFile.py:133-139). -/
def take1 (O : Obj φ) (g : φ) (r : Raw) (pos readable : Nat) : φ × Raw × Except PyErr Bytes :=
  match O.read (O.seek g pos) readable with
  | (g', .ok tmp) => (g', ⟨r.offset + tmp.length, r.stencils, r.cumsizes⟩, .ok tmp)
  | (g', .error e) => (g', r, .error e)

/-- `_read1_unlocked` (StenciledFile.py:118-139). -/
def read1 (O : Obj φ) (g : φ) (r : Raw) (size : Nat) : φ × Raw × Except PyErr Bytes :=
  match r.locate isOpen size with
  | .error e => (g, r, .error e)
  | .ok none => (g, r, .ok [])
  | .ok (some (_, pos, readable)) => take1 O g r pos readable

/-- The loop of `read` (StenciledFile.py:150-154); `n` is `size - len(result)`. -/
def readLoop (O : Obj φ) (g : φ) (r : Raw) (n : Nat) (result : Bytes) : φ × Raw × Except PyErr Bytes :=
  if n = 0 then (g, r, .ok result)
  else
    match read1 O g r n with
    | (g, r, .error e) => (g, r, .error e)
    | (g, r, .ok []) => (g, r, .ok result)
    | (g, r, .ok (t :: ts)) => readLoop O g r (n - (ts.length + 1)) (result ++ t :: ts)
termination_by n
decreasing_by omega

/-- `_add_new_handle` (FuseMount.py:648-653). -/
def addTo (m : OMount φ) (r : Raw) : OMount φ := ⟨m.file, m.opened.set (m.last + 1) r, m.last + 1⟩

/-- `open` (FuseMount.py:776-791). -/
def oopen (s : Source) (m : OMount φ) (path : Str) : OMount φ × Except PyErr Nat :=
  match mlookup s path with
  | .error e => (m, .error e)
  | .ok i =>
    match openView i with
    | .error _ => (m, .error (.os 5))
    | .ok r => (addTo m r, .ok (m.last + 1))

/-- The state after a view was read (FuseMount.py:808-818). -/
def put (m : OMount φ) (fh : Nat) : φ × Raw × Except PyErr Bytes → OMount φ × Except PyErr Bytes
  | (g, r, b) => (⟨g, m.opened.set fh r, m.last⟩, b)

/-- `openedFile.seek(offset)`, then `read(size)`, for which 0 is no special case (FuseMount.py:815-817, StenciledFile.py:142-172). -/
def viewRead (O : Obj φ) (m : OMount φ) (fh : Nat) (r : Raw) (size offset : Nat) : OMount φ × Except PyErr Bytes :=
  put m fh (readLoop O m.file ⟨(offset : Int), r.stencils, r.cumsizes⟩ size [])

/-- `read` (FuseMount.py:808-833). Reading with a handle that does not exist, "this should never happen", is not modelled. -/
def oread (O : Obj φ) (m : OMount φ) (fh size offset : Nat) : OMount φ × Except PyErr Bytes :=
  match m.opened.get? fh with
  | none => (m, .error .unsupported)
  | some r => viewRead O m fh r size offset

/-- One call (FuseMount.py:776-833). -/
def ocall (O : Obj φ) (s : Source) (m : OMount φ) : Call → OMount φ
  | .open path => (oopen s m path).1
  | .read fh size offset => (oread O m fh size offset).1
  | .release _ => m

/-- Any calls (FuseMount.py:776-833). -/
def ocalls (O : Obj φ) (s : Source) (m : OMount φ) (cs : List Call) : OMount φ := cs.foldl (ocall O s) m

/-- A new mount (FuseMount.py:120-246). -/
def ostart (g : φ) : OMount φ := ⟨g, [], 0⟩

/-- `RawJoinedFileFromFactory` (StenciledFile.py:263-311). -/
def joinedObj : Obj (Stencil.Lazy UInt8) where
  seek l p := (l.seek (p : Int) .set).1
  read l n := l.read (n : Int)

/-- `BlockParallelReader` (BlockParallelReaders.py:135-248). `env` decides at each read what the pool has done; the number counts the reads. -/
def blockObj (decode : Int → Int → Bytes) (bounds : List Nat) (parallelization : Nat) (env : Nat → Cache.Env) : Obj (Cache.BlockReader UInt8 × Nat) where
  seek b p := ((b.1.seek bounds (p : Int) .set).1, b.2)
  read b n := (((b.1.read decode bounds parallelization (env b.2) (n : Int)).1, b.2 + 1), (b.1.read decode bounds parallelization (env b.2) (n : Int)).2)

/-! ## specification -/

/-- A file object with this content: `At g p` says that `g` is at the position `p`. A read gives a part of what follows, at most what was
asked for, and nothing only at the end. -/
structure Continues (O : Obj φ) (content : Bytes) (At : φ → Nat → Prop) : Prop where
  seek : ∀ g p q, At g p → At (O.seek g q) q
  read : ∀ g p n, At g p → ∃ g' b, O.read g n = (g', .ok b) ∧ At g' (p + b.length) ∧ b <+: content.drop p ∧ b.length ≤ n ∧
    (b = [] → n ≠ 0 → content.length ≤ p)

/-! ## views -/

theorem locate_open {α β : Type} (r : Raw) (n : Nat) (st : Store α) (st' : Store β) (h : ∀ f, (st f).closed = false) (h' : ∀ f, (st' f).closed = false) :
    r.locate st n = r.locate st' n := by
  unfold Raw.locate
  cases r.findStencil r.offset with
  | error e => rfl
  | ok i =>
    simp only
    cases r.stencils[i]? with
    | none => rfl
    | some s =>
      obtain ⟨f, off, sz⟩ := s
      simp only [h, h']

/-- A store in which every file has this content. -/
def full (content : Bytes) : Store UInt8 := fun _ => ⟨content, 0, false⟩

theorem read1_spec {O : Obj φ} {content : Bytes} {At : φ → Nat → Prop} (hO : Continues O content At) {r : Raw}
    (h : Stencil.WF (full content) r) (p n : Nat) (hp : r.offset = p) (hn : 0 < n) {g : φ} {q : Nat} (hg : At g q) :
    ∃ g' q' k, read1 O g r n = (g', { r with offset := (p + k : Nat) }, .ok (((Stencil.pieces (full content) r.stencils).drop p).take k)) ∧
      At g' q' ∧ k ≤ n ∧ k ≤ (Stencil.pieces (full content) r.stencils).length - p ∧
      (p < (Stencil.pieces (full content) r.stencils).length → 0 < k) := by
  unfold read1
  rw [locate_open r n isOpen (full content) (fun _ => rfl) (fun _ => rfl)]
  rcases Stencil.locate_spec h p n hp hn with ⟨hl, hle⟩ | ⟨f, pos, k, hl, hk, hkn, hkl, hd⟩
  · rw [hl]
    refine ⟨g, q, 0, ?_, hg, by omega, by omega, by omega⟩
    simp only [List.take_zero, Nat.add_zero]
    rw [← hp]
  · rw [hl]
    have hlk : (((Stencil.pieces (full content) r.stencils).drop p).take k).length = k := by simp; omega
    change (content.drop pos).take k = _ at hd
    obtain ⟨g', b, h1, h2, h3, h4, h5⟩ := hO.read (O.seek g pos) pos k (hO.seek g q pos hg)
    have hb : b = ((Stencil.pieces (full content) r.stencils).drop p).take b.length := by
      have e1 : b = (content.drop pos).take b.length := by
        obtain ⟨t, ht⟩ := h3
        rw [← ht, List.take_left']
        rfl
      have e2 : ((content.drop pos).take k).take b.length = (((Stencil.pieces (full content) r.stencils).drop p).take k).take b.length := by rw [hd]
      rw [List.take_take, List.take_take, Nat.min_eq_left h4] at e2
      rw [← e2]
      exact e1
    refine ⟨g', pos + b.length, b.length, ?_, h2, by omega, by omega, ?_⟩
    · show take1 O g r pos k = _
      unfold take1
      rw [h1]
      simp only [hp]
      rw [← hb]
      simp
    · intro _
      rcases Nat.eq_zero_or_pos b.length with h0 | h0
      · have := h5 (List.length_eq_zero_iff.mp h0) (by omega)
        have hz : ((content.drop pos).take k).length = k := by rw [hd]; exact hlk
        rw [List.drop_of_length_le this] at hz
        simp at hz
        omega
      · exact h0

theorem readLoop_spec {O : Obj φ} {content : Bytes} {At : φ → Nat → Prop} (hO : Continues O content At) (n : Nat) : ∀ {r : Raw}
    (_ : Stencil.WF (full content) r) (p : Nat) (_ : r.offset = p) (acc : Bytes) {g : φ} {q : Nat} (_ : At g q),
    ∃ g' q', readLoop O g r n acc = (g', { r with offset := (p + (((Stencil.pieces (full content) r.stencils).drop p).take n).length : Nat) },
        .ok (acc ++ ((Stencil.pieces (full content) r.stencils).drop p).take n)) ∧ At g' q' := by
  induction n using Nat.strongRecOn with
  | _ n ih =>
    intro r h p hp acc g q hg
    unfold readLoop
    split
    · next h0 => subst h0; refine ⟨g, q, ?_, hg⟩; simp [← hp]
    · next h0 =>
      obtain ⟨g', q', k, hr, hsd, hk, hk2, hk3⟩ := read1_spec hO h p n hp (by omega) hg
      rw [hr]
      cases hdat : ((Stencil.pieces (full content) r.stencils).drop p).take k with
      | nil =>
        refine ⟨g', q', ?_, hsd⟩
        have hl := congrArg List.length hdat
        simp at hl
        have hk0 : k = 0 := by omega
        have hge : (Stencil.pieces (full content) r.stencils).length ≤ p := by
          rcases Nat.lt_or_ge p (Stencil.pieces (full content) r.stencils).length with h1 | h1
          · have := hk3 h1; omega
          · exact h1
        rw [List.drop_of_length_le hge]
        simp [hk0]
      | cons t ts =>
        have hl : ts.length + 1 = k := by
          have hl := congrArg List.length hdat
          simp at hl; omega
        obtain ⟨g'', q'', hr2, hsd2⟩ := ih (n - k) (by omega) (r := { r with offset := (p + k : Nat) })
          (h.offset _) (p + k) rfl (acc ++ t :: ts) hsd
        refine ⟨g'', q'', ?_, hsd2⟩
        simp only [hl]
        rw [hr2]
        have hsplit : ((Stencil.pieces (full content) r.stencils).drop p).take n
            = (t :: ts) ++ ((Stencil.pieces (full content) r.stencils).drop (p + k)).take (n - k) := by
          rw [← hdat, ← List.drop_drop]
          conv => lhs; rw [show n = k + (n - k) by omega]
          rw [List.take_add]
        congr 2
        · congr 1
          rw [hsplit]; simp only [List.length_append, List.length_cons]; omega
        · rw [hsplit]; simp

/-! ## the mounts -/

/-- Both mounts have the same handles, and the file object is at some position. -/
structure Sim (At : φ → Nat → Prop) (archive : Bytes) (m : Mount) (om : OMount φ) : Prop where
  good : Good archive m
  opened : om.opened = m.opened
  last : om.last = m.last
  file : ∃ p, At om.file p

theorem sim_read {O : Obj φ} {archive : Bytes} {At : φ → Nat → Prop} (hO : Continues O archive At) {m : Mount} {om : OMount φ}
    (hs : Sim At archive m om) (fh size offset : Nat) :
    (oread O om fh size offset).2 = (mread m fh size offset).2 ∧ Sim At archive (mread m fh size offset).1 (oread O om fh size offset).1 := by
  unfold oread
  rw [hs.opened]
  cases hr : m.opened.get? fh with
  | none =>
    have : mread m fh size offset = (m, .error .unsupported) := by unfold mread; rw [hr]
    rw [this]
    exact ⟨rfl, hs⟩
  | some r =>
    have hseek : r.seek (offset : Int) .set = ({ r with offset := (offset : Int) }, .ok (offset : Int)) := by
      unfold Raw.seek
      have : r.target (offset : Int) .set = (offset : Int) := rfl
      rw [this, if_neg (by omega)]
    have hwf := (hs.good.wf fh r hr).offset (offset : Int)
    obtain ⟨st', h1, h2⟩ := Stencil.read_spec hwf offset rfl (size : Int)
    have hn1 : ¬ (size : Int) = -1 := by omega
    rw [if_neg hn1, Int.toNat_natCast] at h1
    have hm : mread m fh size offset = (update m fh st' { r with offset := ((offset + (((Stencil.pieces m.store r.stencils).drop offset).take size).length : Nat) : Int) },
        .ok (((Stencil.pieces m.store r.stencils).drop offset).take size)) := by
      unfold mread
      rw [hr]
      show seekRead m fh r size offset = _
      unfold seekRead
      rw [hseek]
      show readView m fh { r with offset := (offset : Int) } size = _
      unfold readView
      rw [h1]
    have hfull : Stencil.SameData (full archive) m.store := hs.good.same.symm
    obtain ⟨q, hq⟩ := hs.file
    obtain ⟨g', q', h3, h4⟩ := readLoop_spec hO size (hwf.same hfull) offset rfl [] hq
    have hpc : Stencil.pieces (full archive) r.stencils = Stencil.pieces m.store r.stencils := hfull.pieces _
    simp only [hpc, List.nil_append] at h3
    simp only
    unfold viewRead
    rw [h3, hm]
    refine ⟨rfl, (update_good (r' := { r with offset := ((offset + (((Stencil.pieces m.store r.stencils).drop offset).take size).length : Nat) : Int) })
      hs.good hr h2 rfl (hwf.offset _)).1, ?_, hs.last, ⟨q', h4⟩⟩
    show om.opened.set fh _ = m.opened.set fh _
    rw [hs.opened]

theorem sim_open {At : φ → Nat → Prop} {archive : Bytes} (s : Source) {m : Mount} {om : OMount φ} (hs : Sim At archive m om) (path : Str)
    (hg : Good archive (mopen s m path).1) :
    (oopen s om path).2 = (mopen s m path).2 ∧ Sim At archive (mopen s m path).1 (oopen s om path).1 := by
  unfold mopen at hg ⊢
  unfold oopen
  cases hl : mlookup s path with
  | error e => exact ⟨rfl, hs⟩
  | ok i =>
    rw [hl] at hg
    simp only at hg ⊢
    cases hv : openView i with
    | error e => exact ⟨rfl, hs⟩
    | ok r =>
      rw [hv] at hg
      refine ⟨?_, hg, ?_, ?_, hs.file⟩
      · show Except.ok (om.last + 1) = Except.ok (m.last + 1)
        rw [hs.last]
      · show om.opened.set (om.last + 1) r = m.opened.set (m.last + 1) r
        rw [hs.opened, hs.last]
      · show om.last + 1 = m.last + 1
        rw [hs.last]

theorem sim_calls {esc : Bytes → Str} {ign : Bool} {ws : Packing} {z : Nat} {bs : List (List Row)} (hp : Packed ws)
    (hb : Batches esc ign (bytesOf ws z) bs) {O : Obj φ} {At : φ → Nat → Prop} (hO : Continues O (bytesOf ws z) At) (cs : List Call) :
    ∀ {m : Mount} {om : OMount φ}, Sim At (bytesOf ws z) m om →
      Sim At (bytesOf ws z) (calls (mounted esc ign (bytesOf ws z) bs) m cs) (ocalls O (mounted esc ign (bytesOf ws z) bs) om cs) := by
  induction cs with
  | nil => intro m om h; exact h
  | cons c cs ih =>
    intro m om h
    have hg := h.good
    rw [← archive_eq] at hg
    have := (call_good (inserted hp hb) hg c).1
    rw [← mounted_eq, archive_eq] at this
    refine ih ?_
    cases c with
    | release fh => exact h
    | read fh size offset => exact (sim_read hO h fh size offset).2
    | «open» path => exact (sim_open _ h path this).2

theorem sim_start {At : φ → Nat → Prop} (archive : Bytes) {g : φ} {p : Nat} (h : At g p) : Sim At archive (start archive) (ostart g) :=
  ⟨start_good archive, rfl, rfl, ⟨p, h⟩⟩

/-- What is read from a plain file is also read from another file object. -/
theorem transfer {esc : Bytes → Str} {ign : Bool} {ws : Packing} {z : Nat} {bs : List (List Row)} (hp : Packed ws)
    (hb : Batches esc ign (bytesOf ws z) bs) {O : Obj φ} {At : φ → Nat → Prop} (hO : Continues O (bytesOf ws z) At) {g : φ} {p : Nat} (hg : At g p)
    {path : Str} {data : Bytes} {before : List Call}
    (h : ∃ m fh, mopen (mounted esc ign (bytesOf ws z) bs) (calls (mounted esc ign (bytesOf ws z) bs) (start (bytesOf ws z)) before)
        path = (m, .ok fh) ∧
      ∀ (between : List Call) (size offset : Nat),
        (mread (calls (mounted esc ign (bytesOf ws z) bs) m between) fh size offset).2 = .ok ((data.drop offset).take size)) :
    ∃ m fh, oopen (mounted esc ign (bytesOf ws z) bs) (ocalls O (mounted esc ign (bytesOf ws z) bs) (ostart g) before) path = (m, .ok fh) ∧
      ∀ (between : List Call) (size offset : Nat),
        (oread O (ocalls O (mounted esc ign (bytesOf ws z) bs) m between) fh size offset).2 = .ok ((data.drop offset).take size) := by
  obtain ⟨m, fh, h1, h2⟩ := h
  have s1 := sim_calls hp hb hO before (sim_start (bytesOf ws z) hg)
  have hgd := s1.good
  rw [← archive_eq] at hgd
  have h3 := (call_good (inserted hp hb) hgd (.open path)).1
  rw [← mounted_eq, archive_eq, call_open] at h3
  obtain ⟨e1, e2⟩ := sim_open (mounted esc ign (bytesOf ws z) bs) s1 path h3
  rw [h1] at e1 e2
  refine ⟨(oopen (mounted esc ign (bytesOf ws z) bs) (ocalls O (mounted esc ign (bytesOf ws z) bs) (ostart g) before) path).1, fh, ?_, ?_⟩
  · exact Prod.ext rfl e1
  · intro between size offset
    rw [(sim_read hO (sim_calls hp hb hO between e2) fh size offset).1]
    exact h2 between size offset

/-! ## the file objects -/

/-- At a position of a joined file. -/
def joinedAt (content : Bytes) (l : Stencil.Lazy UInt8) (p : Nat) : Prop := Stencil.LazyWF l ∧ l.factories.flatten = content ∧ l.offset = p

theorem joined_continues (content : Bytes) : Continues joinedObj content (joinedAt content) where
  seek := by
    rintro l p q ⟨h1, h2, -⟩
    refine ⟨⟨h1.cum, h1.pos⟩, h2, ?_⟩
    show max (q : Int) 0 = q
    omega
  read := by
    rintro l p n ⟨h1, h2, h3⟩
    obtain ⟨l', b, e1, e2, e3, e4, e5, e6, e7⟩ := Stencil.lazy_read_spec h1 p h3 (n : Int)
    rw [h2] at e5 e7
    refine ⟨l', b, e1, ⟨e2, by rw [e3, h2], e4⟩, e5, ?_, fun hb hn => e7 hb (by omega)⟩
    have := e6 (by omega)
    omega

theorem joined_start (parts : List Bytes) : joinedAt parts.flatten (Stencil.Lazy.init parts) 0 :=
  ⟨(Stencil.lazy_init_wf parts).1, (Stencil.lazy_init_wf parts).2, rfl⟩

/-- At a position of a block reader. -/
def blockAt (content : Bytes) (bounds : List Nat) (b : Cache.BlockReader UInt8 × Nat) (p : Nat) : Prop :=
  Cache.RInv content bounds b.1 ∧ b.1.offset = p

theorem block_continues {content : Bytes} {bounds : List Nat} {decode : Int → Int → Bytes} (h : Cache.Partition content bounds)
    (hd : Cache.Decodes content decode) (par : Nat) (env : Nat → Cache.Env) :
    Continues (blockObj decode bounds par env) content (blockAt content bounds) where
  seek := by
    rintro b p q ⟨h1, -⟩
    exact ⟨⟨h1.good, h1.right⟩, rfl⟩
  read := by
    rintro b p n ⟨h1, h2⟩
    obtain ⟨b', e1, e2, e3⟩ := Cache.read_spec h hd par (env b.2) h1 p n h2
    refine ⟨(b', b.2 + 1), (content.drop p).take n, ?_, ⟨e2, e3⟩, List.take_prefix _ _, ?_, ?_⟩
    · show (((b.1.read decode bounds par (env b.2) (n : Int)).1, b.2 + 1), (b.1.read decode bounds par (env b.2) (n : Int)).2) = _
      rw [e1]
    · rw [List.length_take]; omega
    · intro hb hn
      have := congrArg List.length hb
      rw [List.length_take, List.length_drop, List.length_nil] at this
      omega

theorem block_start (content : Bytes) (bounds : List Nat) (par : Nat) : blockAt content bounds (Cache.BlockReader.init par, 0) 0 :=
  ⟨⟨⟨_, Cache.same_init _⟩, by intro i d hi; simp [Cache.BlockReader.init, Cache.Lru.init] at hi⟩, rfl⟩

/-! ## C205 -/

/-- What a call gives back. -/
inductive Answer where
  | handle (r : Except PyErr Nat)
  | bytes (r : Except PyErr Bytes)
  | done

/-- The answers of a mount of a plain file to any calls. -/
def plainAnswers (s : Source) : Mount → List Call → List Answer
  | _, [] => []
  | m, .open path :: cs => .handle (mopen s m path).2 :: plainAnswers s (mopen s m path).1 cs
  | m, .read fh size offset :: cs => .bytes (mread m fh size offset).2 :: plainAnswers s (mread m fh size offset).1 cs
  | m, .release _ :: cs => .done :: plainAnswers s m cs

/-- The answers of a mount of another file object to any calls. -/
def answers (O : Obj φ) (s : Source) : OMount φ → List Call → List Answer
  | _, [] => []
  | m, .open path :: cs => .handle (oopen s m path).2 :: answers O s (oopen s m path).1 cs
  | m, .read fh size offset :: cs => .bytes (oread O m fh size offset).2 :: answers O s (oread O m fh size offset).1 cs
  | m, .release _ :: cs => .done :: answers O s m cs

theorem same_answers {esc : Bytes → Str} {ign : Bool} {ws : Packing} {z : Nat} {bs : List (List Row)} (hp : Packed ws)
    (hb : Batches esc ign (bytesOf ws z) bs) {O : Obj φ} {At : φ → Nat → Prop} (hO : Continues O (bytesOf ws z) At) (cs : List Call) :
    ∀ {m : Mount} {om : OMount φ}, Sim At (bytesOf ws z) m om →
      answers O (mounted esc ign (bytesOf ws z) bs) om cs = plainAnswers (mounted esc ign (bytesOf ws z) bs) m cs := by
  induction cs with
  | nil => intro m om h; rfl
  | cons c cs ih =>
    intro m om h
    have hg := h.good
    rw [← archive_eq] at hg
    have hc := (call_good (inserted hp hb) hg c).1
    rw [← mounted_eq, archive_eq] at hc
    cases c with
    | release fh => unfold answers plainAnswers; rw [ih h]
    | read fh size offset =>
      obtain ⟨h1, h2⟩ := sim_read hO h fh size offset
      unfold answers plainAnswers
      rw [h1, ih h2]
    | «open» path =>
      obtain ⟨h1, h2⟩ := sim_open _ h path hc
      unfold answers plainAnswers
      rw [h1, ih h2]

/-- **C205**: a mount of an archive that is split into any parts answers every history of calls like a mount of the archive itself. -/
theorem C205_split_same {esc : Bytes → Str} {ign : Bool} {ws : Packing} {zeros : Nat} {bs : List (List Row)} (hp : Packed ws)
    (hb : Batches esc ign (bytesOf ws zeros) bs) (parts : List Bytes) (hj : parts.flatten = bytesOf ws zeros) (cs : List Call) :
    answers joinedObj (mounted esc ign (bytesOf ws zeros) bs) (ostart (Stencil.Lazy.init parts)) cs =
      plainAnswers (mounted esc ign (bytesOf ws zeros) bs) (start (bytesOf ws zeros)) cs :=
  same_answers hp hb (joined_continues _) cs (sim_start _ (p := 0) (by rw [← hj]; exact joined_start parts))

/-- **C205**: a mount of an archive that is decompressed in blocks answers every history of calls like a mount of the
uncompressed archive, whatever is cached and fetched in advance. -/
theorem C205_blocks_same {esc : Bytes → Str} {ign : Bool} {ws : Packing} {zeros : Nat} {bs : List (List Row)} (hp : Packed ws)
    (hb : Batches esc ign (bytesOf ws zeros) bs) {bounds : List Nat} {decode : Int → Int → Bytes} (hpart : Cache.Partition (bytesOf ws zeros) bounds)
    (hd : Cache.Decodes (bytesOf ws zeros) decode) (par : Nat) (env : Nat → Cache.Env) (cs : List Call) :
    answers (blockObj decode bounds par env) (mounted esc ign (bytesOf ws zeros) bs) (ostart (Cache.BlockReader.init par, 0)) cs =
      plainAnswers (mounted esc ign (bytesOf ws zeros) bs) (start (bytesOf ws zeros)) cs :=
  same_answers hp hb (block_continues hpart hd par env) cs (sim_start _ (p := 0) (block_start _ _ _))

/-- **C205**: every file that was packed into an archive, which was then split into parts, is read back, also through hard links. -/
theorem C205_split_read {esc : Bytes → Str} {ign : Bool} {ws : Packing} {zeros : Nat} {bs : List (List Row)} (hp : Packed ws)
    (hb : Batches esc ign (bytesOf ws zeros) bs) (parts : List Bytes) (hj : parts.flatten = bytesOf ws zeros) {k : Nat} {ns : List Str} {f : File}
    (hl : Leads (ws.map (fun p => p.1)) k ns f) (hk : k ≤ 128) (hn : ∀ x ∈ ns, IsName x) (before : List Call) :
    ∃ m fh, oopen (mounted esc ign (bytesOf ws zeros) bs)
        (ocalls joinedObj (mounted esc ign (bytesOf ws zeros) bs) (ostart (Stencil.Lazy.init parts)) before) (canonical ns) = (m, .ok fh) ∧
      ∀ (between : List Call) (size offset : Nat),
        (oread joinedObj (ocalls joinedObj (mounted esc ign (bytesOf ws zeros) bs) m between) fh size offset).2 =
          .ok ((f.data.drop offset).take size) :=
  transfer hp hb (joined_continues _) (p := 0) (by rw [← hj]; exact joined_start parts) (C190_read hp hb hl hk hn before)

/-- **C205**: every file that was packed into an archive, which was then compressed in blocks, is read back, also through hard links. -/
theorem C205_blocks_read {esc : Bytes → Str} {ign : Bool} {ws : Packing} {zeros : Nat} {bs : List (List Row)} (hp : Packed ws)
    (hb : Batches esc ign (bytesOf ws zeros) bs) {bounds : List Nat} {decode : Int → Int → Bytes} (hpart : Cache.Partition (bytesOf ws zeros) bounds)
    (hd : Cache.Decodes (bytesOf ws zeros) decode) (par : Nat) (env : Nat → Cache.Env) {k : Nat} {ns : List Str} {f : File}
    (hl : Leads (ws.map (fun p => p.1)) k ns f) (hk : k ≤ 128) (hn : ∀ x ∈ ns, IsName x) (before : List Call) :
    ∃ m fh, oopen (mounted esc ign (bytesOf ws zeros) bs)
        (ocalls (blockObj decode bounds par env) (mounted esc ign (bytesOf ws zeros) bs) (ostart (Cache.BlockReader.init par, 0)) before)
        (canonical ns) = (m, .ok fh) ∧
      ∀ (between : List Call) (size offset : Nat),
        (oread (blockObj decode bounds par env) (ocalls (blockObj decode bounds par env) (mounted esc ign (bytesOf ws zeros) bs) m between)
          fh size offset).2 = .ok ((f.data.drop offset).take size) :=
  transfer hp hb (block_continues hpart hd par env) (p := 0) (block_start _ _ _) (C190_read hp hb hl hk hn before)

/-- **C205**: older versions of files in a split archive are read through the versions folders. -/
theorem C205_split_version {esc : Bytes → Str} {ign : Bool} {ws : Packing} {zeros : Nat} {bs : List (List Row)} (hp : Packed ws)
    (hb : Batches esc ign (bytesOf ws zeros) bs) (parts : List Bytes) (hj : parts.flatten = bytesOf ws zeros) {ns : List Str} {n : Str}
    (hn : ∀ x ∈ ns ++ [n], IsName x) (hno : OldVersions.Nothing (ws.map (fun p => p.1)) (ns ++ [n ++ ".versions".toList])) {k : Nat} {f : File}
    (hf : (OldVersions.versionsOf (ws.map (fun p => p.1)) (ns ++ [n]))[k]? = some f) (before : List Call) :
    ∃ m fh, oopen (mounted esc ign (bytesOf ws zeros) bs)
        (ocalls joinedObj (mounted esc ign (bytesOf ws zeros) bs) (ostart (Stencil.Lazy.init parts)) before)
        (canonical (OldVersions.versionPath ns n (k + 1))) = (m, .ok fh) ∧
      ∀ (between : List Call) (size offset : Nat),
        (oread joinedObj (ocalls joinedObj (mounted esc ign (bytesOf ws zeros) bs) m between) fh size offset).2 =
          .ok ((f.data.drop offset).take size) :=
  transfer hp hb (joined_continues _) (p := 0) (by rw [← hj]; exact joined_start parts) (OldVersions.C204_read_partial hp hb hn hno hf before)

/-! ## concrete cases -/

/-- The demo archive, cut in the middle of the header of its second member and with an empty part. -/
def cut : List Bytes := [(bytesOf demo 1024).take 2100, [], (bytesOf demo 1024).drop 2100]

theorem cut_whole : cut.flatten = bytesOf demo 1024 := by
  unfold cut
  rw [List.flatten_cons, List.flatten_cons, List.flatten_cons, List.flatten_nil, List.append_nil, List.nil_append, List.take_append_drop]

/-- C205: the hard link of the split archive gives the data of the file with the long name. -/
example (esc : Bytes → Str) : ∃ m fh, oopen (mounted esc false (bytesOf demo 1024) (demoBatches esc))
      (ocalls joinedObj (mounted esc false (bytesOf demo 1024) (demoBatches esc)) (ostart (Stencil.Lazy.init cut)) [.open "/b/é".toList, .read 1 2 0])
      "/b/é".toList = (m, .ok fh) ∧
    (oread joinedObj (ocalls joinedObj (mounted esc false (bytesOf demo 1024) (demoBatches esc)) m [.read fh 2 0]) fh 5 1).2 = .ok [2, 3] := by
  obtain ⟨m, fh, h1, h2⟩ := C205_split_read demo_packed (demo_batches esc) cut cut_whole demo_leads (by decide) (by unfold IsName; decide)
    [.open "/b/é".toList, .read 1 2 0]
  exact ⟨m, fh, h1, h2 [.read fh 2 0] 5 1⟩

/-- The blocks of the compressed archive. -/
def demoBounds : List Nat := [0, 700, 2100, (bytesOf demo 1024).length]

theorem long_of (a rest : Bytes) (h : 1536 ≤ a.length) : 2100 ≤ ((a ++ rest) ++ List.replicate 1024 0).length := by
  rw [List.length_append, List.length_append, List.length_replicate]
  omega

theorem demo_long : 2100 ≤ (bytesOf demo 1024).length := by
  unfold bytesOf demo
  rw [List.flatMap_cons]
  exact long_of _ _ (by decide +kernel)

theorem partition_of (content : Bytes) (h : 2100 ≤ content.length) : Cache.Partition content [0, 700, 2100, content.length] where
  sorted := by
    simp only [List.pairwise_cons, List.mem_cons, List.not_mem_nil, or_false, forall_eq_or_imp, forall_eq, List.Pairwise.nil, and_true]
    refine ⟨⟨by omega, by omega, by omega⟩, ⟨by omega, by omega⟩, ?_, ?_⟩
    · omega
    · intro a h; exact h.elim
  first := rfl
  last := rfl

theorem demo_partition : Cache.Partition (bytesOf demo 1024) demoBounds := partition_of _ demo_long

/-- C205: the same from the compressed archive, if the pool is never ready. -/
example (esc : Bytes → Str) : ∃ m fh, oopen (mounted esc false (bytesOf demo 1024) (demoBatches esc))
      (ocalls (blockObj (Cache.sliceDecoder (bytesOf demo 1024)) demoBounds 4 (fun _ => ⟨fun _ => false, 3⟩))
        (mounted esc false (bytesOf demo 1024) (demoBatches esc)) (ostart (Cache.BlockReader.init 4, 0)) [.open "/b/é".toList, .read 1 2 0])
      "/b/é".toList = (m, .ok fh) ∧
    (oread (blockObj (Cache.sliceDecoder (bytesOf demo 1024)) demoBounds 4 (fun _ => ⟨fun _ => false, 3⟩))
      (ocalls (blockObj (Cache.sliceDecoder (bytesOf demo 1024)) demoBounds 4 (fun _ => ⟨fun _ => false, 3⟩))
        (mounted esc false (bytesOf demo 1024) (demoBatches esc)) m [.read fh 2 0]) fh 5 1).2 = .ok [2, 3] := by
  obtain ⟨m, fh, h1, h2⟩ := C205_blocks_read demo_packed (demo_batches esc) demo_partition (decode := Cache.sliceDecoder (bytesOf demo 1024))
    (fun o n _ => by simp [Cache.sliceDecoder]) 4 (fun _ => ⟨fun _ => false, 3⟩) demo_leads (by decide) (by unfold IsName; decide)
    [.open "/b/é".toList, .read 1 2 0]
  exact ⟨m, fh, h1, h2 [.read fh 2 0] 5 1⟩

end Verif.Fuse.TarOver
