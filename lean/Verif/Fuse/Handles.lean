import Verif.Overlay.Entries

/-!
# C46, C51, C53: file handles (ratarmount/FuseMount.py:649-654, 775-882)

What the mount source opens is given by its effect on later reads: a file of the overlay folder is read from its inode,
a file of the sources below gives the bytes it has there, which never change.
-/

namespace Verif.Fuse

open Verif.Py Verif.Overlay

/-- The second part of a value of `openedFiles` (FuseMount.py:649-654). -/
inductive Handle where
  | fd (n : Nat)             -- the result of `os.open`, for an inode of the overlay folder
  | object (n : Nat)         -- a file object for an inode of the overlay folder
  | below (d : Bytes)        -- a file object of a source below
  | command (buffer : Bytes) -- a `CommandFile`
  deriving DecidableEq, Repr

/-- A value of `openedFiles`; `write` is `flags & (O_WRONLY | O_RDWR)` (FuseMount.py:649-654). -/
structure Opened where
  write : Bool
  handle : Handle
  closed : Bool
  deriving DecidableEq, Repr

/-- What does not change: the sources, whether there is a write overlay, which paths begin with the prefix of the control
interface, and which one is the file for commands (FuseMount.py:116-297). -/
structure Config where
  cfg : Cfg
  overlay : Bool
  control : Path → Bool
  command : Path → Bool

/-- The state: the overlay, the handles and the next number (FuseMount.py:116-297, 649-654). -/
structure Mount where
  st : St
  last : Nat
  opened : Dict Nat Opened
  ran : List Bytes

/-- Calls from the kernel (FuseMount.py:776-888). -/
inductive Call where
  | open (p : Path) (write : Bool)
  | create (p : Path) (mode : Nat)
  | read (p : Path) (size offset : Nat) (fh : Nat)
  | write (p : Path) (data : Bytes) (offset : Nat) (fh : Nat)
  | release (fh : Nat)
  | op (o : Op)
  deriving DecidableEq, Repr

/-- Their answers (FuseMount.py:776-888). -/
inductive Answer where
  | handle (fh : Nat)
  | bytes (d : Bytes)
  | count (n : Nat)
  | done
  | library  -- FuseMount has no such method: the default of the library
  | error (e : PyErr)
  deriving DecidableEq, Repr

/-- `errno.EBADF` (FuseMount.py:808-833). -/
abbrev EBADF : PyErr := .os 9

variable (f : Config)

/-- `_lookup` (FuseMount.py:656-674) without the attributes. -/
def lookup (m : Mount) (p : Path) : Option Inode := if f.overlay then view f.cfg m.st p else Dict.get? f.cfg.lower p

/-- `mountSource.open` of what was looked up (FuseMount.py:776-792). -/
def openSource (m : Mount) (p : Path) : Except PyErr Handle :=
  if f.command p then .ok (.command [])
  else match (if f.overlay then Dict.get? m.st.host.entries p else none) with
    | some n => if (m.st.host.inode n).kind = .file then .ok (.object n) else .error .valueError
    | none =>
      match Dict.get? f.cfg.lower p with
      | some i => if i.kind = .file then .ok (.below i.data) else (f.cfg.openOther i).map .below
      | none => .error .typeError

/-- `_add_new_handle` (FuseMount.py:649-654). -/
def addHandle (m : Mount) (h : Handle) (write : Bool) : Mount × Answer :=
  ({ m with last := m.last + 1, opened := Dict.set m.opened (m.last + 1) ⟨write, h, false⟩ }, .handle (m.last + 1))

/-- `open` (FuseMount.py:776-791). -/
def openCall (m : Mount) (p : Path) (write : Bool) : Mount × Answer :=
  if !f.command p && (lookup f m p).isNone then (m, .error ENOENT)
  else match openSource f m p with
    | .error _ => (m, .error EIO)
    | .ok h => addHandle m h write

/-- `create` (FuseMount.py:842-845). -/
def createCall (m : Mount) (p : Path) (mode : Nat) : Mount × Answer :=
  if f.overlay then
    match Overlay.create f.cfg m.st p mode with
    | (s, .error e) => ({ m with st := s }, .error e)
    | (s, .ok n) => addHandle { m with st := s } (.fd n) false
  else (m, .error EROFS)

/-- `seek` and `read` of an opened file (FuseMount.py:808-833). -/
def readOpened (m : Mount) (e : Opened) (size offset : Nat) : Answer :=
  match e.handle with
  | .fd n => if e.closed then .error EBADF else .bytes (pread (m.st.host.inode n).data offset size)
  | .object n => if e.closed then .error .valueError else .bytes (pread (m.st.host.inode n).data offset size)
  | .below d => if e.closed then .error .valueError else .bytes (pread d offset size)
  | .command _ => .error .valueError  -- not seekable

/-- `read` (FuseMount.py:808-831). -/
def readCall (m : Mount) (p : Path) (size offset : Nat) (fh : Nat) : Answer :=
  match Dict.get? m.opened fh with
  | some e => readOpened m e size offset
  | none =>
    if (lookup f m p).isNone then .error ENOENT
    else match openSource f m p with
      | .error _ => .error EIO
      | .ok h => readOpened m ⟨false, h, false⟩ size offset

/-- `write` (FuseMount.py:858-876). -/
def writeCall (m : Mount) (p : Path) (data : Bytes) (offset : Nat) (fh : Nat) : Mount × Answer :=
  match Dict.get? m.opened fh with
  | none => (m, .error .keyError)
  | some e =>
    match e.handle with
    | .fd n =>
      if f.overlay then
        if e.closed then (m, .error EBADF)
        else ({ m with st := writeInode m.st n data offset }, .count data.length)
      else (m, .error EROFS)
    | .command b =>
      if e.closed then (m, .error .valueError)
      else ({ m with opened := Dict.set m.opened fh { e with handle := .command (b ++ data) } }, .count data.length)
    | _ =>
      if e.closed then (m, .error .valueError)
      else if f.overlay && e.write then
        -- The file is closed before it is opened again.
        match openOverlay f.cfg m.st p true with
        | (s, .error err) => ({ m with st := s, opened := Dict.set m.opened fh { e with closed := true } }, .error err)
        | (s, .ok n) =>
          ({ m with st := writeInode s n data offset, opened := Dict.set m.opened fh { e with handle := .fd n } },
            .count data.length)
      else (m, .error EROFS)

/-- `release` (FuseMount.py:794-805). Closing a `CommandFile` runs the command (FuseMount.py:75-88); closing a file object again does nothing. -/
def releaseCall (m : Mount) (fh : Nat) : Mount × Answer :=
  match Dict.get? m.opened fh with
  | none => (m, .error ESTALE)
  | some e =>
    let m' : Mount := { m with opened := Dict.set m.opened fh { e with closed := true } }
    match e.handle with
    | .fd _ => if e.closed then (m, .error EBADF) else (m', .count fh)
    | .command b => if e.closed then (m, .count fh) else ({ m' with ran := if b = [] then m.ran else m.ran ++ [b] }, .count fh)
    | _ => (m', .count fh)

/-- The other operations: with an overlay its methods (FuseMount.py:311-325), and `truncate` (FuseMount.py:848-855). -/
def opCall (m : Mount) (o : Op) : Mount × Answer :=
  let modify : Mount × Answer :=
    match Overlay.step f.cfg m.st o with
    | (s, .error e) => ({ m with st := s }, .error e)
    | (s, .ok ()) => ({ m with st := s }, .done)
  match o with
  | .truncate p _ => if f.control p then (m, .done) else if f.overlay then modify else (m, .error EROFS)
  | _ => if f.overlay then modify else (m, .library)

/-- One call (FuseMount.py:776-888). -/
def call (m : Mount) : Call → Mount × Answer
  | .open p w => openCall f m p w
  | .create p mode => createCall f m p mode
  | .read p size offset fh => (m, readCall f m p size offset fh)
  | .write p data offset fh => writeCall f m p data offset fh
  | .release fh => releaseCall m fh
  | .op o => opCall f m o

/-- Any calls, one after the other (FuseMount.py:776-888). -/
def calls (m : Mount) : List Call → Mount × List Answer
  | [] => (m, [])
  | c :: cs => ((calls (call f m c).1 cs).1, (call f m c).2 :: (calls (call f m c).1 cs).2)

variable {f}

/-! ## C51: handles are unique -/

/-- The handles that were given out, in their order. -/
def handles (as : List Answer) : List Nat :=
  as.filterMap (fun a => match a with | .handle n => some n | _ => none)

theorem call_last (m : Mount) (c : Call) :
    ((call f m c).2 = .handle (m.last + 1) ∧ (call f m c).1.last = m.last + 1) ∨
      ((∀ n, (call f m c).2 ≠ .handle n) ∧ (call f m c).1.last = m.last) := by
  cases c with
  | «open» p w =>
    simp only [call, openCall]
    split
    · exact .inr ⟨by simp, rfl⟩
    · cases openSource f m p with
      | error e => exact .inr ⟨by simp, rfl⟩
      | ok h => exact .inl ⟨rfl, rfl⟩
  | create p mode =>
    simp only [call, createCall]
    split
    · cases Overlay.create f.cfg m.st p mode with
      | mk s r =>
        cases r with
        | error e => exact .inr ⟨by simp, rfl⟩
        | ok n => exact .inl ⟨rfl, rfl⟩
    · exact .inr ⟨by simp, rfl⟩
  | read p size offset fh =>
    refine .inr ⟨?_, rfl⟩
    have hr : ∀ (e : Opened) n, readOpened m e size offset ≠ .handle n := by
      intro e n
      unfold readOpened
      cases e.handle <;> simp only [ne_eq] <;> try (split <;> simp)
      simp
    intro n
    simp only [call, readCall]
    cases Dict.get? m.opened fh with
    | some e => exact hr e n
    | none =>
      simp only
      split
      · simp
      · cases openSource f m p with
        | error e => simp
        | ok h => exact hr _ n
  | write p data offset fh =>
    refine .inr ?_
    simp only [call, writeCall]
    cases Dict.get? m.opened fh with
    | none => exact ⟨by simp, rfl⟩
    | some e =>
      obtain ⟨w, h, cl⟩ := e
      cases h with
      | fd n =>
        simp only
        split
        · split <;> exact ⟨by simp, rfl⟩
        · exact ⟨by simp, rfl⟩
      | command b => simp only; split <;> exact ⟨by simp, rfl⟩
      | object n =>
        simp only
        split
        · exact ⟨by simp, rfl⟩
        · split
          · cases openOverlay f.cfg m.st p true with
            | mk s r => cases r <;> exact ⟨by simp, rfl⟩
          · exact ⟨by simp, rfl⟩
      | below d =>
        simp only
        split
        · exact ⟨by simp, rfl⟩
        · split
          · cases openOverlay f.cfg m.st p true with
            | mk s r => cases r <;> exact ⟨by simp, rfl⟩
          · exact ⟨by simp, rfl⟩
  | release fh =>
    refine .inr ?_
    simp only [call, releaseCall]
    cases Dict.get? m.opened fh with
    | none => exact ⟨by simp, rfl⟩
    | some e =>
      obtain ⟨w, h, cl⟩ := e
      cases h with
      | fd n => simp only; split <;> exact ⟨by simp, rfl⟩
      | command b => simp only; split <;> exact ⟨by simp, rfl⟩
      | object n => exact ⟨by simp, rfl⟩
      | below d => exact ⟨by simp, rfl⟩
  | op o =>
    refine .inr ?_
    have hm : ∀ x : Mount × Answer, x = (match Overlay.step f.cfg m.st o with
        | (s, .error e) => (({ m with st := s } : Mount), Answer.error e)
        | (s, .ok ()) => ({ m with st := s }, .done)) → (∀ n, x.2 ≠ .handle n) ∧ x.1.last = m.last := by
      intro x hx
      rw [hx]
      cases Overlay.step f.cfg m.st o with
      | mk s r => cases r <;> exact ⟨by simp, rfl⟩
    simp only [call, opCall]
    cases o <;> simp only <;> (repeat' split) <;> first | exact ⟨by simp, rfl⟩ | exact hm _ rfl

/-- **C51**: whatever is called, every handle is greater than all handles before, so none is given out twice. -/
theorem C51_unique (m : Mount) (cs : List Call) :
    (∀ n ∈ handles (calls f m cs).2, m.last < n) ∧ (handles (calls f m cs).2).Pairwise (· < ·) := by
  induction cs generalizing m with
  | nil => simp [calls, handles]
  | cons c cs ih =>
    obtain ⟨h1, h2⟩ := ih (call f m c).1
    simp only [calls, handles, List.filterMap_cons]
    rcases call_last (f := f) m c with ⟨ha, hl⟩ | ⟨ha, hl⟩
    · rw [ha]
      simp only [List.mem_cons, List.pairwise_cons]
      rw [hl] at h1
      refine ⟨?_, fun n hn => h1 n hn, h2⟩
      rintro n (rfl | hn)
      · omega
      · have := h1 n hn; omega
    · rw [hl] at h1
      cases hc : (call f m c).2 with
      | handle n => exact absurd hc (ha n)
      | bytes d => exact ⟨h1, h2⟩
      | count d => exact ⟨h1, h2⟩
      | done => exact ⟨h1, h2⟩
      | library => exact ⟨h1, h2⟩
      | error e => exact ⟨h1, h2⟩

/-- A handle that was opened for reading only, of a file. -/
def Opened.ReadOnly (e : Opened) : Prop := e.write = false ∧ ((∃ n, e.handle = .object n) ∨ ∃ d, e.handle = .below d)

theorem call_readOnly (m : Mount) (c : Call) (fh : Nat) (e : Opened) (hm : fh ≤ m.last) (h : Dict.get? m.opened fh = some e)
    (hr : e.ReadOnly) : ∃ e', Dict.get? (call f m c).1.opened fh = some e' ∧ e'.ReadOnly := by
  have other : ∀ (k : Nat) (v : Opened), (k = fh → v.ReadOnly) →
      ∃ e', Dict.get? (Dict.set m.opened k v) fh = some e' ∧ e'.ReadOnly := by
    intro k v hk
    rw [Dict.get?_set]
    by_cases hq : k = fh
    · rw [if_pos hq]; exact ⟨v, rfl, hk hq⟩
    · rw [if_neg hq]; exact ⟨e, h, hr⟩
  cases c with
  | «open» p w =>
    simp only [call, openCall]
    split
    · exact ⟨e, h, hr⟩
    · cases openSource f m p with
      | error err => exact ⟨e, h, hr⟩
      | ok hd => exact other _ _ (fun hq => absurd hq (by omega))
  | create p mode =>
    simp only [call, createCall]
    split
    · cases Overlay.create f.cfg m.st p mode with
      | mk s r =>
        cases r with
        | error err => exact ⟨e, h, hr⟩
        | ok n => exact other _ _ (fun hq => absurd hq (by simp only; omega))
    · exact ⟨e, h, hr⟩
  | read p size offset k => exact ⟨e, h, hr⟩
  | write p data offset k =>
    simp only [call, writeCall]
    cases hk : Dict.get? m.opened k with
    | none => exact ⟨e, h, hr⟩
    | some x =>
      have same : k = fh → x = e := by
        intro hq; subst hq
        have := hk.symm.trans h
        injection this
      obtain ⟨w, hd, cl⟩ := x
      cases hd with
      | fd n =>
        simp only
        split
        · split <;> exact ⟨e, h, hr⟩
        · exact ⟨e, h, hr⟩
      | command b =>
        simp only
        split
        · exact ⟨e, h, hr⟩
        · refine other _ _ (fun hq => ?_)
          rw [← same hq] at hr
          rcases hr.2 with ⟨n, hn⟩ | ⟨n, hn⟩ <;> cases hn
      | object n =>
        simp only
        split
        · exact ⟨e, h, hr⟩
        · split
          · next hw =>
            have hne : k ≠ fh := by
              intro hq
              rw [← same hq] at hr
              have := hr.1
              simp only at this
              subst this
              simp at hw
            cases openOverlay f.cfg m.st p true with
            | mk s r => cases r <;> exact other _ _ (fun hq => absurd hq hne)
          · exact ⟨e, h, hr⟩
      | below d =>
        simp only
        split
        · exact ⟨e, h, hr⟩
        · split
          · next hw =>
            have hne : k ≠ fh := by
              intro hq
              rw [← same hq] at hr
              have := hr.1
              simp only at this
              subst this
              simp at hw
            cases openOverlay f.cfg m.st p true with
            | mk s r => cases r <;> exact other _ _ (fun hq => absurd hq hne)
          · exact ⟨e, h, hr⟩
  | release k =>
    simp only [call, releaseCall]
    cases hk : Dict.get? m.opened k with
    | none => exact ⟨e, h, hr⟩
    | some x =>
      have same : k = fh → x = e := by
        intro hq; subst hq
        have := hk.symm.trans h
        injection this
      have closed : k = fh → Opened.ReadOnly { x with closed := true } := by
        intro hq; rw [same hq]; exact hr
      obtain ⟨w, hd, cl⟩ := x
      cases hd with
      | fd n => simp only; split
                · exact ⟨e, h, hr⟩
                · exact other _ _ closed
      | command b => simp only; split
                     · exact ⟨e, h, hr⟩
                     · exact other _ _ closed
      | object n => exact other _ _ closed
      | below d => exact other _ _ closed
  | op o =>
    have hmod : ∀ (s : St), ∃ e', Dict.get? ({ m with st := s } : Mount).opened fh = some e' ∧ e'.ReadOnly :=
      fun _ => ⟨e, h, hr⟩
    have hopened : (opCall f m o).1.opened = m.opened := by
      simp only [opCall]
      cases Overlay.step f.cfg m.st o with
      | mk s r => cases r <;> cases o <;> simp only <;> (repeat' split) <;> rfl
    simp only [call, hopened]
    exact ⟨e, h, hr⟩

theorem openSource_kind (m : Mount) (p : Path) (hd : Handle) (hcmd : f.command p = false) (h : openSource f m p = .ok hd) :
    (∃ n, hd = .object n) ∨ ∃ d, hd = .below d := by
  unfold openSource at h
  rw [hcmd] at h
  simp only [Bool.false_eq_true, if_false] at h
  cases hg : (if f.overlay then Dict.get? m.st.host.entries p else none) with
  | some n =>
    rw [hg] at h
    simp only at h
    split at h
    · injection h with h; exact .inl ⟨n, h.symm⟩
    · cases h
  | none =>
    rw [hg] at h
    simp only at h
    cases hl : Dict.get? f.cfg.lower p with
    | none => rw [hl] at h; cases h
    | some i =>
      rw [hl] at h
      simp only at h
      split at h
      · injection h with h; exact .inr ⟨_, h.symm⟩
      · cases hoo : f.cfg.openOther i with
        | error err => rw [hoo] at h; cases h
        | ok d => rw [hoo] at h; injection h with h; exact .inr ⟨d, h.symm⟩

/-- **C51**: whatever happens in between, a handle that was opened for reading only never changes anything when it is
written to. -/
theorem C51_readonly (m : Mount) (p : Path) (fh : Nat) (ho : (call f m (.open p false)).2 = .handle fh)
    (hcmd : f.command p = false) (cs : List Call) (q : Path) (data : Bytes) (offset : Nat) :
    let m' := (calls f (call f m (.open p false)).1 cs).1
    (call f m' (.write q data offset fh)).1 = m' ∧ ∃ err, (call f m' (.write q data offset fh)).2 = .error err := by
  have key : ∀ (cs : List Call) (m : Mount) (e : Opened), fh ≤ m.last → Dict.get? m.opened fh = some e → e.ReadOnly →
      ∃ e', Dict.get? (calls f m cs).1.opened fh = some e' ∧ e'.ReadOnly := by
    intro cs
    induction cs with
    | nil => intro m e _ h hr; exact ⟨e, h, hr⟩
    | cons c cs ih =>
      intro m e hl h hr
      obtain ⟨e', h', hr'⟩ := call_readOnly m c fh e hl h hr
      refine ih (call f m c).1 e' ?_ h' hr'
      rcases call_last (f := f) m c with h | h <;> omega
  have hopen : ∃ e, fh ≤ (call f m (.open p false)).1.last ∧ Dict.get? (call f m (.open p false)).1.opened fh = some e ∧
      e.ReadOnly := by
    simp only [call, openCall] at ho ⊢
    split at ho
    · cases ho
    · next hne =>
      rw [if_neg hne]
      cases hs : openSource f m p with
      | error err => rw [hs] at ho; cases ho
      | ok hd =>
        rw [hs] at ho
        simp only [addHandle] at ho ⊢
        injection ho with ho
        subst ho
        exact ⟨⟨false, hd, false⟩, Nat.le_refl _, by rw [Dict.get?_set, if_pos rfl], rfl, openSource_kind m p hd hcmd hs⟩
  obtain ⟨e, hl, he, hr⟩ := hopen
  obtain ⟨e', he', hr'⟩ := key cs _ e hl he hr
  intro m'
  simp only [call, writeCall]
  rw [he']
  obtain ⟨w, hd, cl⟩ := e'
  have hw : w = false := hr'.1
  subst hw
  rcases hr'.2 with ⟨n, hn⟩ | ⟨n, hn⟩ <;> simp only at hn <;> subst hn <;> simp only [Bool.and_false, Bool.false_eq_true,
    if_false] <;> split <;> exact ⟨rfl, _, rfl⟩

/-- A file opened for reading and, through another handle, written: the first handle still cannot be used for writing. -/
example : (calls ⟨demoTar, true, fun _ => false, fun _ => false⟩ ⟨St.fresh (demoAttrs 0o40755), 0, [], []⟩
    [.open [['d'], ['f']] false, .open [['d'], ['f']] true, .write [['d'], ['f']] [9] 0 2,
      .write [['d'], ['f']] [8] 0 1]).2 = [.handle 1, .handle 2, .count 1, .error EROFS] := by
  decide +kernel

/-! ## C53: without a write overlay -/

/-- **C53**: without a write overlay no calls change anything below, and creating, truncating and writing is refused as
on a read-only file system, apart from the control interface. Missing: operations FuseMount does not have, which are
left to the library. -/
theorem C53_unchanged_partial (h : f.overlay = false) (m : Mount) (cs : List Call) : (calls f m cs).1.st = m.st := by
  induction cs generalizing m with
  | nil => rfl
  | cons c cs ih =>
    simp only [calls]
    rw [ih]
    cases c with
    | «open» p w =>
      simp only [call, openCall]
      split
      · rfl
      · cases openSource f m p <;> rfl
    | create p mode => simp [call, createCall, h]
    | read p size offset fh => rfl
    | write p data offset fh =>
      simp only [call, writeCall]
      cases Dict.get? m.opened fh with
      | none => rfl
      | some e =>
        obtain ⟨w, hh, cl⟩ := e
        cases hh with
        | fd n => simp [h]
        | command b => simp only; split <;> rfl
        | object n => simp only [h, Bool.false_and, Bool.false_eq_true, if_false]; split <;> rfl
        | below d => simp only [h, Bool.false_and, Bool.false_eq_true, if_false]; split <;> rfl
    | release fh =>
      simp only [call, releaseCall]
      cases Dict.get? m.opened fh with
      | none => rfl
      | some e =>
        obtain ⟨w, h, cl⟩ := e
        cases h with
        | fd n => simp only; split <;> rfl
        | command b => simp only; split <;> rfl
        | object n => rfl
        | below d => rfl
    | op o =>
      simp only [call, opCall, h]
      cases o <;> simp only [Bool.false_eq_true, if_false]
      split <;> rfl

theorem C53_refused_partial (h : f.overlay = false) (m : Mount) :
    (∀ p mode, call f m (.create p mode) = (m, .error EROFS)) ∧
      (∀ p n, f.control p = false → call f m (.op (.truncate p n)) = (m, .error EROFS)) ∧
      ∀ p data offset fh e, Dict.get? m.opened fh = some e → e.closed = false → (∀ b, e.handle ≠ .command b) →
        call f m (.write p data offset fh) = (m, .error EROFS) := by
  refine ⟨fun p mode => by simp [call, createCall, h], fun p n hp => by simp [call, opCall, h, hp], ?_⟩
  intro p data offset fh e he hc hb
  simp only [call, writeCall, he, h, hc]
  cases hh : e.handle with
  | command b => exact absurd hh (hb b)
  | fd n => simp
  | object n => simp
  | below d => simp

/-- **C53**: with a write overlay the answer to each operation that is not about the control interface is that of the overlay, whose state is
the only thing that changes. -/
theorem C53_overlay (h : f.overlay = true) (m : Mount) (o : Op) (ho : ∀ p n, o = .truncate p n → f.control p = false) :
    call f m (.op o) = ({ m with st := (Overlay.step f.cfg m.st o).1 },
      match (Overlay.step f.cfg m.st o).2 with
      | .error e => .error e
      | .ok () => .done) := by
  have hstep : opCall f m o = (match Overlay.step f.cfg m.st o with
      | (s, .error e) => ({ m with st := s }, Answer.error e)
      | (s, .ok ()) => ({ m with st := s }, Answer.done)) := by
    cases o with
    | truncate p n => simp [opCall, h, ho p n rfl]
    | _ => simp [opCall, h]
  show opCall f m o = _
  rw [hstep]
  cases hs : Overlay.step f.cfg m.st o with
  | mk s r => cases r <;> rfl

/-- **C53**: with a write overlay a new file is made in the overlay, and what is written through its handle is in the overlay. -/
theorem C53_create (h : f.overlay = true) (m : Mount) (p : Path) (mode : Nat) (s : St) (n : Nat)
    (hc : Overlay.create f.cfg m.st p mode = (s, .ok n)) (data : Bytes) (offset : Nat) :
    call f m (.create p mode) = ((call f m (.create p mode)).1, .handle (m.last + 1)) ∧ (call f m (.create p mode)).1.st = s ∧
      call f (call f m (.create p mode)).1 (.write p data offset (m.last + 1)) =
        ({ (call f m (.create p mode)).1 with st := writeInode s n data offset }, .count data.length) := by
  have h1 : call f m (.create p mode) = addHandle { m with st := s } (.fd n) false := by
    simp [call, createCall, h, hc]
  rw [h1]
  refine ⟨rfl, rfl, ?_⟩
  simp only [call, writeCall, addHandle]
  rw [Dict.get?_set, if_pos rfl]
  simp [h]

/-- A mount with an overlay: a folder is made there, and a file that is removed is marked there. -/
example : (call ⟨demoTar, true, fun _ => false, fun _ => false⟩ ⟨St.fresh (demoAttrs 0o40755), 0, [], []⟩ (.op (.mkdir [['n']] 0o755))).2 = .done ∧
    (calls ⟨demoTar, true, fun _ => false, fun _ => false⟩ ⟨St.fresh (demoAttrs 0o40755), 0, [], []⟩
      [.create [['n']] 0o644, .write [['n']] [7, 8] 0 1, .read [['n']] 9 0 1]).2 = [.handle 1, .count 2, .bytes [7, 8]] := by
  decide +kernel

/-- A mount without an overlay: a file can be opened for writing, and read, but each write is refused. -/
example : (calls ⟨demoTar, false, fun _ => false, fun _ => false⟩ ⟨St.fresh (demoAttrs 0o40755), 0, [], []⟩
    [.open [['d'], ['f']] true, .write [['d'], ['f']] [9] 0 1, .read [['d'], ['f']] 9 1 1, .create [['n']] 0o644]).2 =
      [.handle 1, .error EROFS, .bytes [2, 3], .error EROFS] := by
  decide +kernel

end Verif.Fuse
