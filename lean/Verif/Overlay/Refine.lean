import Verif.Overlay.HostLemmas

/-!
# The mount with a write overlay behaves like a file system
-/

namespace Verif.Overlay

open Verif.Py

/-! ## specification -/

/-- What a user sees at a path, apart from the attributes. -/
inductive Shown where
  | dir
  | file (data : Bytes)
  | link (target : Str)
  | special
  deriving DecidableEq, Repr

/-- A file system: what is at each path. -/
abbrev Tree := Path → Option Shown

/-- Operations on the mount (WriteOverlay.py:324-461, FuseMount.py:842-856). -/
inductive Op where
  | create (p : Path) (mode : Nat)
  | mkdir (p : Path) (mode : Nat)
  | unlink (p : Path)
  | rmdir (p : Path)
  | write (p : Path) (offset : Nat) (data : Bytes)
  | truncate (p : Path) (size : Nat)
  | chmod (p : Path) (mode : Nat)
  | chown (p : Path) (uid gid : Option Nat)
  | utimens (p : Path) (mtime : Int)
  | symlink (p : Path) (target : Str)
  | mknod (p : Path) (mode : Nat)
  | rename (old new : Path)
  deriving DecidableEq, Repr

/-- Every entry is in a folder. -/
def Closed (t : Tree) : Prop := ∀ p n, t (p ++ [n]) ≠ none → t p = some .dir

/-- Nothing is there yet and the parent is a folder. -/
def Vacant (t : Tree) (p : Path) : Prop := p ≠ [] ∧ t p = none ∧ t p.dropLast = some .dir

/-- The calls the kernel lets through: it looks the paths up before. A folder is only removed if it is empty. -/
def Legal (t : Tree) : Op → Prop
  | .create p _ | .mkdir p _ | .symlink p _ | .mknod p _ => Vacant t p
  | .unlink p => ∃ x, t p = some x ∧ x ≠ .dir
  | .rmdir p => p ≠ [] ∧ t p = some .dir ∧ ∀ n, t (p ++ [n]) = none
  | .write p _ _ | .truncate p _ => ∃ d, t p = some (.file d)
  | .chmod p _ | .chown p _ _ | .utimens p _ => t p ≠ none
  | .rename old new =>
    old ≠ new ∧ new ≠ [] ∧ (∃ x, t old = some x ∧ x ≠ .dir) ∧ t new ≠ some .dir ∧ t new.dropLast = some .dir

/-- One path changed. -/
def Tree.at (t : Tree) (p : Path) (x : Option Shown) : Tree := fun q => if p = q then x else t q

/-- The file system after a call. -/
def Tree.step (t : Tree) : Op → Tree
  | .create p _ => t.at p (some (.file []))
  | .mkdir p _ => t.at p (some .dir)
  | .symlink p target => t.at p (some (.link target))
  | .mknod p _ => t.at p (some .special)
  | .unlink p | .rmdir p => t.at p none
  | .write p offset data =>
    match t p with
    | some (.file d) => t.at p (some (.file (pwrite d offset data)))
    | _ => t
  | .truncate p n =>
    match t p with
    | some (.file d) => t.at p (some (.file (resize d n)))
    | _ => t
  | .chmod _ _ | .chown _ _ _ | .utimens _ _ => t
  | .rename old new => (t.at new (t old)).at old none

/-! ## the mount -/

def Inode.shown (i : Inode) : Shown :=
  match i.kind with
  | .dir => .dir
  | .file => .file i.data
  | .link => .link i.target
  | .special => .special

/-- What the mount shows. -/
def shown (c : Cfg) (s : St) : Tree := fun p => (view c s p).map Inode.shown

/-- Opening a file for writing, writing once, and closing it: `FuseMount.open` only reads, the first write opens the
file in the overlay (FuseMount.py:775-790, 858-877). -/
def writeFile (c : Cfg) (s : St) (p : Path) (offset : Nat) (data : Bytes) : St × Except PyErr Unit :=
  match openOverlay c s p true with
  | (s1, .error e) => (s1, .error e)
  | (s1, .ok n) => (writeInode s1 n data offset, .ok ())

/-- `FuseMount.create` and closing the handle (FuseMount.py:842-846). -/
def createFile (c : Cfg) (s : St) (p : Path) (mode : Nat) : St × Except PyErr Unit :=
  match create c s p mode with
  | (s1, .error e) => (s1, .error e)
  | (s1, .ok _) => (s1, .ok ())

/-- One operation on the mount (WriteOverlay.py:324-461, FuseMount.py:842-856). -/
def step (c : Cfg) (s : St) : Op → St × Except PyErr Unit
  | .create p mode => createFile c s p mode
  | .mkdir p mode => mkdir c s p mode
  | .unlink p => unlink c s p
  | .rmdir p => rmdir c s p
  | .write p offset data => writeFile c s p offset data
  | .truncate p n => truncate c s p n
  | .chmod p mode => chmod c s p mode
  | .chown p uid gid => chown c s p uid gid
  | .utimens p mtime => utimens c s p mtime
  | .symlink p target => symlink c s p target
  | .mknod p mode => mknod c s p mode
  | .rename old new => rename c s old new

/-- What holds between operations. -/
structure Inv (c : Cfg) (s : St) : Prop where
  wf : s.host.WF
  hidden : ∀ p, isDeleted s p = true → s.host.node p = none
  closed : Closed (shown c s)

/-! ## lemmas -/

variable {c : Cfg} {s : St}

theorem shown_dir_iff (i : Inode) : i.shown = .dir ↔ i.kind = .dir := by
  unfold Inode.shown; cases i.kind <;> simp

theorem shown_file (i : Inode) (d : Bytes) (h : i.shown = .file d) : i.kind = .file ∧ i.data = d := by
  unfold Inode.shown at h; cases hk : i.kind <;> simp [hk] at h
  exact ⟨rfl, h⟩

theorem isDeleted_host (hI : Inv c s) {p : Path} {i : Inode} (h : s.host.node p = some i) : isDeleted s p = false := by
  cases hd : isDeleted s p with
  | false => rfl
  | true => rw [hI.hidden p hd] at h; simp at h

/-- What is in the overlay folder is shown. -/
theorem shown_host (hI : Inv c s) {p : Path} {i : Inode} (h : s.host.node p = some i) :
    shown c s p = some i.shown := by
  unfold shown view ms
  rw [isDeleted_host hI h, h]; rfl

theorem shown_host_none {p : Path} (h : s.host.node p = none) :
    shown c s p = if isDeleted s p then none else (Dict.get? c.lower p).map Inode.shown := by
  unfold shown view ms
  rw [h]; split <;> rfl

/-- Nothing shown means that nothing is in the overlay folder. -/
theorem host_none (hI : Inv c s) {p : Path} (h : shown c s p = none) : s.host.node p = none := by
  cases hn : s.host.node p with
  | none => rfl
  | some i => rw [shown_host hI hn] at h; simp at h

theorem shown_some {p : Path} {x : Shown} (h : shown c s p = some x) :
    isDeleted s p = false ∧ ∃ i, ms c s p = some i ∧ i.shown = x := by
  unfold shown view at h
  cases hd : isDeleted s p with
  | true => rw [hd] at h; simp at h
  | false =>
    rw [hd] at h
    simp only [Bool.false_eq_true, if_false, Option.map_eq_some_iff] at h
    exact ⟨rfl, h⟩

theorem msExists_of_shown {p : Path} {x : Shown} (h : shown c s p = some x) : msExists c s p = true := by
  obtain ⟨-, i, hi, -⟩ := shown_some h
  unfold msExists; rw [hi]; rfl

theorem msIsDir_of_shown {p : Path} (h : shown c s p = some .dir) : msIsDir c s p = true := by
  obtain ⟨-, i, hi, hk⟩ := shown_some h
  unfold msIsDir; rw [hi]; simpa using (shown_dir_iff i).mp hk

theorem prefix_dir (hc : Closed (shown c s)) {p q : Path} (hd : shown c s p = some .dir) (hq : q <+: p) :
    shown c s q = some .dir := by
  obtain ⟨t, ht⟩ := hq
  generalize hlen : t.length = len
  induction len generalizing t p with
  | zero =>
    have : t = [] := by cases t with | nil => rfl | cons x xs => simp at hlen
    subst this; simp at ht; rw [ht]; exact hd
  | succ k ih =>
    have hne : t ≠ [] := by rintro rfl; simp at hlen
    obtain ⟨n, htn⟩ := split_path t hne
    rw [htn, ← List.append_assoc] at ht
    have hp : shown c s (q ++ t.dropLast) = some .dir := by
      apply hc _ n; rw [ht, hd]; simp
    exact ih hp t.dropLast rfl (by simp [hlen])

/-- Two states that show the same where only host nodes and rows differ. -/
theorem shown_congr {s' : St} {p : Path} (hn : s'.host.node p = s.host.node p) (hr : isDeleted s' p = isDeleted s p) :
    shown c s' p = shown c s p := by
  unfold shown view ms; rw [hn, hr]

theorem isDeleted_rows {s' : St} {p : Path} (h : Dict.get? s'.rows p = Dict.get? s.rows p) :
    isDeleted s' p = isDeleted s p := by
  unfold isDeleted; rw [h]

theorem closed_at {t : Tree} (h : Closed t) (p : Path) (x : Shown) (hd : t p.dropLast = some .dir)
    (ho : t p ≠ some .dir) : Closed (t.at p (some x)) := by
  intro q n hn
  unfold Tree.at at hn ⊢
  have key : t q = some .dir → (if p = q then some x else t q) = some .dir := by
    intro hq
    by_cases hpq : p = q
    · subst hpq; exact absurd hq ho
    · rw [if_neg hpq]; exact hq
  by_cases hq : p = q ++ [n]
  · have : p.dropLast = q := by rw [hq]; simp
    rw [this] at hd; exact key hd
  · rw [if_neg hq] at hn; exact key (h q n hn)

theorem closed_remove {t : Tree} (h : Closed t) (p : Path) (hc : ∀ n, t (p ++ [n]) = none) : Closed (t.at p none) := by
  intro q n hn
  unfold Tree.at at hn ⊢
  by_cases hq : p = q ++ [n]
  · rw [if_pos hq] at hn; simp at hn
  · rw [if_neg hq] at hn
    rw [if_neg (by rintro rfl; exact hn (hc n))]
    exact h q n hn

theorem no_children {t : Tree} (h : Closed t) {p : Path} (hp : t p ≠ some .dir) (n : Str) : t (p ++ [n]) = none := by
  cases hn : t (p ++ [n]) with
  | none => rfl
  | some x => exact absurd (h p n (by rw [hn]; simp)) hp

theorem root_shown (hI : Inv c s) : shown c s [] = some .dir := by
  obtain ⟨i, hi, hk⟩ := (isdir_iff _ _).mp hI.wf.root
  rw [shown_host hI hi, (shown_dir_iff i).mpr hk]

/-- What `_ensure_parent_exists` does if the parent is shown as a folder. -/
structure Prepared (c : Cfg) (s s1 : St) (p : Path) : Prop where
  inv : Inv c s1
  same : shown c s1 = shown c s
  rows : s1.rows = s.rows
  parent : s1.host.isdir p.dropLast = true
  here : s1.host.node p = s.host.node p
  keep : ∀ q i, s.host.node q = some i → s1.host.node q = some i
  added : ∀ q, shown c s q ≠ some .dir → s1.host.node q = s.host.node q

theorem ensureParent_ok (hI : Inv c s) {p : Path} (hp : p ≠ []) (hd : shown c s p.dropLast = some .dir) :
    ∃ s1, ensureParent c s p = .ok s1 ∧ Prepared c s s1 p := by
  unfold ensureParent
  cases hl : s.host.node p.dropLast with
  | some i =>
    rw [lexists_true _ _ i hl]
    refine ⟨s, rfl, hI, rfl, rfl, ?_, rfl, fun _ _ h => h, fun _ _ => rfl⟩
    have := shown_host hI hl
    rw [hd] at this
    exact (isdir_iff _ _).mpr ⟨i, hl, (shown_dir_iff i).mp (by simpa using this.symm)⟩
  | none =>
    rw [lexists_false _ _ hl, msIsDir_of_shown hd]
    simp only [Bool.not_false, Bool.and_true, if_true]
    obtain ⟨h', hok, wf', hd', hadd⟩ := makedirs_ok s.host hI.wf (c.newAttrs 0o777) p.dropLast (by
      intro q hq i hi
      have h1 := prefix_dir hI.closed hd hq
      rw [shown_host hI hi] at h1
      exact (shown_dir_iff i).mp (by simpa using h1))
    have hsame : ∀ q, shown c { s with host := h' } q = shown c s q := by
      intro q
      rcases hadd q with h1 | ⟨h1, h2, i, h3, h4⟩
      · exact shown_congr h1 rfl
      · have hsd := prefix_dir hI.closed hd h2
        rw [hsd]
        have hnd : isDeleted s q = false := (shown_some hsd).1
        unfold shown view ms
        have : isDeleted { s with host := h' } q = isDeleted s q := rfl
        rw [this, hnd]
        simp only [Bool.false_eq_true, if_false, h3, Option.some_or, Option.map_some]
        rw [(shown_dir_iff i).mpr h4]
    have hsame' : shown c { s with host := h' } = shown c s := funext hsame
    refine ⟨{ s with host := h' }, by rw [hok]; rfl, ⟨wf', ?_, by rw [hsame']; exact hI.closed⟩, hsame', rfl, hd', ?_, ?_, ?_⟩
    · intro q hq
      have hq' : isDeleted s q = true := hq
      rcases hadd q with h1 | ⟨_, h2, _⟩
      · simp only; rw [h1]; exact hI.hidden q hq'
      · have := (shown_some (prefix_dir hI.closed hd h2)).1
        rw [hq'] at this; simp at this
    · rcases hadd p with h1 | ⟨_, h2, _⟩
      · exact h1
      · have := h2.length_le
        have hl : p.length ≠ 0 := fun h => hp (List.length_eq_zero_iff.mp h)
        rw [List.length_dropLast] at this
        omega
    · intro q i hi
      rcases hadd q with h1 | ⟨h1, _⟩
      · simp only; rw [h1]; exact hi
      · rw [hi] at h1; simp at h1
    · intro q hq
      rcases hadd q with h1 | ⟨_, h2, _⟩
      · exact h1
      · exact absurd (prefix_dir hI.closed hd h2) hq

theorem isDeleted_unhide (rows : Dict Path Row) (p : Path) (mode : Nat) (h : Host) (q : Path) :
    isDeleted ⟨h, unhide rows p mode⟩ q = if p = q then false else isDeleted ⟨h, rows⟩ q := by
  unfold isDeleted unhide
  by_cases hq : p = q
  · subst hq
    cases hr : Dict.get? rows p <;> simp [Dict.get?_set]
  · cases hr : Dict.get? rows p <;> simp [Dict.get?_set, hq]

/-- A new node in the overlay folder that is not hidden any more. -/
theorem inserted (hI : Inv c s) {p : Path} (hn : s.host.node p = none) (hnd : shown c s p ≠ some .dir)
    (hpd : shown c s p.dropLast = some .dir) (i : Inode) (hd : s.host.isdir p.dropLast = true)
    (rows : Dict Path Row) (hr : ∀ q, isDeleted ⟨s.host, rows⟩ q = if p = q then false else isDeleted s q) :
    Inv c ⟨s.host.insert p i, rows⟩ ∧ shown c ⟨s.host.insert p i, rows⟩ = (shown c s).at p (some i.shown) := by
  have hdel : ∀ q, isDeleted ⟨s.host.insert p i, rows⟩ q = if p = q then false else isDeleted s q := hr
  have hnode : ∀ q, (s.host.insert p i).node q = if p = q then some i else s.host.node q := node_insert _ hI.wf p i
  have hsh : shown c ⟨s.host.insert p i, rows⟩ = (shown c s).at p (some i.shown) := by
    funext q
    unfold Tree.at
    by_cases hq : p = q
    · subst hq
      rw [if_pos rfl]
      unfold shown view ms
      rw [hdel, if_pos rfl]
      simp [hnode]
    · rw [if_neg hq]
      exact shown_congr (by simp only; rw [hnode, if_neg hq]) (by rw [hdel, if_neg hq])
  refine ⟨⟨wf_insert _ hI.wf p i hn hd, ?_, ?_⟩, hsh⟩
  · intro q hq
    rw [hdel] at hq
    split at hq
    · simp at hq
    · next hne => simp only; rw [hnode, if_neg hne]; exact hI.hidden q hq
  · rw [hsh]
    exact closed_at hI.closed p _ hpd hnd

/-- A node of the overlay folder gets other content. -/
theorem replaced (hI : Inv c s) {p : Path} {n : Nat} (hp : Dict.get? s.host.entries p = some n) (i : Inode)
    (hk : i.kind = (s.host.inode n).kind) (rows : Dict Path Row)
    (hr : ∀ q, isDeleted ⟨s.host, rows⟩ q = isDeleted s q) :
    Inv c ⟨s.host.setInode n i, rows⟩ ∧ shown c ⟨s.host.setInode n i, rows⟩ = (shown c s).at p (some i.shown) := by
  have hnp : s.host.node p = some (s.host.inode n) := by unfold Host.node; rw [hp]; rfl
  have hnode := node_setInode s.host hI.wf p n i hp
  have hdel : ∀ q, isDeleted ⟨s.host.setInode n i, rows⟩ q = isDeleted s q := hr
  have hsh : shown c ⟨s.host.setInode n i, rows⟩ = (shown c s).at p (some i.shown) := by
    funext q
    unfold Tree.at
    by_cases hq : p = q
    · subst hq
      rw [if_pos rfl]
      unfold shown view ms
      rw [hdel, isDeleted_host hI hnp]
      simp [hnode]
    · rw [if_neg hq]
      exact shown_congr (by simp only; rw [hnode, if_neg hq]) (hdel q)
  refine ⟨⟨wf_setInode _ hI.wf p n i hp hk, ?_, ?_⟩, hsh⟩
  · intro q hq
    rw [hdel] at hq
    simp only
    rw [hnode]
    by_cases hpq : p = q
    · subst hpq; rw [isDeleted_host hI hnp] at hq; simp at hq
    · rw [if_neg hpq]; exact hI.hidden q hq
  · rw [hsh]
    intro q m hm
    unfold Tree.at at hm ⊢
    have h1 : shown c s (q ++ [m]) ≠ none := by
      by_cases hq : p = q ++ [m]
      · rw [← hq, shown_host hI hnp]; simp
      · rw [if_neg hq] at hm; exact hm
    have h2 := hI.closed q m h1
    by_cases hq : p = q
    · subst hq
      rw [if_pos rfl]
      rw [shown_host hI hnp] at h2
      rw [(shown_dir_iff i).mpr (hk.trans ((shown_dir_iff _).mp (by simpa using h2)))]
    · rw [if_neg hq]; exact h2

/-! ## operations -/

theorem create_refines (hI : Inv c s) {p : Path} {mode : Nat} (hL : Vacant (shown c s) p) :
    ∃ s', createFile c s p mode = (s', .ok ()) ∧ Inv c s' ∧ shown c s' = (shown c s).at p (some (.file [])) := by
  obtain ⟨s1, hs1, pr⟩ := ensureParent_ok hI hL.1 hL.2.2
  have hn : s1.host.node p = none := by rw [pr.here]; exact host_none hI hL.2.1
  have hL1 : Vacant (shown c s1) p := by rw [pr.same]; exact hL
  obtain ⟨h1, h2⟩ := inserted pr.inv hn (by rw [hL1.2.1]; simp) hL1.2.2 ⟨.file, [], [], c.newAttrs mode⟩ pr.parent (unhide s1.rows p mode)
    (fun q => isDeleted_unhide s1.rows p mode s1.host q)
  refine ⟨⟨s1.host.insert p ⟨.file, [], [], c.newAttrs mode⟩, unhide s1.rows p mode⟩, ?_, h1, ?_⟩
  · unfold createFile create openRow
    rw [hs1]
    simp only [Except.map]
    unfold Host.openTruncate
    simp only
    rw [(entry_none _ _).mpr hn]
    simp only
    rw [parentError_none _ _ pr.parent]
  · rw [h2, pr.same]; rfl

theorem mkdir_refines (hI : Inv c s) {p : Path} {mode : Nat} (hL : Vacant (shown c s) p) :
    ∃ s', mkdir c s p mode = (s', .ok ()) ∧ Inv c s' ∧ shown c s' = (shown c s).at p (some .dir) := by
  obtain ⟨s1, hs1, pr⟩ := ensureParent_ok hI hL.1 hL.2.2
  have hn : s1.host.node p = none := by rw [pr.here]; exact host_none hI hL.2.1
  have hL1 : Vacant (shown c s1) p := by rw [pr.same]; exact hL
  obtain ⟨h1, h2⟩ := inserted pr.inv hn (by rw [hL1.2.1]; simp) hL1.2.2 ⟨.dir, [], [], c.newAttrs (mode ||| 0o40000)⟩ pr.parent
    (unhide s1.rows p (mode ||| 0o40000)) (fun q => isDeleted_unhide s1.rows p (mode ||| 0o40000) s1.host q)
  refine ⟨⟨s1.host.insert p ⟨.dir, [], [], c.newAttrs (mode ||| 0o40000)⟩, unhide s1.rows p (mode ||| 0o40000)⟩, ?_, h1, ?_⟩
  · unfold mkdir openRow
    rw [hs1]
    simp only [Except.map]
    rw [create_ok _ _ _ hn pr.parent]
  · rw [h2, pr.same]; rfl

theorem symlink_refines (hI : Inv c s) {p : Path} {target : Str} (hL : Vacant (shown c s) p)
    (hd : isDeleted s p = false) (hpar : s.host.isdir p.dropLast = true) :
    ∃ s', symlink c s p target = (s', .ok ()) ∧ Inv c s' ∧ shown c s' = (shown c s).at p (some (.link target)) := by
  obtain ⟨h1, h2⟩ := inserted hI (host_none hI hL.2.1) (by rw [hL.2.1]; simp) hL.2.2 ⟨.link, [], target, c.newAttrs 0o120777⟩ hpar s.rows (by
    intro q
    by_cases hq : p = q
    · subst hq; rw [if_pos rfl]; exact hd
    · rw [if_neg hq])
  refine ⟨_, ?_, h1, h2⟩
  unfold symlink
  rw [create_ok _ _ _ (host_none hI hL.2.1) hpar]

theorem mknod_refines (hI : Inv c s) {p : Path} {mode : Nat} (hL : Vacant (shown c s) p)
    (hd : isDeleted s p = false) :
    ∃ s', mknod c s p mode = (s', .ok ()) ∧ Inv c s' ∧ shown c s' = (shown c s).at p (some .special) := by
  obtain ⟨s1, hs1, pr⟩ := ensureParent_ok hI hL.1 hL.2.2
  have hn : s1.host.node p = none := by rw [pr.here]; exact host_none hI hL.2.1
  have hL1 : Vacant (shown c s1) p := by rw [pr.same]; exact hL
  obtain ⟨h1, h2⟩ := inserted pr.inv hn (by rw [hL1.2.1]; simp) hL1.2.2 ⟨.special, [], [], c.newAttrs mode⟩ pr.parent s1.rows (by
    intro q
    by_cases hq : p = q
    · subst hq; rw [if_pos rfl, ← hd]; exact isDeleted_rows (by simp only; rw [pr.rows])
    · rw [if_neg hq])
  refine ⟨_, ?_, h1, by rw [h2, pr.same]; rfl⟩
  unfold mknod
  rw [hs1]
  simp only
  rw [create_ok _ _ _ hn pr.parent]

/-- After the node of `p` is gone from the overlay folder, `_mark_as_deleted` hides what is below. -/
theorem marked (hI : Inv c s) {p : Path} (hc : ∀ n, shown c s (p ++ [n]) = none)
    (h' : Host) (wf' : h'.WF) (hn : ∀ q, h'.node q = if p = q then none else s.host.node q) :
    Inv c (markDeleted c { s with host := h' } p) ∧
      shown c (markDeleted c { s with host := h' } p) = (shown c s).at p none := by
  have hhost : (markDeleted c { s with host := h' } p).host = h' := by
    unfold markDeleted; split <;> rfl
  have hdel : ∀ q, p ≠ q → isDeleted (markDeleted c { s with host := h' } p) q = isDeleted s q := by
    intro q hq
    unfold markDeleted
    split
    · unfold isDeleted; simp only [Dict.get?_set, if_neg hq]
    · unfold isDeleted; simp only [get?_without, if_neg hq]
  have hgone : shown c (markDeleted c { s with host := h' } p) p = none := by
    unfold shown view
    unfold markDeleted
    by_cases he : msExists c { s with host := h' } p = true
    · rw [if_pos he]
      have : isDeleted { host := h', rows := Dict.set s.rows p ⟨none, none, none, none, true⟩ } p = true := by
        unfold isDeleted; simp [Dict.get?_set]
      simp only [this, if_true, Option.map_none]
    · rw [if_neg he]
      have hms : ms c { host := h', rows := without s.rows p } p = none := by
        unfold msExists at he
        cases hm : ms c { s with host := h' } p with
        | none => exact hm
        | some i => rw [hm] at he; simp at he
      simp only [hms]
      split <;> rfl
  have hsh : shown c (markDeleted c { s with host := h' } p) = (shown c s).at p none := by
    funext q
    unfold Tree.at
    by_cases hq : p = q
    · subst hq; rw [if_pos rfl]; exact hgone
    · rw [if_neg hq]
      exact shown_congr (by rw [hhost, hn, if_neg hq]) (hdel q hq)
  refine ⟨⟨by rw [hhost]; exact wf', ?_, by rw [hsh]; exact closed_remove hI.closed p hc⟩, hsh⟩
  intro q hq
  rw [hhost, hn]
  by_cases hpq : p = q
  · rw [if_pos hpq]
  · rw [if_neg hpq]; rw [hdel q hpq] at hq; exact hI.hidden q hq

theorem unlink_refines (hI : Inv c s) {p : Path} (hL : ∃ x, shown c s p = some x ∧ x ≠ .dir) :
    ∃ s', unlink c s p = (s', .ok ()) ∧ Inv c s' ∧ shown c s' = (shown c s).at p none := by
  obtain ⟨x, hx, hxd⟩ := hL
  have hp : p ≠ [] := by
    rintro rfl
    rw [root_shown hI] at hx
    exact hxd (by simpa using hx.symm)
  have hc := no_children hI.closed (p := p) (by rw [hx]; simpa using hxd)
  have hcond : ¬ ((!msExists c s p || isDeleted s p) = true) := by
    rw [msExists_of_shown hx, (shown_some hx).1]; simp
  unfold unlink
  rw [if_neg hcond]
  cases hn : s.host.node p with
  | some i =>
    have hk : i.kind ≠ .dir := by
      intro hk
      rw [shown_host hI hn, (shown_dir_iff i).mpr hk] at hx
      exact hxd (by simpa using hx.symm)
    have hu : s.host.unlink p = .ok { s.host with entries := without s.host.entries p } := by
      unfold Host.unlink; rw [hn]; simp [hk]
    rw [if_pos (lexists_true _ _ i hn), hu]
    simp only
    obtain ⟨h1, h2⟩ := marked hI hc { s.host with entries := without s.host.entries p }
      (wf_remove _ hI.wf p hp (fun n => host_none hI (hc n))) (node_remove s.host p)
    exact ⟨_, rfl, h1, h2⟩
  | none =>
    rw [if_neg (by rw [lexists_false _ _ hn]; simp)]
    obtain ⟨h1, h2⟩ := marked hI hc s.host hI.wf (by
      intro q
      by_cases hq : p = q
      · subst hq; rw [if_pos rfl]; exact hn
      · rw [if_neg hq])
    exact ⟨_, rfl, h1, h2⟩

theorem nameIn_eq {p k : Path} {n : Str} (h : nameIn p k = some n) : k = p ++ [n] := by
  unfold nameIn at h
  split at h
  · next hc =>
    obtain ⟨x, hx⟩ := split_path k hc.1
    rw [hc.2] at hx
    rw [hx] at h
    simp at h
    rw [hx, h]
  · simp at h

theorem mem_listDeleted (s : St) (p : Path) (n : Str) (hn : n ∉ databaseNames) :
    n ∈ listDeleted s p ↔ isDeleted s (p ++ [n]) = true := by
  unfold listDeleted
  rw [List.mem_append, List.mem_filterMap]
  constructor
  · rintro (⟨k, hk, hkn⟩ | h)
    · rw [← nameIn_eq hkn]; exact (List.mem_filter.mp hk).2
    · exact absurd h hn
  · intro h
    left
    refine ⟨p ++ [n], List.mem_filter.mpr ⟨?_, h⟩, by simp [nameIn]⟩
    rw [Dict.mem_keys_iff]
    unfold isDeleted at h
    cases hr : Dict.get? s.rows (p ++ [n]) with
    | none => rw [hr] at h; simp at h
    | some r => rfl

theorem mem_listDeleted_of (s : St) (p : Path) (n : Str) (h : isDeleted s (p ++ [n]) = true) : n ∈ listDeleted s p := by
  by_cases hn : n ∈ databaseNames
  · exact List.mem_append_right _ hn
  · exact (mem_listDeleted s p n hn).mpr h

theorem mem_lowerList (p : Path) (n : Str) (h : n ∈ (lowerList c p).getD []) : Dict.get? c.lower (p ++ [n]) ≠ none := by
  unfold lowerList at h
  split at h
  · split at h
    · simp only [Option.getD_some] at h
      obtain ⟨k, hk, hkn⟩ := List.mem_filterMap.mp h
      rw [nameIn_eq hkn] at hk
      rw [Dict.mem_keys_iff] at hk
      intro hnone; rw [hnone] at hk; simp at hk
    · simp at h
  · simp at h

/-- The names `list_mode` gives. -/
theorem mem_msList (s : St) (p : Path) (n : Str) (h : n ∈ (msList c s p).getD []) : ms c s (p ++ [n]) ≠ none := by
  have hbelow : n ∈ (lowerList c p).getD [] → ms c s (p ++ [n]) ≠ none := by
    intro hn
    have := mem_lowerList p n hn
    unfold ms
    cases hq : Dict.get? c.lower (p ++ [n]) with
    | none => exact absurd hq this
    | some i => cases s.host.node (p ++ [n]) <;> simp
  unfold msList at h
  split at h
  · simp only [Option.getD_some] at h
    rcases List.mem_append.mp h with h | h
    · exact hbelow h
    · rw [mem_children] at h
      unfold ms
      cases hq : s.host.node (p ++ [n]) with
      | none => exact absurd hq h
      | some i => simp
  · exact hbelow h

theorem rmdir_refines (hI : Inv c s) {p : Path}
    (hL : p ≠ [] ∧ shown c s p = some .dir ∧ ∀ n, shown c s (p ++ [n]) = none) :
    ∃ s', rmdir c s p = (s', .ok ()) ∧ Inv c s' ∧ shown c s' = (shown c s).at p none := by
  obtain ⟨hp, hx, hc⟩ := hL
  have hcond : ¬ ((!msExists c s p || isDeleted s p) = true) := by
    rw [msExists_of_shown hx, (shown_some hx).1]; simp
  have hempty : ¬ (((msList c s p).getD []).any (fun n => !(listDeleted s p).contains n) = true) := by
    rw [List.any_eq_true]
    rintro ⟨n, hn, hnd⟩
    have hms := mem_msList s p n hn
    have hd : isDeleted s (p ++ [n]) = true := by
      have h0 := hc n
      unfold shown view at h0
      cases hd : isDeleted s (p ++ [n]) with
      | true => rfl
      | false => rw [hd] at h0; simp at h0; exact absurd h0 hms
    have := mem_listDeleted_of s p n hd
    simp only [Bool.not_eq_true', List.contains_eq_mem, decide_eq_false_iff_not] at hnd
    exact hnd this
  unfold rmdir
  rw [if_neg hcond, if_neg hempty]
  cases hn : s.host.node p with
  | some i =>
    have hk : i.kind = .dir := by
      rw [shown_host hI hn] at hx
      exact (shown_dir_iff i).mp (by simpa using hx)
    have hch : s.host.children p = [] := by
      rw [List.eq_nil_iff_forall_not_mem]
      intro n hm
      rw [mem_children] at hm
      exact hm (host_none hI (hc n))
    have hu : s.host.rmdir p = .ok { s.host with entries := without s.host.entries p } := by
      unfold Host.rmdir; rw [hn]; simp [hk, hch]
    rw [if_pos (lexists_true _ _ i hn), hu]
    simp only
    obtain ⟨h1, h2⟩ := marked hI hc { s.host with entries := without s.host.entries p }
      (wf_remove _ hI.wf p hp (fun n => host_none hI (hc n))) (node_remove s.host p)
    exact ⟨_, rfl, h1, h2⟩
  | none =>
    rw [if_neg (by rw [lexists_false _ _ hn]; simp)]
    obtain ⟨h1, h2⟩ := marked hI hc s.host hI.wf (by
      intro q
      by_cases hq : p = q
      · subst hq; rw [if_pos rfl]; exact hn
      · rw [if_neg hq])
    exact ⟨_, rfl, h1, h2⟩

/-- Changing a row without its deletion mark, or making one that is not marked, shows the same files. -/
theorem setMetadata_refines (hI : Inv c s) {p : Path} (m : Change) (real : Meta → Meta) (hm : m.isEmpty = false)
    (hx : shown c s p ≠ none) :
    ∃ s', setMetadata c s p m real = (s', .ok ()) ∧ Inv c s' ∧ shown c s' = shown c s := by
  cases hx' : shown c s p with
  | none => exact absurd hx' hx
  | some x =>
  obtain ⟨hnd, i, hi, -⟩ := shown_some hx'
  -- the row
  have hrow : ∃ s1 r, haveRow c s p = .ok s1 ∧ s1.host = s.host ∧ Dict.get? s1.rows p = some r ∧ r.deleted = false ∧
      ∀ q, p ≠ q → Dict.get? s1.rows q = Dict.get? s.rows q := by
    unfold haveRow
    cases hr : Dict.get? s.rows p with
    | some r =>
      refine ⟨s, r, rfl, rfl, hr, ?_, fun _ _ => rfl⟩
      unfold isDeleted at hnd; rw [hr] at hnd; exact hnd
    | none =>
      unfold initRow
      rw [hi]
      refine ⟨_, _, rfl, rfl, by simp only [Dict.get?_set, if_pos]; rfl, rfl, ?_⟩
      intro q hq
      simp only [Dict.get?_set, if_neg hq]
  obtain ⟨s1, r, h1, h2, h3, h4, h5⟩ := hrow
  unfold setMetadata
  rw [h1]
  simp only [hm, Bool.false_eq_true, if_false, h3, h2]
  have hdel : ∀ q, isDeleted ⟨s.host, Dict.set s1.rows p (r.apply m)⟩ q = isDeleted s q := by
    intro q
    unfold isDeleted
    simp only [Dict.get?_set]
    by_cases hq : p = q
    · subst hq
      rw [if_pos rfl]
      simp only [Row.apply, h4]
      unfold isDeleted at hnd
      exact hnd.symm
    · rw [if_neg hq, h5 q hq]
  cases hg : Dict.get? s.host.entries p with
  | some n =>
    obtain ⟨g1, g2⟩ := replaced hI hg { s.host.inode n with attrs := real (s.host.inode n).attrs } rfl
      (Dict.set s1.rows p (r.apply m)) hdel
    refine ⟨_, rfl, g1, ?_⟩
    have hnp : s.host.node p = some (s.host.inode n) := by unfold Host.node; rw [hg]; rfl
    rw [g2]
    funext q
    unfold Tree.at
    by_cases hq : p = q
    · subst hq; rw [if_pos rfl, shown_host hI hnp]; rfl
    · rw [if_neg hq]
  | none =>
    have hsh : shown c ⟨s.host, Dict.set s1.rows p (r.apply m)⟩ = shown c s := by
      funext q
      exact shown_congr rfl (hdel q)
    refine ⟨_, rfl, ⟨hI.wf, ?_, by rw [hsh]; exact hI.closed⟩, hsh⟩
    intro q hq
    rw [hdel] at hq
    exact hI.hidden q hq

end Verif.Overlay
