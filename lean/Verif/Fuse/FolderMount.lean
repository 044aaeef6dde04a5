import Verif.Formats.Folder
import Verif.Fuse.LibMount

/-!
# C212: a mounted folder of the host
(core/ratarmountcore/mountsource/formats/folder.py, core/ratarmountcore/mountsource/compositing/versioning.py, ratarmount/FuseMount.py)

The host file system is a tree of files, folders and symbolic links, in which paths are resolved as Linux does (path_resolution(7)). It can
change at any time between two calls. The mount source (`Verif.Formats.Folder`) answers each call with system calls on it, and
`FileVersionLayer` and `FuseMount` are above it, as for the archives (`Verif.Fuse.TarMount`).

Simplified: permissions do not matter, an open file can be read until it is closed, opening a file that is neither a regular file nor a
folder fails, and within one call the host does not change. The kernel caches nothing. Absolute paths do not lead through the mount itself.
-/

namespace Verif.Fuse.FolderMount

open Verif.Py Verif.Index
open Verif.Tar (Bytes)
open Verif.Compose (Source dotVersions)
open Verif.Fuse.TarMount (mp mlookup mreaddir mgetattr mreadlink)

/-! ## the host -/

/-- The names from the root of the host to a file. -/
abbrev Path := List Str

/-- What there is at a path; the contents of regular files belong to their inodes. -/
inductive Node where
  | file (ino : Nat)
  | folder
  | link (target : Str)
  | special
  deriving DecidableEq, Repr

/-- The host: what is at each path, what `lstat` tells about it, the names in a folder, and the contents of inodes. -/
structure FS where
  node : Path → Option Node
  stat : Path → Folder.Stat
  entries : Path → List Str
  data : Nat → Bytes

/-- The file type in `st_mode` (inode(7)). -/
def typeOf : Node → Nat → Prop
  | .file _, m => m &&& 0xF000 = 0x8000
  | .folder, m => m &&& 0xF000 = 0x4000
  | .link _, m => m &&& 0xF000 = 0xA000
  | .special, m => m &&& 0xF000 ≠ 0x8000 ∧ m &&& 0xF000 ≠ 0x4000 ∧ m &&& 0xF000 ≠ 0xA000

/-- A tree: everything is in a folder and has a name. -/
structure Tree (fs : FS) : Prop where
  root : fs.node [] = some .folder
  parent : ∀ p n, fs.node (p ++ [n]) ≠ none → fs.node p = some .folder ∧ IsName n
  entry : ∀ p n, fs.node p = some .folder → (n ∈ fs.entries p ↔ fs.node (p ++ [n]) ≠ none)
  mode : ∀ p k, fs.node p = some k → typeOf k (fs.stat p).mode

/-- Following components from a folder (path_resolution(7)); `jump` continues after a symbolic link. -/
def down (node : Path → Option Node) (jump : Path → List Str → Option Path) (follow : Bool) : Path → List Str → Option Path
  | pos, [] => some pos
  | pos, c :: rest =>
    if node pos ≠ some .folder then none
    else if c = [] ∨ c = ['.'] then down node jump follow pos rest
    else if c = ['.', '.'] then down node jump follow pos.dropLast rest
    else
      match node (pos ++ [c]) with
      | none => none
      | some (.link t) =>
        if rest = [] ∧ follow = false then some (pos ++ [c])
        else jump (if t.head? = some '/' then [] else pos) (split '/' t ++ rest)
      | some _ => down node jump follow (pos ++ [c]) rest

/-- Path resolution with at most this number of symbolic links (path_resolution(7)). -/
def walk (node : Path → Option Node) (follow : Bool) : Nat → Path → List Str → Option Path
  | 0 => down node (fun _ _ => none) follow
  | k + 1 => down node (walk node follow k) follow

/-- The largest number of symbolic links (path_resolution(7)). -/
def maxLinks : Nat := 40

/-! ## the mount source -/

/-- The components that are joined with the root (folder.py:66-68). -/
def parts (path : Str) : List Str := split '/' (rstrip '/' (lstrip '/' path))

/-- `os.lstat(_realpath(path))` and the other calls (folder.py:98-152); `R` is the folder that is mounted, where `root` leads. -/
def host (fs : FS) (R : Path) : Folder.Host where
  lstat path := (walk fs.node false maxLinks R (parts path)).map fs.stat
  readlink path :=
    match walk fs.node false maxLinks R (parts path) with
    | none => none
    | some p =>
      match fs.node p with
      | some (.link t) => some t
      | _ => none
  resolve path := (walk fs.node true maxLinks R (parts path)).map (fun p => (canonical p, fs.stat p))
  scandir path :=
    match walk fs.node true maxLinks R (parts path) with
    | none => none
    | some p => if fs.node p = some .folder then some ((fs.entries p).map (fun n => (n, fs.stat (p ++ [n])))) else none

/-- `FileInfo` (folder.py:70-82): of the columns that are only copied, the size. -/
def toInfo (x : Folder.Info) : Compose.FileInfo := ⟨x.stat.mode, x.linkname, x.stat.size, [.str x.path]⟩

/-- `make_mode` (folder.py:154-158). -/
def makeMode (st : Folder.Stat) : Nat :=
  if st.mode &&& 0xF000 = 0xA000 then 0xA000 else if st.mode &&& 0xF000 = 0x4000 then 0x4000 else 0x8000

/-- `FolderMountSource` (folder.py:93-164). -/
def source (fs : FS) (R : Path) : Source where
  id := 0
  immutable := false
  lookup path version := (Folder.lookup (host fs R) path version).map toInfo
  versions path := if ((host fs R).lstat path).isSome then 1 else 0
  list path := (Folder.list (host fs R) path).map (fun d => .dict (d.map (fun e => (e.1, toInfo e.2))))
  listMode path := ((host fs R).scandir path).map (fun d => .dict (d.map (fun e => (e.1, makeMode e.2))))

/-- `get_file_path` and `open` (folder.py:166-173, 194-198): the inode of the file. -/
def openPath (fs : FS) (R : Path) (path : Str) : Option Nat :=
  match walk fs.node true maxLinks (if Folder.isabs path then [] else R) (if Folder.isabs path then split '/' path else parts path) with
  | none => none
  | some p =>
    match fs.node p with
    | some (.file ino) => some ino
    | _ => none

/-! ## the mount -/

/-- `FileVersionLayer.open` (versioning.py:232-243) above it. -/
def openInfo (fs : FS) (R : Path) (i : Compose.FileInfo) : Option Nat :=
  match i.userdata with
  | .file :: .str path :: _ => openPath fs R path
  | _ => none

/-- The host, `openedFiles` with closed files as `none`, and `lastFileHandle` (FuseMount.py:648-833). -/
structure Mount where
  fs : FS
  opened : Dict Nat (Option Nat)
  last : Nat

/-- `open` (FuseMount.py:776-791). -/
def mopen (R : Path) (m : Mount) (path : Str) : Mount × Except PyErr Nat :=
  match mlookup (source m.fs R) path with
  | .error e => (m, .error e)
  | .ok i =>
    match openInfo m.fs R i with
    | none => (m, .error (.os 5))
    | some ino => (⟨m.fs, m.opened.set (m.last + 1) (some ino), m.last + 1⟩, .ok (m.last + 1))

/-- `read` (FuseMount.py:808-817) of a file opened without buffer (788): `lseek` and `read`. -/
def mread (m : Mount) (fh size offset : Nat) : Except PyErr Bytes :=
  match m.opened.get? fh with
  | none => .error .unsupported
  | some none => .error .valueError
  | some (some ino) => .ok (((m.fs.data ino).drop offset).take size)

/-- `release` (FuseMount.py:793-806). -/
def mrelease (m : Mount) (fh : Nat) : Mount :=
  match m.opened.get? fh with
  | some (some _) => ⟨m.fs, m.opened.set fh none, m.last⟩
  | _ => m

/-- What happens: the host changes in any way, or a call of the kernel (FuseMount.py:776-833). -/
inductive Event where
  | host (fs : FS)
  | open (path : Str)
  | read (fh size offset : Nat)
  | release (fh : Nat)

/-- One event (FuseMount.py:776-833). -/
def event (R : Path) (m : Mount) : Event → Mount
  | .host fs => ⟨fs, m.opened, m.last⟩
  | .open path => (mopen R m path).1
  | .read _ _ _ => m
  | .release fh => mrelease m fh

/-- Any events (FuseMount.py:776-833). -/
def events (R : Path) (m : Mount) (es : List Event) : Mount := es.foldl (event R) m

/-- A new mount (FuseMount.py:120-246). -/
def start (fs : FS) : Mount := ⟨fs, [], 0⟩

/-- What the kernel sees at a path of the mount: the type that `getattr` gives (FuseMount.py:710-719), the target that `readlink` gives
(FuseMount.py:769-770), and the inode of the host that is read after `open` (FuseMount.py:776-791). -/
def shown (fs : FS) (R : Path) (cs : Path) : Option Node :=
  match mlookup (source fs R) (canonical cs) with
  | .error _ => none
  | .ok i =>
    if i.mode &&& 0xF000 = 0x4000 then some .folder
    else if i.mode &&& 0xF000 = 0xA000 then some (.link i.link)
    else if i.mode &&& 0xF000 = 0x8000 then
      match openInfo fs R i with
      | some ino => some (.file ino)
      | none => some .special
    else some .special

/-! ## specification -/

/-- A link that, followed textually from a folder this deep, does not leave the mounted folder. -/
def Keeps (depth : Nat) (target : Str) : Prop := target.head? ≠ some '/' ∧ Folder.leaves depth (split '/' target) = false

instance (d : Nat) (t : Str) : Decidable (Keeps d t) := by unfold Keeps; exact inferInstance

/-- Path resolution on the host that must stay within the folder `R`, and only uses links that stay there. -/
def downIn (node : Path → Option Node) (R : Path) (jump : Path → List Str → Option Path) (follow : Bool) : Path → List Str → Option Path
  | pos, [] => some pos
  | pos, c :: rest =>
    if node pos ≠ some .folder then none
    else if c = [] ∨ c = ['.'] then downIn node R jump follow pos rest
    else if c = ['.', '.'] then if pos = R then none else downIn node R jump follow pos.dropLast rest
    else
      match node (pos ++ [c]) with
      | none => none
      | some (.link t) =>
        if rest = [] ∧ follow = false then some (pos ++ [c])
        else if Keeps (pos.length - R.length) t then jump pos (split '/' t ++ rest) else none
      | some _ => downIn node R jump follow (pos ++ [c]) rest

/-- The same with a number of links. -/
def walkIn (node : Path → Option Node) (R : Path) (follow : Bool) : Nat → Path → List Str → Option Path
  | 0 => downIn node R (fun _ _ => none) follow
  | k + 1 => downIn node R (walkIn node R follow k) follow

/-- The path has only names, and leads to a place in a folder without links. -/
def Placed (fs : FS) (R cs : Path) : Prop :=
  fs.node R = some .folder ∧ (∀ n ∈ cs, IsName n) ∧ (cs = [] ∨ fs.node (R ++ cs.dropLast) = some .folder)

/-- The link at this path leads out of the mounted folder to this existing place. -/
def Outward (fs : FS) (R cs p : Path) : Prop :=
  ∃ t, fs.node (R ++ cs) = some (.link t) ∧ t.head? ≠ some '/' ∧ Folder.leaves (cs.length - 1) (split '/' t) = true ∧
    walk fs.node true 40 R cs = some p

/-- The target that `readlink` of the host gives. -/
def targetOf : Node → Str
  | .link t => t
  | _ => []

/-- The whole claim about links: where all links are relative, a path without `..` leads to the same file in the mount as in the folder. -/
def C212_statement : Prop :=
  ∀ (fs : FS) (R cs p : Path) (ino : Nat), Tree fs → fs.node R = some .folder →
    (∀ q t, fs.node q = some (.link t) → t.head? ≠ some '/') → (∀ n ∈ cs, IsName n) →
    walk fs.node true 40 R cs = some p → fs.node p = some (.file ino) →
    ∃ q, walk (shown fs R) true 40 [] cs = some q ∧ shown fs R q = some (.file ino)

/-! ## path resolution -/

theorem down_append {node : Path → Option Node} (jump : Path → List Str → Option Path) (follow : Bool) (rest : List Str) :
    ∀ (cs pos : Path), (∀ n ∈ cs, IsName n) → (∀ k, k ≤ cs.length → node (pos ++ cs.take k) = some .folder) →
    down node jump follow pos (cs ++ rest) = down node jump follow (pos ++ cs) rest := by
  intro cs
  induction cs with
  | nil => intro pos _ _; simp
  | cons c cs ih =>
    intro pos hn hf
    have h0 := hf 0 (by simp)
    have h1 := hf 1 (by simp)
    simp only [List.take_zero, List.append_nil] at h0
    simp only [List.take_succ_cons, List.take_zero] at h1
    have hc := hn c List.mem_cons_self
    rw [List.cons_append, down, if_neg (by simp [h0]), if_neg (by rintro (h | h); exact hc.1 h; exact hc.2.2.1 h), if_neg hc.2.2.2, h1]
    simp only
    rw [ih (pos ++ [c]) (fun n h => hn n (List.mem_cons_of_mem _ h)) (fun k hk => by
      have := hf (k + 1) (by simp; omega)
      simpa using this)]
    simp

theorem Tree.above {fs : FS} (h : Tree fs) : ∀ (m : Nat) (p q : Path), q.length = m → q ≠ [] → fs.node (p ++ q) ≠ none →
    fs.node p = some .folder := by
  intro m
  induction m with
  | zero => intro p q hl hq _; exact absurd (List.eq_nil_of_length_eq_zero hl) hq
  | succ m ih =>
    intro p q hl hq hne
    rcases List.eq_nil_or_concat q with rfl | ⟨q', x, rfl⟩
    · exact absurd rfl hq
    · rw [List.concat_eq_append] at hl hne
      have hp := (h.parent (p ++ q') x (by simpa using hne)).1
      by_cases e : q' = []
      · subst e; simpa using hp
      · exact ih p q' (by simpa using hl) e (by simp [hp])

theorem Tree.prefixes {fs : FS} (h : Tree fs) {cs p : Path} (hne : fs.node (p ++ cs) ≠ none) {k : Nat} (hk : k < cs.length) :
    fs.node (p ++ cs.take k) = some .folder :=
  h.above _ (p ++ cs.take k) (cs.drop k) rfl (by simp; omega) (by rw [List.append_assoc, List.take_append_drop]; exact hne)

theorem Tree.below {fs : FS} (h : Tree fs) {cs p : Path} (hf : fs.node (p ++ cs) = some .folder) (k : Nat) (hk : k ≤ cs.length) :
    fs.node (p ++ cs.take k) = some .folder := by
  by_cases e : k < cs.length
  · exact h.prefixes (by simp [hf]) e
  · rw [List.take_of_length_le (by omega)]; exact hf

/-- Without links, a path leads where it says. -/
theorem down_real {fs : FS} (h : Tree fs) (jump : Path → List Str → Option Path) (follow : Bool) {R cs : Path} (hp : Placed fs R cs) {k : Node}
    (hk : fs.node (R ++ cs) = some k) (hl : follow = true → ∀ t, k ≠ .link t) : down fs.node jump follow R cs = some (R ++ cs) := by
  obtain ⟨hR, hn, hc⟩ := hp
  rcases List.eq_nil_or_concat cs with rfl | ⟨ds, c, rfl⟩
  · simp [down]
  · rw [List.concat_eq_append] at *
    have hf : fs.node (R ++ ds) = some .folder := by
      rcases hc with hc | hc
      · simp at hc
      · simpa using hc
    have hcn := hn c (by simp)
    rw [down_append jump follow [c] ds R (fun n hm => hn n (by simp [hm])) (fun k hk => h.below hf k hk), down, if_neg (by simp [hf]),
      if_neg (by rintro (e | e); exact hcn.1 e; exact hcn.2.2.1 e), if_neg hcn.2.2.2, List.append_assoc, hk]
    cases k with
    | link t =>
      simp only
      cases follow with
      | false => simp
      | true => exact absurd rfl (hl rfl t)
    | file i => simp [down]
    | folder => simp [down]
    | special => simp [down]

theorem down_missing {fs : FS} (h : Tree fs) (jump : Path → List Str → Option Path) (follow : Bool) {R cs : Path} (hp : Placed fs R cs)
    (hk : fs.node (R ++ cs) = none) : down fs.node jump follow R cs = none := by
  obtain ⟨hR, hn, hc⟩ := hp
  rcases List.eq_nil_or_concat cs with rfl | ⟨ds, c, rfl⟩
  · simp [hR] at hk
  · rw [List.concat_eq_append] at *
    have hf : fs.node (R ++ ds) = some .folder := by
      rcases hc with hc | hc
      · simp at hc
      · simpa using hc
    have hcn := hn c (by simp)
    rw [down_append jump follow [c] ds R (fun n hm => hn n (by simp [hm])) (fun k hk => h.below hf k hk), down, if_neg (by simp [hf]),
      if_neg (by rintro (e | e); exact hcn.1 e; exact hcn.2.2.1 e), if_neg hcn.2.2.2, List.append_assoc, hk]

theorem walk_real {fs : FS} (h : Tree fs) (j : Nat) (follow : Bool) {R cs : Path} (hp : Placed fs R cs) {k : Node}
    (hk : fs.node (R ++ cs) = some k) (hl : follow = true → ∀ t, k ≠ .link t) : walk fs.node follow j R cs = some (R ++ cs) := by
  cases j with
  | zero => exact down_real h _ follow hp hk hl
  | succ j => exact down_real h _ follow hp hk hl

theorem walk_missing {fs : FS} (h : Tree fs) (j : Nat) (follow : Bool) {R cs : Path} (hp : Placed fs R cs)
    (hk : fs.node (R ++ cs) = none) : walk fs.node follow j R cs = none := by
  cases j with
  | zero => exact down_missing h _ follow hp hk
  | succ j => exact down_missing h _ follow hp hk

theorem Tree.dropLast {fs : FS} (h : Tree fs) {p : Path} (hp : fs.node p = some .folder) : fs.node p.dropLast = some .folder := by
  rcases List.eq_nil_or_concat p with rfl | ⟨q, x, rfl⟩
  · exact hp
  · rw [List.concat_eq_append] at *
    rw [List.dropLast_concat]
    exact (h.parent q x (by simp [hp])).1

/-- What is found exists, and is no link if links are followed. -/
theorem down_found {fs : FS} (h : Tree fs) {jump : Path → List Str → Option Path} {follow : Bool}
    (hj : ∀ pos cs q, fs.node pos = some .folder → jump pos cs = some q → fs.node q ≠ none ∧ (follow = true → ∀ t, fs.node q ≠ some (.link t))) :
    ∀ (cs pos q : Path), fs.node pos ≠ none → (follow = true → ∀ t, fs.node pos ≠ some (.link t)) → down fs.node jump follow pos cs = some q →
    fs.node q ≠ none ∧ (follow = true → ∀ t, fs.node q ≠ some (.link t)) := by
  intro cs
  induction cs with
  | nil =>
    intro pos q h1 h2 hd
    rw [down] at hd
    cases hd
    exact ⟨h1, h2⟩
  | cons c cs ih =>
    intro pos q h1 h2 hd
    rw [down] at hd
    split at hd
    · cases hd
    · next hf =>
      simp only [ne_eq, Decidable.not_not] at hf
      split at hd
      · exact ih pos q h1 h2 hd
      · split at hd
        · have := h.dropLast hf
          exact ih _ q (by simp [this]) (by simp [this]) hd
        · split at hd
          · cases hd
          · next t ht =>
            split at hd
            · next e =>
              cases hd
              exact ⟨by simp [ht], fun hfo => by rw [e.2] at hfo; cases hfo⟩
            · refine hj _ _ q ?_ hd
              split
              · exact h.root
              · exact hf
          · next k hnl hk =>
            exact ih _ q (by simp [hk]) (fun _ t e => by rw [hk] at e; cases e; exact hnl t rfl) hd

theorem walk_found {fs : FS} (h : Tree fs) (follow : Bool) : ∀ (j : Nat) (pos cs q : Path), fs.node pos = some .folder →
    walk fs.node follow j pos cs = some q → fs.node q ≠ none ∧ (follow = true → ∀ t, fs.node q ≠ some (.link t)) := by
  intro j
  induction j with
  | zero => intro pos cs q hp hw; exact down_found h (fun _ _ _ _ e => by cases e) cs pos q (by simp [hp]) (by simp [hp]) hw
  | succ j ih => intro pos cs q hp hw; exact down_found h ih cs pos q (by simp [hp]) (by simp [hp]) hw

theorem Tree.placed {fs : FS} (h : Tree fs) {p : Path} (hp : fs.node p ≠ none) : Placed fs [] p := by
  refine ⟨h.root, ?_, ?_⟩
  · intro n hn
    obtain ⟨a, b, rfl⟩ := List.append_of_mem hn
    by_cases e : b = []
    · subst e; exact (h.parent a n hp).2
    · have := h.above _ (a ++ [n]) b rfl e (by simpa using hp)
      exact (h.parent a n (by simp [this])).2
  · rcases List.eq_nil_or_concat p with rfl | ⟨q, x, rfl⟩
    · exact Or.inl rfl
    · rw [List.concat_eq_append] at *
      refine Or.inr ?_
      rw [List.dropLast_concat]
      exact (h.parent q x hp).1

/-! ## what the mount source finds -/

theorem parts_canonical {cs : Path} (hn : ∀ n ∈ cs, IsName n) : parts (canonical cs) = if cs = [] then [[]] else cs := by
  unfold parts
  split
  · next e => subst e; decide
  · next e =>
    rw [canonical_eq, Folder.strip_join cs e (fun p hp => ⟨(hn p hp).2.1, (hn p hp).1⟩), split_join '/' cs e (fun p hp => (hn p hp).2.1)]

theorem parts_join {cs : Path} (hn : ∀ n ∈ cs, IsName n) : parts (join '/' cs) = if cs = [] then [[]] else cs := by
  have h := parts_canonical hn
  rw [← h]
  unfold parts
  have hl := Compose.lstrip_canonical cs (fun n hm => ⟨(hn n hm).1, (hn n hm).2.1⟩)
  have hs : lstrip '/' (join '/' cs) = join '/' cs := by
    rw [← hl]
    unfold lstrip
    generalize canonical cs = s
    induction s with
    | nil => rfl
    | cons x s ih =>
      by_cases e : x = '/'
      · rw [List.dropWhile_cons_of_pos (by simpa using e)]; exact ih
      · rw [List.dropWhile_cons_of_neg (by simpa using e), List.dropWhile_cons_of_neg (by simpa using e)]
  rw [hs, hl]

/-- The root of the mount is asked for with one empty component. -/
theorem walk_parts {fs : FS} {R : Path} (hR : fs.node R = some .folder) (j : Nat) (follow : Bool) (cs : Path) :
    walk fs.node follow j R (if cs = [] then [[]] else cs) = walk fs.node follow j R cs := by
  split
  · next e =>
    subst e
    cases j <;> simp [walk, down, hR]
  · rfl

theorem host_lstat {fs : FS} {R cs : Path} (hp : Placed fs R cs) :
    (host fs R).lstat (canonical cs) = (walk fs.node false 40 R cs).map fs.stat := by
  unfold host maxLinks
  simp only
  rw [parts_canonical hp.2.1, walk_parts hp.1]

theorem host_resolve {fs : FS} {R cs : Path} (hp : Placed fs R cs) :
    (host fs R).resolve (canonical cs) = (walk fs.node true 40 R cs).map (fun p => (canonical p, fs.stat p)) := by
  unfold host maxLinks
  simp only
  rw [parts_canonical hp.2.1, walk_parts hp.1]

theorem host_readlink {fs : FS} {R cs : Path} (hp : Placed fs R cs) {p : Path} (hw : walk fs.node false 40 R cs = some p) :
    (host fs R).readlink (canonical cs) = match fs.node p with
      | some (.link t) => some t
      | _ => none := by
  unfold host maxLinks
  simp only
  rw [parts_canonical hp.2.1, walk_parts hp.1, hw]

theorem depth_canonical {cs : Path} (hn : ∀ n ∈ cs, IsName n) (hne : cs ≠ []) : Folder.depth (canonical cs) = cs.length - 1 := by
  unfold Folder.depth
  rw [canonical_eq, Folder.strip_join cs hne (fun p hp => ⟨(hn p hp).2.1, (hn p hp).1⟩), Folder.count_join cs hne (fun p hp => (hn p hp).2.1)]

/-- Something that is no outward link. -/
theorem lookup_plain {fs : FS} (h : Tree fs) {R cs : Path} (hp : Placed fs R cs) {k : Node} (hk : fs.node (R ++ cs) = some k)
    (ho : ∀ p, ¬ Outward fs R cs p) {v : Int} (hv : v = 0 ∨ v = 1) :
    (source fs R).lookup (canonical cs) v = some ⟨(fs.stat (R ++ cs)).mode, targetOf k, (fs.stat (R ++ cs)).size, [.str (join '/' cs)]⟩ := by
  have hw := walk_real h 40 false hp hk (fun e => by cases e)
  have hl := Compose.lstrip_canonical cs (fun n hm => ⟨(hp.2.1 n hm).1, (hp.2.1 n hm).2.1⟩)
  unfold source Folder.lookup
  simp only
  rw [if_neg (by omega), host_lstat hp, hw, host_readlink hp hw, hk, hl]
  cases k with
  | link t =>
    have hne : cs ≠ [] := by
      rintro rfl
      rw [List.append_nil, hp.1] at hk
      cases hk
    simp only [Option.map_some]
    split
    · next hc =>
      have hrel := (Folder.isabs_iff t).mp hc.1
      rw [host_resolve hp]
      cases hw' : walk fs.node true 40 R cs with
      | none => rfl
      | some p =>
        rw [depth_canonical hp.2.1 hne] at hc
        exact absurd ⟨t, hk, hrel, (Folder.C74_exact t _ hrel).mp hc.2, hw'⟩ (ho p)
    · rfl
  | file i => rfl
  | folder => rfl
  | special => rfl

theorem lookup_outward {fs : FS} (h : Tree fs) {R cs p : Path} (hp : Placed fs R cs) (ho : Outward fs R cs p) {v : Int} (hv : v = 0 ∨ v = 1) :
    (source fs R).lookup (canonical cs) v = some ⟨(fs.stat p).mode, [], (fs.stat p).size, [.str (canonical p)]⟩ := by
  obtain ⟨t, hk, hrel, hlv, hw'⟩ := ho
  have hw := walk_real h 40 false hp hk (fun e => by cases e)
  have hne : cs ≠ [] := by
    rintro rfl
    rw [List.append_nil, hp.1] at hk
    cases hk
  unfold source Folder.lookup
  simp only
  rw [if_neg (by omega), host_lstat hp, hw, host_readlink hp hw, hk]
  simp only [Option.map_some]
  rw [if_pos ⟨(Folder.isabs_iff t).mpr hrel, by rw [depth_canonical hp.2.1 hne]; exact (Folder.C74_exact t _ hrel).mpr hlv⟩, host_resolve hp, hw']
  rfl

theorem lookup_missing {fs : FS} (h : Tree fs) {R cs : Path} (hp : Placed fs R cs) (hk : fs.node (R ++ cs) = none) (v : Int) :
    (source fs R).lookup (canonical cs) v = none := by
  unfold source Folder.lookup
  simp only
  rw [host_lstat hp, walk_missing h 40 false hp hk]
  split <;> rfl

theorem hard_of {fs : FS} (h : Tree fs) {p : Path} {k : Node} (hk : fs.node p = some k) (rest : Nat) (u : List Compose.Tag) :
    Compose.isHardLink ⟨(fs.stat p).mode, targetOf k, rest, u⟩ = false := by
  have := h.mode p k hk
  unfold Compose.isHardLink
  cases k <;> simp_all [typeOf, targetOf]

/-- What `_lookup` gives for something that is no outward link. -/
theorem mlookup_plain {fs : FS} (h : Tree fs) {R cs : Path} (hp : Placed fs R cs) {k : Node} (hk : fs.node (R ++ cs) = some k)
    (ho : ∀ p, ¬ Outward fs R cs p) :
    mlookup (source fs R) (canonical cs) =
      .ok ⟨(fs.stat (R ++ cs)).mode, targetOf k, (fs.stat (R ++ cs)).size, [.file, .str (join '/' cs)]⟩ := by
  unfold mlookup
  rw [Compose.C34_other _ mp _ _ (lookup_plain h hp hk ho (Or.inl rfl)) (hard_of h hk _ _)]
  rfl

theorem mlookup_outward {fs : FS} (h : Tree fs) {R cs p : Path} (hp : Placed fs R cs) (ho : Outward fs R cs p) :
    mlookup (source fs R) (canonical cs) = .ok ⟨(fs.stat p).mode, [], (fs.stat p).size, [.file, .str (canonical p)]⟩ := by
  unfold mlookup
  rw [Compose.C34_other _ mp _ _ (lookup_outward h hp ho (Or.inl rfl)) (by simp [Compose.isHardLink])]
  rfl

theorem isabs_join {cs : Path} (hn : ∀ n ∈ cs, IsName n) : Folder.isabs (join '/' cs) = false := by
  rw [Folder.isabs_iff]
  intro h
  exact Verif.Index.join_head cs (fun n hm => ⟨(hn n hm).1, (hn n hm).2.1⟩) h

theorem openPath_plain {fs : FS} {R cs p : Path} (hp : Placed fs R cs) (hw : walk fs.node true 40 R cs = some p) {ino : Nat}
    (hf : fs.node p = some (.file ino)) : openPath fs R (join '/' cs) = some ino := by
  unfold openPath maxLinks
  rw [isabs_join hp.2.1]
  simp only [Bool.false_eq_true, if_false]
  rw [parts_join hp.2.1, walk_parts hp.1, hw]
  simp only [hf]

theorem openPath_abs {fs : FS} (h : Tree fs) {p : Path} (R : Path) {ino : Nat} (hf : fs.node p = some (.file ino)) :
    openPath fs R (canonical p) = some ino := by
  have hpl := h.placed (p := p) (by simp [hf])
  have ha : Folder.isabs (canonical p) = true := by rw [canonical_eq]; simp [Folder.isabs, startsWith, List.isPrefixOf]
  have hne : p ≠ [] := by
    rintro rfl
    rw [h.root] at hf
    cases hf
  unfold openPath maxLinks
  rw [ha]
  simp only [if_true]
  rw [canonical_eq, split_cons_eq, split_join '/' p hne (fun n hm => (hpl.2.1 n hm).2.1)]
  have hw := walk_real h 40 true hpl (by simpa using hf) (fun _ t e => by cases e)
  have hs : walk fs.node true 40 [] ([] :: p) = walk fs.node true 40 [] p := by simp [walk, down, h.root]
  rw [hs, hw]
  simp only [List.nil_append, hf]

/-! ## C212 -/

/-- **C212**, the handle: opening a path that leads to a file on the host, through links or not, opens this file. -/
theorem opens {fs : FS} (h : Tree fs) {R cs p : Path} (hp : Placed fs R cs) (hw : walk fs.node true 40 R cs = some p) {ino : Nat}
    (hf : fs.node p = some (.file ino)) : ∃ i, mlookup (source fs R) (canonical cs) = .ok i ∧ openInfo fs R i = some ino := by
  by_cases ho : ∃ p', Outward fs R cs p'
  · obtain ⟨p', ho⟩ := ho
    have hpp : p' = p := by
      obtain ⟨_, _, _, _, e⟩ := ho
      rw [hw] at e
      exact (Option.some.inj e).symm
    subst hpp
    exact ⟨_, mlookup_outward h hp ho, openPath_abs h R hf⟩
  · cases hk : fs.node (R ++ cs) with
    | none => rw [walk_missing h 40 true hp hk] at hw; cases hw
    | some k => exact ⟨_, mlookup_plain h hp hk (fun p' e => ho ⟨p', e⟩), openPath_plain hp hw hf⟩

/-- Handles are numbered in the order of opening. -/
def Good (m : Mount) : Prop := ∀ fh o, m.opened.get? fh = some o → fh ≤ m.last

theorem event_good (R : Path) {m : Mount} (hg : Good m) (e : Event) :
    Good (event R m e) ∧ ∀ fh ino, e ≠ .release fh → m.opened.get? fh = some (some ino) → (event R m e).opened.get? fh = some (some ino) := by
  cases e with
  | host fs => exact ⟨hg, fun _ _ _ h => h⟩
  | read a b c => exact ⟨hg, fun _ _ _ h => h⟩
  | release g =>
    have : event R m (.release g) = mrelease m g := rfl
    rw [this]
    unfold mrelease
    split
    · next o ho =>
      refine ⟨?_, ?_⟩
      · intro fh o' h'
        simp only [Dict.get?_set] at h'
        split at h'
        · next e => subst e; exact hg _ _ ho
        · exact hg _ _ h'
      · intro fh ino hne h'
        simp only [Dict.get?_set]
        rw [if_neg (fun e => hne (by rw [e]))]
        exact h'
    · exact ⟨hg, fun _ _ _ h => h⟩
  | «open» path =>
    have : event R m (.open path) = (mopen R m path).1 := rfl
    rw [this]
    unfold mopen
    split
    · exact ⟨hg, fun _ _ _ h => h⟩
    · split
      · exact ⟨hg, fun _ _ _ h => h⟩
      · refine ⟨?_, ?_⟩
        · intro fh o' h'
          simp only [Dict.get?_set] at h'
          split at h'
          · next e => subst e; exact Nat.le_refl _
          · have := hg _ _ h'; simp only; omega
        · intro fh ino _ h'
          have := hg _ _ h'
          simp only [Dict.get?_set]
          rw [if_neg (by omega)]
          exact h'

theorem events_good (R : Path) (es : List Event) : ∀ {m : Mount}, Good m →
    Good (events R m es) ∧ ∀ fh ino, Event.release fh ∉ es → m.opened.get? fh = some (some ino) →
      (events R m es).opened.get? fh = some (some ino) := by
  induction es with
  | nil => intro m hg; exact ⟨hg, fun _ _ _ h => h⟩
  | cons e es ih =>
    intro m hg
    obtain ⟨h1, h2⟩ := event_good R hg e
    obtain ⟨h3, h4⟩ := ih h1
    refine ⟨h3, fun fh ino hne h => h4 fh ino (fun hm => hne (List.mem_cons_of_mem _ hm)) (h2 fh ino ?_ h)⟩
    rintro rfl
    exact hne List.mem_cons_self

/-- **C212**, reading: whatever happened before on the host and in the mount, opening a path that leads to a file on the host gives a new
handle, and until it is closed, reading gives what this file then contains, whatever happens meanwhile: also if the host replaces, moves or
removes the path. -/
theorem C212_read (R : Path) (fs₀ : FS) (before after : List Event) (cs p : Path) (ino size offset : Nat)
    (h : Tree (events R (start fs₀) before).fs) (hp : Placed (events R (start fs₀) before).fs R cs)
    (hw : walk (events R (start fs₀) before).fs.node true 40 R cs = some p)
    (hf : (events R (start fs₀) before).fs.node p = some (.file ino)) :
    ∃ fh, (mopen R (events R (start fs₀) before) (canonical cs)).2 = .ok fh ∧
      (events R (start fs₀) before).opened.get? fh = none ∧
      (Event.release fh ∉ after →
        mread (events R (mopen R (events R (start fs₀) before) (canonical cs)).1 after) fh size offset =
          .ok ((((events R (mopen R (events R (start fs₀) before) (canonical cs)).1 after).fs.data ino).drop offset).take size)) := by
  have hg0 : Good (start fs₀) := by
    intro fh o h
    cases h
  have hg := (events_good R before hg0).1
  generalize events R (start fs₀) before = m at *
  obtain ⟨i, hi, ho⟩ := opens h hp hw hf
  have hm : mopen R m (canonical cs) = (⟨m.fs, m.opened.set (m.last + 1) (some ino), m.last + 1⟩, .ok (m.last + 1)) := by
    unfold mopen
    rw [hi]
    simp only [ho]
  have hg' := (event_good R hg (.open (canonical cs))).1
  have he : event R m (.open (canonical cs)) = (mopen R m (canonical cs)).1 := rfl
  rw [he, hm] at hg'
  rw [hm]
  refine ⟨m.last + 1, rfl, ?_, ?_⟩
  · cases hx : m.opened.get? (m.last + 1) with
    | none => rfl
    | some o => have := hg _ _ hx; omega
  · intro hr
    have := (events_good R after hg').2 (m.last + 1) ino hr (by simp only [Dict.get?_set, if_pos])
    unfold mread
    simp only
    rw [this]

/-- **C212**, attributes: what is in the mounted folder has the mode, the size and the link target it has on the host, unless it is a link
out of the folder to something that exists. -/
theorem C212_attributes (fs : FS) (h : Tree fs) (R cs : Path) (hp : Placed fs R cs) (k : Node) (hk : fs.node (R ++ cs) = some k)
    (ho : ∀ p, ¬ Outward fs R cs p) :
    mgetattr (source fs R) (canonical cs) = .ok ((fs.stat (R ++ cs)).mode, (fs.stat (R ++ cs)).size) ∧
      mreadlink (source fs R) (canonical cs) = .ok (targetOf k) := by
  unfold mgetattr mreadlink
  rw [mlookup_plain h hp hk ho]
  exact ⟨rfl, rfl⟩

/-- **C212**, links out of the folder: they look like what they lead to, which is no link. -/
theorem C212_outward (fs : FS) (h : Tree fs) (R cs p : Path) (hp : Placed fs R cs) (ho : Outward fs R cs p) :
    mgetattr (source fs R) (canonical cs) = .ok ((fs.stat p).mode, (fs.stat p).size) ∧
      ((fs.stat p).mode &&& 0xF000 ≠ 0xA000) ∧
      (∀ ino, fs.node p = some (.file ino) → shown fs R cs = some (.file ino)) ∧
      (fs.node p = some .folder → shown fs R cs = some .folder) := by
  have hw := ho
  obtain ⟨t, ht, hrel, hlv, hw⟩ := hw
  obtain ⟨hex, hnl⟩ := walk_found h true 40 R cs p hp.1 hw
  refine ⟨?_, ?_, ?_, ?_⟩
  · unfold mgetattr
    rw [mlookup_outward h hp ho]
    rfl
  · cases hk : fs.node p with
    | none => exact absurd hk hex
    | some k =>
      have := h.mode p k hk
      cases k with
      | link t => exact absurd hk (hnl rfl t)
      | file i => simp only [typeOf] at this; omega
      | folder => simp only [typeOf] at this; omega
      | special => exact this.2.2
  · intro ino hf
    have := h.mode p _ hf
    simp only [typeOf] at this
    unfold shown
    rw [mlookup_outward h hp ho]
    simp only
    rw [if_neg (by omega), if_neg (by omega), if_pos this]
    have : openInfo fs R ⟨(fs.stat p).mode, [], (fs.stat p).size, [.file, .str (canonical p)]⟩ = some ino := openPath_abs h R hf
    rw [this]
  · intro hf
    have := h.mode p _ hf
    simp only [typeOf] at this
    unfold shown
    rw [mlookup_outward h hp ho]
    simp only
    rw [if_pos this]

theorem api_plain (ds : Path) : Compose.apiPath (ds.map (fun x => ((x, none) : Compose.Step))) = ds := by
  unfold Compose.apiPath
  rw [List.flatMap_map]
  simp only [Compose.Step.parts]
  exact List.flatMap_singleton' ds

theorem plain_plain (ds : Path) : Compose.plainPath (ds.map (fun x => ((x, none) : Compose.Step))) = ds := by
  unfold Compose.plainPath
  rw [List.map_map]
  exact List.map_id ds

theorem readable {fs : FS} (h : Tree fs) {R ds : Path} (hR : fs.node R = some .folder) (hmem : ∀ x ∈ ds, IsName x)
    (hf : fs.node (R ++ ds) = some .folder) :
    Compose.Readable (source fs R) (ds.map (fun x => ((x, none) : Compose.Step))) := by
  intro pre st post he
  obtain ⟨a, b, rfl, ha, hb⟩ := List.map_eq_append_iff.mp he
  obtain ⟨x, b', rfl, rfl, hb'⟩ := List.map_eq_cons_iff.mp hb
  simp only
  rw [← ha, plain_plain]
  have hfa : fs.node (R ++ (a ++ [x])) = some .folder := by
    have := h.below hf (a.length + 1) (by simp)
    rw [show a ++ x :: b' = (a ++ [x]) ++ b' by simp, List.take_left' (by simp)] at this
    exact this
  have hpa : Placed fs R (a ++ [x]) := by
    refine ⟨hR, fun y hy => hmem y ?_, Or.inr ?_⟩
    · simp at hy ⊢
      rcases hy with e | e
      · exact Or.inl e
      · exact Or.inr (Or.inl e)
    · rw [List.dropLast_concat]
      have := h.below hf a.length (by simp)
      simpa using this
  rw [lookup_plain h hpa hfa (by rintro p ⟨t, ht, _⟩; rw [hfa] at ht; cases ht) (Or.inl rfl)]
  rfl

theorem Placed.folder {fs : FS} {R ds : Path} {n : Str} (hp : Placed fs R (ds ++ [n])) : fs.node (R ++ ds) = some .folder := by
  rcases hp.2.2 with e | e
  · simp at e
  · simpa using e

theorem decode_missing {fs : FS} (h : Tree fs) {R ds : Path} {n : Str} (hp : Placed fs R (ds ++ [n])) (hk : fs.node (R ++ (ds ++ [n])) = none)
    (hv : endsWith dotVersions n = false) : Compose.decodeVersions (source fs R) (canonical (ds ++ [n])) = none := by
  have hf := hp.folder
  have hmem : ∀ x ∈ ds, IsName x := fun x hx => hp.2.1 x (by simp [hx])
  rw [Compose.decodeVersions_eq _ _ (by simp) (fun x hx => ⟨(hp.2.1 x hx).1, (hp.2.1 x hx).2.1⟩)]
  have := Compose.decodeLoop_steps (source fs R) (ds.map (fun x => (x, none))) [] [n] none (by
      intro st hst
      obtain ⟨x, hx, rfl⟩ := List.mem_map.mp hst
      exact (hmem x hx).1) (Compose.readableFrom_nil (readable h hp.1 hmem hf))
  rw [api_plain, plain_plain, List.nil_append] at this
  rw [this]
  unfold Compose.decodeLoop
  rw [Compose.prefixPath_append, if_neg (by simp), lookup_missing h hp hk]
  simp [hv]

theorem walk_blocked {fs : FS} (h : Tree fs) (j : Nat) (follow : Bool) {R ds : Path} {n : Str} (rest : List Str) (hmem : ∀ x ∈ ds, IsName x)
    (hn : IsName n) (hf : fs.node (R ++ ds) = some .folder) (hk : fs.node (R ++ ds ++ [n]) = none) :
    walk fs.node follow j R (ds ++ n :: rest) = none := by
  have : ∀ jump, down fs.node jump follow R (ds ++ n :: rest) = none := by
    intro jump
    rw [down_append jump follow (n :: rest) ds R hmem (fun k hk => h.below hf k hk), down, if_neg (by simp [hf]),
      if_neg (by rintro (e | e); exact hn.1 e; exact hn.2.2.1 e), if_neg hn.2.2.2, hk]
  cases j <;> exact this _

/-- **C212**, what is missing: in a folder, a name that is not there on the host does not exist, unless it asks for versions. -/
theorem C212_absent (fs : FS) (h : Tree fs) (R ds : Path) (n : Str) (hp : Placed fs R (ds ++ [n])) (hk : fs.node (R ++ ds ++ [n]) = none)
    (hv : endsWith ".versions".toList n = false) :
    mgetattr (source fs R) (canonical (ds ++ [n])) = .error (.os 2) := by
  rw [List.append_assoc] at hk
  unfold mgetattr mlookup Compose.vlookup Compose.resolve
  rw [if_neg (by simp), lookup_missing h hp hk]
  simp only [decode_missing h hp hk hv]
  rfl

/-- **C212**, listing: a path that leads to a folder on the host has the names in that folder. -/
theorem C212_list (fs : FS) (R cs p : Path) (hR : fs.node R = some .folder) (hn : ∀ n ∈ cs, IsName n)
    (hw : walk fs.node true 40 R cs = some p) (hf : fs.node p = some .folder) :
    mreaddir (source fs R) (canonical cs) = ['.'] :: ['.', '.'] :: fs.entries p := by
  have hs : (host fs R).scandir (canonical cs) = some ((fs.entries p).map (fun n => (n, fs.stat (p ++ [n])))) := by
    unfold host maxLinks
    simp only
    rw [parts_canonical hn, walk_parts hR, hw]
    simp only [hf, if_true]
  unfold mreaddir Compose.vlist source Folder.list
  simp only
  rw [hs]
  simp only [Option.map_some, Compose.pushAll, Option.getD_some, Compose.Listing.keys, Dict.keys, List.map_map]
  congr 2
  exact List.map_id _

theorem lookup_first {fs : FS} (h : Tree fs) {R cs : Path} (hp : Placed fs R cs) (hk : fs.node (R ++ cs) ≠ none) :
    ∃ i, (source fs R).lookup (canonical cs) 0 = some i ∧ (source fs R).lookup (canonical cs) 1 = some i ∧ Compose.isHardLink i = false := by
  by_cases ho : ∃ p', Outward fs R cs p'
  · obtain ⟨p', ho⟩ := ho
    exact ⟨_, lookup_outward h hp ho (Or.inl rfl), lookup_outward h hp ho (Or.inr rfl), by simp [Compose.isHardLink]⟩
  · cases hk' : fs.node (R ++ cs) with
    | none => exact absurd hk' hk
    | some k =>
      exact ⟨_, lookup_plain h hp hk' (fun p' e => ho ⟨p', e⟩) (Or.inl rfl), lookup_plain h hp hk' (fun p' e => ho ⟨p', e⟩) (Or.inr rfl), hard_of h hk' _ _⟩

/-- **C212**, versions: the versions folder of an entry has one version, and that is the entry itself. -/
theorem C212_version (fs : FS) (h : Tree fs) (R ds : Path) (n : Str) (hp : Placed fs R (ds ++ [n])) (hk : fs.node (R ++ ds ++ [n]) ≠ none)
    (hfree : fs.node (R ++ ds ++ [n ++ ".versions".toList]) = none) :
    mlookup (source fs R) (canonical (ds ++ [n ++ ".versions".toList, ['1']])) = mlookup (source fs R) (canonical (ds ++ [n])) ∧
      mreaddir (source fs R) (canonical (ds ++ [n ++ ".versions".toList])) = [['.'], ['.', '.'], ['1']] := by
  have hf := hp.folder
  have hmem : ∀ x ∈ ds, IsName x := fun x hx => hp.2.1 x (by simp [hx])
  have hnn := hp.2.1 n (by simp)
  have hk' : fs.node (R ++ (ds ++ [n])) ≠ none := by rw [← List.append_assoc]; exact hk
  have hdv : ".versions".toList = dotVersions := rfl
  have hlen : dotVersions.length = 9 := rfl
  have hsl : '/' ∉ dotVersions := by decide
  rw [hdv] at *
  have hvn : IsName (n ++ dotVersions) := by
    refine ⟨by simp [hnn.1], by rw [List.mem_append]; rintro (e | e); exact hnn.2.1 e; exact hsl e, ?_, ?_⟩
    · intro e; have := congrArg List.length e; simp [hlen] at this
    · intro e; have := congrArg List.length e; simp [hlen] at this
  have hone : IsName ['1'] := by unfold IsName; decide
  have hsteps : ∀ st ∈ ds.map (fun x => ((x, none) : Compose.Step)), st.1 ≠ [] ∧ '/' ∉ st.1 := by
    intro st hst
    obtain ⟨x, hx, rfl⟩ := List.mem_map.mp hst
    exact ⟨(hmem x hx).1, (hmem x hx).2.1⟩
  have hpv : Placed fs R (ds ++ [n ++ dotVersions]) := by
    refine ⟨hp.1, ?_, Or.inr (by rw [List.dropLast_concat]; exact hf)⟩
    intro x hx
    rcases List.mem_append.mp hx with e | e
    · exact hmem x e
    · rw [List.mem_singleton.mp e]; exact hvn
  have hlv : (source fs R).lookup (canonical (ds ++ [n ++ dotVersions])) 0 = none :=
    lookup_missing h hpv (by rw [← List.append_assoc]; exact hfree) 0
  have hint : intStr 1 = ['1'] := by decide +kernel
  obtain ⟨i, hi0, hi1, hhl⟩ := lookup_first h hp hk'
  refine ⟨?_, ?_⟩
  · have hr : Compose.Readable (source fs R) (ds.map (fun x => ((x, none) : Compose.Step)) ++ [(n, some 1)]) := by
      intro pre st post he
      rcases List.eq_nil_or_concat post with rfl | ⟨post', z, rfl⟩
      · have := List.append_inj' he rfl
        obtain ⟨h1, h2⟩ := this
        cases h2
        simp only
        rw [← h1, plain_plain]
        exact hlv
      · rw [List.concat_eq_append] at he
        have he' : ds.map (fun x => ((x, none) : Compose.Step)) ++ [(n, some 1)] = (pre ++ st :: post') ++ [z] := by rw [he]; simp
        obtain ⟨h1, h2⟩ := List.append_inj' he' rfl
        exact readable h hp.1 hmem hf pre st post' h1
    have hapi : Compose.apiPath (ds.map (fun x => ((x, none) : Compose.Step)) ++ [(n, some 1)]) = ds ++ [n ++ dotVersions, ['1']] := by
      have := api_plain ds
      unfold Compose.apiPath at this ⊢
      rw [List.flatMap_append, this]
      simp [Compose.Step.parts, hint]
    have hplain : Compose.plainPath (ds.map (fun x => ((x, none) : Compose.Step)) ++ [(n, some 1)]) = ds ++ [n] := by
      have := plain_plain ds
      unfold Compose.plainPath at this ⊢
      rw [List.map_append, this]
      rfl
    have hlast : Compose.lastVersion (ds.map (fun x => ((x, none) : Compose.Step)) ++ [(n, some 1)]) = 1 := by
      unfold Compose.lastVersion
      rw [List.getLast?_concat]
    have hdeep : (source fs R).lookup (canonical (ds ++ [n ++ dotVersions, ['1']])) 0 = none := by
      have hnames : ∀ x ∈ ds ++ [n ++ dotVersions, ['1']], IsName x := by
        intro x hx
        rcases List.mem_append.mp hx with e | e
        · exact hmem x e
        · simp only [List.mem_cons, List.not_mem_nil, or_false] at e
          rcases e with rfl | rfl
          · exact hvn
          · exact hone
      have hl : (host fs R).lstat (canonical (ds ++ [n ++ dotVersions, ['1']])) = none := by
        unfold host maxLinks
        simp only
        rw [parts_canonical hnames, walk_parts hp.1, walk_blocked h 40 false [['1']] hmem hvn hf hfree]
        rfl
      unfold source Folder.lookup
      simp only
      rw [hl]
      rfl
    have := Compose.C34_version (source fs R) mp _ (by simp) (by
      intro st hst
      rcases List.mem_append.mp hst with e | e
      · exact hsteps st e
      · rw [List.mem_singleton.mp e]; exact ⟨hnn.1, hnn.2.1⟩) hr (by rw [hapi]; exact hdeep)
    rw [hapi, hplain, hlast, hi1] at this
    unfold mlookup
    rw [this, Compose.C34_other _ mp _ i hi0 hhl]
    rfl
  · have hll : (source fs R).list (canonical (ds ++ [n ++ dotVersions])) = none := by
      have hs : (host fs R).scandir (canonical (ds ++ [n ++ dotVersions])) = none := by
        unfold host maxLinks
        simp only
        rw [parts_canonical hpv.2.1, walk_parts hp.1, walk_blocked h 40 true [] hmem hvn hf hfree]
      unfold source Folder.list
      simp only
      rw [hs]
      rfl
    have := (Compose.C34_list (source fs R) mp (ds.map (fun x => (x, none))) n hsteps ⟨hnn.1, hnn.2.1⟩ (readable h hp.1 hmem hf)
      (by rw [plain_plain]; exact hlv) (by rw [api_plain]; exact hlv) (by rw [api_plain]; exact hll) i (by rw [plain_plain]; exact hi0)).2
    rw [api_plain, plain_plain] at this
    obtain ⟨l, hl, hkeys⟩ := this
    have hver : (source fs R).versions (canonical (ds ++ [n])) = 1 := by
      unfold source
      simp only
      cases hkk : fs.node (R ++ (ds ++ [n])) with
      | none => exact absurd hkk hk'
      | some k =>
        rw [host_lstat hp, walk_real h 40 false hp hkk (fun e => by cases e)]
        rfl
    rw [hver] at hkeys
    unfold mreaddir
    rw [hl]
    simp only [Option.map_some, Option.getD_some]
    rw [hkeys]
    have hnat : natStr 1 = ['1'] := by decide +kernel
    simp [List.range, List.range.loop, hnat]

/-! ## where links lead -/

theorem shown_plain {fs : FS} (h : Tree fs) {R cs : Path} (hp : Placed fs R cs) {k : Node} (hk : fs.node (R ++ cs) = some k)
    (ho : ∀ p, ¬ Outward fs R cs p) : shown fs R cs = some k := by
  have hm := h.mode _ _ hk
  unfold shown
  rw [mlookup_plain h hp hk ho]
  simp only
  cases k with
  | folder => simp only [typeOf] at hm; rw [if_pos hm]
  | link t => simp only [typeOf] at hm; rw [if_neg (by omega), if_pos hm]; rfl
  | file ino =>
    simp only [typeOf] at hm
    rw [if_neg (by omega), if_neg (by omega), if_pos hm]
    have : openInfo fs R ⟨(fs.stat (R ++ cs)).mode, targetOf (.file ino), (fs.stat (R ++ cs)).size, [.file, .str (join '/' cs)]⟩ = some ino :=
      openPath_plain hp (walk_real h 40 true hp hk (fun _ t e => by cases e)) hk
    rw [this]
  | special =>
    simp only [typeOf] at hm
    rw [if_neg hm.2.1, if_neg hm.2.2, if_neg hm.1]

/-- **C212**, the view: a place in a folder is shown as what it is on the host, unless it is a link out of the mounted folder. -/
theorem C212_view (fs : FS) (h : Tree fs) (R cs : Path) (hp : Placed fs R cs) (hv : ∀ n ∈ cs.getLast?, endsWith ".versions".toList n = false)
    (ho : ∀ p, ¬ Outward fs R cs p) : shown fs R cs = fs.node (R ++ cs) := by
  cases hk : fs.node (R ++ cs) with
  | some k => exact shown_plain h hp hk ho
  | none =>
    rcases List.eq_nil_or_concat cs with rfl | ⟨ds, n, rfl⟩
    · rw [List.append_nil, hp.1] at hk; cases hk
    · rw [List.concat_eq_append] at *
      have := C212_absent fs h R ds n hp (by rw [List.append_assoc]; exact hk) (hv n (by simp))
      unfold mgetattr at this
      unfold shown
      cases hl : mlookup (source fs R) (canonical (ds ++ [n])) with
      | error e => rfl
      | ok i => rw [hl] at this; cases this

theorem shown_outward {fs : FS} (h : Tree fs) {R cs p : Path} (hp : Placed fs R cs) (ho : Outward fs R cs p) :
    ∃ k, shown fs R cs = some k ∧ ∀ t, k ≠ .link t := by
  have hm := (C212_outward fs h R cs p hp ho).2.1
  unfold shown
  rw [mlookup_outward h hp ho]
  simp only
  rw [if_neg hm]
  split
  · exact ⟨_, rfl, fun t e => by cases e⟩
  · split
    · split
      · exact ⟨_, rfl, fun t e => by cases e⟩
      · exact ⟨_, rfl, fun t e => by cases e⟩
    · exact ⟨_, rfl, fun t e => by cases e⟩

theorem placed_of {fs : FS} (h : Tree fs) {R q : Path} (hR : fs.node R = some .folder) (hq : fs.node (R ++ q) ≠ none) : Placed fs R q := by
  refine ⟨hR, fun n hn => (h.placed hq).2.1 n (List.mem_append_right _ hn), ?_⟩
  rcases List.eq_nil_or_concat q with rfl | ⟨q', x, rfl⟩
  · exact Or.inl rfl
  · rw [List.concat_eq_append] at *
    refine Or.inr ?_
    rw [List.dropLast_concat]
    exact (h.parent (R ++ q') x (by simpa using hq)).1

theorem not_outward {fs : FS} {R q : Path} {k : Node} (hk : fs.node (R ++ q) = some k) (hl : ∀ t, k ≠ .link t) (p : Path) : ¬ Outward fs R q p := by
  rintro ⟨t, ht, _⟩
  rw [hk] at ht
  exact hl t (Option.some.inj ht)

theorem downIn_sim {fs : FS} (h : Tree fs) {R : Path} (hR : fs.node R = some .folder) {jI jS jH : Path → List Str → Option Path} {follow : Bool}
    (hj : ∀ q cs p, fs.node (R ++ q) = some .folder → jI (R ++ q) cs = some p →
      ∃ q', p = R ++ q' ∧ fs.node p ≠ none ∧ jS q cs = some q' ∧ jH (R ++ q) cs = some p) :
    ∀ (cs q p : Path), fs.node (R ++ q) ≠ none → downIn fs.node R jI follow (R ++ q) cs = some p →
    ∃ q', p = R ++ q' ∧ fs.node p ≠ none ∧ down (shown fs R) jS follow q cs = some q' ∧ down fs.node jH follow (R ++ q) cs = some p := by
  intro cs
  induction cs with
  | nil =>
    intro q p hq hd
    rw [downIn] at hd
    cases hd
    exact ⟨q, rfl, hq, rfl, rfl⟩
  | cons c cs ih =>
    intro q p hq hd
    rw [downIn] at hd
    rw [down, down]
    split at hd
    · cases hd
    · next hf =>
      have hf := Decidable.not_not.mp hf
      have hs : shown fs R q = some .folder :=
        shown_plain h (placed_of h hR hq) hf (not_outward hf (fun t e => by cases e))
      rw [if_neg (show ¬ shown fs R q ≠ some .folder by simp [hs]), if_neg (show ¬ fs.node (R ++ q) ≠ some .folder by simp [hf])]
      split at hd
      · next hc =>
        rw [if_pos hc, if_pos hc]
        exact ih q p hq hd
      · next hc =>
        rw [if_neg hc, if_neg hc]
        split at hd
        · next hd2 =>
          rw [if_pos hd2, if_pos hd2]
          split at hd
          · cases hd
          · next hne =>
            have hqne : q ≠ [] := by
              rintro rfl
              exact hne (List.append_nil R)
            have hdl : (R ++ q).dropLast = R ++ q.dropLast := List.dropLast_append_of_ne_nil hqne
            rw [hdl] at hd ⊢
            have := h.dropLast hf
            rw [hdl] at this
            exact ih q.dropLast p (by simp [this]) hd
        · next hd2 =>
          rw [if_neg hd2, if_neg hd2]
          split at hd
          · cases hd
          · next t ht =>
            have hpl : Placed fs R (q ++ [c]) := placed_of h hR (by rw [← List.append_assoc, ht]; simp)
            have ht' : fs.node (R ++ (q ++ [c])) = some (.link t) := by rw [← List.append_assoc]; exact ht
            split at hd
            · next e =>
              cases hd
              rw [if_pos e]
              refine ⟨q ++ [c], by simp, by rw [ht]; simp, ?_, rfl⟩
              by_cases ho : ∃ p', Outward fs R (q ++ [c]) p'
              · obtain ⟨p', ho⟩ := ho
                obtain ⟨k, hk, hkl⟩ := shown_outward h hpl ho
                rw [hk, e.1]
                cases k with
                | link t => exact absurd rfl (hkl t)
                | file i => simp [down]
                | folder => simp [down]
                | special => simp [down]
              · rw [shown_plain h hpl ht' (fun p' e => ho ⟨p', e⟩)]
                simp only
                rw [if_pos e]
            · next e =>
              rw [if_neg e]
              split at hd
              · next hkeep =>
                have hno : ∀ p', ¬ Outward fs R (q ++ [c]) p' := by
                  rintro p' ⟨t', h1, h2, h3, _⟩
                  rw [ht'] at h1
                  cases h1
                  have := hkeep.2
                  simp only [List.length_append, List.length_cons, List.length_nil] at this h3
                  rw [show R.length + q.length - R.length = q.length + (0 + 1) - 1 by omega, h3] at this
                  cases this
                rw [shown_plain h hpl ht' hno]
                simp only
                rw [if_neg e, if_neg hkeep.1, if_neg hkeep.1]
                exact hj q _ p hf hd
              · cases hd
          · next k hnl hk =>
            have hk' : fs.node (R ++ (q ++ [c])) = some k := by rw [← List.append_assoc]; exact hk
            have hpl : Placed fs R (q ++ [c]) := placed_of h hR (by rw [hk']; simp)
            rw [shown_plain h hpl hk' (not_outward hk' (fun t e => hnl t e))]
            rw [List.append_assoc] at hd
            obtain ⟨q', h1, h2, h3, h4⟩ := ih (q ++ [c]) p (by rw [hk']; simp) hd
            rw [← List.append_assoc] at h4
            refine ⟨q', h1, h2, ?_, ?_⟩
            · cases k with
              | link t => exact absurd rfl (hnl t)
              | file i => exact h3
              | folder => exact h3
              | special => exact h3
            · exact h4

theorem walkIn_sim {fs : FS} (h : Tree fs) {R : Path} (hR : fs.node R = some .folder) (follow : Bool) : ∀ (j : Nat) (q cs p : Path),
    fs.node (R ++ q) = some .folder → walkIn fs.node R follow j (R ++ q) cs = some p →
    ∃ q', p = R ++ q' ∧ fs.node p ≠ none ∧ walk (shown fs R) follow j q cs = some q' ∧ walk fs.node follow j (R ++ q) cs = some p := by
  intro j
  induction j with
  | zero => intro q cs p hq hw; exact downIn_sim h hR (fun _ _ _ _ e => by cases e) cs q p (by simp [hq]) hw
  | succ j ih => intro q cs p hq hw; exact downIn_sim h hR ih cs q p (by simp [hq]) hw

/-- **C212**, links: a path, with `..` and with links in it, that stays in the mounted folder on the host leads in the mount, where the
kernel follows the links that the mount shows, to the same place, and the same is there. Missing in comparison with `C212_statement`: links that
lead out of the folder, for which `C212_outward` tells what is at the end of a path; on the way they can lead to other files
(`C212_violated`). -/
theorem C212_walk_partial (fs : FS) (h : Tree fs) (R : Path) (hR : fs.node R = some .folder) (follow : Bool) (cs : List Str) (p : Path)
    (hw : walkIn fs.node R follow 40 R cs = some p) :
    walk fs.node follow 40 R cs = some p ∧ ∃ q, p = R ++ q ∧ walk (shown fs R) follow 40 [] cs = some q ∧
      (follow = true → shown fs R q = fs.node p) := by
  obtain ⟨q, h1, h2, h3, h4⟩ := walkIn_sim h hR follow 40 [] cs p (by simpa using hR) (by simpa using hw)
  rw [List.append_nil] at h4
  refine ⟨h4, q, h1, h3, ?_⟩
  rintro rfl
  obtain ⟨_, hnl⟩ := walk_found h true 40 R cs p hR h4
  cases hk : fs.node p with
  | none => exact absurd hk h2
  | some k =>
    subst h1
    exact shown_plain h (placed_of h hR h2) hk (not_outward hk (fun t e => hnl rfl t (by rw [hk, e])))

/-! ## an example -/

/-- A host from a table. -/
def ofTable (t : List (Path × Node)) : FS where
  node p := if p = [] then some .folder else (t.find? (fun e => e.1 = p)).map (·.2)
  stat p := ⟨0, 0, match (if p = [] then some .folder else (t.find? (fun e => e.1 = p)).map (·.2)) with
    | some (Node.file _) => 0o100644
    | some Node.folder => 0o40755
    | some (Node.link _) => 0o120777
    | _ => 0o10644, 0, 0⟩
  entries p := t.filterMap (fun e => if e.1 ≠ [] ∧ e.1.dropLast = p then e.1.getLast? else none)
  data ino := [UInt8.ofNat ino]

theorem ofTable_mem {t : List (Path × Node)} {p : Path} (hp : p ≠ []) (h : (ofTable t).node p ≠ none) : ∃ e ∈ t, e.1 = p := by
  unfold ofTable at h
  simp only [if_neg hp] at h
  cases hf : t.find? (fun e => e.1 = p) with
  | none => rw [hf] at h; exact absurd rfl h
  | some e => exact ⟨e, List.mem_of_find?_eq_some hf, by simpa using List.find?_some hf⟩

theorem ofTable_some {t : List (Path × Node)} {e : Path × Node} (he : e ∈ t) : (ofTable t).node e.1 ≠ none := by
  unfold ofTable
  simp only
  split
  · simp
  · cases hf : t.find? (fun e' => e'.1 = e.1) with
    | none => have := List.find?_eq_none.mp hf e he; simp at this
    | some e' => simp

theorem tree_ofTable (t : List (Path × Node))
    (ht : ∀ e ∈ t, (ofTable t).node e.1.dropLast = some .folder ∧ ∀ n ∈ e.1.getLast?, n ≠ [] ∧ '/' ∉ n ∧ n ≠ ['.'] ∧ n ≠ ['.', '.']) :
    Tree (ofTable t) := by
  refine ⟨rfl, ?_, ?_, ?_⟩
  · intro p n hne
    obtain ⟨e, he, h1⟩ := ofTable_mem (by simp) hne
    obtain ⟨h2, h3⟩ := ht e he
    rw [h1, List.dropLast_concat] at h2
    exact ⟨h2, h3 n (by simp [h1])⟩
  · intro p n _
    constructor
    · intro hm
      obtain ⟨e, he, h1⟩ := List.mem_filterMap.mp hm
      split at h1
      · next hc =>
        have : e.1 = p ++ [n] := by
          rw [← hc.2]
          obtain ⟨hne, _⟩ := hc
          rcases List.eq_nil_or_concat e.1 with e0 | ⟨a, x, e0⟩
          · exact absurd e0 hne
          · rw [e0, List.concat_eq_append] at h1 ⊢
            rw [List.getLast?_concat] at h1
            cases h1
            rw [List.dropLast_concat]
        rw [← this]
        exact ofTable_some he
      · cases h1
    · intro hne
      obtain ⟨e, he, h1⟩ := ofTable_mem (by simp) hne
      refine List.mem_filterMap.mpr ⟨e, he, ?_⟩
      rw [h1, List.dropLast_concat, List.getLast?_concat, if_pos ⟨by simp, rfl⟩]
  · intro p k hk
    unfold ofTable at hk ⊢
    simp only at hk ⊢
    rw [hk]
    cases k with
    | file i => exact (by decide : (0o100644 : Nat) &&& 0xF000 = 0x8000)
    | folder => exact (by decide : (0o40755 : Nat) &&& 0xF000 = 0x4000)
    | link t => exact (by decide : (0o120777 : Nat) &&& 0xF000 = 0xA000)
    | special =>
      exact (by decide : (0o10644 : Nat) &&& 0xF000 ≠ 0x8000 ∧ (0o10644 : Nat) &&& 0xF000 ≠ 0x4000 ∧ (0o10644 : Nat) &&& 0xF000 ≠ 0xA000)

/-- A folder `/r` with the file `x`, the link `in` to it, the folder `d`, the link `d/up` and the link `out` to another folder of the host, in which
there is the link `l` to another file `x`. -/
def sample : List (Path × Node) :=
  [([['r']], .folder), ([['o']], .folder), ([['x']], .file 1), ([['r'], ['x']], .file 2), ([['r'], "in".toList], .link "d/../x".toList),
    ([['r'], ['d']], .folder), ([['r'], ['d'], "up".toList], .link "../in".toList), ([['r'], "out".toList], .link "../o".toList),
    ([['r'], ['f']], .link "../o/../x".toList), ([['o'], ['l']], .link "../x".toList)]

theorem sample_tree : Tree (ofTable sample) := tree_ofTable sample (by decide +kernel)

theorem sample_root : (ofTable sample).node [['r']] = some .folder := by decide +kernel

theorem sample_placed (c : Str) (hc : IsName c) : Placed (ofTable sample) [['r']] [c] :=
  ⟨sample_root, fun n hn => by rw [List.mem_singleton.mp hn]; exact hc, Or.inr sample_root⟩

/-- The hypotheses of `C212_walk_partial` are met by a path with two links. -/
example : walkIn (ofTable sample).node [['r']] true 40 [['r']] [['d'], "up".toList] = some [['r'], ['x']] := by decide +kernel

/-- Those of `C212_outward` and `C212_read` by the link `f`. -/
example : Outward (ofTable sample) [['r']] [['f']] [['x']] :=
  ⟨"../o/../x".toList, by decide +kernel, by decide +kernel, by decide +kernel, by decide +kernel⟩

example : Placed (ofTable sample) [['r']] [['f']] ∧ walk (ofTable sample).node true 40 [['r']] [['f']] = some [['x']] ∧
    (ofTable sample).node [['x']] = some (.file 1) := ⟨sample_placed _ (by unfold IsName; decide), by decide +kernel, by decide +kernel⟩

/-- Those of `C212_attributes` by the file `x`, those of `C212_absent` by `y`, those of `C212_list` by `out`, those of `C212_version` by `x`. -/
example : (ofTable sample).node ([['r']] ++ [['x']]) = some (.file 2) ∧ (∀ p, ¬ Outward (ofTable sample) [['r']] [['x']] p) ∧
    (ofTable sample).node ([['r']] ++ [] ++ [['y']]) = none ∧ endsWith ".versions".toList ['y'] = false ∧
    walk (ofTable sample).node true 40 [['r']] ["out".toList] = some [['o']] ∧
    (ofTable sample).node ([['r']] ++ [] ++ [['x'] ++ ".versions".toList]) = none :=
  ⟨by decide +kernel, not_outward (k := .file 2) (by decide +kernel) (fun t e => by cases e), by decide +kernel, by decide +kernel, by decide +kernel,
    by decide +kernel⟩

/-- **C212**, the violation: the link `out` leads to another folder and is shown as a folder. The link `../x` in that folder counts as one that stays
in the mount, and so `out/l` leads to the file `x` of the mounted folder, but on the host to another file. -/
theorem C212_violated : ¬ C212_statement := by
  intro h
  obtain ⟨q, h1, h2⟩ := h (ofTable sample) [['r']] ["out".toList, ['l']] [['x']] 1 sample_tree sample_root (by
    intro q t hq
    by_cases e : q = []
    · subst e; cases hq
    · obtain ⟨x, hx, rfl⟩ := ofTable_mem e (by rw [hq]; simp)
      have : ∀ x ∈ sample, ∀ t, (ofTable sample).node x.1 = some (.link t) → t.head? ≠ some '/' := by
        intro x hx
        have key : ∀ x ∈ sample, (match (ofTable sample).node x.1 with | some (.link t) => decide (t.head? ≠ some '/') | _ => true) = true := by
          decide +kernel
        intro t ht
        have := key x hx
        rw [ht] at this
        exact of_decide_eq_true this
      exact this x hx t hq) (by unfold IsName; decide) (by decide +kernel) (by decide +kernel)
  have h3 : walk (shown (ofTable sample) [['r']]) true 40 [] ["out".toList, ['l']] = some [['x']] := by decide +kernel
  rw [h3] at h1
  cases h1
  exact absurd h2 (by decide +kernel)

end Verif.Fuse.FolderMount
