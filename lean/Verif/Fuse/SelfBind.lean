import Verif.Fuse.FolderMount

/-!
# C220: a folder that is mounted over itself
(core/ratarmountcore/mountsource/formats/folder.py:36-198, ratarmount/FuseMount.py:176-200, 697-711)

If a folder is mounted over itself, the process opens it before and changes into it, and then uses the path `.` for it. So it still reaches the folder
that is now covered by the mount. A system call that leads through the mount point waits for the process itself, which serves one request at a time
(actions.py:310), and never returns. The host is that of `Verif.Fuse.FolderMount`, without the mount.

Simplified: `os.path.realpath` is that of Python before 3.13, which asks for relative paths; later versions ask for absolute paths, which all lead
through the mount point. The rest is as in `Verif.Fuse.FolderMount`. The layers above the mount source make no system calls on the folder.
-/

namespace Verif.Fuse.SelfBind

open Verif.Py Verif.Index
open Verif.Fuse.FolderMount

/-! ## the host -/

/-- Where a path leads: nowhere, through the mount point, or to a place, which is in the covered folder or not. -/
inductive Res where
  | missing
  | through
  | found (pos : Path) (covered : Bool)
  deriving DecidableEq, Repr

/-- Following components (path_resolution(7), mount_namespaces(7)) if there is a mount at `R`: `covered` says that the position is in the folder below
the mount. Its `..` leads out of it, and from outside there is no way into it. -/
def down (node : Path → Option Node) (R : Path) (jump : Path → Bool → List Str → Res) (follow : Bool) : Path → Bool → List Str → Res
  | pos, covered, [] => .found pos covered
  | pos, covered, c :: rest =>
    if node pos ≠ some .folder then .missing
    else if c = [] ∨ c = ['.'] then down node R jump follow pos covered rest
    else if c = ['.', '.'] then down node R jump follow pos.dropLast (covered && decide (pos ≠ R)) rest
    else if covered = false ∧ pos ++ [c] = R then .through
    else
      match node (pos ++ [c]) with
      | none => .missing
      | some (.link t) =>
        if rest = [] ∧ follow = false then .found (pos ++ [c]) covered
        else if t.head? = some '/' then jump [] false (split '/' t ++ rest)
        else jump pos covered (split '/' t ++ rest)
      | some _ => down node R jump follow (pos ++ [c]) covered rest

/-- Path resolution with at most this number of symbolic links (path_resolution(7)). -/
def walk (node : Path → Option Node) (R : Path) (follow : Bool) : Nat → Path → Bool → List Str → Res
  | 0 => down node R (fun _ _ _ => .missing) follow
  | k + 1 => down node R (walk node R follow k) follow

/-! ## the mount source -/

/-- `lookup` (folder.py:101-128) after `set_folder_descriptor` (folder.py:40-48); `none` if a system call does not return. `os.path.realpath` gives the
path from the root of the host, as it begins with the path of the working directory, and `os.stat` follows it from there. -/
def lookup (fs : FS) (R : Path) (path : Str) (version : Int) : Option (Option Folder.Info) :=
  if version ≠ 0 ∧ version ≠ 1 then some none
  else
    match walk fs.node R false maxLinks R true (parts path) with
    | .through => none
    | .missing => some none
    | .found p _ =>
      match fs.node p with
      | some (.link t) =>
        if Folder.isabs t = false ∧ Folder.maxUpCount t > Folder.depth path then
          match walk fs.node R true maxLinks R true (parts path) with
          | .through => none
          | .missing => some (some ⟨fs.stat p, t, lstrip '/' path⟩)
          | .found q _ =>
            match walk fs.node R true maxLinks [] false (split '/' (canonical q)) with
            | .through => none
            | .missing => some none
            | .found r _ => some (some ⟨fs.stat r, [], canonical q⟩)
        else some (some ⟨fs.stat p, t, lstrip '/' path⟩)
      | _ => some (some ⟨fs.stat p, [], lstrip '/' path⟩)

/-- `get_file_path` and `open` (folder.py:166-173, 194-198): the inode of the file; `none` if a system call does not return. -/
def openPath (fs : FS) (R : Path) (path : Str) : Option (Option Nat) :=
  match (if Folder.isabs path then walk fs.node R true maxLinks [] false (split '/' path) else walk fs.node R true maxLinks R true (parts path)) with
  | .through => none
  | .missing => some none
  | .found p _ =>
    match fs.node p with
    | some (.file ino) => some (some ino)
    | _ => some none

/-- `os.path.isdir` and `os.scandir` in `list` and `list_mode` (folder.py:131-160); `none` if a system call does not return. -/
def entries (fs : FS) (R : Path) (path : Str) : Option (Option (List Str)) :=
  match walk fs.node R true maxLinks R true (parts path) with
  | .through => none
  | .missing => some none
  | .found p _ => some (if fs.node p = some .folder then some (fs.entries p) else none)

/-! ## specification -/

/-- The folder is mounted over itself and is not the root of the host. -/
structure Over (fs : FS) (R : Path) : Prop where
  tree : Tree fs
  folder : fs.node R = some .folder
  proper : R ≠ []

/-- C220 as claimed: looking up a path and reading a folder never waits for the mount itself. -/
def C220_statement : Prop :=
  ∀ (fs : FS) (R cs : Path), Over fs R → (∀ n ∈ cs, IsName n) → lookup fs R (canonical cs) 0 ≠ none ∧ entries fs R (canonical cs) ≠ none

/-! ## path resolution -/

/-- What the resolution without the mount gives. -/
def Agrees (r : Res) (q : Option Path) : Prop := r = .through ∨ (r = .missing ∧ q = none) ∨ ∃ p b, r = .found p b ∧ q = some p

theorem down_agrees (node : Path → Option Node) (R : Path) {jump : Path → Bool → List Str → Res} {jump' : Path → List Str → Option Path} (follow : Bool)
    (hj : ∀ pos b cs, Agrees (jump pos b cs) (jump' pos cs)) : ∀ (cs pos : Path) (b : Bool),
    Agrees (down node R jump follow pos b cs) (FolderMount.down node jump' follow pos cs) := by
  intro cs
  induction cs with
  | nil => intro pos b; exact .inr (.inr ⟨pos, b, rfl, rfl⟩)
  | cons c cs ih =>
    intro pos b
    rw [down, FolderMount.down]
    split
    · exact .inr (.inl ⟨rfl, rfl⟩)
    · split
      · exact ih pos b
      · split
        · exact ih _ _
        · split
          · exact .inl rfl
          · cases node (pos ++ [c]) with
            | none => exact .inr (.inl ⟨rfl, rfl⟩)
            | some k =>
              cases k with
              | file i => exact ih _ _
              | folder => exact ih _ _
              | special => exact ih _ _
              | link t =>
                simp only
                split
                · exact .inr (.inr ⟨_, _, rfl, rfl⟩)
                · split <;> exact hj _ _ _

theorem walk_agrees (node : Path → Option Node) (R : Path) (follow : Bool) : ∀ (j : Nat) (pos : Path) (b : Bool) (cs : List Str),
    Agrees (walk node R follow j pos b cs) (FolderMount.walk node follow j pos cs) := by
  intro j
  induction j with
  | zero => intro pos b cs; exact down_agrees node R follow (fun _ _ _ => .inr (.inl ⟨rfl, rfl⟩)) cs pos b
  | succ j ih => intro pos b cs; exact down_agrees node R follow ih cs pos b

theorem walk_found {node : Path → Option Node} {R : Path} {follow : Bool} {j : Nat} {pos : Path} {b : Bool} {cs : List Str} {q : Path} {b' : Bool}
    (h : walk node R follow j pos b cs = .found q b') : FolderMount.walk node follow j pos cs = some q := by
  rcases walk_agrees node R follow j pos b cs with h1 | ⟨h1, -⟩ | ⟨p, b'', h1, h2⟩
  · rw [h] at h1; cases h1
  · rw [h] at h1; cases h1
  · rw [h] at h1; cases h1; exact h2

theorem walk_missing {node : Path → Option Node} {R : Path} {follow : Bool} {j : Nat} {pos : Path} {b : Bool} {cs : List Str}
    (h : walk node R follow j pos b cs = .missing) : FolderMount.walk node follow j pos cs = none := by
  rcases walk_agrees node R follow j pos b cs with h1 | ⟨-, h1⟩ | ⟨p, b'', h1, h2⟩
  · rw [h] at h1; cases h1
  · exact h1
  · rw [h] at h1; cases h1

/-- A place is covered exactly if it is below the mount point. -/
theorem down_inside {node : Path → Option Node} {R : Path} (hR : R ≠ []) {jump : Path → Bool → List Str → Res} {follow : Bool}
    (hj : ∀ pos b cs q b', (b = true ↔ R <+: pos) → jump pos b cs = .found q b' → (b' = true ↔ R <+: q)) : ∀ (cs pos : Path) (b : Bool) (q : Path) (b' : Bool),
    (b = true ↔ R <+: pos) → down node R jump follow pos b cs = .found q b' → (b' = true ↔ R <+: q) := by
  have hstep : ∀ (pos : Path) (b : Bool) (c : Str), (b = true ↔ R <+: pos) → ¬ (b = false ∧ pos ++ [c] = R) → (b = true ↔ R <+: pos ++ [c]) := by
    intro pos b c h hn
    cases b with
    | true => exact ⟨fun _ => (h.mp rfl).trans (List.prefix_append _ _), fun _ => rfl⟩
    | false =>
      refine ⟨fun e => (by cases e), ?_⟩
      intro hp
      rcases List.prefix_concat_iff.mp hp with e | hp
      · exact absurd ⟨rfl, e.symm⟩ hn
      · exact h.mpr hp
  intro cs
  induction cs with
  | nil => intro pos b q b' h e; cases e; exact h
  | cons c cs ih =>
    intro pos b q b' h e
    rw [down] at e
    split at e
    · cases e
    · split at e
      · exact ih pos b q b' h e
      · split at e
        · refine ih _ _ q b' ?_ e
          rw [Bool.and_eq_true, decide_eq_true_eq]
          constructor
          · rintro ⟨h1, h2⟩
            obtain ⟨t, ht⟩ := h.mp h1
            rcases List.eq_nil_or_concat t with rfl | ⟨t', x, rfl⟩
            · rw [List.append_nil] at ht
              exact absurd ht.symm h2
            · rw [List.concat_eq_append, ← List.append_assoc] at ht
              rw [← ht, List.dropLast_concat]
              exact List.prefix_append _ _
          · intro hp
            refine ⟨h.mpr (hp.trans (List.dropLast_prefix pos)), ?_⟩
            rintro rfl
            have h1 := hp.length_le
            rw [List.length_dropLast] at h1
            have h2 := List.length_pos_iff.mpr hR
            omega
        · split at e
          · cases e
          · next hn =>
            split at e
            · cases e
            · split at e
              · cases e
                exact hstep pos b c h hn
              · split at e
                · refine hj _ _ _ q b' ?_ e
                  exact ⟨fun e => (by cases e), fun hp => absurd (List.prefix_nil.mp hp) hR⟩
                · exact hj _ _ _ q b' h e
            · exact ih _ _ q b' (hstep pos b c h hn) e

theorem walk_inside {node : Path → Option Node} {R : Path} (hR : R ≠ []) (follow : Bool) : ∀ (j : Nat) (pos : Path) (b : Bool) (cs : List Str) (q : Path)
    (b' : Bool), (b = true ↔ R <+: pos) → walk node R follow j pos b cs = .found q b' → (b' = true ↔ R <+: q) := by
  intro j
  induction j with
  | zero => intro pos b cs q b' h e; exact down_inside hR (fun _ _ _ _ _ _ e => by cases e) cs pos b q b' h e
  | succ j ih => intro pos b cs q b' h e; exact down_inside hR ih cs pos b q b' h e

/-- In the covered folder, names of folders lead to them. -/
theorem down_names {node : Path → Option Node} {R : Path} (jump : Path → Bool → List Str → Res) (follow : Bool) (b : Bool) (rest : List Str) :
    ∀ (cs pos : Path), (∀ n ∈ cs, IsName n) → (∀ k, k ≤ cs.length → node (pos ++ cs.take k) = some .folder) →
    (b = false → ∀ k, k ≤ cs.length → 0 < k → pos ++ cs.take k ≠ R) →
    down node R jump follow pos b (cs ++ rest) = down node R jump follow (pos ++ cs) b rest := by
  intro cs
  induction cs with
  | nil => intro pos _ _ _; simp
  | cons c cs ih =>
    intro pos hn hf hb
    have h0 := hf 0 (by simp)
    have h1 := hf 1 (by simp)
    simp only [List.take_zero, List.append_nil] at h0
    simp only [List.take_succ_cons, List.take_zero] at h1
    have hc := hn c List.mem_cons_self
    rw [List.cons_append, down, if_neg (by simp [h0]), if_neg (by rintro (h | h); exact hc.1 h; exact hc.2.2.1 h), if_neg hc.2.2.2,
      if_neg (by rintro ⟨h, h'⟩; exact hb h 1 (by simp) (by omega) (by simpa using h')), h1]
    simp only
    rw [ih (pos ++ [c]) (fun n h => hn n (List.mem_cons_of_mem _ h)) (fun k hk => by
      have := hf (k + 1) (by simp; omega)
      simpa using this) (fun h k hk hk0 => by
      have := hb h (k + 1) (by simp; omega) (by omega)
      simpa using this)]
    simp

/-- In the covered folder, a path without links leads where it says. -/
theorem down_real {fs : FS} (h : Tree fs) {R : Path} (jump : Path → Bool → List Str → Res) (follow : Bool) {cs : Path} (hp : Placed fs R cs) {k : Node}
    (hk : fs.node (R ++ cs) = some k) (hl : follow = true → ∀ t, k ≠ .link t) : down fs.node R jump follow R true cs = .found (R ++ cs) true := by
  obtain ⟨hR, hn, hc⟩ := hp
  rcases List.eq_nil_or_concat cs with rfl | ⟨ds, c, rfl⟩
  · simp [down]
  · rw [List.concat_eq_append] at *
    have hf : fs.node (R ++ ds) = some .folder := by
      rcases hc with hc | hc
      · simp at hc
      · simpa using hc
    have hcn := hn c (by simp)
    rw [down_names jump follow true [c] ds R (fun n hm => hn n (by simp [hm])) (fun k hk => h.below hf k hk) (fun e => by cases e), down,
      if_neg (by simp [hf]), if_neg (by rintro (e | e); exact hcn.1 e; exact hcn.2.2.1 e), if_neg hcn.2.2.2, if_neg (by rintro ⟨e, -⟩; cases e),
      List.append_assoc, hk]
    cases k with
    | link t =>
      simp only
      cases follow with
      | false => simp
      | true => exact absurd rfl (hl rfl t)
    | file i => simp [down]
    | folder => simp [down]
    | special => simp [down]

theorem down_none {fs : FS} (h : Tree fs) {R : Path} (jump : Path → Bool → List Str → Res) (follow : Bool) {cs : Path} (hp : Placed fs R cs)
    (hk : fs.node (R ++ cs) = none) : down fs.node R jump follow R true cs = .missing := by
  obtain ⟨hR, hn, hc⟩ := hp
  rcases List.eq_nil_or_concat cs with rfl | ⟨ds, c, rfl⟩
  · simp [hR] at hk
  · rw [List.concat_eq_append] at *
    have hf : fs.node (R ++ ds) = some .folder := by
      rcases hc with hc | hc
      · simp at hc
      · simpa using hc
    have hcn := hn c (by simp)
    rw [down_names jump follow true [c] ds R (fun n hm => hn n (by simp [hm])) (fun k hk => h.below hf k hk) (fun e => by cases e), down,
      if_neg (by simp [hf]), if_neg (by rintro (e | e); exact hcn.1 e; exact hcn.2.2.1 e), if_neg hcn.2.2.2, if_neg (by rintro ⟨e, -⟩; cases e),
      List.append_assoc, hk]

theorem walk_real {fs : FS} (h : Tree fs) {R : Path} (j : Nat) (follow : Bool) {cs : Path} (hp : Placed fs R cs) {k : Node}
    (hk : fs.node (R ++ cs) = some k) (hl : follow = true → ∀ t, k ≠ .link t) : walk fs.node R follow j R true cs = .found (R ++ cs) true := by
  cases j with
  | zero => exact down_real h _ follow hp hk hl
  | succ j => exact down_real h _ follow hp hk hl

theorem walk_none {fs : FS} (h : Tree fs) {R : Path} (j : Nat) (follow : Bool) {cs : Path} (hp : Placed fs R cs) (hk : fs.node (R ++ cs) = none) :
    walk fs.node R follow j R true cs = .missing := by
  cases j with
  | zero => exact down_none h _ follow hp hk
  | succ j => exact down_none h _ follow hp hk

/-- Passing the mount point from outside. -/
theorem down_through {node : Path → Option Node} {R : Path} (jump : Path → Bool → List Str → Res) (follow : Bool) (rest : List Str) (hR : R ≠ [])
    (hn : ∀ n ∈ R, IsName n) (hf : ∀ k, k < R.length → node (R.take k) = some .folder) : down node R jump follow [] false (R ++ rest) = .through := by
  rcases List.eq_nil_or_concat R with e | ⟨ds, c, e⟩
  · exact absurd e hR
  · rw [List.concat_eq_append] at e
    have hlen : R.length = ds.length + 1 := by rw [e]; simp
    have hds : ∀ k, k ≤ ds.length → R.take k = ds.take k := by
      intro k hk
      rw [e, List.take_append_of_le_length hk]
    have h1 : down node R jump follow [] false (ds ++ (c :: rest)) = down node R jump follow ([] ++ ds) false (c :: rest) := by
      refine down_names jump follow false (c :: rest) ds [] (fun n hm => hn n (by rw [e]; simp [hm])) ?_ ?_
      · intro k hk
        rw [List.nil_append, ← hds k hk]
        exact hf k (by omega)
      · intro _ k hk _ he
        have := congrArg List.length he
        rw [List.nil_append, List.length_take] at this
        omega
    have h2 : R ++ rest = ds ++ (c :: rest) := by
      rw [e, List.append_assoc]
      rfl
    have hc := hn c (by rw [e]; simp)
    have h3 : node ds = some .folder := by
      have := hf ds.length (by omega)
      rw [hds _ (Nat.le_refl _), List.take_length] at this
      exact this
    rw [h2, h1, List.nil_append, down, if_neg (by simp [h3]), if_neg (by rintro (h | h); exact hc.1 h; exact hc.2.2.1 h), if_neg hc.2.2.2,
      if_pos ⟨rfl, e.symm⟩]

/-- A path from the root of the host without links leads where it says, or through the mount point. -/
theorem walk_abs {fs : FS} {R : Path} (ho : Over fs R) (j : Nat) {q : Path} (hq : fs.node q ≠ none) (hl : ∀ t, fs.node q ≠ some (.link t)) :
    walk fs.node R true j [] false q = if R <+: q then .through else .found q false := by
  have hplaced := ho.tree.placed hq
  have key : ∀ jump, down fs.node R jump true [] false q = if R <+: q then .through else .found q false := by
    intro jump
    split
    · next hp =>
      obtain ⟨t, rfl⟩ := hp
      refine down_through jump true t ho.proper (fun n hn => hplaced.2.1 n (by simp [hn])) ?_
      intro k hk
      exact ho.tree.above _ (R.take k) (R.drop k) rfl (by simp; omega) (by rw [List.take_append_drop, ho.folder]; simp)
    · next hp =>
      rcases List.eq_nil_or_concat q with rfl | ⟨ds, c, rfl⟩
      · rfl
      · rw [List.concat_eq_append] at *
        have hf := (ho.tree.parent ds c hq).1
        have hcn := hplaced.2.1 c (by simp)
        rw [down_names jump true false [c] ds [] (fun n hm => hplaced.2.1 n (by simp [hm])) (fun k hk => ho.tree.below (p := []) hf k hk) (by
          intro _ k hk _ he
          rw [List.nil_append] at he
          exact hp (he ▸ (List.take_prefix k ds).trans (List.prefix_append _ _))), List.nil_append, down, if_neg (by simp [hf]),
          if_neg (by rintro (e | e); exact hcn.1 e; exact hcn.2.2.1 e), if_neg hcn.2.2.2, if_neg (by rintro ⟨-, e⟩; exact hp (e ▸ List.prefix_refl _))]
        cases hk : fs.node (ds ++ [c]) with
        | none => exact absurd hk hq
        | some k =>
          cases k with
          | link t => exact absurd hk (hl t)
          | file i => rfl
          | folder => rfl
          | special => rfl
  cases j with
  | zero => exact key _
  | succ j => exact key _

theorem down_slash {fs : FS} {R : Path} (h : Tree fs) (j : Nat) (follow b : Bool) (cs : List Str) :
    walk fs.node R follow j [] b ([] :: cs) = walk fs.node R follow j [] b cs := by
  cases j with
  | zero => simp [walk, down, h.root]
  | succ j => simp [walk, down, h.root]

/-- Splitting the absolute path of a place. -/
theorem split_abs {fs : FS} {R : Path} (h : Tree fs) {q : Path} (hq : fs.node q ≠ none) (j : Nat) (follow b : Bool) :
    walk fs.node R follow j [] b (split '/' (canonical q)) = walk fs.node R follow j [] b q := by
  have hn := (h.placed hq).2.1
  by_cases e : q = []
  · subst e
    have : split '/' (canonical []) = [[], []] := by decide
    rw [this, down_slash h, down_slash h]
  · rw [canonical_eq, split_cons_eq, split_join '/' q e (fun p hp => (hn p hp).2.1), down_slash h]

theorem parts_walk {fs : FS} {R : Path} (hR : fs.node R = some .folder) {cs : Path} (hn : ∀ n ∈ cs, IsName n) (j : Nat) (follow : Bool) :
    walk fs.node R follow j R true (parts (canonical cs)) = walk fs.node R follow j R true cs := by
  rw [parts_canonical hn]
  split
  · next e =>
    subst e
    cases j <;> simp [walk, down, hR]
  · rfl

/-! ## C220 -/

/-- **C220** If a lookup returns, its result is that of the folder before it was covered. -/
theorem C220_same (fs : FS) (R : Path) (ho : Over fs R) (path : Str) (v : Int) (x : Option Folder.Info) (h : lookup fs R path v = some x) :
    Folder.lookup (host fs R) path v = x := by
  unfold lookup at h
  unfold Folder.lookup host
  by_cases hv : v ≠ 0 ∧ v ≠ 1
  · rw [if_pos hv] at h ⊢
    cases h
    rfl
  · rw [if_neg hv] at h ⊢
    simp only
    cases hw : walk fs.node R false maxLinks R true (parts path) with
    | through => rw [hw] at h; cases h
    | missing =>
      rw [hw] at h
      cases h
      rw [walk_missing hw]
      rfl
    | found p b =>
      rw [hw] at h
      rw [walk_found hw]
      simp only [Option.map_some] at h ⊢
      cases hk : fs.node p with
      | none => rw [hk] at h; cases h; rfl
      | some k =>
        rw [hk] at h
        cases k with
        | file i => cases h; rfl
        | folder => cases h; rfl
        | special => cases h; rfl
        | link t =>
          simp only at h ⊢
          split at h
          · next hc =>
            rw [if_pos hc]
            cases hw2 : walk fs.node R true maxLinks R true (parts path) with
            | through => rw [hw2] at h; cases h
            | missing =>
              rw [hw2] at h
              cases h
              rw [walk_missing hw2]
              rfl
            | found q b2 =>
              rw [hw2] at h
              simp only at h
              rw [walk_found hw2]
              obtain ⟨h1, h2⟩ := FolderMount.walk_found ho.tree true maxLinks R (parts path) q ho.folder (walk_found hw2)
              rw [split_abs ho.tree h1, walk_abs ho maxLinks h1 (h2 rfl)] at h
              by_cases hp : R <+: q
              · rw [if_pos hp] at h; cases h
              · rw [if_neg hp] at h; cases h; rfl
          · next hc => rw [if_neg hc]; cases h; rfl

/-- **C220** Looking up a file, a folder, a link that does not lead out of the folder, or nothing returns, and gives what is there. -/
theorem C220_plain (fs : FS) (R : Path) (ho : Over fs R) (cs : Path) (hp : Placed fs R cs)
    (hk : ∀ t, fs.node (R ++ cs) = some (.link t) → t.head? = some '/' ∨ Folder.leaves (cs.length - 1) (split '/' t) = false) (v : Int) (hv : v = 0 ∨ v = 1) :
    lookup fs R (canonical cs) v = some ((fs.node (R ++ cs)).map (fun k => ⟨fs.stat (R ++ cs), targetOf k, join '/' cs⟩)) := by
  have hl := Compose.lstrip_canonical cs (fun n hm => ⟨(hp.2.1 n hm).1, (hp.2.1 n hm).2.1⟩)
  unfold lookup
  rw [if_neg (by omega), parts_walk hp.1 hp.2.1]
  cases h : fs.node (R ++ cs) with
  | none => rw [walk_none ho.tree _ _ hp h]; rfl
  | some k =>
    rw [walk_real ho.tree _ _ hp h (fun e => by cases e), hl]
    simp only [h, Option.map_some]
    cases k with
    | file i => rfl
    | folder => rfl
    | special => rfl
    | link t =>
      have hne : cs ≠ [] := by
        rintro rfl
        rw [List.append_nil, hp.1] at h
        cases h
      simp only
      rw [if_neg]
      · rfl
      · rintro ⟨h1, h2⟩
        have hrel := (Folder.isabs_iff t).mp h1
        rw [depth_canonical hp.2.1 hne] at h2
        have h3 := (Folder.C74_exact t _ hrel).mp h2
        rcases hk t h with h4 | h4
        · exact hrel h4
        · rw [h3] at h4; cases h4

/-- **C220** Looking up a link that leads out of the folder returns exactly if the link leads neither through the mount point nor back into the folder. -/
theorem C220_outward (fs : FS) (R : Path) (ho : Over fs R) (cs : Path) (hp : Placed fs R cs) (t : Str) (hk : fs.node (R ++ cs) = some (.link t))
    (hrel : t.head? ≠ some '/') (hlv : Folder.leaves (cs.length - 1) (split '/' t) = true) (v : Int) (hv : v = 0 ∨ v = 1) :
    lookup fs R (canonical cs) v = none ↔ walk fs.node R true 40 R true cs = .through ∨ ∃ q b, walk fs.node R true 40 R true cs = .found q b ∧ R <+: q := by
  have hne : cs ≠ [] := by
    rintro rfl
    rw [List.append_nil, hp.1] at hk
    cases hk
  unfold lookup maxLinks
  rw [if_neg (by omega), parts_walk hp.1 hp.2.1, walk_real ho.tree _ _ hp hk (fun e => by cases e)]
  simp only [hk]
  rw [if_pos ⟨(Folder.isabs_iff t).mpr hrel, by rw [depth_canonical hp.2.1 hne]; exact (Folder.C74_exact t _ hrel).mpr hlv⟩, parts_walk hp.1 hp.2.1]
  cases hw : walk fs.node R true 40 R true cs with
  | through => simp
  | missing => simp
  | found q b =>
    obtain ⟨h1, h2⟩ := FolderMount.walk_found ho.tree true 40 R cs q ho.folder (walk_found hw)
    simp only
    rw [split_abs ho.tree h1, walk_abs ho 40 h1 (h2 rfl)]
    by_cases hR : R <+: q
    · rw [if_pos hR]
      simp [hR]
    · rw [if_neg hR]
      simp [hR]

/-- **C220** A link that counts as leading out, but leads to a place in the covered folder without passing the mount point, is never returned, and all
others that do not pass the mount point are. -/
theorem C220_outward_covered (fs : FS) (R : Path) (ho : Over fs R) (cs : Path) (hp : Placed fs R cs) (t : Str) (hk : fs.node (R ++ cs) = some (.link t))
    (hrel : t.head? ≠ some '/') (hlv : Folder.leaves (cs.length - 1) (split '/' t) = true) (v : Int) (hv : v = 0 ∨ v = 1)
    (q : Path) (b : Bool) (hw : walk fs.node R true 40 R true cs = .found q b) : lookup fs R (canonical cs) v = none ↔ b = true := by
  rw [C220_outward fs R ho cs hp t hk hrel hlv v hv, walk_inside ho.proper true 40 R true cs q b ⟨fun _ => List.prefix_refl _, fun _ => rfl⟩ hw, hw]
  constructor
  · rintro (h | ⟨q', b', h, h'⟩)
    · cases h
    · cases h; exact h'
  · exact fun h => .inr ⟨q, b, rfl, h⟩

/-- **C220** If a link was looked up and leads out of the folder, then opening the file that it leads to returns, with that file. -/
theorem C220_open_outward (fs : FS) (R : Path) (ho : Over fs R) (cs : Path) (hp : Placed fs R cs) (q : Path) (hout : Outward fs R cs q)
    (v : Int) (hv : v = 0 ∨ v = 1) (x : Option Folder.Info) (hl : lookup fs R (canonical cs) v = some x) :
    ¬ R <+: q ∧ x = some ⟨fs.stat q, [], canonical q⟩ ∧
      openPath fs R (canonical q) = some (match fs.node q with | some (.file ino) => some ino | _ => none) := by
  obtain ⟨t, hk, hrel, hlv, hw⟩ := hout
  have hnot := mt (C220_outward fs R ho cs hp t hk hrel hlv v hv).mpr (by rw [hl]; simp)
  obtain ⟨h1, h2⟩ := FolderMount.walk_found ho.tree true 40 R cs q ho.folder hw
  have hpre : ¬ R <+: q := by
    intro hpre
    rcases walk_agrees fs.node R true 40 R true cs with h3 | ⟨-, h3⟩ | ⟨p, b, h3, h4⟩
    · exact hnot (.inl h3)
    · rw [hw] at h3; cases h3
    · rw [hw] at h4
      cases h4
      exact hnot (.inr ⟨_, b, h3, hpre⟩)
  refine ⟨hpre, ?_, ?_⟩
  · have hs := C220_same fs R ho _ v x hl
    rw [← hs]
    have hne : cs ≠ [] := by
      rintro rfl
      rw [List.append_nil, hp.1] at hk
      cases hk
    have hw0 := FolderMount.walk_real ho.tree 40 false hp hk (fun e => by cases e)
    unfold Folder.lookup
    rw [if_neg (by omega), host_lstat hp, hw0, host_readlink hp hw0, hk]
    simp only [Option.map_some]
    rw [if_pos ⟨(Folder.isabs_iff t).mpr hrel, by rw [depth_canonical hp.2.1 hne]; exact (Folder.C74_exact t _ hrel).mpr hlv⟩, host_resolve hp, hw]
    rfl
  · have habs : Folder.isabs (canonical q) = true := by
      rw [canonical_eq]
      rfl
    unfold openPath
    rw [if_pos habs, split_abs ho.tree h1, walk_abs ho maxLinks h1 (h2 rfl), if_neg hpre]
    simp only
    cases fs.node q with
    | none => rfl
    | some k => cases k <;> rfl

/-- **C220** Opening a file of the folder returns, with that file. -/
theorem C220_open (fs : FS) (R : Path) (ho : Over fs R) (cs : Path) (hp : Placed fs R cs) (ino : Nat) (hk : fs.node (R ++ cs) = some (.file ino)) :
    openPath fs R (join '/' cs) = some (some ino) := by
  unfold openPath
  have hparts : walk fs.node R true maxLinks R true (parts (join '/' cs)) = walk fs.node R true maxLinks R true cs := by
    rw [← parts_walk hp.1 hp.2.1, parts_join hp.2.1, parts_canonical hp.2.1]
  rw [if_neg (by rw [isabs_join hp.2.1]; decide), hparts, walk_real ho.tree _ _ hp hk (fun _ t e => by cases e)]
  simp only [hk]

/-- **C220** Reading a folder returns, with its names. -/
theorem C220_list (fs : FS) (R : Path) (ho : Over fs R) (cs : Path) (hp : Placed fs R cs) (hk : fs.node (R ++ cs) = some .folder) :
    entries fs R (canonical cs) = some (some (fs.entries (R ++ cs))) := by
  unfold entries
  rw [parts_walk hp.1 hp.2.1, walk_real ho.tree _ _ hp hk (fun _ t e => by cases e)]
  simp only [hk, if_pos]

/-- **C220** If reading a folder or opening a file returns, its result is that of the folder before it was covered. -/
theorem C220_same_contents (fs : FS) (R : Path) (path : Str) :
    (∀ x, entries fs R path = some x → ((host fs R).scandir path).map (·.map (·.1)) = x) ∧
      (∀ x, openPath fs R path = some x → FolderMount.openPath fs R path = x) := by
  constructor
  · intro x h
    unfold entries at h
    unfold host
    simp only
    cases hw : walk fs.node R true maxLinks R true (parts path) with
    | through => rw [hw] at h; cases h
    | missing => rw [hw] at h; cases h; rw [SelfBind.walk_missing hw]; rfl
    | found p b =>
      rw [hw] at h
      cases h
      rw [SelfBind.walk_found hw]
      simp only
      split
      · simp [Function.comp_def]
      · rfl
  · intro x h
    unfold openPath at h
    unfold FolderMount.openPath
    by_cases ha : Folder.isabs path = true
    · simp only [if_pos ha] at h ⊢
      cases hw : walk fs.node R true maxLinks [] false (split '/' path) with
      | through => rw [hw] at h; cases h
      | missing => rw [hw] at h; cases h; rw [SelfBind.walk_missing hw]
      | found p b =>
        rw [hw] at h
        rw [SelfBind.walk_found hw]
        simp only at h ⊢
        cases hk : fs.node p with
        | none => rw [hk] at h; cases h; rfl
        | some k => rw [hk] at h; cases k <;> (cases h; rfl)
    · simp only [if_neg ha] at h ⊢
      cases hw : walk fs.node R true maxLinks R true (parts path) with
      | through => rw [hw] at h; cases h
      | missing => rw [hw] at h; cases h; rw [SelfBind.walk_missing hw]
      | found p b =>
        rw [hw] at h
        rw [SelfBind.walk_found hw]
        simp only at h ⊢
        cases hk : fs.node p with
        | none => rw [hk] at h; cases h; rfl
        | some k => rw [hk] at h; cases k <;> (cases h; rfl)

/-! ### violations -/

/-- A folder `/r` with a file, a link to the folder that it is in, a link that leads out and back in, and a link to the file by way of another link. -/
def sample : List (Path × Node) :=
  [([['r']], .folder), ([['o']], .file 1), ([['r'], ['x']], .file 2), ([['r'], ['u']], .link "..".toList), ([['r'], ['b']], .link "../r/x".toList),
    ([['r'], ['d']], .folder), ([['r'], ['d'], ['e']], .folder), ([['r'], ['n']], .link "d/e".toList), ([['r'], ['i']], .link "n/../../x".toList),
    ([['r'], ['f']], .link "../o".toList)]

theorem sample_over : Over (ofTable sample) [['r']] := ⟨tree_ofTable sample (by decide +kernel), by decide +kernel, by decide⟩

/-- **C220 is violated by the code**: a link to the folder above is shown as a folder, in which the mount point is listed, and looking that up never
returns. -/
theorem C220_violated : ¬ C220_statement := by
  intro h
  refine (h (ofTable sample) [['r']] [['u'], ['r']] sample_over (by unfold IsName; decide)).1 ?_
  decide +kernel

/-- **C220 is violated by the code**: looking up a link that leads out of the folder and back in never returns, and neither does looking up a link to a
file of the folder by way of another link, although it does not leave the folder. -/
theorem C220_back_violated : lookup (ofTable sample) [['r']] "/b".toList 0 = none ∧ FolderMount.walk (ofTable sample).node true 40 [['r']] [['b']] = some [['r'], ['x']] ∧
    lookup (ofTable sample) [['r']] "/i".toList 0 = none ∧ FolderMount.walk (ofTable sample).node true 40 [['r']] [['i']] = some [['r'], ['x']] ∧
    walk (ofTable sample).node [['r']] true 40 [['r']] true [['i']] = .found [['r'], ['x']] true := by
  refine ⟨by decide +kernel, by decide +kernel, by decide +kernel, by decide +kernel, by decide +kernel⟩

/-! ### examples -/

example : Placed (ofTable sample) [['r']] [['f']] ∧ Outward (ofTable sample) [['r']] [['f']] [['o']] ∧
    (lookup (ofTable sample) [['r']] "/f".toList 0).isSome = true :=
  ⟨⟨by decide +kernel, by unfold IsName; decide, Or.inr (by decide +kernel)⟩,
    ⟨"../o".toList, by decide +kernel, by decide +kernel, by decide +kernel, by decide +kernel⟩, by decide +kernel⟩

example : entries (ofTable sample) [['r']] "/u".toList = some (some [['r'], ['o']]) := by decide +kernel

example : Placed (ofTable sample) [['r']] [['d'], ['e']] ∧ (ofTable sample).node [['r'], ['d'], ['e']] = some .folder :=
  ⟨⟨by decide +kernel, by unfold IsName; decide, Or.inr (by decide +kernel)⟩, by decide +kernel⟩

end Verif.Fuse.SelfBind
