import Verif.Fuse.TarFiles
import Verif.Overlay.History

/-!
# C193: packed files with a write overlay on top

The mount of `Verif.Fuse.TarFiles` is put below the write overlay of `Verif.Overlay.Model` (FuseMount.py:225-297). The table of
the overlay's model for what is below is what the calls of the mount below answer. The special folders with versions of files are not in the table.
-/

namespace Verif.Overlay.OverTar

open Verif.Py Verif.Index Verif.Overlay
open Verif.Tar (Bytes)
open Verif.Fuse.TarMount (Mount Call mgetattr mreadlink mopen mread calls start place)
open Verif.Fuse.TarFiles (Packing Packed Batches mounted bytesOf Inside lastFile Leads bits)
open Verif.Tar.Header (File)
open Verif.Compose (Source dotVersions)

/-! ## model -/

/-- `mountSource.open(mountSource.lookup(path)).read()` through the mount below (WriteOverlay.py:163-169). -/
def contents (src : Source) (m : Mount) (p : Path) (size : Nat) : Bytes :=
  match mopen src m (canonical p) with
  | (m', .ok fh) =>
    match (mread m' fh size 0).2 with
    | .ok d => d
    | .error _ => []
  | (_, .error _) => []

/-- The kind in the mode (FuseMount.py:655-675). -/
def kindOf (mode : Nat) : Kind :=
  if mode &&& 0o170000 = 0o040000 then .dir else if mode &&& 0o170000 = 0o120000 then .link else if mode &&& 0o170000 = 0o100000 then .file else .special

/-- What the calls of the mount below tell about a path (WriteOverlay.py:71-100). The owner and the time are not part of the mount below. -/
def inodeOf (src : Source) (m : Mount) (p : Path) : Option Inode :=
  match mgetattr src (canonical p) with
  | .error _ => none
  | .ok (mode, size) =>
    some ⟨kindOf mode, if kindOf mode = .file then contents src m p size else [], if kindOf mode = .link then (mreadlink src (canonical p)).toOption.getD [] else [],
      ⟨mode, 0, 0, 0⟩⟩

/-- The mount below at the given paths (WriteOverlay.py:71-100). -/
def lowerOf (src : Source) (m : Mount) (ps : List Path) : Dict Path Inode := ps.filterMap (fun p => (inodeOf src m p).map (fun i => (p, i)))

/-- The overlay over the mount below; `get_mount_source` reports the root because there is no recursive mounting (FuseMount.py:225-297). -/
def over (src : Source) (m : Mount) (ps : List Path) (openOther : Inode → Except PyErr Bytes) (newAttrs : Nat → Meta) : Cfg :=
  ⟨lowerOf src m ps, openOther, newAttrs, fun _ => 0⟩

/-! ## specification -/

/-- Files and all folders they are in. -/
def pathsOf (fs : List File) : List Path := fs.flatMap (fun f => ancestors (place f.name))

/-- Following hard links. -/
def resolve (fs : List File) : Nat → List Str → Option File
  | 0, ns => (lastFile fs ns).bind (fun f => if f.kind = .hardlink then none else some f)
  | n + 1, ns => (lastFile fs ns).bind (fun f => if f.kind = .hardlink then resolve fs n (place f.link) else some f)

/-- What is shown for a file. -/
def shownAs (f : File) : Shown :=
  match f.kind with
  | .folder => .dir
  | .symlink => .link f.link
  | _ => .file f.data

/-- The tree that was packed. -/
def treeOf (fs : List File) : Tree := fun p =>
  if p = [] then some .dir
  else if (lastFile fs p).isSome then (resolve fs 128 p).map shownAs
  else if fs.any (fun f => p.isPrefixOf (place f.name)) then some .dir
  else none

/-- No name is special and every hard link leads to something. -/
structure Plain (fs : List File) : Prop where
  names : ∀ f ∈ fs, ∀ n ∈ place f.name, endsWith dotVersions n = false
  links : ∀ ns f, ns ≠ [] → lastFile fs ns = some f → ∃ k g, k ≤ 128 ∧ Leads fs k ns g

/-! ## lemmas -/

theorem lower_get (src : Source) (m : Mount) (ps : List Path) (p : Path) :
    Dict.get? (lowerOf src m ps) p = if p ∈ ps then inodeOf src m p else none := by
  induction ps with
  | nil => rfl
  | cons q ps ih =>
    unfold lowerOf at ih ⊢
    rw [List.filterMap_cons]
    cases hq : inodeOf src m q with
    | none =>
      simp only [Option.map_none]
      rw [ih]
      by_cases h : p = q
      · subst h
        rw [hq, ite_self, ite_self]
      · simp [h]
    | some i =>
      simp only [Option.map_some]
      unfold Dict.get?
      by_cases h : q = p
      · subst h
        rw [if_pos rfl, if_pos List.mem_cons_self, hq]
      · rw [if_neg h, ih]
        have : p ≠ q := fun h' => h h'.symm
        simp [this]

theorem resolve_leads {fs : List File} {k : Nat} {ns : List Str} {f : File} (h : Leads fs k ns f) : ∀ n, k ≤ n → resolve fs n ns = some f := by
  induction h with
  | here ns f hne hl ht =>
    intro n _
    cases n <;> unfold resolve <;> rw [hl] <;> simp [ht]
  | link k ns g f hne hl ht hlink hother hr ih =>
    intro n hn
    cases n with
    | zero => omega
    | succ n =>
      unfold resolve
      rw [hl]
      simp only [Option.bind_some, ht, if_true]
      exact ih n (by omega)

theorem leads_kind {fs : List File} {k : Nat} {ns : List Str} {f : File} (h : Leads fs k ns f) : f ∈ fs ∧ f.kind ≠ .hardlink := by
  induction h with
  | here ns f hne hl ht =>
    exact ⟨(List.mem_filter.mp (List.mem_of_getLast? hl)).1, ht⟩
  | link k ns g f hne hl ht hlink hother hr ih => exact ih

theorem mem_ancestors (q p : Path) : q ∈ ancestors p ↔ q ≠ [] ∧ q <+: p := by
  unfold ancestors
  rw [List.mem_map]
  constructor
  · rintro ⟨k, hk, rfl⟩
    rw [List.mem_range] at hk
    refine ⟨?_, List.take_prefix _ _⟩
    intro h
    have := congrArg List.length h
    rw [List.length_take, List.length_nil] at this
    omega
  · rintro ⟨hne, hp⟩
    have hl := hp.length_le
    have h0 := List.length_pos_iff.mpr hne
    refine ⟨q.length - 1, List.mem_range.mpr (by omega), ?_⟩
    rw [show q.length - 1 + 1 = q.length by omega]
    exact (List.prefix_iff_eq_take.mp hp).symm

theorem mem_pathsOf (fs : List File) (p : Path) : p ∈ pathsOf fs ↔ p ≠ [] ∧ ∃ f ∈ fs, p <+: place f.name := by
  unfold pathsOf
  rw [List.mem_flatMap]
  constructor
  · rintro ⟨f, hf, h⟩
    rw [mem_ancestors] at h
    exact ⟨h.1, f, hf, h.2⟩
  · rintro ⟨h1, f, hf, h2⟩
    exact ⟨f, hf, (mem_ancestors _ _).mpr ⟨h1, h2⟩⟩

theorem lastFile_mem {fs : List File} {ns : List Str} {f : File} (h : lastFile fs ns = some f) : f ∈ fs ∧ place f.name = ns := by
  have := List.mem_filter.mp (List.mem_of_getLast? h)
  exact ⟨this.1, of_decide_eq_true this.2⟩

theorem prefix_cases {fs : List File} {p : Path} (hl : lastFile fs p = none) (h : ∃ f ∈ fs, p <+: place f.name) : Inside fs p := by
  obtain ⟨f, hf, t, ht⟩ := h
  cases t with
  | nil =>
    exfalso
    rw [List.append_nil] at ht
    unfold lastFile at hl
    rw [List.getLast?_eq_none_iff, List.filter_eq_nil_iff] at hl
    exact hl f hf (decide_eq_true ht.symm)
  | cons n rest => exact ⟨f, hf, n, rest, ht.symm⟩

theorem kindOf_bits (f : File) (hm : f.mode < 4096) (hk : f.kind ≠ .hardlink) :
    kindOf (f.mode ||| bits f.kind) = match f.kind with | .folder => .dir | .symlink => .link | _ => .file := by
  have key : ∀ (x y : Nat), x < 4096 → (x ||| (y <<< 12)) &&& 0o170000 = (y <<< 12) &&& 0o170000 := by
    intro x y hx
    apply Nat.eq_of_testBit_eq
    intro i
    rw [Nat.testBit_and, Nat.testBit_or, Nat.testBit_and]
    by_cases hi : i < 12
    · have : Nat.testBit 0o170000 i = false := by
        have : i = 0 ∨ i = 1 ∨ i = 2 ∨ i = 3 ∨ i = 4 ∨ i = 5 ∨ i = 6 ∨ i = 7 ∨ i = 8 ∨ i = 9 ∨ i = 10 ∨ i = 11 := by omega
        rcases this with rfl | rfl | rfl | rfl | rfl | rfl | rfl | rfl | rfl | rfl | rfl | rfl <;> decide
      rw [this, Bool.and_false, Bool.and_false]
    · have : x.testBit i = false := Nat.testBit_lt_two_pow (Nat.lt_of_lt_of_le hx (by
        have : (4096 : Nat) = 2 ^ 12 := by decide
        rw [this]
        exact Nat.pow_le_pow_right (by decide) (by omega)))
      rw [this, Bool.false_or]
  unfold kindOf
  cases hk' : f.kind with
  | hardlink => exact absurd hk' hk
  | folder =>
    have := key f.mode 4 hm
    rw [show bits .folder = 4 <<< 12 from rfl, this]
    rfl
  | symlink =>
    have := key f.mode 10 hm
    rw [show bits .symlink = 10 <<< 12 from rfl, this]
    rfl
  | file =>
    have := key f.mode 8 hm
    rw [show bits .file = 8 <<< 12 from rfl, this]
    rfl

section
variable {esc : Bytes → Str} {ign : Bool} {ws : Packing} {zeros : Nat} {bs : List (List Index.Row)}

theorem names_ok {fs : List File} {p : Path} (h : ∃ f ∈ fs, p <+: place f.name) : ∀ x ∈ p, IsName x := by
  obtain ⟨f, -, hp⟩ := h
  intro x hx
  exact Fuse.TarMount.place_names f.name x (hp.subset hx)

/-- What the calls tell about something that was packed. -/
theorem inode_leads (hp : Packed ws) (hb : Batches esc ign (bytesOf ws zeros) bs) {k : Nat} {ns : List Str} {f : File}
    (hl : Leads (ws.map (fun p => p.1)) k ns f) (hk : k ≤ 128) (hn : ∀ x ∈ ns, IsName x) (before : List Call) :
    ∃ i, inodeOf (mounted esc ign (bytesOf ws zeros) bs) (calls (mounted esc ign (bytesOf ws zeros) bs) (start (bytesOf ws zeros)) before) ns =
      some i ∧ i.shown = shownAs f := by
  obtain ⟨h1, h2⟩ := Fuse.TarFiles.C190_attributes hp hb hl hk hn
  obtain ⟨m, fh, h3, h4⟩ := Fuse.TarFiles.C190_read hp hb hl hk hn before
  obtain ⟨hf, hkind⟩ := leads_kind hl
  have hmode : f.mode < 4096 := by
    obtain ⟨q, hq, rfl⟩ := List.mem_map.mp hf
    exact (hp.ok q hq).mode
  have hkk := kindOf_bits f hmode hkind
  unfold inodeOf
  rw [h1]
  refine ⟨_, rfl, ?_⟩
  unfold Inode.shown shownAs
  simp only
  rw [hkk, h2]
  cases hc : f.kind with
  | hardlink => exact absurd hc hkind
  | folder => rfl
  | symlink => rfl
  | file =>
    have h5 := h4 [] f.data.length 0
    simp only [if_true]
    unfold contents
    rw [h3]
    show Shown.file (match (mread (calls (mounted esc ign (bytesOf ws zeros) bs) m []) fh f.data.length 0).2 with | .ok d => d | .error _ => []) = _
    rw [h5]
    show Shown.file (List.take f.data.length (List.drop 0 f.data)) = _
    rw [List.drop_zero, List.take_length]

/-- The tree below the overlay is the tree that was packed. -/
theorem lower_tree (hp : Packed ws) (hpl : Plain (ws.map (fun p => p.1))) (hb : Batches esc ign (bytesOf ws zeros) bs) (before : List Call)
    (openOther : Inode → Except PyErr Bytes) (newAttrs : Nat → Meta) :
    lowerTree (over (mounted esc ign (bytesOf ws zeros) bs) (calls (mounted esc ign (bytesOf ws zeros) bs) (start (bytesOf ws zeros)) before)
      (pathsOf (ws.map (fun p => p.1))) openOther newAttrs) = treeOf (ws.map (fun p => p.1)) := by
  funext p
  unfold lowerTree treeOf over
  simp only
  by_cases hne : p = []
  · rw [if_pos hne, if_pos hne]
  rw [if_neg hne, if_neg hne, lower_get]
  by_cases hmem : ∃ f ∈ ws.map (fun p => p.1), p <+: place f.name
  · rw [if_pos ((mem_pathsOf _ _).mpr ⟨hne, hmem⟩)]
    cases hl : lastFile (ws.map (fun p => p.1)) p with
    | some f =>
      obtain ⟨k, g, hk, hlead⟩ := hpl.links p f hne hl
      obtain ⟨i, h1, h2⟩ := inode_leads hp hb hlead hk (names_ok hmem) before
      rw [h1, if_pos Option.isSome_some, resolve_leads hlead 128 hk]
      simp only [Option.map_some, h2]
    | none =>
      have hin := prefix_cases hl hmem
      have hv : ∀ x ∈ p, endsWith dotVersions x = false := by
        obtain ⟨f, hf, hpre⟩ := hmem
        exact fun x hx => hpl.names f hf x (hpre.subset hx)
      have h1 := (Fuse.TarFiles.C190_others hp hb (names_ok hmem) hv hne hl).1 hin
      have hany : (ws.map (fun p => p.1)).any (fun f => p.isPrefixOf (place f.name)) = true := by
        rw [List.any_eq_true]
        obtain ⟨f, hf, hpre⟩ := hmem
        exact ⟨f, hf, List.isPrefixOf_iff_prefix.mpr hpre⟩
      rw [if_neg (by simp), if_pos hany]
      unfold inodeOf
      rw [h1]
      rfl
  · rw [if_neg (fun h => hmem ((mem_pathsOf _ _).mp h).2)]
    have hl : lastFile (ws.map (fun p => p.1)) p = none := by
      cases hl : lastFile (ws.map (fun p => p.1)) p with
      | none => rfl
      | some f =>
        obtain ⟨h1, h2⟩ := lastFile_mem hl
        exact absurd ⟨f, h1, by rw [h2]; exact List.prefix_refl _⟩ hmem
    have hany : (ws.map (fun p => p.1)).any (fun f => p.isPrefixOf (place f.name)) = false := by
      rw [List.any_eq_false]
      intro f hf hpre
      exact hmem ⟨f, hf, List.isPrefixOf_iff_prefix.mp hpre⟩
    rw [hl, hany]
    rfl

/-- Everything is in a folder. -/
theorem tree_closed (hp : Packed ws) : Closed (treeOf (ws.map (fun p => p.1))) := by
  intro p n h
  by_cases hne : p = []
  · subst hne; rfl
  have hin : ∃ f ∈ ws.map (fun p => p.1), (p ++ [n]) <+: place f.name := by
    unfold treeOf at h
    rw [if_neg (by simp)] at h
    split at h
    · next hs =>
      cases hl : lastFile (ws.map (fun p => p.1)) (p ++ [n]) with
      | none => rw [hl] at hs; cases hs
      | some f =>
        obtain ⟨h1, h2⟩ := lastFile_mem hl
        exact ⟨f, h1, by rw [h2]; exact List.prefix_refl _⟩
    · split at h
      · next ha =>
        rw [List.any_eq_true] at ha
        obtain ⟨f, hf, hpre⟩ := ha
        exact ⟨f, hf, List.isPrefixOf_iff_prefix.mp hpre⟩
      · exact absurd rfl h
  obtain ⟨f, hf, t, ht⟩ := hin
  have hins : Inside (ws.map (fun p => p.1)) p := ⟨f, hf, n, t, by rw [← ht]; simp⟩
  have hany : (ws.map (fun p => p.1)).any (fun f => p.isPrefixOf (place f.name)) = true := by
    rw [List.any_eq_true]
    exact ⟨f, hf, List.isPrefixOf_iff_prefix.mpr ⟨[n] ++ t, by rw [← ht]; simp⟩⟩
  unfold treeOf
  rw [if_neg hne]
  cases hl : lastFile (ws.map (fun p => p.1)) p with
  | none => rw [if_neg (by simp), if_pos hany]
  | some g =>
    obtain ⟨h1, h2⟩ := lastFile_mem hl
    obtain ⟨q, hq, rfl⟩ := List.mem_map.mp h1
    have hk := hp.tree q hq (by rw [h2]; exact hins)
    rw [if_pos Option.isSome_some]
    have hr : resolve (ws.map (fun p => p.1)) 128 p = some q.1 := by
      unfold resolve
      rw [hl]
      simp [hk]
    rw [hr]
    unfold shownAs
    rw [Option.map_some, hk]

end

/-! ## C193 -/

/-- **C193**: the mount of packed files with a fresh write overlay on top shows, after every history of calls that are not broken, what an ordinary
file system shows to which the packed files were extracted and on which the same calls were made, and reading gives the contents of its
files. Missing: the calls that are broken, see `Works`. -/
theorem C193_history_partial {esc : Bytes → Str} {ign : Bool} {ws : Packing} {zeros : Nat} {bs : List (List Index.Row)} (hp : Packed ws)
    (hpl : Plain (ws.map (fun p => p.1))) (hb : Batches esc ign (bytesOf ws zeros) bs) (before : List Call)
    (openOther : Inode → Except PyErr Bytes) (newAttrs : Nat → Meta) (a : Meta) {ops : List Op} {s' : St} {c : Cfg}
    (hc : c = over (mounted esc ign (bytesOf ws zeros) bs)
      (calls (mounted esc ign (bytesOf ws zeros) bs) (start (bytesOf ws zeros)) before) (pathsOf (ws.map (fun p => p.1))) openOther newAttrs)
    (hr : Run c (St.fresh a) ops s') :
    shown c s' = ops.foldl Tree.step (treeOf (ws.map (fun p => p.1))) ∧
      ∀ p d, ops.foldl Tree.step (treeOf (ws.map (fun p => p.1))) p = some (.file d) →
        ∀ offset size, readFile c s' p offset size = .ok ((d.drop offset).take size) := by
  have ht : lowerTree c = treeOf (ws.map (fun p => p.1)) := by rw [hc]; exact lower_tree hp hpl hb before openOther newAttrs
  have hcl : Closed (lowerTree c) := by rw [ht]; exact tree_closed hp
  have h1 := C46_history_partial a hcl hr
  rw [ht] at h1
  refine ⟨h1, ?_⟩
  intro p d hd offset size
  exact C46_read (run_refines (fresh_inv a hcl) hr).1 p d (by rw [h1]; exact hd) offset size

/-! ## a concrete history -/

/-- The files of `Verif.Fuse.TarFiles.demo`. -/
def demoFiles : List File := Fuse.TarFiles.demo.map (fun p => p.1)

theorem demo_last (ns : List Str) (f : File) (h : lastFile demoFiles ns = some f) :
    (f = Fuse.TarFiles.longFile ∧ ns = [List.replicate 300 'n']) ∨ (f = Fuse.TarFiles.folder ∧ ns = [['a'], ['b']]) ∨
      (f = Fuse.TarFiles.hardFile ∧ ns = [['b'], ['é']]) := by
  obtain ⟨h1, h2⟩ := lastFile_mem h
  have hlong : place Fuse.TarFiles.longFile.name = [List.replicate 300 'n'] := by decide +kernel
  have hfold : place Fuse.TarFiles.folder.name = [['a'], ['b']] := by decide
  have hhard : place Fuse.TarFiles.hardFile.name = [['b'], ['é']] := by decide
  simp only [demoFiles, Fuse.TarFiles.demo, List.map_cons, List.map_nil, List.mem_cons, List.not_mem_nil, or_false] at h1
  rcases h1 with rfl | rfl | rfl
  · exact .inl ⟨rfl, by rw [← h2, hlong]⟩
  · exact .inr (.inl ⟨rfl, by rw [← h2, hfold]⟩)
  · exact .inr (.inr ⟨rfl, by rw [← h2, hhard]⟩)

theorem demo_plain : Plain demoFiles where
  names := by decide +kernel
  links := by
    intro ns f hne hl
    rcases demo_last ns f hl with ⟨rfl, rfl⟩ | ⟨rfl, rfl⟩ | ⟨rfl, rfl⟩
    · exact ⟨0, _, by decide, .here _ _ hne hl (by decide)⟩
    · exact ⟨0, _, by decide, .here _ _ hne hl (by decide)⟩
    · exact ⟨1, _, by decide, Fuse.TarFiles.demo_leads⟩

/-- The overlay over the mounted files. -/
def demoOver (esc : Bytes → Str) : Cfg :=
  over (mounted esc false (bytesOf Fuse.TarFiles.demo 1024) (Fuse.TarFiles.demoBatches esc))
    (calls (mounted esc false (bytesOf Fuse.TarFiles.demo 1024) (Fuse.TarFiles.demoBatches esc)) (start (bytesOf Fuse.TarFiles.demo 1024))
      [.open "/b/é".toList, .read 1 2 0]) (pathsOf demoFiles) (fun _ => .ok []) (fun mode => ⟨mode, 0, 0, 0⟩)

def demoAttrs : Meta := ⟨0o40755, 0, 0, 0⟩

/-- C193: the hard link, which has the data of the file with the long name, is overwritten, the folder is removed, and a file is created in its place;
reading gives the new contents. -/
example (esc : Bytes → Str) : ∃ s', Run (demoOver esc) (St.fresh demoAttrs)
      [.write [['b'], ['é']] 1 [7], .rmdir [['a'], ['b']], .create [['a'], ['b']] 0o644] s' ∧
    readFile (demoOver esc) s' [['b'], ['é']] 0 10 = .ok [1, 7, 3] := by
  have ht : lowerTree (demoOver esc) = treeOf demoFiles :=
    lower_tree Fuse.TarFiles.demo_packed demo_plain (Fuse.TarFiles.demo_batches esc) _ _ _
  have hcl : Closed (lowerTree (demoOver esc)) := by rw [ht]; exact tree_closed Fuse.TarFiles.demo_packed
  have hI := fresh_inv demoAttrs hcl
  have h0 : shown (demoOver esc) (St.fresh demoAttrs) = treeOf demoFiles := by rw [fresh_shown, ht]
  have l1 : treeOf demoFiles [['b'], ['é']] = some (.file [1, 2, 3]) := by decide +kernel
  have l2 : treeOf demoFiles [['a'], ['b']] = some .dir := by decide +kernel
  have l3 : treeOf demoFiles [['a']] = some .dir := by decide +kernel
  have L1 : Legal (shown (demoOver esc) (St.fresh demoAttrs)) (.write [['b'], ['é']] 1 [7]) := ⟨_, by rw [h0]; exact l1⟩
  obtain ⟨s1, e1, i1, t1⟩ := step_refines hI _ L1 trivial
  have t1' : shown (demoOver esc) s1 = (treeOf demoFiles).at [['b'], ['é']] (some (.file [1, 7, 3])) := by
    rw [t1, h0]
    simp only [Tree.step, l1]
    rfl
  have L2 : Legal (shown (demoOver esc) s1) (.rmdir [['a'], ['b']]) := by
    refine ⟨by decide, ?_, ?_⟩
    · rw [t1']
      unfold Tree.at
      rw [if_neg (by decide)]
      exact l2
    · intro n
      rw [t1']
      unfold Tree.at
      rw [if_neg (by simp)]
      unfold treeOf
      have hl : lastFile demoFiles ([['a'], ['b']] ++ [n]) = none := by
        cases hl : lastFile demoFiles ([['a'], ['b']] ++ [n]) with
        | none => rfl
        | some f =>
          rcases demo_last _ f hl with ⟨-, h⟩ | ⟨-, h⟩ | ⟨-, h⟩
          · exact absurd (congrArg List.length h) (show ¬ 3 = 1 by decide)
          · exact absurd (congrArg List.length h) (show ¬ 3 = 2 by decide)
          · exact absurd (congrArg List.length h) (show ¬ 3 = 2 by decide)
      have ha : demoFiles.any (fun f => ([['a'], ['b']] ++ [n]).isPrefixOf (place f.name)) = false := by
        rw [List.any_eq_false]
        intro f hf hpre
        have hlen := (List.isPrefixOf_iff_prefix.mp hpre).length_le
        have : ∀ f ∈ demoFiles, (place f.name).length ≤ 2 := by decide +kernel
        have := this f hf
        simp at hlen
        omega
      rw [if_neg (by simp), hl, ha]
      rfl
  obtain ⟨s2, e2, i2, t2⟩ := step_refines i1 _ L2 trivial
  have t2' : shown (demoOver esc) s2 = ((treeOf demoFiles).at [['b'], ['é']] (some (.file [1, 7, 3]))).at [['a'], ['b']] none := by
    rw [t2, t1']; rfl
  have L3 : Legal (shown (demoOver esc) s2) (.create [['a'], ['b']] 0o644) := by
    refine ⟨by decide, ?_, ?_⟩
    · rw [t2']; exact if_pos rfl
    · rw [t2']
      unfold Tree.at
      rw [if_neg (by decide), if_neg (by decide)]
      exact l3
  obtain ⟨s3, e3, i3, t3⟩ := step_refines i2 _ L3 trivial
  have hr : Run (demoOver esc) (St.fresh demoAttrs) [.write [['b'], ['é']] 1 [7], .rmdir [['a'], ['b']], .create [['a'], ['b']] 0o644] s3 :=
    .cons L1 trivial e1 (.cons L2 trivial e2 (.cons L3 trivial e3 (.nil _)))
  refine ⟨s3, hr, ?_⟩
  have := (C193_history_partial Fuse.TarFiles.demo_packed demo_plain (Fuse.TarFiles.demo_batches esc) [.open "/b/é".toList, .read 1 2 0] (fun _ => .ok [])
    (fun mode => ⟨mode, 0, 0, 0⟩) demoAttrs (c := demoOver esc) rfl hr).2 [['b'], ['é']] [1, 7, 3] (by decide +kernel) 0 10
  exact this

/-- A history of calls that are all allowed on what is shown. -/
inductive Allowed (c : Cfg) : St → List Op → St → Prop where
  | nil (s : St) : Allowed c s [] s
  | cons {s s1 s2 : St} {op : Op} {ops : List Op} {r : Except PyErr Unit} : Legal (shown c s) op → step c s op = (s1, r) → Allowed c s1 ops s2 →
      Allowed c s (op :: ops) s2

/-- C193 as claimed. -/
def C193_statement : Prop :=
  ∀ (esc : Bytes → Str) (ign : Bool) (ws : Packing) (zeros : Nat) (bs : List (List Index.Row)), Packed ws → Plain (ws.map (fun p => p.1)) →
    Batches esc ign (bytesOf ws zeros) bs → ∀ (before : List Call) (openOther : Inode → Except PyErr Bytes) (newAttrs : Nat → Meta) (a : Meta)
      (ops : List Op) (s' : St) (c : Cfg),
      c = over (mounted esc ign (bytesOf ws zeros) bs) (calls (mounted esc ign (bytesOf ws zeros) bs) (start (bytesOf ws zeros)) before)
        (pathsOf (ws.map (fun p => p.1))) openOther newAttrs → Allowed c (St.fresh a) ops s' →
      shown c s' = ops.foldl Tree.step (treeOf (ws.map (fun p => p.1)))

/-- C193 is violated: a symbolic link cannot be created in a folder that is only in the archive. -/
theorem C193_violated : ¬ C193_statement := by
  intro h
  have ht : lowerTree (demoOver (fun _ => [])) = treeOf demoFiles :=
    lower_tree Fuse.TarFiles.demo_packed demo_plain (Fuse.TarFiles.demo_batches _) _ _ _
  have h0 : shown (demoOver (fun _ => [])) (St.fresh demoAttrs) = treeOf demoFiles := by rw [fresh_shown, ht]
  have l1 : treeOf demoFiles [['a'], ['b']] = some .dir := by decide +kernel
  have l2 : treeOf demoFiles [['a'], ['b'], ['l']] = none := by decide +kernel
  have hs : step (demoOver (fun _ => [])) (St.fresh demoAttrs) (.symlink [['a'], ['b'], ['l']] ['x']) = (St.fresh demoAttrs, .error ENOENT) := rfl
  have := h (fun _ => []) false Fuse.TarFiles.demo 1024 _ Fuse.TarFiles.demo_packed demo_plain (Fuse.TarFiles.demo_batches _)
    [.open "/b/é".toList, .read 1 2 0] (fun _ => .ok []) (fun mode => ⟨mode, 0, 0, 0⟩) demoAttrs [.symlink [['a'], ['b'], ['l']] ['x']]
    (St.fresh demoAttrs) (demoOver (fun _ => [])) rfl (.cons (by rw [h0]; exact ⟨by decide, l2, l1⟩) hs (.nil _))
  rw [h0] at this
  have := congrFun this [['a'], ['b'], ['l']]
  rw [show treeOf demoFiles [['a'], ['b'], ['l']] = none from l2] at this
  cases this

end Verif.Overlay.OverTar
