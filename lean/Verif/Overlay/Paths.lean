import Verif.Overlay.Witness
import Verif.Index.Normpath

/-!
# C50, C52: paths, listings and the files of the database
-/

namespace Verif.Overlay

open Verif.Py Verif.Index

variable {c : Cfg} {s : St}

/-! ## rows are found by path and name

The rows are keyed by lists of names in the model. The code splits the path. -/

/-- `_split_path` (WriteOverlay.py:145-149). -/
def splitPath (path : Str) : Str × Str := (rsplit1 '/' ('/' :: lstrip '/' (posixNormpath path))).getD ([], [])

/-- The column `path` of the entries of a folder: `path.rstrip('/')` in `list_deleted` (WriteOverlay.py:199). -/
def folderKey (p : Path) : Str := rstrip '/' (canonical p)

theorem join_concat (ns : List Str) (n : Str) (h : ns ≠ []) : join '/' (ns ++ [n]) = join '/' ns ++ '/' :: n := by
  induction ns with
  | nil => exact absurd rfl h
  | cons a ns ih =>
    cases ns with
    | nil => simp [join]
    | cons b ns =>
      have := ih (by simp)
      simp only [List.cons_append, join] at this ⊢
      rw [this]; simp

theorem join_split_names (ns : List Str) (h : ∀ n ∈ ns, IsName n) : walk [] (split '/' (join '/' ns)) = ns := by
  cases ns with
  | nil => simp [join, split, walk]
  | cons a ns =>
    rw [split_join '/' _ (by simp) (fun p hp => (h p hp).2.1), walk_names _ _ h]; rfl

/-- The rows of the entries of a folder are those whose column `path` is the key of the folder, and the column `name` is
the name: no two paths share a row. -/
theorem splitPath_canonical (p : Path) (n : Str) (h : ∀ x ∈ p ++ [n], IsName x) :
    splitPath (canonical (p ++ [n])) = (folderKey p, n) := by
  have h1 : '/' :: lstrip '/' (posixNormpath (canonical (p ++ [n]))) = canonical (p ++ [n]) := by
    have := (C14_canonical (join '/' (p ++ [n]))).1
    unfold normpath at this
    rw [join_split_names _ h] at this
    rw [canonical_eq]
    rw [canonical_eq] at this
    exact this
  have hn : '/' ∉ n := (h n (by simp)).2.1
  unfold splitPath folderKey
  rw [h1]
  cases p with
  | nil =>
    rw [canonical_eq]
    simp only [List.nil_append, join]
    have := rsplit1_append (c := '/') [] n hn
    simp only [List.nil_append] at this
    rw [this, canonical_eq]
    simp [join, rstrip]
  | cons a p =>
    rw [canonical_eq, join_concat _ _ (by simp), ← List.cons_append, rsplit1_append _ _ hn, ← canonical_eq]
    simp only [Option.getD_some, Prod.mk.injEq, and_true]
    unfold rstrip
    obtain ⟨x, hx⟩ := split_path (a :: p) (by simp)
    have hlast : ∃ l y, canonical (a :: p) = l ++ [y] ∧ y ≠ '/' := by
      have hxn : IsName x := h x (by rw [hx]; simp)
      obtain ⟨x', y, rfl⟩ : ∃ x' y, x = x' ++ [y] := by
        rcases List.eq_nil_or_concat x with rfl | ⟨x', y, rfl⟩
        · exact absurd rfl hxn.1
        · exact ⟨x', y, by simp⟩
      rw [hx, canonical_eq]
      by_cases hd : (a :: p).dropLast = []
      · rw [hd]
        exact ⟨'/' :: x', y, by simp [join], fun he => hxn.2.1 (by simp [he])⟩
      · rw [join_concat _ _ hd]
        exact ⟨'/' :: join '/' (a :: p).dropLast ++ '/' :: x', y, by simp, fun he => hxn.2.1 (by simp [he])⟩
    obtain ⟨l, y, hl, hy⟩ := hlast
    rw [hl]
    simp [hy]

theorem folderKey_injective (p q : Path) (hp : ∀ n ∈ p, IsName n) (hq : ∀ n ∈ q, IsName n)
    (h : folderKey p = folderKey q) : p = q := by
  -- the key of a folder is the canonical path of the folder, without the slash of the root
  have key : ∀ r : Path, (∀ n ∈ r, IsName n) → ∀ x : Str, IsName x → splitPath (canonical (r ++ [x])) = (folderKey r, x) :=
    fun r hr x hx => splitPath_canonical r x (by
      intro y hy
      rcases List.mem_append.mp hy with hy | hy
      · exact hr y hy
      · rw [List.mem_singleton.mp hy]; exact hx)
  have hx : IsName ['a'] := by unfold IsName; decide
  have full : ∀ r : Path, (∀ n ∈ r, IsName n) → folderKey r ++ '/' :: ['a'] = canonical (r ++ [['a']]) := by
    intro r hr
    have h1 := key r hr ['a'] hx
    have h2 : '/' :: lstrip '/' (posixNormpath (canonical (r ++ [['a']]))) = canonical (r ++ [['a']]) := by
      have := (C14_canonical (join '/' (r ++ [['a']]))).1
      unfold normpath at this
      rw [join_split_names _ (by
        intro y hy
        rcases List.mem_append.mp hy with hy | hy
        · exact hr y hy
        · rw [List.mem_singleton.mp hy]; exact hx)] at this
      rw [canonical_eq] at this ⊢
      exact this
    unfold splitPath at h1
    rw [h2] at h1
    cases hs : rsplit1 '/' (canonical (r ++ [['a']])) with
    | none =>
      rw [rsplit1_none, canonical_eq] at hs
      exact absurd (by simp) hs
    | some ab =>
      obtain ⟨a, b⟩ := ab
      rw [hs] at h1
      simp only [Option.getD_some, Prod.mk.injEq] at h1
      rw [(rsplit1_some hs).1, h1.1, h1.2]
  have hc : canonical (p ++ [['a']]) = canonical (q ++ [['a']]) := by rw [← full p hp, ← full q hq, h]
  have hpw : ∀ r : Path, (∀ n ∈ r, IsName n) → walk [] (split '/' (canonical (r ++ [['a']]))) = r ++ [['a']] := by
    intro r hr
    have hr' : ∀ n ∈ r ++ [['a']], IsName n := by
      intro y hy
      rcases List.mem_append.mp hy with hy | hy
      · exact hr y hy
      · rw [List.mem_singleton.mp hy]; exact hx
    rw [canonical_eq, split_cons_eq]
    have := join_split_names _ hr'
    simpa [walk] using this
  have := (hpw p hp).symm.trans (by rw [hc, hpw q hq])
  exact (List.append_inj' this rfl).1

/-! ## C52: listings and lookups -/

/-- Every name a listing shows can be looked up, and every visible entry is listed. -/
def C52_statement : Prop :=
  ∀ (c : Cfg) (s : St), Inv c s → LowerClosed c → ∀ p n, shown c s p = some .dir →
    (n ∈ readdir c s p ↔ shown c s (p ++ [n]) ≠ none)

/-- C52 for all names but those of the database. -/
theorem C52_listing_partial (hI : Inv c s) (hlow : LowerClosed c) (p : Path) (n : Str) (hn : n ∉ databaseNames) :
    n ∈ readdir c s p ↔ shown c s (p ++ [n]) ≠ none := by
  have hv : shown c s (p ++ [n]) ≠ none ↔ isDeleted s (p ++ [n]) = false ∧ ms c s (p ++ [n]) ≠ none := by
    unfold shown view
    cases isDeleted s (p ++ [n]) <;> simp
  rw [hv]
  unfold readdir
  rw [List.mem_filter]
  simp only [Bool.not_eq_true', List.contains_eq_mem, decide_eq_false_iff_not, mem_listDeleted s p n hn,
    Bool.not_eq_true]
  constructor
  · rintro ⟨h1, h2⟩; exact ⟨h2, mem_msList s p n h1⟩
  · rintro ⟨h1, h2⟩; exact ⟨mem_msList_of hlow p n h2 hI.wf, h1⟩

/-- Every listed name can be looked up, with all names. -/
theorem C52_listed (p : Path) (n : Str) (h : n ∈ readdir c s p) : shown c s (p ++ [n]) ≠ none := by
  unfold readdir at h
  obtain ⟨h1, h2⟩ := List.mem_filter.mp h
  simp only [Bool.not_eq_true', List.contains_eq_mem, decide_eq_false_iff_not] at h2
  have hd : isDeleted s (p ++ [n]) = false := by
    cases hd : isDeleted s (p ++ [n]) with
    | false => rfl
    | true => exact absurd (mem_listDeleted_of s p n hd) h2
  have hm := mem_msList s p n h1
  unfold shown view
  rw [hd]
  cases hm' : ms c s (p ++ [n]) with
  | none => exact absurd hm' hm
  | some i => simp

theorem demo_lowerClosed (f : Inode → Except PyErr Bytes) : LowerClosed (demo f) := by
  intro p n h
  have := demo_closed f p n (by
    unfold lowerTree
    rw [if_neg (by simp)]
    cases hg : Dict.get? (demo f).lower (p ++ [n]) with
    | none => exact absurd hg h
    | some i => simp)
  unfold lowerTree at this
  by_cases hp : p = []
  · subst hp; exact ⟨demoDir, rfl, rfl⟩
  · rw [if_neg hp] at this
    obtain ⟨i, hi, hs⟩ := Option.map_eq_some_iff.mp this
    exact ⟨i, hi, (shown_dir_iff i).mp hs⟩

example : ['f'] ∈ readdir demoTar demoStart [['d']] :=
  (C52_listing_partial (c := demoTar) (demo_inv _) (demo_lowerClosed _) _ _ (by decide)).mpr (by decide +kernel)

/-- C52 is violated: a file with the name of the database that a user creates in another folder is not listed. -/
theorem C52_violated : ¬ C52_statement := by
  intro h
  have hI := inv_step (demo_inv (fun _ => .ok [])) (.create [['d'], ".ratarmount.overlay.sqlite".toList] 0o644)
    (show Vacant _ _ from ⟨by decide, by decide +kernel, by decide +kernel⟩) trivial
  have := (h demoTar _ hI (demo_lowerClosed _) [['d']] ".ratarmount.overlay.sqlite".toList (by decide +kernel)).mpr
    (by decide +kernel)
  revert this
  decide +kernel

/-! ## C50: the files of the database -/

/-- The operation names the path. -/
def Op.names (p : Path) : Op → Prop
  | .create q _ | .mkdir q _ | .symlink q _ | .mknod q _ | .unlink q | .rmdir q | .write q _ _ | .truncate q _
  | .chmod q _ | .chown q _ _ | .utimens q _ => q = p
  | .rename old new => old = p ∨ new = p

/-- The database of the overlay and the files that sqlite makes beside it. -/
def databaseFiles : List Str :=
  [".ratarmount.overlay.sqlite".toList, ".ratarmount.overlay.sqlite-journal".toList, ".ratarmount.overlay.sqlite-shm".toList,
    ".ratarmount.overlay.sqlite-wal".toList]

/-- No operation through the mount can read, list, change or delete the overlay's own database files. -/
def C50_statement : Prop :=
  ∀ (c : Cfg) (s : St), Inv c s → ∀ name ∈ databaseFiles, s.host.node [name] ≠ none →
    shown c s [name] = none ∧ name ∉ readdir c s [] ∧ ∀ op, (step c s op).1.host.node [name] = s.host.node [name]

/-- C50 for listings: none has one of the names, in any folder and any state. -/
theorem C50_list_partial (p : Path) (name : Str) (h : name ∈ databaseFiles) : name ∉ readdir c s p := by
  unfold readdir
  rw [List.mem_filter]
  rintro ⟨-, h2⟩
  simp only [Bool.not_eq_true', List.contains_eq_mem, decide_eq_false_iff_not] at h2
  exact h2 (List.mem_append_right _ (show name ∈ databaseNames from h))

theorem step_other (t : Tree) (op : Op) (p : Path) (h : ¬ op.names p) : (t.step op) p = t p := by
  cases op with
  | rename old new =>
    simp only [Op.names, not_or] at h
    simp only [Tree.step, Tree.at, if_neg h.1, if_neg h.2]
  | write q offset data =>
    simp only [Op.names] at h
    simp only [Tree.step]
    cases hq : t q with
    | none => rfl
    | some x => cases x <;> simp [Tree.at, h]
  | truncate q n =>
    simp only [Op.names] at h
    simp only [Tree.step]
    cases hq : t q with
    | none => rfl
    | some x => cases x <;> simp [Tree.at, h]
  | chmod q m => rfl
  | chown q u g => rfl
  | utimens q m => rfl
  | create q m => simp only [Op.names] at h; simp only [Tree.step, Tree.at, if_neg h]
  | mkdir q m => simp only [Op.names] at h; simp only [Tree.step, Tree.at, if_neg h]
  | symlink q m => simp only [Op.names] at h; simp only [Tree.step, Tree.at, if_neg h]
  | mknod q m => simp only [Op.names] at h; simp only [Tree.step, Tree.at, if_neg h]
  | unlink q => simp only [Op.names] at h; simp only [Tree.step, Tree.at, if_neg h]
  | rmdir q => simp only [Op.names] at h; simp only [Tree.step, Tree.at, if_neg h]

/-- C50 for histories that do not name the file: its content stays. Missing: calls that name it. -/
theorem C50_others_partial {s' : St} {ops : List Op} (hI : Inv c s) (hr : Run c s ops s') (name : Str)
    (h : ∀ op ∈ ops, ¬ op.names [name]) : shown c s' [name] = shown c s [name] := by
  rw [(run_refines hI hr).2]
  clear hr hI
  generalize shown c s = t
  induction ops generalizing t with
  | nil => rfl
  | cons op ops ih =>
    rw [List.foldl_cons, ih (fun o ho => h o (by simp [ho])), step_other _ _ _ (h op (by simp))]

/-- A mount with the database file in its overlay folder. -/
def demoDatabase : St := { demoStart with host := demoStart.host.insert [".ratarmount.overlay.sqlite".toList] (demoFile [1]) }

theorem demo_database : Inv demoTar demoDatabase :=
  (inserted (demo_inv (fun _ => .ok [])) (p := [".ratarmount.overlay.sqlite".toList]) (s := demoStart) (by decide +kernel)
    (by decide +kernel) (by decide +kernel) (demoFile [1]) (by decide +kernel) demoStart.rows (by
      intro q
      split
      · next h => rw [← h]; decide +kernel
      · rfl)).1

/-- C50 is violated: the database can be looked up, and read, under its name. -/
theorem C50_violated : ¬ C50_statement := by
  intro h
  have := (h demoTar demoDatabase demo_database ".ratarmount.overlay.sqlite".toList (by decide) (by decide +kernel)).1
  revert this
  decide +kernel

/-- C50 is violated: the database can be deleted, and truncated. -/
theorem C50_deleted_violated : ¬ ∀ (c : Cfg) (s : St), Inv c s → ∀ name ∈ databaseFiles, s.host.node [name] ≠ none →
    ∀ op, (step c s op).1.host.node [name] = s.host.node [name] := by
  intro h
  have := h demoTar demoDatabase demo_database ".ratarmount.overlay.sqlite".toList (by decide) (by decide +kernel)
    (.unlink [".ratarmount.overlay.sqlite".toList])
  revert this
  decide +kernel

end Verif.Overlay
