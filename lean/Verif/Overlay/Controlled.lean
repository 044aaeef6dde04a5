import Verif.Overlay.MoveFolder
import Verif.Overlay.Paths

/-!
# C210: the control interface with a write overlay (ratarmount/WriteOverlay.py:24-47, 82-86, 295-475, ratarmount/FuseMount.py:227-269, 842-877)

With `--control-interface` the folder `/.ratarmount-control` with the files `command` and `output` is mounted over everything else. Most methods of
the write overlay refuse paths below it. The files of the control interface are in the table of what lies below the overlay folder. In the
code they lie above it, which is the same as long as the overlay folder has nothing at their paths; the theorems show that this stays so.
-/

namespace Verif.Overlay.Controlled

open Verif.Py Verif.Index Verif.Overlay

/-! ## model -/

/-- `_controlLayerPrefix` (FuseMount.py:134). -/
def layerPrefix : Str := "/.ratarmount-control/".toList

/-- One element of `ignoredPrefixes` (WriteOverlay.py:82-86). -/
def ignoredPrefix (p : Str) : Str := posixNormpath ('/' :: rstrip '/' (lstrip '/' p)) ++ ['/']

/-- The list given to the overlay (FuseMount.py:265-270, WriteOverlay.py:82-86). -/
def ignoredPrefixes (control : Bool) : List Str := if control then [ignoredPrefix layerPrefix] else []

/-- `check_ignored_prefixes` (WriteOverlay.py:24-47). -/
def guarded (ign : List Str) (p : Path) (s : St) (r : St × Except PyErr Unit) : St × Except PyErr Unit :=
  if ign.any (fun pre => startsWith pre (canonical p)) then (s, .error .fileNotFound) else r

/-- Calls to the mount: those of `Op`, and hard links (WriteOverlay.py:295-461). -/
inductive Call where
  | op (o : Op)
  | link (p source : Path)
  deriving DecidableEq

/-- `truncate` (FuseMount.py:847-856) with the check (WriteOverlay.py:445-449). -/
def truncateCall (control : Bool) (c : Cfg) (s : St) (p : Path) (n : Nat) : St × Except PyErr Unit :=
  if control && startsWith layerPrefix (canonical p) then (s, .ok ())
  else guarded (ignoredPrefixes control) p s (truncate c s p n)

/-- Opening, writing once and closing (FuseMount.py:776-791, 858-877): what is written to the command file does not reach the overlay. For other
files the overlay opens the file (WriteOverlay.py:397-409). -/
def writeCall (control : Bool) (c : Cfg) (s : St) (p : Path) (offset : Nat) (data : Bytes) : St × Except PyErr Unit :=
  if control && canonical p == "/.ratarmount-control/command".toList then (s, .ok ())
  else guarded (ignoredPrefixes control) p s (writeFile c s p offset data)

/-- One call with or without control interface (WriteOverlay.py:295-461): `rename` has no check (WriteOverlay.py:323-345). -/
def call (control : Bool) (c : Cfg) (s : St) : Call → St × Except PyErr Unit
  | .op (.truncate p n) => truncateCall control c s p n
  | .op (.write p offset data) => writeCall control c s p offset data
  | .op (.rename old new) => rename c s old new
  | .op (.create p mode) => guarded (ignoredPrefixes control) p s (createFile c s p mode)
  | .op (.mkdir p mode) => guarded (ignoredPrefixes control) p s (mkdir c s p mode)
  | .op (.unlink p) => guarded (ignoredPrefixes control) p s (unlink c s p)
  | .op (.rmdir p) => guarded (ignoredPrefixes control) p s (rmdir c s p)
  | .op (.chmod p mode) => guarded (ignoredPrefixes control) p s (chmod c s p mode)
  | .op (.chown p uid gid) => guarded (ignoredPrefixes control) p s (chown c s p uid gid)
  | .op (.utimens p mtime) => guarded (ignoredPrefixes control) p s (utimens c s p mtime)
  | .op (.symlink p target) => guarded (ignoredPrefixes control) p s (symlink c s p target)
  | .op (.mknod p mode) => guarded (ignoredPrefixes control) p s (mknod c s p mode)
  | .link p source => guarded (ignoredPrefixes control) p s (link c s p source)

/-- Calls after each other (WriteOverlay.py:295-461). -/
def calls (control : Bool) (c : Cfg) (s : St) (cs : List Call) : St := cs.foldl (fun s x => (call control c s x).1) s

/-! ## specification -/

/-- The folder of the control interface. -/
def folder : Str := ".ratarmount-control".toList

/-- The path lies in the folder. -/
def Inside (p : Path) : Prop := ∃ n rest, p = folder :: n :: rest

/-- The path is the folder or lies in it. -/
def Within (p : Path) : Prop := ∃ rest, p = folder :: rest

/-- The paths that a call changes. -/
def Call.changes : Call → List Path
  | .op (.create p _) | .op (.mkdir p _) | .op (.unlink p) | .op (.rmdir p) | .op (.write p _ _) | .op (.truncate p _) | .op (.chmod p _)
  | .op (.chown p _ _) | .op (.utimens p _) | .op (.symlink p _) | .op (.mknod p _) => [p]
  | .op (.rename old new) => [old, new]
  | .link p _ => [p]

/-- The call moves something. -/
def Call.moves : Call → Bool
  | .op (.rename _ _) => true
  | _ => false

/-- All names in the paths are names. -/
def Call.Named (x : Call) : Prop := ∀ p ∈ x.changes, ∀ n ∈ p, IsName n

/-- Renames do not touch the control interface: the old path is not in its folder, and the new one neither the root, nor the folder, nor in it. -/
def Call.Apart : Call → Prop
  | .op (.rename old new) => ¬ Inside old ∧ new ≠ [] ∧ ¬ Within new
  | _ => True

/-- The folder itself is not touched either, except for its attributes, or in vain for removing it; the kernel knows that it is there and a
folder. -/
def Call.Spares (x : Call) : Prop :=
  match x with
  | .op (.chmod _ _) | .op (.chown _ _ _) | .op (.utimens _ _) | .op (.rmdir _) => True
  | _ => [folder] ∉ x.changes

/-- The overlay has nothing for the paths in the folder. -/
def Clear (s : St) : Prop := ∀ p, Inside p → Dict.get? s.host.entries p = none ∧ Dict.get? s.rows p = none

/-! ## lemmas: paths -/

theorem ignored_eq : ignoredPrefix layerPrefix = "/.ratarmount-control/".toList := by decide +kernel

theorem cut_unique {a b r t : Str} (ha : '/' ∉ a) (hb : '/' ∉ b) (h : a ++ '/' :: r = b ++ '/' :: t) : a = b := by
  induction a generalizing b with
  | nil =>
    cases b with
    | nil => rfl
    | cons y b =>
      simp only [List.nil_append, List.cons_append, List.cons.injEq] at h
      exact absurd (by rw [h.1]; simp) hb
  | cons x a ih =>
    cases b with
    | nil =>
      simp only [List.nil_append, List.cons_append, List.cons.injEq] at h
      exact absurd (by rw [← h.1]; simp) ha
    | cons y b =>
      simp only [List.cons_append, List.cons.injEq] at h
      rw [h.1, ih (fun hx => ha (by simp [hx])) (fun hx => hb (by simp [hx])) h.2]

theorem cut_path {f : Str} (hf : '/' ∉ f) {p : Path} (hn : ∀ n ∈ p, IsName n) :
    '/' :: (f ++ ['/']) <+: canonical p ↔ ∃ n rest, p = f :: n :: rest := by
  constructor
  · rintro ⟨t, ht⟩
    cases p with
    | nil => simp [canonical] at ht
    | cons x p =>
      have hx := (hn x (by simp)).2.1
      cases p with
      | nil =>
        simp only [canonical, join, List.cons_append, List.cons.injEq, true_and, List.append_assoc, List.nil_append] at ht
        exact absurd (by rw [← ht]; simp) hx
      | cons y r =>
        simp only [canonical, join, List.cons_append, List.cons.injEq, true_and, List.append_assoc, List.nil_append] at ht
        have := cut_unique hf hx ht
        exact ⟨y, r, by rw [this]⟩
  · rintro ⟨n, rest, rfl⟩
    exact ⟨join '/' (n :: rest), by simp [canonical, join]⟩

theorem prefix_iff {p : Path} (hn : ∀ n ∈ p, IsName n) : startsWith "/.ratarmount-control/".toList (canonical p) = true ↔ Inside p := by
  have key : startsWith "/.ratarmount-control/".toList (canonical p) = true ↔ "/.ratarmount-control/".toList <+: canonical p := List.isPrefixOf_iff_prefix
  have hsp : "/.ratarmount-control/".toList = '/' :: (folder ++ ['/']) := by decide
  rw [key, hsp]
  exact cut_path (by decide) hn

theorem any_iff {p : Path} (hn : ∀ n ∈ p, IsName n) :
    (ignoredPrefixes true).any (fun pre => startsWith pre (canonical p)) = true ↔ Inside p := by
  unfold ignoredPrefixes
  rw [if_pos rfl, ignored_eq, List.any_cons, List.any_nil, Bool.or_false]
  exact prefix_iff hn

theorem guarded_inside {p : Path} (hn : ∀ n ∈ p, IsName n) (h : Inside p) (s : St) (r : St × Except PyErr Unit) :
    guarded (ignoredPrefixes true) p s r = (s, .error .fileNotFound) := by
  unfold guarded
  rw [if_pos ((any_iff hn).mpr h)]

theorem guarded_outside {p : Path} (hn : ∀ n ∈ p, IsName n) (h : ¬ Inside p) (s : St) (r : St × Except PyErr Unit) :
    guarded (ignoredPrefixes true) p s r = r := by
  unfold guarded
  rw [if_neg (fun hx => h ((any_iff hn).mp hx))]

theorem guarded_off (p : Path) (s : St) (r : St × Except PyErr Unit) : guarded (ignoredPrefixes false) p s r = r := by
  unfold guarded ignoredPrefixes
  simp

theorem write_off (c : Cfg) (s : St) (p : Path) (offset : Nat) (data : Bytes) : writeCall false c s p offset data = writeFile c s p offset data := by
  unfold writeCall
  rw [Bool.false_and, if_neg (by simp), guarded_off]

theorem truncate_off (c : Cfg) (s : St) (p : Path) (n : Nat) : truncateCall false c s p n = truncate c s p n := by
  unfold truncateCall
  rw [Bool.false_and, if_neg (by simp), guarded_off]

theorem command_inside {p : Path} (hn : ∀ n ∈ p, IsName n) (h : canonical p = "/.ratarmount-control/command".toList) : Inside p := by
  rw [← prefix_iff hn, h]
  decide

/-! ## lemmas: the overlay folder -/

/-- No entry at a set of paths. -/
def NoEntry (K : Path → Prop) (h : Host) : Prop := ∀ q, K q → Dict.get? h.entries q = none

section entries

variable {K : Path → Prop} {h h' : Host} {c : Cfg} {s s1 : St} {p : Path}

/-- What is below a path of the set is in the set, too. -/
def Up (K : Path → Prop) : Prop := ∀ p q, p <+: q → K p → K q

theorem insert_no (hK : NoEntry K h) (hp : ¬ K p) (i : Inode) : NoEntry K (h.insert p i) := by
  intro q hq
  simp only [Host.insert, Dict.get?_set]
  rw [if_neg (by rintro rfl; exact hp hq)]
  exact hK q hq

theorem create_no (hK : NoEntry K h) (hp : ¬ K p) {i : Inode} (hc : h.create p i = .ok h') : NoEntry K h' := by
  unfold Host.create at hc
  by_cases hl : h.lexists p = true
  · rw [if_pos hl] at hc; cases hc
  · rw [if_neg hl] at hc
    cases hpe : h.parentError p with
    | some e => rw [hpe] at hc; cases hc
    | none => rw [hpe] at hc; cases hc; exact insert_no hK hp i

theorem openTruncate_no (hK : NoEntry K h) (hp : ¬ K p) {a : Meta} {n : Nat} (ho : h.openTruncate p a = .ok (h', n)) : NoEntry K h' := by
  unfold Host.openTruncate at ho
  cases hg : Dict.get? h.entries p with
  | some k =>
    rw [hg] at ho
    simp only at ho
    cases hk : (h.inode k).kind <;> rw [hk] at ho <;> simp only at ho <;> cases ho
    exact hK
  | none =>
    rw [hg] at ho
    simp only at ho
    cases hpe : h.parentError p with
    | some e => rw [hpe] at ho; cases ho
    | none => rw [hpe] at ho; cases ho; exact insert_no hK hp _

theorem makedirs_no (hK : NoEntry K h) (hp : ∀ q, q <+: p → ¬ K q) {a : Meta} (hm : h.makedirs a p = .ok h') : NoEntry K h' := by
  unfold Host.makedirs at hm
  have hl : ∀ x ∈ ancestors p, ¬ K x := by
    intro x hx
    unfold ancestors at hx
    obtain ⟨k, -, rfl⟩ := List.mem_map.mp hx
    exact hp _ (List.take_prefix _ _)
  generalize ancestors p = l at hm hl
  induction l generalizing h with
  | nil => cases hm; exact hK
  | cons x l ih =>
    rw [List.foldlM_cons] at hm
    cases he : h.ensureDir a x with
    | error e => rw [he] at hm; cases hm
    | ok h1 =>
      rw [he] at hm
      refine ih ?_ hm (fun y hy => hl y (by simp [hy]))
      unfold Host.ensureDir at he
      by_cases hle : h.lexists x = true
      · rw [if_pos hle] at he
        by_cases hd : h.isdir x = true
        · rw [if_pos hd] at he; cases he; exact hK
        · rw [if_neg hd] at he; cases he
      · rw [if_neg hle] at he; exact create_no hK (hl x (by simp)) he

theorem parent_no (hU : Up K) (hp : ¬ K p) : ∀ q, q <+: p.dropLast → ¬ K q :=
  fun q hq hk => hp (hU q p (hq.trans (List.dropLast_prefix p)) hk)

theorem ensureParent_no (hU : Up K) (hK : NoEntry K s.host) (hp : ¬ K p) (h : ensureParent c s p = .ok s1) :
    NoEntry K s1.host ∧ s1.rows = s.rows := by
  unfold ensureParent at h
  split at h
  · cases hm : s.host.makedirs (c.newAttrs 0o777) p.dropLast with
    | error e => rw [hm] at h; cases h
    | ok h' => rw [hm] at h; cases h; exact ⟨makedirs_no hK (parent_no hU hp) hm, rfl⟩
  · cases h; exact ⟨hK, rfl⟩

theorem ensureParent_same (h : ensureParent c s p = .ok s1) : s1.rows = s.rows := by
  unfold ensureParent at h
  split at h
  · cases hm : s.host.makedirs (c.newAttrs 0o777) p.dropLast with
    | error e => rw [hm] at h; cases h
    | ok h' => rw [hm] at h; cases h; rfl
  · cases h; rfl

theorem ensureModifiable_no (hU : Up K) (hK : NoEntry K s.host) (hp : ¬ K p) : NoEntry K (ensureModifiable c s p).1.host := by
  unfold ensureModifiable
  cases h1 : ensureParent c s p with
  | error e => exact hK
  | ok s1 =>
    obtain ⟨k1, -⟩ := ensureParent_no hU hK hp h1
    simp only
    cases h2 : msRead c s1 p with
    | error e => exact k1
    | ok below =>
      simp only
      cases h3 : s1.host.openTruncate p (c.newAttrs 0o666) with
      | error e => exact k1
      | ok hn =>
        obtain ⟨h', n⟩ := hn
        exact fun q hq => openTruncate_no k1 hp h3 q hq

theorem ensureModifiable_rows : (ensureModifiable c s p).1.rows = s.rows := by
  unfold ensureModifiable
  cases h1 : ensureParent c s p with
  | error e => rfl
  | ok s1 =>
    have k1 := ensureParent_same h1
    simp only
    cases h2 : msRead c s1 p with
    | error e => exact k1
    | ok below =>
      simp only
      cases h3 : s1.host.openTruncate p (c.newAttrs 0o666) with
      | error e => exact k1
      | ok hn => exact k1

theorem openRow_no (hU : Up K) (hK : NoEntry K s.host) (hp : ¬ K p) {mode : Nat} (h : openRow c s p mode = .ok s1) : NoEntry K s1.host := by
  unfold openRow at h
  cases h1 : ensureParent c s p with
  | error e => rw [h1] at h; cases h
  | ok s2 => rw [h1] at h; cases h; exact (ensureParent_no hU hK hp h1).1

theorem unhide_other (rows : Dict Path Row) (mode : Nat) {q : Path} (hq : p ≠ q) : Dict.get? (unhide rows p mode) q = Dict.get? rows q := by
  unfold unhide
  split <;> rw [Dict.get?_set, if_neg hq]

theorem openRow_other {mode : Nat} (h : openRow c s p mode = .ok s1) {q : Path} (hq : p ≠ q) : Dict.get? s1.rows q = Dict.get? s.rows q := by
  unfold openRow at h
  cases h1 : ensureParent c s p with
  | error e => rw [h1] at h; cases h
  | ok s2 => rw [h1] at h; cases h; simp only; rw [unhide_other _ _ hq, ensureParent_same h1]

theorem markDeleted_other {q : Path} (hq : p ≠ q) : Dict.get? (markDeleted c s p).rows q = Dict.get? s.rows q := by
  unfold markDeleted
  split
  · simp only; rw [Dict.get?_set, if_neg hq]
  · simp only; rw [get?_without, if_neg hq]

theorem haveRow_same (h : haveRow c s p = .ok s1) : s1.host = s.host ∧ ∀ q, p ≠ q → Dict.get? s1.rows q = Dict.get? s.rows q := by
  unfold haveRow at h
  split at h
  · cases h; exact ⟨rfl, fun _ _ => rfl⟩
  · unfold initRow at h
    cases hm : ms c s p with
    | none => rw [hm] at h; cases h
    | some i => rw [hm] at h; cases h; exact ⟨rfl, fun q hq => by simp only; rw [Dict.get?_set, if_neg hq]⟩

/-- The entries stay the same when attributes are set, and so do the rows of all other paths. -/
theorem setMetadata_same (m : Change) (real : Meta → Meta) :
    (setMetadata c s p m real).1.host.entries = s.host.entries ∧
      ∀ q, p ≠ q → Dict.get? (setMetadata c s p m real).1.rows q = Dict.get? s.rows q := by
  unfold setMetadata
  cases h1 : haveRow c s p with
  | error e => exact ⟨rfl, fun _ _ => rfl⟩
  | ok s1 =>
    obtain ⟨k1, k2⟩ := haveRow_same h1
    simp only
    split
    · exact ⟨by rw [k1], k2⟩
    · refine ⟨?_, ?_⟩
      · simp only
        cases hg : Dict.get? s1.host.entries p with
        | none => simp only [k1]
        | some k => simp only [Host.setInode, k1]
      · intro q hq
        simp only
        cases hg : Dict.get? s1.rows p with
        | none => simp only; exact k2 q hq
        | some r => simp only; rw [Dict.get?_set, if_neg hq]; exact k2 q hq

/-- Setting attributes deletes nothing. -/
theorem setMetadata_alive (m : Change) (real : Meta → Meta) (h : isDeleted s p = false) : isDeleted (setMetadata c s p m real).1 p = false := by
  have hrow : ∀ s1, haveRow c s p = .ok s1 → isDeleted s1 p = false := by
    intro s1 h1
    unfold haveRow at h1
    split at h1
    · cases h1; exact h
    · unfold initRow at h1
      cases hm : ms c s p with
      | none => rw [hm] at h1; cases h1
      | some i => rw [hm] at h1; cases h1; unfold isDeleted; simp only; rw [Dict.get?_set, if_pos rfl]
  unfold setMetadata
  cases h1 : haveRow c s p with
  | error e => exact h
  | ok s1 =>
    have k1 := hrow s1 h1
    simp only
    split
    · exact k1
    · unfold isDeleted at k1 ⊢
      simp only
      cases hg : Dict.get? s1.rows p with
      | none => simp only; rw [hg]
      | some r =>
        simp only
        rw [Dict.get?_set, if_pos rfl]
        rw [hg] at k1
        exact k1

theorem remove_no (hK : NoEntry K h) (p : Path) : NoEntry K { h with entries := without h.entries p } := by
  intro q hq
  simp only [get?_without]
  split
  · rfl
  · exact hK q hq

theorem unlink_no (hK : NoEntry K h) (hu : h.unlink p = .ok h') : NoEntry K h' := by
  unfold Host.unlink at hu
  cases hn : h.node p with
  | none => rw [hn] at hu; cases hu
  | some i =>
    rw [hn] at hu
    simp only at hu
    split at hu
    · cases hu
    · cases hu; exact remove_no hK p

theorem rmdir_no (hK : NoEntry K h) (hu : h.rmdir p = .ok h') : NoEntry K h' := by
  unfold Host.rmdir at hu
  cases hn : h.node p with
  | none => rw [hn] at hu; cases hu
  | some i =>
    rw [hn] at hu
    simp only at hu
    split at hu
    · cases hu
    · split at hu
      · cases hu
      · cases hu; exact remove_no hK p

theorem link_no (hK : NoEntry K h) {src : Path} (hp : ¬ K p) (hu : h.link src p = .ok h') : NoEntry K h' := by
  unfold Host.link at hu
  cases hg : Dict.get? h.entries src with
  | none => rw [hg] at hu; cases hu
  | some n =>
    rw [hg] at hu
    simp only at hu
    split at hu
    · cases hu
    · cases hpe : h.parentError p with
      | some e => rw [hpe] at hu; cases hu
      | none =>
        rw [hpe] at hu
        cases hu
        intro q hq
        simp only [Dict.get?_set]
        rw [if_neg (by rintro rfl; exact hp hq)]
        exact hK q hq

theorem moveTree_no (hK : NoEntry K h) {old new : Path} (hnew : ∀ t, ¬ K (new ++ t)) : NoEntry K { h with entries := moveTree h.entries old new } := by
  intro q hq
  simp only
  rw [moveTree_eq]
  apply get?_mapKeys_none
  intro k hk he
  unfold movedKey at he
  split at he
  · exact hnew _ (he ▸ hq)
  · subst he
    obtain ⟨h1, -⟩ := (mem_keys_without _ _ _).mp hk
    rw [Dict.mem_keys_iff, hK k hq] at h1
    cases h1

theorem rename_no (hK : NoEntry K h) {old new : Path} (hnew : ∀ t, ¬ K (new ++ t)) (hr : h.rename old new = .ok h') : NoEntry K h' := by
  have hset : ∀ n, NoEntry K { h with entries := Dict.set (without h.entries old) new n } := by
    intro n q hq
    simp only [Dict.get?_set]
    rw [if_neg (by rintro rfl; exact hnew [] (by simpa using hq))]
    exact remove_no hK old q hq
  unfold Host.rename at hr
  cases ho : Dict.get? h.entries old with
  | none => rw [ho] at hr; cases hr
  | some n =>
    rw [ho] at hr
    simp only at hr
    cases hpe : h.parentError new with
    | some e => rw [hpe] at hr; cases hr
    | none =>
      rw [hpe] at hr
      simp only at hr
      split at hr
      · cases hr; exact hK
      · split at hr
        · split at hr
          · cases hr
          · cases hnn : h.node new with
            | some t =>
              rw [hnn] at hr
              simp only at hr
              split at hr
              · cases hr
              · split at hr
                · cases hr
                · cases hr; exact moveTree_no hK hnew
            | none => rw [hnn] at hr; cases hr; exact moveTree_no hK hnew
        · cases hm : Dict.get? h.entries new with
          | some m =>
            rw [hm] at hr
            simp only at hr
            split at hr
            · cases hr
            · split at hr
              · cases hr; exact hK
              · cases hr; exact hset n
          | none => rw [hm] at hr; cases hr; exact hset n

/-- Renaming adds nothing below the new path, and changes no rows of other paths. -/
theorem renamed (hU : Up K) (hK : NoEntry K s.host) {old new : Path} (hnew : ∀ t, ¬ K (new ++ t)) :
    NoEntry K (rename c s old new).1.host ∧
      ∀ q, old ≠ q → new ≠ q → Dict.get? (rename c s old new).1.rows q = Dict.get? s.rows q := by
  have hn0 : ¬ K new := fun hk => hnew [] (by simpa using hk)
  unfold rename
  split
  · exact ⟨hK, fun _ _ _ => rfl⟩
  · simp only
    have hw : ∀ q, new ≠ q → Dict.get? (without s.rows new) q = Dict.get? s.rows q := fun q hq => by rw [get?_without, if_neg hq]
    cases hr : haveRow c { s with rows := without s.rows new } old with
    | error e => exact ⟨hK, fun q _ hq => hw q hq⟩
    | ok s2 =>
      obtain ⟨k1, k2⟩ := haveRow_same hr
      simp only at k1 k2 ⊢
      have key : ∀ s3 : St, s3.host = s.host → (∀ q, old ≠ q → new ≠ q → Dict.get? s3.rows q = Dict.get? s.rows q) →
          NoEntry K (renameTail c s3 old new).1.host ∧
            ∀ q, old ≠ q → new ≠ q → Dict.get? (renameTail c s3 old new).1.rows q = Dict.get? s.rows q := by
        intro s3 e1 e2
        unfold renameTail
        cases h4 : ensureParent c s3 new with
        | error e => exact ⟨by rw [e1]; exact hK, e2⟩
        | ok s4 =>
          obtain ⟨g1, g2⟩ := ensureParent_no hU (by rw [e1]; exact hK) hn0 h4
          have g3 : ∀ q, old ≠ q → new ≠ q → Dict.get? s4.rows q = Dict.get? s.rows q := fun q a b => by rw [g2]; exact e2 q a b
          simp only
          split
          · cases hren : s4.host.rename old new with
            | error e => exact ⟨g1, g3⟩
            | ok h' => exact ⟨rename_no g1 hnew hren, g3⟩
          · cases hread : msRead c s4 old with
            | error e => exact ⟨g1, g3⟩
            | ok content =>
              simp only
              cases ho : s4.host.openTruncate new (c.newAttrs 0o666) with
              | error e => exact ⟨g1, g3⟩
              | ok hn =>
                obtain ⟨h', n⟩ := hn
                simp only
                refine ⟨?_, fun q a b => ?_⟩
                · rw [markDeleted_host]
                  exact fun q hq => openTruncate_no g1 hn0 ho q hq
                · rw [markDeleted_other a]
                  exact g3 q a b
      cases hg : Dict.get? s2.rows old with
      | none => exact key s2 k1 (fun q a b => by rw [k2 q a]; exact hw q b)
      | some r =>
        refine key { s2 with rows := Dict.set (without s2.rows old) new r } k1 (fun q a b => ?_)
        simp only
        rw [Dict.get?_set, if_neg b, get?_without, if_neg a, k2 q a]
        exact hw q b

/-- What a call that is carried out does outside of the paths it changes. -/
theorem done (hU : Up K) (hK : NoEntry K s.host) (x : Call)
    (hp : ∀ p ∈ x.changes, ¬ K p) (hm : ∀ old new, x = .op (.rename old new) → ∀ t, ¬ K (new ++ t)) :
    NoEntry K (call false c s x).1.host ∧ ∀ q, q ∉ x.changes → Dict.get? (call false c s x).1.rows q = Dict.get? s.rows q := by
  have hne : ∀ {p q : Path}, q ∉ [p] → p ≠ q := by rintro p q h rfl; exact h (by simp)
  cases x with
  | op o =>
    cases o with
    | create p mode =>
      have hp' := hp p (by simp [Call.changes])
      show NoEntry K (guarded _ _ _ _).1.host ∧ ∀ q, q ∉ [p] → Dict.get? (guarded _ _ _ _).1.rows q = _
      rw [guarded_off]
      unfold createFile create
      cases h1 : openRow c s p mode with
      | error e => exact ⟨hK, fun _ _ => rfl⟩
      | ok s1 =>
        simp only
        have k1 := openRow_no hU hK hp' h1
        have k2 := fun q (hq : q ∉ [p]) => openRow_other h1 (hne hq)
        cases h2 : s1.host.openTruncate p (c.newAttrs mode) with
        | error e => exact ⟨k1, k2⟩
        | ok hn =>
          obtain ⟨h', n⟩ := hn
          exact ⟨openTruncate_no k1 hp' h2, k2⟩
    | mkdir p mode =>
      have hp' := hp p (by simp [Call.changes])
      show NoEntry K (guarded _ _ _ _).1.host ∧ ∀ q, q ∉ [p] → Dict.get? (guarded _ _ _ _).1.rows q = _
      rw [guarded_off]
      unfold mkdir
      cases h1 : openRow c s p (mode ||| 0o40000) with
      | error e => exact ⟨hK, fun _ _ => rfl⟩
      | ok s1 =>
        simp only
        have k1 := openRow_no hU hK hp' h1
        have k2 := fun q (hq : q ∉ [p]) => openRow_other h1 (hne hq)
        cases h2 : s1.host.create p ⟨.dir, [], [], c.newAttrs (mode ||| 0o40000)⟩ with
        | error e => exact ⟨k1, k2⟩
        | ok h' => exact ⟨create_no k1 hp' h2, k2⟩
    | unlink p =>
      show NoEntry K (guarded _ _ _ _).1.host ∧ ∀ q, q ∉ [p] → Dict.get? (guarded _ _ _ _).1.rows q = _
      rw [guarded_off]
      unfold unlink
      split
      · rw [markDeleted_host]; exact ⟨hK, fun q hq => markDeleted_other (hne hq)⟩
      · split
        · cases h1 : s.host.unlink p with
          | error e => simp only; rw [markDeleted_host]; exact ⟨hK, fun q hq => markDeleted_other (hne hq)⟩
          | ok h' => simp only; rw [markDeleted_host]; exact ⟨unlink_no hK h1, fun q hq => by rw [markDeleted_other (hne hq)]⟩
        · rw [markDeleted_host]; exact ⟨hK, fun q hq => markDeleted_other (hne hq)⟩
    | rmdir p =>
      show NoEntry K (guarded _ _ _ _).1.host ∧ ∀ q, q ∉ [p] → Dict.get? (guarded _ _ _ _).1.rows q = _
      rw [guarded_off]
      unfold rmdir
      split
      · exact ⟨hK, fun _ _ => rfl⟩
      · split
        · exact ⟨hK, fun _ _ => rfl⟩
        · split
          · cases h1 : s.host.rmdir p with
            | error e => simp only; rw [markDeleted_host]; exact ⟨hK, fun q hq => markDeleted_other (hne hq)⟩
            | ok h' => simp only; rw [markDeleted_host]; exact ⟨rmdir_no hK h1, fun q hq => by rw [markDeleted_other (hne hq)]⟩
          · rw [markDeleted_host]; exact ⟨hK, fun q hq => markDeleted_other (hne hq)⟩
    | write p offset data =>
      have hp' := hp p (by simp [Call.changes])
      show NoEntry K (writeCall _ _ _ _ _ _).1.host ∧ ∀ q, q ∉ [p] → Dict.get? (writeCall _ _ _ _ _ _).1.rows q = _
      rw [write_off]
      have key : NoEntry K (openOverlay c s p true).1.host ∧ (openOverlay c s p true).1.rows = s.rows := by
        unfold openOverlay
        split
        · exact ⟨hK, rfl⟩
        · split
          · exact ⟨hK, rfl⟩
          · simp only [if_true]
            have k1 := ensureModifiable_no (c := c) hU hK hp'
            have k2 := ensureModifiable_rows (c := c) (s := s) (p := p)
            rcases hx : ensureModifiable c s p with ⟨s1, r⟩
            rw [hx] at k1 k2
            cases r with
            | error e => exact ⟨k1, k2⟩
            | ok u => exact ⟨k1, k2⟩
      unfold writeFile
      rcases hx : openOverlay c s p true with ⟨s1, r⟩
      rw [hx] at key
      cases r with
      | error e => exact ⟨key.1, fun q _ => by simp only at key ⊢; rw [key.2]⟩
      | ok n => exact ⟨key.1, fun q _ => by simp only [writeInode] at key ⊢; rw [key.2]⟩
    | truncate p n =>
      have hp' := hp p (by simp [Call.changes])
      show NoEntry K (truncateCall _ _ _ _ _).1.host ∧ ∀ q, q ∉ [p] → Dict.get? (truncateCall _ _ _ _ _).1.rows q = _
      rw [truncate_off]
      unfold truncate
      have k1 := ensureModifiable_no (c := c) hU hK hp'
      have k2 := ensureModifiable_rows (c := c) (s := s) (p := p)
      rcases hx : ensureModifiable c s p with ⟨s1, r⟩
      rw [hx] at k1 k2
      cases r with
      | error e => exact ⟨k1, fun q _ => by simp only at k2 ⊢; rw [k2]⟩
      | ok u =>
        simp only at k1 k2 ⊢
        have h3 : ∀ h', s1.host.truncate p n = .ok h' → h'.entries = s1.host.entries := by
          intro h' hh
          unfold Host.truncate at hh
          cases hg : Dict.get? s1.host.entries p with
          | none => rw [hg] at hh; cases hh
          | some k =>
            rw [hg] at hh
            simp only at hh
            cases hk : (s1.host.inode k).kind <;> rw [hk] at hh <;> simp only at hh <;> cases hh
            rfl
        cases h1 : s1.host.truncate p n with
        | error e => exact ⟨k1, fun q _ => by simp only; rw [k2]⟩
        | ok h' => exact ⟨fun q hq => by simp only; rw [h3 h' h1]; exact k1 q hq, fun q _ => by simp only; rw [k2]⟩
    | chmod p mode =>
      show NoEntry K (guarded _ _ _ _).1.host ∧ ∀ q, q ∉ [p] → Dict.get? (guarded _ _ _ _).1.rows q = _
      rw [guarded_off]
      obtain ⟨k1, k2⟩ := setMetadata_same (c := c) (s := s) (p := p) { mode := some mode } (fun a => { a with mode := mode })
      exact ⟨fun q hq => by show Dict.get? (setMetadata _ _ _ _ _).1.host.entries q = none; rw [k1]; exact hK q hq, fun q hq => k2 q (hne hq)⟩
    | chown p uid gid =>
      show NoEntry K (guarded _ _ _ _).1.host ∧ ∀ q, q ∉ [p] → Dict.get? (guarded _ _ _ _).1.rows q = _
      rw [guarded_off]
      obtain ⟨k1, k2⟩ := setMetadata_same (c := c) (s := s) (p := p) { uid := uid, gid := gid } id
      exact ⟨fun q hq => by show Dict.get? (setMetadata _ _ _ _ _).1.host.entries q = none; rw [k1]; exact hK q hq, fun q hq => k2 q (hne hq)⟩
    | utimens p mtime =>
      show NoEntry K (guarded _ _ _ _).1.host ∧ ∀ q, q ∉ [p] → Dict.get? (guarded _ _ _ _).1.rows q = _
      rw [guarded_off]
      obtain ⟨k1, k2⟩ := setMetadata_same (c := c) (s := s) (p := p) { mtime := some mtime } (fun a => { a with mtime := mtime })
      exact ⟨fun q hq => by show Dict.get? (setMetadata _ _ _ _ _).1.host.entries q = none; rw [k1]; exact hK q hq, fun q hq => k2 q (hne hq)⟩
    | symlink p target =>
      have hp' := hp p (by simp [Call.changes])
      show NoEntry K (guarded _ _ _ _).1.host ∧ ∀ q, q ∉ [p] → Dict.get? (guarded _ _ _ _).1.rows q = _
      rw [guarded_off]
      unfold symlink
      cases h2 : s.host.create p ⟨.link, [], target, c.newAttrs 0o120777⟩ with
      | error e => exact ⟨hK, fun _ _ => rfl⟩
      | ok h' => exact ⟨create_no hK hp' h2, fun _ _ => rfl⟩
    | mknod p mode =>
      have hp' := hp p (by simp [Call.changes])
      show NoEntry K (guarded _ _ _ _).1.host ∧ ∀ q, q ∉ [p] → Dict.get? (guarded _ _ _ _).1.rows q = _
      rw [guarded_off]
      unfold mknod
      cases h1 : ensureParent c s p with
      | error e => exact ⟨hK, fun _ _ => rfl⟩
      | ok s1 =>
        obtain ⟨k1, k2⟩ := ensureParent_no hU hK hp' h1
        simp only
        cases h2 : s1.host.create p ⟨.special, [], [], c.newAttrs mode⟩ with
        | error e => exact ⟨k1, fun q _ => by simp only; rw [k2]⟩
        | ok h' => exact ⟨create_no k1 hp' h2, fun q _ => by simp only; rw [k2]⟩
    | rename old new =>
      obtain ⟨k1, k2⟩ := renamed (c := c) (old := old) hU hK (hm old new rfl)
      exact ⟨k1, fun q hq => k2 q (fun e => hq (by simp [Call.changes, e])) (fun e => hq (by simp [Call.changes, e]))⟩
  | link p source =>
    have hp' := hp p (by simp [Call.changes])
    show NoEntry K (guarded _ _ _ _).1.host ∧ ∀ q, q ∉ [p] → Dict.get? (guarded _ _ _ _).1.rows q = _
    rw [guarded_off]
    unfold link
    split
    · exact ⟨hK, fun _ _ => rfl⟩
    · cases h2 : s.host.link source p with
      | error e => exact ⟨hK, fun _ _ => rfl⟩
      | ok h' => exact ⟨link_no hK hp' h2, fun _ _ => rfl⟩

end entries

/-! ## lemmas: histories -/

theorem inside_up : Up Inside := by
  rintro p q ⟨t, rfl⟩ ⟨n, rest, rfl⟩
  exact ⟨n, rest ++ t, by simp⟩

theorem within_up : Up Within := by
  rintro p q ⟨t, rfl⟩ ⟨rest, rfl⟩
  exact ⟨rest ++ t, by simp⟩

theorem Inside.within {p : Path} (h : Inside p) : Within p := by obtain ⟨n, rest, rfl⟩ := h; exact ⟨n :: rest, rfl⟩

theorem within_cases {p : Path} (h : Within p) : p = [folder] ∨ Inside p := by
  obtain ⟨rest, rfl⟩ := h
  cases rest with
  | nil => exact .inl rfl
  | cons n r => exact .inr ⟨n, r, rfl⟩

theorem apart_below {new : Path} (hne : new ≠ []) (h : ¬ Within new) (t : Path) : ¬ Within (new ++ t) := by
  rintro ⟨rest, he⟩
  cases new with
  | nil => exact hne rfl
  | cons a b =>
    simp only [List.cons_append, List.cons.injEq] at he
    exact h ⟨b, by rw [he.1]⟩

variable {c : Cfg} {s : St}

/-- Calls that change nothing in the folder are carried out as without the control interface. -/
theorem call_outside {x : Call} (hx : x.Named) (h : ∀ p ∈ x.changes, ¬ Inside p) : call true c s x = call false c s x := by
  have hg : ∀ p, p ∈ x.changes → ∀ r, guarded (ignoredPrefixes true) p s r = guarded (ignoredPrefixes false) p s r := by
    intro p hp r
    rw [guarded_outside (hx p hp) (h p hp), guarded_off]
  cases x with
  | link p source => exact hg p (by simp [Call.changes]) _
  | op o =>
    cases o with
    | rename old new => rfl
    | write p offset data =>
      show writeCall true c s p offset data = writeCall false c s p offset data
      have hp : p ∈ (Call.op (.write p offset data)).changes := by simp [Call.changes]
      rw [write_off]
      unfold writeCall
      rw [if_neg, guarded_outside (hx p hp) (h p hp)]
      intro hc
      rw [Bool.true_and, beq_iff_eq] at hc
      exact h p hp (command_inside (hx p hp) hc)
    | truncate p n =>
      show truncateCall true c s p n = truncateCall false c s p n
      have hp : p ∈ (Call.op (.truncate p n)).changes := by simp [Call.changes]
      rw [truncate_off]
      unfold truncateCall
      rw [if_neg, guarded_outside (hx p hp) (h p hp)]
      intro hc
      rw [Bool.true_and] at hc
      exact h p hp ((prefix_iff (hx p hp)).mp hc)
    | create p m => exact hg p (by simp [Call.changes]) _
    | mkdir p m => exact hg p (by simp [Call.changes]) _
    | unlink p => exact hg p (by simp [Call.changes]) _
    | rmdir p => exact hg p (by simp [Call.changes]) _
    | chmod p m => exact hg p (by simp [Call.changes]) _
    | chown p m n => exact hg p (by simp [Call.changes]) _
    | utimens p m => exact hg p (by simp [Call.changes]) _
    | symlink p m => exact hg p (by simp [Call.changes]) _
    | mknod p m => exact hg p (by simp [Call.changes]) _

/-- Calls that change something in the folder, and move nothing, leave everything as it is. -/
theorem call_inside {x : Call} (hx : x.Named) (hm : x.moves = false) {p : Path} (hp : p ∈ x.changes) (h : Inside p) :
    (call true c s x).1 = s ∧
      ((∃ n, x = .op (.truncate p n)) ∨ (∃ offset data, x = .op (.write p offset data) ∧ canonical p = "/.ratarmount-control/command".toList) ∨
        (call true c s x).2 = .error .fileNotFound) := by
  have hn := hx p hp
  have hg : ∀ r, guarded (ignoredPrefixes true) p s r = (s, .error .fileNotFound) := guarded_inside hn h s
  cases x with
  | link q source =>
    cases List.mem_singleton.mp hp
    rw [show call true c s (.link p source) = _ from hg _]
    exact ⟨rfl, .inr (.inr rfl)⟩
  | op o =>
    cases o with
    | rename old new => cases hm
    | write q offset data =>
      cases List.mem_singleton.mp hp
      show (writeCall true c s p offset data).1 = s ∧ _
      by_cases hc : canonical p = "/.ratarmount-control/command".toList
      · refine ⟨?_, .inr (.inl ⟨offset, data, rfl, hc⟩)⟩
        unfold writeCall
        rw [if_pos (by rw [Bool.true_and, beq_iff_eq]; exact hc)]
      · have hw : writeCall true c s p offset data = (s, .error .fileNotFound) := by
          unfold writeCall
          rw [if_neg (by rw [Bool.true_and, beq_iff_eq]; exact hc), hg]
        refine ⟨by rw [hw], .inr (.inr ?_)⟩
        show (writeCall true c s p offset data).2 = _
        rw [hw]
    | truncate q n =>
      cases List.mem_singleton.mp hp
      refine ⟨?_, .inl ⟨n, rfl⟩⟩
      show (truncateCall true c s p n).1 = s
      unfold truncateCall
      split
      · rfl
      · rw [hg]
    | create q m => cases List.mem_singleton.mp hp; rw [show call true c s (.op (.create p m)) = _ from hg _]; exact ⟨rfl, .inr (.inr rfl)⟩
    | mkdir q m => cases List.mem_singleton.mp hp; rw [show call true c s (.op (.mkdir p m)) = _ from hg _]; exact ⟨rfl, .inr (.inr rfl)⟩
    | unlink q => cases List.mem_singleton.mp hp; rw [show call true c s (.op (.unlink p)) = _ from hg _]; exact ⟨rfl, .inr (.inr rfl)⟩
    | rmdir q => cases List.mem_singleton.mp hp; rw [show call true c s (.op (.rmdir p)) = _ from hg _]; exact ⟨rfl, .inr (.inr rfl)⟩
    | chmod q m => cases List.mem_singleton.mp hp; rw [show call true c s (.op (.chmod p m)) = _ from hg _]; exact ⟨rfl, .inr (.inr rfl)⟩
    | chown q m n => cases List.mem_singleton.mp hp; rw [show call true c s (.op (.chown p m n)) = _ from hg _]; exact ⟨rfl, .inr (.inr rfl)⟩
    | utimens q m => cases List.mem_singleton.mp hp; rw [show call true c s (.op (.utimens p m)) = _ from hg _]; exact ⟨rfl, .inr (.inr rfl)⟩
    | symlink q m => cases List.mem_singleton.mp hp; rw [show call true c s (.op (.symlink p m)) = _ from hg _]; exact ⟨rfl, .inr (.inr rfl)⟩
    | mknod q m => cases List.mem_singleton.mp hp; rw [show call true c s (.op (.mknod p m)) = _ from hg _]; exact ⟨rfl, .inr (.inr rfl)⟩

/-- For calls apart from renames there is one path. -/
theorem one_path {x : Call} (h : x.moves = false) : ∃ p, x.changes = [p] := by
  cases x with
  | link p source => exact ⟨p, rfl⟩
  | op o => cases o <;> first | exact ⟨_, rfl⟩ | cases h

theorem apart_changes {x : Call} (hx : x.Named) (ha : x.Apart) : (call true c s x).1 = s ∨ ∀ p ∈ x.changes, ¬ Inside p := by
  by_cases hm : x.moves = true
  · refine .inr ?_
    cases x with
    | link p source => cases hm
    | op o =>
      cases o with
      | rename old new =>
        intro p hp
        simp only [Call.changes, List.mem_cons, List.not_mem_nil, or_false] at hp
        rcases hp with rfl | rfl
        · exact ha.1
        · exact fun h => ha.2.2 h.within
      | _ => cases hm
  · have hm' : x.moves = false := by simpa using hm
    obtain ⟨p, hp⟩ := one_path hm'
    by_cases hi : Inside p
    · exact .inl (call_inside hx hm' (by rw [hp]; simp) hi).1
    · refine .inr (fun q hq => ?_)
      rw [hp, List.mem_singleton] at hq
      rw [hq]; exact hi

theorem call_clear {x : Call} (hx : x.Named) (ha : x.Apart) (h : Clear s) : Clear (call true c s x).1 := by
  rcases apart_changes (c := c) (s := s) hx ha with hs | hout
  · rw [hs]; exact h
  · rw [call_outside hx hout]
    obtain ⟨k1, k2⟩ := done (c := c) inside_up (K := Inside) (s := s) (fun q hq => (h q hq).1) x hout (by
      rintro old new rfl t hi
      exact apart_below ha.2.1 ha.2.2 t hi.within)
    intro p hp
    refine ⟨k1 p hp, ?_⟩
    rw [k2 p (fun hc => hout p hc hp)]
    exact (h p hp).2

/-! ## theorems -/

/-- **C210**: no call changes anything through the control folder, unless it renames something; apart from commands and cutting files,
which does nothing, such calls are errors. -/
theorem C210_refused (c : Cfg) (s : St) (x : Call) (hx : x.Named) (hm : x.moves = false) (p : Path) (hp : p ∈ x.changes)
    (h : ∃ n rest, p = ".ratarmount-control".toList :: n :: rest) :
    (call true c s x).1 = s ∧
      ((∃ n, x = .op (.truncate p n)) ∨ (∃ offset data, x = .op (.write p offset data) ∧ canonical p = "/.ratarmount-control/command".toList) ∨
        (call true c s x).2 = .error .fileNotFound) :=
  call_inside hx hm hp h

/-- **C210**: everywhere else the mount with control interface behaves as the one without it. -/
theorem C210_elsewhere (c : Cfg) (s : St) (x : Call) (hx : x.Named) (h : ∀ p ∈ x.changes, ∀ n rest, p ≠ ".ratarmount-control".toList :: n :: rest) :
    call true c s x = call false c s x :=
  call_outside hx (fun p hp => by rintro ⟨n, rest, he⟩; exact h p hp n rest he)

/-- **C210**: after any calls the files in the control folder are there as at the start. Missing from the full claim: renames from
the folder and into it, see `C210_violated` and `C210_lost_violated`. -/
theorem C210_kept_partial (c : Cfg) (s : St) (cs : List Call) (hx : ∀ x ∈ cs, x.Named ∧ x.Apart) (h : Clear s) (p : Path) (hp : Inside p) :
    view c (calls true c s cs) p = Dict.get? c.lower p := by
  have hc : Clear (calls true c s cs) := by
    induction cs generalizing s with
    | nil => exact h
    | cons x cs ih =>
      exact ih _ (fun y hy => hx y (by simp [hy])) (call_clear (hx x (by simp)).1 (hx x (by simp)).2 h)
  obtain ⟨h1, h2⟩ := hc p hp
  unfold view isDeleted ms Host.node
  rw [h1, h2]
  rfl

/-- What holds for the folder itself. -/
structure Whole (c : Cfg) (s : St) : Prop where
  clear : Clear s
  entry : Dict.get? s.host.entries [folder] = none
  alive : isDeleted s [folder] = false

/-- The control folder is below the overlay folder and has a file. -/
structure Layer (c : Cfg) : Prop where
  dir : ∃ i, Dict.get? c.lower [folder] = some i ∧ i.kind = .dir
  file : Dict.get? c.lower [folder, "command".toList] ≠ none

theorem command_listed (hl : Layer c) (hs : Whole c s) :
    ((msList c s [folder]).getD []).any (fun n => !(listDeleted s [folder]).contains n) = true := by
  obtain ⟨i, hi, hk⟩ := hl.dir
  have hmem : "command".toList ∈ (lowerList c [folder]).getD [] := by
    unfold lowerList
    rw [hi]
    simp only [hk, if_true, Option.getD_some]
    rw [List.mem_filterMap]
    refine ⟨[folder, "command".toList], ?_, ?_⟩
    · rw [Dict.mem_keys_iff, Option.isSome_iff_ne_none]; exact hl.file
    · unfold nameIn; rw [if_pos ⟨by simp, rfl⟩]; rfl
  have hno : s.host.isdir [folder] = false := by
    unfold Host.isdir Host.node; rw [hs.entry]; rfl
  have hlist : msList c s [folder] = lowerList c [folder] := by
    unfold msList; rw [hno]; rfl
  rw [hlist, List.any_eq_true]
  refine ⟨"command".toList, hmem, ?_⟩
  rw [Bool.not_eq_true', ← Bool.not_eq_true, List.contains_iff_mem]
  intro hd
  rw [mem_listDeleted s [folder] _ (by decide)] at hd
  unfold isDeleted at hd
  rw [(hs.clear ([folder] ++ ["command".toList]) ⟨"command".toList, [], rfl⟩).2] at hd
  cases hd

theorem whole_of (hs : Whole c s) {s' : St} (hc : Clear s') (he : s'.host.entries = s.host.entries) (ha : isDeleted s' [folder] = false) : Whole c s' :=
  ⟨hc, by rw [he]; exact hs.entry, ha⟩

theorem call_whole (hl : Layer c) {x : Call} (hx : x.Named) (ha : x.Apart) (hsp : x.Spares) (hs : Whole c s) : Whole c (call true c s x).1 := by
  have hc : Clear (call true c s x).1 := call_clear hx ha hs.clear
  rcases apart_changes (c := c) (s := s) hx ha with he | hout
  · rw [he]; exact hs
  · by_cases hf : [folder] ∈ x.changes
    · have hout' := call_outside (c := c) (s := s) hx hout
      cases x with
      | link p source => exact absurd hf hsp
      | op o =>
        cases o with
        | chmod p m =>
          cases List.mem_singleton.mp hf
          rw [hout'] at hc ⊢
          rw [show call false c s (.op (.chmod [folder] m)) = chmod c s [folder] m from guarded_off _ _ _] at hc ⊢
          exact whole_of hs hc (setMetadata_same _ _).1 (setMetadata_alive _ _ hs.alive)
        | chown p m n =>
          cases List.mem_singleton.mp hf
          rw [hout'] at hc ⊢
          rw [show call false c s (.op (.chown [folder] m n)) = chown c s [folder] m n from guarded_off _ _ _] at hc ⊢
          exact whole_of hs hc (setMetadata_same _ _).1 (setMetadata_alive _ _ hs.alive)
        | utimens p m =>
          cases List.mem_singleton.mp hf
          rw [hout'] at hc ⊢
          rw [show call false c s (.op (.utimens [folder] m)) = utimens c s [folder] m from guarded_off _ _ _] at hc ⊢
          exact whole_of hs hc (setMetadata_same _ _).1 (setMetadata_alive _ _ hs.alive)
        | rmdir p =>
          cases List.mem_singleton.mp hf
          rw [hout'] at hc ⊢
          rw [show call false c s (.op (.rmdir [folder])) = rmdir c s [folder] from guarded_off _ _ _] at hc ⊢
          unfold rmdir
          split
          · exact hs
          · rw [if_pos (command_listed hl hs)]; exact hs
        | _ => exact absurd hf hsp
    · rw [call_outside hx hout] at hc ⊢
      have hw : ∀ p ∈ x.changes, ¬ Within p := by
        intro p hp hw
        rcases within_cases hw with rfl | hi
        · exact hf hp
        · exact hout p hp hi
      obtain ⟨k1, k2⟩ := done (c := c) within_up (K := Within) (s := s) (by
          intro q hq
          rcases within_cases hq with rfl | hi
          · exact hs.entry
          · exact (hs.clear q hi).1) x hw (by
        rintro old new rfl t
        exact apart_below ha.2.1 ha.2.2 t)
      refine ⟨hc, k1 _ ⟨[], rfl⟩, ?_⟩
      have := hs.alive
      unfold isDeleted at this ⊢
      rw [k2 _ hf]
      exact this

theorem calls_whole (hl : Layer c) (cs : List Call) (hx : ∀ x ∈ cs, x.Named ∧ x.Apart ∧ x.Spares) (hs : Whole c s) : Whole c (calls true c s cs) := by
  induction cs generalizing s with
  | nil => exact hs
  | cons x cs ih =>
    obtain ⟨h1, h2, h3⟩ := hx x (by simp)
    exact ih (fun y hy => hx y (by simp [hy])) (call_whole hl h1 h2 h3 hs)

/-- **C210**: the folder of the control interface cannot be removed: it is still shown after any calls, and lists its files. -/
theorem C210_folder_partial (c : Cfg) (s : St) (cs : List Call) (hl : Layer c) (hs : Whole c s)
    (hx : ∀ x ∈ cs, x.Named ∧ x.Apart ∧ x.Spares) :
    view c (calls true c s cs) [".ratarmount-control".toList] = Dict.get? c.lower [".ratarmount-control".toList] ∧
      ∀ n, n ∉ databaseNames → (n ∈ readdir c (calls true c s cs) [".ratarmount-control".toList] ↔
        Dict.get? c.lower [".ratarmount-control".toList, n] ≠ none) := by
  have hw := calls_whole hl cs hx hs
  refine ⟨?_, fun n hn => ?_⟩
  · have h1 := hw.alive
    unfold view
    rw [show [".ratarmount-control".toList] = [folder] from rfl, if_neg (by rw [h1]; simp)]
    unfold ms Host.node
    rw [hw.entry]
    rfl
  · obtain ⟨i, hi, hk⟩ := hl.dir
    show n ∈ readdir c (calls true c s cs) [folder] ↔ Dict.get? c.lower [folder, n] ≠ none
    have hlist : msList c (calls true c s cs) [folder] = some ((Dict.keys c.lower).filterMap (nameIn [folder])) := by
      have hno : (calls true c s cs).host.isdir [folder] = false := by
        unfold Host.isdir Host.node; rw [hw.entry]; rfl
      unfold msList lowerList
      rw [hno, hi]
      simp [hk]
    have hdel : n ∉ listDeleted (calls true c s cs) [folder] := by
      intro hd
      rw [mem_listDeleted _ [folder] _ hn] at hd
      unfold isDeleted at hd
      rw [(hw.clear ([folder] ++ [n]) ⟨n, [], rfl⟩).2] at hd
      cases hd
    unfold readdir
    rw [hlist, List.mem_filter, Option.getD_some, List.mem_filterMap]
    constructor
    · rintro ⟨⟨k, h1, h2⟩, -⟩
      have := nameIn_eq h2
      subst this
      rw [Dict.mem_keys_iff, Option.isSome_iff_ne_none] at h1
      exact h1
    · intro h
      refine ⟨⟨[folder, n], ?_, ?_⟩, ?_⟩
      · rw [Dict.mem_keys_iff, Option.isSome_iff_ne_none]; exact h
      · unfold nameIn; rw [if_pos ⟨by simp, rfl⟩]; rfl
      · rw [Bool.not_eq_true', ← Bool.not_eq_true, List.contains_iff_mem]; exact hdel

/-! ## renames -/

/-- What the code shows: the control layer `top` is mounted over the overlay folder (FuseMount.py:237-241, union.py:105-146). -/
def shownOver (top : Dict Path Inode) (c : Cfg) (s : St) (p : Path) : Option Inode :=
  if isDeleted s p then none else (Dict.get? top p).or (ms c s p)

/-- The full property: whatever is called, the files of the control interface stay. -/
def C210_statement : Prop :=
  ∀ (c : Cfg) (s : St) (x : Call) (p : Path), Clear s → x.Named → Inside p → view c (call true c s x).1 p = view c s p

/-- The full property for what is moved: a file that was renamed successfully can be found at the new path. -/
def C210_lost_statement : Prop :=
  ∀ (top : Dict Path Inode) (c : Cfg) (s : St) (old new : Path) (d : Bytes), Clear s → Inv c s → (∀ q i, Dict.get? top q = some i → Dict.get? c.lower q = some i) →
    (shownOver top c s old).map Inode.shown = some (.file d) → (call true c s (.op (.rename old new))).2 = .ok () →
    (shownOver top c (call true c s (.op (.rename old new))).1 new).map Inode.shown = some (.file d)

/-- The files of the control interface. -/
def demoTop : Dict Path Inode :=
  [([folder], demoDir), ([folder, "command".toList], demoFile []), ([folder, "output".toList], demoFile [7])]

/-- An archive with a file `x`, mounted with control interface. -/
def demoControl : Cfg where
  lower := ([], demoDir) :: ([['x']], demoFile [9]) :: demoTop
  openOther := fun _ => .error .valueError
  newAttrs := demoAttrs
  subMount := fun _ => 0

theorem demo_clear : Clear demoStart := by
  rintro p ⟨n, rest, rfl⟩
  refine ⟨?_, rfl⟩
  show Dict.get? [([], 0)] _ = none
  simp [Dict.get?]

/-- C210 is violated: renaming has no check. `mv .ratarmount-control/output y` works, and the output of the mount is gone. -/
theorem C210_violated : ¬ C210_statement := by
  intro h
  have := h demoControl demoStart (.op (.rename [folder, "output".toList] [['y']])) [folder, "output".toList] demo_clear
    (by
      intro p hp n hn
      simp only [Call.changes, List.mem_cons, List.not_mem_nil, or_false] at hp
      rcases hp with rfl | rfl <;> simp only [List.mem_cons, List.not_mem_nil, or_false] at hn
      · rcases hn with rfl | rfl <;> (unfold IsName; decide)
      · subst hn; unfold IsName; decide)
    ⟨"output".toList, [], rfl⟩
  revert this
  decide +kernel

theorem demo_control_closed : Closed (lowerTree demoControl) :=
  closed_of_entries (by
    intro e he
    simp only [demoControl, demoTop, List.mem_cons, List.not_mem_nil, or_false] at he
    rcases he with rfl | rfl | rfl | rfl | rfl
    · exact .inl rfl
    all_goals exact .inr (by decide +kernel))

/-- C210 is violated: `mv x .ratarmount-control/command` works, and the contents of `x` are nowhere any more. -/
theorem C210_lost_violated : ¬ C210_lost_statement := by
  intro h
  have := h demoTop demoControl demoStart [['x']] [folder, "command".toList] [9] demo_clear (fresh_inv _ demo_control_closed)
    (by
      intro q i hq
      unfold demoTop at hq
      simp only [Dict.get?] at hq
      unfold demoControl demoTop
      simp only [Dict.get?]
      split at hq
      · rename_i e; subst e; rw [if_neg (by decide), if_neg (by decide), if_pos rfl]; exact hq
      · split at hq
        · rename_i e; subst e; rw [if_neg (by decide), if_neg (by decide), if_neg (by decide), if_pos rfl]; exact hq
        · split at hq
          · rename_i e; subst e; rw [if_neg (by decide), if_neg (by decide), if_neg (by decide), if_neg (by decide), if_pos rfl]; exact hq
          · cases hq)
    (by decide +kernel) (by decide +kernel)
  revert this
  decide +kernel

/-! ## examples -/

theorem demo_layer : Layer demoControl := ⟨⟨demoDir, by decide +kernel, rfl⟩, by decide +kernel⟩

theorem demo_whole : Whole demoControl demoStart := ⟨demo_clear, by decide +kernel, by decide +kernel⟩

/-- Some calls, some of them in vain. -/
def demoCalls : List Call :=
  [.op (.unlink [folder, "command".toList]), .op (.rmdir [folder]), .op (.chmod [folder] 0o40700), .op (.rename [['x']] [['z']]),
    .op (.create [folder, ['n']] 0o644), .link [['w']] [['z']], .op (.truncate [folder, "command".toList] 0)]

theorem demo_calls : ∀ x ∈ demoCalls, x.Named ∧ x.Apart ∧ x.Spares := by
  have hf : IsName folder := by unfold IsName; decide
  intro x hx
  simp only [demoCalls, List.mem_cons, List.not_mem_nil, or_false] at hx
  rcases hx with rfl | rfl | rfl | rfl | rfl | rfl | rfl
  · exact ⟨by intro p hp n hn; cases List.mem_singleton.mp hp; simp only [List.mem_cons, List.not_mem_nil, or_false] at hn; rcases hn with rfl | rfl <;> (unfold IsName; decide),
      trivial, by show _ ∉ _; decide⟩
  · exact ⟨by intro p hp n hn; cases List.mem_singleton.mp hp; cases List.mem_singleton.mp hn; exact hf, trivial, trivial⟩
  · exact ⟨by intro p hp n hn; cases List.mem_singleton.mp hp; cases List.mem_singleton.mp hn; exact hf, trivial, trivial⟩
  · refine ⟨?_, ⟨?_, by simp, ?_⟩, by show _ ∉ _; decide⟩
    · intro p hp n hn
      simp only [Call.changes, List.mem_cons, List.not_mem_nil, or_false] at hp
      rcases hp with rfl | rfl <;> (cases List.mem_singleton.mp hn; unfold IsName; decide)
    · rintro ⟨n, rest, h⟩; exact absurd (congrArg List.length h) (by simp)
    · rintro ⟨rest, h⟩; exact absurd (congrArg List.head? h) (by rw [List.head?_cons, List.head?_cons]; decide)
  · exact ⟨by intro p hp n hn; cases List.mem_singleton.mp hp; simp only [List.mem_cons, List.not_mem_nil, or_false] at hn; rcases hn with rfl | rfl <;> (unfold IsName; decide),
      trivial, by show _ ∉ _; decide⟩
  · exact ⟨by intro p hp n hn; cases List.mem_singleton.mp hp; cases List.mem_singleton.mp hn; unfold IsName; decide, trivial, by show _ ∉ _; decide⟩
  · exact ⟨by intro p hp n hn; cases List.mem_singleton.mp hp; simp only [List.mem_cons, List.not_mem_nil, or_false] at hn; rcases hn with rfl | rfl <;> (unfold IsName; decide),
      trivial, by show _ ∉ _; decide⟩

/-- C210: the file for commands survives. -/
example : view demoControl (calls true demoControl demoStart demoCalls) [folder, "command".toList] = some (demoFile []) := by
  rw [C210_kept_partial demoControl demoStart demoCalls (fun x hx => ⟨(demo_calls x hx).1, (demo_calls x hx).2.1⟩) demo_clear _ ⟨_, [], rfl⟩]
  decide +kernel

/-- C210: and it is listed. -/
example : "command".toList ∈ readdir demoControl (calls true demoControl demoStart demoCalls) [".ratarmount-control".toList] :=
  ((C210_folder_partial demoControl demoStart demoCalls demo_layer demo_whole demo_calls).2 _ (by decide)).mpr (by decide +kernel)

/-- C210: other calls are carried out. -/
example : view demoControl (calls true demoControl demoStart demoCalls) [['w']] = some ⟨.file, [9], [], demoAttrs 0o666⟩ := by decide +kernel

/-- C210: removing the file for commands is an error. -/
example : (call true demoControl demoStart (.op (.unlink [folder, "command".toList]))).2 = .error .fileNotFound := by
  rcases (C210_refused demoControl demoStart (.op (.unlink [folder, "command".toList])) (demo_calls _ (by simp [demoCalls])).1 rfl [folder, "command".toList] (by simp [Call.changes]) ⟨_, [], rfl⟩).2
    with ⟨n, h⟩ | ⟨o, d, h, -⟩ | h
  · cases h
  · cases h
  · exact h

end Verif.Overlay.Controlled
