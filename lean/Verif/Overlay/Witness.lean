import Verif.Overlay.History

/-!
# C43 to C47: where the write overlay goes wrong
-/

namespace Verif.Overlay

open Verif.Py

variable {c : Cfg} {s : St}

/-- A list of entries is a proper tree if the parent of every entry is a folder. -/
theorem closed_of_entries (h : ∀ e ∈ c.lower, e.1 = [] ∨ lowerTree c e.1.dropLast = some .dir) :
    Closed (lowerTree c) := by
  intro p n hn
  have hne : p ++ [n] ≠ [] := by simp
  have hx : lowerTree c (p ++ [n]) = (Dict.get? c.lower (p ++ [n])).map Inode.shown := by
    unfold lowerTree; rw [if_neg hne]
  rw [hx] at hn
  cases hg : Dict.get? c.lower (p ++ [n]) with
  | none => rw [hg] at hn; simp at hn
  | some i =>
    rcases h _ (Dict.mem_of_get? _ hg) with h' | h'
    · exact absurd h' hne
    · simpa using h'

theorem inv_step (hI : Inv c s) (op : Op) (hL : Legal (shown c s) op) (hW : Works c s op) :
    Inv c (step c s op).1 := by
  obtain ⟨s', h1, h2, -⟩ := step_refines hI op hL hW
  rw [h1]; exact h2

def demoAttrs (mode : Nat) : Meta := ⟨mode, 1000, 1000, 0⟩
def demoDir : Inode := ⟨.dir, [], [], ⟨0o40755, 0, 0, 7⟩⟩
def demoFile (d : Bytes) : Inode := ⟨.file, d, [], ⟨0o100755, 0, 0, 7⟩⟩

/-- An archive with `/d/f`, `/x` and a symbolic link `/l`. -/
def demo (openOther : Inode → Except PyErr Bytes) : Cfg where
  lower := [([], demoDir), ([['d']], demoDir), ([['d'], ['f']], demoFile [1, 2, 3]), ([['x']], demoFile [9]),
    ([['l']], ⟨.link, [], ['x'], ⟨0o120777, 0, 0, 7⟩⟩)]
  openOther := openOther
  newAttrs := demoAttrs
  subMount := fun _ => 0

/-- A backend that cannot open folders, and one that opens everything that is not a file as an empty file, as the TAR
backend does (tar.py:1023-1029). -/
def demoFail : Cfg := demo (fun _ => .error .valueError)
def demoTar : Cfg := demo (fun _ => .ok [])

theorem demo_closed (f : Inode → Except PyErr Bytes) : Closed (lowerTree (demo f)) :=
  closed_of_entries (by
    intro e he
    simp only [demo, List.mem_cons, List.not_mem_nil, or_false] at he
    rcases he with rfl | rfl | rfl | rfl | rfl
    · exact .inl rfl
    all_goals exact .inr (by simp [lowerTree, demo, Dict.get?, demoDir, Inode.shown]))

abbrev demoStart : St := St.fresh (demoAttrs 0o40755)

theorem demo_inv (f : Inode → Except PyErr Bytes) : Inv (demo f) demoStart := fresh_inv _ (demo_closed f)

/-! The hypotheses of the theorems on histories are met by a history with several kinds of operations. -/

abbrev demoOps : List Op :=
  [.unlink [['x']], .create [['z']] 0o100644, .write [['d'], ['f']] 1 [7, 7, 7, 7], .rename [['z']] [['y']],
    .truncate [['y']] 0, .mkdir [['d'], ['e']] 0o755, .chmod [['d']] 0o40700]

def demoRun : St := (demoOps.foldl (fun s op => (step demoTar s op).1) demoStart)

theorem demo_run : Run demoTar demoStart demoOps demoRun := by
  refine .cons (op := .unlink [['x']]) ⟨.file [9], by decide +kernel, by decide⟩ trivial rfl ?_
  refine .cons (op := .create [['z']] _) (show Vacant _ _ from ⟨by decide, by decide +kernel, by decide +kernel⟩) trivial rfl ?_
  refine .cons (op := .write [['d'], ['f']] _ _) (show ∃ d, _ from ⟨[1, 2, 3], by decide +kernel⟩) trivial rfl ?_
  refine .cons (op := .rename _ _)
    ⟨by decide, by decide, ⟨.file [], by decide +kernel, by decide⟩, by decide +kernel, by decide +kernel⟩
    (show RenameWorks _ _ _ _ from ⟨fun _ => by decide +kernel, fun h => absurd h (by decide +kernel)⟩) rfl ?_
  refine .cons (op := .truncate _ _) (show ∃ d, _ from ⟨[], by decide +kernel⟩)
    (show TruncateWorks _ _ _ from fun _ _ => .inr rfl) rfl ?_
  refine .cons (op := .mkdir _ _) (show Vacant _ _ from ⟨by decide, by decide +kernel, by decide +kernel⟩) trivial rfl ?_
  refine .cons (op := .chmod [['d']] _) (show _ ≠ none by decide +kernel) trivial rfl (.nil _)

example : shown demoTar demoRun [['d'], ['f']] = some (.file [1, 7, 7, 7, 7]) := by
  rw [C46_history_partial (c := demoTar) _ (demo_closed _) demo_run]; decide +kernel

example : shown demoTar demoRun [['x']] = none := by
  rw [← Option.not_isSome_iff_eq_none, C43_history_partial (c := demoTar) (demo_inv _) demo_run]; decide +kernel

/-! ## C43 -/

/-- C43 is violated: removing `/x`, then renaming the folder `/d` to `/x`. The backend cannot open a folder, so the
rename fails, but it has deleted the mark on `/x` before: the removed file is back. -/
theorem C43_violated : ¬ C43_statement := by
  intro h
  have hI := inv_step (demo_inv (fun _ => .error .valueError)) (.unlink [['x']])
    ⟨.file [9], by decide +kernel, by decide⟩ trivial
  have := h demoFail _ (.rename [['d']] [['x']]) hI
    (.inr ⟨by decide, by decide +kernel, by decide +kernel, by decide +kernel, by decide, by decide⟩) [['x']]
  revert this
  decide +kernel

/-! ## C44 -/

/-- Creating a symbolic link, a hard link or a node where nothing is makes it visible. -/
def C44_statement : Prop :=
  (∀ (c : Cfg) (s : St) (p : Path) (target : Str), Inv c s → Vacant (shown c s) p →
    shown c (symlink c s p target).1 p = some (.link target)) ∧
  (∀ (c : Cfg) (s : St) (p : Path) (mode : Nat), Inv c s → Vacant (shown c s) p →
    shown c (mknod c s p mode).1 p = some .special) ∧
  (∀ (c : Cfg) (s : St) (p source : Path), Inv c s → Vacant (shown c s) p → (link c s p source).2 = .ok () →
    shown c (link c s p source).1 p = shown c s source)

/-- C44 for paths that were not deleted before; a link also needs its folder in the overlay. -/
theorem C44_symlink_partial (hI : Inv c s) (p : Path) (target : Str) (hv : Vacant (shown c s) p)
    (hd : isDeleted s p = false) (hpar : s.host.isdir p.dropLast = true) :
    shown c (symlink c s p target).1 p = some (.link target) := by
  obtain ⟨s', h1, -, h3⟩ := symlink_refines (target := target) hI hv hd hpar
  rw [h1]; simp only; rw [h3]; simp [Tree.at]

theorem C44_mknod_partial (hI : Inv c s) (p : Path) (mode : Nat) (hv : Vacant (shown c s) p)
    (hd : isDeleted s p = false) : shown c (mknod c s p mode).1 p = some .special := by
  obtain ⟨s', h1, -, h3⟩ := mknod_refines (mode := mode) hI hv hd
  rw [h1]; simp only; rw [h3]; simp [Tree.at]

theorem C44_link_partial (hI : Inv c s) (p source : Path) (hd : isDeleted s p = false)
    (hok : (link c s p source).2 = .ok ()) :
    shown c (link c s p source).1 p = shown c s source := by
  unfold link at hok ⊢
  split
  · next hc => rw [if_pos hc] at hok; simp at hok
  · next hc =>
    rw [if_neg hc] at hok
    cases hl : s.host.link source p with
    | error e => rw [hl] at hok; simp at hok
    | ok h =>
      simp only
      unfold Host.link at hl
      cases hg : Dict.get? s.host.entries source with
      | none => rw [hg] at hl; simp at hl
      | some n =>
        rw [hg] at hl
        simp only at hl
        split at hl
        · simp at hl
        · split at hl
          · simp at hl
          · simp only [Except.ok.injEq] at hl
            subst hl
            have hns : s.host.node source = some (s.host.inode n) := by unfold Host.node; rw [hg]; rfl
            rw [shown_host hI hns]
            unfold shown view ms
            have h0 : isDeleted { s with host := { s.host with entries := Dict.set s.host.entries p n } } p = false := hd
            rw [h0]
            simp [Host.node, Dict.get?_set]

/-- C44 is violated: after removing `/x`, making a symbolic link at `/x` succeeds, but nothing is visible there. -/
theorem C44_violated : ¬ C44_statement := by
  intro h
  have hI := inv_step (demo_inv (fun _ => .error .valueError)) (.unlink [['x']])
    ⟨.file [9], by decide +kernel, by decide⟩ trivial
  have := h.1 demoFail _ [['x']] ['d'] hI ⟨by decide, by decide +kernel, by decide +kernel⟩
  revert this
  decide +kernel

/-- The same for a special node. -/
theorem C44_node_violated : ¬ ∀ (c : Cfg) (s : St) (p : Path) (mode : Nat), Inv c s → Vacant (shown c s) p →
    (mknod c s p mode).2 = .ok () → shown c (mknod c s p mode).1 p = some .special := by
  intro h
  have hI := inv_step (demo_inv (fun _ => .error .valueError)) (.unlink [['x']])
    ⟨.file [9], by decide +kernel, by decide⟩ trivial
  have := h demoFail _ [['x']] 0o10644 hI ⟨by decide, by decide +kernel, by decide +kernel⟩ (by decide +kernel)
  revert this
  decide +kernel

/-- In a folder that is only in the archive no symbolic link can be made. -/
theorem C44_folder_violated : ¬ ∀ (c : Cfg) (s : St) (p : Path) (target : Str), Inv c s → Vacant (shown c s) p →
    isDeleted s p = false → (symlink c s p target).2 = .ok () := by
  intro h
  have := h demoFail demoStart [['d'], ['n']] ['f'] (demo_inv _) ⟨by decide, by decide +kernel, by decide +kernel⟩
    (by decide +kernel)
  revert this
  decide +kernel

/-! ## C45 -/

/-- C45 is violated: after writing to `/x` of the archive, renaming it leaves the archive's `/x` behind. -/
theorem C45_violated : ¬ C45_statement := by
  intro h
  have hI := inv_step (demo_inv (fun _ => .ok [])) (.write [['x']] 0 [5]) ⟨[9], by decide +kernel⟩ trivial
  have := (h demoTar _ [['x']] [['y']] hI
    ⟨by decide, by decide, ⟨.file [5], by decide +kernel, by decide⟩, by decide +kernel, by decide +kernel⟩
    (by decide +kernel)).1
  revert this
  decide +kernel

/-- A renamed symbolic link of the archive becomes an empty file. -/
theorem C45_link_violated : ¬ C45_statement := by
  intro h
  have := (h demoTar demoStart [['l']] [['y']] (demo_inv _)
    ⟨by decide, by decide, ⟨.link ['x'], by decide +kernel, by decide⟩, by decide +kernel, by decide +kernel⟩
    (by decide +kernel)).2
  revert this
  decide +kernel

/-- A renamed folder of the archive becomes an empty file; what was in it is not visible at the new path. -/
theorem C45_folder_violated : ¬ ∀ (c : Cfg) (s : St) (old new : Path), Inv c s →
    Kernel (shown c s) (.rename old new) → (rename c s old new).2 = .ok () →
    ∀ rest, shown c (rename c s old new).1 (new ++ rest) = shown c s (old ++ rest) := by
  intro h
  have := h demoTar demoStart [['d']] [['y']] (demo_inv _)
    (.inr ⟨by decide, by decide +kernel, by decide +kernel, by decide +kernel, by decide, by decide⟩)
    (by decide +kernel) [['f']]
  revert this
  decide +kernel

/-! ## C47 -/

/-- C47 is violated: a new file, one write, then truncating it to a byte less: all bytes are zero. -/
theorem C47_violated : ¬ C47_statement := by
  intro h
  have hI := inv_step (demo_inv (fun _ => .ok [])) (.write [['x']] 0 [5, 6, 7]) ⟨[9], by decide +kernel⟩ trivial
  have := h demoTar _ [['x']] 2 [5, 6, 7] hI (by decide +kernel)
  revert this
  decide +kernel

end Verif.Overlay
