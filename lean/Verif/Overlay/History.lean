import Verif.Overlay.Refine

/-!
# C43 to C47: histories of operations with a write overlay
-/

namespace Verif.Overlay

open Verif.Py

variable {c : Cfg} {s : St}

theorem setData_insert (h : Host) (p : Path) (i : Inode) (d : Bytes) :
    (h.insert p i).setData h.next d = h.insert p { i with data := d } := by
  unfold Host.setData Host.setInode Host.insert
  simp only [if_true, Host.mk.injEq, true_and, and_true]
  funext k
  by_cases hk : k = h.next
  · simp [hk]
  · simp [hk]

theorem setInode_setInode (h : Host) (n : Nat) (i j : Inode) : (h.setInode n i).setInode n j = h.setInode n j := by
  unfold Host.setInode
  simp only [Host.mk.injEq, true_and, and_true]
  funext k
  by_cases hk : k = n <;> simp [hk]

theorem lower_file (hI : Inv c s) {p : Path} {d : Bytes} (hx : shown c s p = some (.file d))
    (hn : s.host.node p = none) : ∃ i, Dict.get? c.lower p = some i ∧ i.kind = .file ∧ i.data = d := by
  have _ := hI
  obtain ⟨-, i, hi, hd⟩ := shown_some hx
  unfold ms at hi
  rw [hn] at hi
  simp only [Option.none_or] at hi
  exact ⟨i, hi, shown_file i d hd⟩

theorem host_file (hI : Inv c s) {p : Path} {d : Bytes} {i : Inode} (hx : shown c s p = some (.file d))
    (hn : s.host.node p = some i) : i.kind = .file ∧ i.data = d := by
  rw [shown_host hI hn] at hx
  exact shown_file i d (by simpa using hx)

theorem file_parent (hI : Inv c s) {p : Path} {d : Bytes} (hx : shown c s p = some (.file d)) :
    p ≠ [] ∧ shown c s p.dropLast = some .dir := by
  have hp : p ≠ [] := by rintro rfl; rw [root_shown hI] at hx; simp at hx
  refine ⟨hp, ?_⟩
  obtain ⟨n, hpn⟩ := split_path p hp
  exact hI.closed p.dropLast n (by rw [← hpn, hx]; simp)

/-- Copying a file into the overlay folder. -/
theorem copied (hI : Inv c s) {p : Path} {d : Bytes} (hx : shown c s p = some (.file d)) (hn : s.host.node p = none) :
    ∃ s' n, ensureModifiable c s p = (s', .ok ()) ∧ Inv c s' ∧ shown c s' = shown c s ∧
      Dict.get? s'.host.entries p = some n ∧ (s'.host.inode n).kind = .file ∧ (s'.host.inode n).data = d := by
  obtain ⟨hp, hpd⟩ := file_parent hI hx
  obtain ⟨s1, hs1, pr⟩ := ensureParent_ok hI hp hpd
  have hn1 : s1.host.node p = none := by rw [pr.here]; exact hn
  have hx1 : shown c s1 p = some (.file d) := by rw [pr.same]; exact hx
  obtain ⟨i, hi, hk, hd⟩ := lower_file hI hx hn
  have hnd : isDeleted s1 p = false := (shown_some hx1).1
  obtain ⟨g1, g2⟩ := inserted pr.inv hn1 (by rw [hx1]; simp) (by rw [pr.same]; exact hpd)
    ⟨.file, d, [], c.newAttrs 0o666⟩ pr.parent s1.rows (by
      intro q
      by_cases hq : p = q
      · subst hq; rw [if_pos rfl]; exact hnd
      · rw [if_neg hq])
  refine ⟨⟨s1.host.insert p ⟨.file, d, [], c.newAttrs 0o666⟩, s1.rows⟩, s1.host.next, ?_, g1, ?_, ?_, ?_, ?_⟩
  · unfold ensureModifiable
    rw [hs1]
    simp only
    have hread : msRead c s1 p = .ok d := by
      unfold msRead; rw [hn1]; simp only; rw [hi]; simp [hk, hd]
    rw [hread]
    simp only
    have hopen : s1.host.openTruncate p (c.newAttrs 0o666)
        = .ok (s1.host.insert p ⟨.file, [], [], c.newAttrs 0o666⟩, s1.host.next) := by
      unfold Host.openTruncate
      rw [(entry_none _ _).mpr hn1]
      simp only
      rw [parentError_none _ _ pr.parent]
    rw [hopen]
    simp only
    rw [lexists_false _ _ hn1, setData_insert]
    rfl
  · rw [g2]
    funext q
    unfold Tree.at
    by_cases hq : p = q
    · subst hq; rw [if_pos rfl, hx]; rfl
    · rw [if_neg hq, pr.same]
  · simp [Host.insert, Dict.get?_set]
  · simp [Host.insert]
  · simp [Host.insert]

theorem openExisting_ok (h : Host) (p : Path) (n : Nat) (hg : Dict.get? h.entries p = some n)
    (hk : (h.inode n).kind = .file) : h.openExisting p = .ok n := by
  unfold Host.openExisting; rw [hg]; simp only; rw [hk]

theorem written (hI : Inv c s) {p : Path} {n : Nat} {d : Bytes} (hg : Dict.get? s.host.entries p = some n)
    (hk : (s.host.inode n).kind = .file) (hd : (s.host.inode n).data = d) (new : Bytes) (offset : Nat) :
    Inv c (writeInode s n new offset) ∧
      shown c (writeInode s n new offset) = (shown c s).at p (some (.file (pwrite d offset new))) := by
  obtain ⟨h1, h2⟩ := replaced hI hg { s.host.inode n with data := pwrite (s.host.inode n).data offset new } rfl s.rows
    (fun _ => rfl)
  refine ⟨h1, ?_⟩
  rw [show writeInode s n new offset
    = ⟨s.host.setInode n { s.host.inode n with data := pwrite (s.host.inode n).data offset new }, s.rows⟩ from rfl, h2]
  simp [Inode.shown, hk, hd]

theorem write_refines (hI : Inv c s) {p : Path} {offset : Nat} {new d : Bytes} (hx : shown c s p = some (.file d)) :
    ∃ s', writeFile c s p offset new = (s', .ok ()) ∧ Inv c s' ∧
      shown c s' = (shown c s).at p (some (.file (pwrite d offset new))) := by
  unfold writeFile openOverlay
  cases hn : s.host.node p with
  | some i =>
    obtain ⟨n, hg, hin⟩ := entry_some _ _ _ hn
    obtain ⟨hk, hd⟩ := host_file hI hx hn
    rw [if_pos (lexists_true _ _ i hn), openExisting_ok _ _ n hg (by rw [hin]; exact hk)]
    simp only
    obtain ⟨h1, h2⟩ := written (d := d) hI hg (by rw [hin]; exact hk) (by rw [hin]; exact hd) new offset
    exact ⟨_, rfl, h1, h2⟩
  | none =>
    rw [if_neg (by rw [lexists_false _ _ hn]; simp), msExists_of_shown hx]
    obtain ⟨s1, n, e1, e2, e3, e4, e5, e6⟩ := copied hI hx hn
    simp only [Bool.not_true, Bool.false_eq_true, if_false, if_true]
    rw [e1]
    simp only
    rw [openExisting_ok _ _ n e4 e5]
    simp only
    obtain ⟨h1, h2⟩ := written e2 e4 e5 e6 new offset
    exact ⟨_, rfl, h1, by rw [h2, e3]⟩

theorem truncate_ok (hI : Inv c s) {p : Path} {n : Nat} {d : Bytes} (hg : Dict.get? s.host.entries p = some n)
    (hk : (s.host.inode n).kind = .file) (hd : (s.host.inode n).data = d) (size : Nat) :
    ∃ h', s.host.truncate p size = .ok h' ∧ Inv c { s with host := h' } ∧
      shown c { s with host := h' } = (shown c s).at p (some (.file (resize d size))) := by
  obtain ⟨h1, h2⟩ := replaced hI hg { s.host.inode n with data := resize (s.host.inode n).data size } rfl s.rows
    (fun _ => rfl)
  refine ⟨s.host.setData n (resize (s.host.inode n).data size), ?_, h1, ?_⟩
  · unfold Host.truncate; rw [hg]; simp only; rw [hk]
  · rw [show ({ s with host := s.host.setData n (resize (s.host.inode n).data size) } : St)
      = ⟨s.host.setInode n { s.host.inode n with data := resize (s.host.inode n).data size }, s.rows⟩ from rfl, h2]
    simp [Inode.shown, hk, hd]

/-- Where truncating works: the file is not in the overlay folder yet, or nothing of it is kept. -/
def TruncateWorks (s : St) (p : Path) (size : Nat) : Prop := ∀ i, s.host.node p = some i → i.data = [] ∨ size = 0

theorem truncate_refines (hI : Inv c s) {p : Path} {size : Nat} {d : Bytes} (hx : shown c s p = some (.file d))
    (hg : TruncateWorks s p size) :
    ∃ s', truncate c s p size = (s', .ok ()) ∧ Inv c s' ∧
      shown c s' = (shown c s).at p (some (.file (resize d size))) := by
  unfold truncate
  cases hn : s.host.node p with
  | none =>
    obtain ⟨s1, n, e1, e2, e3, e4, e5, e6⟩ := copied hI hx hn
    rw [e1]
    simp only
    obtain ⟨h', f1, f2, f3⟩ := truncate_ok e2 e4 e5 e6 size
    rw [f1]
    exact ⟨_, rfl, f2, by rw [f3, e3]⟩
  | some i =>
    obtain ⟨hp, hpd⟩ := file_parent hI hx
    obtain ⟨s1, hs1, pr⟩ := ensureParent_ok hI hp hpd
    have hn1 : s1.host.node p = some i := by rw [pr.here]; exact hn
    obtain ⟨hk, hd⟩ := host_file hI hx hn
    obtain ⟨n, hgn, hin⟩ := entry_some _ _ _ hn1
    have hres : resize d size = resize [] size := by
      rcases hg i hn with h | h
      · rw [← hd, h]
      · subst h; simp [resize]
    -- the file is emptied
    obtain ⟨g1, g2⟩ := replaced pr.inv hgn { s1.host.inode n with data := [] } rfl s1.rows (fun _ => rfl)
    have hmod : ensureModifiable c s p = (⟨s1.host.setInode n { s1.host.inode n with data := [] }, s1.rows⟩, .ok ()) := by
      unfold ensureModifiable
      rw [hs1]
      simp only
      have hread : msRead c s1 p = .ok i.data := by unfold msRead; rw [hn1]; simp [hk]
      rw [hread]
      simp only
      have hopen : s1.host.openTruncate p (c.newAttrs 0o666)
          = .ok (s1.host.setInode n { s1.host.inode n with data := [] }, n) := by
        unfold Host.openTruncate
        rw [hgn]; simp only; rw [hin, hk]
      rw [hopen]
      simp only
      rw [if_pos (lexists_true _ _ i hn1)]
      unfold Host.setData
      rw [setInode_setInode]
      simp [Host.setInode]
    rw [hmod]
    simp only
    obtain ⟨h', f1, f2, f3⟩ := truncate_ok (s := ⟨s1.host.setInode n { s1.host.inode n with data := [] }, s1.rows⟩)
      (d := []) g1 hgn (by simp [Host.setInode, hin, hk]) (by simp [Host.setInode]) size
    rw [f1]
    refine ⟨_, rfl, f2, ?_⟩
    rw [f3, g2, pr.same, hres]
    funext q
    unfold Tree.at
    by_cases hq : p = q <;> simp [hq]

/-- Where renaming works: the file is either in the overlay folder or below; from below only files are moved, and not
over a link or a special file in the overlay folder. -/
def RenameWorks (c : Cfg) (s : St) (old new : Path) : Prop :=
  (s.host.node old ≠ none → Dict.get? c.lower old = none) ∧
  (s.host.node old = none → (∃ d, shown c s old = some (.file d)) ∧ ∀ j, s.host.node new = some j → j.kind = .file)

theorem rename_refines (hI : Inv c s) {old new : Path} (hL : Legal (shown c s) (.rename old new))
    (hg : RenameWorks c s old new) :
    ∃ s', rename c s old new = (s', .ok ()) ∧ Inv c s' ∧
      shown c s' = ((shown c s).at new (shown c s old)).at old none := by
  obtain ⟨hne, hnew, ⟨x, hx, hxd⟩, hnd, hpd⟩ := hL
  obtain ⟨hdel, i, hi, hix⟩ := shown_some hx
  have hcond : ¬ ((!msExists c s old || isDeleted s old) = true) := by
    rw [msExists_of_shown hx, hdel]; simp
  have hoc := no_children hI.closed (p := old) (by rw [hx]; simpa using hxd)
  -- the row of the old path
  have hrow : ∃ s2 r, haveRow c { s with rows := without s.rows new } old = .ok s2 ∧ s2.host = s.host ∧
      Dict.get? s2.rows old = some r ∧ r.deleted = false ∧
      ∀ q, old ≠ q → Dict.get? s2.rows q = if new = q then none else Dict.get? s.rows q := by
    unfold haveRow
    simp only [get?_without, if_neg (fun h : new = old => hne h.symm)]
    cases hr : Dict.get? s.rows old with
    | some r =>
      refine ⟨_, r, rfl, rfl, ?_, ?_, ?_⟩
      · simp only [get?_without, if_neg (fun h : new = old => hne h.symm)]; exact hr
      · unfold isDeleted at hdel; rw [hr] at hdel; exact hdel
      · intro q _; simp only [get?_without]
    | none =>
      unfold initRow
      have : ms c { s with rows := without s.rows new } old = some i := hi
      rw [this]
      refine ⟨_, _, rfl, rfl, by simp only [Dict.get?_set, if_pos]; rfl, rfl, ?_⟩
      intro q hq
      simp only [Dict.get?_set, if_neg hq, get?_without]
  obtain ⟨s2, r, r1, r2, r3, r4, r5⟩ := hrow
  -- the state with the row moved
  generalize hs3 : (⟨s.host, Dict.set (without s2.rows old) new r⟩ : St) = s3
  have hrows3 : ∀ q, Dict.get? s3.rows q = if new = q then some r else if old = q then none else Dict.get? s.rows q := by
    intro q
    rw [← hs3]
    simp only [Dict.get?_set, get?_without]
    by_cases h1 : new = q
    · rw [if_pos h1, if_pos h1]
    · rw [if_neg h1, if_neg h1]
      by_cases h2 : old = q
      · rw [if_pos h2, if_pos h2]
      · rw [if_neg h2, if_neg h2, r5 q h2, if_neg h1]
  have hdel3 : ∀ q, isDeleted s3 q = if new = q then false else isDeleted s q := by
    intro q
    unfold isDeleted
    rw [hrows3]
    by_cases h1 : new = q
    · rw [if_pos h1, if_pos h1]; exact r4
    · rw [if_neg h1, if_neg h1]
      by_cases h2 : old = q
      · rw [if_pos h2]; subst h2; unfold isDeleted at hdel; simp only; exact hdel.symm
      · rw [if_neg h2]
  have hhost3 : s3.host = s.host := by rw [← hs3]
  -- An intermediate state with the new name still hidden as before, to make the parent of the new path in.
  have hpar : ∃ s4, ensureParent c s3 new = .ok s4 ∧ s4.rows = s3.rows ∧ ∃ s1, Prepared c s s1 new ∧ s4.host = s1.host := by
    obtain ⟨s1, hs1, pr⟩ := ensureParent_ok hI hnew hpd
    refine ⟨⟨s1.host, s3.rows⟩, ?_, rfl, s1, pr, rfl⟩
    unfold ensureParent at hs1 ⊢
    have hmd : msIsDir c s3 new.dropLast = msIsDir c s new.dropLast := by unfold msIsDir ms; rw [hhost3]
    rw [hmd, hhost3]
    split
    · next hc =>
      rw [if_pos hc] at hs1
      cases hm : s.host.makedirs (c.newAttrs 511) new.dropLast with
      | error e => rw [hm] at hs1; simp [Except.map] at hs1
      | ok h =>
        rw [hm] at hs1
        simp only [Except.map, Except.ok.injEq] at hs1 ⊢
        rw [← hs1]
    · next hc =>
      rw [if_neg hc] at hs1
      simp only [Except.ok.injEq] at hs1 ⊢
      rw [← hs1, ← hs3]
  obtain ⟨s4, h4, h4r, s1, pr, h4h⟩ := hpar
  have hhostnew : s.host.isdir new = false := by
    cases hd : s.host.isdir new with
    | false => rfl
    | true =>
      obtain ⟨j, hj, hjk⟩ := (isdir_iff _ _).mp hd
      rw [shown_host hI hj, (shown_dir_iff j).mpr hjk] at hnd
      exact absurd rfl hnd
  have hn1new : s1.host.node new = s.host.node new := pr.here
  have hn1old : s1.host.node old = s.host.node old := pr.added old (by rw [hx]; simpa using hxd)
  have hdir1 : s1.host.isdir new = false := by rw [isdir_congr hn1new]; exact hhostnew
  have hdel4 : ∀ q, isDeleted s4 q = if new = q then false else isDeleted s q := by
    intro q; rw [← hdel3 q]; exact isDeleted_rows (by rw [h4r])
  -- what has to be shown about the final state
  have final : ∀ s' : St, s'.host.WF → (∀ q, isDeleted s' q = true → s'.host.node q = none) →
      (∀ q, new ≠ q → old ≠ q → shown c s' q = shown c s q) → shown c s' new = some x → shown c s' old = none →
      Inv c s' ∧ shown c s' = ((shown c s).at new (shown c s old)).at old none := by
    intro s' w1 w2 w3 w4 w5
    have hsh : shown c s' = ((shown c s).at new (shown c s old)).at old none := by
      funext q
      unfold Tree.at
      by_cases h1 : old = q
      · subst h1; rw [if_pos rfl]; exact w5
      · rw [if_neg h1]
        by_cases h2 : new = q
        · subst h2; rw [if_pos rfl, hx]; exact w4
        · rw [if_neg h2]; exact w3 q h2 h1
    refine ⟨⟨w1, w2, ?_⟩, hsh⟩
    rw [hsh, hx]
    have hcl := closed_at hI.closed new x hpd hnd
    apply closed_remove hcl
    intro n
    unfold Tree.at
    split
    · next he =>
      exfalso
      have : new.dropLast = old := by rw [he]; simp
      rw [this, hx] at hpd
      exact hxd (by simpa using hpd)
    · exact hoc n
  unfold rename
  rw [if_neg hcond]
  simp only
  rw [r1]
  simp only [r3]
  rw [r2, hs3, h4]
  simp only
  have ih1 := pr.inv
  have hpr1 : s1.host.isdir new.dropLast = true := pr.parent
  cases hn : s.host.node old with
  | some j =>
    -- the file is in the overlay folder
    have hlow := hg.1 (by rw [hn]; simp)
    have hn1 : s1.host.node old = some j := by rw [hn1old]; exact hn
    obtain ⟨n, hgn, hjn⟩ := entry_some _ _ _ hn1
    have hjx : j.shown = x := by rw [shown_host hI hn] at hx; simpa using hx
    have hjk : (s1.host.inode n).kind ≠ .dir := by
      rw [hjn]; intro hk; exact hxd (by rw [← hjx]; exact (shown_dir_iff j).mpr hk)
    rw [h4h, if_pos (lexists_true _ _ j hn1)]
    have hren : s1.host.rename old new = .ok (s1.host.moved old new n) := by
      unfold Host.rename
      rw [hgn]
      simp only
      rw [parentError_none _ _ hpr1]
      simp only
      rw [if_neg hne, if_neg hjk]
      cases hgnew : Dict.get? s1.host.entries new with
      | none => rfl
      | some m =>
        simp only
        have hmk : (s1.host.inode m).kind ≠ .dir := by
          intro hk
          have : s1.host.isdir new = true :=
            (isdir_iff _ _).mpr ⟨_, by unfold Host.node; rw [hgnew]; rfl, hk⟩
          rw [hdir1] at this; simp at this
        rw [if_neg hmk, if_neg (by rintro rfl; exact hne (ih1.wf.single old new m hgn hgnew))]
        rfl
    rw [hren]
    simp only
    refine ⟨_, rfl, ?_⟩
    have hnode : ∀ q, (s1.host.moved old new n).node q
        = if new = q then some j else if old = q then none else s1.host.node q := by
      intro q; rw [node_moved, hjn]
    apply final
    · exact wf_moved _ ih1.wf old new n hgn hjk hpr1 hdir1
    · intro q hq
      have hq' : isDeleted s4 q = true := hq
      rw [hdel4] at hq'
      simp only
      rw [hnode]
      by_cases h1 : new = q
      · rw [if_pos h1] at hq'; simp at hq'
      · rw [if_neg h1] at hq' ⊢
        by_cases h2 : old = q
        · rw [if_pos h2]
        · rw [if_neg h2]
          exact ih1.hidden q (by rw [← hq']; exact isDeleted_rows (by rw [pr.rows]))
    · intro q h1 h2
      rw [← pr.same]
      apply shown_congr
      · simp only; rw [hnode, if_neg h1, if_neg h2]
      · have : isDeleted { s4 with host := s1.host.moved old new n } q = isDeleted s4 q := rfl
        rw [this, hdel4, if_neg h1]; exact (isDeleted_rows (by rw [pr.rows])).symm
    · have h0 : isDeleted { s4 with host := s1.host.moved old new n } new = false := by
        have : isDeleted { s4 with host := s1.host.moved old new n } new = isDeleted s4 new := rfl
        rw [this, hdel4, if_pos rfl]
      unfold shown view ms
      rw [h0]
      simp [hnode, hjx]
    · have h0 : isDeleted { s4 with host := s1.host.moved old new n } old = false := by
        have : isDeleted { s4 with host := s1.host.moved old new n } old = isDeleted s4 old := rfl
        rw [this, hdel4, if_neg (fun h => hne h.symm)]; exact hdel
      unfold shown view ms
      rw [h0]
      simp [hnode, if_neg (fun h : new = old => hne h.symm), hlow]
  | none =>
    -- the file is below
    obtain ⟨⟨d, hd⟩, hnk⟩ := hg.2 hn
    have hxf : x = .file d := by rw [hx] at hd; simpa using hd
    obtain ⟨l, hl, hlk, hld⟩ := lower_file hI hd hn
    have hn1 : s1.host.node old = none := by rw [hn1old]; exact hn
    rw [h4h, if_neg (by rw [lexists_false _ _ hn1]; simp)]
    have hread : msRead c s4 old = .ok d := by
      unfold msRead; rw [h4h, hn1]; simp only; rw [hl]; simp [hlk, hld]
    rw [hread]
    simp only
    -- the copy
    have hopen : ∃ h' n, s1.host.openTruncate new (c.newAttrs 0o666) = .ok (h', n) ∧ (h'.setData n d).WF ∧
        ∃ k : Inode, k.shown = .file d ∧
          ∀ q, (h'.setData n d).node q = if new = q then some k else s1.host.node q := by
      unfold Host.openTruncate
      cases hgnew : Dict.get? s1.host.entries new with
      | none =>
        simp only
        rw [parentError_none _ _ hpr1]
        simp only
        have hnone : s1.host.node new = none := (entry_none _ _).mp hgnew
        refine ⟨_, _, rfl, ?_, ⟨.file, d, [], c.newAttrs 0o666⟩, rfl, ?_⟩
        · rw [setData_insert]; exact wf_insert _ ih1.wf _ _ hnone hpr1
        · intro q; rw [setData_insert]; exact node_insert _ ih1.wf _ _ q
      | some m =>
        simp only
        have hmn : s1.host.node new = some (s1.host.inode m) := by unfold Host.node; rw [hgnew]; rfl
        have hmk : (s1.host.inode m).kind = .file := hnk _ (by rw [← hn1new]; exact hmn)
        rw [hmk]
        simp only
        refine ⟨_, _, rfl, ?_, { s1.host.inode m with data := d }, ?_, ?_⟩
        · unfold Host.setData
          rw [setInode_setInode]
          exact wf_setInode _ ih1.wf new m _ hgnew (by simp [Host.setInode, hmk])
        · simp [Inode.shown, hmk]
        · intro q
          unfold Host.setData
          rw [setInode_setInode, node_setInode _ ih1.wf new m _ hgnew]
          simp [Host.setInode, hmk]
    obtain ⟨h', n, o1, o2, k, o3, o4⟩ := hopen
    rw [o1]
    simp only
    have hmark : markDeleted c { s4 with host := h'.setData n d } old
        = ⟨h'.setData n d, Dict.set s4.rows old ⟨none, none, none, none, true⟩⟩ := by
      unfold markDeleted
      rw [if_pos]
      unfold msExists ms
      simp only
      rw [o4, if_neg (fun h => hne h.symm), hn1, hl]; rfl
    rw [hmark]
    refine ⟨_, rfl, ?_⟩
    have hdel5 : ∀ q, isDeleted ⟨h'.setData n d, Dict.set s4.rows old ⟨none, none, none, none, true⟩⟩ q
        = if old = q then true else isDeleted s4 q := by
      intro q
      unfold isDeleted
      simp only [Dict.get?_set]
      by_cases h1 : old = q
      · simp [h1]
      · simp [h1]
    apply final
    · exact o2
    · intro q hq
      rw [hdel5] at hq
      simp only
      rw [o4]
      by_cases h2 : old = q
      · subst h2; rw [if_neg (fun h => hne h.symm)]; exact hn1
      · rw [if_neg h2, hdel4] at hq
        by_cases h1 : new = q
        · rw [if_pos h1] at hq; simp at hq
        · rw [if_neg h1] at hq ⊢
          exact ih1.hidden q (by rw [← hq]; exact isDeleted_rows (by rw [pr.rows]))
    · intro q h1 h2
      rw [← pr.same]
      apply shown_congr
      · simp only; rw [o4, if_neg h1]
      · rw [hdel5, if_neg h2, hdel4, if_neg h1]; exact (isDeleted_rows (by rw [pr.rows])).symm
    · unfold shown view ms
      rw [hdel5, if_neg hne, hdel4, if_pos rfl]
      simp [o4, o3, hxf]
    · unfold shown view
      rw [hdel5, if_pos rfl]
      rfl

/-! ## histories -/

/-- Where an operation does what it should. -/
def Works (c : Cfg) (s : St) : Op → Prop
  | .truncate p n => TruncateWorks s p n
  | .chown _ uid gid => uid ≠ none ∨ gid ≠ none
  | .symlink p _ => isDeleted s p = false ∧ s.host.isdir p.dropLast = true
  | .mknod p _ => isDeleted s p = false
  | .rename old new => RenameWorks c s old new
  | _ => True

theorem step_refines (hI : Inv c s) (op : Op) (hL : Legal (shown c s) op) (hW : Works c s op) :
    ∃ s', step c s op = (s', .ok ()) ∧ Inv c s' ∧ shown c s' = (shown c s).step op := by
  cases op with
  | create p mode => exact create_refines hI hL
  | mkdir p mode => exact mkdir_refines hI hL
  | unlink p => exact unlink_refines hI hL
  | rmdir p => exact rmdir_refines hI hL
  | write p offset data =>
    obtain ⟨d, hd⟩ := hL
    obtain ⟨s', h1, h2, h3⟩ := write_refines (offset := offset) (new := data) hI hd
    exact ⟨s', h1, h2, by rw [h3]; simp only [Tree.step, hd]⟩
  | truncate p n =>
    obtain ⟨d, hd⟩ := hL
    obtain ⟨s', h1, h2, h3⟩ := truncate_refines hI hd hW
    exact ⟨s', h1, h2, by rw [h3]; simp only [Tree.step, hd]⟩
  | chmod p mode => exact setMetadata_refines hI { mode := some mode } (fun a => { a with mode := mode }) rfl hL
  | chown p uid gid =>
    refine setMetadata_refines hI _ _ ?_ hL
    rcases hW with h | h
    · cases uid with
      | none => exact absurd rfl h
      | some u => rfl
    · cases gid with
      | none => exact absurd rfl h
      | some g => cases uid <;> rfl
  | utimens p mtime => exact setMetadata_refines hI { mtime := some mtime } (fun a => { a with mtime := mtime }) rfl hL
  | symlink p target => exact symlink_refines hI hL hW.1 hW.2
  | mknod p mode => exact mknod_refines hI hL hW
  | rename old new => exact rename_refines hI hL hW

/-- A history of operations the kernel lets through and that are not broken, with the states it goes through. -/
inductive Run (c : Cfg) : St → List Op → St → Prop where
  | nil (s : St) : Run c s [] s
  | cons {s s1 s2 : St} {op : Op} {ops : List Op} {r : Except PyErr Unit} : Legal (shown c s) op → Works c s op →
      step c s op = (s1, r) → Run c s1 ops s2 → Run c s (op :: ops) s2

theorem run_refines {s' : St} {ops : List Op} (hI : Inv c s) (hr : Run c s ops s') :
    Inv c s' ∧ shown c s' = ops.foldl Tree.step (shown c s) := by
  induction hr with
  | nil s => exact ⟨hI, rfl⟩
  | cons hL hW hs _ ih =>
    obtain ⟨s', h1, h2, h3⟩ := step_refines hI _ hL hW
    rw [hs] at h1
    simp only [Prod.mk.injEq] at h1
    obtain ⟨rfl, -⟩ := h1
    obtain ⟨g1, g2⟩ := ih h2
    exact ⟨g1, by rw [g2, h3]; rfl⟩

/-- A fresh overlay: an empty folder and no rows. -/
def St.fresh (a : Meta) : St := ⟨⟨[([], 0)], fun _ => ⟨.dir, [], [], a⟩, 1⟩, []⟩

/-- What the sources below show. -/
def lowerTree (c : Cfg) : Tree := fun p => if p = [] then some .dir else (Dict.get? c.lower p).map Inode.shown

theorem fresh_shown (a : Meta) : shown c (St.fresh a) = lowerTree c := by
  funext p
  unfold shown view ms isDeleted lowerTree St.fresh Host.node
  simp only [Dict.get?, Bool.false_eq_true, if_false]
  by_cases hp : p = []
  · subst hp; simp [Inode.shown]
  · rw [if_neg hp, if_neg (fun h => hp h.symm)]; simp

/-- A fresh overlay over a proper tree satisfies what the theorems need. -/
theorem fresh_inv (a : Meta) (h : Closed (lowerTree c)) : Inv c (St.fresh a) := by
  refine ⟨⟨rfl, ?_, ?_, ?_⟩, ?_, by rw [fresh_shown]; exact h⟩
  · intro p n hn
    unfold St.fresh Host.node at hn
    simp [Dict.get?] at hn
  · intro p n hn
    unfold St.fresh at hn ⊢
    simp only [Dict.get?] at hn
    split at hn
    · simp only [Option.some.injEq] at hn; subst hn; exact Nat.zero_lt_one
    · simp at hn
  · intro p q n hp hq
    unfold St.fresh at hp hq
    simp only [Dict.get?] at hp hq
    split at hp
    · split at hq
      · next h1 h2 => rw [← h1, ← h2]
      · simp at hq
    · simp at hp
  · intro p hp
    unfold isDeleted St.fresh at hp
    simp at hp

/-! ## C43: what is visible -/

/-- What an operation means for whether something is at a path: it is made, removed, or not touched. -/
def makes : Op → Path → Option Bool
  | .create p _, q | .mkdir p _, q | .symlink p _, q | .mknod p _, q => if p = q then some true else none
  | .unlink p, q | .rmdir p, q => if p = q then some false else none
  | .rename old new, q => if old = q then some false else if new = q then some true else none
  | _, _ => none

/-- The last operation that made or removed a path decides, and otherwise what was there at the start. -/
def present (start : Bool) (ops : List Op) (p : Path) : Bool := ops.foldl (fun v op => (makes op p).getD v) start

theorem step_present (t : Tree) (op : Op) (hL : Legal t op) (p : Path) :
    (t.step op p).isSome = (makes op p).getD (t p).isSome := by
  cases op with
  | create q mode => simp only [Tree.step, Tree.at, makes]; split <;> rfl
  | mkdir q mode => simp only [Tree.step, Tree.at, makes]; split <;> rfl
  | unlink q => simp only [Tree.step, Tree.at, makes]; split <;> rfl
  | rmdir q => simp only [Tree.step, Tree.at, makes]; split <;> rfl
  | symlink q target => simp only [Tree.step, Tree.at, makes]; split <;> rfl
  | mknod q mode => simp only [Tree.step, Tree.at, makes]; split <;> rfl
  | chmod q mode => rfl
  | chown q u g => rfl
  | utimens q m => rfl
  | write q offset data =>
    obtain ⟨d, hd⟩ := hL
    simp only [Tree.step, hd, Tree.at, makes]
    by_cases hq : q = p
    · subst hq; simp [hd]
    · simp [hq]
  | truncate q n =>
    obtain ⟨d, hd⟩ := hL
    simp only [Tree.step, hd, Tree.at, makes]
    by_cases hq : q = p
    · subst hq; simp [hd]
    · simp [hq]
  | rename old new =>
    obtain ⟨-, -, ⟨x, hx, -⟩, -⟩ := hL
    simp only [Tree.step, Tree.at, makes, hx]
    by_cases h1 : old = p
    · simp [h1]
    · by_cases h2 : new = p
      · simp [h1, h2]
      · simp [h1, h2]

/-- The operations the kernel lets through, with renaming of folders. -/
def Kernel (t : Tree) : Op → Prop
  | .rename old new =>
    Legal t (.rename old new) ∨
      (old ≠ new ∧ t old = some .dir ∧ t new = none ∧ t new.dropLast = some .dir ∧ ¬ old <+: new ∧ new ≠ [])
  | .rmdir p => p ≠ [] ∧ t p = some .dir
  | op => Legal t op

/-- C43 for one operation after any history: if it succeeds, then what it made is there, what it removed is gone, and
everything else is as before; if it fails, then everything is as before. -/
def C43_statement : Prop :=
  ∀ (c : Cfg) (s : St) (op : Op), Inv c s → Kernel (shown c s) op → ∀ p,
    (shown c (step c s op).1 p).isSome =
      if (step c s op).2 = .ok () then (makes op p).getD (shown c s p).isSome else (shown c s p).isSome

/-- C43 for every history of operations that are not broken (see `Works`): a path that was removed is not visible, and
one that was made after that is, with the same tree below all the time. Missing: truncating a file that is in the
overlay (C47), renaming over the restrictions of C45, links and nodes at deleted paths (C44), and operations that
fail. -/
theorem C43_history_partial {s' : St} {ops : List Op} (hI : Inv c s) (hr : Run c s ops s') (p : Path) :
    (shown c s' p).isSome = present (shown c s p).isSome ops p := by
  induction hr with
  | nil s => rfl
  | @cons s s1 s2 op ops r hL hW hs hrun ih =>
    obtain ⟨s', h1, h2, h3⟩ := step_refines hI _ hL hW
    rw [hs] at h1
    simp only [Prod.mk.injEq] at h1
    obtain ⟨rfl, -⟩ := h1
    rw [ih h2, h3, step_present _ _ hL]
    rfl

/-- Removing, with `ENOENT`, what is not there changes nothing. -/
theorem C43_missing (hI : Inv c s) (p : Path) (hx : shown c s p = none) :
    ∃ s', unlink c s p = (s', .error ENOENT) ∧ Inv c s' ∧ shown c s' = shown c s := by
  have hn := host_none hI hx
  have hcond : (!msExists c s p || isDeleted s p) = true := by
    unfold shown view at hx
    cases hd : isDeleted s p with
    | true => simp
    | false =>
      rw [hd] at hx
      simp only [Bool.false_eq_true, if_false, Option.map_eq_none_iff] at hx
      unfold msExists; rw [hx]; rfl
  unfold unlink
  rw [if_pos hcond]
  obtain ⟨h1, h2⟩ := marked hI (no_children hI.closed (p := p) (by rw [hx]; simp)) s.host hI.wf (by
    intro q
    by_cases hq : p = q
    · subst hq; rw [if_pos rfl]; exact hn
    · rw [if_neg hq])
  refine ⟨_, rfl, h1, ?_⟩
  rw [show ({ s with host := s.host } : St) = s from rfl] at h2
  rw [h2]
  funext q
  unfold Tree.at
  by_cases hq : p = q
  · subst hq; rw [if_pos rfl, hx]
  · rw [if_neg hq]

/-- The tree below is proper: its entries are in folders. -/
def LowerClosed (c : Cfg) : Prop :=
  ∀ p n, Dict.get? c.lower (p ++ [n]) ≠ none → ∃ i, Dict.get? c.lower p = some i ∧ i.kind = .dir

theorem mem_msList_of (hlow : LowerClosed c) (p : Path) (n : Str) (h : ms c s (p ++ [n]) ≠ none)
    (hw : s.host.WF) : n ∈ (msList c s p).getD [] := by
  have hl : Dict.get? c.lower (p ++ [n]) ≠ none → n ∈ (lowerList c p).getD [] := by
    intro hne
    obtain ⟨i, hi, hk⟩ := hlow p n hne
    unfold lowerList
    rw [hi]
    simp only [hk, if_true, Option.getD_some]
    refine List.mem_filterMap.mpr ⟨p ++ [n], ?_, by simp [nameIn]⟩
    rw [Dict.mem_keys_iff]
    cases hg : Dict.get? c.lower (p ++ [n]) with
    | none => exact absurd hg hne
    | some v => rfl
  unfold msList
  cases hn : s.host.node (p ++ [n]) with
  | some j =>
    have hd := hw.closed p n (by rw [hn]; simp)
    rw [if_pos hd, Option.getD_some]
    exact List.mem_append_right _ ((mem_children _ _ _).mpr (by rw [hn]; simp))
  | none =>
    have hne : Dict.get? c.lower (p ++ [n]) ≠ none := by
      unfold ms at h; rw [hn] at h; simpa using h
    split
    · rw [Option.getD_some]; exact List.mem_append_left _ (hl hne)
    · exact hl hne

/-- Removing a folder in which something is visible is refused and changes nothing; except that files with the names of
the overlay's database do not count. -/
theorem C43_not_empty_partial (hlow : LowerClosed c) (hI : Inv c s) (p : Path) (n : Str) (hx : shown c s p ≠ none)
    (hn : shown c s (p ++ [n]) ≠ none) (hname : n ∉ databaseNames) : rmdir c s p = (s, .error ENOTEMPTY) := by
  cases hx' : shown c s p with
  | none => exact absurd hx' hx
  | some x =>
  cases hn' : shown c s (p ++ [n]) with
  | none => exact absurd hn' hn
  | some y =>
  obtain ⟨hnd, i, hi, -⟩ := shown_some hn'
  unfold rmdir
  rw [if_neg (by rw [msExists_of_shown hx', (shown_some hx').1]; simp), if_pos]
  rw [List.any_eq_true]
  refine ⟨n, mem_msList_of hlow p n (by rw [hi]; simp) hI.wf, ?_⟩
  simp only [Bool.not_eq_true', List.contains_eq_mem, decide_eq_false_iff_not]
  rw [mem_listDeleted s p n hname, hnd]
  simp

/-! ## C46: reading what was written -/

/-- `FuseMount.open` and `read`: the file is looked up and read through the mount source (FuseMount.py:775-790, 808-830). -/
def readFile (c : Cfg) (s : St) (p : Path) (offset size : Nat) : Except PyErr Bytes :=
  match view c s p with
  | none => .error ENOENT
  | some _ => (msRead c s p).map (fun d => pread d offset size)

/-- Reading gives the content that is shown. -/
theorem C46_read (hI : Inv c s) (p : Path) (d : Bytes) (hx : shown c s p = some (.file d)) (offset size : Nat) :
    readFile c s p offset size = .ok (pread d offset size) := by
  have hread : msRead c s p = .ok d := by
    unfold msRead
    cases hn : s.host.node p with
    | some i => obtain ⟨hk, hd⟩ := host_file hI hx hn; simp [hk, hd]
    | none => obtain ⟨i, hi, hk, hd⟩ := lower_file hI hx hn; simp [hi, hk, hd]
  unfold readFile
  cases hv : view c s p with
  | none => unfold shown at hx; rw [hv] at hx; simp at hx
  | some i => simp only; rw [hread]; rfl

/-- Every history shows, beginning with the files of the archive, what an ordinary file system would show. -/
theorem C46_history_partial {s' : St} {ops : List Op} (a : Meta) (hlow : Closed (lowerTree c))
    (hr : Run c (St.fresh a) ops s') : shown c s' = ops.foldl Tree.step (lowerTree c) := by
  rw [← fresh_shown a]; exact (run_refines (fresh_inv a hlow) hr).2

/-- After any history a write is read back, other files keep their content, and the sources below are part of the
configuration that no operation changes. -/
theorem C46_write (hI : Inv c s) (p : Path) (d new : Bytes) (offset : Nat) (hx : shown c s p = some (.file d)) :
    ∃ s', writeFile c s p offset new = (s', .ok ()) ∧
      readFile c s' p offset new.length = .ok new ∧
      (∀ k, k < offset → k < d.length → (readFile c s' p k 1) = .ok [d.getD k 0]) ∧
      ∀ q, q ≠ p → shown c s' q = shown c s q := by
  obtain ⟨s', h1, h2, h3⟩ := write_refines (offset := offset) (new := new) hI hx
  have hx' : shown c s' p = some (.file (pwrite d offset new)) := by rw [h3]; simp [Tree.at]
  have hlen : ((d ++ List.replicate (offset - d.length) 0).take offset).length = offset := by
    simp; omega
  refine ⟨s', h1, ?_, ?_, ?_⟩
  · rw [C46_read h2 p _ hx']
    unfold pread pwrite
    rw [List.append_assoc, List.drop_append_of_le_length (by omega), List.drop_of_length_le (by omega)]
    simp
  · intro k hk hkd
    rw [C46_read h2 p _ hx']
    unfold pread pwrite
    rw [List.append_assoc, List.drop_append_of_le_length (by omega)]
    have : ((d ++ List.replicate (offset - d.length) 0).take offset).drop k
        = d.getD k 0 :: ((d ++ List.replicate (offset - d.length) 0).take offset).drop (k + 1) := by
      rw [List.drop_eq_getElem_cons (by omega)]
      congr 1
      rw [List.getElem_take, List.getElem_append_left hkd, List.getD_eq_getElem?_getD, List.getElem?_eq_getElem hkd]
      rfl
    rw [this]
    simp
  · intro q hq
    rw [h3]; unfold Tree.at; rw [if_neg (fun h => hq h.symm)]

/-- The bytes after a write: the new ones from the offset on, before and behind the old ones, zeros in a gap. -/
theorem C46_bytes (d new : Bytes) (offset k : Nat) :
    (pwrite d offset new).getD k 0 =
      if offset ≤ k ∧ k < offset + new.length then new.getD (k - offset) 0 else d.getD k 0 := by
  have hlen : ((d ++ List.replicate (offset - d.length) 0).take offset).length = offset := by
    simp; omega
  simp only [pwrite, List.getD_eq_getElem?_getD]
  rw [List.append_assoc]
  by_cases h1 : k < offset
  · rw [if_neg (by omega), List.getElem?_append_left (by omega), List.getElem?_take_of_lt h1]
    by_cases h2 : k < d.length
    · rw [List.getElem?_append_left h2]
    · rw [List.getElem?_append_right (by omega), List.getElem?_eq_none (by omega : d.length ≤ k),
        List.getElem?_replicate]
      split <;> rfl
  · rw [List.getElem?_append_right (by omega), hlen]
    by_cases h2 : k - offset < new.length
    · rw [if_pos (by omega), List.getElem?_append_left h2]
    · rw [if_neg (by omega), List.getElem?_append_right (by omega), List.getElem?_drop]
      congr 2; omega

/-! ## C45: renaming -/

/-- After a successful rename the old path does not exist any more and the new path has the content of the old one. -/
def C45_statement : Prop :=
  ∀ (c : Cfg) (s : St) (old new : Path), Inv c s → Legal (shown c s) (.rename old new) →
    (rename c s old new).2 = .ok () →
    shown c (rename c s old new).1 old = none ∧ shown c (rename c s old new).1 new = shown c s old

/-- C45 for files that are either in the overlay or below, not both; from below only regular files, and not over a
link in the overlay. -/
theorem C45_rename_partial (hI : Inv c s) (old new : Path) (hL : Legal (shown c s) (.rename old new))
    (hW : RenameWorks c s old new) :
    (rename c s old new).2 = .ok () ∧ shown c (rename c s old new).1 old = none ∧
      shown c (rename c s old new).1 new = shown c s old ∧
      ∀ q, q ≠ old → q ≠ new → shown c (rename c s old new).1 q = shown c s q := by
  obtain ⟨s', h1, -, h3⟩ := rename_refines hI hL hW
  rw [h1]
  refine ⟨rfl, ?_, ?_, ?_⟩
  · simp only; rw [h3]; simp [Tree.at]
  · simp only; rw [h3]; unfold Tree.at; rw [if_neg hL.1, if_pos rfl]
  · intro q h4 h5
    simp only; rw [h3]; unfold Tree.at
    rw [if_neg (fun h => h4 h.symm), if_neg (fun h => h5 h.symm)]

/-! ## C47: truncating -/

def C47_statement : Prop :=
  ∀ (c : Cfg) (s : St) (p : Path) (n : Nat) (d : Bytes), Inv c s → shown c s p = some (.file d) →
    shown c (truncate c s p n).1 p = some (.file (resize d n))

/-- C47 for files that are only below, and for truncating to nothing. Missing: files that were modified before. -/
theorem C47_truncate_partial (hI : Inv c s) (p : Path) (n : Nat) (d : Bytes) (hx : shown c s p = some (.file d))
    (hW : TruncateWorks s p n) :
    (truncate c s p n).2 = .ok () ∧ shown c (truncate c s p n).1 p = some (.file (resize d n)) ∧
      ∀ q, q ≠ p → shown c (truncate c s p n).1 q = shown c s q := by
  obtain ⟨s', h1, -, h3⟩ := truncate_refines hI hx hW
  rw [h1]
  refine ⟨rfl, ?_, ?_⟩
  · simp only; rw [h3]; simp [Tree.at]
  · intro q hq; simp only; rw [h3]; unfold Tree.at; rw [if_neg (fun h => hq h.symm)]

/-- What truncating should do, byte by byte. -/
theorem C47_bytes (d : Bytes) (n : Nat) :
    (resize d n).length = n ∧ ∀ k, k < n → (resize d n).getD k 0 = d.getD k 0 := by
  constructor
  · simp [resize]; omega
  · intro k hk
    simp only [resize, List.getD_eq_getElem?_getD]
    by_cases h : k < d.length
    · rw [List.getElem?_append_left (by simp; omega), List.getElem?_take_of_lt hk]
    · rw [List.getElem?_append_right (by simp; omega), List.getElem?_replicate,
        List.getElem?_eq_none (by omega : d.length ≤ k)]
      split <;> rfl

/-- What happens instead to a file in the overlay: everything is zero. -/
theorem C47_zeros (hI : Inv c s) (p : Path) (n : Nat) (i : Inode) (hn : s.host.node p = some i) (hk : i.kind = .file) :
    shown c (truncate c s p n).1 p = some (.file (List.replicate n 0)) := by
  have hx : shown c s p = some (.file i.data) := by rw [shown_host hI hn]; simp [Inode.shown, hk]
  obtain ⟨hp, hpd⟩ := file_parent hI hx
  obtain ⟨s1, hs1, pr⟩ := ensureParent_ok hI hp hpd
  have hn1 : s1.host.node p = some i := by rw [pr.here]; exact hn
  obtain ⟨k, hgk, hik⟩ := entry_some _ _ _ hn1
  obtain ⟨g1, g2⟩ := replaced pr.inv hgk { s1.host.inode k with data := [] } rfl s1.rows (fun _ => rfl)
  have hmod : ensureModifiable c s p = (⟨s1.host.setInode k { s1.host.inode k with data := [] }, s1.rows⟩, .ok ()) := by
    unfold ensureModifiable
    rw [hs1]
    simp only
    have hread : msRead c s1 p = .ok i.data := by unfold msRead; rw [hn1]; simp [hk]
    rw [hread]
    simp only
    have hopen : s1.host.openTruncate p (c.newAttrs 0o666)
        = .ok (s1.host.setInode k { s1.host.inode k with data := [] }, k) := by
      unfold Host.openTruncate
      rw [hgk]; simp only; rw [hik, hk]
    rw [hopen]
    simp only
    rw [if_pos (lexists_true _ _ i hn1)]
    unfold Host.setData
    rw [setInode_setInode]
    simp [Host.setInode]
  unfold truncate
  rw [hmod]
  simp only
  obtain ⟨h', f1, f2, f3⟩ := truncate_ok (s := ⟨s1.host.setInode k { s1.host.inode k with data := [] }, s1.rows⟩)
    (d := []) g1 hgk (by simp [Host.setInode, hik, hk]) (by simp [Host.setInode]) n
  rw [f1]
  simp only
  rw [f3]
  simp [Tree.at, resize]

end Verif.Overlay
