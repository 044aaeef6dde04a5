import Verif.Overlay.Witness

/-!
# Which entries of the overlay folder keep their file
-/

namespace Verif.Overlay

open Verif.Py

variable {c : Cfg} {s : St}

/-- What a path pointed to in the overlay folder, it still points to. -/
def Keeps (q : Path) (h h' : Host) : Prop := ∀ n, Dict.get? h.entries q = some n → Dict.get? h'.entries q = some n

theorem Keeps.refl (q : Path) (h : Host) : Keeps q h h := fun _ hn => hn

theorem Keeps.trans {q : Path} {h h' h'' : Host} (a : Keeps q h h') (b : Keeps q h' h'') : Keeps q h h'' :=
  fun n hn => b n (a n hn)

theorem insert_keeps (q : Path) (h : Host) (p : Path) (i : Inode) (hp : h.lexists p = false) :
    Keeps q h (h.insert p i) := by
  intro n hn
  simp only [Host.insert, Dict.get?_set]
  rw [if_neg]
  · exact hn
  · rintro rfl
    unfold Host.lexists at hp
    rw [hn] at hp
    simp at hp

theorem create_keeps {q : Path} {h h' : Host} {p : Path} {i : Inode} (hc : h.create p i = .ok h') : Keeps q h h' := by
  unfold Host.create at hc
  by_cases hl : h.lexists p = true
  · rw [if_pos hl] at hc; cases hc
  · rw [if_neg hl] at hc
    cases hp : h.parentError p with
    | some e => rw [hp] at hc; cases hc
    | none =>
      rw [hp] at hc
      cases hc
      exact insert_keeps q h p i (by simpa using hl)

theorem openTruncate_keeps {q : Path} {h h' : Host} {p : Path} {a : Meta} {n : Nat}
    (ho : h.openTruncate p a = .ok (h', n)) : Keeps q h h' ∧ Dict.get? h'.entries p = some n := by
  unfold Host.openTruncate at ho
  cases hg : Dict.get? h.entries p with
  | some k =>
    rw [hg] at ho
    simp only at ho
    cases hk : (h.inode k).kind <;> rw [hk] at ho <;> simp only at ho <;> cases ho
    exact ⟨fun _ hm => hm, hg⟩
  | none =>
    rw [hg] at ho
    simp only at ho
    cases hp : h.parentError p with
    | some e => rw [hp] at ho; cases ho
    | none =>
      rw [hp] at ho
      cases ho
      exact ⟨insert_keeps q h p _ (by unfold Host.lexists; rw [hg]; rfl), by simp [Host.insert, Dict.get?_set]⟩

theorem makedirs_keeps {q : Path} {a : Meta} {p : Path} {h h' : Host} (hm : h.makedirs a p = .ok h') : Keeps q h h' := by
  unfold Host.makedirs at hm
  generalize ancestors p = l at hm
  induction l generalizing h with
  | nil => cases hm; exact Keeps.refl q _
  | cons x l ih =>
    rw [List.foldlM_cons] at hm
    cases he : h.ensureDir a x with
    | error e => rw [he] at hm; cases hm
    | ok h1 =>
      rw [he] at hm
      refine Keeps.trans ?_ (ih hm)
      unfold Host.ensureDir at he
      by_cases hl : h.lexists x = true
      · rw [if_pos hl] at he
        by_cases hd : h.isdir x = true
        · rw [if_pos hd] at he; cases he; exact Keeps.refl q _
        · rw [if_neg hd] at he; cases he
      · rw [if_neg hl] at he; exact create_keeps he

theorem ensureParent_keeps {q p : Path} {s1 : St} (h : ensureParent c s p = .ok s1) : Keeps q s.host s1.host := by
  unfold ensureParent at h
  split at h
  · cases hm : s.host.makedirs (c.newAttrs 0o777) p.dropLast with
    | error e => rw [hm] at h; cases h
    | ok h' => rw [hm] at h; cases h; exact makedirs_keeps hm
  · cases h; exact Keeps.refl q _

theorem ensureModifiable_keeps (q p : Path) : Keeps q s.host (ensureModifiable c s p).1.host := by
  unfold ensureModifiable
  cases h1 : ensureParent c s p with
  | error e => exact Keeps.refl q _
  | ok s1 =>
    have k1 : Keeps q s.host s1.host := ensureParent_keeps h1
    simp only
    cases h2 : msRead c s1 p with
    | error e => exact k1
    | ok below =>
      simp only
      cases h3 : s1.host.openTruncate p (c.newAttrs 0o666) with
      | error e => exact k1
      | ok hn => exact k1.trans (openTruncate_keeps h3).1

theorem openRow_keeps {q p : Path} {mode : Nat} {s1 : St} (h : openRow c s p mode = .ok s1) :
    Keeps q s.host s1.host := by
  unfold openRow at h
  cases h1 : ensureParent c s p with
  | error e => rw [h1] at h; cases h
  | ok s2 => rw [h1] at h; cases h; exact ensureParent_keeps (s1 := s2) h1

theorem markDeleted_host (s : St) (p : Path) : (markDeleted c s p).host = s.host := by
  unfold markDeleted; split <;> rfl

theorem setMetadata_keeps (q p : Path) (m : Change) (real : Meta → Meta) :
    Keeps q s.host (setMetadata c s p m real).1.host := by
  have hrow : ∀ s1, haveRow c s p = .ok s1 → s1.host = s.host := by
    intro s1 h
    unfold haveRow at h
    split at h
    · cases h; rfl
    · unfold initRow at h
      cases hm : ms c s p with
      | none => rw [hm] at h; cases h
      | some i => rw [hm] at h; cases h; rfl
  unfold setMetadata
  cases h1 : haveRow c s p with
  | error e => exact Keeps.refl q _
  | ok s1 =>
    have k1 := hrow s1 h1
    simp only
    split
    · intro n hn; rw [k1]; exact hn
    · intro n hn
      simp only
      cases hg : Dict.get? s1.host.entries p with
      | none => simp only [k1]; exact hn
      | some k => simp only [Host.setInode, k1]; exact hn

theorem remove_keeps {q p : Path} (h : Host) (hne : p ≠ q) : Keeps q h { h with entries := without h.entries p } := by
  intro n hn
  simp only [get?_without, if_neg hne, hn]

theorem unlink_keeps {q p : Path} {h h' : Host} (hu : h.unlink p = .ok h') (hne : p ≠ q) : Keeps q h h' := by
  unfold Host.unlink at hu
  cases hn : h.node p with
  | none => rw [hn] at hu; cases hu
  | some i =>
    rw [hn] at hu
    simp only at hu
    split at hu
    · cases hu
    · cases hu; exact remove_keeps h hne

theorem rmdir_keeps {q p : Path} {h h' : Host} (hu : h.rmdir p = .ok h') (hne : p ≠ q) : Keeps q h h' := by
  unfold Host.rmdir at hu
  cases hn : h.node p with
  | none => rw [hn] at hu; cases hu
  | some i =>
    rw [hn] at hu
    simp only at hu
    split at hu
    · cases hu
    · split at hu
      · cases hu
      · cases hu; exact remove_keeps h hne

/-- Renaming something that is no folder. -/
theorem rename_host {q old new : Path} {h h' : Host} (hr : h.rename old new = .ok h') (hd : h.isdir old = false)
    (hne : old ≠ new) :
    (old ≠ q → new ≠ q → Keeps q h h') ∧ ∀ n, Dict.get? h.entries old = some n → Dict.get? h'.entries new = some n := by
  unfold Host.rename at hr
  cases hg : Dict.get? h.entries old with
  | none => rw [hg] at hr; cases hr
  | some n =>
    have hk : (h.inode n).kind ≠ .dir := by
      intro hk
      unfold Host.isdir Host.node at hd
      rw [hg] at hd
      simp [hk] at hd
    rw [hg] at hr
    simp only at hr
    cases hp : h.parentError new with
    | some e => rw [hp] at hr; cases hr
    | none =>
      rw [hp] at hr
      simp only [if_neg hne, if_neg hk] at hr
      have hset : (old ≠ q → new ≠ q → Keeps q h { h with entries := Dict.set (without h.entries old) new n }) ∧
          ∀ m, some n = some m → Dict.get? (Dict.set (without h.entries old) new n) new = some m := by
        refine ⟨?_, ?_⟩
        · intro h1 h2 m hm
          simp only [Dict.get?_set, if_neg h2, get?_without, if_neg h1, hm]
        · intro m hm
          cases hm
          rw [Dict.get?_set, if_pos rfl]
      cases hm : Dict.get? h.entries new with
      | none => rw [hm] at hr; cases hr; exact hset
      | some m =>
        rw [hm] at hr
        simp only at hr
        split at hr
        · cases hr
        · split at hr
          · next he =>
            cases hr
            exact ⟨fun _ _ => Keeps.refl q _, fun k hk => by cases hk; rw [hm, he]⟩
          · cases hr; exact hset

theorem ensureParent_rows (h : Host) (r r' : Dict Path Row) (p : Path) :
    ensureParent c ⟨h, r⟩ p = (ensureParent c ⟨h, r'⟩ p).map (fun x : St => { x with rows := r }) := by
  unfold ensureParent
  have : msIsDir c ⟨h, r⟩ p.dropLast = msIsDir c ⟨h, r'⟩ p.dropLast := rfl
  simp only [this]
  split
  · cases h.makedirs (c.newAttrs 0o777) p.dropLast <;> rfl
  · rfl

/-- The part of `rename` after the rows were changed (WriteOverlay.py:324-349). -/
def renameTail (c : Cfg) (s3 : St) (old new : Path) : St × Except PyErr Unit :=
  match ensureParent c s3 new with
  | .error e => (s3, .error e)
  | .ok s4 =>
    if s4.host.lexists old then
      match s4.host.rename old new with
      | .error e => (s4, .error e)
      | .ok h => ({ s4 with host := h }, .ok ())
    else
      match msRead c s4 old with
      | .error e => (s4, .error e)
      | .ok content =>
        match s4.host.openTruncate new (c.newAttrs 0o666) with
        | .error e => (s4, .error e)
        | .ok (h, n) => (markDeleted c { s4 with host := h.setData n content } old, .ok ())

theorem rename_eq (old new : Path) :
    (rename c s old new).1.host = s.host ∧ (rename c s old new).2 ≠ .ok () ∨
      ∃ r, (rename c s old new) = renameTail c ⟨s.host, r⟩ old new := by
  unfold rename
  split
  · exact .inl ⟨rfl, by simp⟩
  · simp only
    cases hr : haveRow c { s with rows := without s.rows new } old with
    | error e => exact .inl ⟨rfl, by simp⟩
    | ok s2 =>
      have hs2 : s2.host = s.host := by
        unfold haveRow at hr
        split at hr
        · cases hr; rfl
        · unfold initRow at hr
          split at hr
          · cases hr
          · cases hr; rfl
      right
      obtain ⟨h2, r2⟩ := s2
      simp only at hs2
      subst hs2
      simp only
      cases hg : Dict.get? r2 old with
      | none => exact ⟨r2, rfl⟩
      | some r => exact ⟨_, rfl⟩

theorem renameTail_keeps (hI : Inv c s) {old new : Path} (hL : Legal (shown c s) (.rename old new)) (r : Dict Path Row) :
    (∀ q, old ≠ q → new ≠ q → Keeps q s.host (renameTail c ⟨s.host, r⟩ old new).1.host) ∧
      ((renameTail c ⟨s.host, r⟩ old new).2 = .ok () →
        (∀ n, Dict.get? s.host.entries old = some n →
          Dict.get? (renameTail c ⟨s.host, r⟩ old new).1.host.entries new = some n) ∧
        (renameTail c ⟨s.host, r⟩ old new).1.host.node new ≠ none) := by
  obtain ⟨hne, hnew, ⟨x, hx, hxd⟩, hnd, hpd⟩ := hL
  obtain ⟨s1, hs1, pr⟩ := ensureParent_ok hI hnew hpd
  have h4 : ensureParent c ⟨s.host, r⟩ new = .ok { s1 with rows := r } := by
    rw [ensureParent_rows s.host r s.rows]
    change (ensureParent c s new).map _ = _
    rw [hs1]; rfl
  have k4 : ∀ q, Keeps q s.host s1.host := fun q => ensureParent_keeps hs1
  have hdold : s1.host.isdir old = false := by
    rw [isdir_congr (pr.added old (by rw [hx]; simpa using hxd))]
    cases hd : s.host.isdir old with
    | false => rfl
    | true =>
      obtain ⟨i, hi, hk⟩ := (isdir_iff _ _).mp hd
      rw [shown_host hI hi] at hx
      exact absurd ((shown_dir_iff i).mpr hk) (by
        simp only [Option.some.injEq] at hx
        rw [hx]; exact hxd)
  unfold renameTail
  rw [h4]
  simp only
  by_cases hl : s1.host.lexists old = true
  · rw [if_pos hl]
    cases hren : s1.host.rename old new with
    | error e => exact ⟨fun q _ _ => k4 q, fun h => by simp at h⟩
    | ok h' =>
      have hh := fun q => rename_host (q := q) hren hdold hne
      refine ⟨fun q h1 h2 => (k4 q).trans ((hh q).1 h1 h2), fun _ => ⟨fun n hn => (hh []).2 n (k4 old n hn), ?_⟩⟩
      cases hg : Dict.get? s1.host.entries old with
      | none => unfold Host.lexists at hl; rw [hg] at hl; simp at hl
      | some n =>
        have := (hh []).2 n hg
        simp only [Host.node]
        rw [this]; simp
  · rw [if_neg hl]
    have hold : ∀ n, Dict.get? s.host.entries old = some n → False := by
      intro n hn
      have := k4 old n hn
      unfold Host.lexists at hl
      rw [this] at hl
      simp at hl
    cases hread : msRead c { s1 with rows := r } old with
    | error e => exact ⟨fun q _ _ => k4 q, fun h => by simp at h⟩
    | ok content =>
      simp only
      cases ho : s1.host.openTruncate new (c.newAttrs 0o666) with
      | error e => exact ⟨fun q _ _ => k4 q, fun h => by simp at h⟩
      | ok hn =>
        simp only [markDeleted_host]
        refine ⟨fun q _ _ => (k4 q).trans (openTruncate_keeps ho).1, fun _ => ⟨fun n hn => (hold n hn).elim, ?_⟩⟩
        have := (openTruncate_keeps (q := new) ho).2
        unfold Host.node Host.setData Host.setInode
        simp only
        rw [this]; simp

/-- The operation takes the file away from the path, or puts another one there. -/
def Op.replaces (q : Path) : Op → Prop
  | .unlink p | .rmdir p => p = q
  | .rename old new => old = q ∨ new = q
  | _ => False

theorem step_keeps (hI : Inv c s) (op : Op) (hL : Legal (shown c s) op) (q : Path) (hq : ¬ op.replaces q) :
    Keeps q s.host (step c s op).1.host := by
  cases op with
  | rename old new =>
    simp only [Op.replaces, not_or] at hq
    simp only [step]
    rcases rename_eq (c := c) (s := s) old new with h | ⟨r, h⟩
    · intro n hn; rw [h.1]; exact hn
    · rw [h]; exact (renameTail_keeps hI hL r).1 q hq.1 hq.2
  | chmod p mode => exact setMetadata_keeps q p _ _
  | chown p u g => exact setMetadata_keeps q p _ _
  | utimens p t => exact setMetadata_keeps q p _ _
  | unlink p =>
    simp only [Op.replaces] at hq
    simp only [step, unlink]
    split
    · rw [markDeleted_host]; exact Keeps.refl q _
    · split
      · cases hu : s.host.unlink p with
        | error e => simp only [markDeleted_host]; exact Keeps.refl q _
        | ok h => simp only [markDeleted_host]; exact unlink_keeps hu hq
      · rw [markDeleted_host]; exact Keeps.refl q _
  | rmdir p =>
    simp only [Op.replaces] at hq
    simp only [step, rmdir]
    split
    · exact Keeps.refl q _
    · split
      · exact Keeps.refl q _
      · split
        · cases hu : s.host.rmdir p with
          | error e => simp only [markDeleted_host]; exact Keeps.refl q _
          | ok h => simp only [markDeleted_host]; exact rmdir_keeps hu hq
        · rw [markDeleted_host]; exact Keeps.refl q _
  | mkdir p mode =>
    simp only [step, mkdir]
    cases h1 : openRow c s p (mode ||| 0o40000) with
    | error e => exact Keeps.refl q _
    | ok s1 =>
      simp only
      cases h2 : s1.host.create p ⟨.dir, [], [], c.newAttrs (mode ||| 0o40000)⟩ with
      | error e => exact openRow_keeps h1
      | ok h => exact (openRow_keeps h1).trans (create_keeps h2)
  | mknod p mode =>
    simp only [step, mknod]
    cases h1 : ensureParent c s p with
    | error e => exact Keeps.refl q _
    | ok s1 =>
      simp only
      cases h2 : s1.host.create p ⟨.special, [], [], c.newAttrs mode⟩ with
      | error e => exact ensureParent_keeps h1
      | ok h => exact (ensureParent_keeps h1).trans (create_keeps h2)
  | symlink p target =>
    simp only [step, symlink]
    cases h2 : s.host.create p ⟨.link, [], target, c.newAttrs 0o120777⟩ with
    | error e => exact Keeps.refl q _
    | ok h => exact create_keeps h2
  | create p mode =>
    simp only [step, createFile, create]
    cases h1 : openRow c s p mode with
    | error e => exact Keeps.refl q _
    | ok s1 =>
      simp only
      cases h2 : s1.host.openTruncate p (c.newAttrs mode) with
      | error e => exact openRow_keeps h1
      | ok h => exact (openRow_keeps h1).trans (openTruncate_keeps h2).1
  | truncate p n =>
    simp only [step, truncate]
    have hk := ensureModifiable_keeps (c := c) (s := s) q p
    cases h1 : ensureModifiable c s p with
    | mk s1 r =>
      rw [h1] at hk
      cases r with
      | error e => exact hk
      | ok u =>
        simp only
        cases h2 : s1.host.truncate p n with
        | error e => exact hk
        | ok h =>
          refine hk.trans ?_
          unfold Host.truncate at h2
          split at h2
          · cases h2
          · split at h2
            · cases h2; exact fun _ hm => hm
            · cases h2
            · cases h2
  | write p offset data =>
    simp only [step, writeFile]
    have hk := ensureModifiable_keeps (c := c) (s := s) q p
    have ho : Keeps q s.host (openOverlay c s p true).1.host := by
      unfold openOverlay
      split
      · exact Keeps.refl q _
      · split
        · exact Keeps.refl q _
        · rw [if_pos rfl]
          cases h1 : ensureModifiable c s p with
          | mk s1 r =>
            rw [h1] at hk
            cases r <;> exact hk
    cases h1 : openOverlay c s p true with
    | mk s1 r =>
      rw [h1] at ho
      cases r <;> exact ho

/-- A renamed file is what the new path points to. -/
theorem step_renamed (hI : Inv c s) (old new : Path) (hL : Legal (shown c s) (.rename old new))
    (hok : (rename c s old new).2 = .ok ()) :
    (∀ n, Dict.get? s.host.entries old = some n → Dict.get? (rename c s old new).1.host.entries new = some n) ∧
      (rename c s old new).1.host.node new ≠ none := by
  rcases rename_eq (c := c) (s := s) old new with h | ⟨r, h⟩
  · exact absurd hok h.2
  · rw [h] at hok ⊢; exact (renameTail_keeps hI hL r).2 hok

end Verif.Overlay
