import Verif.Overlay.Witness
import Verif.Overlay.Entries

/-!
# C200: renaming a folder through the write overlay (ratarmount/WriteOverlay.py:324-349)

`Host.rename` and `moveTree` say what `os.rename` does to the overlay folder; `rename` is the method of the overlay.
-/

namespace Verif.Overlay

open Verif.Py

variable {c : Cfg} {s : St}

/-! ## specification -/

/-- The tree after moving the folder `old` with everything below it to `new`. -/
def Tree.move (t : Tree) (old new : Path) : Tree := fun q =>
  if new <+: q then t (old ++ q.drop new.length) else if old <+: q then none else t q

/-- A folder may be moved to a path where nothing is, or an empty folder, in another folder, but not into itself. -/
structure Movable (t : Tree) (old new : Path) : Prop where
  dir : t old = some .dir
  outside : ¬ old <+: new
  room : t new = none ∨ t new = some .dir ∧ ∀ n, t (new ++ [n]) = none
  parent : t new.dropLast = some .dir

/-- The property: renaming a folder moves it with everything below it, or it fails and nothing has changed. -/
def C200_statement : Prop :=
  ∀ (c : Cfg) (s : St) (old new : Path), Inv c s → Movable (shown c s) old new →
    (rename c s old new).2 = .ok () ∧ shown c (rename c s old new).1 = (shown c s).move old new ∨
    (rename c s old new).2 ≠ .ok () ∧ shown c (rename c s old new).1 = shown c s

/-! ## the entries after moving a folder -/

theorem get?_mapKeys {V : Type} (g : Path → Path) (d : Dict Path V) (k₀ q : Path)
    (h : ∀ k ∈ Dict.keys d, (g k = q ↔ k = k₀)) : Dict.get? (d.map (fun e : Path × V => (g e.1, e.2))) q = Dict.get? d k₀ := by
  induction d with
  | nil => rfl
  | cons e d ih =>
    obtain ⟨k, v⟩ := e
    have h1 := h k (by rw [Dict.keys_cons]; exact List.mem_cons_self)
    have h2 := ih (fun k' hk => h k' (by rw [Dict.keys_cons]; exact List.mem_cons_of_mem _ hk))
    simp only [List.map_cons, Dict.get?]
    by_cases hk : k = k₀
    · rw [if_pos (h1.mpr hk), if_pos hk]
    · rw [if_neg (fun h => hk (h1.mp h)), if_neg hk]; exact h2

theorem get?_mapKeys_none {V : Type} (g : Path → Path) (d : Dict Path V) (q : Path) (h : ∀ k ∈ Dict.keys d, g k ≠ q) :
    Dict.get? (d.map (fun e : Path × V => (g e.1, e.2))) q = none := by
  induction d with
  | nil => rfl
  | cons e d ih =>
    obtain ⟨k, v⟩ := e
    have h2 := ih (fun k' hk => h k' (by rw [Dict.keys_cons]; exact List.mem_cons_of_mem _ hk))
    simp only [List.map_cons, Dict.get?]
    rw [if_neg (h k (by rw [Dict.keys_cons]; exact List.mem_cons_self))]
    exact h2

theorem startsWithPath_iff (a b : Path) : moveTree.startsWithPath a b = true ↔ a <+: b := by
  unfold moveTree.startsWithPath
  rw [beq_iff_eq]
  constructor
  · intro h; rw [← h]; exact List.take_prefix _ _
  · intro h; exact (List.prefix_iff_eq_take.mp h).symm

/-- The new key of an entry. -/
def movedKey (old new k : Path) : Path := if old <+: k then new ++ k.drop old.length else k

theorem moveTree_eq (d : Dict Path Nat) (old new : Path) :
    moveTree d old new = (without d new).map (fun e : Path × Nat => (movedKey old new e.1, e.2)) := by
  unfold moveTree movedKey
  apply List.map_congr_left
  intro e _
  by_cases h : old <+: e.1
  · rw [if_pos ((startsWithPath_iff _ _).mpr h), if_pos h]
  · rw [if_neg (fun h' => h ((startsWithPath_iff _ _).mp h')), if_neg h]

theorem mem_keys_without {V : Type} (d : Dict Path V) (p k : Path) : k ∈ Dict.keys (without d p) ↔ k ∈ Dict.keys d ∧ k ≠ p := by
  rw [Dict.mem_keys_iff, Dict.mem_keys_iff, get?_without]
  by_cases h : p = k
  · subst h; simp
  · rw [if_neg h]; exact ⟨fun h' => ⟨h', fun e => h e.symm⟩, fun h' => h'.1⟩

theorem get?_moveTree {d : Dict Path Nat} {old new : Path} (hout : ¬ old <+: new)
    (hempty : ∀ t, t ≠ [] → Dict.get? d (new ++ t) = none) (q : Path) :
    Dict.get? (moveTree d old new) q =
      if new <+: q then Dict.get? d (old ++ q.drop new.length) else if old <+: q then none else Dict.get? d q := by
  have hnot : ∀ k ∈ Dict.keys (without d new), ¬ new <+: k := by
    rintro k hk ⟨t, rfl⟩
    obtain ⟨h1, h2⟩ := (mem_keys_without _ _ _).mp hk
    rw [Dict.mem_keys_iff] at h1
    cases t with
    | nil => exact h2 (List.append_nil _)
    | cons a r => rw [hempty (a :: r) (by simp)] at h1; cases h1
  rw [moveTree_eq]
  by_cases h1 : new <+: q
  · obtain ⟨t, rfl⟩ := h1
    rw [if_pos (List.prefix_append _ _), List.drop_left]
    rw [get?_mapKeys _ _ (old ++ t)]
    · rw [get?_without, if_neg (fun h => hout ⟨t, h.symm⟩)]
    · intro k hk
      unfold movedKey
      by_cases h2 : old <+: k
      · obtain ⟨u, rfl⟩ := h2
        rw [if_pos (List.prefix_append _ _), List.drop_left, List.append_cancel_left_eq, List.append_cancel_left_eq]
      · rw [if_neg h2]
        exact ⟨fun h => absurd ⟨t, h.symm⟩ (hnot k hk), fun h => absurd ⟨t, h.symm⟩ h2⟩
  · rw [if_neg h1]
    by_cases h3 : old <+: q
    · rw [if_pos h3]
      apply get?_mapKeys_none
      intro k _ he
      unfold movedKey at he
      by_cases h2 : old <+: k
      · rw [if_pos h2] at he; exact h1 ⟨_, he⟩
      · rw [if_neg h2] at he; exact h2 (he ▸ h3)
    · rw [if_neg h3, get?_mapKeys _ _ q]
      · rw [get?_without, if_neg (fun h : new = q => h1 (h ▸ List.prefix_rfl))]
      · intro k _
        unfold movedKey
        by_cases h2 : old <+: k
        · rw [if_pos h2]
          exact ⟨fun h => absurd ⟨_, h⟩ h1, fun h => absurd (h ▸ h2) h3⟩
        · rw [if_neg h2]

theorem node_moveTree {h : Host} {old new : Path} (hout : ¬ old <+: new) (hempty : ∀ t, t ≠ [] → h.node (new ++ t) = none) (q : Path) :
    Host.node { h with entries := moveTree h.entries old new } q =
      if new <+: q then h.node (old ++ q.drop new.length) else if old <+: q then none else h.node q := by
  unfold Host.node
  simp only
  rw [get?_moveTree hout (fun t ht => (entry_none _ _).mpr (hempty t ht))]
  split
  · rfl
  · split <;> rfl

/-- Where nothing is in a folder, nothing is below it. -/
theorem Closed.below {t : Tree} (h : Closed t) {p : Path} (hp : ∀ n, t (p ++ [n]) = none) :
    ∀ (k : Nat) (u : Path), u.length = k → u ≠ [] → t (p ++ u) = none := by
  intro k
  induction k with
  | zero => intro u hu hne; exact absurd (List.length_eq_zero_iff.mp hu) hne
  | succ k ih =>
    intro u hu hne
    obtain ⟨n, hn⟩ := split_path u hne
    by_cases h0 : u.dropLast = []
    · rw [hn, h0]; exact hp n
    · have h1 := ih u.dropLast (by rw [List.length_dropLast]; omega) h0
      rw [hn, ← List.append_assoc]
      exact no_children h (by rw [h1]; simp) n

theorem Movable.empty {t : Tree} (h : Closed t) {old new : Path} (hm : Movable t old new) : ∀ u, u ≠ [] → t (new ++ u) = none := by
  intro u hu
  refine h.below (fun n => ?_) u.length u rfl hu
  rcases hm.room with h1 | h1
  · exact no_children h (by rw [h1]; simp) n
  · exact h1.2 n

theorem Movable.notBelow {t : Tree} (h : Closed t) {old new : Path} (hm : Movable t old new) : ¬ new <+: old := by
  rintro ⟨u, rfl⟩
  cases u with
  | nil => exact hm.outside (by rw [List.append_nil]; exact List.prefix_rfl)
  | cons a r =>
    have := hm.dir
    rw [hm.empty h (a :: r) (by simp)] at this
    cases this

theorem Movable.newNe {t : Tree} (h : Closed t) {old new : Path} (hm : Movable t old new) : new ≠ [] := by
  rintro rfl; exact hm.notBelow h List.nil_prefix

theorem Movable.oldNe {t : Tree} {old new : Path} (hm : Movable t old new) : old ≠ [] := by
  rintro rfl; exact hm.outside List.nil_prefix

theorem prefix_dropLast {p new : Path} (h : p <+: new.dropLast) : p <+: new := h.trans (List.dropLast_prefix new)

theorem not_prefix_dropLast {new : Path} (h : new ≠ []) : ¬ new <+: new.dropLast := by
  intro hp
  have := hp.length_le
  rw [List.length_dropLast] at this
  have : new.length ≠ 0 := fun e => h (List.length_eq_zero_iff.mp e)
  omega

theorem wf_moveTree {h : Host} (wf : h.WF) {old new : Path} (hout : ¬ old <+: new) (hin : ¬ new <+: old)
    (hempty : ∀ t, t ≠ [] → h.node (new ++ t) = none) (hpar : h.isdir new.dropLast = true) :
    Host.WF { h with entries := moveTree h.entries old new } := by
  have hnode := node_moveTree hout hempty
  have hent := get?_moveTree hout (fun t ht => (entry_none _ _).mpr (hempty t ht))
  have hnew : new ≠ [] := by rintro rfl; exact hin List.nil_prefix
  have hold : old ≠ [] := by rintro rfl; exact hout List.nil_prefix
  have same : ∀ q, ¬ new <+: q → ¬ old <+: q → Host.isdir { h with entries := moveTree h.entries old new } q = h.isdir q := by
    intro q h1 h2
    exact isdir_congr (by rw [hnode, if_neg h1, if_neg h2])
  refine ⟨?_, ?_, ?_, ?_⟩
  · rw [same [] (fun h => hnew (List.prefix_nil.mp h)) (fun h => hold (List.prefix_nil.mp h))]
    exact wf.root
  · intro p n hn
    rw [hnode] at hn
    by_cases h1 : new <+: p ++ [n]
    · rw [if_pos h1] at hn
      rcases prefix_concat h1 with h2 | h2
      · obtain ⟨t, rfl⟩ := h2
        rw [List.append_assoc, List.drop_left, ← List.append_assoc] at hn
        have := wf.closed _ _ hn
        unfold Host.isdir at this ⊢
        rw [hnode (new ++ t), if_pos (List.prefix_append _ _), List.drop_left]
        exact this
      · have hp : p = new.dropLast := by rw [h2, List.dropLast_concat]
        rw [hp, same _ (not_prefix_dropLast hnew) (fun h => hout (prefix_dropLast h))]
        exact hpar
    · rw [if_neg h1] at hn
      by_cases h2 : old <+: p ++ [n]
      · rw [if_pos h2] at hn; exact absurd rfl hn
      · rw [if_neg h2] at hn
        rw [same p (fun h => h1 (h.trans (List.prefix_append _ _))) (fun h => h2 (h.trans (List.prefix_append _ _)))]
        exact wf.closed p n hn
  · intro p n hn
    simp only at hn
    rw [hent] at hn
    split at hn
    · exact wf.fresh _ n hn
    · split at hn
      · cases hn
      · exact wf.fresh _ n hn
  · intro p q n hp hq
    simp only at hp hq
    rw [hent] at hp hq
    by_cases h1 : new <+: p
    · by_cases h2 : new <+: q
      · rw [if_pos h1] at hp
        rw [if_pos h2] at hq
        obtain ⟨t, rfl⟩ := h1
        obtain ⟨u, rfl⟩ := h2
        have := wf.single _ _ n hp hq
        rw [List.drop_left, List.drop_left, List.append_cancel_left_eq] at this
        rw [this]
      · rw [if_pos h1] at hp
        rw [if_neg h2] at hq
        split at hq
        · cases hq
        · next h3 => exact absurd ⟨_, wf.single _ _ n hp hq⟩ h3
    · rw [if_neg h1] at hp
      split at hp
      · cases hp
      · next h3 =>
        by_cases h2 : new <+: q
        · rw [if_pos h2] at hq
          exact absurd ⟨_, wf.single _ _ n hq hp⟩ h3
        · rw [if_neg h2] at hq
          split at hq
          · cases hq
          · exact wf.single _ _ n hp hq

/-! ## the operation -/

/-- When it works: the folder with everything below it is in the overlay only, and nothing that is to be at a path below the new folder was
deleted there before. -/
structure MoveWorks (c : Cfg) (s : St) (old new : Path) : Prop where
  upper : ∀ t, Dict.get? c.lower (old ++ t) = none
  free : ∀ t, t ≠ [] → s.host.node (old ++ t) ≠ none → isDeleted s (new ++ t) = false

theorem move_refines (hI : Inv c s) {old new : Path} (hm : Movable (shown c s) old new) (hw : MoveWorks c s old new) :
    ∃ s', rename c s old new = (s', .ok ()) ∧ Inv c s' ∧ shown c s' = (shown c s).move old new ∧
      (∀ t, s'.host.node (new ++ t) = s.host.node (old ++ t)) ∧
      (∀ q, new ≠ q → old ≠ q → Dict.get? s'.rows q = Dict.get? s.rows q) ∧
      ∀ i, s.host.node old = some i → updateInfo s' new i.attrs = updateInfo s old i.attrs := by
  have hnew := hm.newNe hI.closed
  have hin := hm.notBelow hI.closed
  have hout := hm.outside
  have hne : old ≠ new := by rintro rfl; exact hout List.prefix_rfl
  obtain ⟨hdel, i, hi, hix⟩ := shown_some hm.dir
  have hcond : ¬ ((!msExists c s old || isDeleted s old) = true) := by
    rw [msExists_of_shown hm.dir, hdel]; simp
  have hl0 : Dict.get? c.lower old = none := by have := hw.upper []; rwa [List.append_nil] at this
  have hold : s.host.node old = some i := by
    unfold ms at hi
    rw [hl0, Option.or_none] at hi
    exact hi
  have hik : i.kind = .dir := (shown_dir_iff i).mp hix
  -- the row of the old path
  have hrow : ∃ s2 r, haveRow c { s with rows := without s.rows new } old = .ok s2 ∧ s2.host = s.host ∧
      Dict.get? s2.rows old = some r ∧ r.deleted = false ∧
      (∀ q, old ≠ q → Dict.get? s2.rows q = if new = q then none else Dict.get? s.rows q) ∧
      (⟨r.mode.getD i.attrs.mode, r.uid.getD i.attrs.uid, r.gid.getD i.attrs.gid, r.mtime.getD i.attrs.mtime⟩ : Meta)
        = updateInfo s old i.attrs := by
    unfold haveRow
    simp only [get?_without, if_neg (fun h : new = old => hne h.symm)]
    cases hr : Dict.get? s.rows old with
    | some r =>
      refine ⟨_, r, rfl, rfl, ?_, ?_, ?_, ?_⟩
      · simp only [get?_without, if_neg (fun h : new = old => hne h.symm)]; exact hr
      · unfold isDeleted at hdel; rw [hr] at hdel; exact hdel
      · intro q _; simp only [get?_without]
      · unfold updateInfo; rw [hr]
    | none =>
      unfold initRow
      have : ms c { s with rows := without s.rows new } old = some i := hi
      rw [this]
      refine ⟨_, _, rfl, rfl, by simp only [Dict.get?_set, if_pos]; rfl, rfl, ?_, ?_⟩
      · intro q hq
        simp only [Dict.get?_set, if_neg hq, get?_without]
      · unfold updateInfo; rw [hr]; rfl
  obtain ⟨s2, r, r1, r2, r3, r4, r5, r6⟩ := hrow
  generalize hs3 : (⟨s.host, Dict.set (without s2.rows old) new r⟩ : St) = s3
  have hrows3 : ∀ q, Dict.get? s3.rows q = if new = q then some r else if old = q then none else Dict.get? s.rows q := by
    intro q
    rw [← hs3]
    simp only [Dict.get?_set, get?_without]
    by_cases h1 : new = q
    · rw [if_pos h1, if_pos h1]
    · rw [if_neg h1, if_neg h1]
      by_cases h2 : old = q
      · rw [if_pos h2, if_pos h2]
      · rw [if_neg h2, if_neg h2, r5 q h2, if_neg h1]
  have hdel3 : ∀ q, isDeleted s3 q = if new = q then false else isDeleted s q := by
    intro q
    unfold isDeleted
    rw [hrows3]
    by_cases h1 : new = q
    · rw [if_pos h1, if_pos h1]; exact r4
    · rw [if_neg h1, if_neg h1]
      by_cases h2 : old = q
      · rw [if_pos h2]; subst h2; unfold isDeleted at hdel; simp only; exact hdel.symm
      · rw [if_neg h2]
  have hhost3 : s3.host = s.host := by rw [← hs3]
  obtain ⟨s1, hs1, pr⟩ := ensureParent_ok hI hnew hm.parent
  have h4 : ensureParent c s3 new = .ok ⟨s1.host, s3.rows⟩ := by
    obtain ⟨hh, rr⟩ := s3
    simp only at hhost3
    subst hhost3
    rw [ensureParent_rows s.host rr s.rows]
    change (ensureParent c s new).map _ = _
    rw [hs1]; rfl
  have hempty : ∀ t, t ≠ [] → s1.host.node (new ++ t) = none := by
    intro t ht
    refine host_none pr.inv ?_
    rw [pr.same]
    exact hm.empty hI.closed t ht
  have hnode := node_moveTree (h := s1.host) hout hempty
  have hold1 : s1.host.node old = some i := pr.keep _ _ hold
  obtain ⟨n, hgn, hin'⟩ := entry_some _ _ _ hold1
  have hren : s1.host.rename old new = .ok { s1.host with entries := moveTree s1.host.entries old new } := by
    unfold Host.rename
    rw [hgn]
    simp only
    rw [parentError_none _ _ pr.parent]
    simp only
    rw [if_neg hne, if_pos (by rw [hin']; exact hik), if_neg (fun h => hout ((startsWithPath_iff _ _).mp h))]
    cases hnn : s1.host.node new with
    | none => rfl
    | some j =>
      simp only
      have hj : j.kind = .dir := by
        have := shown_host pr.inv hnn
        rw [pr.same] at this
        rcases hm.room with h1 | h1
        · rw [h1] at this; cases this
        · rw [h1.1] at this
          exact (shown_dir_iff j).mp (by simpa using this.symm)
      rw [if_neg (fun h => h hj), if_neg]
      intro h
      apply h
      refine List.eq_nil_iff_forall_not_mem.mpr (fun x hx => ?_)
      exact (mem_children _ _ _).mp hx (hempty [x] (by simp))
  refine ⟨⟨{ s1.host with entries := moveTree s1.host.entries old new }, s3.rows⟩, ?_, ?_⟩
  · unfold rename
    rw [if_neg hcond]
    simp only
    rw [r1]
    simp only [r3]
    rw [r2, hs3, h4]
    simp only
    rw [if_pos (lexists_true _ _ i hold1), hren]
  · have hdel' : ∀ q, isDeleted ⟨{ s1.host with entries := moveTree s1.host.entries old new }, s3.rows⟩ q
        = if new = q then false else isDeleted s q := hdel3
    have hdel1 : ∀ q, isDeleted s1 q = isDeleted s q := fun q => isDeleted_rows (by rw [pr.rows])
    -- what is below the old folder is in the overlay folder
    have hup : ∀ t, shown c s (old ++ t) = (s1.host.node (old ++ t)).map Inode.shown := by
      intro t
      rw [← pr.same]
      cases hn : s1.host.node (old ++ t) with
      | some j => rw [shown_host pr.inv hn]; rfl
      | none => rw [shown_host_none hn, hw.upper t]; split <;> rfl
    have hkeep : ∀ t, s1.host.node (old ++ t) ≠ none → s.host.node (old ++ t) ≠ none := by
      intro t hn h0
      apply hn
      rw [← h0]
      apply pr.added
      rw [shown_host_none h0, hw.upper t]
      split <;> exact fun h => by cases h
    have hsh : shown c ⟨{ s1.host with entries := moveTree s1.host.entries old new }, s3.rows⟩ = (shown c s).move old new := by
      funext q
      unfold Tree.move
      by_cases h1 : new <+: q
      · obtain ⟨t, rfl⟩ := h1
        rw [if_pos (List.prefix_append _ _), List.drop_left, hup]
        have hn' : Host.node { s1.host with entries := moveTree s1.host.entries old new } (new ++ t) = s1.host.node (old ++ t) := by
          rw [hnode, if_pos (List.prefix_append _ _), List.drop_left]
        by_cases ht : t = []
        · subst ht
          rw [List.append_nil, List.append_nil] at *
          unfold shown view ms
          rw [hdel', if_pos rfl, hn', hold1]
          rfl
        · have hqn : new ≠ new ++ t := fun e => ht (by simpa using e)
          cases hc : s1.host.node (old ++ t) with
          | some j =>
            unfold shown view ms
            rw [hdel', if_neg hqn, hw.free t ht (hkeep t (by rw [hc]; simp)), hn', hc]
            rfl
          | none =>
            rw [shown_host_none (by simp only; rw [hn']; exact hc), hdel', if_neg hqn]
            have h2 := hm.empty hI.closed t ht
            rw [← pr.same, shown_host_none (hempty t ht), hdel1] at h2
            exact h2
      · rw [if_neg h1]
        have hqn : new ≠ q := by rintro rfl; exact h1 List.prefix_rfl
        by_cases h2 : old <+: q
        · rw [if_pos h2]
          rw [shown_host_none (by simp only; rw [hnode, if_neg h1, if_pos h2])]
          obtain ⟨t, rfl⟩ := h2
          rw [hw.upper t]
          split <;> rfl
        · rw [if_neg h2, ← pr.same]
          exact shown_congr (by simp only; rw [hnode, if_neg h1, if_neg h2]) (by rw [hdel', if_neg hqn, hdel1])
    refine ⟨⟨wf_moveTree pr.inv.wf hout hin hempty pr.parent, ?_, ?_⟩, hsh, ?_, ?_, ?_⟩
    · intro q hq
      rw [hdel'] at hq
      by_cases h0 : new = q
      · rw [if_pos h0] at hq; cases hq
      · rw [if_neg h0] at hq
        simp only
        rw [hnode]
        by_cases h1 : new <+: q
        · obtain ⟨t, rfl⟩ := h1
          rw [if_pos (List.prefix_append _ _), List.drop_left]
          cases hc : s1.host.node (old ++ t) with
          | none => rfl
          | some j =>
            have := hw.free t (fun e => h0 (by rw [e, List.append_nil])) (hkeep t (by rw [hc]; simp))
            rw [this] at hq; cases hq
        · rw [if_neg h1]
          split
          · rfl
          · exact pr.inv.hidden q (by rw [hdel1]; exact hq)
    · rw [hsh]
      intro p n hn
      unfold Tree.move at hn ⊢
      by_cases h1 : new <+: p ++ [n]
      · rw [if_pos h1] at hn
        rcases prefix_concat h1 with h2 | h2
        · obtain ⟨t, rfl⟩ := h2
          rw [List.append_assoc, List.drop_left, ← List.append_assoc] at hn
          rw [if_pos (List.prefix_append _ _), List.drop_left]
          exact hI.closed _ _ hn
        · have hp : p = new.dropLast := by rw [h2, List.dropLast_concat]
          rw [hp, if_neg (not_prefix_dropLast hnew), if_neg (fun h => hout (prefix_dropLast h))]
          exact hm.parent
      · rw [if_neg h1] at hn
        by_cases h2 : old <+: p ++ [n]
        · rw [if_pos h2] at hn; exact absurd rfl hn
        · rw [if_neg h2] at hn
          rw [if_neg (fun h => h1 (h.trans (List.prefix_append _ _))), if_neg (fun h => h2 (h.trans (List.prefix_append _ _)))]
          exact hI.closed p n hn
    · intro t
      simp only
      rw [hnode, if_pos (List.prefix_append _ _), List.drop_left]
      cases hc : s.host.node (old ++ t) with
      | some j => exact pr.keep _ _ hc
      | none =>
        cases hd : s1.host.node (old ++ t) with
        | none => rfl
        | some j => exact absurd hc (hkeep t (by rw [hd]; simp))
    · intro q h1 h2
      simp only
      rw [hrows3, if_neg h1, if_neg h2]
    · intro j hj
      rw [hold] at hj
      cases hj
      rw [← r6]
      unfold updateInfo
      simp only
      rw [hrows3, if_pos rfl]

/-- **C200** for folders that are only in the overlay, with everything below them, and if nothing below the new path that the folder has an
entry for was deleted before. Missing: folders of the archive below. -/
theorem C200_move_partial (hI : Inv c s) {old new : Path} (hm : Movable (shown c s) old new) (hw : MoveWorks c s old new) :
    (rename c s old new).2 = .ok () ∧ shown c (rename c s old new).1 = (shown c s).move old new := by
  obtain ⟨s', h1, -, h3, -⟩ := move_refines hI hm hw
  rw [h1]
  exact ⟨rfl, h3⟩

/-- **C200** Everything that was in the folder is at the new path, nothing is left behind, and everything else is where it was. -/
theorem C200_paths_partial (hI : Inv c s) {old new : Path} (hm : Movable (shown c s) old new) (hw : MoveWorks c s old new) (t : Path) :
    shown c (rename c s old new).1 (new ++ t) = shown c s (old ++ t) ∧
      shown c (rename c s old new).1 (old ++ t) = none ∧
      ∀ q, ¬ old <+: q → ¬ new <+: q → shown c (rename c s old new).1 q = shown c s q := by
  rw [(C200_move_partial hI hm hw).2]
  unfold Tree.move
  refine ⟨by rw [if_pos (List.prefix_append _ _), List.drop_left], ?_, fun q h1 h2 => by rw [if_neg h2, if_neg h1]⟩
  rw [if_pos (List.prefix_append _ _)]
  split
  · next h =>
    rcases List.prefix_or_prefix_of_prefix h (List.prefix_append old t) with h1 | h1
    · exact absurd h1 (hm.notBelow hI.closed)
    · exact absurd h1 hm.outside
  · rfl

/-- **C200** The permissions, owners and times move with it, as far as the database says nothing else about the files in the folder than their
inodes do, and nothing about the paths they get. The folder itself always keeps them. -/
theorem C200_attributes_partial (hI : Inv c s) (hsub : ∀ p, c.subMount p = 0) {old new : Path} (hm : Movable (shown c s) old new)
    (hw : MoveWorks c s old new) (t : Path) (i : Inode) (hi : s.host.node (old ++ t) = some i)
    (hrow : t = [] ∨ updateInfo s (old ++ t) i.attrs = i.attrs ∧ Dict.get? s.rows (new ++ t) = none) :
    attrsOf c (rename c s old new).1 (new ++ t) = attrsOf c s (old ++ t) := by
  obtain ⟨s', h1, hI', h3, h4, h5, h6⟩ := move_refines hI hm hw
  rw [h1]
  unfold attrsOf
  simp only [hsub, List.drop_zero]
  have hn' : s'.host.node (new ++ t) = some i := by rw [h4]; exact hi
  have v : ∀ {s : St} {p : Path}, Inv c s → s.host.node p = some i → view c s p = some i := by
    intro s p hI h
    unfold view ms
    rw [isDeleted_host hI h, h]
    rfl
  rw [v hI' hn', v hI hi]
  simp only [Option.map_some]
  by_cases ht : t = []
  · subst ht
    simp only [List.append_nil] at *
    rw [h6 i hi]
  · rcases hrow with h7 | ⟨h7, h8⟩
    · exact absurd h7 ht
    · rw [h7]
      unfold updateInfo
      rw [h5 _ (fun e => ht (by simpa using e)) (fun e => hm.notBelow hI.closed ⟨t, e.symm⟩), h8]

/-! ## where it goes wrong -/

theorem demo_movable : Movable (shown demoTar demoStart) [['d']] [['y']] :=
  ⟨by decide +kernel, by decide, .inl (by decide +kernel), by decide +kernel⟩

/-- **C200** is violated: renaming a folder of the archive makes an empty file at the new path. -/
theorem C200_violated : ¬ C200_statement := by
  intro h
  rcases h demoTar demoStart [['d']] [['y']] (demo_inv _) demo_movable with ⟨-, h2⟩ | ⟨h1, -⟩
  · have := congrFun h2 [['y']]
    revert this
    decide +kernel
  · exact h1 (by decide +kernel)

/-- **C200** is violated in another way: if a file in the folder was written to before, only this file is moved. -/
theorem C200_part_violated : ¬ ∀ (c : Cfg) (s : St) (old new : Path), Inv c s → Movable (shown c s) old new → s.host.isdir old = true →
    (rename c s old new).2 = .ok () → ∀ t, shown c (rename c s old new).1 (old ++ t) = none := by
  intro h
  have hI := inv_step (demo_inv (fun _ => .ok [])) (.write [['d'], ['f']] 0 [5]) ⟨[1, 2, 3], by decide +kernel⟩ trivial
  have := h demoTar _ [['d']] [['y']] hI ⟨by decide +kernel, by decide, .inl (by decide +kernel), by decide +kernel⟩ (by decide +kernel)
    (by decide +kernel) []
  revert this
  decide +kernel

/-- **C200** is violated if the renaming fails: what was deleted at the new path is back. -/
theorem C200_failed_violated : ¬ ∀ (c : Cfg) (s : St) (old new : Path), Inv c s → Movable (shown c s) old new →
    (rename c s old new).2 ≠ .ok () → shown c (rename c s old new).1 = shown c s := by
  intro h
  have hI := inv_step (demo_inv (fun _ => .error .valueError)) (.unlink [['x']]) ⟨.file [9], by decide +kernel, by decide⟩ trivial
  have := congrFun (h demoFail _ [['d']] [['x']] hI ⟨by decide +kernel, by decide, .inl (by decide +kernel), by decide +kernel⟩
    (by decide +kernel)) [['x']]
  revert this
  decide +kernel

/-- A new folder `/e` with a file, after `/d/f` and `/d` were deleted. -/
abbrev demoGone : List Op :=
  [.unlink [['d'], ['f']], .rmdir [['d']], .mkdir [['e']] 0o755, .create [['e'], ['f']] 0o644, .write [['e'], ['f']] 0 [4]]

def demoMoved : St := demoGone.foldl (fun s op => (step demoTar s op).1) demoStart

theorem demo_moved : Run demoTar demoStart demoGone demoMoved := by
  refine .cons (op := .unlink [['d'], ['f']]) ⟨.file [1, 2, 3], by decide +kernel, by decide⟩ trivial rfl ?_
  refine .cons (op := .rmdir [['d']]) ⟨by decide, by decide +kernel, ?_⟩ trivial rfl ?_
  · intro n
    change shown demoTar (step demoTar demoStart (.unlink [['d'], ['f']])).1 ([['d']] ++ [n]) = none
    rw [show shown demoTar (step demoTar demoStart (.unlink [['d'], ['f']])).1 = _ from
      (C46_history_partial (c := demoTar) _ (demo_closed _) (.cons (op := .unlink [['d'], ['f']])
        ⟨.file [1, 2, 3], by decide +kernel, by decide⟩ trivial rfl (.nil _)))]
    simp only [List.foldl_cons, List.foldl_nil, Tree.step, Tree.at]
    split
    · rfl
    · next h =>
      unfold lowerTree
      rw [if_neg (by simp)]
      have : ['f'] ≠ n := fun e => h (by rw [← e]; rfl)
      simp [demoTar, demo, Dict.get?, this]
  refine .cons (op := .mkdir _ _) (show Vacant _ _ from ⟨by decide, by decide +kernel, by decide +kernel⟩) trivial rfl ?_
  refine .cons (op := .create _ _) (show Vacant _ _ from ⟨by decide, by decide +kernel, by decide +kernel⟩) trivial rfl ?_
  refine .cons (op := .write [['e'], ['f']] _ _) (show ∃ d, _ from ⟨[], by decide +kernel⟩) trivial rfl (.nil _)

theorem demo_moved_inv : Inv demoTar demoMoved := (run_refines (demo_inv (fun _ => .ok [])) demo_moved).1

/-- **C200** is violated for a folder of the overlay: a file in it is hidden if a file of this name was deleted at the new path before. -/
theorem C200_hidden_violated : ¬ ∀ (c : Cfg) (s : St) (old new : Path), Inv c s → Movable (shown c s) old new →
    (∀ t, Dict.get? c.lower (old ++ t) = none) → shown c (rename c s old new).1 = (shown c s).move old new := by
  intro h
  have := congrFun (h demoTar demoMoved [['e']] [['d']] demo_moved_inv ⟨by decide +kernel, by decide, .inl (by decide +kernel), by decide +kernel⟩
    (by intro t; simp [demoTar, demo, Dict.get?])) [['d'], ['f']]
  revert this
  decide +kernel

/-- The hypotheses of the theorems hold for moving it elsewhere. -/
theorem demo_moved_movable : Movable (shown demoTar demoMoved) [['e']] [['y']] :=
  ⟨by decide +kernel, by decide, .inl (by decide +kernel), by decide +kernel⟩

theorem demo_moved_works : MoveWorks demoTar demoMoved [['e']] [['y']] :=
  ⟨by intro t; simp [demoTar, demo, Dict.get?], by
    intro t _ _
    have : Dict.get? demoMoved.rows ([['y']] ++ t) = none := by
      have hr : Dict.keys demoMoved.rows = [[['d'], ['f']], [['d']], [['e']], [['e'], ['f']]] := by decide +kernel
      cases hg : Dict.get? demoMoved.rows ([['y']] ++ t) with
      | none => rfl
      | some r =>
        have hk : ([['y']] ++ t) ∈ Dict.keys demoMoved.rows := by rw [Dict.mem_keys_iff, hg]; rfl
        rw [hr] at hk
        simp at hk
    unfold isDeleted
    rw [this]⟩

example : shown demoTar (rename demoTar demoMoved [['e']] [['y']]).1 [['y'], ['f']] = some (.file [4]) := by
  rw [show [['y'], ['f']] = [['y']] ++ [['f']] from rfl, (C200_paths_partial demo_moved_inv demo_moved_movable demo_moved_works [['f']]).1]
  decide +kernel

/-- **C200** is violated for the attributes: after `chown` of a file in a new folder and renaming the folder, the owner is the one it had before. -/
theorem C200_owner_violated : ¬ ∀ (c : Cfg) (s : St) (old new : Path), Inv c s → Movable (shown c s) old new → MoveWorks c s old new →
    (∀ p, c.subMount p = 0) → ∀ t, attrsOf c (rename c s old new).1 (new ++ t) = attrsOf c s (old ++ t) := by
  intro h
  have hI := inv_step demo_moved_inv (.chown [['e'], ['f']] (some 5) none) (show _ ≠ none by decide +kernel) (.inl (by simp))
  have := h demoTar _ [['e']] [['y']] hI ⟨by decide +kernel, by decide, .inl (by decide +kernel), by decide +kernel⟩
    ⟨by intro t; simp [demoTar, demo, Dict.get?], by
      intro t _ _
      have hr : Dict.keys (step demoTar demoMoved (.chown [['e'], ['f']] (some 5) none)).1.rows
          = [[['d'], ['f']], [['d']], [['e']], [['e'], ['f']]] := by decide +kernel
      have : Dict.get? (step demoTar demoMoved (.chown [['e'], ['f']] (some 5) none)).1.rows ([['y']] ++ t) = none := by
        cases hg : Dict.get? (step demoTar demoMoved (.chown [['e'], ['f']] (some 5) none)).1.rows ([['y']] ++ t) with
        | none => rfl
        | some r =>
          have hk : ([['y']] ++ t) ∈ Dict.keys (step demoTar demoMoved (.chown [['e'], ['f']] (some 5) none)).1.rows := by
            rw [Dict.mem_keys_iff, hg]; rfl
          rw [hr] at hk
          simp at hk
      unfold isDeleted
      rw [this]⟩ (fun _ => rfl) [['f']]
  revert this
  decide +kernel

end Verif.Overlay
