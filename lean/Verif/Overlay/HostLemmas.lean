import Verif.Overlay.Model

/-!
# Facts about the host file system
-/

namespace Verif.Overlay

open Verif.Py

/-- A folder without hard links: the root is a folder, every entry is in a folder, inode numbers are below the next
one, and every inode has one entry. -/
structure Host.WF (h : Host) : Prop where
  root : h.isdir [] = true
  closed : ∀ p n, h.node (p ++ [n]) ≠ none → h.isdir p = true
  fresh : ∀ p n, Dict.get? h.entries p = some n → n < h.next
  single : ∀ p q n, Dict.get? h.entries p = some n → Dict.get? h.entries q = some n → p = q

theorem isdir_iff (h : Host) (p : Path) : h.isdir p = true ↔ ∃ i, h.node p = some i ∧ i.kind = .dir := by
  unfold Host.isdir
  cases hn : h.node p with
  | none => simp
  | some i => simp

theorem lexists_iff (h : Host) (p : Path) : h.lexists p = (h.node p).isSome := by
  unfold Host.lexists Host.node
  cases Dict.get? h.entries p <;> rfl

theorem lexists_true (h : Host) (p : Path) (i : Inode) (hn : h.node p = some i) : h.lexists p = true := by
  rw [lexists_iff, hn]; rfl

theorem lexists_false (h : Host) (p : Path) (hn : h.node p = none) : h.lexists p = false := by
  rw [lexists_iff, hn]; rfl

theorem entry_none (h : Host) (p : Path) : Dict.get? h.entries p = none ↔ h.node p = none := by
  unfold Host.node; cases Dict.get? h.entries p <;> simp

theorem entry_some (h : Host) (p : Path) (i : Inode) (hn : h.node p = some i) :
    ∃ n, Dict.get? h.entries p = some n ∧ h.inode n = i := by
  unfold Host.node at hn
  cases hg : Dict.get? h.entries p with
  | none => rw [hg] at hn; simp at hn
  | some n => rw [hg] at hn; exact ⟨n, rfl, by simpa using hn⟩

theorem split_path (p : Path) (hp : p ≠ []) : ∃ n, p = p.dropLast ++ [n] :=
  ⟨p.getLast hp, (List.dropLast_concat_getLast hp).symm⟩

theorem parentError_none (h : Host) (p : Path) (hd : h.isdir p.dropLast = true) : h.parentError p = none := by
  obtain ⟨i, h1, h2⟩ := (isdir_iff h _).mp hd
  unfold Host.parentError
  rw [h1]; simp [h2]

theorem parentError_isdir (h : Host) (p : Path) (he : h.parentError p = none) : h.isdir p.dropLast = true := by
  unfold Host.parentError at he
  cases hn : h.node p.dropLast with
  | none => rw [hn] at he; simp at he
  | some i =>
    rw [hn] at he
    simp only at he
    split at he
    · next hk => exact (isdir_iff h _).mpr ⟨i, hn, hk⟩
    · simp at he

theorem mem_children (h : Host) (p : Path) (n : Str) : n ∈ h.children p ↔ h.node (p ++ [n]) ≠ none := by
  unfold Host.children
  rw [List.mem_filterMap]
  constructor
  · rintro ⟨k, hk, hn⟩
    unfold nameIn at hn
    split at hn
    · next hc =>
      have : k = p ++ [n] := by
        obtain ⟨x, hx⟩ := split_path k hc.1
        rw [hc.2] at hx
        rw [hx] at hn
        simp at hn
        rw [hx, hn]
      rw [← this]
      intro hnone
      rw [Dict.mem_keys_iff] at hk
      rw [(entry_none h k).mpr hnone] at hk
      simp at hk
    · simp at hn
  · intro hne
    refine ⟨p ++ [n], ?_, by simp [nameIn]⟩
    rw [Dict.mem_keys_iff]
    cases hg : Dict.get? h.entries (p ++ [n]) with
    | none => exact absurd ((entry_none h _).mp hg) hne
    | some v => rfl

/-! ## inserting -/

theorem node_insert (h : Host) (wf : h.WF) (p : Path) (i : Inode) (q : Path) :
    (h.insert p i).node q = if p = q then some i else h.node q := by
  unfold Host.node Host.insert
  simp only [Dict.get?_set]
  by_cases hq : p = q
  · simp [hq]
  · rw [if_neg hq, if_neg hq]
    cases hg : Dict.get? h.entries q with
    | none => rfl
    | some n =>
      have := wf.fresh q n hg
      simp only [Option.map_some]
      rw [if_neg (by omega)]

theorem isdir_congr {h h' : Host} {p : Path} (hn : h'.node p = h.node p) : h'.isdir p = h.isdir p := by
  unfold Host.isdir; rw [hn]

theorem wf_insert (h : Host) (wf : h.WF) (p : Path) (i : Inode) (hp : h.node p = none)
    (hd : h.isdir p.dropLast = true) : (h.insert p i).WF := by
  have hne : p ≠ [] := by
    rintro rfl
    obtain ⟨j, hj, -⟩ := (isdir_iff h []).mp wf.root
    rw [hj] at hp; simp at hp
  have keep : ∀ q, p ≠ q → (h.insert p i).isdir q = h.isdir q := by
    intro q hq
    exact isdir_congr (by rw [node_insert h wf, if_neg hq])
  have hpd : ∀ q, h.isdir q = true → p ≠ q := by
    rintro q hq rfl
    obtain ⟨j, hj, -⟩ := (isdir_iff h p).mp hq
    rw [hj] at hp; simp at hp
  refine ⟨?_, ?_, ?_, ?_⟩
  · rw [keep [] hne]; exact wf.root
  · intro q n hn
    rw [node_insert h wf] at hn
    by_cases hq : p = q ++ [n]
    · have : p.dropLast = q := by rw [hq]; simp
      rw [this] at hd
      rw [keep q (hpd q hd)]; exact hd
    · rw [if_neg hq] at hn
      have := wf.closed q n hn
      rw [keep q (hpd q this)]; exact this
  · intro q n hn
    simp only [Host.insert, Dict.get?_set] at hn ⊢
    split at hn
    · simp at hn; omega
    · have := wf.fresh q n hn; omega
  · intro q r n hq hr
    simp only [Host.insert, Dict.get?_set] at hq hr
    split at hq <;> split at hr
    · next h1 h2 => rw [← h1, ← h2]
    · simp at hq; have := wf.fresh r n hr; omega
    · simp at hr; have := wf.fresh q n hq; omega
    · exact wf.single q r n hq hr

theorem create_ok (h : Host) (p : Path) (i : Inode) (hp : h.node p = none) (hd : h.isdir p.dropLast = true) :
    h.create p i = .ok (h.insert p i) := by
  unfold Host.create
  rw [lexists_false h p hp, parentError_none h p hd]; rfl

/-! ## removing -/

theorem node_remove (h : Host) (p q : Path) :
    Host.node { h with entries := without h.entries p } q = if p = q then none else h.node q := by
  unfold Host.node
  simp only [get?_without]
  split <;> rfl

theorem wf_remove (h : Host) (wf : h.WF) (p : Path) (hp : p ≠ []) (hc : ∀ n, h.node (p ++ [n]) = none) :
    Host.WF { h with entries := without h.entries p } := by
  refine ⟨?_, ?_, ?_, ?_⟩
  · rw [← wf.root]; exact isdir_congr (by rw [node_remove, if_neg hp])
  · intro q n hn
    rw [node_remove] at hn
    split at hn
    · simp at hn
    · have hq : p ≠ q := by rintro rfl; exact hn (hc n)
      rw [← wf.closed q n hn]
      exact isdir_congr (by rw [node_remove, if_neg hq])
  · intro q n hn
    simp only [get?_without] at hn
    split at hn
    · simp at hn
    · exact wf.fresh q n hn
  · intro q r n hq hr
    simp only [get?_without] at hq hr
    split at hq
    · simp at hq
    · split at hr
      · simp at hr
      · exact wf.single q r n hq hr

/-! ## changing an inode -/

theorem node_setInode (h : Host) (wf : h.WF) (p : Path) (n : Nat) (i : Inode)
    (hp : Dict.get? h.entries p = some n) (q : Path) :
    (h.setInode n i).node q = if p = q then some i else h.node q := by
  unfold Host.node Host.setInode
  simp only
  by_cases hq : p = q
  · subst hq; simp [hp]
  · rw [if_neg hq]
    cases hg : Dict.get? h.entries q with
    | none => rfl
    | some m =>
      simp only [Option.map_some]
      rw [if_neg]
      rintro rfl
      exact hq (wf.single p q m hp hg)

theorem wf_setInode (h : Host) (wf : h.WF) (p : Path) (n : Nat) (i : Inode)
    (hp : Dict.get? h.entries p = some n) (hk : i.kind = (h.inode n).kind) : (h.setInode n i).WF := by
  have hnode : h.node p = some (h.inode n) := by unfold Host.node; rw [hp]; rfl
  have keep : ∀ q, (h.setInode n i).isdir q = h.isdir q := by
    intro q
    unfold Host.isdir
    rw [node_setInode h wf p n i hp]
    by_cases hq : p = q
    · subst hq; rw [if_pos rfl, hnode]; simp [hk]
    · rw [if_neg hq]
  refine ⟨by rw [keep]; exact wf.root, ?_, wf.fresh, wf.single⟩
  intro q m hm
  rw [keep]
  apply wf.closed q m
  intro hnone
  apply hm
  rw [node_setInode h wf p n i hp]
  by_cases hq : p = q ++ [m]
  · rw [hq] at hnode; rw [hnone] at hnode; simp at hnode
  · rw [if_neg hq]; exact hnone

/-! ## moving a file -/

/-- The entries after moving an inode. -/
def Host.moved (h : Host) (old new : Path) (n : Nat) : Host :=
  { h with entries := Dict.set (without h.entries old) new n }

theorem node_moved (h : Host) (old new : Path) (n : Nat) (q : Path) :
    (h.moved old new n).node q = if new = q then some (h.inode n) else if old = q then none else h.node q := by
  unfold Host.node Host.moved
  simp only [Dict.get?_set, get?_without]
  split
  · rfl
  · split <;> rfl

theorem wf_moved (h : Host) (wf : h.WF) (old new : Path) (n : Nat) (ho : Dict.get? h.entries old = some n)
    (hk : (h.inode n).kind ≠ .dir) (hd : h.isdir new.dropLast = true) (hn : h.isdir new = false) :
    (h.moved old new n).WF := by
  have hodir : h.isdir old = false := by
    unfold Host.isdir Host.node; rw [ho]; simpa using hk
  have keep : ∀ q, h.isdir q = true → (h.moved old new n).isdir q = true := by
    intro q hq
    rw [← hq]
    apply isdir_congr
    rw [node_moved, if_neg (by rintro rfl; rw [hn] at hq; simp at hq),
      if_neg (by rintro rfl; rw [hodir] at hq; simp at hq)]
  have hnew : new ≠ [] := by rintro rfl; rw [wf.root] at hn; simp at hn
  refine ⟨keep [] wf.root, ?_, ?_, ?_⟩
  · intro q m hm
    rw [node_moved] at hm
    split at hm
    · next he =>
      apply keep
      have : new.dropLast = q := by rw [he]; simp
      rw [← this]; exact hd
    · split at hm
      · simp at hm
      · exact keep q (wf.closed q m hm)
  · intro q m hm
    simp only [Host.moved, Dict.get?_set, get?_without] at hm
    split at hm
    · simp at hm; subst hm; exact wf.fresh old n ho
    · split at hm
      · simp at hm
      · exact wf.fresh q m hm
  · intro q r m hq hr
    simp only [Host.moved, Dict.get?_set, get?_without] at hq hr
    by_cases h1 : new = q
    · by_cases h2 : new = r
      · rw [← h1, ← h2]
      · rw [if_pos h1] at hq; rw [if_neg h2] at hr
        simp only [Option.some.injEq] at hq
        by_cases h3 : old = r
        · rw [if_pos h3] at hr; simp at hr
        · rw [if_neg h3] at hr; subst hq; exact absurd (wf.single old r n ho hr) h3
    · rw [if_neg h1] at hq
      by_cases h3 : old = q
      · rw [if_pos h3] at hq; simp at hq
      · rw [if_neg h3] at hq
        by_cases h2 : new = r
        · rw [if_pos h2] at hr
          simp only [Option.some.injEq] at hr
          subst hr; exact absurd (wf.single old q n ho hq) h3
        · rw [if_neg h2] at hr
          by_cases h4 : old = r
          · rw [if_pos h4] at hr; simp at hr
          · rw [if_neg h4] at hr; exact wf.single q r m hq hr

/-! ## `os.makedirs` -/

theorem ancestors_concat (p : Path) (n : Str) : ancestors (p ++ [n]) = ancestors p ++ [p ++ [n]] := by
  unfold ancestors
  rw [List.length_append, List.length_singleton, List.range_succ, List.map_append]
  congr 1
  · apply List.map_congr_left
    intro k hk
    rw [List.mem_range] at hk
    rw [List.take_append_of_le_length (by omega)]
  · simp only [List.map_cons, List.map_nil]
    rw [List.take_of_length_le (by simp)]

/-- A node that `os.makedirs` may have added. -/
def AddedDirs (h h' : Host) (p : Path) : Prop :=
  ∀ q, h'.node q = h.node q ∨ (h.node q = none ∧ q <+: p ∧ ∃ i, h'.node q = some i ∧ i.kind = .dir)

theorem prefix_concat {q p : Path} {n : Str} (h : q <+: p ++ [n]) : q <+: p ∨ q = p ++ [n] := by
  obtain ⟨t, ht⟩ := h
  rcases List.eq_nil_or_concat t with rfl | ⟨t', x, rfl⟩
  · right; simpa using ht
  · left
    rw [List.concat_eq_append, ← List.append_assoc] at ht
    exact ⟨t', (List.append_inj' ht rfl).1⟩

theorem foldlM_snoc (a : Meta) (l : List Path) (x : Path) (h : Host) :
    (l ++ [x]).foldlM (fun h q => Host.ensureDir h a q) h
      = (match l.foldlM (fun h q => Host.ensureDir h a q) h with
        | .ok h1 => Host.ensureDir h1 a x
        | .error e => .error e) := by
  rw [List.foldlM_append]
  cases l.foldlM (fun h q => Host.ensureDir h a q) h with
  | error e => rfl
  | ok h1 =>
    simp only [List.foldlM_cons, List.foldlM_nil]
    change (Host.ensureDir h1 a x >>= fun s => pure s) = _
    cases Host.ensureDir h1 a x <;> rfl

theorem makedirs_ok (h : Host) (wf : h.WF) (a : Meta) (p : Path) :
    (∀ q, q <+: p → ∀ i, h.node q = some i → i.kind = .dir) →
    ∃ h', h.makedirs a p = .ok h' ∧ h'.WF ∧ h'.isdir p = true ∧ AddedDirs h h' p := by
  generalize hlen : p.length = len
  induction len generalizing p with
  | zero =>
    intro _
    have : p = [] := by cases p with | nil => rfl | cons x xs => simp at hlen
    subst this
    exact ⟨h, rfl, wf, wf.root, fun q => .inl rfl⟩
  | succ k ih =>
    intro hall
    have hne : p ≠ [] := by rintro rfl; simp at hlen
    obtain ⟨n, hpn⟩ := split_path p hne
    generalize p.dropLast = p0 at hpn
    subst hpn
    have hl0 : p0.length = k := by simp at hlen; exact hlen
    obtain ⟨h1, hok, wf1, hd1, hadd1⟩ := ih p0 hl0 (fun q hq i hi => hall q (hq.trans (List.prefix_append _ _)) i hi)
    unfold Host.makedirs at hok ⊢
    rw [ancestors_concat, foldlM_snoc, hok]
    simp only
    unfold Host.ensureDir
    cases hn : h1.node (p0 ++ [n]) with
    | some i =>
      rw [lexists_true h1 _ i hn, if_pos rfl]
      have hk : i.kind = .dir := by
        rcases hadd1 (p0 ++ [n]) with h' | ⟨_, hpre, _⟩
        · rw [hn] at h'; exact hall _ (List.prefix_refl _) i h'.symm
        · have := hpre.length_le; simp at this; omega
      have hd : h1.isdir (p0 ++ [n]) = true := (isdir_iff _ _).mpr ⟨i, hn, hk⟩
      rw [hd, if_pos rfl]
      refine ⟨h1, rfl, wf1, hd, ?_⟩
      intro q
      rcases hadd1 q with h' | ⟨e1, e2, e3⟩
      · exact .inl h'
      · exact .inr ⟨e1, e2.trans (List.prefix_append _ _), e3⟩
    | none =>
      rw [lexists_false h1 _ hn, if_neg (by simp)]
      have hd0 : h1.isdir (p0 ++ [n]).dropLast = true := by rw [List.dropLast_concat]; exact hd1
      rw [create_ok h1 _ _ hn hd0]
      refine ⟨_, rfl, wf_insert h1 wf1 _ _ hn hd0, ?_, ?_⟩
      · exact (isdir_iff _ _).mpr ⟨_, by rw [node_insert h1 wf1, if_pos rfl], rfl⟩
      · intro q
        rw [node_insert h1 wf1]
        by_cases hq : p0 ++ [n] = q
        · subst hq
          right
          rw [if_pos rfl]
          refine ⟨?_, List.prefix_refl _, _, rfl, rfl⟩
          rcases hadd1 (p0 ++ [n]) with h' | ⟨_, hpre, _⟩
          · rw [← h']; exact hn
          · have := hpre.length_le; simp at this; omega
        · rw [if_neg hq]
          rcases hadd1 q with h' | ⟨e1, e2, e3⟩
          · exact .inl h'
          · exact .inr ⟨e1, e2.trans (List.prefix_append _ _), e3⟩

end Verif.Overlay
