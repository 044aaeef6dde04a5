import Verif.Index.Build

/-!
# C17 (directory versions) and C19: what is visible does not depend on insertion order
-/

namespace Verif.Index

open Verif.Py

/-- **C17, second provable part**: if entries at different paths have different archive offsets, every ancestor has a
version that is a folder (bit 14 of the mode set), also when a file of the same path hides it. -/
theorem C17_directory_version_partial (batches : List (List Row)) (r : Row) (hr : r ∈ batches.flatten) (ns : List Str)
    (hns : RowOk r ns) (hok : ∀ q ∈ batches.flatten, ∃ ms, RowOk q ms)
    (hoh : ∀ q ∈ batches.flatten, ∀ q' ∈ batches.flatten, q.1.oh = q'.1.oh → q.1.path = q'.1.path ∧ q.1.name = q'.1.name)
    (k : Nat) (hk : k < ns.length) :
    ∃ (v : Nat) (fi : FileInfo), 1 ≤ v ∧ lookup (build batches) (canonical (ns.take (k + 1))) v = some fi ∧
      dirBit fi.info.mode = true := by
  have hN := isName_take hns.names k hk
  have hnd := build_nodup batches
  have inv := insertAll_inv batches
  have hpair : (folderPath (ns.take k), ns[k]) ∈ ancestorPairs r.1.path := by
    rw [hns.path, mem_ancestorPairs ns hns.names]; exact ⟨k, hk, rfl⟩
  rw [show ns.take (k + 1) = ns.take k ++ [ns[k]] by rw [List.take_append_getElem hk]]
  -- a row with the folder bit at that place
  have hrow : ∃ q ∈ build batches, q.1.path = folderPath (ns.take k) ∧ q.1.name = ns[k] ∧ dirBit q.2.mode = true := by
    by_cases hdir : ∀ q ∈ (insertAll batches).files, dirBit q.2.mode = true →
        (q.1.path, q.1.name) ≠ (folderPath (ns.take k), ns[k])
    · have hkk := (inv.parents _).mpr ⟨r, hr, hpair⟩
      rw [Dict.mem_keys_iff, Option.isSome_iff_exists] at hkk
      obtain ⟨v, hv⟩ := hkk
      have hg : ((⟨folderPath (ns.take k), ns[k], v.1⟩, ⟨v.2, 0o40555, false, 0⟩) : Row) ∈
          (insertAll batches).generated := by
        unfold DB.generated
        rw [List.mem_map]
        refine ⟨((folderPath (ns.take k), ns[k]), v), ?_, rfl⟩
        rw [List.mem_filter]
        exact ⟨Dict.mem_of_get? _ hv, by simpa using hdir⟩
      obtain ⟨r1, hr1, hanc, hv1⟩ := inv.from_ _ _ hv
      have hkey : (⟨folderPath (ns.take k), ns[k], v.1⟩ : Key) ∈ (build batches).keys := by
        rw [build, DB.finalize, foldl_ignore_keys]
        left; rw [List.mem_map]; exact ⟨_, hg, rfl⟩
      rw [Dict.keys, List.mem_map] at hkey
      obtain ⟨q, hq, he⟩ := hkey
      refine ⟨q, hq, by rw [he], by rw [he], ?_⟩
      rcases mem_build batches q hq with h1 | h1
      · exfalso
        -- an inserted row at the folder's place with the offset of an entry below it
        obtain ⟨h2, h3⟩ := hoh q h1 r1 hr1 (by rw [he]; rw [hv1])
        rw [he] at h2 h3
        simp only at h2 h3
        obtain ⟨ms, hms⟩ := hok r1 hr1
        rw [hms.path] at h2 hanc
        rw [mem_ancestorPairs ms hms.names] at hanc
        obtain ⟨j, hj, hje⟩ := hanc
        simp only [Prod.mk.injEq] at hje
        rw [hje.1] at h2
        have hs := congrArg (split '/') h2
        rw [split_folderPath _ (fun m hm => hms.names m (List.mem_of_mem_take hm)), split_folderPath _ hms.names] at hs
        have := congrArg List.length hs
        simp at this
        omega
      · rw [generated_dir _ q h1]; decide
    · simp only [Classical.not_forall] at hdir
      obtain ⟨q, hq, hd, he⟩ := hdir
      have he := Classical.not_not.mp he
      simp only [Prod.mk.injEq] at he
      refine ⟨q, ?_, he.1, he.2, hd⟩
      have h1 : (insertAll batches).files.keys.Nodup := by
        rw [inv.files]; exact foldl_replace_nodup _ _ List.nodup_nil
      have h2 := Dict.get?_eq_some_of_mem _ h1 (k := q.1) (v := q.2) hq
      exact Dict.mem_of_get? _ (foldl_ignore_old _ _ _ _ h2)
  obtain ⟨q, hq, hq1, hq2, hq3⟩ := hrow
  have hes := entries_exist hnd (folderPath (ns.take k)) ns[k]
  have hmem := (hes.mem q).mpr ⟨hq, hq1, hq2⟩
  obtain ⟨i, hi, hget⟩ := List.getElem_of_mem hmem
  refine ⟨i + 1, toFileInfo q, by omega, ?_, hq3⟩
  rw [C15_lookup (build batches) hnd (ns.take k) ns[k] hN _ (query_canonical _ hN) _ hes]
  rw [if_pos (by omega)]
  have : (((i + 1 : Nat) : Int) - 1).toNat = i := by omega
  rw [this, List.getElem?_eq_getElem hi, hget]
  rfl

example : ∀ q ∈ exampleBatches.flatten, ∀ q' ∈ exampleBatches.flatten, q.1.oh = q'.1.oh →
    q.1.path = q'.1.path ∧ q.1.name = q'.1.name := by decide +kernel

/-! ## C19 -/

/-- The last row inserted for a key. -/
def lastRow (rows : List Row) (k : Key) : Option Info := (rows.filter (fun r => decide (r.1 = k))).getLast?.map (·.2)

/-- Two insertion histories with the same last row for every (path, offset). -/
def SameRows (b₁ b₂ : List (List Row)) : Prop := ∀ k, lastRow b₁.flatten k = lastRow b₂.flatten k

/-- What a user sees of a file: everything but the offsets in the archive. -/
def visible (fi : FileInfo) : Nat × Bool × Nat := (fi.info.mode, fi.info.generated, fi.info.rest)

theorem rowsAt_congr {t₁ t₂ : Table} (h₁ : t₁.keys.Nodup) (h₂ : t₂.keys.Nodup) (p n : Str)
    (h : ∀ oh, t₁.get? ⟨p, n, oh⟩ = t₂.get? ⟨p, n, oh⟩) :
    orderAsc (rowsAt t₁ p n) = orderAsc (rowsAt t₂ p n) := by
  refine orderAsc_eq h₁ ⟨?_, (entries_exist h₂ p n).sorted⟩
  intro r
  rw [(orderAsc_perm _).mem_iff, mem_rowsAt]
  constructor
  · rintro ⟨hr, rfl, rfl⟩
    refine ⟨Dict.mem_of_get? _ ?_, rfl, rfl⟩
    exact (h r.1.oh).trans (Dict.get?_eq_some_of_mem t₂ h₂ hr)
  · rintro ⟨hr, rfl, rfl⟩
    refine ⟨Dict.mem_of_get? _ ?_, rfl, rfl⟩
    exact (h r.1.oh).symm.trans (Dict.get?_eq_some_of_mem t₁ h₁ hr)

theorem orderDesc_reverse {t : Table} (ht : t.keys.Nodup) (p n : Str) :
    orderDesc (rowsAt t p n) = (orderAsc (rowsAt t p n)).reverse := orderDesc_eq ht (entries_exist ht p n)

/-- A lookup depends only on the ordered rows of its path. -/
theorem lookup_map_congr {β : Type} (f : FileInfo → β) {t₁ t₂ : Table} (h₁ : t₁.keys.Nodup) (h₂ : t₂.keys.Nodup)
    (path : Str) (v : Int)
    (h : (orderAsc (rowsAt t₁ (splitPath (queryNormpath path)).1 (splitPath (queryNormpath path)).2)).map (fun r => f (toFileInfo r)) =
      (orderAsc (rowsAt t₂ (splitPath (queryNormpath path)).1 (splitPath (queryNormpath path)).2)).map (fun r => f (toFileInfo r))) :
    (lookup t₁ path v).map f = (lookup t₂ path v).map f := by
  unfold lookup
  simp only
  split
  · rfl
  · simp only [orderDesc_reverse h₁, orderDesc_reverse h₂, Option.map_map]
    have key : ∀ (i : Nat) (l : List Row), (l[i]?).map (f ∘ toFileInfo) = (l.map (fun r => f (toFileInfo r)))[i]? := by
      intro i l; rw [List.getElem?_map]; rfl
    rw [key, key]
    split
    · rw [List.map_reverse, List.map_reverse, h]
    · rw [h]

theorem files_get (batches : List (List Row)) (k : Key) :
    (insertAll batches).files.get? k = lastRow batches.flatten k := by
  rw [(insertAll_inv batches).files, foldl_replace_get]
  simp [lastRow]

theorem files_nodup (batches : List (List Row)) : (insertAll batches).files.keys.Nodup := by
  rw [(insertAll_inv batches).files]; exact foldl_replace_nodup _ _ List.nodup_nil

/-- The keys of the inserted rows are the same for both histories. -/
theorem sameRows_mem {b₁ b₂ : List (List Row)} (h : SameRows b₁ b₂) (r : Row) (hr : r ∈ b₁.flatten) :
    ∃ r' ∈ b₂.flatten, r'.1 = r.1 := by
  obtain ⟨q, hq⟩ := getLast?_of_mem (l := b₁.flatten.filter (fun p => decide (p.1 = r.1)))
    (List.mem_filter.mpr ⟨hr, by simp⟩)
  have h1 := h r.1
  rw [lastRow, hq, lastRow] at h1
  cases h2 : (b₂.flatten.filter (fun p => decide (p.1 = r.1))).getLast? with
  | none => rw [h2] at h1; cases h1
  | some q' =>
    have := List.mem_filter.mp (List.mem_of_getLast? h2)
    exact ⟨q', this.1, by simpa using this.2⟩

theorem sameRows_parents {b₁ b₂ : List (List Row)} (h : SameRows b₁ b₂) (p : Str × Str)
    (hp : p ∈ (insertAll b₁).parents.keys) : p ∈ (insertAll b₂).parents.keys := by
  rw [(insertAll_inv b₁).parents] at hp
  rw [(insertAll_inv b₂).parents]
  obtain ⟨r, hr, hpr⟩ := hp
  obtain ⟨r', hr', he⟩ := sameRows_mem h r hr
  exact ⟨r', hr', by rw [he]; exact hpr⟩

/-- Is a folder generated for (path, name)? -/
def Generates (db : DB) (p : Str × Str) : Prop :=
  p ∈ db.parents.keys ∧ ∀ r ∈ db.files, dirBit r.2.mode = true → (r.1.path, r.1.name) ≠ p

theorem mem_generated (db : DB) (hn : db.parents.keys.Nodup) (r : Row) :
    r ∈ db.generated ↔ Generates db (r.1.path, r.1.name) ∧
      db.parents.get? (r.1.path, r.1.name) = some (r.1.oh, r.2.offset) ∧ r.2 = ⟨r.2.offset, 0o40555, false, 0⟩ := by
  unfold DB.generated Generates
  rw [List.mem_map]
  constructor
  · rintro ⟨p, hp, rfl⟩
    rw [List.mem_filter] at hp
    refine ⟨⟨?_, ?_⟩, ?_, rfl⟩
    · rw [Dict.keys, List.mem_map]; exact ⟨p, hp.1, rfl⟩
    · exact of_decide_eq_true hp.2
    · exact Dict.get?_eq_some_of_mem _ hn hp.1
  · rintro ⟨⟨h1, h2⟩, h3, h4⟩
    refine ⟨((r.1.path, r.1.name), (r.1.oh, r.2.offset)), ?_, ?_⟩
    · rw [List.mem_filter]
      exact ⟨Dict.mem_of_get? _ h3, by simpa using h2⟩
    · exact Prod.ext rfl h4.symm

theorem build_get_notGenerated (batches : List (List Row)) (p n : Str)
    (h : ¬ Generates (insertAll batches) (p, n)) (oh : Int) :
    (build batches).get? ⟨p, n, oh⟩ = (insertAll batches).files.get? ⟨p, n, oh⟩ := by
  have hn := (insertAll_inv batches).nodup
  cases hg : (insertAll batches).files.get? ⟨p, n, oh⟩ with
  | some v => exact foldl_ignore_old _ _ _ _ hg
  | none =>
    cases hb : (build batches).get? ⟨p, n, oh⟩ with
    | none => rfl
    | some v =>
      rcases foldl_ignore_get _ _ _ _ hb with h1 | ⟨-, h1⟩
      · rw [hg] at h1; cases h1
      · exact absurd ((mem_generated _ hn _).mp h1).1 h

theorem generates_congr {b₁ b₂ : List (List Row)} (h : SameRows b₁ b₂) (p : Str × Str)
    (hg : Generates (insertAll b₁) p) : Generates (insertAll b₂) p := by
  refine ⟨sameRows_parents h p hg.1, ?_⟩
  intro r hr hd
  have h1 := Dict.get?_eq_some_of_mem _ (files_nodup b₂) (k := r.1) (v := r.2) hr
  rw [files_get, ← h r.1, ← files_get] at h1
  exact hg.2 r (Dict.mem_of_get? _ h1) hd

/-- The only row at a place where a folder is generated and nothing was inserted. -/
theorem rows_generated (batches : List (List Row)) (p n : Str) (hg : Generates (insertAll batches) (p, n))
    (hno : ∀ r ∈ batches.flatten, ¬ (r.1.path = p ∧ r.1.name = n)) :
    ∃ oh off, orderAsc (rowsAt (build batches) p n) = [(⟨p, n, oh⟩, ⟨off, 0o40555, false, 0⟩)] := by
  have inv := insertAll_inv batches
  have hk := hg.1
  rw [Dict.mem_keys_iff, Option.isSome_iff_exists] at hk
  obtain ⟨v, hv⟩ := hk
  refine ⟨v.1, v.2, ?_⟩
  refine orderAsc_eq (build_nodup batches) ⟨?_, by simp⟩
  intro r
  rw [List.mem_singleton]
  have hrow : ((⟨p, n, v.1⟩, ⟨v.2, 0o40555, false, 0⟩) : Row) ∈ (insertAll batches).generated :=
    (mem_generated _ inv.nodup _).mpr ⟨hg, hv, rfl⟩
  constructor
  · rintro rfl
    refine ⟨?_, rfl, rfl⟩
    have hkey : (⟨p, n, v.1⟩ : Key) ∈ (build batches).keys := by
      rw [build, DB.finalize, foldl_ignore_keys]; left; rw [List.mem_map]; exact ⟨_, hrow, rfl⟩
    rw [Dict.keys, List.mem_map] at hkey
    obtain ⟨q, hq, he⟩ := hkey
    rcases mem_build batches q hq with h1 | h1
    · exact absurd ⟨by rw [he], by rw [he]⟩ (hno q h1)
    · rw [mem_generated _ inv.nodup] at h1
      obtain ⟨-, h2, h3⟩ := h1
      rw [he] at h2
      simp only [hv, Option.some.injEq] at h2
      have : q = (⟨p, n, v.1⟩, ⟨v.2, 0o40555, false, 0⟩) := Prod.ext he (by rw [h3, h2])
      rw [← this]; exact hq
  · rintro ⟨hr, h1, h2⟩
    rcases mem_build batches r hr with h3 | h3
    · exact absurd ⟨h1, h2⟩ (hno r h3)
    · rw [mem_generated _ inv.nodup] at h3
      obtain ⟨-, h4, h5⟩ := h3
      rw [h1, h2, hv] at h4
      simp only [Option.some.injEq] at h4
      obtain ⟨⟨rp, rn, ro⟩, ri⟩ := r
      simp only at h1 h2 h4 h5
      subst h1; subst h2
      refine Prod.ext ?_ ?_
      · rw [h4]
      · rw [h4]; exact h5

/-- The full statement of C19. -/
def C19_statement : Prop :=
  ∀ b₁ b₂ : List (List Row), SameRows b₁ b₂ → ∀ (path : Str) (v : Int),
    (lookup (build b₁) path v).map visible = (lookup (build b₂) path v).map visible

/-- **C19 is violated by the code**: with a file `/a` between `/a/b` and `/a/c`, the folder `/a` gets the offset of
whichever of the two was inserted first, and so `/a` is shown as a file or as a folder. -/
theorem C19_violated : ¬ C19_statement := by
  intro h
  have := h
    [[(⟨"/a".toList, "b".toList, 0⟩, ⟨1, 0o100644, false, 0⟩), (⟨[], "a".toList, 2⟩, ⟨3, 0o100644, false, 0⟩),
      (⟨"/a".toList, "c".toList, 4⟩, ⟨5, 0o100644, false, 0⟩)]]
    [[(⟨"/a".toList, "c".toList, 4⟩, ⟨5, 0o100644, false, 0⟩), (⟨[], "a".toList, 2⟩, ⟨3, 0o100644, false, 0⟩),
      (⟨"/a".toList, "b".toList, 0⟩, ⟨1, 0o100644, false, 0⟩)]]
    (by
      intro k
      simp only [lastRow, List.flatten_cons, List.flatten_nil, List.append_nil, List.filter_cons, List.filter_nil]
      by_cases h1 : (⟨"/a".toList, "b".toList, 0⟩ : Key) = k
      · subst h1; decide
      · by_cases h2 : (⟨[], "a".toList, 2⟩ : Key) = k
        · subst h2; decide
        · by_cases h3 : (⟨"/a".toList, "c".toList, 4⟩ : Key) = k
          · subst h3; decide
          · simp only [h1, h2, h3, decide_false, Bool.false_eq_true, if_false])
    "/a".toList 0
  exact absurd this (by decide +kernel)

/-- **C19, provable part**: for both histories every lookup and every version shows the same, for every path that is
not both a stored file and, without a stored folder entry, an implied folder. Missing: those conflicts. -/
theorem C19_order_partial (b₁ b₂ : List (List Row)) (h : SameRows b₁ b₂) (path : Str)
    (hclash : Generates (insertAll b₁) (splitPath (queryNormpath path)) →
      ∀ r ∈ b₁.flatten, ¬ (r.1.path = (splitPath (queryNormpath path)).1 ∧ r.1.name = (splitPath (queryNormpath path)).2))
    (v : Int) : (lookup (build b₁) path v).map visible = (lookup (build b₂) path v).map visible := by
  refine lookup_map_congr visible (build_nodup b₁) (build_nodup b₂) path v ?_
  generalize hsp : splitPath (queryNormpath path) = pn at hclash ⊢
  obtain ⟨p, n⟩ := pn
  have hsym : SameRows b₂ b₁ := fun k => (h k).symm
  by_cases hg : Generates (insertAll b₁) (p, n)
  · have hno := hclash hg
    obtain ⟨oh, off, he⟩ := rows_generated b₁ p n hg hno
    obtain ⟨oh', off', he'⟩ := rows_generated b₂ p n (generates_congr h _ hg) (by
      intro r hr hc
      obtain ⟨r', hr', hk⟩ := sameRows_mem hsym r hr
      exact hno r' hr' (by rw [hk]; exact hc))
    simp only [he, he']
    rfl
  · have hg' : ¬ Generates (insertAll b₂) (p, n) := fun h' => hg (generates_congr hsym _ h')
    simp only
    rw [rowsAt_congr (build_nodup b₁) (build_nodup b₂) p n]
    intro oh
    rw [build_get_notGenerated b₁ p n hg, build_get_notGenerated b₂ p n hg', files_get, files_get, h]

/-- **C19, inserted entries**: which rows are stored depends only on the last row per (path, offset); an entry
inserted again is replaced. -/
theorem C19_replaced (batches : List (List Row)) (k : Key) (i : Info) (h : lastRow batches.flatten k = some i) :
    (build batches).get? k = some i := by
  refine foldl_ignore_old _ _ _ _ ?_
  rw [files_get, h]

/-- Re-inserting `/a/b/f` and swapping the batches of `exampleBatches`. -/
example : (lastRow (exampleBatches ++ exampleBatches.reverse).flatten ⟨"/a/b".toList, "f".toList, 0⟩) =
      lastRow exampleBatches.flatten ⟨"/a/b".toList, "f".toList, 0⟩ ∧
    (lookup (build exampleBatches.reverse) "/a".toList 0).map visible = some (0o40555, false, 0) ∧
    (lookup (build exampleBatches) "/a".toList 0).map visible = some (0o40555, false, 0) := by decide +kernel

end Verif.Index
