import Verif.Compose.Source

/-!
# C29, C30, C31: union mounts (core/ratarmountcore/mountsource/compositing/union.py:15-190)

The clock is an arbitrary function: `timeUp n` tells whether the time limit has passed at the `n`-th check.
-/

namespace Verif.Compose

open Verif.Py Verif.Index

/-- `self.folderCache` (union.py:39). -/
abbrev FolderCache := Dict Str (List Source)

/-- The innermost loop of `_build_folder_cache` (union.py:69-83) over the files of one folder of one source. The state is the
number of checks so far, `maxCacheEntries` and `newFolderCache`; `none` is the `return` at 68. -/
def cacheFiles (timeUp : Nat → Bool) (s : Source) (folder : Str) :
    List Str → Nat × Int × FolderCache → Option (Nat × Int × FolderCache)
  | [], st => some st
  | f :: fs, (n, e, new) =>
    if timeUp n || decide (e ≤ 0) then none
    else if s.isDirAt (joinPath folder f) then
      cacheFiles timeUp s folder fs
        (n + 1, e - 1, new.set (joinPath folder f) ((new.get? (joinPath folder f)).getD [] ++ [s]))
    else cacheFiles timeUp s folder fs (n + 1, e, new)

/-- The loop over the sources of a folder (union.py:64-67). -/
def cacheSources (timeUp : Nat → Bool) (folder : Str) :
    List Source → Nat × Int × FolderCache → Option (Nat × Int × FolderCache)
  | [], st => some st
  | s :: ss, st =>
    match cacheFiles timeUp s folder (s.namesIn folder) st with
    | none => none
    | some st => cacheSources timeUp folder ss st

/-- The loop over the folders found last (union.py:63). -/
def cacheFolders (timeUp : Nat → Bool) :
    List (Str × List Source) → Nat × Int × FolderCache → Option (Nat × Int × FolderCache)
  | [], st => some st
  | (folder, ss) :: rest, st =>
    match cacheSources timeUp folder ss st with
    | none => none
    | some st => cacheFolders timeUp rest st

/-- The loop over depths (union.py:56-90): `k` iterations are left, `depth` is `folderCacheDepth`. -/
def buildLoop (timeUp : Nat → Bool) : Nat → Nat → Int → FolderCache → FolderCache → Nat → FolderCache × Nat
  | 0, _, _, cache, _, depth => (cache, depth)
  | k + 1, n, e, cache, last, depth =>
    match cacheFolders timeUp last (n, e, []) with
    | none => (cache, depth)
    | some (n, e, new) =>
      if new.isEmpty then (cache, depth)
      else buildLoop timeUp k n e (cache.update new) new (depth + 1)

/-- A `UnionMountSource` (union.py:15-44). -/
structure Union where
  sources : List Source
  cache : FolderCache
  depth : Nat

/-- `__init__` (union.py:16-44) with `_build_folder_cache` (union.py:46-98). -/
def Union.new (sources : List Source) (maxCacheDepth : Nat) (maxCacheEntries : Int) (timeUp : Nat → Bool) : Union :=
  if 1 < sources.length then
    let cache : FolderCache := [(['/'], sources.filter (·.immutable))]
    let r := buildLoop timeUp (maxCacheDepth - 1) 0 maxCacheEntries cache cache 0
    ⟨sources, r.1, r.2⟩
  else ⟨sources, [(['/'], sources)], 0⟩

/-- `parentFolder` (union.py:114-116). -/
def parentFolder (path : Str) (depth : Nat) : Str :=
  let p := join '/' (splitMax '/' path (depth + 1)).dropLast
  if p = [] then ['/'] else p

/-- `cachedMountSources` (union.py:109-119). -/
def Union.cached (u : Union) (path : Str) : List Source :=
  match u.cache.get? path with
  | some l => l
  | none =>
    if u.cache.isEmpty = false ∧ 0 < u.depth ∧ startsWith ['/'] path then
      (u.cache.get? (parentFolder path u.depth)).getD []
    else u.sources

/-- The loop for versions up to 0 (union.py:127-134); the sources are in reversed order. -/
def lookupBack (path : Str) : List Source → Int → Option FileInfo
  | [], _ => none
  | s :: ss, v =>
    match s.lookup path v with
    | some i => some (i.push (.source s.id))
    | none => if v + s.versions path > 0 then none else lookupBack path ss (v + s.versions path)

/-- The loop for versions from 1 on (union.py:137-144). -/
def lookupForth (path : Str) : List Source → Int → Option FileInfo
  | [], _ => none
  | s :: ss, v =>
    match s.lookup path v with
    | some i => some (i.push (.source s.id))
    | none => if v - s.versions path < 1 then none else lookupForth path ss (v - s.versions path)

/-- Both loops (union.py:126-146). -/
def lookupIn (sources : List Source) (path : Str) (v : Int) : Option FileInfo :=
  if v ≤ 0 then lookupBack path sources.reverse v else lookupForth path sources v

/-- `path.strip('/')` (union.py:106). -/
def stripSlashes (path : Str) : Str := rstrip '/' (lstrip '/' path)

/-- `lookup` (union.py:105-146). `m in cachedMountSources` compares identities. -/
def Union.lookup (u : Union) (path : Str) (v : Int) : Option FileInfo :=
  if stripSlashes path = [] then some (rootInfo [.none])
  else lookupIn (u.sources.filter (fun m => !m.immutable || (u.cached path).any (fun c => c.id == m.id))) path v

/-- `versions` (union.py:149-150). -/
def Union.versions (u : Union) (path : Str) : Nat := (u.sources.map (fun s => s.versions path)).sum

/-- One step of `_list` (union.py:156-175). A set is the list of its elements. -/
def mergeListing {V : Type} (files : Option (Listing V)) (result : Option (Listing V)) : Option (Listing V) :=
  match files, result with
  | none, r => r
  | some f, none => some f
  | some (.dict f), some (.dict r) => some (.dict (f.update r))
  | some f, some r => some (.names (f.keys ++ r.keys))

/-- `_list` (union.py:152-177) with `list`. -/
def Union.list (u : Union) (path : Str) : Option (Listing FileInfo) :=
  u.sources.reverse.foldl (fun files s => mergeListing files (s.list path)) none

/-- `_list` with `list_mode` (union.py:152-190). -/
def Union.listMode (u : Union) (path : Str) : Option (Listing Nat) :=
  u.sources.reverse.foldl (fun files s => mergeListing files (s.listMode path)) none

/-! ## specification -/

/-- Version number `v` of the versions `vs`, oldest first: 1 is the first one, 0 the last one, -1 the one before. -/
def pick {α : Type} (vs : List α) (v : Int) : Option α :=
  if v ≤ 0 then vs.reverse[(-v).toNat]? else vs[(v - 1).toNat]?

/-- The source has the versions `vs path`, oldest first. -/
def Versioned (s : Source) (vs : Str → List FileInfo) : Prop :=
  ∀ path, s.versions path = (vs path).length ∧ ∀ v, s.lookup path v = pick (vs path) v

/-- The source has something at the path. -/
def Has (s : Source) (path : Str) : Prop := s.versions path ≠ 0 ∨ ∃ v, s.lookup path v ≠ none

/-- Going down from the root, every folder is listed in its parent and is a folder. -/
def Reach (s : Source) (cs : List Str) : Prop :=
  ∀ pre n, pre ++ [n] <+: cs → n ∈ s.namesIn (canonical pre) ∧ s.isDirAt (canonical (pre ++ [n])) = true

/-- The source is a tree: whatever it has is listed in its parent, which can be reached through folders. -/
structure Tree (s : Source) : Prop where
  names : ∀ p, ∀ n ∈ s.namesIn p, IsName n
  has : ∀ cs n, (∀ x ∈ cs ++ [n], IsName x) → Has s (canonical (cs ++ [n])) → Reach s cs ∧ n ∈ s.namesIn (canonical cs)

/-- No path is a folder in one source and something else in another one. -/
def NoConflict (sources : List Source) : Prop :=
  ∀ s ∈ sources, ∀ t ∈ sources, ∀ p, t.isDirAt p = true → Has s p → s.isDirAt p = true

/-- Different sources are different objects. -/
def Identified (sources : List Source) : Prop := ∀ s ∈ sources, ∀ t ∈ sources, s.id = t.id → s = t

/-! ## lemmas: versions -/

theorem pick_nil {α : Type} (v : Int) : pick ([] : List α) v = none := by unfold pick; split <;> simp

theorem pick_map {α β : Type} (f : α → β) (vs : List α) (v : Int) : pick (vs.map f) v = (pick vs v).map f := by
  unfold pick
  split
  · rw [← List.map_reverse, List.getElem?_map]
  · rw [List.getElem?_map]

theorem lookupBack_eq (path : Str) (vs : Source → Str → List FileInfo) (ss : List Source) : ∀ v : Int, v ≤ 0 →
    (∀ s ∈ ss, Versioned s (vs s)) →
    lookupBack path ss v = ((ss.flatMap (fun s => ((vs s path).map (fun i => i.push (.source s.id))).reverse)))[(-v).toNat]? := by
  induction ss with
  | nil => intro v _ _; simp [lookupBack]
  | cons s ss ih =>
    intro v hv h
    obtain ⟨h1, h2⟩ := h s (by simp) path
    unfold lookupBack
    rw [h2 v, h1, List.flatMap_cons]
    unfold pick
    rw [if_pos hv]
    by_cases hlt : (-v).toNat < (vs s path).length
    · rw [List.getElem?_append_left (by simpa using hlt)]
      rw [← List.map_reverse, List.getElem?_map, List.getElem?_eq_getElem (by simpa using hlt)]
      rfl
    · rw [List.getElem?_append_right (by simpa using Nat.le_of_not_lt hlt)]
      rw [List.getElem?_eq_none (by simpa using Nat.le_of_not_lt hlt)]
      simp only [List.length_reverse, List.length_map]
      rw [if_neg (by omega), ih _ (by omega) (fun s hs => h s (List.mem_cons_of_mem _ hs))]
      congr 1
      omega

theorem lookupForth_eq (path : Str) (vs : Source → Str → List FileInfo) (ss : List Source) : ∀ v : Int, 1 ≤ v →
    (∀ s ∈ ss, Versioned s (vs s)) →
    lookupForth path ss v = ((ss.flatMap (fun s => (vs s path).map (fun i => i.push (.source s.id)))))[(v - 1).toNat]? := by
  induction ss with
  | nil => intro v _ _; simp [lookupForth]
  | cons s ss ih =>
    intro v hv h
    obtain ⟨h1, h2⟩ := h s (by simp) path
    unfold lookupForth
    rw [h2 v, h1, List.flatMap_cons]
    unfold pick
    rw [if_neg (by omega)]
    by_cases hlt : (v - 1).toNat < (vs s path).length
    · rw [List.getElem?_append_left (by simpa using hlt)]
      rw [List.getElem?_map, List.getElem?_eq_getElem (by simpa using hlt)]
      rfl
    · rw [List.getElem?_append_right (by simpa using Nat.le_of_not_lt hlt)]
      rw [List.getElem?_eq_none (by simpa using Nat.le_of_not_lt hlt)]
      simp only [List.length_map]
      rw [if_neg (by omega), ih _ (by omega) (fun s hs => h s (List.mem_cons_of_mem _ hs))]
      congr 1
      omega

theorem lookupIn_eq (path : Str) (vs : Source → Str → List FileInfo) (ss : List Source) (v : Int)
    (h : ∀ s ∈ ss, Versioned s (vs s)) :
    lookupIn ss path v = pick (ss.flatMap (fun s => (vs s path).map (fun i => i.push (.source s.id)))) v := by
  unfold lookupIn pick
  split
  · next hv =>
    rw [lookupBack_eq path vs _ v hv (fun s hs => h s (List.mem_reverse.mp hs)), List.reverse_flatMap]
    rfl
  · next hv => exact lookupForth_eq path vs ss v (by omega) h

/-! ## lemmas: leaving out sources without the path -/

theorem lookupBack_filter (path : Str) (keep : Source → Bool) (ss : List Source) : ∀ v : Int, v ≤ 0 →
    (∀ s ∈ ss, keep s = false → ¬ Has s path) → lookupBack path (ss.filter keep) v = lookupBack path ss v := by
  induction ss with
  | nil => intro v _ _; rfl
  | cons s ss ih =>
    intro v hv h
    have hrest := fun t ht => h t (List.mem_cons_of_mem s ht)
    cases hk : keep s with
    | true =>
      rw [List.filter_cons_of_pos hk]
      unfold lookupBack
      split
      · rfl
      · split
        · rfl
        · exact ih _ (by omega) hrest
    | false =>
      rw [List.filter_cons_of_neg (by simp [hk])]
      have hn := h s (by simp) hk
      unfold Has at hn
      simp only [ne_eq, not_or, Classical.not_not, not_exists] at hn
      rw [ih v hv hrest]
      conv => rhs; unfold lookupBack
      rw [hn.2 v, hn.1]
      simp only [Int.natCast_zero, Int.add_zero]
      rw [if_neg (by omega)]

theorem lookupForth_filter (path : Str) (keep : Source → Bool) (ss : List Source) : ∀ v : Int, 1 ≤ v →
    (∀ s ∈ ss, keep s = false → ¬ Has s path) → lookupForth path (ss.filter keep) v = lookupForth path ss v := by
  induction ss with
  | nil => intro v _ _; rfl
  | cons s ss ih =>
    intro v hv h
    have hrest := fun t ht => h t (List.mem_cons_of_mem s ht)
    cases hk : keep s with
    | true =>
      rw [List.filter_cons_of_pos hk]
      unfold lookupForth
      split
      · rfl
      · split
        · rfl
        · exact ih _ (by omega) hrest
    | false =>
      rw [List.filter_cons_of_neg (by simp [hk])]
      have hn := h s (by simp) hk
      unfold Has at hn
      simp only [ne_eq, not_or, Classical.not_not, not_exists] at hn
      rw [ih v hv hrest]
      conv => rhs; unfold lookupForth
      rw [hn.2 v, hn.1]
      simp only [Int.natCast_zero, Int.sub_zero]
      rw [if_neg (by omega)]

theorem lookupIn_filter (path : Str) (keep : Source → Bool) (ss : List Source) (v : Int)
    (h : ∀ s ∈ ss, keep s = false → ¬ Has s path) : lookupIn (ss.filter keep) path v = lookupIn ss path v := by
  unfold lookupIn
  split
  · next hv =>
    rw [← List.filter_reverse]
    exact lookupBack_filter path keep _ v hv (fun s hs => h s (List.mem_reverse.mp hs))
  · next hv => exact lookupForth_filter path keep ss v (by omega) h

/-! ## lemmas: the cache -/

/-- No empty lists and no key twice. -/
def Wf (c : FolderCache) : Prop := c.keys.Nodup ∧ ∀ p l, c.get? p = some l → l ≠ []

/-- The sources cached for a path. -/
def at_ (c : FolderCache) (p : Str) : List Source := (c.get? p).getD []

theorem cacheFiles_spec (timeUp : Nat → Bool) (s : Source) (folder : Str) (fs : List Str) : ∀ n e new n' e' new',
    cacheFiles timeUp s folder fs (n, e, new) = some (n', e', new') → Wf new →
    Wf new' ∧ ∀ p t, t ∈ at_ new' p ↔ t ∈ at_ new p ∨ (t = s ∧ ∃ f ∈ fs, p = joinPath folder f ∧ s.isDirAt p = true) := by
  induction fs with
  | nil =>
    intro n e new n' e' new' h hw
    simp only [cacheFiles, Option.some.injEq, Prod.mk.injEq] at h
    obtain ⟨-, -, rfl⟩ := h
    exact ⟨hw, by simp⟩
  | cons f fs ih =>
    intro n e new n' e' new' h hw
    unfold cacheFiles at h
    split at h
    · cases h
    · split at h
      · next hd =>
        have hw2 : Wf (new.set (joinPath folder f) ((new.get? (joinPath folder f)).getD [] ++ [s])) := by
          refine ⟨Dict.nodup_set _ hw.1 _ _, ?_⟩
          intro p l hl
          rw [Dict.get?_set] at hl
          split at hl
          · cases hl; simp
          · exact hw.2 p l hl
        obtain ⟨h1, h2⟩ := ih _ _ _ _ _ _ h hw2
        refine ⟨h1, ?_⟩
        intro p t
        rw [h2]
        unfold at_
        rw [Dict.get?_set]
        by_cases hp : joinPath folder f = p
        · subst hp
          simp only [if_true, Option.getD_some, List.mem_append, List.mem_cons, List.not_mem_nil, or_false]
          constructor
          · rintro ((h | h) | ⟨h, f', hf', h3⟩)
            · exact .inl h
            · exact .inr ⟨h, f, .inl rfl, rfl, hd⟩
            · exact .inr ⟨h, f', .inr hf', h3⟩
          · rintro (h | ⟨h, -⟩)
            · exact .inl (.inl h)
            · exact .inl (.inr h)
        · rw [if_neg hp]
          simp only [List.mem_cons]
          constructor
          · rintro (h | ⟨h, f', hf', h3⟩)
            · exact .inl h
            · exact .inr ⟨h, f', .inr hf', h3⟩
          · rintro (h | ⟨h, f', hf' | hf', h3, h4⟩)
            · exact .inl h
            · subst hf'; exact absurd h3.symm hp
            · exact .inr ⟨h, f', hf', h3, h4⟩
      · next hd =>
        obtain ⟨h1, h2⟩ := ih _ _ _ _ _ _ h hw
        refine ⟨h1, ?_⟩
        intro p t
        rw [h2]
        simp only [List.mem_cons]
        constructor
        · rintro (h | ⟨h, f', hf', h3⟩)
          · exact .inl h
          · exact .inr ⟨h, f', .inr hf', h3⟩
        · rintro (h | ⟨h, f', hf' | hf', h3, h4⟩)
          · exact .inl h
          · subst hf'; subst h3; exact absurd h4 hd
          · exact .inr ⟨h, f', hf', h3, h4⟩

theorem cacheSources_spec (timeUp : Nat → Bool) (folder : Str) (ss : List Source) : ∀ n e new n' e' new',
    cacheSources timeUp folder ss (n, e, new) = some (n', e', new') → Wf new →
    Wf new' ∧ ∀ p t, t ∈ at_ new' p ↔ t ∈ at_ new p ∨
      (t ∈ ss ∧ ∃ f ∈ t.namesIn folder, p = joinPath folder f ∧ t.isDirAt p = true) := by
  induction ss with
  | nil =>
    intro n e new n' e' new' h hw
    simp only [cacheSources, Option.some.injEq, Prod.mk.injEq] at h
    obtain ⟨-, -, rfl⟩ := h
    exact ⟨hw, by simp⟩
  | cons s ss ih =>
    intro n e new n' e' new' h hw
    unfold cacheSources at h
    cases hf : cacheFiles timeUp s folder (s.namesIn folder) (n, e, new) with
    | none => rw [hf] at h; cases h
    | some st =>
      obtain ⟨n1, e1, new1⟩ := st
      rw [hf] at h
      obtain ⟨h1, h2⟩ := cacheFiles_spec _ _ _ _ _ _ _ _ _ _ hf hw
      obtain ⟨h3, h4⟩ := ih _ _ _ _ _ _ h h1
      refine ⟨h3, ?_⟩
      intro p t
      rw [h4, h2]
      simp only [List.mem_cons]
      constructor
      · rintro ((h | ⟨rfl, h⟩) | ⟨h, h'⟩)
        · exact .inl h
        · exact .inr ⟨.inl rfl, h⟩
        · exact .inr ⟨.inr h, h'⟩
      · rintro (h | ⟨rfl | h, h'⟩)
        · exact .inl (.inl h)
        · exact .inl (.inr ⟨rfl, h'⟩)
        · exact .inr ⟨h, h'⟩

theorem cacheFolders_spec (timeUp : Nat → Bool) (last : List (Str × List Source)) : ∀ n e new n' e' new',
    cacheFolders timeUp last (n, e, new) = some (n', e', new') → Wf new →
    Wf new' ∧ ∀ p t, t ∈ at_ new' p ↔ t ∈ at_ new p ∨
      (∃ fl ∈ last, t ∈ fl.2 ∧ ∃ f ∈ t.namesIn fl.1, p = joinPath fl.1 f ∧ t.isDirAt p = true) := by
  induction last with
  | nil =>
    intro n e new n' e' new' h hw
    simp only [cacheFolders, Option.some.injEq, Prod.mk.injEq] at h
    obtain ⟨-, -, rfl⟩ := h
    exact ⟨hw, by simp⟩
  | cons fl rest ih =>
    obtain ⟨folder, ss⟩ := fl
    intro n e new n' e' new' h hw
    unfold cacheFolders at h
    cases hf : cacheSources timeUp folder ss (n, e, new) with
    | none => rw [hf] at h; cases h
    | some st =>
      obtain ⟨n1, e1, new1⟩ := st
      rw [hf] at h
      obtain ⟨h1, h2⟩ := cacheSources_spec _ _ _ _ _ _ _ _ _ hf hw
      obtain ⟨h3, h4⟩ := ih _ _ _ _ _ _ h h1
      refine ⟨h3, ?_⟩
      intro p t
      rw [h4, h2]
      constructor
      · rintro ((h | h) | ⟨fl, hfl, h⟩)
        · exact .inl h
        · exact .inr ⟨(folder, ss), by simp, h⟩
        · exact .inr ⟨fl, List.mem_cons_of_mem _ hfl, h⟩
      · rintro (h | ⟨fl, hfl, h⟩)
        · exact .inl (.inl h)
        · rcases List.mem_cons.mp hfl with rfl | hfl
          · exact .inl (.inr h)
          · exact .inr ⟨fl, hfl, h⟩

/-- Folders of depth `d` are right in `c`: exactly the immutable sources from which they can be reached. -/
def RightAt (sources : List Source) (c : FolderCache) (d : Nat) : Prop :=
  ∀ cs, (∀ n ∈ cs, IsName n) → cs.length = d →
    ∀ t, t ∈ at_ c (canonical cs) ↔ t ∈ sources ∧ t.immutable = true ∧ Reach t cs

theorem mem_at_of_mem {c : FolderCache} (hw : c.keys.Nodup) {fl : Str × List Source} (h : fl ∈ c) {t : Source}
    (ht : t ∈ fl.2) : t ∈ at_ c fl.1 := by
  unfold at_
  rw [Dict.get?_eq_some_of_mem c hw h]
  exact ht

theorem reach_snoc (s : Source) (cs : List Str) (n : Str) :
    Reach s (cs ++ [n]) ↔ Reach s cs ∧ n ∈ s.namesIn (canonical cs) ∧ s.isDirAt (canonical (cs ++ [n])) = true := by
  constructor
  · intro h
    exact ⟨fun pre m hp => h pre m (hp.trans (List.prefix_append _ _)), h cs n (List.prefix_refl _)⟩
  · rintro ⟨h1, h2⟩ pre m hp
    rw [List.prefix_concat_iff] at hp
    rcases hp with hp | hp
    · obtain ⟨rfl, e⟩ := List.append_inj' hp rfl
      cases e
      exact h2
    · exact h1 pre m hp

/-- What the loop over depths maintains. -/
structure LevelInv (sources : List Source) (cache last : FolderCache) (d : Nat) : Prop where
  nodup : last.keys.Nodup
  keys : ∀ p ∈ cache.keys, ∃ cs : List Str, (∀ n ∈ cs, IsName n) ∧ cs.length ≤ d ∧ p = canonical cs
  lastKeys : ∀ p ∈ last.keys, ∃ cs : List Str, (∀ n ∈ cs, IsName n) ∧ cs.length = d ∧ p = canonical cs
  right : ∀ d' ≤ d, RightAt sources cache d'
  lastRight : RightAt sources last d
  nonempty : ∀ p l, cache.get? p = some l → p ≠ ['/'] → l ≠ []

theorem buildLoop_inv (sources : List Source) (htree : ∀ s ∈ sources, s.immutable = true → Tree s) (timeUp : Nat → Bool)
    (k : Nat) : ∀ n e cache last d, LevelInv sources cache last d →
    ∃ last', LevelInv sources (buildLoop timeUp k n e cache last d).1 last' (buildLoop timeUp k n e cache last d).2 := by
  induction k with
  | zero => intro n e cache last d h; exact ⟨last, h⟩
  | succ k ih =>
    intro n e cache last d h
    unfold buildLoop
    cases hf : cacheFolders timeUp last (n, e, []) with
    | none => exact ⟨last, h⟩
    | some st =>
      obtain ⟨n', e', new⟩ := st
      simp only
      split
      · exact ⟨last, h⟩
      · apply ih
        obtain ⟨hw, hn⟩ := cacheFolders_spec _ _ _ _ _ _ _ _ hf ⟨List.nodup_nil, by simp⟩
        simp only [at_, Dict.get?_nil, Option.getD_none, List.not_mem_nil, false_or] at hn
        have hlast : ∀ p t, t ∈ at_ new p ↔ ∃ cs m, (∀ x ∈ cs, IsName x) ∧ cs.length = d ∧ t ∈ sources ∧ t.immutable = true ∧
            Reach t cs ∧ m ∈ t.namesIn (canonical cs) ∧ p = canonical (cs ++ [m]) ∧ t.isDirAt p = true := by
          intro p t
          unfold at_
          rw [hn]
          constructor
          · rintro ⟨fl, hfl, ht, f, hf1, hf2, hf3⟩
            obtain ⟨cs, hcs, hlen, hp⟩ := h.lastKeys fl.1 (List.mem_map.mpr ⟨fl, hfl, rfl⟩)
            have hm := mem_at_of_mem h.nodup hfl ht
            rw [hp] at hm hf1 hf2
            obtain ⟨hs, him, hr⟩ := (h.lastRight cs hcs hlen t).mp hm
            have hfn := (htree t hs him).names _ f hf1
            exact ⟨cs, f, hcs, hlen, hs, him, hr, hf1, by rw [hf2, joinPath_canonical cs f hcs hfn], hf3⟩
          · rintro ⟨cs, m, hcs, hlen, hs, him, hr, hm, hp, hd⟩
            have hin := (h.lastRight cs hcs hlen t).mpr ⟨hs, him, hr⟩
            unfold at_ at hin
            cases hg : last.get? (canonical cs) with
            | none => rw [hg] at hin; simp at hin
            | some l =>
              rw [hg] at hin
              have hmn := (htree t hs him).names _ m hm
              exact ⟨(canonical cs, l), Dict.mem_of_get? last hg, hin, m, hm, by rw [joinPath_canonical cs m hcs hmn]; exact hp, hd⟩
        have hright : RightAt sources new (d + 1) := by
          intro cs hcs hlen t
          rw [hlast]
          have hne : cs ≠ [] := by intro e; rw [e] at hlen; cases hlen
          have hsplit := List.dropLast_concat_getLast hne
          constructor
          · rintro ⟨cs', m, h1, h2, h3, h4, h5, h6, h7, h8⟩
            have hmn := (htree t h3 h4).names _ m h6
            have e := canonical_inj cs (cs' ++ [m]) hcs (by
              intro x hx
              rcases List.mem_append.mp hx with hx | hx
              · exact h1 x hx
              · rw [List.mem_singleton.mp hx]; exact hmn) h7
            refine ⟨h3, h4, ?_⟩
            rw [e] at h8 ⊢
            exact (reach_snoc t cs' m).mpr ⟨h5, h6, h8⟩
          · rintro ⟨h1, h2, h3⟩
            rw [← hsplit] at h3
            obtain ⟨a, b, c⟩ := (reach_snoc t _ _).mp h3
            rw [hsplit] at c
            exact ⟨cs.dropLast, cs.getLast hne, fun x hx => hcs x ((List.dropLast_sublist _).subset hx), by simp [hlen], h1, h2, a, b,
              by rw [hsplit], c⟩
        have hkeys : ∀ p ∈ new.keys, ∃ cs : List Str, (∀ n ∈ cs, IsName n) ∧ cs.length = d + 1 ∧ p = canonical cs := by
          intro p hp
          rw [Dict.mem_keys_iff] at hp
          cases hg : new.get? p with
          | none => rw [hg] at hp; cases hp
          | some l =>
            have hl := hw.2 p l hg
            cases l with
            | nil => exact absurd rfl hl
            | cons t l =>
              obtain ⟨cs, m, h1, h2, h3, h4, h5, h6, h7, h8⟩ := (hlast p t).mp (by unfold at_; rw [hg]; simp)
              have hmn := (htree t h3 h4).names _ m h6
              refine ⟨cs ++ [m], ?_, by simp [h2], h7⟩
              intro x hx
              rcases List.mem_append.mp hx with hx | hx
              · exact h1 x hx
              · rw [List.mem_singleton.mp hx]; exact hmn
        refine ⟨hw.1, ?_, hkeys, ?_, hright, ?_⟩
        · intro p hp
          rw [Dict.mem_keys_update] at hp
          rcases hp with hp | hp
          · obtain ⟨cs, h1, h2, h3⟩ := hkeys p hp
            exact ⟨cs, h1, by omega, h3⟩
          · obtain ⟨cs, h1, h2, h3⟩ := h.keys p hp
            exact ⟨cs, h1, by omega, h3⟩
        · intro d' hd' cs hcs hlen t
          unfold at_
          rw [Dict.get?_update _ hw.1]
          by_cases hd : d' = d + 1
          · have hold : cache.get? (canonical cs) = none := by
              cases hg : cache.get? (canonical cs) with
              | none => rfl
              | some l =>
                obtain ⟨cs', h1, h2, h3⟩ := h.keys (canonical cs) ((Dict.mem_keys_iff _ _).mpr (by simp [hg]))
                have := canonical_inj cs cs' hcs h1 h3
                subst this
                omega
            rw [hold, Option.or_none]
            exact hright cs hcs (by omega) t
          · have hnew : new.get? (canonical cs) = none := by
              cases hg : new.get? (canonical cs) with
              | none => rfl
              | some l =>
                obtain ⟨cs', h1, h2, h3⟩ := hkeys (canonical cs) ((Dict.mem_keys_iff _ _).mpr (by simp [hg]))
                have := canonical_inj cs cs' hcs h1 h3
                subst this
                omega
            rw [hnew, Option.none_or]
            exact h.right d' (by omega) cs hcs hlen t
        · intro p l hl hp
          rw [Dict.get?_update _ hw.1] at hl
          cases hg : new.get? p with
          | none => rw [hg, Option.none_or] at hl; exact h.nonempty p l hl hp
          | some l' => rw [hg, Option.some_or] at hl; cases hl; exact hw.2 p _ hg

theorem isDirAt_has {s : Source} {p : Str} (h : s.isDirAt p = true) : Has s p := by
  unfold Source.isDirAt at h
  refine .inr ⟨0, ?_⟩
  intro e
  rw [e] at h
  cases h

theorem parentFolder_canonical (cs : List Str) (hne : cs ≠ []) (h : ∀ n ∈ cs, IsName n) (d : Nat) :
    parentFolder (canonical cs) d = canonical (cs.take (min d (cs.length - 1))) := by
  unfold parentFolder
  rw [canonical_eq cs]
  have e : splitMax '/' ('/' :: join '/' cs) (d + 1) = [] :: splitMax '/' (join '/' cs) d := by simp [splitMax]
  simp only [e]
  rw [List.dropLast_cons_of_ne_nil (splitMax_ne_nil _ _ _), splitMax_join_dropLast cs hne (fun n hn => (h n hn).2.1)]
  cases ht : cs.take (min d (cs.length - 1)) with
  | nil => simp [join, canonical]
  | cons a as => simp [join, canonical]

theorem dropWhile_ne_nil {p : Char → Bool} (l : Str) (x : Char) (hm : x ∈ l) (hx : p x = false) : l.dropWhile p ≠ [] := by
  induction l with
  | nil => cases hm
  | cons y l ih =>
    rw [List.dropWhile_cons]
    split
    · next hy =>
      rcases List.mem_cons.mp hm with rfl | hm
      · rw [hx] at hy; cases hy
      · exact ih hm
    · simp

theorem stripSlashes_canonical (cs : List Str) (hne : cs ≠ []) (h : ∀ n ∈ cs, IsName n) : stripSlashes (canonical cs) ≠ [] := by
  cases cs with
  | nil => exact absurd rfl hne
  | cons c cs =>
    obtain ⟨h1, h2, -⟩ := h c (by simp)
    cases c with
    | nil => exact absurd rfl h1
    | cons x xs =>
      have hx : x ≠ '/' := fun e => h2 (by simp [e])
      have hm : x ∈ lstrip '/' (canonical ((x :: xs) :: cs)) := by
        unfold lstrip canonical
        rw [List.dropWhile_cons_of_pos (by simp)]
        cases cs <;> simp [join, hx]
      unfold stripSlashes rstrip
      intro e
      rw [List.reverse_eq_nil_iff] at e
      exact dropWhile_ne_nil _ x (List.mem_reverse.mpr hm) (decide_eq_false hx) e

/-! ## C29, C30: lookups -/

theorem cached_has (sources : List Source) (maxDepth : Nat) (entries : Int) (timeUp : Nat → Bool)
    (htree : ∀ s ∈ sources, s.immutable = true → Tree s) (hconf : NoConflict sources)
    (cs : List Str) (hne : cs ≠ []) (hcs : ∀ n ∈ cs, IsName n) (s : Source) (hs : s ∈ sources) (him : s.immutable = true)
    (hhas : Has s (canonical cs)) : s ∈ (Union.new sources maxDepth entries timeUp).cached (canonical cs) := by
  unfold Union.new
  split
  · obtain ⟨last', inv⟩ := buildLoop_inv sources htree timeUp (maxDepth - 1) 0 entries
      [(['/'], sources.filter (·.immutable))] [(['/'], sources.filter (·.immutable))] 0 (by
        have key : RightAt sources [(['/'], sources.filter (·.immutable))] 0 := by
          intro cs _ hlen t
          rw [List.length_eq_zero_iff] at hlen
          subst hlen
          have hr : Reach t [] := by
            intro pre n hp
            have := hp.length_le
            simp at this
          simp [at_, Dict.get?, canonical, hr]
        have hk : ∀ p ∈ Dict.keys [(['/'], sources.filter (·.immutable))],
            ∃ cs : List Str, (∀ n ∈ cs, IsName n) ∧ cs.length = 0 ∧ p = canonical cs := by
          intro p hp
          simp only [Dict.keys, List.map_cons, List.map_nil, List.mem_singleton] at hp
          exact ⟨[], by simp, rfl, hp⟩
        refine ⟨by simp [Dict.keys], ?_, hk, ?_, key, ?_⟩
        · intro p hp
          obtain ⟨cs, h1, h2, h3⟩ := hk p hp
          exact ⟨cs, h1, by omega, h3⟩
        · intro d' hd'
          obtain rfl : d' = 0 := by omega
          exact key
        · intro p l hl hp
          simp only [Dict.get?] at hl
          rw [if_neg (fun e => hp e.symm)] at hl
          cases hl)
    simp only
    generalize buildLoop timeUp (maxDepth - 1) 0 entries [(['/'], sources.filter (·.immutable))]
      [(['/'], sources.filter (·.immutable))] 0 = r at inv
    have hsplit := List.dropLast_concat_getLast hne
    have hnames := hcs
    rw [← hsplit] at hhas hnames
    obtain ⟨hreach, hlisted⟩ := (htree s hs him).has _ _ hnames hhas
    rw [hsplit] at hhas
    unfold Union.cached
    simp only
    cases hg : r.1.get? (canonical cs) with
    | some l =>
      simp only
      obtain ⟨cs', h1, h2, h3⟩ := inv.keys (canonical cs) ((Dict.mem_keys_iff _ _).mpr (by simp [hg]))
      obtain rfl := canonical_inj cs cs' hcs h1 h3
      have hright := inv.right cs.length h2 cs hcs rfl
      unfold at_ at hright
      rw [hg] at hright
      simp only [Option.getD_some] at hright
      have hroot : canonical cs ≠ ['/'] := by
        intro e
        exact hne (canonical_inj cs [] hcs (by simp) e)
      have hl := inv.nonempty _ l hg hroot
      cases l with
      | nil => exact absurd rfl hl
      | cons t l =>
        obtain ⟨ht1, ht2, ht3⟩ := (hright t).mp (by simp)
        have htd : t.isDirAt (canonical cs) = true := by
          rw [← hsplit] at ht3
          have := ((reach_snoc t _ _).mp ht3).2.2
          rwa [hsplit] at this
        have hsd := hconf s hs t ht1 _ htd hhas
        apply (hright s).mpr
        refine ⟨hs, him, ?_⟩
        rw [← hsplit]
        exact (reach_snoc s _ _).mpr ⟨hreach, hlisted, by rw [hsplit]; exact hsd⟩
    | none =>
      simp only
      split
      · rw [parentFolder_canonical cs hne hcs]
        refine (inv.right _ (by rw [List.length_take]; omega) (cs.take (min r.2 (cs.length - 1)))
          (fun n hn => hcs n (List.mem_of_mem_take hn)) rfl s).mpr ⟨hs, him, ?_⟩
        intro pre n hp
        apply hreach pre n
        refine hp.trans ?_
        rw [← List.take_take, ← List.dropLast_eq_take]
        exact List.take_prefix _ _
      · exact hs
  · unfold Union.cached
    simp only
    split
    · next h =>
      simp only [Dict.get?] at h
      split at h
      · cases h; exact hs
      · cases h
    · rw [if_neg (by simp)]
      exact hs

/-- The full statement of C30: the cache does not change what a lookup finds. -/
def C30_statement : Prop :=
  ∀ (sources : List Source) (maxDepth : Nat) (entries : Int) (timeUp : Nat → Bool) (cs : List Str) (v : Int),
    Identified sources → (∀ s ∈ sources, Tree s) → cs ≠ [] → (∀ n ∈ cs, IsName n) →
    (Union.new sources maxDepth entries timeUp).lookup (canonical cs) v = lookupIn sources (canonical cs) v

/-- **C30** if no path is a folder in one source and something else in another one: for every depth limit, entry limit
and clock, a lookup finds what it finds without the cache (`list` and `versions` do not use it). Missing from the full
claim: sources that disagree about what is a folder. -/
theorem C30_invisible_partial (sources : List Source) (maxDepth : Nat) (entries : Int) (timeUp : Nat → Bool)
    (htree : ∀ s ∈ sources, s.immutable = true → Tree s) (hconf : NoConflict sources)
    (cs : List Str) (hne : cs ≠ []) (hcs : ∀ n ∈ cs, IsName n) (v : Int) :
    (Union.new sources maxDepth entries timeUp).lookup (canonical cs) v = lookupIn sources (canonical cs) v := by
  have hsrc : (Union.new sources maxDepth entries timeUp).sources = sources := by unfold Union.new; split <;> rfl
  unfold Union.lookup
  rw [if_neg (stripSlashes_canonical cs hne hcs), hsrc]
  apply lookupIn_filter
  intro s hs hk hhas
  rw [Bool.or_eq_false_iff, Bool.not_eq_false'] at hk
  have hm := cached_has sources maxDepth entries timeUp htree hconf cs hne hcs s hs hk.1 hhas
  rw [List.any_eq_false] at hk
  exact hk.2 s hm (by simp)

/-- A source that only has files and folders in its root folder, given with their modes, in one version. -/
def flatSource (id : Nat) (d : Dict Str Nat) : Source where
  id := id
  immutable := true
  lookup p v :=
    if v = 0 ∨ v = 1 then
      if p = ['/'] then some (rootInfo [.own 0]) else
        match p with
        | '/' :: n => (d.get? n).map (fun m => ⟨m, [], 0, [.own 0]⟩)
        | _ => none
    else none
  versions p :=
    if p = ['/'] then 1 else
      match p with
      | '/' :: n => if (d.get? n).isSome then 1 else 0
      | _ => 0
  list p := if p = ['/'] then some (.dict (d.map (fun nm => (nm.1, ⟨nm.2, [], 0, [.own 0]⟩)))) else none
  listMode p := if p = ['/'] then some (.dict d) else none

theorem flatSource_lookup (id : Nat) (d : Dict Str Nat) (p : Str) (v : Int) :
    (flatSource id d).lookup p v = pick (((flatSource id d).lookup p 0).toList) v := by
  have h0 : ∀ o : Option FileInfo, (if v = 0 ∨ v = 1 then o else none) = pick o.toList v := by
    intro o
    unfold pick
    cases o with
    | none => simp
    | some i =>
      by_cases h : v = 0 ∨ v = 1
      · rw [if_pos h]
        rcases h with rfl | rfl <;> rfl
      · rw [if_neg h]
        split
        · rw [List.getElem?_eq_none]; simp; omega
        · rw [List.getElem?_eq_none]; simp; omega
  exact h0 _

theorem flatSource_versioned (id : Nat) (d : Dict Str Nat) :
    Versioned (flatSource id d) (fun p => ((flatSource id d).lookup p 0).toList) := by
  intro p
  refine ⟨?_, flatSource_lookup id d p⟩
  unfold flatSource
  simp only [true_or, if_true]
  split
  · rfl
  · split
    · next n _ => cases d.get? n <;> rfl
    · rfl

theorem flatSource_tree (id : Nat) (d : Dict Str Nat) (hd : ∀ n ∈ d.keys, IsName n) : Tree (flatSource id d) where
  names := by
    intro p n hn
    unfold Source.namesIn flatSource at hn
    simp only at hn
    by_cases hp : p = ['/']
    · rw [if_pos hp] at hn
      simp only [Listing.keys, Dict.keys, List.map_map] at hn
      exact hd n hn
    · rw [if_neg hp] at hn
      cases hn
  has := by
    intro cs n hn hhas
    have hsome : ∃ m, (canonical (cs ++ [n])) = '/' :: m ∧ (d.get? m).isSome := by
      have hne : canonical (cs ++ [n]) ≠ ['/'] := fun e => by
        have := canonical_inj (cs ++ [n]) [] hn (by simp) e
        simp at this
      refine ⟨join '/' (cs ++ [n]), canonical_eq _, ?_⟩
      unfold Has flatSource at hhas
      rw [canonical_eq] at hne hhas
      simp only [if_neg hne] at hhas
      rcases hhas with h | ⟨v, h⟩
      · split at h
        · assumption
        · exact absurd rfl h
      · split at h
        · cases hg : d.get? (join '/' (cs ++ [n])) with
          | none => rw [hg] at h; exact absurd rfl h
          | some _ => rfl
        · exact absurd rfl h
    obtain ⟨m, hm1, hm2⟩ := hsome
    have hname := hd m ((Dict.mem_keys_iff d m).mpr hm2)
    have : cs ++ [n] = [m] := canonical_inj _ _ hn (by simpa using hname) (by rw [hm1]; rfl)
    cases cs with
    | cons c cs => simp at this
    | nil =>
      simp only [List.nil_append, List.cons.injEq, and_true] at this
      subst this
      refine ⟨?_, ?_⟩
      · intro pre k hp
        have := hp.length_le
        simp at this
      · unfold Source.namesIn flatSource
        simp only [canonical, if_true, Listing.keys, Dict.keys, List.map_map]
        exact (Dict.mem_keys_iff d n).mpr hm2

/-- The folder `x` in the first source, the file `x` in the second one. -/
def demoUnion : List Source := [flatSource 0 [(['x'], 0o40755)], flatSource 1 [(['x'], 0o100644)]]

theorem isName_x : IsName ['x'] := by unfold IsName; decide

theorem demoUnion_identified : Identified demoUnion := by
  intro s hs t ht h
  simp only [demoUnion, List.mem_cons, List.not_mem_nil, or_false] at hs ht
  rcases hs with rfl | rfl <;> rcases ht with rfl | rfl <;> first | rfl | exact absurd h (by decide)

/-- **C30 is violated by the code**: if a path is a folder in one source and a file in a later one, the cache hides the
file. -/
theorem C30_violated : ¬ C30_statement := by
  intro h
  have := h demoUnion 1024 100000 (fun _ => false) [['x']] 0 demoUnion_identified (by
    intro s hs
    simp only [demoUnion, List.mem_cons, List.not_mem_nil, or_false] at hs
    rcases hs with rfl | rfl
    · exact flatSource_tree _ _ (by simpa [Dict.keys] using isName_x)
    · exact flatSource_tree _ _ (by simpa [Dict.keys] using isName_x)) (by simp) (by simpa using isName_x)
  revert this
  decide +kernel

/-- A case of `C30_invisible_partial` where the cache has entries: the folder `x` in both sources. -/
example : NoConflict [flatSource 0 [(['x'], 0o40755)], flatSource 1 [(['x'], 0o40755)]] ∧
    (Union.new [flatSource 0 [(['x'], 0o40755)], flatSource 1 [(['x'], 0o40755)]] 1024 100000 (fun _ => false)).depth = 1 := by
  refine ⟨?_, by decide +kernel⟩
  intro s hs t ht p htd hhas
  have e : ∀ i j, (flatSource i [(['x'], 0o40755)]).isDirAt p = (flatSource j [(['x'], 0o40755)]).isDirAt p := fun _ _ => rfl
  simp only [List.mem_cons, List.not_mem_nil, or_false] at hs ht
  rcases hs with rfl | rfl <;> rcases ht with rfl | rfl <;> exact htd

/-- The full statement of C29. -/
def C29_statement : Prop :=
  ∀ (sources : List Source) (vs : Source → Str → List FileInfo) (maxDepth : Nat) (entries : Int) (timeUp : Nat → Bool)
    (cs : List Str) (v : Int), Identified sources → (∀ s ∈ sources, Tree s) → (∀ s ∈ sources, Versioned s (vs s)) →
    cs ≠ [] → (∀ n ∈ cs, IsName n) →
    (Union.new sources maxDepth entries timeUp).lookup (canonical cs) v =
      pick (sources.flatMap (fun s => (vs s (canonical cs)).map (fun i => i.push (.source s.id)))) v

/-- **C29 is violated by the code**: a lookup of `x` finds the folder of the first source instead of the file of the
last one. -/
theorem C29_violated : ¬ C29_statement := by
  intro h
  have := h demoUnion (fun s p => (s.lookup p 0).toList) 1024 100000 (fun _ => false) [['x']] 0 demoUnion_identified (by
    intro s hs
    simp only [demoUnion, List.mem_cons, List.not_mem_nil, or_false] at hs
    rcases hs with rfl | rfl
    · exact flatSource_tree _ _ (by simpa [Dict.keys] using isName_x)
    · exact flatSource_tree _ _ (by simpa [Dict.keys] using isName_x)) (by
    intro s hs
    simp only [demoUnion, List.mem_cons, List.not_mem_nil, or_false] at hs
    rcases hs with rfl | rfl <;> exact flatSource_versioned _ _) (by simp) (by simpa using isName_x)
  revert this
  decide +kernel

/-- **C29** if the sources agree about what is a folder: the versions of a path are those of the first source, then
those of the second one and so on, 1 is the oldest one, 0 is the newest one of the last source that has one, -1 the one
before, and other numbers find nothing. Missing from the full claim: sources that disagree. -/
theorem C29_versions_partial (sources : List Source) (vs : Source → Str → List FileInfo) (maxDepth : Nat) (entries : Int)
    (timeUp : Nat → Bool) (htree : ∀ s ∈ sources, s.immutable = true → Tree s)
    (hconf : NoConflict sources) (hv : ∀ s ∈ sources, Versioned s (vs s)) (cs : List Str) (hne : cs ≠ [])
    (hcs : ∀ n ∈ cs, IsName n) (v : Int) :
    (Union.new sources maxDepth entries timeUp).lookup (canonical cs) v =
      pick (sources.flatMap (fun s => (vs s (canonical cs)).map (fun i => i.push (.source s.id)))) v := by
  rw [C30_invisible_partial sources maxDepth entries timeUp htree hconf cs hne hcs]
  exact lookupIn_eq _ vs sources v hv

/-- **C29**: the version count is the sum, also if the sources disagree. -/
theorem C29_count (sources : List Source) (vs : Source → Str → List FileInfo) (maxDepth : Nat) (entries : Int)
    (timeUp : Nat → Bool) (hv : ∀ s ∈ sources, Versioned s (vs s)) (path : Str) :
    (Union.new sources maxDepth entries timeUp).versions path = (sources.flatMap (fun s => vs s path)).length := by
  have hsrc : (Union.new sources maxDepth entries timeUp).sources = sources := by unfold Union.new; split <;> rfl
  unfold Union.versions
  rw [hsrc, List.length_flatMap]
  congr 1
  exact List.map_congr_left (fun s hs => (hv s hs path).1)

/-- **C29**, the newest version: without a version number, the entry comes from the last source that has the path. -/
theorem C29_last_wins_partial (before after : List Source) (s : Source) (i : FileInfo) (vs : Source → Str → List FileInfo)
    (maxDepth : Nat) (entries : Int) (timeUp : Nat → Bool)
    (htree : ∀ t ∈ before ++ s :: after, t.immutable = true → Tree t)
    (hconf : NoConflict (before ++ s :: after)) (hv : ∀ t ∈ before ++ s :: after, Versioned t (vs t)) (cs : List Str)
    (hne : cs ≠ []) (hcs : ∀ n ∈ cs, IsName n) (hs : s.lookup (canonical cs) 0 = some i)
    (hafter : ∀ t ∈ after, t.lookup (canonical cs) 0 = none) :
    (Union.new (before ++ s :: after) maxDepth entries timeUp).lookup (canonical cs) 0 = some (i.push (.source s.id)) := by
  rw [C29_versions_partial _ vs maxDepth entries timeUp htree hconf hv cs hne hcs]
  have hnil : after.flatMap (fun t => (vs t (canonical cs)).map (fun i => i.push (.source t.id))) = [] := by
    rw [List.flatMap_eq_nil_iff]
    intro t ht
    have := hafter t ht
    rw [(hv t (by simp [ht]) _).2] at this
    simp only [pick, Int.le_refl, if_true, Int.neg_zero, Int.toNat_zero] at this
    rw [List.getElem?_eq_none_iff, List.length_reverse] at this
    rw [List.length_eq_zero_iff.mp (show (vs t (canonical cs)).length = 0 by omega), List.map_nil]
  have h0 := (hv s (by simp) (canonical cs)).2 0
  rw [hs] at h0
  rw [List.flatMap_append, List.flatMap_cons, hnil, List.append_nil]
  unfold pick at h0 ⊢
  simp only [Int.le_refl, if_true, Int.neg_zero, Int.toNat_zero] at h0 ⊢
  rw [List.reverse_append, ← List.map_reverse]
  cases hr : (vs s (canonical cs)).reverse with
  | nil => rw [hr] at h0; cases h0
  | cons a as =>
    rw [hr] at h0
    simp only [List.getElem?_cons_zero, Option.some.injEq] at h0
    rw [h0]
    rfl

/-! ## C31: listings -/

theorem mergeListing_keys {V : Type} (a b : Listing V) :
    ∃ l, mergeListing (some a) (some b) = some l ∧ ∀ n, n ∈ l.keys ↔ n ∈ a.keys ∨ n ∈ b.keys := by
  cases a <;> cases b
  · exact ⟨_, rfl, fun n => List.mem_append⟩
  · exact ⟨_, rfl, fun n => List.mem_append⟩
  · exact ⟨_, rfl, fun n => List.mem_append⟩
  · refine ⟨_, rfl, fun n => ?_⟩
    show n ∈ Dict.keys _ ↔ _
    rw [Dict.mem_keys_update]
    exact Or.comm

theorem fold_mergeListing {V : Type} (f : Source → Option (Listing V)) (ss : List Source) : ∀ acc : Option (Listing V),
    (ss.foldl (fun files s => mergeListing files (f s)) acc = none ↔ acc = none ∧ ∀ s ∈ ss, f s = none) ∧
    ∀ l, ss.foldl (fun files s => mergeListing files (f s)) acc = some l →
      ∀ n, n ∈ l.keys ↔ (∃ a, acc = some a ∧ n ∈ a.keys) ∨ ∃ s ∈ ss, ∃ a, f s = some a ∧ n ∈ a.keys := by
  induction ss with
  | nil =>
    intro acc
    refine ⟨by simp, ?_⟩
    intro l hl n
    simp only [List.foldl_nil] at hl
    simp [hl]
  | cons s ss ih =>
    intro acc
    rw [List.foldl_cons]
    obtain ⟨h1, h2⟩ := ih (mergeListing acc (f s))
    cases acc with
    | none =>
      rw [show mergeListing none (f s) = f s from rfl] at h1 h2 ⊢
      refine ⟨by rw [h1]; simp, ?_⟩
      intro l hl n
      rw [h2 l hl n]
      simp
    | some a =>
      cases hf : f s with
      | none =>
        rw [hf] at h1 h2
        have e : mergeListing (some a) none = some a := by cases a <;> rfl
        rw [e] at h1 h2 ⊢
        refine ⟨by rw [h1]; simp [hf], ?_⟩
        intro l hl n
        rw [h2 l hl n]
        simp [hf]
      | some b =>
        rw [hf] at h1 h2
        obtain ⟨c, hc1, hc2⟩ := mergeListing_keys a b
        rw [hc1] at h1 h2 ⊢
        refine ⟨by rw [h1]; simp, ?_⟩
        intro l hl n
        rw [h2 l hl n]
        simp only [Option.some.injEq, exists_eq_left', List.mem_cons, exists_eq_or_imp, hf, hc2, or_assoc]

/-- **C31**: a union lists exactly the names that are listed by one of the sources, and nothing is listed exactly if no
source has the folder. The same holds for `list_mode`. -/
theorem C31_names (u : Union) (path : Str) :
    ((u.list path = none ↔ ∀ s ∈ u.sources, s.list path = none) ∧
      ∀ l, u.list path = some l → ∀ n, n ∈ l.keys ↔ ∃ s ∈ u.sources, ∃ a, s.list path = some a ∧ n ∈ a.keys) ∧
    ((u.listMode path = none ↔ ∀ s ∈ u.sources, s.listMode path = none) ∧
      ∀ l, u.listMode path = some l → ∀ n, n ∈ l.keys ↔ ∃ s ∈ u.sources, ∃ a, s.listMode path = some a ∧ n ∈ a.keys) := by
  have key : ∀ {V : Type} (f : Source → Option (Listing V)),
      (u.sources.reverse.foldl (fun files s => mergeListing files (f s)) none = none ↔ ∀ s ∈ u.sources, f s = none) ∧
      ∀ l, u.sources.reverse.foldl (fun files s => mergeListing files (f s)) none = some l →
        ∀ n, n ∈ l.keys ↔ ∃ s ∈ u.sources, ∃ a, f s = some a ∧ n ∈ a.keys := by
    intro V f
    obtain ⟨h1, h2⟩ := fold_mergeListing f u.sources.reverse none
    refine ⟨by rw [h1]; simp, ?_⟩
    intro l hl n
    rw [h2 l hl n]
    simp
  exact ⟨key (fun s => s.list path), key (fun s => s.listMode path)⟩

/-- The metadata of a name in a listing. -/
def Listing.get? {V : Type} : Listing V → Str → Option V
  | .names _, _ => none
  | .dict d, n => Dict.get? d n

/-- The full statement of C31, metadata: what is shown for a name is what a lookup in the last source that has it gives
(its mode is compared). -/
def C31_statement : Prop :=
  ∀ (sources : List Source) (maxDepth : Nat) (entries : Int) (timeUp : Nat → Bool) (cs : List Str) (n : Str) (i : FileInfo)
    (l : Listing FileInfo), Identified sources → (∀ s ∈ sources, Tree s) → (∀ x ∈ cs ++ [n], IsName x) →
    (Union.new sources maxDepth entries timeUp).list (canonical cs) = some l → l.get? n = some i →
    ((lookupIn sources (canonical (cs ++ [n])) 0).map (fun f => f.mode)) = some i.mode

/-- **C31 is violated by the code**: for the file `x` of the last source that hides a file `x` with another mode, the
listing shows the mode of the hidden file. -/
theorem C31_violated : ¬ C31_statement := by
  intro h
  have := h [flatSource 0 [(['x'], 0o100600)], flatSource 1 [(['x'], 0o100644)]] 1024 100000 (fun _ => false) [] ['x']
    ⟨0o100600, [], 0, [.own 0]⟩ (.dict [(['x'], ⟨0o100600, [], 0, [.own 0]⟩)]) (by
      intro s hs t ht h
      simp only [List.mem_cons, List.not_mem_nil, or_false] at hs ht
      rcases hs with rfl | rfl <;> rcases ht with rfl | rfl <;> first | rfl | exact absurd h (by decide)) (by
    intro s hs
    simp only [List.mem_cons, List.not_mem_nil, or_false] at hs
    rcases hs with rfl | rfl
    · exact flatSource_tree _ _ (by simpa [Dict.keys] using isName_x)
    · exact flatSource_tree _ _ (by simpa [Dict.keys] using isName_x)) (by simpa using isName_x) rfl rfl
  revert this
  decide +kernel

theorem fold_mergeListing_get {V : Type} (f : Source → Option (Listing V)) (n : Str)
    (ss : List Source) (hnd : ∀ s ∈ ss, ∀ d, f s = some (.dict d) → d.keys.Nodup) : ∀ (acc : Option (Listing V)) (l : Listing V) (x : V),
    ss.foldl (fun files s => mergeListing files (f s)) acc = some l → l.get? n = some x →
    (∃ s ∈ ss, ∃ d, f s = some (.dict d) ∧ Dict.get? d n = some x) ∨ ∃ d, acc = some (.dict d) ∧ Dict.get? d n = some x := by
  induction ss with
  | nil =>
    intro acc l x h hx
    refine .inr ?_
    cases l with
    | names l => cases hx
    | dict d => exact ⟨d, h, hx⟩
  | cons s ss ih =>
    intro acc l x h hx
    rw [List.foldl_cons] at h
    rcases ih (fun s hs => hnd s (List.mem_cons_of_mem _ hs)) _ l x h hx with ⟨t, ht, h1⟩ | ⟨d, hd, h1⟩
    · exact .inl ⟨t, List.mem_cons_of_mem _ ht, h1⟩
    · cases acc with
      | none => exact .inl ⟨s, by simp, d, hd, h1⟩
      | some a =>
        cases hf : f s with
        | none =>
          rw [hf] at hd
          have e : mergeListing (some a) none = some a := by cases a <;> rfl
          rw [e] at hd
          exact .inr ⟨d, hd, h1⟩
        | some b =>
          rw [hf] at hd
          cases a <;> cases b
          · cases hd
          · cases hd
          · cases hd
          · next a b =>
            simp only [mergeListing, Option.some.injEq, Listing.dict.injEq] at hd
            rw [← hd, Dict.get?_update _ (hnd s (by simp) b hf)] at h1
            cases hb : Dict.get? b n with
            | some y => rw [hb] at h1; exact .inl ⟨s, by simp, b, hf, by rw [hb]; exact h1⟩
            | none => rw [hb] at h1; exact .inr ⟨a, rfl, h1⟩

/-- **C31**, what holds of the metadata: it is what one of the sources lists for the name, therefore the right one if
only one source has it. Missing from the full claim: names that several sources have. -/
theorem C31_metadata_partial (u : Union) (path n : Str) (l : Listing FileInfo) (i : FileInfo)
    (hnd : ∀ s ∈ u.sources, ∀ d, s.list path = some (.dict d) → d.keys.Nodup)
    (hl : u.list path = some l) (hi : l.get? n = some i) :
    ∃ s ∈ u.sources, ∃ d, s.list path = some (.dict d) ∧ Dict.get? d n = some i := by
  rcases fold_mergeListing_get (fun s => s.list path) n u.sources.reverse
      (fun s hs => hnd s (List.mem_reverse.mp hs)) none l i hl hi with ⟨s, hs, h⟩ | ⟨d, hd, -⟩
  · exact ⟨s, List.mem_reverse.mp hs, h⟩
  · cases hd

example : ((Union.new demoUnion 1024 100000 (fun _ => false)).list ['/']).map (fun l => l.keys) = some [['x']] := by decide +kernel

end Verif.Compose
