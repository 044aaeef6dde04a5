import Verif.Index.Direct

/-!
# C221: whether indexes are kept, replaced or recreated if necessary
(ratarmount/cli.py:259-269, ratarmount/CLIHelpers.py:222-258, core/ratarmountcore/mountsource/SQLiteIndexMountSource.py:59-92,
core/ratarmountcore/SQLiteIndex.py:361-371, 744-781, 1338-1384, core/ratarmountcore/mountsource/factory.py:333-384)

The files of the host are those of `Verif.Direct`. What a backend thinks of an index is an arbitrary function, and so is the creation of an index (for
it see C174, C175 and C176).

Simplified: indexes that are compressed are not extracted (see C120). What is written into an index that was loaded is in `Verif.Index.Loaded`. TAR files
that were appended to are in `Verif.Fuse.TarLife`.
-/

namespace Verif.Recreate

open Verif.Py Verif.Index Verif.Direct

/-! ## the command line -/

/-- The arguments that set `recreate_index` (cli.py:259-269): `-c`, `--no-recreate-index` and `--recreate-index-on-errors`. -/
inductive Flag where
  | recreate
  | keep
  | onErrors
  deriving DecidableEq

/-- `argparse` stores each argument over the one before; the default is `None` (cli.py:259-269). -/
def parse (flags : List Flag) : Option Bool :=
  flags.foldl (fun _ f => match f with | .recreate => some true | .keep => some false | .onErrors => none) none

/-- The two options that are made of it (CLIHelpers.py:226-227). -/
structure Options where
  clear : Bool
  readOnly : Bool
  deriving DecidableEq

/-- `parsed_args_to_options` (CLIHelpers.py:222-258) for the two options (CLIHelpers.py:226-227). -/
def options (recreateIndex : Option Bool) : Options where
  clear := recreateIndex.getD false
  readOnly := !(recreateIndex.getD false) && recreateIndex.isSome

/-! ## opening an archive -/

/-- A backend that needs an index for the archive (SQLiteIndexMountSource.py:59-92): the possible paths of the index, what it thinks of an index on the
host and of one at a URL, and what happens if an index is created (SQLiteIndex.py:757-775). -/
structure Archive where
  paths : List Str
  load : File → LoadResult
  remote : Str → LoadResult
  create : Host → Option PyErr × Host

/-- The index that is used in the end (SQLiteIndex.py:744-781): one that was there or a new one. -/
inductive Used where
  | stored (path : Str)
  | made
  deriving DecidableEq

/-- `clear_indexes` (SQLiteIndex.py:361-364); an `OSError` of `os.remove` is raised. -/
def clearIndexes (host : Host) : List Str → Option PyErr × Host
  | [] => (none, host)
  | p :: ps =>
    if p = [] then clearIndexes host ps
    else
      match Dict.get? host p with
      | none => clearIndexes host ps
      | some f => if f.removable then clearIndexes (Dict.del host p) ps else (some (.os 13), host)

/-- What `_load_index` (SQLiteIndex.py:1175-1336) gives for a path: remote indexes are downloaded, files that are missing are skipped. -/
def result (a : Archive) (host : Host) (path : Str) : LoadResult :=
  if contains "://".toList path then a.remote path
  else
    match Dict.get? host path with
    | none => .absent
    | some f => a.load f

/-- Whether `os.remove` works (SQLiteIndex.py:1376). -/
def removable (host : Host) (path : Str) : Bool := ((Dict.get? host path).map (·.removable)).getD false

/-- `open_existing` (SQLiteIndex.py:366-371) with `_try_load_index` (SQLiteIndex.py:1338-1384): the index that was loaded. -/
def openExisting (a : Archive) (readOnly : Bool) (host : Host) : List Str → Except PyErr (Option Str) × Host
  | [] => (.ok none, host)
  | p :: ps =>
    match tryLoadIndex readOnly p (result a host p) (removable host p) with
    | (.raises, removed) => (.error .ratarmount, removeAll host removed)
    | (.returns true, removed) => (.ok (some p), removeAll host removed)
    | (.returns false, removed) => openExisting a readOnly (removeAll host removed) ps

/-- `finalize_index` (SQLiteIndex.py:744-781), given the index that was loaded. -/
def finalizeIndex (a : Archive) (readOnly : Bool) (loaded : Option Str) (host : Host) : Except PyErr Used × Host :=
  match loaded with
  | some p => (.ok (.stored p), host)
  | none =>
    if readOnly then (.error .invalidIndex, host)
    else
      match a.create host with
      | (some e, host') => (.error e, host')
      | (none, host') => (.ok .made, host')

/-- Opening an archive with a backend that needs an index (SQLiteIndexMountSource.py:59-88, SQLiteIndex.py:744-781). -/
def openArchive (a : Archive) (o : Options) (host : Host) : Except PyErr Used × Host :=
  match (if o.clear then clearIndexes host a.paths else (none, host)) with
  | (some e, host) => (.error e, host)
  | (none, host) =>
    match openExisting a o.readOnly host a.paths with
    | (.error e, host) => (.error e, host)
    | (.ok loaded, host) => finalizeIndex a o.readOnly loaded host

/-- A backend (factory.py:333-370): one that needs an index, the one for indexes themselves, or one that only reads the file. -/
inductive Backend where
  | archive (a : Archive)
  | index
  | reads (mounts : Bool)

/-- What is mounted in the end (factory.py:354-359): an archive with its index, an index, or something else. -/
inductive Mounted where
  | archive (u : Used)
  | index
  | other
  deriving DecidableEq

/-- The loop of `open_mount_source` (factory.py:333-378) over the backends that fit. -/
def mount (path : Str) (o : Options) : List Backend → Host → Option Mounted × Host
  | [], host => (none, host)
  | .reads true :: _, host => (some .other, host)
  | .reads false :: bs, host => mount path o bs host
  | .index :: bs, host =>
    match mountPath host path with
    | (.ok (), host') => (some .index, host')
    | (.error _, host') => mount path o bs host'
  | .archive a :: bs, host =>
    match openArchive a o host with
    | (.ok u, host') => (some (.archive u), host')
    | (.error _, host') => mount path o bs host'

/-! ## specification -/

/-- The last of the arguments. -/
def LastIs (flags : List Flag) (f : Flag) : Prop := ∃ before, flags = before ++ [f]

/-- What a backend says to a path: a remote index is what it is, and a file that is missing is absent. -/
def says (a : Archive) (host : Host) (path : Str) (r : LoadResult) : Prop :=
  (contains "://".toList path = true ∧ a.remote path = r) ∨
    (contains "://".toList path = false ∧ ((Dict.get? host path = none ∧ r = .absent) ∨ ∃ f, Dict.get? host path = some f ∧ a.load f = r))

/-- A file that can be removed. -/
def Removable (host : Host) (path : Str) : Prop := ∃ f, Dict.get? host path = some f ∧ f.removable = true

/-- Indexes on the host that cannot be loaded and can be removed. -/
def Unusable (a : Archive) (host : Host) (path : Str) : Prop :=
  contains "://".toList path = false ∧ says a host path .failed ∧ Removable host path

/-- The first path whose index can be loaded; those before it are missing or cannot be loaded. -/
def FirstLoaded (a : Archive) (host : Host) (p : Str) : Prop :=
  ∃ before after, a.paths = before ++ p :: after ∧ says a host p .loaded ∧ ∀ q ∈ before, says a host q .absent ∨ says a host q .failed

/-- C221 as claimed: with `--no-recreate-index` as the last of the arguments, no file is created, changed or removed, whatever the file is mounted with,
and no index is made. -/
def C221_statement : Prop :=
  ∀ (flags : List Flag) (path : Str) (bs : List Backend) (host : Host), LastIs flags .keep →
    (mount path (options (parse flags)) bs host).2 = host ∧ (mount path (options (parse flags)) bs host).1 ≠ some (.archive .made)

/-! ## proofs -/

theorem result_says (a : Archive) (host : Host) (path : Str) (r : LoadResult) : result a host path = r ↔ says a host path r := by
  unfold result says
  cases contains "://".toList path with
  | true => simp
  | false =>
    cases Dict.get? host path with
    | none => simp [eq_comm]
    | some f => simp

theorem removable_iff (host : Host) (path : Str) : removable host path = true ↔ ∃ f, Dict.get? host path = some f ∧ f.removable = true := by
  unfold removable
  cases Dict.get? host path with
  | none => simp
  | some f => simp

theorem parse_last (flags : List Flag) (f : Flag) (h : LastIs flags f) :
    parse flags = match f with | .recreate => some true | .keep => some false | .onErrors => none := by
  obtain ⟨before, rfl⟩ := h
  cases f <;> simp [parse]

/-- **C221** The last of the arguments decides, in any order and number; without one it is as with `--recreate-index-on-errors`. -/
theorem C221_options (flags : List Flag) :
    (flags = [] → options (parse flags) = ⟨false, false⟩) ∧ (LastIs flags .recreate → options (parse flags) = ⟨true, false⟩) ∧
      (LastIs flags .keep → options (parse flags) = ⟨false, true⟩) ∧ (LastIs flags .onErrors → options (parse flags) = ⟨false, false⟩) := by
  refine ⟨?_, ?_, ?_, ?_⟩
  · rintro rfl; rfl
  · intro h; rw [parse_last flags _ h]; rfl
  · intro h; rw [parse_last flags _ h]; rfl
  · intro h; rw [parse_last flags _ h]; rfl

theorem tryLoad_readOnly (p : Str) (r : LoadResult) (b : Bool) :
    tryLoadIndex true p r b = (match r with | .loaded => .returns true | .mismatch => .raises | _ => .returns false, []) := by
  cases r <;> rfl

theorem openExisting_readOnly (a : Archive) (host : Host) : ∀ (ps : List Str), (openExisting a true host ps).2 = host ∧
    ∀ x, (openExisting a true host ps).1 = .ok x → (∀ p, x = some p → ∃ before after, ps = before ++ p :: after ∧ result a host p = .loaded ∧
      ∀ q ∈ before, result a host q = .absent ∨ result a host q = .failed) ∧
      (x = none → ∀ q ∈ ps, result a host q = .absent ∨ result a host q = .failed) := by
  intro ps
  induction ps with
  | nil =>
    refine ⟨rfl, ?_⟩
    intro x h
    cases h
    exact ⟨fun p e => (by cases e), fun _ q hq => (by cases hq)⟩
  | cons p ps ih =>
    rw [openExisting, tryLoad_readOnly]
    have next : result a host p = .absent ∨ result a host p = .failed → (openExisting a true host ps).2 = host ∧
        ∀ x, (openExisting a true host ps).1 = .ok x → (∀ q, x = some q → ∃ before after, p :: ps = before ++ q :: after ∧ result a host q = .loaded ∧
          ∀ q ∈ before, result a host q = .absent ∨ result a host q = .failed) ∧
          (x = none → ∀ q ∈ p :: ps, result a host q = .absent ∨ result a host q = .failed) := by
      intro hp
      refine ⟨ih.1, ?_⟩
      intro x h
      obtain ⟨h1, h2⟩ := ih.2 x h
      refine ⟨?_, ?_⟩
      · intro q hq
        obtain ⟨b, t, e, hl, hb⟩ := h1 q hq
        refine ⟨p :: b, t, by rw [e]; rfl, hl, ?_⟩
        intro q' hq'
        rcases List.mem_cons.mp hq' with rfl | hq'
        · exact hp
        · exact hb q' hq'
      · intro hx q hq
        rcases List.mem_cons.mp hq with rfl | hq
        · exact hp
        · exact h2 hx q hq
    cases hr : result a host p with
    | loaded =>
      refine ⟨rfl, ?_⟩
      intro x h
      cases h
      refine ⟨?_, fun e => by cases e⟩
      intro q e
      cases e
      exact ⟨[], ps, rfl, hr, fun q hq => by cases hq⟩
    | mismatch =>
      refine ⟨rfl, ?_⟩
      intro x h
      cases h
    | absent => exact next (.inl hr)
    | failed => exact next (.inr hr)

/-- **C221** With `--no-recreate-index` a backend changes no file, makes no index, and uses the first index that it can load, as it is. -/
theorem C221_keep (flags : List Flag) (hf : LastIs flags .keep) (a : Archive) (host : Host) :
    (openArchive a (options (parse flags)) host).2 = host ∧
      ∀ u, (openArchive a (options (parse flags)) host).1 = .ok u → ∃ p, u = .stored p ∧ FirstLoaded a host p := by
  rw [(C221_options flags).2.2.1 hf]
  obtain ⟨h1, h2⟩ := openExisting_readOnly a host a.paths
  unfold openArchive
  simp only [if_neg (show ¬ (false = true) by decide)]
  cases hx : openExisting a true host a.paths with
  | mk r host' =>
    rw [hx] at h1 h2
    simp only at h1 h2
    subst h1
    cases r with
    | error e => exact ⟨rfl, fun u h => by cases h⟩
    | ok x =>
      cases x with
      | none => exact ⟨rfl, fun u h => by cases h⟩
      | some p =>
        refine ⟨rfl, ?_⟩
        intro u h
        cases h
        obtain ⟨b, t, e1, e2, e3⟩ := (h2 _ rfl).1 p rfl
        simp only [result_says] at e2 e3
        exact ⟨p, rfl, b, t, e1, e2, e3⟩

/-- **C221** With `--no-recreate-index` a backend mounts the archive if there is an index that can be loaded, before one of another backend, and fails
otherwise. -/
theorem C221_keep_exact (flags : List Flag) (hf : LastIs flags .keep) (a : Archive) (host : Host) (p : Str) :
    (openArchive a (options (parse flags)) host).1 = .ok (.stored p) ↔ FirstLoaded a host p := by
  refine ⟨?_, ?_⟩
  · intro h
    obtain ⟨p', e, h'⟩ := (C221_keep flags hf a host).2 _ h
    cases e
    exact h'
  · rintro ⟨before, after, e, hl, hb⟩
    simp only [← result_says] at hl hb
    rw [(C221_options flags).2.2.1 hf]
    have : ∀ before : List Str, (∀ q ∈ before, result a host q = .absent ∨ result a host q = .failed) →
        openExisting a true host (before ++ p :: after) = (.ok (some p), host) := by
      intro before hb
      induction before with
      | nil => rw [List.nil_append, openExisting, tryLoad_readOnly, hl]; rfl
      | cons q qs ih =>
        rw [List.cons_append, openExisting, tryLoad_readOnly]
        have := ih (fun q' h => hb q' (List.mem_cons_of_mem _ h))
        rcases hb q List.mem_cons_self with h | h
        · rw [h]; exact this
        · rw [h]; exact this
    unfold openArchive
    simp only [if_neg (show ¬ (false = true) by decide)]
    rw [e, this before hb]
    rfl

/-- **C221** With `--no-recreate-index` no file is created, changed or removed and no index is made, unless the file itself is tried as an index. -/
theorem C221_keep_partial (flags : List Flag) (hf : LastIs flags .keep) (path : Str) (host : Host) : ∀ (bs : List Backend), (∀ b ∈ bs, b ≠ .index) →
    (mount path (options (parse flags)) bs host).2 = host ∧ (mount path (options (parse flags)) bs host).1 ≠ some (.archive .made) := by
  intro bs
  induction bs with
  | nil => intro _; exact ⟨rfl, fun h => by cases h⟩
  | cons b bs ih =>
    intro hb
    have ih := ih (fun b h => hb b (List.mem_cons_of_mem _ h))
    cases b with
    | index => exact absurd rfl (hb _ List.mem_cons_self)
    | reads m =>
      cases m with
      | true => exact ⟨rfl, fun h => by cases h⟩
      | false => exact ih
    | archive a =>
      obtain ⟨h1, h2⟩ := C221_keep flags hf a host
      rw [mount]
      cases hx : openArchive a (options (parse flags)) host with
      | mk r host' =>
        rw [hx] at h1 h2
        simp only at h1 h2
        subst h1
        cases r with
        | error e => exact ih
        | ok u =>
          refine ⟨rfl, ?_⟩
          intro h
          cases h
          obtain ⟨p, e, -⟩ := h2 _ rfl
          cases e

/-! ### -c -/

theorem get_del {host : Host} (hn : (Dict.keys host).Nodup) (p q : Str) : Dict.get? (Dict.del host p) q = if p = q then none else Dict.get? host q :=
  Dict.get?_del host hn p q

theorem clear_spec : ∀ (ps : List Str) (host : Host), (Dict.keys host).Nodup → Dict.get? host [] = none → (∀ p ∈ ps, ∀ f, Dict.get? host p = some f → f.removable = true) →
    ∃ host', clearIndexes host ps = (none, host') ∧ (Dict.keys host').Nodup ∧ ∀ q, Dict.get? host' q = if q ∈ ps then none else Dict.get? host q := by
  intro ps
  induction ps with
  | nil => intro host hn _ _; exact ⟨host, rfl, hn, fun q => by simp⟩
  | cons p ps ih =>
    intro host hn hne hr
    rw [clearIndexes]
    cases hg : Dict.get? host p with
    | none =>
      obtain ⟨host', h1, h2, h3⟩ := ih host hn hne (fun q h => hr q (List.mem_cons_of_mem _ h))
      refine ⟨host', by split <;> exact h1, h2, ?_⟩
      intro q
      rw [h3 q]
      by_cases e : q = p
      · subst e
        simp [hg]
      · simp [e]
    | some f =>
      simp only
      rw [if_neg (by rintro rfl; rw [hne] at hg; cases hg), if_pos (hr p List.mem_cons_self f hg)]
      obtain ⟨host', h1, h2, h3⟩ := ih (Dict.del host p) (Dict.nodup_del host hn p) (by rw [get_del hn, hne]; split <;> rfl) (by
        intro q hq f' hf'
        rw [get_del hn] at hf'
        split at hf'
        · cases hf'
        · exact hr q (List.mem_cons_of_mem _ hq) f' hf')
      refine ⟨host', h1, h2, ?_⟩
      intro q
      rw [h3 q, get_del hn]
      by_cases e : q = p
      · subst e
        simp
      · simp [e, Ne.symm e]

theorem openExisting_absent (a : Archive) (ro : Bool) (host : Host) : ∀ (ps : List Str), (∀ p ∈ ps, result a host p = .absent) →
    openExisting a ro host ps = (.ok none, host) := by
  intro ps
  induction ps with
  | nil => intro _; rfl
  | cons p ps ih =>
    intro h
    rw [openExisting, h p List.mem_cons_self]
    exact ih (fun q hq => h q (List.mem_cons_of_mem _ hq))

/-- **C221** With `-c` all indexes at the possible paths are deleted, and a new one is made, whatever was stored; nothing else is deleted. -/
theorem C221_recreate (flags : List Flag) (hf : LastIs flags .recreate) (a : Archive) (host : Host) (hn : (Dict.keys host).Nodup)
    (h0 : Dict.get? host [] = none) (hp : ∀ p ∈ a.paths, contains "://".toList p = false) (hr : ∀ p ∈ a.paths, ∀ f, Dict.get? host p = some f → f.removable = true) :
    ∃ host', (∀ q, Dict.get? host' q = if q ∈ a.paths then none else Dict.get? host q) ∧
      openArchive a (options (parse flags)) host =
        (match (a.create host').1 with | some e => .error e | none => .ok .made, (a.create host').2) := by
  obtain ⟨host', h1, -, h3⟩ := clear_spec a.paths host hn h0 hr
  refine ⟨host', h3, ?_⟩
  rw [(C221_options flags).2.1 hf]
  unfold openArchive
  simp only [if_pos]
  rw [h1]
  simp only
  rw [openExisting_absent a false host' a.paths (by
    intro p h
    unfold result
    rw [hp p h, if_neg (by decide), h3 p, if_pos h])]
  unfold finalizeIndex
  simp only [if_neg (show ¬ (false = true) by decide)]
  cases a.create host' with
  | mk e h => cases e <;> rfl

/-! ### the default -/

/-- Indexes that cannot be loaded are removed on the way. -/
theorem openExisting_skip (a : Archive) (rest : List Str) : ∀ (before : List Str) (h : Host), (Dict.keys h).Nodup → before.Nodup →
    (∀ q ∈ before, result a h q = .absent ∨ result a h q = .failed) → ∃ h', openExisting a false h (before ++ rest) = openExisting a false h' rest ∧
      ∀ q, Dict.get? h' q = if q ∈ before ∧ contains "://".toList q = false ∧ result a h q = .failed ∧ removable h q = true then none
        else Dict.get? h q := by
  intro before
  induction before with
  | nil =>
    intro h _ _ _
    exact ⟨h, rfl, fun q => by simp⟩
  | cons x xs ih =>
    intro h hn hd hb
    have hd' := (List.nodup_cons.mp hd).2
    have hx := (List.nodup_cons.mp hd).1
    have hb' := fun q hq => hb q (List.mem_cons_of_mem x hq)
    by_cases hc : contains "://".toList x = false ∧ result a h x = .failed ∧ removable h x = true
    · obtain ⟨c1, c2, c3⟩ := hc
      have hother : ∀ q, q ≠ x → result a (Dict.del h x) q = result a h q ∧ removable (Dict.del h x) q = removable h q := by
        intro q hq
        unfold result removable
        rw [get_del hn, if_neg (Ne.symm hq)]
        exact ⟨rfl, rfl⟩
      have hmem : ∀ q ∈ xs, q ≠ x := fun q hq e => hx (e ▸ hq)
      obtain ⟨h', e1, e2⟩ := ih (Dict.del h x) (Dict.nodup_del h hn x) hd' (fun q hq => by rw [(hother q (hmem q hq)).1]; exact hb' q hq)
      refine ⟨h', ?_, ?_⟩
      · rw [List.cons_append, openExisting, c2, c3]
        unfold tryLoadIndex
        rw [c1]
        exact e1
      · intro q
        rw [e2 q, get_del hn]
        by_cases e : q = x
        · subst e
          rw [if_pos (show q ∈ q :: xs ∧ _ from ⟨List.mem_cons_self, c1, c2, c3⟩), if_pos rfl]
          split <;> rfl
        · rw [(hother q e).1, (hother q e).2]
          simp [e, Ne.symm e]
    · obtain ⟨h', e1, e2⟩ := ih h hn hd' hb'
      refine ⟨h', ?_, ?_⟩
      · rw [List.cons_append, openExisting]
        rcases hb x List.mem_cons_self with hr | hr
        · rw [hr]
          exact e1
        · rw [hr]
          unfold tryLoadIndex
          simp only
          by_cases hu : contains "://".toList x = false
          · have : removable h x = false := by
              cases hm : removable h x with
              | false => rfl
              | true => exact absurd ⟨hu, hr, hm⟩ hc
            rw [hu, this]
            exact e1
          · have : contains "://".toList x = true := by simpa using hu
            rw [this]
            exact e1
      · intro q
        rw [e2 q]
        by_cases e : q = x
        · subst e
          rw [if_neg (fun h => hx h.1), if_neg (fun h => hc h.2)]
        · simp [e]

theorem options_default (flags : List Flag) (hf : flags = [] ∨ LastIs flags .onErrors) : options (parse flags) = ⟨false, false⟩ := by
  rcases hf with hf | hf
  · exact (C221_options flags).1 hf
  · exact (C221_options flags).2.2.2 hf

/-- **C221** By default the first index that can be loaded is used as it is, and an index that could not be loaded is removed only before it. -/
theorem C221_default (flags : List Flag) (hf : flags = [] ∨ LastIs flags .onErrors) (a : Archive) (host : Host) (hn : (Dict.keys host).Nodup)
    (before after : List Str) (p : Str) (hps : a.paths = before ++ p :: after) (hd : a.paths.Nodup) (hl : says a host p .loaded)
    (hb : ∀ q ∈ before, says a host q .absent ∨ says a host q .failed) :
    ∃ host', openArchive a (options (parse flags)) host = (.ok (.stored p), host') ∧
      ∀ q, (q ∈ before ∧ Unusable a host q → Dict.get? host' q = none) ∧ (¬ (q ∈ before ∧ Unusable a host q) → Dict.get? host' q = Dict.get? host q) := by
  rw [hps] at hd
  simp only [Unusable, ← result_says, Removable, ← removable_iff] at hl hb ⊢
  obtain ⟨hd1, -, hd3⟩ := List.nodup_append.mp hd
  have hp : p ∉ before := fun hm => hd3 p hm p List.mem_cons_self rfl
  obtain ⟨host', e1, e2⟩ := openExisting_skip a (p :: after) before host hn hd1 hb
  refine ⟨host', ?_, fun q => ⟨fun h => by rw [e2 q, if_pos h], fun h => by rw [e2 q, if_neg h]⟩⟩
  have hl' : result a host' p = .loaded := by
    unfold result at hl ⊢
    rw [e2 p, if_neg (show ¬ (p ∈ before ∧ _) from fun h => hp h.1)]
    exact hl
  rw [options_default flags hf]
  unfold openArchive
  simp only [if_neg (show ¬ (false = true) by decide)]
  rw [hps, e1, openExisting, hl']
  rfl

/-- **C221** By default a new index is made if none can be loaded, after those that could not be loaded were removed. -/
theorem C221_default_made (flags : List Flag) (hf : flags = [] ∨ LastIs flags .onErrors) (a : Archive) (host : Host) (hn : (Dict.keys host).Nodup)
    (hd : a.paths.Nodup) (hb : ∀ q ∈ a.paths, says a host q .absent ∨ says a host q .failed) :
    ∃ host', openArchive a (options (parse flags)) host = (match (a.create host').1 with | some e => .error e | none => .ok .made, (a.create host').2) ∧
      ∀ q, (q ∈ a.paths ∧ Unusable a host q → Dict.get? host' q = none) ∧ (¬ (q ∈ a.paths ∧ Unusable a host q) → Dict.get? host' q = Dict.get? host q) := by
  simp only [Unusable, ← result_says, Removable, ← removable_iff] at hb ⊢
  obtain ⟨host', e1, e2⟩ := openExisting_skip a [] a.paths host hn hd hb
  rw [List.append_nil] at e1
  refine ⟨host', ?_, fun q => ⟨fun h => by rw [e2 q, if_pos h], fun h => by rw [e2 q, if_neg h]⟩⟩
  rw [options_default flags hf]
  unfold openArchive
  simp only [if_neg (show ¬ (false = true) by decide)]
  rw [e1, openExisting]
  unfold finalizeIndex
  simp only [if_neg (show ¬ (false = true) by decide)]
  cases a.create host' with
  | mk e h => cases e <;> rfl

/-! ### violation -/

/-- **C221 is violated by the code**: an index that is mounted itself is opened without the option, so that an unfinished one is removed although
`--no-recreate-index` was given. -/
theorem C221_violated : ¬ C221_statement := by
  intro h
  have h1 := (h [.keep] "/a.tar.index.sqlite".toList [.index]
    [("/a.tar.index.sqlite".toList, ⟨.db ⟨["files".toList, "filestmp".toList, "parentfolders".toList], .missing, true⟩, true⟩)] ⟨[], rfl⟩).1
  have h2 : (mount "/a.tar.index.sqlite".toList (options (parse [.keep])) [.index]
    [("/a.tar.index.sqlite".toList, ⟨.db ⟨["files".toList, "filestmp".toList, "parentfolders".toList], .missing, true⟩, true⟩)]).2 = [] := by
    rfl
  rw [h2] at h1
  cases h1

/-! ### examples -/

/-- An archive with a damaged index beside it and a good one in the folder of the user. -/
def demo : Archive where
  paths := ["/a.tar.index.sqlite".toList, "/home/u/_a.tar.index.sqlite".toList]
  load f := match f.content with | .db _ => .loaded | _ => .failed
  remote _ := .failed
  create h := (none, h)

def demoHost : Host := [("/a.tar.index.sqlite".toList, ⟨.broken, true⟩), ("/home/u/_a.tar.index.sqlite".toList, ⟨.db ⟨["files".toList], .missing, true⟩, true⟩)]

example : LastIs [.recreate, .keep] .keep ∧ FirstLoaded demo demoHost "/home/u/_a.tar.index.sqlite".toList := by
  refine ⟨⟨[.recreate], rfl⟩, ["/a.tar.index.sqlite".toList], [], rfl, ?_, ?_⟩
  · rw [← result_says]
    decide +kernel
  · simp only [← result_says]
    decide +kernel

example : (openArchive demo (options (parse [.keep])) demoHost).2.keys.length = 2 ∧ (openArchive demo (options (parse [])) demoHost).2.keys.length = 1 ∧
    (openArchive demo (options (parse [.keep, .recreate])) demoHost).2.keys.length = 0 := by decide +kernel

example : (Dict.get? demoHost []).isNone = true ∧ (∀ p ∈ demo.paths, contains "://".toList p = false) ∧ (Dict.keys demoHost).Nodup ∧ demo.paths.Nodup := by decide +kernel

end Verif.Recreate
