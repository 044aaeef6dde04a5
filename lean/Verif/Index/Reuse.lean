import Verif.Py
import Verif.PyStr
import Verif.PyNum

/-!
# C118 – C122: loading stored indexes
(core/ratarmountcore/SQLiteIndex.py:361-384, 459-591, 1175-1384; core/ratarmountcore/mountsource/SQLiteIndexMountSource.py:55-117,
210-245)

Index databases are modelled by what the checks look at, and by two things that only the specification uses: from which
contents of the archive the index was made and with which arguments. Downloads of indexes are not modelled.
-/

namespace Verif.IndexLoad

open Verif.Py

/-- The stored or present `os.stat` of the archive (SQLiteIndex.py:464-469). -/
structure Stats where
  size : Nat
  mtime : Nat
  deriving DecidableEq

/-- The table "metadata" (SQLiteIndex.py:486-493). -/
structure Meta where
  stats : Option Stats
  args : Option Nat
  backend : Option Str
  deriving DecidableEq

/-- A database (SQLiteIndex.py:1243-1304). `files`: the table "files" exists, `temporary`: "filestmp" or "parentfolders" exist,
`oldBzip2`: "bzip2blocks" exists and "versions" does not. `opens`: opening the first file of the index in the archive works.
`of_`, `made` and `by_`: the contents, arguments and backend from which the index was made. -/
structure DB where
  files : Bool
  temporary : Bool
  oldBzip2 : Bool
  metadata : Option Meta
  opens : Bool
  of_ : Nat
  made : Nat
  deriving DecidableEq

/-- What a candidate for an index is: nothing, or a file that is compressed or not and whose contents are a database or not
(SQLiteIndex.py:1218-1237). -/
inductive File
  | missing
  | stored (compressed : Bool) (content : Option DB)
  deriving DecidableEq

/-- The exceptions that `_try_load_index` tells apart (SQLiteIndex.py:1350-1352). -/
inductive Refusal
  | invalid
  | mismatch
  deriving DecidableEq

/-- What is known when an index is loaded (SQLiteIndex.py:215-270, SQLiteIndexMountSource.py:22-57). `now`: `os.stat` of the archive,
if there is a path. `dummy`: the check is `_check_metadata_dummy`. -/
structure Env where
  backend : Str
  now : Option Stats
  verify : Bool
  readOnly : Bool
  args : Nat
  dummy : Bool

/-- `check_archive_stats` (SQLiteIndex.py:524-558). -/
def checkArchiveStats (e : Env) (m : Meta) : Except Refusal Unit :=
  match m.stats with
  | none => .ok ()
  | some s => match e.now with
    | none => .error .invalid
    | some n =>
      if n.size < s.size then .error .invalid
      else if e.verify && n.mtime != s.mtime then .error .invalid
      else .ok ()

/-- `check_metadata_backend` (SQLiteIndex.py:579-591). -/
def checkBackend (e : Env) (m : Meta) : Except Refusal Unit :=
  if e.backend = [] then .ok ()
  else match m.backend with
    | none => .ok ()
    | some b => if b = e.backend then .ok () else .error .mismatch

/-- `SQLiteIndexMountSource._check_metadata` (SQLiteIndexMountSource.py:102-117) without its warnings. -/
def checkMetadata (e : Env) (d : DB) (m : Meta) : Except Refusal Unit :=
  if e.dummy then .ok ()
  else match checkArchiveStats e m with
  | .error x => .error x
  | .ok () => if m.backend.isNone && !d.opens then .error .invalid else .ok ()

/-- The checks of `_load_index` (SQLiteIndex.py:1272-1304). -/
def check (e : Env) (c : Option DB) : Except Refusal DB :=
  match c with
  | none => .error .invalid
  | some d =>
    if d.oldBzip2 then .error .invalid
    else if !d.files then .error .invalid
    else if d.temporary then .error .invalid
    else match d.metadata with
      | none => .ok d
      | some m => match checkBackend e m with
        | .error x => .error x
        | .ok () => match checkMetadata e d m with
          | .error x => .error x
          | .ok () => .ok d

/-- What is opened (SQLiteIndex.py:1229-1239): the temporary file, if there is one by now. -/
def opened (tmp : Option (Option DB)) (compressed : Bool) (c : Option DB) : Option DB :=
  if compressed then c else tmp.getD c

/-- `_temporaryIndexFile` afterwards (SQLiteIndex.py:1222-1226). -/
def tmpAfter (tmp : Option (Option DB)) (compressed : Bool) (c : Option DB) : Option (Option DB) :=
  if compressed then some c else tmp

/-- What is left of a candidate that was refused (SQLiteIndex.py:1374-1382). -/
def leftOver (e : Env) (f : File) : File := if e.readOnly then f else .missing

/-- `open_existing` (SQLiteIndex.py:366-370) with `_try_load_index` (SQLiteIndex.py:1338-1384): the index that is loaded or the
exception, and what is left of the candidates. `tmp` is `_temporaryIndexFile`. -/
def openExisting (e : Env) : Option (Option DB) → List File → Except Refusal (Option DB) × List File
  | _, [] => (.ok none, [])
  | tmp, .missing :: fs => ((openExisting e tmp fs).1, .missing :: (openExisting e tmp fs).2)
  | tmp, .stored z c :: fs =>
    match check e (opened tmp z c) with
    | .ok d => (.ok (some d), .stored z c :: fs)
    | .error .mismatch => (.error .mismatch, .stored z c :: fs)
    | .error .invalid =>
      ((openExisting e (tmpAfter tmp z c) fs).1, leftOver e (.stored z c) :: (openExisting e (tmpAfter tmp z c) fs).2)

/-- `_store_default_metadata` (SQLiteIndexMountSource.py:95-100, SQLiteIndex.py:486-493). -/
def storeMetadata (e : Env) (d : DB) : DB :=
  { d with metadata := some ⟨match e.now with | some s => some s | none => d.metadata.bind Meta.stats, some e.args, some e.backend⟩ }

/-- An index that was just made (SQLiteIndex.py:744-775). -/
def fresh (e : Env) (content : Nat) : DB := storeMetadata e ⟨true, false, false, none, true, content, e.args⟩

/-- `check_metadata_arguments` (SQLiteIndex.py:561-577, SQLiteIndexMountSource.py:110-113): is there a warning? -/
def warns (e : Env) (d : DB) : Bool :=
  match d.metadata.bind Meta.args with
  | none => false
  | some a => a != e.args

/-- What a mount shows: the contents that the index describes, whether the arguments were reported as different, and whether the index
was made anew. -/
structure Shown where
  content : Nat
  warned : Bool
  rebuilt : Bool
  deriving DecidableEq

/-- Mounting an archive that is not a TAR with one place for its index (e.g. zip.py:38-45, SQLiteIndexMountSource.py:210-245). The index
is written if `write` is set. -/
def mount (e : Env) (content : Nat) (write : Bool) (f : File) : Except Refusal Shown × File :=
  match openExisting e none [f] with
  | (.error x, _) => (.error x, f)
  | (.ok (some d), fs) =>
    (.ok ⟨d.of_, warns e d, false⟩,
      match f with
      | .stored false _ => if e.readOnly then f else .stored false (some (storeMetadata e d))
      | _ => fs.headD .missing)
  | (.ok none, fs) =>
    if e.readOnly then (.error .invalid, fs.headD .missing)
    else (.ok ⟨content, false, true⟩, if write then .stored false (some (fresh e content)) else fs.headD .missing)

/-- A mount of a history: the archive at that time and the options. -/
structure Mount where
  stats : Stats
  content : Nat
  verify : Bool
  args : Nat
  write : Bool
  deriving DecidableEq

/-- The environment of a mount in a history (SQLiteIndexMountSource.py:22-57). -/
def Mount.env (backend : Str) (m : Mount) : Env := ⟨backend, some m.stats, m.verify, false, m.args, false⟩

/-- One mount of a history (SQLiteIndexMountSource.py:210-245). -/
def step (backend : Str) (f : File) (m : Mount) : File := (mount (m.env backend) m.content m.write f).2

/-- The place of the index after a history that started without an index (SQLiteIndexMountSource.py:210-245). -/
def after (backend : Str) (ms : List Mount) : File := ms.foldl (step backend) .missing

/-- What the last mount of a history shows (SQLiteIndexMountSource.py:210-245). -/
def shows (backend : Str) (ms : List Mount) (m : Mount) : Except Refusal Shown := (mount (m.env backend) m.content m.write (after backend ms)).1

/-- `SQLiteIndexMountSource(path)` for the path of an index (SQLiteIndexMountSource.py:62-92). The argument for a read-only index has
another name, so that it is ignored: the environment is not read-only. Gives whether it was opened, and the file. -/
def openIndexFile (isSqlite : Bool) (c : Option DB) : Except PyErr DB × File :=
  if isSqlite then
    match openExisting ⟨[], none, false, false, 0, true⟩ none [.stored false c] with
    | (.ok (some d), _) => (.ok d, .stored false c)
    | (.ok none, fs) => (.error .ratarmount, fs.headD .missing)
    | (.error _, _) => (.error .invalidIndex, .stored false c)
  else (.error .ratarmount, .stored false c)

/-- What `_to_version_tuple` is called with: a string, or a row of a query (SQLiteIndex.py:1315-1321). -/
inductive Version
  | str (s : Str)
  | row (major minor : Nat)

/-- `int(re.sub('[^0-9]', '', x))` (SQLiteIndex.py:59-61). -/
def digitsOf (x : Str) : Except PyErr Nat :=
  match parseNat (x.filter Char.isDigit) with
  | none => .error .valueError
  | some n => .ok n

/-- `_to_version_tuple` (SQLiteIndex.py:58-62). Rows have no method `split`. -/
def toVersionTuple : Version → Except PyErr (Option (Nat × Nat × Nat))
  | .row _ _ => .error .typeError
  | .str s => match split '.' s with
    | [a, b, c] => match digitsOf a, digitsOf b, digitsOf c with
      | .ok x, .ok y, .ok z => .ok (some (x, y, z))
      | _, _, _ => .error .valueError
    | _ => .ok none

/-- `>` of tuples (SQLiteIndex.py:1321). -/
def newer (a b : Nat × Nat × Nat) : Bool :=
  decide (b.1 < a.1) || (a.1 == b.1 && (decide (b.2.1 < a.2.1) || (a.2.1 == b.2.1 && decide (b.2.2 < a.2.2))))

/-- The check of the version of an index (SQLiteIndex.py:1312-1326): is there a warning? `stored`: "major" and "minor" of the index. -/
def warnsNewer (stored : Option (Nat × Nat)) (api : Str) : Bool :=
  match stored with
  | none => false
  | some v => match toVersionTuple (.row v.1 v.2), toVersionTuple (.str api) with
    | .ok (some a), .ok (some b) => newer a b
    | _, _ => false

/-! ## C118 -/

/-- C118 as claimed: an index is only used if the archive has the size that was stored. -/
def C118_statement : Prop :=
  ∀ (e : Env) (d : DB) (m : Meta) (s n : Stats), e.dummy = false → check e (some d) = .ok d → d.metadata = some m → m.stats = some s →
    e.now = some n → n.size = s.size

/-- C118 does not hold: the index is used for an archive that has grown. -/
theorem C118_violated : ¬ C118_statement := by
  intro h
  have := h ⟨[], some ⟨2, 1⟩, false, false, 0, false⟩ ⟨true, false, false, some ⟨some ⟨1, 0⟩, none, none⟩, true, 0, 0⟩ _ ⟨1, 0⟩ ⟨2, 1⟩ rfl rfl
    rfl rfl rfl
  revert this
  decide

theorem check_ok {e : Env} {c : Option DB} {d : DB} (h : check e c = .ok d) : c = some d ∧ d.oldBzip2 = false ∧ d.files = true ∧
    d.temporary = false ∧ ∀ m, d.metadata = some m → checkBackend e m = .ok () ∧ checkMetadata e d m = .ok () := by
  unfold check at h
  split at h
  · cases h
  · next d' =>
    split at h
    · cases h
    next h1 =>
    split at h
    · cases h
    next h2 =>
    split at h
    · cases h
    next h3 =>
    split at h
    · next hm =>
      rw [Except.ok.injEq] at h
      subst h
      refine ⟨rfl, by simpa using h1, by simpa using h2, by simpa using h3, ?_⟩
      intro m hm'
      rw [hm] at hm'
      cases hm'
    · next m hm =>
      split at h
      · cases h
      next h4 =>
      split at h
      · cases h
      next h5 =>
      rw [Except.ok.injEq] at h
      subst h
      refine ⟨rfl, by simpa using h1, by simpa using h2, by simpa using h3, ?_⟩
      intro m' hm'
      rw [hm, Option.some.injEq] at hm'
      subst hm'
      exact ⟨h4, h5⟩

theorem checkMetadata_ok {e : Env} {d : DB} {m : Meta} {s : Stats} (he : e.dummy = false) (h : checkMetadata e d m = .ok ())
    (hs : m.stats = some s) : ∃ n, e.now = some n ∧ s.size ≤ n.size ∧ (e.verify = true → n.mtime = s.mtime) := by
  unfold checkMetadata at h
  rw [if_neg (by simp [he])] at h
  split at h
  · cases h
  · next hc =>
    unfold checkArchiveStats at hc
    rw [hs] at hc
    simp only at hc
    split at hc
    · cases hc
    · next n hn =>
      split at hc
      · cases hc
      next h1 =>
      split at hc
      · cases hc
      next h2 =>
      refine ⟨n, hn, by omega, fun hv => ?_⟩
      simpa [hv] using h2

/-- C118: an index is not used for an archive that has become smaller, nor for one with another time if times are verified, nor without
a path to the archive. -/
theorem C118_partial (e : Env) (d : DB) (m : Meta) (s : Stats) (he : e.dummy = false) (h : check e (some d) = .ok d)
    (hm : d.metadata = some m) (hs : m.stats = some s) :
    ∃ n, e.now = some n ∧ s.size ≤ n.size ∧ (e.verify = true → n.mtime = s.mtime) :=
  checkMetadata_ok he ((check_ok h).2.2.2.2 m hm).2 hs

/-- C118: an index that was completed for this archive by this backend is used. -/
theorem C118_used (e : Env) (d : DB) (m : Meta) (s : Stats) (h1 : d.files = true) (h2 : d.temporary = false) (h3 : d.oldBzip2 = false)
    (hm : d.metadata = some m) (hb : m.backend = some e.backend) (hs : m.stats = some s) (hn : e.now = some s) :
    check e (some d) = .ok d := by
  unfold check
  simp only [h1, h2, h3, hm]
  unfold checkBackend checkMetadata checkArchiveStats
  simp [hb, hs, hn]

example : check ⟨"b".toList, some ⟨2, 1⟩, true, false, 0, false⟩
    (some ⟨true, false, false, some ⟨some ⟨2, 1⟩, some 3, some "b".toList⟩, false, 7, 3⟩) =
      .ok ⟨true, false, false, some ⟨some ⟨2, 1⟩, some 3, some "b".toList⟩, false, 7, 3⟩ ∧
    check ⟨"b".toList, some ⟨2, 1⟩, false, false, 0, false⟩
      (some ⟨true, false, false, some ⟨some ⟨3, 1⟩, some 3, some "b".toList⟩, false, 7, 3⟩) = .error .invalid ∧
    check ⟨"c".toList, some ⟨2, 1⟩, false, false, 0, false⟩
      (some ⟨true, false, false, some ⟨some ⟨2, 1⟩, some 3, some "b".toList⟩, false, 7, 3⟩) = .error .mismatch := by decide

/-! ## C119 -/

/-- Archives with the same modification time have the same contents. -/
def Honest (ms : List Mount) : Prop := ∀ a ∈ ms, ∀ b ∈ ms, a.stats.mtime = b.stats.mtime → a.content = b.content

/-- C119 as claimed: a mount that verifies modification times shows the archive as it is. -/
def C119_statement : Prop :=
  ∀ (backend : Str) (ms : List Mount) (m : Mount) (r : Shown), Honest (ms ++ [m]) → m.verify = true → shows backend ms m = .ok r →
    r.content = m.content

/-- C119 does not hold: a mount that does not verify accepts the old index and stores the new time in it. -/
theorem C119_violated : ¬ C119_statement := by
  intro h
  have := h "zip".toList [⟨⟨1, 1⟩, 10, true, 0, true⟩, ⟨⟨2, 2⟩, 20, false, 0, true⟩] ⟨⟨2, 2⟩, 20, true, 0, true⟩ ⟨10, false, false⟩
    (by unfold Honest; decide) rfl (by decide)
  revert this
  decide

/-- The index is missing or belongs to one of the archives. -/
def Belongs (backend : Str) (seen : List Mount) (f : File) : Prop :=
  f = .missing ∨ ∃ d a, f = .stored false (some d) ∧ a ∈ seen ∧ d.of_ = a.content ∧ d.files = true ∧ d.temporary = false ∧
    d.oldBzip2 = false ∧ ∃ args, d.metadata = some ⟨some a.stats, args, some backend⟩

theorem check_mismatch {e : Env} {d : DB} {m : Meta} (hm : d.metadata = some m) (hb : m.backend = some e.backend) :
    check e (some d) ≠ .error .mismatch := by
  unfold check
  simp only [hm]
  split
  · simp
  split
  · simp
  split
  · simp
  unfold checkBackend
  simp only [hb]
  have h2 : ∀ x, checkMetadata e d m = .error x → x = .invalid := by
    intro x hx
    unfold checkMetadata at hx
    split at hx
    · cases hx
    · split at hx
      · next y hc =>
        rw [Except.error.injEq] at hx
        subst hx
        unfold checkArchiveStats at hc
        split at hc
        · cases hc
        · split at hc
          · exact (Except.error.inj hc).symm
          · split at hc
            · exact (Except.error.inj hc).symm
            · split at hc
              · exact (Except.error.inj hc).symm
              · cases hc
      · split at hx
        · exact (Except.error.inj hx).symm
        · cases hx
  split
  · next h => split at h <;> simp_all
  · split
    · next x hx => simp [h2 x hx]
    · simp

theorem mount_belongs {backend : Str} {seen : List Mount} {f : File} {m : Mount} (hb : Belongs backend seen f) (hv : m.verify = true)
    (hh : Honest (seen ++ [m])) :
    (∃ r, (mount (m.env backend) m.content m.write f).1 = .ok r ∧ r.content = m.content) ∧
      Belongs backend (seen ++ [m]) (mount (m.env backend) m.content m.write f).2 := by
  have hfresh : Belongs backend (seen ++ [m]) (if m.write then .stored false (some (fresh (m.env backend) m.content)) else .missing) := by
    split
    · exact .inr ⟨_, m, rfl, by simp, rfl, rfl, rfl, rfl, _, rfl⟩
    · exact .inl rfl
  rcases hb with rfl | ⟨d, a, rfl, ha, h1, h2, h3, h4, args, hm⟩
  · exact ⟨⟨_, rfl, rfl⟩, hfresh⟩
  · unfold mount
    have hopen : openExisting (m.env backend) none [.stored false (some d)] =
        match check (m.env backend) (some d) with
        | .ok d => (.ok (some d), [.stored false (some d)])
        | .error .mismatch => (.error .mismatch, [.stored false (some d)])
        | .error .invalid => (.ok none, [.missing]) := by
      rw [openExisting]
      unfold opened
      simp only [Option.getD_none, Bool.false_eq_true, if_false]
      cases hc : check (m.env backend) (some d) with
      | ok d' =>
        have := (check_ok hc).1
        simp only [Option.some.injEq] at this
        rw [this]
      | error x =>
        cases x with
        | mismatch => rfl
        | invalid => rfl
    rw [hopen]
    cases hc : check (m.env backend) (some d) with
    | ok d' =>
      have hd := (check_ok hc).1
      simp only [Option.some.injEq] at hd
      subst hd
      obtain ⟨n, hn, -, ht⟩ := C118_partial (m.env backend) d _ a.stats rfl hc hm rfl
      have hn' : n = m.stats := by
        have : (m.env backend).now = some m.stats := rfl
        rw [this, Option.some.injEq] at hn
        exact hn.symm
      subst hn'
      have hcont : d.of_ = m.content := by
        rw [h1]
        exact (hh m (by simp) a (by simp [ha]) (ht hv)).symm
      refine ⟨⟨_, rfl, hcont⟩, ?_⟩
      refine .inr ⟨storeMetadata (m.env backend) d, m, rfl, by simp, hcont, h2, h3, h4, _, rfl⟩
    | error x =>
      cases x with
      | mismatch => exact absurd hc (check_mismatch hm rfl)
      | invalid => exact ⟨⟨_, rfl, rfl⟩, hfresh⟩

theorem honest_mono {l k : List Mount} (h : Honest l) (hs : ∀ a ∈ k, a ∈ l) : Honest k :=
  fun a ha b hb => h a (hs a ha) b (hs b hb)

/-- C119: if all mounts verify modification times, every mount shows the archive as it is. -/
theorem C119_verified_partial (backend : Str) (ms : List Mount) (m : Mount) (hh : Honest (ms ++ [m])) (hv : ∀ x ∈ ms ++ [m], x.verify = true) :
    ∃ r, shows backend ms m = .ok r ∧ r.content = m.content := by
  have hall : ∀ (rest seen : List Mount) (f : File), Belongs backend seen f → Honest (seen ++ rest) → (∀ x ∈ rest, x.verify = true) →
      Belongs backend (seen ++ rest) (rest.foldl (step backend) f) := by
    intro rest
    induction rest with
    | nil => intro seen f hb _ _; simpa using hb
    | cons x rest ih =>
      intro seen f hb hh hv
      have hx : Honest (seen ++ [x]) := honest_mono hh (by
        intro a ha
        rcases List.mem_append.mp ha with h | h
        · exact List.mem_append.mpr (.inl h)
        · rw [List.mem_singleton] at h
          simp [h])
      have := (mount_belongs hb (hv x (by simp)) hx).2
      have := ih (seen ++ [x]) (step backend f x) this (by simpa using hh) (fun y hy => hv y (by simp [hy]))
      simpa using this
  have hms := hall ms [] .missing (.inl rfl) (honest_mono hh (fun a ha => List.mem_append.mpr (.inl ha)))
    (fun x hx => hv x (by simp [hx]))
  rw [List.nil_append] at hms
  exact (mount_belongs hms (hv m (by simp)) hh).1

example : Honest [⟨⟨1, 1⟩, 10, true, 0, true⟩, ⟨⟨2, 2⟩, 20, true, 0, false⟩, ⟨⟨2, 2⟩, 20, true, 5, true⟩] ∧
    shows "zip".toList [⟨⟨1, 1⟩, 10, true, 0, true⟩, ⟨⟨2, 2⟩, 20, true, 0, true⟩] ⟨⟨2, 2⟩, 20, true, 0, true⟩ = .ok ⟨20, false, false⟩ := by
  unfold Honest
  decide

/-! ## C120 -/

/-- The search for an index as claimed: candidates are looked at in their order, each one by itself. What is not there or invalid is
skipped, invalid ones are removed unless that is forbidden, and the first other one decides. -/
inductive Search (e : Env) : List File → Except Refusal (Option DB) → List File → Prop
  | done : Search e [] (.ok none) []
  | missing {fs r l} : Search e fs r l → Search e (.missing :: fs) r (.missing :: l)
  | invalid {z c fs r l} : check e c = .error .invalid → Search e fs r l →
      Search e (.stored z c :: fs) r ((if e.readOnly then .stored z c else .missing) :: l)
  | used {z c d fs} : check e c = .ok d → Search e (.stored z c :: fs) (.ok (some d)) (.stored z c :: fs)
  | mismatch {z c fs} : check e c = .error .mismatch → Search e (.stored z c :: fs) (.error .mismatch) (.stored z c :: fs)

/-- C120 as claimed. -/
def C120_statement : Prop :=
  ∀ (e : Env) (fs : List File), Search e fs (openExisting e none fs).1 (openExisting e none fs).2

/-- A complete index without metadata. -/
def plainIndex : DB := ⟨true, false, false, none, true, 0, 0⟩

/-- C120 does not hold: after an invalid compressed index, its contents are opened in place of the next candidate. The valid index is not
used, and it is removed. -/
theorem C120_violated : ¬ C120_statement := by
  intro h
  have := h ⟨[], none, false, false, 0, false⟩ [.stored true none, .stored false (some plainIndex)]
  rw [show openExisting ⟨[], none, false, false, 0, false⟩ none [.stored true none, .stored false (some plainIndex)] =
    (.ok none, [.missing, .missing]) from by decide] at this
  cases this with
  | invalid _ h2 =>
    cases h2 with
    | invalid h3 _ => revert h3; decide

/-- C120: candidates are looked at in their order, each one by itself, as long as no compressed index is invalid. -/
theorem C120_search_partial (e : Env) : ∀ (fs : List File), (∀ c, .stored true c ∈ fs → check e c ≠ .error .invalid) →
    Search e fs (openExisting e none fs).1 (openExisting e none fs).2 := by
  intro fs
  induction fs with
  | nil => intro _; exact .done
  | cons f fs ih =>
    intro h
    have ih' := ih (fun c hc => h c (List.mem_cons_of_mem _ hc))
    cases f with
    | missing => rw [openExisting]; exact .missing ih'
    | stored z c =>
      rw [openExisting]
      have ho : opened none z c = c := by unfold opened; cases z <;> rfl
      rw [ho]
      cases hc : check e c with
      | ok d => exact .used hc
      | error x =>
        cases x with
        | mismatch => exact .mismatch hc
        | invalid =>
          cases z with
          | true => exact absurd hc (h c List.mem_cons_self)
          | false =>
            unfold tmpAfter leftOver
            exact .invalid hc ih'

/-- C120: nothing is removed if that is forbidden. -/
theorem C120_readOnly (e : Env) (he : e.readOnly = true) : ∀ (fs : List File) (tmp : Option (Option DB)), (openExisting e tmp fs).2 = fs := by
  intro fs
  induction fs with
  | nil => intro tmp; rw [openExisting]
  | cons f fs ih =>
    intro tmp
    cases f with
    | missing => rw [openExisting]; simp [ih]
    | stored z c =>
      rw [openExisting]
      split
      · rfl
      · rfl
      · unfold leftOver
        rw [if_pos he, ih]

example : openExisting ⟨[], none, false, false, 0, false⟩ none [.missing, .stored false none, .stored true (some plainIndex)] =
    (.ok (some plainIndex), [.missing, .missing, .stored true (some plainIndex)]) := by decide
example : ∀ c, File.stored true c ∈ [.missing, .stored false none, .stored true (some plainIndex)] →
    check ⟨[], none, false, false, 0, false⟩ c ≠ .error .invalid := by
  intro c hc
  simp at hc
  subst hc
  decide

/-! ## C121 -/

/-- C121 as claimed: a mount that uses an index reports exactly if the index was made with other arguments. -/
def C121_statement : Prop :=
  ∀ (backend : Str) (ms : List Mount) (m : Mount) (r : Shown) (d : DB), shows backend ms m = .ok r → r.rebuilt = false →
    after backend ms = .stored false (some d) → (r.warned = true ↔ d.made ≠ m.args)

/-- C121 does not hold: the arguments of every mount are stored, although the index was made with others. -/
theorem C121_violated : ¬ C121_statement := by
  intro h
  have := h "zip".toList [⟨⟨1, 1⟩, 10, false, 1, true⟩, ⟨⟨1, 1⟩, 10, false, 2, true⟩] ⟨⟨1, 1⟩, 10, false, 2, true⟩ ⟨10, false, false⟩
    ⟨true, false, false, some ⟨some ⟨1, 1⟩, some 2, some "zip".toList⟩, true, 10, 1⟩ (by decide) rfl (by decide)
  revert this
  decide

/-- The index is missing or was made and used with the same arguments only. -/
def MadeWith (a : Nat) (f : File) : Prop :=
  f = .missing ∨ ∃ d m, f = .stored false (some d) ∧ d.made = a ∧ d.metadata = some m ∧ m.args = some a

theorem openExisting_one (e : Env) (z : Bool) (c : Option DB) : openExisting e none [.stored z c] =
    match check e c with
    | .ok d => (.ok (some d), [.stored z c])
    | .error .mismatch => (.error .mismatch, [.stored z c])
    | .error .invalid => (.ok none, [leftOver e (.stored z c)]) := by
  rw [openExisting]
  have ho : opened none z c = c := by unfold opened; cases z <;> rfl
  rw [ho]
  cases check e c with
  | ok d => rfl
  | error x => cases x <;> rfl

theorem mount_made {backend : Str} {a : Nat} {f : File} {m : Mount} (h : MadeWith a f) :
    (∀ r, (mount (m.env backend) m.content m.write f).1 = .ok r → r.rebuilt = false → (r.warned = true ↔ a ≠ m.args)) ∧
      (m.args = a → MadeWith a (mount (m.env backend) m.content m.write f).2) := by
  have hfresh : m.args = a → MadeWith a (if m.write then .stored false (some (fresh (m.env backend) m.content)) else .missing) := by
    intro ha
    split
    · exact .inr ⟨_, _, rfl, ha, rfl, congrArg some ha⟩
    · exact .inl rfl
  rcases h with rfl | ⟨d, mt, rfl, h1, h2, h3⟩
  · refine ⟨?_, hfresh⟩
    intro r hr hb
    have : (mount (m.env backend) m.content m.write .missing).1 = .ok ⟨m.content, false, true⟩ := rfl
    rw [this, Except.ok.injEq] at hr
    subst hr
    cases hb
  · unfold mount
    rw [openExisting_one]
    cases hc : check (m.env backend) (some d) with
    | ok d' =>
      have hd := (check_ok hc).1
      simp only [Option.some.injEq] at hd
      subst hd
      refine ⟨?_, fun ha => .inr ⟨storeMetadata (m.env backend) d, _, rfl, h1, rfl, congrArg some ha⟩⟩
      intro r hr _
      simp only [Except.ok.injEq] at hr
      subst hr
      unfold warns
      rw [h2]
      simp only [Option.bind_some, h3]
      show (a != m.args) = true ↔ _
      simp
    | error x =>
      cases x with
      | mismatch => exact ⟨fun r hr => by simp at hr, fun ha => .inr ⟨d, mt, rfl, h1, h2, h3⟩⟩
      | invalid =>
        refine ⟨?_, hfresh⟩
        intro r hr hb
        simp only at hr
        rw [if_neg (show ¬ (m.env backend).readOnly = true from fun h => by cases h), Except.ok.injEq] at hr
        subst hr
        cases hb

/-- C121: as long as all mounts before had the same arguments, a mount that uses the index reports exactly if its arguments differ. -/
theorem C121_reported_partial (backend : Str) (ms : List Mount) (m : Mount) (a : Nat) (r : Shown) (ha : ∀ x ∈ ms, x.args = a)
    (h : shows backend ms m = .ok r) (hr : r.rebuilt = false) : r.warned = true ↔ a ≠ m.args := by
  have hall : ∀ (rest : List Mount) (f : File), MadeWith a f → (∀ x ∈ rest, x.args = a) → MadeWith a (rest.foldl (step backend) f) := by
    intro rest
    induction rest with
    | nil => intro f hf _; exact hf
    | cons x rest ih =>
      intro f hf hx
      exact ih _ ((mount_made hf).2 (hx x List.mem_cons_self)) (fun y hy => hx y (List.mem_cons_of_mem _ hy))
  exact (mount_made (hall ms .missing (.inl rfl) ha)).1 r h hr

/-- C121: a warning is only given about arguments that are stored in the index. -/
theorem C121_stored_partial (e : Env) (content : Nat) (write : Bool) (f : File) (r : Shown) (h : (mount e content write f).1 = .ok r)
    (hw : r.warned = true) : ∃ z d mt a, f = .stored z (some d) ∧ d.metadata = some mt ∧ mt.args = some a ∧ a ≠ e.args := by
  unfold mount at h
  split at h
  · simp at h
  · next d fs ho =>
    simp only [Except.ok.injEq] at h
    subst h
    simp only [warns] at hw
    split at hw
    · cases hw
    · next a ha =>
      have hne : a ≠ e.args := by simpa using hw
      cases hm : d.metadata with
      | none => rw [hm] at ha; cases ha
      | some mt =>
        rw [hm] at ha
        cases f with
        | missing => simp [openExisting] at ho
        | stored z c =>
          rw [openExisting_one] at ho
          cases hc : check e c with
          | error x => rw [hc] at ho; cases x <;> simp at ho
          | ok d' =>
            rw [hc] at ho
            simp only [Prod.mk.injEq, Except.ok.injEq, Option.some.injEq] at ho
            have hd := (check_ok hc).1
            rw [ho.1] at hd
            exact ⟨z, d, mt, a, by rw [hd], hm, ha, hne⟩
  · split at h
    · simp at h
    · simp only [Except.ok.injEq] at h
      subst h
      cases hw

example : shows "zip".toList [⟨⟨1, 1⟩, 10, false, 1, true⟩, ⟨⟨1, 1⟩, 10, false, 1, true⟩] ⟨⟨1, 1⟩, 10, false, 2, true⟩ = .ok ⟨10, true, false⟩ := by
  decide

/-! ## C122 -/

/-- C122 as claimed: mounting a file as an index leaves the file as it is. -/
def C122_statement : Prop := ∀ (isSqlite : Bool) (c : Option DB), (openIndexFile isSqlite c).2 = .stored false c

/-- C122 does not hold: a database that is not an index is removed. -/
theorem C122_violated : ¬ C122_statement := by
  intro h
  have := h true (some ⟨false, false, false, none, true, 0, 0⟩)
  revert this
  decide

/-- C122: the file stays exactly if it is a complete index or does not start as a database does; in the first case it is opened. -/
theorem C122_kept_partial (isSqlite : Bool) (c : Option DB) :
    ((openIndexFile isSqlite c).2 = .stored false c ↔
      isSqlite = false ∨ ∃ d, c = some d ∧ d.files = true ∧ d.temporary = false ∧ d.oldBzip2 = false) ∧
    ∀ d, (openIndexFile isSqlite c).1 = .ok d ↔
      isSqlite = true ∧ c = some d ∧ d.files = true ∧ d.temporary = false ∧ d.oldBzip2 = false := by
  unfold openIndexFile
  cases isSqlite with
  | false => simp
  | true =>
    simp only [if_true]
    rw [openExisting_one]
    cases c with
    | none => simp [check, leftOver]
    | some d =>
      obtain ⟨f, t, o, mt, op, ct, md⟩ := d
      cases f <;> cases t <;> cases o <;> cases mt <;> simp [check, leftOver, checkBackend, checkMetadata] <;> (intros; subst_vars; simp_all)

/-! ## C123 -/

/-- C123 as claimed: an index of a newer version is reported. -/
def C123_statement : Prop :=
  ∀ (x y a b c : Nat), (a < x ∨ a = x ∧ b < y) → warnsNewer (some (x, y)) (natStr a ++ '.' :: natStr b ++ '.' :: natStr c) = true

/-- There is never a warning, whatever the version of the index is. -/
theorem C123_never (stored : Option (Nat × Nat)) (api : Str) : warnsNewer stored api = false := by
  unfold warnsNewer
  cases stored with
  | none => rfl
  | some v => rfl

/-- C123 does not hold. -/
theorem C123_violated : ¬ C123_statement := by
  intro h
  have := h 1 0 0 7 0 (.inl (by decide))
  rw [C123_never] at this
  cases this

theorem natStr_no_dot (n : Nat) : '.' ∉ natStr n := by
  intro h
  have := natStr_digits n _ h
  revert this
  decide

theorem filter_natStr (n : Nat) : (natStr n).filter Char.isDigit = natStr n := by
  rw [List.filter_eq_self]
  intro c hc
  have := natStr_digits n c hc
  unfold Char.isDigit
  simp only [Bool.and_eq_true, decide_eq_true_eq, ge_iff_le, UInt32.le_iff_toNat_le]
  exact this

/-- C123: what the comparison would see if it was called with versions: their three numbers, without letters after them. -/
theorem C123_tuple_partial (a b c : Nat) (x y z : Str) (hx : ∀ d ∈ x ++ y ++ z, d.isDigit = false ∧ d ≠ '.') :
    toVersionTuple (.str ((natStr a ++ x) ++ '.' :: ((natStr b ++ y) ++ '.' :: (natStr c ++ z)))) = .ok (some (a, b, c)) := by
  have hdot : ∀ (n : Nat) (t : Str), (∀ d ∈ t, d ∈ x ++ y ++ z) → '.' ∉ natStr n ++ t := by
    intro n t ht h
    rcases List.mem_append.mp h with h | h
    · exact natStr_no_dot n h
    · exact (hx _ (ht _ h)).2 rfl
  have hdig : ∀ (n : Nat) (t : Str), (∀ d ∈ t, d ∈ x ++ y ++ z) → digitsOf (natStr n ++ t) = .ok n := by
    intro n t ht
    have hf : (natStr n ++ t).filter Char.isDigit = natStr n := by
      rw [List.filter_append, filter_natStr, List.filter_eq_nil_iff.mpr, List.append_nil]
      intro d hd
      simp [(hx d (ht d hd)).1]
    unfold digitsOf
    rw [hf, parseNat_natStr]
  have h1 : ∀ d ∈ x, d ∈ x ++ y ++ z := fun d hd => by simp [hd]
  have h2 : ∀ d ∈ y, d ∈ x ++ y ++ z := fun d hd => by simp [hd]
  have h3 : ∀ d ∈ z, d ∈ x ++ y ++ z := fun d hd => by simp [hd]
  unfold toVersionTuple
  simp only
  rw [split_append_cons '.' _ _ (hdot a x h1), split_append_cons '.' _ _ (hdot b y h2),
    show split '.' (natStr c ++ z) = [natStr c ++ z] from split_of_not_mem '.' _ (hdot c z h3)]
  simp only [hdig a x h1, hdig b y h2, hdig c z h3]

/-- C123: the comparison is the one of the numbers from left to right. -/
theorem C123_newer_partial (a b : Nat × Nat × Nat) :
    newer a b = true ↔ b.1 < a.1 ∨ b.1 = a.1 ∧ (b.2.1 < a.2.1 ∨ b.2.1 = a.2.1 ∧ b.2.2 < a.2.2) := by
  unfold newer
  simp only [Bool.or_eq_true, Bool.and_eq_true, decide_eq_true_eq, beq_iff_eq]
  omega

example : toVersionTuple (.str "0.7.0rc".toList) = .ok (some (0, 7, 0)) ∧ toVersionTuple (.str "1.2".toList) = .ok none ∧
    newer (0, 8, 0) (0, 7, 9) = true := by decide +kernel

end Verif.IndexLoad
