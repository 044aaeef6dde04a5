import Verif.Py
import Verif.Sort

/-!
# C23, C24: archives that were appended to (core/ratarmountcore/mountsource/formats/tar.py:650-690, 1125-1331)

Statistics are compared as integers (file times are floating point numbers in Python; only comparisons are used).
`os.stat` always gives a size and a time. Logging is not modelled.
-/

namespace Verif.Tar

open Verif.Py

/-- A row of "files", as far as `_get_past_end_offset` looks at it (tar.py:1125-1154). Rows are in table order, which SQLite keeps for
equal sort keys. -/
structure PRow where
  offset : Nat
  size : Nat
  sparse : Bool
  deriving DecidableEq

/-- `_get_past_end_offset` (tar.py:1125-1154). -/
def pastEndOffset (rows : List PRow) : Except PyErr (Option Nat) :=
  match (sortBy (fun a b => decide (b.offset ≤ a.offset)) rows).head? with
  | none => .error .invalidIndex
  | some r =>
    if r.sparse then .ok none
    else
      let past := r.offset + r.size
      .ok (some (if past % 512 ≠ 0 then past + (512 - past % 512) else past))

/-- Stored statistics: the keys of the JSON dictionary may be missing (tar.py:1156-1234). -/
structure Stats where
  size : Option Nat
  mtime : Option Int

/-- The archive as it is now and the options (tar.py:1156-1334). -/
structure Now where
  size : Nat
  mtime : Int
  compressed : Bool
  readOnly : Bool
  verifyMtime : Bool
  exists_ : Bool

/-- An existing index: `stats` is the metadata key tarstats, `eofZeros` whether the 1024 bytes at the past-end offset
are zeros, `rowsOk` whether everything checked after the statistics is fine (tar.py:1293-1331), `valid` the result of
`_check_index_validity`. -/
structure Index where
  stats : Option Stats
  rows : List PRow
  fileCount : Nat
  sameVersion : Bool
  eofZeros : Bool
  rowsOk : Bool
  valid : Bool

/-- The exception that discards an index (tar.py:1156-1334). -/
abbrev invalid : PyErr := .invalidIndex

/-- `_try_to_mark_as_appended` (tar.py:1156-1232): the new value of `hasBeenAppendedTo`. -/
def tryMark (n : Now) (s : Stats) (i : Index) (flag : Bool) : Except PyErr Bool :=
  match s.size with
  | none => .error invalid
  | some size =>
    if n.size < size then .error invalid                       -- 1165-1172
    else match s.mtime with
    | none => .error invalid
    | some mtime =>
      if n.mtime < mtime then .error invalid                   -- 1175-1185
      else if n.compressed then .error invalid                 -- 1195-1199
      else if n.readOnly then .ok flag                         -- 1201-1202
      else if n.size < 64 * 1024 * 1024 then .error invalid    -- 1212-1213
      else if i.fileCount < 100 then .error invalid            -- 1215-1218
      else if n.size > 3 * size then .error invalid            -- 1224-1228
      else if i.sameVersion = false then .error invalid        -- 1230-1231
      else .ok true                                            -- 1234

/-- Comparison of the sizes (tar.py:1258-1266). -/
def sizeStep (n : Now) (i : Index) (s : Stats) (flag : Bool) : Except PyErr Bool :=
  match s.size with
  | none => .ok flag
  | some size =>
    if n.size < size then .error invalid
    else if n.size > size then tryMark n s i flag else .ok flag

/-- The end-of-archive blocks (tar.py:1271-1289). -/
def eofStep (n : Now) (i : Index) (s : Stats) (past : Option Nat) (flag : Bool) : Except PyErr Bool :=
  if !n.compressed && (past.getD 0 != 0) && !i.eofZeros then tryMark n s i flag else .ok flag

/-- The part of `_check_metadata2` about statistics (tar.py:1254-1301). The state change of `hasBeenAppendedTo` is kept when
it raises. -/
def checkStats (n : Now) (i : Index) (s : Stats) (flag : Bool) : Except PyErr Unit × Bool :=
  match sizeStep n i s flag with
  | .error e => (.error e, flag)
  | .ok flag1 =>
    match pastEndOffset i.rows with
    | .error e => (.error e, flag1)
    | .ok past =>
      match eofStep n i s past flag1 with
      | .error e => (.error e, flag1)
      | .ok flag2 =>
        -- 1291-1301
        if flag2 = false ∧ n.verifyMtime = true ∧ s.mtime.isSome ∧ s.mtime ≠ some n.mtime then (.error invalid, flag2)
        else (.ok (), flag2)

/-- `_check_metadata` (tar.py:1237-1331). It restores `_isGnuIncremental` but not `hasBeenAppendedTo` when it raises. -/
def checkMetadata (n : Now) (i : Index) (flag : Bool) : Except PyErr Unit × Bool :=
  let r := match i.stats with
    | some s => if n.exists_ then checkStats n i s flag else (.ok (), flag)
    | none => (.ok (), flag)
  match r with
  | (.error e, flag) => (.error e, flag)
  | (.ok (), flag) => (if i.rowsOk then .ok () else .error invalid, flag)

/-- `open_existing` (SQLiteIndex.py:366-370) with this check: the first index that passes, and the flag. -/
def openExisting (n : Now) : List Index → Bool → Option Index × Bool
  | [], flag => (none, flag)
  | i :: rest, flag =>
    match checkMetadata n i flag with
    | (.ok (), flag) => (some i, flag)
    | (.error _, flag) => openExisting n rest flag

/-- What the constructor does (tar.py:650-690). -/
inductive Outcome where
  /-- The index is used as it is. -/
  | use (i : Index)
  /-- The archive is read from the offset on and the entries are added to the index. -/
  | extend (i : Index) (offset : Nat)
  /-- A new index is created. -/
  | rebuild

/-- Loading an index, and creating or extending one (tar.py:518-745). -/
def construct (n : Now) (indexes : List Index) : Outcome :=
  match openExisting n indexes false with
  | (none, _) => .rebuild
  | (some i, false) => .use i
  | (some i, true) =>
    match pastEndOffset i.rows with
    | .ok (some p) => if !n.compressed && p != 0 && i.valid then .extend i p else .rebuild
    | _ => .rebuild

/-! ## C24: the resume offset -/

theorem head_sortBy {α : Type} {le : α → α → Bool} (trans : ∀ a b c, le a b = true → le b c = true → le a c = true)
    (total : ∀ a b, le a b = true ∨ le b a = true) (l : List α) : ∀ h, (sortBy le l).head? = some h →
    ∃ pre post, l = pre ++ h :: post ∧ (∀ x ∈ pre, le x h = false) ∧ ∀ x ∈ l, le h x = true := by
  induction l with
  | nil => intro h hh; simp [sortBy] at hh
  | cons a l ih =>
    intro h hh
    have refl : ∀ x, le x x = true := fun x => (total x x).elim id id
    unfold sortBy at hh
    cases hs : sortBy le l with
    | nil =>
      have : l = [] := List.eq_nil_of_length_eq_zero (by rw [← (sortBy_perm le l).length_eq, hs]; rfl)
      subst this
      rw [hs] at hh
      simp only [insertBy, List.head?_cons, Option.some.injEq] at hh
      subst hh
      exact ⟨[], [], rfl, by simp, by simp [refl]⟩
    | cons b s =>
      obtain ⟨pre, post, h1, h2, h3⟩ := ih b (by rw [hs]; rfl)
      rw [hs] at hh
      unfold insertBy at hh
      by_cases hab : le a b = true
      · rw [if_pos hab] at hh
        simp only [List.head?_cons, Option.some.injEq] at hh
        subst hh
        refine ⟨[], l, rfl, by simp, ?_⟩
        intro x hx
        rcases List.mem_cons.mp hx with rfl | hx
        · exact refl _
        · exact trans _ _ _ hab (h3 x hx)
      · rw [if_neg hab] at hh
        simp only [List.head?_cons, Option.some.injEq] at hh
        subst hh
        refine ⟨a :: pre, post, by rw [h1]; rfl, ?_, ?_⟩
        · intro x hx
          rcases List.mem_cons.mp hx with rfl | hx
          · simpa using hab
          · exact h2 x hx
        · intro x hx
          rcases List.mem_cons.mp hx with rfl | hx
          · exact (total x b).resolve_left hab
          · exact h3 x hx

theorem desc_trans (a b c : PRow) : decide (b.offset ≤ a.offset) = true → decide (c.offset ≤ b.offset) = true →
    decide (c.offset ≤ a.offset) = true := by simp only [decide_eq_true_eq]; omega

theorem desc_total (a b : PRow) : decide (b.offset ≤ a.offset) = true ∨ decide (a.offset ≤ b.offset) = true := by
  simp only [decide_eq_true_eq]; omega

/-- `p` is the first multiple of 512 at or after `e`. -/
def IsBoundaryAfter (p e : Nat) : Prop := e ≤ p ∧ ∃ k, p = 512 * k ∧ 512 * (k - 1) < max e 1

/-- The full statement of C24: the resume offset is the first block boundary at or after the end of the data of all
indexed files. -/
def C24_statement : Prop :=
  ∀ (rows : List PRow) (p : Nat), pastEndOffset rows = .ok (some p) →
    (∀ r ∈ rows, r.offset + r.size ≤ p) ∧ ∃ r ∈ rows, IsBoundaryAfter p (r.offset + r.size)

/-- **C24 is violated by the code**: in a recursively indexed archive whose last member is a TAR, the row with the
largest offset is a file inside that TAR, and the resume offset lies inside the member. Here n.tar with its 3072
bytes at offset 512, and the ten bytes of its only file at offset 1024: reading resumes at 1536 in the middle of
n.tar, at its end-of-archive blocks. -/
theorem C24_violated : ¬ C24_statement := by
  intro h
  have := (h [⟨512, 3072, false⟩, ⟨1024, 10, false⟩] 1536 rfl).1 ⟨512, 3072, false⟩ (by simp)
  simp at this

/-- **C24** for archives without nested entries: no two files overlap, and of rows with the same data offset (a file
and the folders generated for it) the first one is the longest. Missing from the full claim: nested archives. -/
theorem C24_boundary_partial (rows : List PRow) (p : Nat) (h : pastEndOffset rows = .ok (some p))
    (hd : ∀ r ∈ rows, ∀ s ∈ rows, r.offset < s.offset → r.offset + r.size ≤ s.offset)
    (ht : rows.Pairwise (fun r s => r.offset = s.offset → s.size ≤ r.size)) :
    (∀ r ∈ rows, r.offset + r.size ≤ p) ∧ ∃ r ∈ rows, IsBoundaryAfter p (r.offset + r.size) := by
  unfold pastEndOffset at h
  cases hh : (sortBy (fun a b : PRow => decide (b.offset ≤ a.offset)) rows).head? with
  | none => rw [hh] at h; cases h
  | some l =>
    rw [hh] at h
    simp only at h
    obtain ⟨pre, post, h1, h2, h3⟩ := head_sortBy desc_trans desc_total rows l hh
    split at h
    · cases h
    · simp only [Except.ok.injEq, Option.some.injEq] at h
      have hl : l ∈ rows := by rw [h1]; simp
      have hp : IsBoundaryAfter p (l.offset + l.size) := by
        have hm := Nat.div_add_mod (l.offset + l.size) 512
        have hlt := Nat.mod_lt (l.offset + l.size) (show 0 < 512 by omega)
        unfold IsBoundaryAfter
        split at h
        · exact ⟨by omega, (l.offset + l.size) / 512 + 1, by omega, by omega⟩
        · exact ⟨by omega, (l.offset + l.size) / 512, by omega, by omega⟩
      refine ⟨?_, l, hl, hp⟩
      intro r hr
      have hle : r.offset ≤ l.offset := of_decide_eq_true (h3 r hr)
      have hend : r.offset + r.size ≤ l.offset + l.size := by
        rcases Nat.lt_or_ge r.offset l.offset with hlt | hge
        · have := hd r hr l hl hlt; omega
        · rw [h1] at hr ht
          rcases List.mem_append.mp hr with hr | hr
          · have := of_decide_eq_false (h2 r hr)
            omega
          · rcases List.mem_cons.mp hr with rfl | hr
            · omega
            · have := (List.pairwise_cons.mp (List.pairwise_append.mp ht).2.1).1 r hr (by omega)
              omega
      exact Nat.le_trans hend hp.1

/-- **C24**, no offset: it is missing exactly if there are no rows (an error) or the last file is sparse. -/
theorem C24_none (rows : List PRow) :
    (pastEndOffset rows = .error invalid ↔ rows = []) ∧
    (pastEndOffset rows = .ok none → ∃ r ∈ rows, r.sparse = true ∧ ∀ s ∈ rows, s.offset ≤ r.offset) := by
  unfold pastEndOffset
  cases hh : (sortBy (fun a b : PRow => decide (b.offset ≤ a.offset)) rows).head? with
  | none =>
    have hs : sortBy (fun a b : PRow => decide (b.offset ≤ a.offset)) rows = [] := List.head?_eq_none_iff.mp hh
    have : rows = [] := List.eq_nil_of_length_eq_zero (by rw [← (sortBy_perm _ rows).length_eq, hs]; rfl)
    simp [this]
  | some l =>
    obtain ⟨pre, post, h1, _, h3⟩ := head_sortBy desc_trans desc_total rows l hh
    simp only
    constructor
    · constructor
      · intro h; split at h <;> cases h
      · rintro rfl; simp [sortBy] at hh
    · intro h
      split at h
      · next hsp => exact ⟨l, by rw [h1]; simp, hsp, fun s hs => of_decide_eq_true (h3 s hs)⟩
      · cases h

example : pastEndOffset [⟨512, 1000, false⟩, ⟨512, 0, false⟩, ⟨2048, 1, false⟩, ⟨2048, 0, false⟩] = .ok (some 2560) := by
  decide

/-! ## C23: extending an index -/

/-- The case in which extending is allowed. -/
structure Safe (n : Now) (i : Index) : Prop where
  size : ∃ s z, i.stats = some s ∧ s.size = some z ∧ z ≤ n.size ∧ n.size ≤ 3 * z
  time : ∃ s t, i.stats = some s ∧ s.mtime = some t ∧ t ≤ n.mtime
  plain : n.compressed = false
  writable : n.readOnly = false
  large : 64 * 1024 * 1024 ≤ n.size ∧ 100 ≤ i.fileCount
  version : i.sameVersion = true

theorem tryMark_ok {n : Now} {s : Stats} {i : Index} {f g : Bool} (hs : i.stats = some s)
    (h : tryMark n s i f = .ok g) : (n.readOnly = true ∧ g = f) ∨ (g = true ∧ n.readOnly = false ∧ Safe n i) := by
  unfold tryMark at h
  cases hz : s.size with
  | none => rw [hz] at h; cases h
  | some size =>
    rw [hz] at h
    simp only at h
    split at h
    · cases h
    · cases ht : s.mtime with
      | none => rw [ht] at h; cases h
      | some t =>
        rw [ht] at h
        simp only at h
        split at h; · cases h
        split at h; · cases h
        split at h
        · left
          simp only [Except.ok.injEq] at h
          exact ⟨by assumption, h.symm⟩
        · right
          split at h; · cases h
          split at h; · cases h
          split at h; · cases h
          split at h; · cases h
          simp only [Except.ok.injEq] at h
          have hro : n.readOnly = false := by simp_all
          exact ⟨h.symm, hro, ⟨s, size, hs, hz, by omega, by omega⟩, ⟨s, t, hs, ht, by omega⟩, by simp_all, hro,
            ⟨by omega, by omega⟩, by simp_all⟩

theorem sizeStep_ok {n : Now} {s : Stats} {i : Index} {f g : Bool} (hs : i.stats = some s)
    (h : sizeStep n i s f = .ok g) : g = f ∨ (g = true ∧ Safe n i) := by
  unfold sizeStep at h
  cases hz : s.size with
  | none => rw [hz] at h; simp only [Except.ok.injEq] at h; exact .inl h.symm
  | some z =>
    rw [hz] at h
    simp only at h
    split at h
    · cases h
    · split at h
      · exact (tryMark_ok hs h).imp (·.2) (fun h => ⟨h.1, h.2.2⟩)
      · simp only [Except.ok.injEq] at h; exact .inl h.symm

theorem eofStep_ok {n : Now} {s : Stats} {i : Index} {past : Option Nat} {f g : Bool} (hs : i.stats = some s)
    (h : eofStep n i s past f = .ok g) : g = f ∨ (g = true ∧ Safe n i) := by
  unfold eofStep at h
  split at h
  · exact (tryMark_ok hs h).imp (·.2) (fun h => ⟨h.1, h.2.2⟩)
  · simp only [Except.ok.injEq] at h; exact .inl h.symm

theorem checkStats_flag {n : Now} {s : Stats} {i : Index} (f : Bool) (hs : i.stats = some s) :
    (checkStats n i s f).2 = f ∨ ((checkStats n i s f).2 = true ∧ Safe n i) := by
  unfold checkStats
  cases h1 : sizeStep n i s f with
  | error e => exact .inl rfl
  | ok g =>
    have e1 := sizeStep_ok hs h1
    simp only
    cases h2 : pastEndOffset i.rows with
    | error e => exact e1
    | ok past =>
      simp only
      cases h3 : eofStep n i s past g with
      | error e => exact e1
      | ok g2 =>
        have e2 := eofStep_ok hs h3
        have e3 : g2 = f ∨ (g2 = true ∧ Safe n i) := by
          rcases e2 with e2 | e2
          · rw [e2]; exact e1
          · exact .inr e2
        simp only
        split <;> exact e3

/-- The flag after a check is the flag before it or the index was safe to extend. -/
theorem checkMetadata_flag (n : Now) (i : Index) (f : Bool) : (checkMetadata n i f).2 = f ∨ Safe n i := by
  unfold checkMetadata
  cases hs : i.stats with
  | none => exact .inl rfl
  | some s =>
    simp only
    cases n.exists_ with
    | false => exact .inl rfl
    | true =>
      have := checkStats_flag (n := n) f hs
      simp only [if_true]
      cases hc : checkStats n i s f with
      | mk r g =>
        rw [hc] at this
        cases r <;> exact this.imp id (·.2)

/-- The full statement of C23: an index is extended only in the safe case. -/
def C23_statement : Prop :=
  ∀ (n : Now) (indexes : List Index) (i : Index) (p : Nat), construct n indexes = .extend i p → Safe n i

/-- **C23 is violated by the code** when there is more than one possible index: the mark `hasBeenAppendedTo` set
while checking an index that is rejected later stays set for the next one. Here the second index has a wrong
modification time and too few files, and is extended all the same. -/
theorem C23_violated : ¬ C23_statement := by
  intro h
  have := h ⟨100 * 1024 * 1024, 20, false, false, true, true⟩
    [⟨some ⟨some (90 * 1024 * 1024), some 10⟩, [⟨512, 1000, false⟩], 1000, true, false, false, true⟩,
     ⟨some ⟨some (100 * 1024 * 1024), some 15⟩, [⟨512, 1000, false⟩], 1, true, true, true, true⟩]
    ⟨some ⟨some (100 * 1024 * 1024), some 15⟩, [⟨512, 1000, false⟩], 1, true, true, true, true⟩ 1536 rfl
  exact absurd this.large.2 (by decide)

/-- **C23** when only one index exists, or in general for the first one that is looked at: it is extended only if the
archive did not shrink nor grow more than threefold, is not older, is not compressed and at least 64 MiB large, and
the index is writable, has the current version, at least 100 entries and still matches the archive. Missing from the full claim: further
candidates, see `C23_some_index`. -/
theorem C23_extended_partial (n : Now) (i j : Index) (p : Nat) (h : construct n [i] = .extend j p) :
    j = i ∧ Safe n i ∧ i.valid = true ∧ pastEndOffset i.rows = .ok (some p) := by
  have hf := checkMetadata_flag n i false
  unfold construct openExisting openExisting at h
  cases hc : checkMetadata n i false with
  | mk r flag =>
    rw [hc] at hf h
    cases r with
    | error e => cases h
    | ok u =>
      cases flag with
      | false => cases h
      | true =>
        simp only at h
        split at h
        · split at h
          · next hp hv =>
            simp only [Outcome.extend.injEq] at h
            obtain ⟨rfl, rfl⟩ := h
            simp only [Bool.and_eq_true] at hv
            exact ⟨rfl, hf.resolve_left (by simp), hv.2, hp⟩
          · cases h
        · cases h

/-- **C23**, any number of indexes: some index that was looked at was safe to extend. -/
theorem C23_some_index (n : Now) (indexes : List Index) (i : Index) (p : Nat) (h : construct n indexes = .extend i p) :
    ∃ j ∈ indexes, Safe n j := by
  have key : ∀ (l : List Index) (f : Bool), (openExisting n l f).2 = true → f = true ∨ ∃ j ∈ l, Safe n j := by
    intro l
    induction l with
    | nil => intro f hf; exact .inl hf
    | cons i l ih =>
      intro f hf
      have hm := checkMetadata_flag n i f
      unfold openExisting at hf
      cases hc : checkMetadata n i f with
      | mk r g =>
        rw [hc] at hf hm
        simp only at hm
        have hgs : g = true → f = true ∨ ∃ j ∈ i :: l, Safe n j := by
          intro hg
          rcases hm with hm | hm
          · exact .inl (by rw [← hm, hg])
          · exact .inr ⟨i, by simp, hm⟩
        cases r with
        | ok u => exact hgs hf
        | error e =>
          rcases ih g hf with hg | ⟨j, hj, hs⟩
          · exact hgs hg
          · exact .inr ⟨j, List.mem_cons_of_mem _ hj, hs⟩
  unfold construct at h
  have hk := key indexes false
  split at h
  · cases h
  · cases h
  · next heq => exact (hk (by rw [heq])).resolve_left (by simp)

/-- **C23**, an archive that has not changed: the first index is used as it is, for compressed archives too. The time is only looked at if this is
asked for. -/
theorem C23_unchanged (n : Now) (i : Index) (rest : List Index) (s : Stats) (past : Option Nat) (hs : i.stats = some s)
    (hsize : s.size = some n.size) (hmtime : n.verifyMtime = false ∨ s.mtime = some n.mtime) (hp : pastEndOffset i.rows = .ok past)
    (heof : n.compressed = true ∨ past.getD 0 = 0 ∨ i.eofZeros = true) (hrows : i.rowsOk = true) :
    construct n (i :: rest) = .use i := by
  have h1 : sizeStep n i s false = .ok false := by
    unfold sizeStep
    rw [hsize]
    simp
  have h2 : eofStep n i s past false = .ok false := by
    unfold eofStep
    rw [if_neg]
    rcases heof with h | h | h <;> simp [h]
  have h3 : checkStats n i s false = (.ok (), false) := by
    unfold checkStats
    rw [h1]
    simp only [hp, h2]
    rw [if_neg]
    rcases hmtime with h | h
    · simp [h]
    · simp [h]
  have h4 : checkMetadata n i false = (.ok (), false) := by
    unfold checkMetadata
    rw [hs]
    simp only [h3, ite_self, hrows, if_true]
  unfold construct openExisting
  rw [h4]

example : construct ⟨5000, 20, true, false, false, true⟩
    [⟨some ⟨some 5000, some 10⟩, [⟨512, 1000, false⟩], 3, true, false, true, true⟩]
    = .use ⟨some ⟨some 5000, some 10⟩, [⟨512, 1000, false⟩], 3, true, false, true, true⟩ :=
  C23_unchanged _ _ _ ⟨some 5000, some 10⟩ (some 1536) rfl rfl (.inl rfl) rfl (.inl rfl) rfl

/-- **C23**, another time: with the verification of times, a writable index of another time is not used as it is. -/
theorem C23_time (n : Now) (i : Index) (s : Stats) (he : n.exists_ = true) (hs : i.stats = some s) (hv : n.verifyMtime = true)
    (hmtime : s.mtime.isSome = true ∧ s.mtime ≠ some n.mtime) : construct n [i] ≠ .use i := by
  intro h
  have key : ∀ u, checkStats n i s false ≠ (.ok u, false) := by
    intro u hc
    unfold checkStats at hc
    cases h1 : sizeStep n i s false with
    | error e => rw [h1] at hc; simp at hc
    | ok f1 =>
      rw [h1] at hc
      simp only at hc
      cases h2 : pastEndOffset i.rows with
      | error e => rw [h2] at hc; simp at hc
      | ok past =>
        rw [h2] at hc
        simp only at hc
        cases h3 : eofStep n i s past f1 with
        | error e => rw [h3] at hc; simp at hc
        | ok f2 =>
          rw [h3] at hc
          simp only at hc
          split at hc
          · simp at hc
          · next hn =>
            simp only [Prod.mk.injEq, true_and] at hc
            exact hn ⟨hc, hv, hmtime.1, hmtime.2⟩
  unfold construct openExisting openExisting at h
  have hcm : checkMetadata n i false = (match checkStats n i s false with
      | (.error e, flag) => (.error e, flag)
      | (.ok (), flag) => (if i.rowsOk then .ok () else .error invalid, flag)) := by
    unfold checkMetadata
    rw [hs]
    simp only [he, if_true]
  rw [hcm] at h
  cases hc : checkStats n i s false with
  | mk r flag =>
    rw [hc] at h key
    cases r with
    | error e => simp at h
    | ok u =>
      cases flag with
      | false => exact key u rfl
      | true =>
        simp only at h
        cases hr : i.rowsOk with
        | false => rw [hr] at h; simp at h
        | true =>
          rw [hr] at h
          simp only [if_true] at h
          split at h
          · split at h <;> cases h
          · cases h

example : construct ⟨5000, 20, true, false, true, true⟩ [⟨some ⟨some 5000, some 10⟩, [⟨512, 1000, false⟩], 3, true, false, true, true⟩] = .rebuild := by
  rfl

/-- What passing the check implies for the sizes. -/
theorem checkMetadata_ok {n : Now} {i : Index} {f g : Bool} (he : n.exists_ = true)
    (h : checkMetadata n i f = (.ok (), g)) (s : Stats) (z : Nat) (hs : i.stats = some s) (hz : s.size = some z) :
    z ≤ n.size ∧ (z < n.size → n.readOnly = false → g = true) := by
  have key : (checkStats n i s f).1 = .ok () →
      z ≤ n.size ∧ (z < n.size → n.readOnly = false → (checkStats n i s f).2 = true) := by
    intro hok
    unfold checkStats at hok ⊢
    cases h1 : sizeStep n i s f with
    | error e => rw [h1] at hok; cases hok
    | ok g =>
      have e1 : z ≤ n.size ∧ (z < n.size → n.readOnly = false → g = true) := by
        unfold sizeStep at h1
        rw [hz] at h1
        simp only at h1
        split at h1
        · cases h1
        · refine ⟨by omega, fun hlt hro => ?_⟩
          rw [if_pos hlt] at h1
          rcases tryMark_ok hs h1 with e | e
          · rw [hro] at e; cases e.1
          · exact e.1
      rw [h1] at hok
      simp only at hok ⊢
      refine ⟨e1.1, fun hlt hro => ?_⟩
      have hg := e1.2 hlt hro
      cases h2 : pastEndOffset i.rows with
      | error e => exact hg
      | ok past =>
        simp only
        cases h3 : eofStep n i s past g with
        | error e => exact hg
        | ok g2 =>
          have hg2 : g2 = true := by
            rcases eofStep_ok hs h3 with e | e
            · rw [e, hg]
            · exact e.1
          simp only
          split <;> exact hg2
  unfold checkMetadata at h
  rw [hs] at h
  simp only [he, if_true] at h
  cases hc : checkStats n i s f with
  | mk r g' =>
    rw [hc] at h key
    cases r with
    | error e => simp at h
    | ok u =>
      simp only [Prod.mk.injEq] at h
      rw [← h.2]
      exact key rfl

/-- **C23**, shrunken archives: no index of an archive that shrank is ever used or extended. -/
theorem C23_shrunk (n : Now) (indexes : List Index) (i : Index) (he : n.exists_ = true)
    (h : construct n indexes = .use i ∨ ∃ p, construct n indexes = .extend i p) (s : Stats) (z : Nat)
    (hs : i.stats = some s) (hz : s.size = some z) : z ≤ n.size := by
  have key : ∀ (l : List Index) (f g : Bool), openExisting n l f = (some i, g) → z ≤ n.size := by
    intro l
    induction l with
    | nil => intro f g h; cases h
    | cons j l ih =>
      intro f g h
      unfold openExisting at h
      split at h
      · next hc =>
        obtain ⟨rfl, rfl⟩ : j = i ∧ _ = g := by simpa using h
        exact (checkMetadata_ok he hc s z hs hz).1
      · exact ih _ _ h
  unfold construct at h
  rcases h with h | ⟨p, h⟩
  · split at h
    · cases h
    · next heq => cases h; exact key _ _ _ heq
    · split at h
      · split at h <;> cases h
      · cases h
  · split at h
    · cases h
    · cases h
    · next heq =>
      split at h
      · split at h
        · cases h; exact key _ _ _ heq
        · cases h
      · cases h

/-- **C23**, grown archives: when the index may be written, an index of an archive that grew is never used as it is;
it is extended or made anew. -/
theorem C23_grown (n : Now) (indexes : List Index) (i : Index) (he : n.exists_ = true) (hw : n.readOnly = false)
    (h : construct n indexes = .use i) (s : Stats) (z : Nat) (hs : i.stats = some s) (hz : s.size = some z) :
    n.size = z := by
  have key : ∀ (l : List Index) (f : Bool), openExisting n l f = (some i, false) → n.size = z := by
    intro l
    induction l with
    | nil => intro f h; cases h
    | cons j l ih =>
      intro f h
      unfold openExisting at h
      split at h
      · next hc =>
        obtain ⟨rfl, rfl⟩ : j = i ∧ _ = false := by simpa using h
        obtain ⟨h1, h2⟩ := checkMetadata_ok he hc s z hs hz
        rcases Nat.lt_or_ge z n.size with hlt | hge
        · exact absurd (h2 hlt hw) (by simp)
        · omega
      · exact ih _ h
  unfold construct at h
  split at h
  · cases h
  · next heq => cases h; exact key _ _ heq
  · split at h
    · split at h <;> cases h
    · cases h

/-- An archive that grew from 90 to 100 MiB. -/
example : ∃ p, construct ⟨100 * 1024 * 1024, 20, false, false, true, true⟩
    [⟨some ⟨some (90 * 1024 * 1024), some 10⟩, [⟨512, 1000, false⟩], 1000, true, false, true, true⟩] =
    .extend ⟨some ⟨some (90 * 1024 * 1024), some 10⟩, [⟨512, 1000, false⟩], 1000, true, false, true, true⟩ p := ⟨1536, rfl⟩

end Verif.Tar
