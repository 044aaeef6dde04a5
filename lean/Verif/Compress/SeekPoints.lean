import Verif.Bytes
import Verif.Py
import Verif.Dict
import Verif.Sort

/-!
# C124, C125: stored seek points of compressed archives (core/ratarmountcore/SQLiteIndex.py:1386-1602)

The libraries are modelled by the index data that they export and by whether they accept data. How the data are split into rows and read
again is the subject of C06 and C07. That the export of a library fails, which drops the table and raises (SQLiteIndex.py:1585-1594), is not
modelled.
-/

namespace Verif.SeekPoints

open Verif.Bin Verif.Py

/-- The tables for gzip files (SQLiteIndex.py:1486-1487, 1561-1565), each one with its rows. -/
structure Tables where
  gztoolindex : Option (List Data)
  gzipindexes : Option (List Data)
  gzipindex : Option (List Data)
  deriving DecidableEq

/-- A library for gzip files: whether it is rapidgzip and whether this has `IndexFormat` (SQLiteIndex.py:1484, 1556-1560), which data it
imports, and the rows that it exports. -/
structure Lib where
  rapid : Bool
  format : Bool
  imports : Data → Bool
  exported : List Data

/-- `supports_gztool_index` (SQLiteIndex.py:1556-1560). -/
def Lib.gztool (l : Lib) : Bool := l.rapid && l.format

/-- The contents of the tables that are tried, in their order (SQLiteIndex.py:1485-1492). -/
def candidates (l : Lib) (t : Tables) : List Data :=
  ((if l.rapid then t.gztoolindex.toList else []) ++ t.gzipindexes.toList ++ t.gzipindex.toList).map List.flatten

/-- `_load_gzip_index` (SQLiteIndex.py:1475-1532): what is imported. -/
def load (l : Lib) (t : Tables) : Option Data := (candidates l t).find? l.imports

/-- The tables after data were written without failure (SQLiteIndex.py:1561-1600). -/
def store (l : Lib) (t : Tables) : Tables :=
  if l.gztool then { t with gztoolindex := some l.exported }
  else if l.exported.length = 1 then { t with gzipindexes := none, gzipindex := some l.exported }
  else { t with gzipindexes := some l.exported }

/-- What `synchronize_compression_offsets` does. -/
inductive Action
  | loaded (d : Data)
  | stored
  deriving DecidableEq

/-- The part for gzip of `synchronize_compression_offsets` (SQLiteIndex.py:1455-1466). -/
def sync (l : Lib) (t : Tables) : Action × Tables :=
  match load l t with
  | some d => (.loaded d, t)
  | none => (.stored, store l t)

/-- The part for bzip2 and Zstandard (SQLiteIndex.py:1415-1453). `accepts` is whether `set_block_offsets` succeeds. Rows are sorted by their
primary key. Gives the offsets that were set, if any, and the rows of the table. -/
def syncBlocks (accepts : List (Nat × Nat) → Bool) (exported : List (Nat × Nat)) (table : Option (List (Nat × Nat))) :
    Option (List (Nat × Nat)) × List (Nat × Nat) :=
  match table with
  | some rows => if accepts rows then (some rows, rows) else (none, sortBy (fun a b => decide (a.1 ≤ b.1)) exported)
  | none => (none, sortBy (fun a b => decide (a.1 ≤ b.1)) exported)

/-- The compressions that TARs can have (compressions.py:88-122) and all others. -/
inductive Compression
  | bzip2 | gzip | zlib | deflate | xz | zstandard | other
  deriving DecidableEq

/-- What `synchronize_compression_offsets` does for a compression (SQLiteIndex.py:1390-1473). -/
inductive Task
  | skipped
  | blocks
  | gzipIndex
  | nothing
  deriving DecidableEq

/-- `synchronize_compression_offsets` (SQLiteIndex.py:1390-1473): `inMemory`: there is no place for the database but memory,
`blockMethods`: the file object has `set_block_offsets` and `block_offsets`, `indexMethods`: it has `import_index` and `export_index`. -/
def synchronize (inMemory blockMethods indexMethods : Bool) (c : Compression) : Except PyErr Task :=
  if inMemory then .ok .skipped
  else if c = .bzip2 ∨ c = .zstandard then (if blockMethods then .ok .blocks else .ok .skipped)
  else if indexMethods = true ∧ (c = .gzip ∨ c = .zlib) then .ok .gzipIndex
  else if c = .xz then .ok .nothing
  else .error .notImplemented

/-! ## C124 -/

/-- Libraries import what they export themselves and what others export into the tables that they read. -/
def Compatible (ls : List Lib) : Prop :=
  ∀ a ∈ ls, ∀ b ∈ ls, (a.rapid = true ∨ (b.rapid && b.format) = false) → a.imports b.exported.flatten = true

theorem load_none {l : Lib} {t : Tables} (h : load l t = none) {d : Data} (hd : d ∈ candidates l t) : l.imports d = false := by
  unfold load at h
  rw [List.find?_eq_none] at h
  simpa using h d hd

/-- C124: what a library stored is what it loads the next time. -/
theorem C124_roundtrip (l : Lib) (t : Tables) (h : (sync l t).1 = .stored) (hi : l.imports l.exported.flatten = true) :
    load l (sync l t).2 = some l.exported.flatten ∧ sync l (sync l t).2 = (.loaded l.exported.flatten, (sync l t).2) := by
  have hl : load l t = none := by
    unfold sync at h
    split at h
    · cases h
    · assumption
  have key : load l (store l t) = some l.exported.flatten := by
    unfold load
    rw [List.find?_eq_some_iff_append]
    refine ⟨hi, ?_⟩
    unfold store
    have hold := fun d => @load_none l t hl d
    by_cases hg : l.gztool = true
    · have hr : l.rapid = true := by unfold Lib.gztool at hg; simp at hg; exact hg.1
      rw [if_pos hg]
      refine ⟨[], _, by unfold candidates; rw [if_pos hr]; rfl, by simp⟩
    · rw [if_neg hg]
      have hpre : ∀ d ∈ (if l.rapid then t.gztoolindex.toList else []).map List.flatten, (!l.imports d) = true := by
        intro d hd
        rw [hold d (by unfold candidates; simp only [List.map_append, List.mem_append]; exact .inl (.inl hd))]
        rfl
      split
      · refine ⟨(if l.rapid then t.gztoolindex.toList else []).map List.flatten, [], ?_, hpre⟩
        unfold candidates
        simp
      · refine ⟨(if l.rapid then t.gztoolindex.toList else []).map List.flatten, t.gzipindex.toList.map List.flatten, ?_, hpre⟩
        unfold candidates
        simp
  have h2 : (sync l t).2 = store l t := by
    unfold sync
    rw [hl]
  rw [h2]
  refine ⟨key, ?_⟩
  rw [sync, key]

theorem load_isSome {l : Lib} {t : Tables} {d : Data} (hd : d ∈ candidates l t) (hi : l.imports d = true) : (load l t).isSome = true := by
  unfold load
  rw [List.find?_isSome]
  exact ⟨d, hd, hi⟩

theorem sync_keeps {l k : Lib} {t : Tables} (h : (load l t).isSome = true)
    (hc : (l.rapid = true ∨ (k.rapid && k.format) = false) → l.imports k.exported.flatten = true) :
    (load l (sync k t).2).isSome = true := by
  unfold sync
  split
  · exact h
  · simp only
    unfold load at h
    rw [List.find?_isSome] at h
    obtain ⟨d, hd, hi⟩ := h
    unfold store
    by_cases hk : k.gztool = true
    · rw [if_pos hk]
      by_cases hr : l.rapid = true
      · apply load_isSome (d := k.exported.flatten)
        · unfold candidates
          simp [hr]
        · exact hc (.inl hr)
      · apply load_isSome (d := d) _ hi
        unfold candidates at hd ⊢
        rw [if_neg hr] at hd ⊢
        exact hd
    · rw [if_neg hk]
      have hnew : l.imports k.exported.flatten = true := hc (.inr (by unfold Lib.gztool at hk; simpa using hk))
      split
      · apply load_isSome (d := k.exported.flatten) _ hnew
        unfold candidates
        simp
      · apply load_isSome (d := k.exported.flatten) _ hnew
        unfold candidates
        simp

/-- C124: after a library has stored or loaded seek points, it finds some whenever it is used again, whichever libraries were used in
between. -/
theorem C124_found_again (l : Lib) (ks : List Lib) (t : Tables) (hc : Compatible (l :: ks)) :
    (load l (ks.foldl (fun s k => (sync k s).2) (sync l t).2)).isSome = true := by
  have hfirst : (load l (sync l t).2).isSome = true := by
    cases hl : load l t with
    | some d =>
      unfold sync
      rw [hl]
      simp only
      rw [hl]
      rfl
    | none =>
      have hs : (sync l t).1 = .stored := by unfold sync; rw [hl]
      rw [(C124_roundtrip l t hs (hc l List.mem_cons_self l List.mem_cons_self ?_)).1]
      · rfl
      · by_cases hr : l.rapid = true
        · exact .inl hr
        · right; simp [hr]
  have hall : ∀ (ks : List Lib) (s : Tables), (∀ k ∈ ks, (l.rapid = true ∨ (k.rapid && k.format) = false) →
      l.imports k.exported.flatten = true) → (load l s).isSome = true → (load l (ks.foldl (fun s k => (sync k s).2) s)).isSome = true := by
    intro ks
    induction ks with
    | nil => intro s _ h; exact h
    | cons k ks ih =>
      intro s hk h
      exact ih _ (fun x hx => hk x (List.mem_cons_of_mem _ hx)) (sync_keeps h (hk k List.mem_cons_self))
  exact hall ks _ (fun k hk => hc l List.mem_cons_self k (List.mem_cons_of_mem _ hk)) hfirst

/-- C124: data that a library does not read are never given to it: the own format of rapidgzip is only imported by rapidgzip. -/
theorem C124_own_format (l : Lib) (t : Tables) (d : Data) (h : load l t = some d) (hr : l.rapid = false) :
    ∃ rows, (t.gzipindexes = some rows ∨ t.gzipindex = some rows) ∧ d = rows.flatten := by
  have hm := List.mem_of_find?_eq_some h
  unfold candidates at hm
  simp only [hr, Bool.false_eq_true, if_false, List.nil_append, List.map_append, List.mem_append, List.mem_map, Option.mem_toList] at hm
  rcases hm with ⟨rows, h1, h2⟩ | ⟨rows, h1, h2⟩
  · exact ⟨rows, .inl h1, h2.symm⟩
  · exact ⟨rows, .inr h1, h2.symm⟩

/-- C124: block offsets that were stored are set the next time. -/
theorem C124_blocks (accepts : List (Nat × Nat) → Bool) (exported again : List (Nat × Nat)) (table : Option (List (Nat × Nat)))
    (hn : (exported.map Prod.fst).Nodup) (h : (syncBlocks accepts exported table).1 = none)
    (ha : ∀ rows, (∀ k, Dict.get? rows k = Dict.get? exported k) → accepts rows = true) :
    ∃ rows, syncBlocks accepts again (some (syncBlocks accepts exported table).2) = (some rows, rows) ∧
      ∀ k, Dict.get? rows k = Dict.get? exported k := by
  have h2 : (syncBlocks accepts exported table).2 = sortBy (fun a b => decide (a.1 ≤ b.1)) exported := by
    unfold syncBlocks at h ⊢
    split
    · split
      · next rows hr => simp [hr] at h
      · rfl
    · rfl
  have hsame : ∀ k, Dict.get? (sortBy (fun a b : Nat × Nat => decide (a.1 ≤ b.1)) exported) k = Dict.get? exported k := by
    intro k
    have hp := sortBy_perm (fun a b : Nat × Nat => decide (a.1 ≤ b.1)) exported
    have hn' : (Dict.keys (sortBy (fun a b : Nat × Nat => decide (a.1 ≤ b.1)) exported)).Nodup := (hp.map Prod.fst).nodup_iff.mpr hn
    apply Option.ext
    intro v
    constructor
    · intro hv
      exact Dict.get?_eq_some_of_mem exported hn (hp.mem_iff.mp (Dict.mem_of_get? _ hv))
    · intro hv
      exact Dict.get?_eq_some_of_mem _ hn' (hp.mem_iff.mpr (Dict.mem_of_get? _ hv))
  refine ⟨_, ?_, hsame⟩
  rw [h2]
  simp only [syncBlocks]
  rw [if_pos (ha _ hsame)]

/-- Data of the own format of rapidgzip start with 2, others with 1. -/
def sampleRapid : Lib := ⟨true, true, fun d => d.head? = some 1 || d.head? = some 2, [[2, 5], [6]]⟩
/-- An older rapidgzip without formats. -/
def sampleOld : Lib := ⟨true, false, fun d => d.head? = some 1 || d.head? = some 2, [[1, 7], [8]]⟩
/-- indexed_gzip. -/
def sampleIndexed : Lib := ⟨false, false, fun d => d.head? = some 1, [[1, 9]]⟩

example : Compatible [sampleIndexed, sampleRapid, sampleOld] := by
  intro a ha b hb h
  simp only [List.mem_cons, List.not_mem_nil, or_false] at ha hb
  rcases ha with rfl | rfl | rfl <;> rcases hb with rfl | rfl | rfl <;> revert h <;> decide

example : (sync sampleRapid ⟨none, none, none⟩).1 = .stored ∧ (sync sampleIndexed (sync sampleRapid ⟨none, none, none⟩).2).1 = .stored ∧
    (sync sampleIndexed (sync sampleRapid ⟨none, none, none⟩).2).2 = ⟨some [[2, 5], [6]], none, some [[1, 9]]⟩ := by decide

example : syncBlocks (fun _ => true) [(3, 30), (1, 10)] none = (none, [(1, 10), (3, 30)]) ∧ ([(3, 30), (1, 10)].map Prod.fst).Nodup := by
  decide

/-! ## C125 -/

/-- C125 as claimed: with a library that offers the methods, seek points of every compression that TARs can have are handled. -/
def C125_statement : Prop := ∀ (inMemory : Bool) (c : Compression), c ≠ .other → ∃ t, synchronize inMemory true true c = .ok t

/-- C125 does not hold: raw deflate data are opened with rapidgzip and an index on disk raises. -/
theorem C125_violated : ¬ C125_statement := by
  intro h
  obtain ⟨t, ht⟩ := h false .deflate (by decide)
  cases ht

/-- C125: exactly the unknown compressions and raw deflate data fail; bzip2 and Zstandard store blocks, gzip and zlib store the data of the
library, XZ needs nothing. -/
theorem C125_partial (c : Compression) :
    synchronize false true true c = match c with
      | .bzip2 | .zstandard => .ok .blocks
      | .gzip | .zlib => .ok .gzipIndex
      | .xz => .ok .nothing
      | .deflate | .other => .error .notImplemented := by
  cases c <;> rfl

/-- C125: libraries without the methods are no problem for bzip2 and Zstandard, but for gzip and zlib. -/
theorem C125_methods_partial (c : Compression) (b i : Bool) :
    (∃ t, synchronize false b i c = .ok t) ↔ (c = .bzip2 ∨ c = .zstandard ∨ c = .xz ∨ (i = true ∧ (c = .gzip ∨ c = .zlib))) := by
  cases c <;> cases b <;> cases i <;> simp [synchronize]

end Verif.SeekPoints
