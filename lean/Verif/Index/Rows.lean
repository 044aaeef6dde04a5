import Verif.Index.Build

/-!
# What is found in an index that was made from a list of rows (core/ratarmountcore/SQLiteIndex.py:1060-1090)

Used by the archive formats: a row is found if it is the last one with its key, and every file that is found is such a row.
-/

namespace Verif.Index

open Verif.Py

/-- The row is the last one with its key (path, name and header offset). -/
def LastRow (rs : List Row) (r : Row) : Prop := ∃ before after, rs = before ++ r :: after ∧ ∀ q ∈ after, q.1 ≠ r.1

theorem getLast?_filter_of_last {α : Type} {p : α → Bool} {before after : List α} {r : α} (hp : p r = true) (h : ∀ q ∈ after, p q = false) :
    ((before ++ r :: after).filter p).getLast? = some r := by
  have : after.filter p = [] := by
    rw [List.filter_eq_nil_iff]
    intro q hq
    rw [h q hq]
    simp
  rw [List.filter_append, List.filter_cons, if_pos hp, this, List.getLast?_append]
  rfl

theorem last_of_getLast? {α : Type} {p : α → Bool} {r : α} : ∀ {l : List α}, (l.filter p).getLast? = some r →
    ∃ before after, l = before ++ r :: after ∧ p r = true ∧ ∀ q ∈ after, p q = false := by
  intro l
  induction l with
  | nil => intro h; simp at h
  | cons a l ih =>
    intro h
    cases hl : (l.filter p).getLast? with
    | some x =>
      have : (List.filter p (a :: l)).getLast? = some x := by
        rw [List.filter_cons]
        split
        · rw [List.getLast?_cons, hl]; rfl
        · exact hl
      rw [this] at h
      cases h
      obtain ⟨b, c, h1, h2, h3⟩ := ih hl
      exact ⟨a :: b, c, by rw [h1]; rfl, h2, h3⟩
    | none =>
      have hn := List.getLast?_eq_none_iff.mp hl
      rw [List.filter_cons, hn] at h
      split at h
      · next ha =>
        cases h
        refine ⟨[], l, rfl, ha, ?_⟩
        intro q hq
        have := List.filter_eq_nil_iff.mp hn q hq
        simpa using this
      · cases h

theorem lastRow_get (rs : List Row) (r : Row) : LastRow rs r ↔ (rs.foldl insertOrReplace ([] : Table)).get? r.1 = some r.2 := by
  rw [foldl_replace_get]
  simp only [Dict.get?_nil, Option.or_none, Option.map_eq_some_iff]
  constructor
  · rintro ⟨b, a, rfl, ha⟩
    exact ⟨r, getLast?_filter_of_last (by simp) (fun q hq => by simpa using ha q hq), rfl⟩
  · rintro ⟨q, hq, he⟩
    obtain ⟨b, a, h1, h2, h3⟩ := last_of_getLast? hq
    have hk : q.1 = r.1 := by simpa using h2
    have : q = r := Prod.ext hk he
    subst this
    exact ⟨b, a, h1, fun x hx => by simpa using h3 x hx⟩

theorem lastRow_build {rs : List Row} {r : Row} (h : LastRow rs r) : r ∈ build [rs] := by
  have inv := insertAll_inv [rs]
  simp only [List.flatten_cons, List.flatten_nil, List.append_nil] at inv
  unfold build DB.finalize
  refine Dict.mem_of_get? _ (foldl_ignore_old (insertAll [rs]).generated (insertAll [rs]).files r.1 r.2 ?_)
  rw [inv.files]
  exact (lastRow_get rs r).mp h

theorem build_row {rs : List Row} {r : Row} (h : r ∈ build [rs]) : LastRow rs r ∨ r.2.mode = 0o40555 := by
  have h1 := Dict.get?_eq_some_of_mem _ (build_nodup [rs]) (k := r.1) (v := r.2) h
  rcases foldl_ignore_get _ _ _ _ h1 with h2 | ⟨-, h2⟩
  · left
    have inv := insertAll_inv [rs]
    simp only [List.flatten_cons, List.flatten_nil, List.append_nil] at inv
    rw [inv.files] at h2
    exact (lastRow_get rs r).mpr h2
  · exact .inr (generated_dir _ r h2)

/-- What is found is a row of the table. -/
theorem lookup_mem {t : Table} (ht : t.keys.Nodup) {ns : List Str} {n : Str} (hn : ∀ x ∈ ns ++ [n], IsName x) {version : Int}
    {fi : FileInfo} (hl : lookup t (canonical (ns ++ [n])) version = some fi) :
    ∃ r ∈ t, toFileInfo r = fi ∧ r.1.path = folderPath ns ∧ r.1.name = n := by
  rw [C15_lookup t ht ns n hn _ (query_canonical _ hn) _ (entries_exist ht _ _)] at hl
  have hmem : ∃ r ∈ orderAsc (rowsAt t (folderPath ns) n), toFileInfo r = fi := by
    split at hl
    · rw [Option.map_eq_some_iff] at hl
      obtain ⟨r, hr, he⟩ := hl
      exact ⟨r, List.mem_of_getElem? hr, he⟩
    · rw [Option.map_eq_some_iff] at hl
      obtain ⟨r, hr, he⟩ := hl
      exact ⟨r, List.mem_reverse.mp (List.mem_of_getElem? hr), he⟩
  obtain ⟨r, hr, he⟩ := hmem
  obtain ⟨h1, h2, h3⟩ := ((entries_exist ht (folderPath ns) n).mem r).mp hr
  exact ⟨r, h1, he, h2, h3⟩

/-- Every row of the table is found in some version of its path. -/
theorem mem_lookup {t : Table} (ht : t.keys.Nodup) {ns : List Str} {n : Str} (hn : ∀ x ∈ ns ++ [n], IsName x) {r : Row} (hr : r ∈ t)
    (hp : r.1.path = folderPath ns) (hname : r.1.name = n) : ∃ version, lookup t (canonical (ns ++ [n])) version = some (toFileInfo r) := by
  have hr' := ((entries_exist ht (folderPath ns) n).mem r).mpr ⟨hr, hp, hname⟩
  obtain ⟨i, hi⟩ := List.getElem?_of_mem hr'
  refine ⟨(i : Int) + 1, ?_⟩
  rw [C15_lookup t ht ns n hn _ (query_canonical _ hn) _ (entries_exist ht _ _), if_pos (by omega)]
  rw [show ((i : Int) + 1 - 1).toNat = i by omega, hi]
  rfl

/-- `path, name = normpath(p).rsplit("/", 1)` gives the place of a canonical path. -/
theorem splitPath_canonical {ns : List Str} {n : Str} (hn : ∀ m ∈ ns ++ [n], IsName m) : splitPath (canonical (ns ++ [n])) = (folderPath ns, n) := by
  unfold splitPath
  rw [canonical_append, rsplit1_append _ _ (hn n (by simp)).2.1]
  rfl

/-- The path is known from the place. -/
theorem splitPath_inj {p : Str} {ns : List Str} {n : Str} (h : splitPath (normpath p) = (folderPath ns, n)) : normpath p = canonical (ns ++ [n]) := by
  unfold splitPath at h
  cases hs : rsplit1 '/' (normpath p) with
  | none =>
    rw [rsplit1_none] at hs
    exact absurd (by simp [normpath]) hs
  | some q =>
    rw [hs, Option.getD_some] at h
    subst h
    rw [(rsplit1_some hs).1, canonical_append]

/-- A file that is found under a path in some version is the last row with its key. -/
theorem lookup_lastRow {rs : List Row} {ns : List Str} {n : Str} (hn : ∀ x ∈ ns ++ [n], IsName x) {version : Int} {fi : FileInfo}
    (hl : lookup (build [rs]) (canonical (ns ++ [n])) version = some fi) (hf : isDir fi.info.mode = false) :
    ∃ r, LastRow rs r ∧ toFileInfo r = fi ∧ r.1.path = folderPath ns ∧ r.1.name = n := by
  obtain ⟨r, h1, rfl, h2, h3⟩ := lookup_mem (build_nodup _) hn hl
  rcases build_row h1 with h | h
  · exact ⟨r, h, rfl, h2, h3⟩
  · rw [show (toFileInfo r).info.mode = r.2.mode from rfl, h] at hf
    exact absurd hf (by decide)

/-- The last row with its key is found in some version of its path. -/
theorem lastRow_lookup {rs : List Row} {ns : List Str} {n : Str} (hn : ∀ x ∈ ns ++ [n], IsName x) {r : Row} (hr : LastRow rs r)
    (hp : r.1.path = folderPath ns) (hname : r.1.name = n) : ∃ version, lookup (build [rs]) (canonical (ns ++ [n])) version = some (toFileInfo r) :=
  mem_lookup (build_nodup _) hn (lastRow_build hr) hp hname

/-! ## several batches -/

theorem lastRow_batches {bs : List (List Row)} {r : Row} (h : LastRow bs.flatten r) : r ∈ build bs := by
  unfold build DB.finalize
  refine Dict.mem_of_get? _ (foldl_ignore_old (insertAll bs).generated (insertAll bs).files r.1 r.2 ?_)
  rw [(insertAll_inv bs).files]
  exact (lastRow_get bs.flatten r).mp h

theorem batches_row {bs : List (List Row)} {r : Row} (h : r ∈ build bs) : LastRow bs.flatten r ∨ r.2.mode = 0o40555 := by
  have h1 := Dict.get?_eq_some_of_mem _ (build_nodup bs) (k := r.1) (v := r.2) h
  rcases foldl_ignore_get _ _ _ _ h1 with h2 | ⟨-, h2⟩
  · left
    rw [(insertAll_inv bs).files] at h2
    exact (lastRow_get bs.flatten r).mpr h2
  · exact .inr (generated_dir _ r h2)

end Verif.Index
