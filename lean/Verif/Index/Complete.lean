import Verif.Index.Rows

/-! Rows of a whole file system: each path once and with rows for all folders. Then the index is exactly these rows. -/

namespace Verif.Index

open Verif.Py

/-- Folder and name of a row. -/
def place (r : Row) : Str × Str := (r.1.path, r.1.name)

/-- Each place occurs once and each ancestor is among the rows, as a folder. -/
structure Complete (rs : List Row) : Prop where
  once : (rs.map place).Nodup
  parents : ∀ r ∈ rs, ∀ p ∈ ancestorPairs r.1.path, ∃ q ∈ rs, dirBit q.2.mode = true ∧ place q = p

theorem complete_last {rs : List Row} (h : (rs.map place).Nodup) {r : Row} (hr : r ∈ rs) : LastRow rs r := by
  obtain ⟨b, a, rfl⟩ := List.append_of_mem hr
  refine ⟨b, a, rfl, ?_⟩
  intro q hq he
  rw [List.map_append, List.map_cons] at h
  have h2 := (List.nodup_cons.mp (List.nodup_append.mp h).2.1).1
  apply h2
  rw [List.mem_map]
  exact ⟨q, hq, by unfold place; rw [he]⟩

theorem complete_generated {rs : List Row} (h : Complete rs) : (insertAll [rs]).generated = [] := by
  have inv := insertAll_inv [rs]
  simp only [List.flatten_cons, List.flatten_nil, List.append_nil] at inv
  unfold DB.generated
  rw [List.map_eq_nil_iff, List.filter_eq_nil_iff]
  intro p hp
  have hk : p.1 ∈ (insertAll [rs]).parents.keys := by
    unfold Dict.keys
    exact List.mem_map_of_mem hp
  obtain ⟨r, hr, ha⟩ := (inv.parents p.1).mp hk
  obtain ⟨q, hq, hd, he⟩ := h.parents r hr p.1 ha
  simp only [decide_eq_true_eq]
  intro hall
  refine hall q ?_ hd he
  rw [inv.files]
  exact Dict.mem_of_get? _ ((lastRow_get rs q).mp (complete_last h.once hq))

/-- The index is exactly the rows. -/
theorem complete_build {rs : List Row} (h : Complete rs) (r : Row) : r ∈ build [rs] ↔ r ∈ rs := by
  constructor
  · intro hr
    unfold build DB.finalize at hr
    rw [complete_generated h] at hr
    have inv := insertAll_inv [rs]
    simp only [List.flatten_cons, List.flatten_nil, List.append_nil] at inv
    have hb : (insertAll [rs]).files.keys.Nodup := by
      have := build_nodup [rs]
      unfold build DB.finalize at this
      rwa [complete_generated h] at this
    have hg := Dict.get?_eq_some_of_mem _ hb (k := r.1) (v := r.2) hr
    rw [inv.files] at hg
    obtain ⟨b, a, he, -⟩ := (lastRow_get rs r).mpr hg
    rw [he]
    simp
  · intro hr
    exact lastRow_build (complete_last h.once hr)

theorem place_inj {rs : List Row} (h : (rs.map place).Nodup) {a b : Row} (ha : a ∈ rs) (hb : b ∈ rs) (he : place a = place b) : a = b := by
  induction rs with
  | nil => cases ha
  | cons x xs ih =>
    rw [List.map_cons, List.nodup_cons] at h
    rcases List.mem_cons.mp ha with rfl | ha2
    · rcases List.mem_cons.mp hb with rfl | hb
      · rfl
      · exact absurd (List.mem_map.mpr ⟨b, hb, he.symm⟩) h.1
    · rcases List.mem_cons.mp hb with rfl | hb
      · exact absurd (List.mem_map.mpr ⟨a, ha2, he⟩) h.1
      · exact ih h.2 ha2 hb

/-- Each row is what is found at its path. -/
theorem complete_lookup {rs : List Row} (h : Complete rs) {r : Row} (hr : r ∈ rs) {ns : List Str} {n : Str} (hn : ∀ x ∈ ns ++ [n], IsName x)
    (hp : r.1.path = folderPath ns) (hname : r.1.name = n) : lookup (build [rs]) (canonical (ns ++ [n])) 0 = some (toFileInfo r) := by
  have ht := build_nodup [rs]
  have hes := entries_exist ht (folderPath ns) n
  rw [C15_lookup _ ht ns n hn _ (query_canonical _ hn) _ hes, if_neg (by omega)]
  have hone : ∀ q, q ∈ orderAsc (rowsAt (build [rs]) (folderPath ns) n) → q = r := by
    intro q hq
    obtain ⟨h1, h2, h3⟩ := (hes.mem q).mp hq
    refine place_inj h.once ((complete_build h q).mp h1) hr ?_
    unfold place
    rw [h2, h3, hp, hname]
  have hin : r ∈ orderAsc (rowsAt (build [rs]) (folderPath ns) n) := (hes.mem r).mpr ⟨(complete_build h r).mpr hr, hp, hname⟩
  have hsome : (orderAsc (rowsAt (build [rs]) (folderPath ns) n)).reverse[(-(0 : Int)).toNat]? = some r := by
    show (orderAsc (rowsAt (build [rs]) (folderPath ns) n)).reverse[0]? = some r
    cases hl : (orderAsc (rowsAt (build [rs]) (folderPath ns) n)).reverse with
    | nil => rw [List.reverse_eq_nil_iff] at hl; rw [hl] at hin; cases hin
    | cons x xs =>
      have : x ∈ (orderAsc (rowsAt (build [rs]) (folderPath ns) n)).reverse := by rw [hl]; simp
      rw [List.mem_reverse] at this
      rw [List.getElem?_cons_zero, hone x this]
  rw [hsome]
  rfl

/-- Everything that is found, in any version, is one of the rows. -/
theorem lookup_complete {rs : List Row} (h : Complete rs) {ns : List Str} {n : Str} (hn : ∀ x ∈ ns ++ [n], IsName x) {version : Int}
    {fi : FileInfo} (hl : lookup (build [rs]) (canonical (ns ++ [n])) version = some fi) :
    ∃ r ∈ rs, toFileInfo r = fi ∧ r.1.path = folderPath ns ∧ r.1.name = n := by
  obtain ⟨r, h1, h2⟩ := lookup_mem (build_nodup _) hn hl
  exact ⟨r, (complete_build h r).mp h1, h2⟩

end Verif.Index
