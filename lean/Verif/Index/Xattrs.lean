import Verif.Index.Build

/-!
# C20: extended attributes (core/ratarmountcore/SQLiteIndex.py:974-1016, create-index-tables.sql:28-55)

The tables "xattrkeys" and "xattrsdata" are dictionaries, the view "xattrs" is their join. Indexes that lack the
tables (`sqlite3.OperationalError`) are not modelled. Attribute values are of an arbitrary type.
-/

namespace Verif.Index

open Verif.Py

/-- "xattrkeys" (name UNIQUE, id primary key) and "xattrsdata" (primary key (offsetheader, keyid)) (create-index-tables.sql, used at SQLiteIndex.py:972-1016). -/
structure XDB (V : Type) where
  keys : Dict Str Nat
  data : Dict (Int × Nat) V

variable {V : Type}

/-- The id SQLite gives to a new row of "xattrkeys": one more than the largest one (SQLite, used at SQLiteIndex.py:972-974). -/
def newId (keys : Dict Str Nat) : Nat := keys.foldl (fun m kv => max m kv.2) 0 + 1

/-- One row inserted into the view "xattrs": the trigger "xattrs_insert" (create-index-tables.sql:46-55) (SQLiteIndex.py:972-974). -/
def XDB.insert (x : XDB V) (row : Int × Str × V) : XDB V :=
  let keys := insertOrIgnore x.keys (row.2.1, newId x.keys)
  match keys.get? row.2.1 with
  | some id => ⟨keys, insertOrReplace x.data ((row.1, id), row.2.2)⟩
  | none => ⟨keys, x.data⟩  -- SELECT without result gives NULL; does not happen

/-- `setxattrs` (SQLiteIndex.py:972-974). -/
def XDB.setxattrs (x : XDB V) (rows : List (Int × Str × V)) : XDB V := rows.foldl XDB.insert x

/-- The rows of the view "xattrs" (create-index-tables.sql:42-44): "xattrsdata" joined with "xattrkeys" (SQLiteIndex.py:976-1016). -/
def XDB.view (x : XDB V) : List (Int × Str × V) :=
  x.data.flatMap (fun d => (x.keys.filter (fun k => decide (k.2 = d.1.2))).map (fun k => (d.1.1, k.1, d.2)))

/-- `list_xattr` (SQLiteIndex.py:976-996). -/
def XDB.listXattr (x : XDB V) (f : FileInfo) : List Str :=
  if f.info.generated then []
  else (x.view.filter (fun r => decide (r.1 = f.oh))).map (fun r => r.2.1)

/-- `get_xattr` (SQLiteIndex.py:1001-1016). -/
def XDB.getXattr (x : XDB V) (f : FileInfo) (key : Str) : Option V :=
  if f.info.generated then none
  else ((x.view.filter (fun r => decide (r.1 = f.oh ∧ r.2.1 = key))).head?).map (fun r => r.2.2)

/-- New tables (SQLiteIndex.py:643-660). -/
def XDB.empty : XDB V := ⟨[], []⟩

/-! ## specification -/

/-- The value written last for a key of the file with the given header offset. -/
def lastWritten (hist : List (Int × Str × V)) (oh : Int) (key : Str) : Option V :=
  (hist.reverse.find? (fun r => decide (r.1 = oh ∧ r.2.1 = key))).map (fun r => r.2.2)

/-! ## lemmas -/

theorem newId_gt (keys : Dict Str Nat) (kv : Str × Nat) (h : kv ∈ keys) : kv.2 < newId keys := by
  have key : ∀ (l : List (Str × Nat)) (m : Nat), m ≤ l.foldl (fun m kv => max m kv.2) m ∧
      ∀ kv ∈ l, kv.2 ≤ l.foldl (fun m kv => max m kv.2) m := by
    intro l
    induction l with
    | nil => intro m; simp
    | cons a l ih =>
      intro m
      obtain ⟨h1, h2⟩ := ih (max m a.2)
      refine ⟨by rw [List.foldl_cons]; omega, ?_⟩
      intro kv hkv
      rw [List.foldl_cons]
      rcases List.mem_cons.mp hkv with rfl | hkv
      · omega
      · exact h2 kv hkv
  have := (key keys 0).2 kv h
  unfold newId
  omega

/-- What every history of insertions keeps. -/
structure XDB.Inv (x : XDB V) (hist : List (Int × Str × V)) : Prop where
  nodup : x.keys.keys.Nodup
  inj : ∀ a ∈ x.keys, ∀ b ∈ x.keys, a.2 = b.2 → a = b
  data : x.data.keys.Nodup
  known : ∀ d ∈ x.data, ∃ k ∈ x.keys, k.2 = d.1.2
  value : ∀ oh key, lastWritten hist oh key = (x.keys.get? key).bind (fun id => x.data.get? (oh, id))

theorem lastWritten_append (hist : List (Int × Str × V)) (r : Int × Str × V) (oh : Int) (key : Str) :
    lastWritten (hist ++ [r]) oh key = if r.1 = oh ∧ r.2.1 = key then some r.2.2 else lastWritten hist oh key := by
  unfold lastWritten
  rw [List.reverse_append, List.reverse_singleton, List.singleton_append, List.find?_cons]
  by_cases h : r.1 = oh ∧ r.2.1 = key
  · rw [if_pos h, decide_eq_true h]; rfl
  · rw [if_neg h, decide_eq_false h]

theorem get?_of_inj {x : XDB V} {hist} (h : x.Inv hist) {k : Str} {id : Nat} : x.keys.get? k = some id ↔ (k, id) ∈ x.keys :=
  ⟨Dict.mem_of_get? _, Dict.get?_eq_some_of_mem _ h.nodup⟩

theorem insert_inv (x : XDB V) (hist : List (Int × Str × V)) (h : x.Inv hist) (r : Int × Str × V) :
    (x.insert r).Inv (hist ++ [r]) := by
  obtain ⟨oh, key, v⟩ := r
  have hk : ∀ k, (insertOrIgnore x.keys (key, newId x.keys)).get? k =
      if key = k then some ((x.keys.get? k).getD (newId x.keys)) else x.keys.get? k :=
    fun k => get?_insertOrIgnore _ _ _
  have hget := hk key
  rw [if_pos rfl] at hget
  have hx : x.insert (oh, key, v) = ⟨insertOrIgnore x.keys (key, newId x.keys),
      insertOrReplace x.data ((oh, (x.keys.get? key).getD (newId x.keys)), v)⟩ := by
    unfold XDB.insert
    simp only [hget]
  rw [hx]
  have hnd := nodup_insertOrIgnore x.keys (key, newId x.keys) h.nodup
  -- members of the new key table
  have hmem : ∀ a : Str × Nat, a ∈ insertOrIgnore x.keys (key, newId x.keys) →
      a ∈ x.keys ∨ (a = (key, newId x.keys) ∧ x.keys.get? key = none) := by
    intro a ha
    have := Dict.get?_eq_some_of_mem _ hnd (k := a.1) (v := a.2) ha
    rw [hk] at this
    split at this
    · next he =>
      cases hg : x.keys.get? key with
      | none =>
        right
        rw [← he, hg] at this
        exact ⟨Prod.ext he.symm (by simpa using this.symm), rfl⟩
      | some id =>
        left
        rw [← he, hg] at this
        rw [Option.getD_some, Option.some.injEq] at this
        have := Dict.mem_of_get? _ hg
        obtain ⟨a1, a2⟩ := a
        simp only at *
        subst he
        subst_vars
        exact this
    · exact .inl (Dict.mem_of_get? _ this)
  have hsub : ∀ a ∈ x.keys, a ∈ insertOrIgnore x.keys (key, newId x.keys) := by
    intro a ha
    have h1 := Dict.get?_eq_some_of_mem _ h.nodup (k := a.1) (v := a.2) ha
    refine Dict.mem_of_get? _ (k := a.1) (v := a.2) ?_
    rw [hk]
    split
    · rw [h1]; rfl
    · exact h1
  have hgm : (key, (x.keys.get? key).getD (newId x.keys)) ∈ insertOrIgnore x.keys (key, newId x.keys) :=
    Dict.mem_of_get? _ hget
  have hinj : ∀ a ∈ insertOrIgnore x.keys (key, newId x.keys), ∀ b ∈ insertOrIgnore x.keys (key, newId x.keys),
      a.2 = b.2 → a = b := by
    intro a ha b hb he
    rcases hmem a ha with ha | ⟨rfl, _⟩ <;> rcases hmem b hb with hb | ⟨rfl, _⟩
    · exact h.inj a ha b hb he
    · exact absurd he (by have := newId_gt _ a ha; simp only; omega)
    · exact absurd he (by have := newId_gt _ b hb; simp only; omega)
    · rfl
  refine ⟨hnd, hinj, Dict.nodup_set _ h.data _ _, ?_, ?_⟩
  · intro d hd
    have hdk : d.1 ∈ (x.data.set (oh, (x.keys.get? key).getD (newId x.keys)) v).keys := List.mem_map.mpr ⟨d, hd, rfl⟩
    rw [Dict.mem_keys_set] at hdk
    rcases hdk with hdk | hdk
    · exact ⟨_, hgm, by rw [hdk]⟩
    · obtain ⟨d', hd', he⟩ := List.mem_map.mp hdk
      obtain ⟨k, hk1, hk2⟩ := h.known d' hd'
      exact ⟨k, hsub k hk1, by rw [hk2, he]⟩
  · intro oh' key'
    rw [lastWritten_append, h.value]
    simp only [hk, insertOrReplace, Dict.get?_set]
    by_cases hkey : key = key'
    · subst hkey
      rw [if_pos rfl, Option.bind_some]
      by_cases hoh : oh = oh'
      · subst hoh; simp
      · rw [if_neg (fun h => hoh h.1), if_neg (fun h => hoh (Prod.mk.inj h).1)]
        cases hg : x.keys.get? key with
        | some id => rfl
        | none =>
          rw [Option.getD_none, Option.bind_none]
          cases hd : x.data.get? (oh', newId x.keys) with
          | none => rfl
          | some w =>
            obtain ⟨k, hk1, hk2⟩ := h.known _ (Dict.mem_of_get? _ hd)
            have := newId_gt _ k hk1
            simp only at hk2
            omega
    · rw [if_neg (fun h => hkey h.2), if_neg hkey]
      cases hg : x.keys.get? key' with
      | none => rfl
      | some id =>
        rw [Option.bind_some, Option.bind_some, if_neg]
        intro he
        have hid : (x.keys.get? key).getD (newId x.keys) = id := (Prod.mk.inj he).2
        have := hinj _ hgm _ (hsub _ (Dict.mem_of_get? _ hg)) hid
        exact hkey (Prod.mk.inj this).1

theorem setxattrs_inv (rows : List (Int × Str × V)) : ∀ (x : XDB V) (hist : List (Int × Str × V)), x.Inv hist →
    (x.setxattrs rows).Inv (hist ++ rows) := by
  induction rows with
  | nil => intro x hist h; simpa [XDB.setxattrs] using h
  | cons r rows ih =>
    intro x hist h
    have := ih _ _ (insert_inv x hist h r)
    rwa [List.append_assoc] at this

theorem empty_inv : (XDB.empty : XDB V).Inv [] where
  nodup := List.nodup_nil
  inj := by intro a ha; cases ha
  data := List.nodup_nil
  known := by intro d hd; cases hd
  value := by intro oh key; rfl

/-- Any number of calls of `setxattrs`. -/
def writeAll (calls : List (List (Int × Str × V))) : XDB V := calls.foldl XDB.setxattrs XDB.empty

theorem writeAll_inv (calls : List (List (Int × Str × V))) : (writeAll calls).Inv calls.flatten := by
  have key : ∀ (calls : List (List (Int × Str × V))) (x : XDB V) (hist), x.Inv hist →
      (calls.foldl XDB.setxattrs x).Inv (hist ++ calls.flatten) := by
    intro calls
    induction calls with
    | nil => intro x hist h; simpa using h
    | cons c cs ih =>
      intro x hist h
      have := ih _ _ (setxattrs_inv c x hist h)
      simpa [List.append_assoc] using this
  simpa [writeAll] using key calls _ _ empty_inv

theorem mem_view {x : XDB V} {hist} (h : x.Inv hist) (r : Int × Str × V) :
    r ∈ x.view ↔ lastWritten hist r.1 r.2.1 = some r.2.2 := by
  obtain ⟨oh, key, v⟩ := r
  unfold XDB.view
  simp only [List.mem_flatMap, List.mem_map, List.mem_filter, decide_eq_true_eq, h.value]
  constructor
  · rintro ⟨d, hd, k, ⟨hk, he⟩, heq⟩
    obtain ⟨rfl, rfl, rfl⟩ : d.1.1 = oh ∧ k.1 = key ∧ d.2 = v := by simpa using heq
    rw [(get?_of_inj h).mpr (show (k.1, k.2) ∈ x.keys from hk), Option.bind_some, he]
    exact Dict.get?_eq_some_of_mem _ h.data hd
  · intro hv
    cases hg : x.keys.get? key with
    | none => rw [hg] at hv; cases hv
    | some id =>
      rw [hg, Option.bind_some] at hv
      exact ⟨_, Dict.mem_of_get? _ hv, (key, id), ⟨Dict.mem_of_get? _ hg, rfl⟩, rfl⟩

theorem nodup_flatMap {A B : Type} (f : A → List B) (l : List A) (h1 : ∀ a ∈ l, (f a).Nodup)
    (h2 : l.Pairwise (fun a b => ∀ x ∈ f a, x ∉ f b)) : (l.flatMap f).Nodup := by
  induction l with
  | nil => simp
  | cons a l ih =>
    rw [List.pairwise_cons] at h2
    rw [List.flatMap_cons, List.nodup_append]
    refine ⟨h1 a (by simp), ih (fun b hb => h1 b (List.mem_cons_of_mem _ hb)) h2.2, ?_⟩
    intro x hx y hy he
    subst he
    obtain ⟨b, hb, hxb⟩ := List.mem_flatMap.mp hy
    exact h2.1 b hb x hx hxb

/-- (file, key) pairs occur once in the view. -/
theorem view_nodup {x : XDB V} {hist} (h : x.Inv hist) : (x.view.map (fun r => (r.1, r.2.1))).Nodup := by
  unfold XDB.view
  rw [List.map_flatMap]
  refine nodup_flatMap _ _ ?_ ?_
  · intro d _
    rw [List.map_map]
    have h1 : (x.keys.filter (fun k => decide (k.2 = d.1.2))).Pairwise (fun a b => a.1 ≠ b.1) := by
      have : x.keys.Pairwise (fun a b => a.1 ≠ b.1) := List.pairwise_map.mp h.nodup
      exact this.filter _
    exact List.pairwise_map.mpr (h1.imp (by intro a b hne he; exact hne (Prod.mk.inj he).2))
  · have h1 : x.data.Pairwise (fun a b => a.1 ≠ b.1) := List.pairwise_map.mp h.data
    refine h1.imp ?_
    intro a b hne r hr hr'
    rw [List.map_map, List.mem_map] at hr hr'
    obtain ⟨k, hk, rfl⟩ := hr
    obtain ⟨k', hk', he⟩ := hr'
    simp only [Function.comp_apply, Prod.mk.injEq] at he
    rw [List.mem_filter, decide_eq_true_eq] at hk hk'
    have e1 := (get?_of_inj h).mpr (show (k.1, k.2) ∈ x.keys from hk.1)
    have e2 := (get?_of_inj h).mpr (show (k'.1, k'.2) ∈ x.keys from hk'.1)
    rw [he.2, e1] at e2
    refine hne (Prod.ext he.1.symm ?_)
    rw [← hk.2, ← hk'.2]
    exact Option.some.inj e2

/-! ## C20 -/

/-- The full statement of C20 for archives whose rows are `batches`, with attributes written by `calls`: an entry
from the archive shows its attributes and a folder that is not in the archive shows none. -/
def C20_statement : Prop :=
  ∀ (batches : List (List Row)) (calls : List (List (Int × Str × Nat))) (ns : List Str) (n : Str) (f : FileInfo),
    IsName n → (∀ m ∈ ns, IsName m) → lookup (build batches) (canonical (ns ++ [n])) 0 = some f →
    (∀ row ∈ batches.flatten, ¬ (row.1.path = folderPath ns ∧ row.1.name = n)) →
    (writeAll calls).listXattr f = []

/-- **C20 is violated by the code**: generated parent folders are stored with isgenerated = 0 and the header offset
of a child (SQLiteIndex.py:706-716), so they show the attributes of that child. Here the folder /d of an archive
that only has the file /d/f. -/
theorem C20_violated : ¬ C20_statement := by
  intro h
  have := h [[(⟨"/d".toList, "f".toList, 0⟩, ⟨512, 0o100644, false, 0⟩)]] [[(0, "user.k".toList, 7)]] [] "d".toList
    ⟨0, ⟨512, 0o40555, false, 0⟩⟩ (by unfold IsName; decide +kernel) (by simp) (by decide +kernel) (by decide)
  exact absurd this (by decide +kernel)

/-- **C20**, listing: after any calls of `setxattrs`, the attributes listed for an entry are exactly the keys
written for it, each once. Missing from the full claim: folders that are not in the archive show none. -/
theorem C20_list_partial (calls : List (List (Int × Str × V))) (f : FileInfo) (hf : f.info.generated = false) :
    ((writeAll calls).listXattr f).Nodup ∧
    ∀ key, key ∈ (writeAll calls).listXattr f ↔ ∃ v, (f.oh, key, v) ∈ calls.flatten := by
  have hinv := writeAll_inv calls
  unfold XDB.listXattr
  rw [hf]
  simp only [Bool.false_eq_true, if_false]
  constructor
  · have h1 : (writeAll calls).view.Pairwise (fun a b => (a.1, a.2.1) ≠ (b.1, b.2.1)) :=
      List.pairwise_map.mp (view_nodup hinv)
    refine List.pairwise_map.mpr ?_
    refine List.Pairwise.imp_of_mem ?_ (h1.filter (fun r => decide (r.1 = f.oh)))
    intro a b ha hb hne he
    have e1 := of_decide_eq_true (List.mem_filter.mp ha).2
    have e2 := of_decide_eq_true (List.mem_filter.mp hb).2
    exact hne (by rw [e1, e2, he])
  · intro key
    simp only [List.mem_map, List.mem_filter, decide_eq_true_eq, mem_view hinv]
    constructor
    · rintro ⟨r, ⟨hr, hoh⟩, rfl⟩
      unfold lastWritten at hr
      obtain ⟨r', hr', he⟩ := Option.map_eq_some_iff.mp hr
      have hp := List.find?_some hr'
      rw [decide_eq_true_eq] at hp
      refine ⟨r'.2.2, ?_⟩
      rw [← hoh, ← hp.1, ← hp.2]
      exact List.mem_reverse.mp (List.mem_of_find?_eq_some hr')
    · rintro ⟨v, hv⟩
      cases hl : lastWritten calls.flatten f.oh key with
      | some w => exact ⟨(f.oh, key, w), ⟨hl, rfl⟩, rfl⟩
      | none =>
        unfold lastWritten at hl
        rw [Option.map_eq_none_iff, List.find?_eq_none] at hl
        exact absurd (by simp) (hl _ (List.mem_reverse.mpr hv))

/-- **C20**, values: reading a key of an entry gives the value written last for this entry and key, whatever was
written for other entries and keys. Missing from the full claim: as in `C20_list_partial`. -/
theorem C20_get_partial (calls : List (List (Int × Str × V))) (f : FileInfo) (hf : f.info.generated = false) (key : Str) :
    (writeAll calls).getXattr f key = lastWritten calls.flatten f.oh key := by
  have hinv := writeAll_inv calls
  unfold XDB.getXattr
  rw [hf]
  simp only [Bool.false_eq_true, if_false]
  cases hh : ((writeAll calls).view.filter (fun r => decide (r.1 = f.oh ∧ r.2.1 = key))).head? with
  | some r =>
    have hr := List.mem_filter.mp (List.mem_of_head? hh)
    have hv := (mem_view hinv r).mp hr.1
    have hp := of_decide_eq_true hr.2
    rw [hp.1, hp.2] at hv
    rw [hv]; rfl
  | none =>
    cases hl : lastWritten calls.flatten f.oh key with
    | none => rfl
    | some w =>
      have : (f.oh, key, w) ∈ (writeAll calls).view.filter (fun r => decide (r.1 = f.oh ∧ r.2.1 = key)) :=
        List.mem_filter.mpr ⟨(mem_view hinv _).mpr hl, by simp⟩
      rw [List.head?_eq_none_iff.mp hh] at this
      cases this

/-- **C20**, other files: writing attributes of one entry changes nothing for entries with another header
offset. -/
theorem C20_others (calls : List (List (Int × Str × V))) (rows : List (Int × Str × V)) (f : FileInfo)
    (h : ∀ r ∈ rows, r.1 ≠ f.oh) (hf : f.info.generated = false) (key : Str) :
    (writeAll (calls ++ [rows])).getXattr f key = (writeAll calls).getXattr f key := by
  rw [C20_get_partial _ _ hf, C20_get_partial _ _ hf]
  unfold lastWritten
  rw [List.flatten_append, List.reverse_append, List.find?_append]
  have : List.find? (fun r => decide (r.1 = f.oh ∧ r.2.1 = key)) [rows].flatten.reverse = none := by
    rw [List.find?_eq_none]
    intro r hr
    have hr' : r ∈ rows := by simpa using hr
    simp [h r hr']
  rw [this, Option.none_or]

/-- **C20**, the root folder never shows attributes, although its header offset 0 is that of the first member. -/
theorem C20_root (calls : List (List (Int × Str × V))) (t : Table) (path : Str) (v : Int) (f : FileInfo)
    (hp : queryNormpath path = ['/']) (h : lookup t path v = some f) (key : Str) :
    (writeAll calls).listXattr f = [] ∧ (writeAll calls).getXattr f key = none := by
  unfold lookup at h
  simp only [hp, if_true, Option.some.injEq] at h
  subst h
  exact ⟨rfl, rfl⟩

/-- Two files, two keys, one overwritten. -/
example :
    let x := writeAll [[(0, "a".toList, 1), (512, "a".toList, 2)], [(0, "b".toList, 3), (0, "a".toList, 4)]]
    x.listXattr ⟨0, ⟨512, 0o100644, false, 0⟩⟩ = ["a".toList, "b".toList] ∧
    x.getXattr ⟨0, ⟨512, 0o100644, false, 0⟩⟩ "a".toList = some 4 ∧
    x.getXattr ⟨512, ⟨1024, 0o100644, false, 0⟩⟩ "a".toList = some 2 := by decide +kernel

end Verif.Index
