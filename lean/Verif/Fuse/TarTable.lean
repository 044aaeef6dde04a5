import Verif.Fuse.TarFiles

/-!
# The table of a TAR archive that was indexed in several steps

`Verif.Fuse.TarMount` is about an index that was made at once. Here the table is arbitrary: what it has to hold for the mount to show the
archive (`Covers`), that an index that is made at once or extended holds it (`extended`), and what is shown then.
(SQLiteIndex.py:694-742, 1018-1090, tar.py:694-745)
-/

namespace Verif.Fuse.TarTable

open Verif.Py Verif.Index Verif.Fuse.TarMount
open Verif.Tar (Codec Hdr Member Opts IRow Bytes Entry archiveOf newIndex entriesAt)
open Verif.Compose (Source Listing vlookup vlist dotVersions)

/-! ## model -/

/-- `SQLiteIndexedTar` as a mount source (SQLiteIndexMountSource.py:273-292) with any table; see `TarMount.tarSource`. -/
def tableSource (rs : List IRow) (tb : Table) : Source where
  id := 0
  immutable := true
  lookup path version := (Index.lookup tb path version).map (toInfo rs)
  versions path := (Index.versions tb path).length
  list path := (Index.list tb path).map (fun d => .dict (d.map (fun p => (p.1, toInfo rs p.2))))
  listMode path := (Index.listMode tb path).map .dict

/-- The rows of a part of an archive, after `n` other rows (tar.py:702-714). -/
def numbered (n : Nat) (rs : List IRow) : List Row := rs.mapIdx (fun k r => toRow (n + k + 1) r)

/-! ## what the table holds -/

/-- A row for a folder that was added for one of the rows. All rows of members with the same place are newer. -/
structure Made (rows : List Row) (x : Row) : Prop where
  child : ∃ q ∈ rows, (x.1.path, x.1.name) ∈ ancestorPairs q.1.path ∧ x.1.oh = q.1.oh ∧ x.2.offset = q.2.offset
  mode : x.2.mode = 0o40555
  rest : x.2.rest = 0
  older : ∀ q ∈ rows, q.1.path = x.1.path → q.1.name = x.1.name → x.1.oh < q.1.oh

/-- What the table holds for the members `ms`: their rows, and added folders. The row of the last member comes before all others
that have the same offset. -/
structure Covers (c : Codec) (ign : Bool) (ms : List (Member × Hdr)) (z : Nat) (tb : Table) : Prop where
  clean : Clean c ms
  nodup : tb.keys.Nodup
  rows : ∀ q ∈ toRows (rowsOf c ign ms z), q ∈ tb
  others : ∀ x ∈ tb, x ∈ toRows (rowsOf c ign ms z) ∨ Made (toRows (rowsOf c ign ms z)) x
  above : ∀ q ∈ toRows (rowsOf c ign ms z), ∀ p ∈ ancestorPairs q.1.path, ∃ y ∈ tb, y.1.path = p.1 ∧ y.1.name = p.2
  ends : ∀ q, (toRows (rowsOf c ign ms z)).getLast? = some q →
    ∃ A B, tb = A ++ q :: B ∧ (∀ x ∈ A, x.2.offset < q.2.offset) ∧ ∀ x ∈ B, x.2.offset ≤ q.2.offset

/-! ## lemmas: making and extending the table -/

section
variable {K V : Type} [DecidableEq K]

theorem set_fresh (t : Dict K V) (k : K) (v : V) (h : k ∉ t.keys) : t.set k v = t ++ [(k, v)] := by
  induction t with
  | nil => rfl
  | cons p t ih =>
    obtain ⟨a, b⟩ := p
    rw [Dict.keys_cons, List.mem_cons, not_or] at h
    unfold Dict.set
    rw [if_neg (fun e => h.1 e.symm), ih h.2]
    rfl

theorem replace_fresh (l : List (K × V)) : ∀ t : Dict K V, (∀ p ∈ l, p.1 ∉ t.keys) → (l.map (·.1)).Nodup →
    l.foldl insertOrReplace t = t ++ l := by
  induction l with
  | nil => intro t _ _; rw [List.append_nil]; rfl
  | cons p l ih =>
    intro t h1 h2
    rw [List.map_cons, List.nodup_cons] at h2
    rw [List.foldl_cons, show insertOrReplace t p = t ++ [p] from set_fresh t p.1 p.2 (h1 p (by simp)), ih _ ?_ h2.2]
    · simp
    · intro q hq hk
      rw [Dict.keys, List.map_append, List.mem_append] at hk
      rcases hk with hk | hk
      · exact h1 q (List.mem_cons_of_mem _ hq) hk
      · simp only [List.map_cons, List.map_nil, List.mem_singleton] at hk
        exact h2.1 (by rw [← hk]; exact List.mem_map.mpr ⟨q, hq, rfl⟩)

theorem ignore_append (l : List (K × V)) : ∀ t : Dict K V, ∃ more, l.foldl insertOrIgnore t = t ++ more ∧ ∀ x ∈ more, x ∈ l := by
  induction l with
  | nil => intro t; exact ⟨[], by simp, by simp⟩
  | cons p l ih =>
    intro t
    rw [List.foldl_cons]
    by_cases h : t.has p.1 = true
    · obtain ⟨more, h1, h2⟩ := ih t
      refine ⟨more, ?_, fun x hx => List.mem_cons_of_mem _ (h2 x hx)⟩
      unfold insertOrIgnore
      rw [if_pos h]
      exact h1
    · have hk : p.1 ∉ t.keys := fun hk => h ((Dict.has_iff t p.1).mpr hk)
      obtain ⟨more, h1, h2⟩ := ih (t ++ [p])
      refine ⟨p :: more, ?_, ?_⟩
      · unfold insertOrIgnore at h1 ⊢
        rw [if_neg h, set_fresh t p.1 p.2 hk, h1]
        simp
      · intro x hx
        rcases List.mem_cons.mp hx with rfl | hx
        · simp
        · exact List.mem_cons_of_mem _ (h2 x hx)

end

/-- What holds after any number of insertions of the rows `rows` into the table `tb`. -/
structure Grown (tb : Table) (db : DB) (rows : List Row) : Prop where
  files : db.files = rows.foldl insertOrReplace tb
  cached : ∀ p ∈ db.cache, p ∈ db.parents.keys
  parents : ∀ p, p ∈ db.parents.keys ↔ ∃ r ∈ rows, p ∈ ancestorPairs r.1.path
  nodup : db.parents.keys.Nodup
  from_ : ∀ p v, db.parents.get? p = some v → ∃ r ∈ rows, p ∈ ancestorPairs r.1.path ∧ v = (r.1.oh, r.2.offset)

theorem grown_from (tb : Table) (batches : List (List Row)) : ∀ (db : DB) (done : List Row), Grown tb db done →
    Grown tb (batches.foldl DB.setFileInfos db) (done ++ batches.flatten) := by
  induction batches with
  | nil => intro db done h; simpa using h
  | cons b bs ih =>
    intro db done h
    rw [List.foldl_cons, List.flatten_cons, ← List.append_assoc]
    refine ih _ _ ?_
    obtain ⟨g0, g1, g2, g3, g4⟩ := addParents_all b { db with files := b.foldl insertOrReplace db.files } done
      h.cached h.parents h.nodup h.from_
    exact ⟨by rw [DB.setFileInfos, g0, h.files, List.foldl_append], g1, g2, g3, g4⟩

theorem grown (tb : Table) (batches : List (List Row)) : Grown tb (batches.foldl DB.setFileInfos ⟨tb, [], []⟩) batches.flatten := by
  have := grown_from tb batches ⟨tb, [], []⟩ [] ⟨rfl, by simp, by simp [Dict.keys], List.nodup_nil, by simp⟩
  rwa [List.nil_append] at this

theorem entries_lower {c : Codec} (ms : List (Member × Hdr)) : ∀ off, (∀ p ∈ ms, p.1.Ok c p.2) →
    ∀ e ∈ entriesAt off ms, off ≤ e.offset ∧ off < e.data := by
  induction ms with
  | nil => intro off _ e he; cases he
  | cons p ms ih =>
    intro off hok e he
    obtain ⟨m, h⟩ := p
    unfold entriesAt at he
    have hp := Tar.head_pos (hok (m, h) (by simp))
    simp only at hp
    rcases List.mem_cons.mp he with rfl | he
    · exact ⟨Nat.le_refl _, by simp only; omega⟩
    · have := ih _ (fun q hq => hok q (List.mem_cons_of_mem _ hq)) e he
      simp only [Tar.Member.encode, List.length_append] at this
      omega

theorem entries_sorted {c : Codec} (ms : List (Member × Hdr)) : ∀ off, (∀ p ∈ ms, p.1.Ok c p.2) →
    (entriesAt off ms).Pairwise (fun a b => a.offset < b.offset ∧ a.data < b.data) := by
  induction ms with
  | nil => intro off _; exact .nil
  | cons p ms ih =>
    intro off hok
    obtain ⟨m, h⟩ := p
    have hp := Tar.head_pos (hok (m, h) (by simp))
    simp only at hp
    unfold entriesAt
    refine .cons ?_ (ih _ (fun q hq => hok q (List.mem_cons_of_mem _ hq)))
    intro e he
    have := entries_lower ms _ (fun q hq => hok q (List.mem_cons_of_mem _ hq)) e he
    simp only [Tar.Member.encode, List.length_append] at this ⊢
    omega

theorem numbered_sorted (n : Nat) (rs : List IRow) (h : rs.Pairwise (fun a b => a.oh < b.oh ∧ a.offset < b.offset)) :
    (numbered n rs).Pairwise (fun a b => a.1.oh < b.1.oh ∧ a.2.offset < b.2.offset) := by
  unfold numbered
  rw [List.pairwise_iff_getElem] at h ⊢
  intro i j hi hj hij
  rw [List.length_mapIdx] at hi hj
  have := h i j hi hj hij
  simp only [List.getElem_mapIdx, toRow]
  omega

theorem toRows_eq (rs : List IRow) : toRows rs = numbered 0 rs := by
  unfold toRows numbered
  simp

theorem rows_sorted {c : Codec} {ms : List (Member × Hdr)} (h : Clean c ms) (ign : Bool) (z : Nat) :
    (toRows (rowsOf c ign ms z)).Pairwise (fun a b => a.1.oh < b.1.oh ∧ a.2.offset < b.2.offset) := by
  rw [toRows_eq]
  refine numbered_sorted 0 _ ?_
  rw [rowsOf_eq h, List.pairwise_map]
  refine (entries_sorted ms 0 h.ok).imp ?_
  intro a b hab
  unfold Tar.rowOf
  simp only [Nat.zero_add]
  exact hab

/-- A row of a member at a place with members below it is a folder. -/
theorem folder_row {c : Codec} {ign : Bool} {ms : List (Member × Hdr)} {z : Nat} (h : Clean c ms) {q r : Row}
    (hq : q ∈ toRows (rowsOf c ign ms z)) (hr : r ∈ toRows (rowsOf c ign ms z)) (ha : (q.1.path, q.1.name) ∈ ancestorPairs r.1.path) :
    dirBit q.2.mode = true := by
  obtain ⟨k, p, s, hk, hs, hi, rfl⟩ := mem_toRows h ign z q hq
  obtain ⟨k', p', s', hk', hs', hi', rfl⟩ := mem_toRows h ign z r hr
  have hd : ∀ y ∈ (place p'.2.name).dropLast, IsName y := fun y hy => place_names _ y (List.dropLast_subset _ hy)
  have ha' : (s.path, s.name) ∈ ancestorPairs s'.path := ha
  rw [path_of_row (place_names _) hi'.place, mem_ancestorPairs _ hd] at ha'
  obtain ⟨j, hj, he⟩ := ha'
  obtain ⟨e1, e2⟩ := Prod.mk.inj he
  have hn := isName_take hd j hj
  have hpl : place p.2.name = (place p'.2.name).dropLast.take j ++ [(place p'.2.name).dropLast[j]] :=
    place_of_row (place_names _) hi.place hn e1 e2
  obtain ⟨y, rest, hb⟩ := (ancestor_iff (place_names _) hi'.place hn).mp (by rw [← e1, ← e2]; exact ha)
  have ht : p.2.type = '5' := h.tree p (List.mem_of_getElem? hk) ⟨p', List.mem_of_getElem? hk', y, rest, by rw [hpl, List.append_assoc]; exact hb⟩
  show dirBit s.mode = true
  rw [hi.mode, ht]
  exact dirBit_folder _

/-- Extending a table by the rows of the members that were appended. -/
theorem extended {c : Codec} {ign : Bool} {ms ms' : List (Member × Hdr)} {z z' : Nat} {tb : Table} (hI : Covers c ign ms z tb)
    (hclean : Clean c (ms ++ ms')) {bs : List (List Row)}
    (hrows : toRows (rowsOf c ign ms z) ++ bs.flatten = toRows (rowsOf c ign (ms ++ ms') z')) :
    Covers c ign (ms ++ ms') z' (bs.foldl DB.setFileInfos ⟨tb, [], []⟩).finalize := by
  have hg := grown tb bs
  generalize hdb : bs.foldl DB.setFileInfos ⟨tb, [], []⟩ = db at hg ⊢
  generalize hN : bs.flatten = N at hrows hg
  have hsorted := rows_sorted hclean ign z'
  rw [← hrows, List.pairwise_append] at hsorted
  obtain ⟨hs1, hs2, hs12⟩ := hsorted
  have hnew : ∀ x ∈ tb, ∀ q ∈ N, x.1.oh < q.1.oh ∧ x.2.offset < q.2.offset := by
    intro x hx q hq
    rcases hI.others x hx with h | h
    · exact hs12 x h q hq
    · obtain ⟨r, hr, -, h1, h2⟩ := h.child
      rw [h1, h2]
      exact hs12 r hr q hq
  have hfiles : db.files = tb ++ N := by
    rw [hg.files]
    refine replace_fresh N tb ?_ ?_
    · intro q hq hk
      rw [Dict.keys, List.mem_map] at hk
      obtain ⟨x, hx, he⟩ := hk
      have := (hnew x hx q hq).1
      rw [he] at this
      omega
    · rw [List.Nodup, List.pairwise_map]
      refine hs2.imp ?_
      intro a b hab he
      rw [he] at hab
      omega
  have hfnd : db.files.keys.Nodup := by
    rw [hg.files]
    exact foldl_replace_nodup _ _ hI.nodup
  have hnd : db.finalize.keys.Nodup := foldl_ignore_nodup _ _ hfnd
  have hold : ∀ x ∈ db.files, x ∈ db.finalize := by
    intro x hx
    exact Dict.mem_of_get? _ (foldl_ignore_old _ _ _ _ (Dict.get?_eq_some_of_mem _ hfnd (k := x.1) (v := x.2) hx))
  have hall : ∀ q ∈ toRows (rowsOf c ign (ms ++ ms') z'), q ∈ db.files := by
    intro q hq
    rw [← hrows] at hq
    rw [hfiles]
    rcases List.mem_append.mp hq with h | h
    · exact List.mem_append_left _ (hI.rows q h)
    · exact List.mem_append_right _ h
  have hmade : ∀ x ∈ db.generated, Made (toRows (rowsOf c ign (ms ++ ms') z')) x := by
    intro x hx
    unfold DB.generated at hx
    rw [List.mem_map] at hx
    obtain ⟨p, hp, rfl⟩ := hx
    rw [List.mem_filter] at hp
    obtain ⟨h1, h2⟩ := hp
    obtain ⟨r, hr, ha, hv⟩ := hg.from_ p.1 p.2 (Dict.get?_eq_some_of_mem _ hg.nodup h1)
    have hr' : r ∈ toRows (rowsOf c ign (ms ++ ms') z') := by rw [← hrows]; exact List.mem_append_right _ hr
    refine ⟨⟨r, hr', ha, ?_, ?_⟩, rfl, rfl, ?_⟩
    · show p.2.1 = _; rw [hv]
    · show p.2.2 = _; rw [hv]
    · intro q hq e1 e2
      have e1' : q.1.path = p.1.1 := e1
      have e2' : q.1.name = p.1.2 := e2
      exact absurd (show (q.1.path, q.1.name) = p.1 by rw [e1', e2']) ((of_decide_eq_true h2) q (hall q hq)
        (folder_row hclean hq hr' (by rw [e1', e2']; exact ha)))
  refine ⟨hclean, hnd, fun q hq => hold q (hall q hq), ?_, ?_, ?_⟩
  · intro x hx
    have h1 := Dict.get?_eq_some_of_mem _ hnd (k := x.1) (v := x.2) hx
    rcases foldl_ignore_get _ _ _ _ h1 with h2 | ⟨-, h2⟩
    · have h3 : x ∈ db.files := Dict.mem_of_get? _ h2
      rw [hfiles] at h3
      rcases List.mem_append.mp h3 with h4 | h4
      · rcases hI.others x h4 with h5 | h5
        · left; rw [← hrows]; exact List.mem_append_left _ h5
        · right
          obtain ⟨r, hr, a1, a2, a3⟩ := h5.child
          refine ⟨⟨r, by rw [← hrows]; exact List.mem_append_left _ hr, a1, a2, a3⟩, h5.mode, h5.rest, ?_⟩
          intro q hq e1 e2
          rw [← hrows] at hq
          rcases List.mem_append.mp hq with h | h
          · exact h5.older q h e1 e2
          · exact (hnew x h4 q h).1
      · left; rw [← hrows]; exact List.mem_append_right _ h4
    · exact .inr (hmade x h2)
  · intro q hq p hp
    rw [← hrows] at hq
    rcases List.mem_append.mp hq with h | h
    · obtain ⟨y, hy, e⟩ := hI.above q h p hp
      exact ⟨y, hold y (by rw [hfiles]; exact List.mem_append_left _ hy), e⟩
    · by_cases hdir : ∀ r ∈ db.files, dirBit r.2.mode = true → (r.1.path, r.1.name) ≠ p
      · have hk := (hg.parents p).mpr ⟨q, h, hp⟩
        rw [Dict.mem_keys_iff, Option.isSome_iff_exists] at hk
        obtain ⟨v, hv⟩ := hk
        have hgen : ((⟨p.1, p.2, v.1⟩, ⟨v.2, 0o40555, false, 0⟩) : Row) ∈ db.generated := by
          unfold DB.generated
          rw [List.mem_map]
          refine ⟨(p, v), ?_, rfl⟩
          rw [List.mem_filter]
          exact ⟨Dict.mem_of_get? _ hv, by simpa using hdir⟩
        have : (⟨p.1, p.2, v.1⟩ : Key) ∈ db.finalize.keys := by
          rw [DB.finalize, foldl_ignore_keys]
          left; rw [List.mem_map]; exact ⟨_, hgen, rfl⟩
        rw [Dict.keys, List.mem_map] at this
        obtain ⟨y, hy, he⟩ := this
        exact ⟨y, hy, by rw [he], by rw [he]⟩
      · simp only [Classical.not_forall] at hdir
        obtain ⟨y, hy, -, he⟩ := hdir
        have he := Classical.not_not.mp he
        exact ⟨y, hold y hy, by rw [← he], by rw [← he]⟩
  · intro q hq
    rw [← hrows] at hq
    rcases List.eq_nil_or_concat N with hn | ⟨N0, q', hn⟩
    · rw [hn, List.append_nil] at hq
      obtain ⟨A, B, h1, h2, h3⟩ := hI.ends q hq
      refine ⟨A, B, ?_, h2, h3⟩
      have hp : db.parents = [] := by
        cases hpp : db.parents with
        | nil => rfl
        | cons p ps =>
          obtain ⟨r, hr, -⟩ := (hg.parents p.1).mp (by rw [hpp]; simp [Dict.keys])
          rw [hn] at hr
          cases hr
      have : db.generated = [] := by unfold DB.generated; rw [hp]; rfl
      unfold DB.finalize
      rw [this, hfiles, hn, List.append_nil, ← h1]
      rfl
    · rw [List.concat_eq_append] at hn
      rw [hn, ← List.append_assoc, List.getLast?_concat, Option.some.injEq] at hq
      subst hq
      obtain ⟨more, h1, h2⟩ := ignore_append db.generated db.files
      have hle : ∀ r ∈ toRows (rowsOf c ign (ms ++ ms') z'), r.2.offset ≤ q'.2.offset := by
        intro r hr
        rw [← hrows, hn, ← List.append_assoc] at hr
        rcases List.mem_append.mp hr with h | h
        · have hlast : ∀ x ∈ toRows (rowsOf c ign ms z) ++ N0, x.2.offset < q'.2.offset := by
            intro x hx
            rcases List.mem_append.mp hx with h | h
            · exact (hs12 x h q' (by rw [hn]; simp)).2
            · rw [hn, List.pairwise_append] at hs2
              exact (hs2.2.2 x h q' (by simp)).2
          have := hlast r h
          omega
        · rw [List.mem_singleton] at h
          rw [h]
          omega
      refine ⟨tb ++ N0, more, ?_, ?_, ?_⟩
      · unfold DB.finalize
        rw [h1, hfiles, hn]
        simp
      · intro x hx
        rcases List.mem_append.mp hx with h | h
        · exact (hnew x h q' (by rw [hn]; simp)).2
        · rw [hn, List.pairwise_append] at hs2
          exact (hs2.2.2 x h q' (by simp)).2
      · intro x hx
        obtain ⟨r, hr, -, -, e⟩ := (hmade x (h2 x hx)).child
        rw [e]
        exact hle r hr

theorem nothing (c : Codec) (ign : Bool) (z : Nat) : rowsOf c ign [] z = [] := by
  unfold rowsOf newIndex
  rw [Tar.flat_rows c (plain ign) [] z 0 0 [] _ (by simp)]
  rfl

/-- The empty table, before the first row. -/
theorem empty_covers (c : Codec) (ign : Bool) (z : Nat) : Covers c ign [] z [] := by
  have hr : toRows (rowsOf c ign [] z) = [] := by rw [nothing]; rfl
  refine ⟨⟨by simp, by simp, by simp, by simp, by simp⟩, List.nodup_nil, ?_, by simp, ?_, ?_⟩ <;> rw [hr] <;> simp

/-- An index that is made at once. -/
theorem built {c : Codec} {ign : Bool} {ms : List (Member × Hdr)} {z : Nat} {bs : List (List Row)} (h : Inserted c ign ms z bs) :
    Covers c ign ms z (build bs) := by
  have := extended (ms := []) (ms' := ms) (z := z) (z' := z) (bs := bs) (empty_covers c ign z) h.clean (by
    rw [nothing, h.rows]; rfl)
  exact this

/-- The row of a member is in the table. -/
theorem member_row {c : Codec} {ign : Bool} {ms : List (Member × Hdr)} {z : Nat} {tb : Table} (hI : Covers c ign ms z tb)
    {k : Nat} {r : IRow} (hr : (rowsOf c ign ms z)[k]? = some r) : toRow (k + 1) r ∈ toRows (rowsOf c ign ms z) ∧ toRow (k + 1) r ∈ tb := by
  have h1 : toRow (k + 1) r ∈ toRows (rowsOf c ign ms z) := by
    unfold toRows
    exact List.mem_of_getElem? (i := k) (by rw [List.getElem?_mapIdx, hr]; rfl)
  exact ⟨h1, hI.rows _ h1⟩

/-! ## lemmas: what is found -/

theorem found_member {c : Codec} {ign : Bool} {ms : List (Member × Hdr)} {z : Nat} {tb : Table} (hI : Covers c ign ms z tb)
    {ns : List Str} {n : Str} (hn : ∀ x ∈ ns ++ [n], IsName x) {path : Str} (hp : queryNormpath path = canonical (ns ++ [n]))
    {p : Member × Hdr} (hl : lastAt ms (ns ++ [n]) = some p) :
    ∃ k r, ms[k]? = some p ∧ (rowsOf c ign ms z)[k]? = some r ∧ IsRow (archiveOf ms z) ms k p r ∧
      Index.lookup (tb) path 0 = some (toFileInfo (toRow (k + 1) r)) := by
  obtain ⟨k, hk, hpl, hlast⟩ := lastAt_spec hl
  obtain ⟨r, hr, hi⟩ := row_of hI.clean ign z k p hk
  refine ⟨k, r, hk, hr, hi, ?_⟩
  have hnd := hI.nodup
  have hrow := (member_row hI hr).2
  have hpl' := hi.place
  rw [hpl] at hpl'
  obtain ⟨e1, e2⟩ := row_of_place hn hpl'
  have hes := entries_exist hnd (folderPath ns) n
  have hmem := (hes.mem (toRow (k + 1) r)).mpr ⟨hrow, e1, e2⟩
  rw [lookup_zero hnd hn hp]
  obtain ⟨x, hx⟩ := getLast?_of_mem hmem
  rw [hx]
  obtain ⟨hx1, hx2, hx3⟩ := (hes.mem x).mp (List.mem_of_getLast? hx)
  have hle : (toRow (k + 1) r).1.oh ≤ x.1.oh := by
    rcases List.getLast?_eq_some_iff.mp hx with ⟨ys, hys⟩
    rw [hys] at hmem
    rcases List.mem_append.mp hmem with h | h
    · have hs := hes.sorted
      rw [hys, List.pairwise_append] at hs
      have := hs.2.2 _ h x (by simp)
      omega
    · rw [List.mem_singleton] at h; rw [h]; omega
  rcases hI.others x hx1 with hf | hg
  · obtain ⟨j, q, r', hj, hr', hi', rfl⟩ := mem_toRows hI.clean ign z x hf
    have hq : place q.2.name = ns ++ [n] := place_of_row (place_names _) hi'.place hn hx2 hx3
    have hjk : j ≤ k := by
      rcases Nat.lt_or_ge k j with hlt | hge
      · exact absurd hq (hlast j q hlt hj)
      · exact hge
    have : j = k := by
      rcases Nat.lt_or_ge j k with hlt | hge
      · have h1 := headerOf_lt hI.clean.ok hlt (Nat.le_of_lt (List.getElem?_eq_some_iff.mp hk).1)
        simp only [toRow] at hle
        rw [hi.oh, hi'.oh] at hle
        omega
      · omega
    subst this
    rw [hr] at hr'
    cases hr'
    rfl
  · have := hg.older _ (member_row hI hr).1 (by rw [hx2]; exact e1) (by rw [hx3]; exact e2)
    omega

theorem found_generated {c : Codec} {ign : Bool} {ms : List (Member × Hdr)} {z : Nat} {tb : Table} (hI : Covers c ign ms z tb)
    {ns : List Str} {n : Str} (hn : ∀ x ∈ ns ++ [n], IsName x) {path : Str} (hp : queryNormpath path = canonical (ns ++ [n]))
    (hl : lastAt ms (ns ++ [n]) = none) (hb : Below ms (ns ++ [n])) :
    ∃ f, Index.lookup (tb) path 0 = some f ∧ f.info.mode = 0o40555 ∧ f.info.rest = 0 := by
  have hnd := hI.nodup
  have hes := entries_exist hnd (folderPath ns) n
  obtain ⟨p, hpm, y, rest, he⟩ := hb
  obtain ⟨k, hk⟩ := List.getElem?_of_mem hpm
  obtain ⟨r, hr, hi⟩ := row_of hI.clean ign z k p hk
  have ha : (folderPath ns, n) ∈ ancestorPairs (toRow (k + 1) r).1.path :=
    (ancestor_iff (place_names _) hi.place hn).mpr ⟨y, rest, by rw [he]; simp⟩
  obtain ⟨q, hq, hq1, hq2⟩ := hI.above _ (member_row hI hr).1 _ ha
  have hmem := (hes.mem q).mpr ⟨hq, hq1, hq2⟩
  obtain ⟨x, hx⟩ := getLast?_of_mem hmem
  obtain ⟨hx1, hx2, hx3⟩ := (hes.mem x).mp (List.mem_of_getLast? hx)
  rw [lookup_zero hnd hn hp, hx]
  refine ⟨toFileInfo x, rfl, ?_⟩
  rcases hI.others x hx1 with hf | hg
  · obtain ⟨j, p', r', hj, hr', hi', rfl⟩ := mem_toRows hI.clean ign z x hf
    exact absurd (place_of_row (place_names _) hi'.place hn hx2 hx3) (lastAt_none hl p' (List.mem_of_getElem? hj))
  · exact ⟨hg.mode, hg.rest⟩

theorem found_nothing {c : Codec} {ign : Bool} {ms : List (Member × Hdr)} {z : Nat} {tb : Table} (hI : Covers c ign ms z tb)
    {ns : List Str} {n : Str} (hn : ∀ x ∈ ns ++ [n], IsName x) {path : Str} (hp : queryNormpath path = canonical (ns ++ [n]))
    (hl : lastAt ms (ns ++ [n]) = none) (hb : ¬ Below ms (ns ++ [n])) : Index.lookup (tb) path 0 = none := by
  have hnd := hI.nodup
  have hes := entries_exist hnd (folderPath ns) n
  rw [lookup_zero hnd hn hp]
  cases hx : (orderAsc (rowsAt (tb) (folderPath ns) n)).getLast? with
  | none => rfl
  | some x =>
    obtain ⟨hx1, hx2, hx3⟩ := (hes.mem x).mp (List.mem_of_getLast? hx)
    rcases hI.others x hx1 with hf | hg
    · obtain ⟨j, p', r', hj, hr', hi', rfl⟩ := mem_toRows hI.clean ign z x hf
      exact absurd (place_of_row (place_names _) hi'.place hn hx2 hx3) (lastAt_none hl p' (List.mem_of_getElem? hj))
    · obtain ⟨q, hq, ha, -⟩ := hg.child
      obtain ⟨k, p, r, hk, hr, hi, rfl⟩ := mem_toRows hI.clean ign z q hq
      rw [hx2, hx3] at ha
      obtain ⟨y, rest, he⟩ := (ancestor_iff (place_names _) hi.place hn).mp ha
      exact absurd ⟨p, List.mem_of_getElem? hk, y, rest, by rw [he]; simp⟩ hb

theorem source_member {c : Codec} {ign : Bool} {ms : List (Member × Hdr)} {z : Nat} {tb : Table} (hI : Covers c ign ms z tb)
    {ns : List Str} (hne : ns ≠ []) (hn : ∀ x ∈ ns, IsName x) {path : Str} (hp : queryNormpath path = canonical ns)
    {p : Member × Hdr} (hl : lastAt ms ns = some p) :
    p ∈ ms ∧ ∃ offset, (tableSource (rowsOf c ign ms z) tb).lookup path 0 = some (infoOf p offset) ∧
      Tar.readAt (archiveOf ms z) offset p.1.data.length = p.1.data ∧ offset + p.1.data.length ≤ (archiveOf ms z).length := by
  rcases List.eq_nil_or_concat ns with rfl | ⟨a, x, rfl⟩
  · exact absurd rfl hne
  · rw [List.concat_eq_append] at hn hp hl
    obtain ⟨k, r, hk, hr, hi, hf⟩ := found_member hI hn hp hl
    have hmem := List.mem_of_getElem? hk
    refine ⟨hmem, r.offset, ?_, ?_, ?_⟩
    · show (Index.lookup (tb) path 0).map _ = _
      rw [hf, Option.map_some, toInfo_row hr hi (hI.clean.kinds p hmem)]
    · have := hi.data; rw [hi.size] at this; exact this
    · have := hi.inside; rw [hi.size] at this; exact this

theorem source_any {c : Codec} {ign : Bool} {ms : List (Member × Hdr)} {z : Nat} {tb : Table} (hI : Covers c ign ms z tb)
    {path : Str} {v : Int} {i : Compose.FileInfo} (h : (tableSource (rowsOf c ign ms z) tb).lookup path v = some i) :
    ∃ offset, i.userdata = [.own offset] ∧ (i.rest = 0 ∨ offset + i.rest ≤ (archiveOf ms z).length) := by
  replace h : (Index.lookup (tb) path v).map (toInfo (rowsOf c ign ms z)) = some i := h
  rw [Option.map_eq_some_iff] at h
  obtain ⟨f, hf, rfl⟩ := h
  refine ⟨f.info.offset.toNat, rfl, ?_⟩
  have hrow : f = Index.rootInfo ∨ ∃ x ∈ tb, f = toFileInfo x := by
    unfold Index.lookup at hf
    simp only at hf
    split at hf
    · exact .inl (Option.some.inj hf).symm
    · rw [Option.map_eq_some_iff] at hf
      obtain ⟨x, hx, rfl⟩ := hf
      refine .inr ⟨x, ?_, rfl⟩
      have hm := List.mem_of_getElem? hx
      split at hm
      · exact ((mem_rowsAt _ _ _ _).mp ((orderDesc_perm _).mem_iff.mp hm)).1
      · exact ((mem_rowsAt _ _ _ _).mp ((orderAsc_perm _).mem_iff.mp hm)).1
  rcases hrow with rfl | ⟨x, hx, rfl⟩
  · left; rfl
  · rcases hI.others x hx with hm | hg
    · obtain ⟨k, p, r, hk, hr, hi, rfl⟩ := mem_toRows hI.clean ign z x hm
      right
      rw [toInfo_row hr hi (hI.clean.kinds p (List.mem_of_getElem? hk))]
      have := hi.inside
      rw [hi.size] at this
      exact this
    · left
      show sizeAt _ x.2.rest = 0
      rw [hg.rest]
      rfl

theorem chain_of {c : Codec} {ign : Bool} {ms : List (Member × Hdr)} {z : Nat} {tb : Table} (hI : Covers c ign ms z tb)
    {k : Nat} {ns : List Str} {p : Member × Hdr} (hr : Reaches ms k ns p) :
    ∀ path, (∀ x ∈ ns, IsName x) → queryNormpath path = canonical ns → walk [] (split '/' path) = ns →
    ∃ i offset, (tableSource (rowsOf c ign ms z) tb).lookup path 0 = some i ∧
      Compose.LinkChain (tableSource (rowsOf c ign ms z) tb) mp path i (infoOf p offset) k ∧ p ∈ ms ∧
      Tar.readAt (archiveOf ms z) offset p.1.data.length = p.1.data ∧ offset + p.1.data.length ≤ (archiveOf ms z).length := by
  induction hr with
  | here ns p hne hl ht =>
    intro path hn hp _
    obtain ⟨hmem, offset, h1, h2, h3⟩ := source_member hI hne hn hp hl
    refine ⟨_, offset, h1, .done _ _ ?_, hmem, h2, h3⟩
    rw [Bool.eq_false_iff]
    intro hh
    exact ht ((hardLink_iff hI.clean hmem offset).mp hh).1
  | link k ns q p hne hl ht hlink hother hr ih =>
    intro path hn hp hw
    obtain ⟨hmem, offset, h1, h2, h3⟩ := source_member hI hne hn hp hl
    obtain ⟨t1, t2⟩ := target_place q.2.link (infoOf q offset) rfl
    obtain ⟨j, off', g1, g2, g3, g4, g5⟩ := ih _ (place_names _) t1 t2
    refine ⟨_, off', h1, .step _ _ j _ _ ((hardLink_iff hI.clean hmem offset).mpr ⟨ht, hlink⟩) ?_ g1 g2, g3, g4, g5⟩
    intro he
    rw [he, hw] at t2
    exact hother t2.symm

theorem mlookup_reaches {c : Codec} {ign : Bool} {ms : List (Member × Hdr)} {z : Nat} {tb : Table} (hI : Covers c ign ms z tb)
    {k : Nat} {ns : List Str} {p : Member × Hdr} (hr : Reaches ms k ns p) (hk : k ≤ 128) (hn : ∀ x ∈ ns, IsName x) :
    ∃ offset, mlookup (tableSource (rowsOf c ign ms z) tb) (canonical ns) = .ok ((infoOf p offset).push .file) ∧
      Tar.readAt (archiveOf ms z) offset p.1.data.length = p.1.data ∧ offset + p.1.data.length ≤ (archiveOf ms z).length := by
  obtain ⟨i, offset, h1, h2, -, h3, h4⟩ := chain_of hI hr (canonical ns) hn (query_canonical ns hn) (split_canonical ns hn)
  refine ⟨offset, ?_, h3, h4⟩
  have := Compose.C36_chain_partial _ mp _ _ _ _ h1 h2 hk
  unfold mlookup vlookup
  rw [if_neg (by simp), this]

theorem mlookup_any {c : Codec} {ign : Bool} {ms : List (Member × Hdr)} {z : Nat} {tb : Table} (hI : Covers c ign ms z tb)
    {path : Str} {i : Compose.FileInfo} (h : mlookup (tableSource (rowsOf c ign ms z) tb) path = .ok i) :
    (∃ offset, i.userdata = [.file, .own offset] ∧ (i.rest = 0 ∨ offset + i.rest ≤ (archiveOf ms z).length)) ∨
      i.userdata = [.versionsFolder] := by
  have key : ∀ (q : Str) (v : Int) (j : Compose.FileInfo), (tableSource (rowsOf c ign ms z) tb).lookup q v = some j →
      ∃ offset, (j.push .file).userdata = [.file, .own offset] ∧ ((j.push .file).rest = 0 ∨ offset + (j.push .file).rest ≤ (archiveOf ms z).length) := by
    intro q v j hj
    obtain ⟨offset, h1, h2⟩ := source_any hI hj
    exact ⟨offset, by show Compose.Tag.file :: j.userdata = _; rw [h1], h2⟩
  unfold mlookup at h
  cases hv : vlookup (tableSource (rowsOf c ign ms z) tb) mp path 0 with
  | error e => rw [hv] at h; cases h
  | ok o =>
    rw [hv] at h
    cases o with
    | none => cases h
    | some i' =>
      cases h
      unfold vlookup at hv
      rw [if_neg (by simp)] at hv
      cases hres : Compose.resolve (tableSource (rowsOf c ign ms z) tb) mp path with
      | some j =>
        rw [hres] at hv
        simp only [Except.ok.injEq, Option.some.injEq] at hv
        subst hv
        left
        have hl : ∃ k, (tableSource (rowsOf c ign ms z) tb).lookup path 0 = some k := by
          unfold Compose.resolve at hres
          cases hk : (tableSource (rowsOf c ign ms z) tb).lookup path 0 with
          | none => rw [hk] at hres; cases hres
          | some k => exact ⟨k, rfl⟩
        obtain ⟨k, hk⟩ := hl
        obtain ⟨q, v, hq⟩ := (Compose.C36_bounded _ mp path k hk).2.2 j hres
        exact key q v j hq
      | none =>
        rw [hres] at hv
        simp only at hv
        cases hd : Compose.decodeVersions (tableSource (rowsOf c ign ms z) tb) path with
        | none => rw [hd] at hv; cases hv
        | some t =>
          obtain ⟨q, b, v⟩ := t
          rw [hd] at hv
          cases b with
          | true =>
            simp only at hv
            cases hq : (tableSource (rowsOf c ign ms z) tb).lookup q 0 with
            | none => rw [hq] at hv; cases hv
            | some parent =>
              rw [hq] at hv
              simp only [Except.ok.injEq, Option.some.injEq] at hv
              subst hv
              exact .inr rfl
          | false =>
            simp only [Except.ok.injEq, Option.map_eq_some_iff] at hv
            obtain ⟨j, hj, rfl⟩ := hv
            exact .inl (key q v j hj)

theorem call_good {c : Codec} {ign : Bool} {ms : List (Member × Hdr)} {z : Nat} {tb : Table} (hI : Covers c ign ms z tb)
    {m : Mount} (hg : Good (archiveOf ms z) m) (cl : Call) :
    Good (archiveOf ms z) (call (tableSource (rowsOf c ign ms z) tb) m cl) ∧
      ∀ g data, Holds m g data → Holds (call (tableSource (rowsOf c ign ms z) tb) m cl) g data := by
  cases cl with
  | release fh => exact ⟨hg, fun _ _ h => h⟩
  | read fh size offset =>
    rw [call_read]
    cases hr : m.opened.get? fh with
    | none =>
      have : mread m fh size offset = (m, .error .unsupported) := by unfold mread; rw [hr]
      rw [this]
      exact ⟨hg, fun _ _ h => h⟩
    | some r =>
      obtain ⟨store, r', h1, h2, h3, h4⟩ := mread_spec hg hr size offset
      rw [h1]
      exact update_good hg hr h2 h3 h4
  | «open» path =>
    rw [call_open]
    unfold mopen
    cases hl : mlookup (tableSource (rowsOf c ign ms z) tb) path with
    | error e => exact ⟨hg, fun _ _ h => h⟩
    | ok i =>
      simp only
      rcases mlookup_any hI hl with ⟨offset, h1, h2⟩ | h1
      · obtain ⟨r, h3, h4, -⟩ := openView_wf hg offset i.rest h2
        have : openView i = .ok r := by unfold openView; rw [h1]; exact h3
        rw [this]
        exact ⟨(addHandle_good hg h4).1, (addHandle_good hg h4).2.2⟩
      · have : openView i = .error .fileNotFound := by unfold openView; rw [h1]
        rw [this]
        exact ⟨hg, fun _ _ h => h⟩

theorem calls_good {c : Codec} {ign : Bool} {ms : List (Member × Hdr)} {z : Nat} {tb : Table} (hI : Covers c ign ms z tb)
    (cs : List Call) : ∀ {m : Mount}, Good (archiveOf ms z) m →
    Good (archiveOf ms z) (calls (tableSource (rowsOf c ign ms z) tb) m cs) ∧
      ∀ g data, Holds m g data → Holds (calls (tableSource (rowsOf c ign ms z) tb) m cs) g data := by
  induction cs with
  | nil => intro m hg; exact ⟨hg, fun _ _ h => h⟩
  | cons cl cs ih =>
    intro m hg
    obtain ⟨h1, h2⟩ := call_good hI hg cl
    obtain ⟨h3, h4⟩ := ih h1
    exact ⟨h3, fun g data h => h4 g data (h2 g data h)⟩

theorem shown_read {c : Codec} {ign : Bool} {ms : List (Member × Hdr)} {z : Nat} {tb : Table} (hI : Covers c ign ms z tb)
    {k : Nat} {ns : List Str} {p : Member × Hdr} (hr : Reaches ms k ns p) (hk : k ≤ 128) (hn : ∀ x ∈ ns, IsName x) (before : List Call) :
    ∃ m fh, mopen (tableSource (rowsOf c ign ms z) tb) (calls (tableSource (rowsOf c ign ms z) tb) (start (archiveOf ms z)) before) (canonical ns) =
        (m, .ok fh) ∧
      ∀ (between : List Call) (size offset : Nat),
        (mread (calls (tableSource (rowsOf c ign ms z) tb) m between) fh size offset).2 = .ok ((p.1.data.drop offset).take size) := by
  obtain ⟨offset, h1, h2, h3⟩ := mlookup_reaches hI hr hk hn
  obtain ⟨hg, -⟩ := calls_good hI before (start_good (archiveOf ms z))
  obtain ⟨r, h4, h5, h6⟩ := openView_wf hg offset p.1.data.length (.inr h3)
  have hv : openView ((infoOf p offset).push .file) = .ok r := by unfold openView; exact h4
  obtain ⟨g1, g2, -⟩ := addHandle_good hg h5
  refine ⟨_, _, by unfold mopen; rw [h1]; simp only [hv]; rfl, ?_⟩
  intro between size off
  obtain ⟨g3, g4⟩ := calls_good hI between g1
  obtain ⟨q, hq, hd⟩ := g4 _ _ g2
  obtain ⟨store, r', e, -⟩ := mread_spec g3 hq size off
  rw [e, hd, h6, h2]

theorem shown_attributes {c : Codec} {ign : Bool} {ms : List (Member × Hdr)} {z : Nat} {tb : Table} (hI : Covers c ign ms z tb)
    {k : Nat} {ns : List Str} {p : Member × Hdr} (hr : Reaches ms k ns p) (hk : k ≤ 128) (hn : ∀ x ∈ ns, IsName x) :
    mgetattr (tableSource (rowsOf c ign ms z) tb) (canonical ns) = .ok (p.2.mode ||| typeOf p.2.type, p.1.data.length) ∧
      mreadlink (tableSource (rowsOf c ign ms z) tb) (canonical ns) = .ok p.2.link := by
  obtain ⟨offset, h1, -⟩ := mlookup_reaches hI hr hk hn
  unfold mgetattr mreadlink
  rw [h1]
  exact ⟨rfl, rfl⟩

theorem shown_folder {c : Codec} {ign : Bool} {ms : List (Member × Hdr)} {z : Nat} {tb : Table} (hI : Covers c ign ms z tb)
    {ns : List Str} (hn : ∀ x ∈ ns, IsName x) (hne : ns ≠ []) (hl : lastAt ms ns = none) (hb : Below ms ns) :
    mgetattr (tableSource (rowsOf c ign ms z) tb) (canonical ns) = .ok (0o40555, 0) := by
  rcases List.eq_nil_or_concat ns with rfl | ⟨a, x, rfl⟩
  · exact absurd rfl hne
  · rw [List.concat_eq_append] at hn hl hb ⊢
    obtain ⟨f, h1, h2, h3⟩ := found_generated hI hn (query_canonical _ hn) hl hb
    have hs : (tableSource (rowsOf c ign ms z) tb).lookup (canonical (a ++ [x])) 0 = some (toInfo (rowsOf c ign ms z) f) := by
      show (Index.lookup (tb) _ 0).map _ = _
      rw [h1]; rfl
    have hnl : Compose.isHardLink (toInfo (rowsOf c ign ms z) f) = false := by
      unfold Compose.isHardLink toInfo linkAt column
      rw [h3]
      simp
    unfold mgetattr mlookup
    rw [Compose.C34_other _ mp _ _ hs hnl]
    show Except.ok (f.info.mode, sizeAt (rowsOf c ign ms z) f.info.rest) = _
    rw [h2, h3]
    rfl

theorem shown_absent {c : Codec} {ign : Bool} {ms : List (Member × Hdr)} {z : Nat} {tb : Table} (hI : Covers c ign ms z tb)
    {ns : List Str} (hn : ∀ x ∈ ns, IsName x) (hne : ns ≠ []) (hv : ∀ x ∈ ns, endsWith dotVersions x = false) (hl : lastAt ms ns = none)
    (hb : ¬ Below ms ns) (m : Mount) :
    mgetattr (tableSource (rowsOf c ign ms z) tb) (canonical ns) = .error (.os 2) ∧
      mopen (tableSource (rowsOf c ign ms z) tb) m (canonical ns) = (m, .error (.os 2)) := by
  have h1 : (tableSource (rowsOf c ign ms z) tb).lookup (canonical ns) 0 = none := by
    rcases List.eq_nil_or_concat ns with rfl | ⟨a, x, rfl⟩
    · exact absurd rfl hne
    · rw [List.concat_eq_append] at hn hl hb ⊢
      show (Index.lookup (tb) _ 0).map _ = _
      rw [found_nothing hI hn (query_canonical _ hn) hl hb]
      rfl
  have h2 := Compose.C34_missing _ mp ns hne (fun x hx => ⟨(hn x hx).1, (hn x hx).2.1⟩) hv h1
  have h3 : mlookup (tableSource (rowsOf c ign ms z) tb) (canonical ns) = .error (.os 2) := by
    unfold mlookup; rw [h2]
  unfold mgetattr mopen
  rw [h3]
  exact ⟨rfl, rfl⟩

theorem found_iff {c : Codec} {ign : Bool} {ms : List (Member × Hdr)} {z : Nat} {tb : Table} (hI : Covers c ign ms z tb)
    {ns : List Str} {n : Str} (hn : ∀ x ∈ ns ++ [n], IsName x) :
    (Index.lookup (tb) (canonical (ns ++ [n])) 0).isSome = true ↔ ∃ p ∈ ms, ∃ rest, place p.2.name = ns ++ n :: rest := by
  rw [below_iff]
  have hp := query_canonical _ hn
  constructor
  · intro h
    refine Classical.byContradiction fun hc => ?_
    have h1 : lastAt ms (ns ++ [n]) = none := Classical.byContradiction fun h1 => hc (.inl h1)
    have h2 : ¬ Below ms (ns ++ [n]) := fun h2 => hc (.inr h2)
    rw [found_nothing hI hn hp h1 h2] at h
    cases h
  · intro h
    cases hl : lastAt ms (ns ++ [n]) with
    | some p =>
      obtain ⟨k, r, -, -, -, hf⟩ := found_member hI hn hp hl
      rw [hf]; rfl
    | none =>
      have hb : Below ms (ns ++ [n]) := h.resolve_left (fun h1 => h1 hl)
      obtain ⟨f, hf, -⟩ := found_generated hI hn hp hl hb
      rw [hf]; rfl

theorem namesOk {c : Codec} {ign : Bool} {ms : List (Member × Hdr)} {z : Nat} {tb : Table} (hI : Covers c ign ms z tb) :
    NamesOk (tb) := by
  have key : ∀ (pl : List Str) (path name : Str), (∀ x ∈ pl, IsName x) → (path, name) = splitPath (canonical pl) → name = [] ∨ IsName name := by
    intro pl path name hpl hr
    rcases List.eq_nil_or_concat pl with rfl | ⟨a, x, rfl⟩
    · left; exact (Prod.mk.inj hr).2
    · rw [List.concat_eq_append] at hr hpl
      right
      rw [(row_of_place hpl hr).2]
      exact hpl x (by simp)
  intro x hx
  rcases hI.others x hx with hm | hg
  · obtain ⟨k, p, r, hk, hr, hi, rfl⟩ := mem_toRows hI.clean ign z x hm
    exact key _ _ _ (place_names _) hi.place
  · obtain ⟨q, hq, ha, -⟩ := hg.child
    obtain ⟨k, p, r, hk, hr, hi, rfl⟩ := mem_toRows hI.clean ign z q hq
    have hpath := path_of_row (place_names _) hi.place
    have hd : ∀ y ∈ (place p.2.name).dropLast, IsName y := fun y hy => place_names _ y (List.dropLast_subset _ hy)
    replace ha : (x.1.path, x.1.name) ∈ ancestorPairs r.path := ha
    rw [hpath, mem_ancestorPairs _ hd] at ha
    obtain ⟨j, hj, he⟩ := ha
    right
    rw [(Prod.mk.inj he).2]
    exact hd _ (List.getElem_mem hj)

theorem source_list (rs : List IRow) (tb : Table) (path : Str) : (tableSource rs tb).list path =
    (Index.list (tb) path).map (fun d => .dict (d.map (fun p => (p.1, toInfo rs p.2)))) := rfl

theorem vlist_none {rs : List IRow} {tb : Table} {ns : List Str} (hn : ∀ x ∈ ns, IsName x)
    (hv : ∀ x ∈ ns, endsWith dotVersions x = false) (hl : Index.list (tb) (canonical ns) = none) :
    vlist (tableSource rs tb) (canonical ns) = none := by
  unfold vlist
  rw [source_list, hl, Option.map_none]
  rcases decode_plain (tableSource rs tb) ns hn hv with h | ⟨v, h⟩
  · simp only [h]
  · simp only [h]
    rw [source_list, hl]
    rfl

theorem vlist_some {rs : List IRow} {tb : Table} {path : Str} {d : Dict Str Index.FileInfo}
    (hl : Index.list (tb) path = some d) :
    ((vlist (tableSource rs tb) path).map (fun l => l.keys)).getD [] = d.keys := by
  unfold vlist
  rw [source_list, hl]
  simp [Compose.pushAll, Listing.keys, Dict.keys, Function.comp_def]

theorem keys_iff {c : Codec} {ign : Bool} {ms : List (Member × Hdr)} {z : Nat} {tb : Table} (hI : Covers c ign ms z tb)
    {ns : List Str} (hn : ∀ x ∈ ns, IsName x) (hv : ∀ x ∈ ns, endsWith dotVersions x = false) (n : Str) :
    n ∈ ((vlist (tableSource (rowsOf c ign ms z) tb) (canonical ns)).map (fun l => l.keys)).getD [] ↔
      ∃ p ∈ ms, ∃ rest, place p.2.name = ns ++ n :: rest := by
  have hnd := hI.nodup
  have hN : IsName n → ∀ x ∈ ns ++ [n], IsName x := by
    intro hnn x hx
    rcases List.mem_append.mp hx with hx | hx
    · exact hn x hx
    · rw [List.mem_singleton] at hx; subst hx; exact hnn
  have hnames : (∃ p ∈ ms, ∃ rest, place p.2.name = ns ++ n :: rest) → IsName n := by
    rintro ⟨p, -, rest, he⟩
    exact place_names p.2.name n (by rw [he]; simp)
  have h16 : IsName n → (Index.list (tb) (canonical ns)).bind (fun d => d.get? n) = Index.lookup (tb) (canonical (ns ++ [n])) 0 :=
    fun hnn => (C16_list_lookup (tb) hnd ns n (hN hnn) _ _ (query_canonical _ hn) (query_canonical _ (hN hnn))).1
  cases hl : Index.list (tb) (canonical ns) with
  | none =>
    rw [vlist_none hn hv hl]
    simp only [Option.map_none, Option.getD_none, List.not_mem_nil, false_iff]
    intro hex
    have hnn := hnames hex
    have h1 := h16 hnn
    rw [hl] at h1
    have h2 := (found_iff hI (hN hnn)).mpr hex
    rw [← h1] at h2
    cases h2
  | some d =>
    rw [vlist_some hl]
    constructor
    · intro hmem
      have hnn := C16_listed_names (tb) (namesOk hI) _ d hl n hmem
      have h1 := h16 hnn
      rw [hl] at h1
      refine (found_iff hI (hN hnn)).mp ?_
      rw [← h1]
      rw [Dict.mem_keys_iff] at hmem
      exact hmem
    · intro hex
      have hnn := hnames hex
      have h1 := h16 hnn
      rw [hl] at h1
      have h2 := (found_iff hI (hN hnn)).mpr hex
      rw [← h1] at h2
      rw [Dict.mem_keys_iff]
      exact h2

theorem shown_list {c : Codec} {ign : Bool} {ms : List (Member × Hdr)} {z : Nat} {tb : Table} (hI : Covers c ign ms z tb)
    {ns : List Str} (hn : ∀ x ∈ ns, IsName x) (hv : ∀ x ∈ ns, endsWith dotVersions x = false) (n : Str) :
    n ∈ mreaddir (tableSource (rowsOf c ign ms z) tb) (canonical ns) ↔
      n = ['.'] ∨ n = ['.', '.'] ∨ ∃ p ∈ ms, ∃ rest, place p.2.name = ns ++ n :: rest := by
  unfold mreaddir
  rw [List.mem_cons, List.mem_cons, keys_iff hI hn hv]

theorem shown_nodup {c : Codec} {ign : Bool} {ms : List (Member × Hdr)} {z : Nat} {tb : Table} (hI : Covers c ign ms z tb)
    {ns : List Str} (hn : ∀ x ∈ ns, IsName x) (hv : ∀ x ∈ ns, endsWith dotVersions x = false) :
    (mreaddir (tableSource (rowsOf c ign ms z) tb) (canonical ns)).Nodup := by
  have hnot : ∀ n, n ∈ ((vlist (tableSource (rowsOf c ign ms z) tb) (canonical ns)).map (fun l => l.keys)).getD [] → n ≠ ['.'] ∧ n ≠ ['.', '.'] := by
    intro n hm
    obtain ⟨p, -, rest, he⟩ := (keys_iff hI hn hv n).mp hm
    have := place_names p.2.name n (by rw [he]; simp)
    exact ⟨this.2.2.1, this.2.2.2⟩
  unfold mreaddir
  rw [List.nodup_cons, List.nodup_cons, List.mem_cons]
  refine ⟨?_, fun h => (hnot _ h).2 rfl, ?_⟩
  · rintro (h | h)
    · exact absurd h (by decide)
    · exact (hnot _ h).1 rfl
  · cases hl : Index.list (tb) (canonical ns) with
    | none =>
      rw [vlist_none hn hv hl]
      exact List.nodup_nil
    | some d =>
      rw [vlist_some hl]
      exact list_nodup _ _ _ hl

end Verif.Fuse.TarTable
