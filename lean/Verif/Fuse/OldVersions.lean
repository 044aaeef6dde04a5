import Verif.Fuse.LibMount
import Verif.Fuse.TarFiles
import Verif.Fuse.ThinMount

/-!
# C204: older versions of members through the mount

If a path was packed more than once, the mount shows the last member. The others are at `<path>.versions/<number>` (versioning.py:17-229). Here, the
versions layer (`Verif.Compose.Versioning`), the index (`Verif.Index.Query`) and the FUSE operations (`Verif.Fuse.TarMount`) are put together for this.
-/

namespace Verif.Fuse.OldVersions

open Verif.Py Verif.Index
open Verif.Tar (Bytes)
open Verif.Compose (Source vlookup vlist dotVersions Step Readable apiPath plainPath lastVersion)
open Verif.Fuse.TarMount (mp mlookup mreaddir place_of_row row_of_place path_of_row generated_row folderPath_inj)
open Verif.Fuse.ThinMount (isName_natStr)

/-! ## the index -/

/-- The rows `rows` of the members `ms`, whose places `f` gives, are in the index that the batches `bs` gave. -/
structure Held {α : Type} (f : α → List Str) (ms : List α) (rows : List Row) (bs : List (List Row)) : Prop where
  names : ∀ m ∈ ms, ∀ x ∈ f m, IsName x
  length : rows.length = ms.length
  row : ∀ (k : Nat) (m : α) (r : Row), ms[k]? = some m → rows[k]? = some r → (r.1.path, r.1.name) = splitPath (canonical (f m))
  order : ∀ (i j : Nat) (r r' : Row), i < j → rows[i]? = some r → rows[j]? = some r' → r.1.path = r'.1.path → r.1.name = r'.1.name →
    r.1.oh < r'.1.oh
  there : ∀ r ∈ rows, r ∈ build bs
  only : ∀ r ∈ bs.flatten, r ∈ rows
  free : ∀ (ns : List Str) (n : Str), (∀ x ∈ ns ++ [n], IsName x) → ∀ x ∈ (insertAll bs).generated, x.1.path = folderPath ns → x.1.name = n →
    ∀ m ∈ ms, f m ≠ ns ++ [n]

/-- The members with a place. -/
def versionsAt {α : Type} (f : α → List Str) (ms : List α) (pl : List Str) : List α := ms.filter (fun m => decide (f m = pl))

/-- The rows of these members. -/
def rowsAt_ {α : Type} (f : α → List Str) (ms : List α) (rows : List Row) (pl : List Str) : List Row :=
  ((rows.zip ms).filter (fun q => decide (f q.2 = pl))).map (fun q => q.1)

theorem versionsAt_zip {α : Type} {f : α → List Str} {ms : List α} {rows : List Row} (hl : rows.length = ms.length) (pl : List Str) :
    versionsAt f ms pl = ((rows.zip ms).filter (fun q => decide (f q.2 = pl))).map (fun q => q.2) := by
  unfold versionsAt
  have h : (rows.zip ms).map (fun q => q.2) = ms := by
    have := List.map_snd_zip (l₁ := rows) (l₂ := ms) (by omega)
    exact this
  conv => lhs; rw [← h]
  rw [List.filter_map]
  rfl

/-- A version has a row. -/
theorem version_row {α : Type} {f : α → List Str} {ms : List α} {rows : List Row} (hl : rows.length = ms.length) {pl : List Str} {k : Nat} {p : α}
    (h : (versionsAt f ms pl)[k]? = some p) : ∃ (j : Nat) (r : Row), ms[j]? = some p ∧ rows[j]? = some r ∧ (rowsAt_ f ms rows pl)[k]? = some r := by
  rw [versionsAt_zip hl, List.getElem?_map, Option.map_eq_some_iff] at h
  obtain ⟨⟨r, q⟩, hq, rfl⟩ := h
  have hm := (List.mem_filter.mp (List.mem_of_getElem? hq)).1
  obtain ⟨j, hj⟩ := List.getElem?_of_mem hm
  rw [List.getElem?_zip_eq_some] at hj
  exact ⟨j, r, hj.2, hj.1, by unfold rowsAt_; rw [List.getElem?_map, hq]; rfl⟩

theorem rowsAt_length {α : Type} {f : α → List Str} {ms : List α} {rows : List Row} (hl : rows.length = ms.length) (pl : List Str) :
    (rowsAt_ f ms rows pl).length = (versionsAt f ms pl).length := by
  rw [versionsAt_zip hl]
  unfold rowsAt_
  rw [List.length_map, List.length_map]

/-- The rows of a place with members are the entries of the index for it. -/
theorem entries {α : Type} {f : α → List Str} {ms : List α} {rows : List Row} {bs : List (List Row)} (h : Held f ms rows bs) {ns : List Str} {n : Str}
    (hn : ∀ x ∈ ns ++ [n], IsName x) (hex : ∃ m ∈ ms, f m = ns ++ [n]) :
    Entries (build bs) (folderPath ns) n (rowsAt_ f ms rows (ns ++ [n])) where
  mem r := by
    unfold rowsAt_
    rw [List.mem_map]
    constructor
    · rintro ⟨⟨r', m⟩, hm, rfl⟩
      obtain ⟨h1, h2⟩ := List.mem_filter.mp hm
      have h2 : f m = ns ++ [n] := of_decide_eq_true h2
      obtain ⟨j, hj⟩ := List.getElem?_of_mem h1
      rw [List.getElem?_zip_eq_some] at hj
      have := h.row j m r' hj.2 hj.1
      rw [h2] at this
      exact ⟨h.there _ (List.mem_of_getElem? hj.1), row_of_place hn this⟩
    · rintro ⟨h1, h2, h3⟩
      rcases mem_build bs r h1 with hf | hg
      · obtain ⟨j, hj⟩ := List.getElem?_of_mem (h.only r hf)
        have hlt : j < ms.length := by rw [← h.length]; exact (List.getElem?_eq_some_iff.mp hj).1
        have hm := List.getElem?_eq_getElem hlt
        have hpl := place_of_row (h.names _ (List.mem_of_getElem? hm)) (h.row j _ r hm hj) hn h2 h3
        exact ⟨(r, ms[j]), List.mem_filter.mpr ⟨List.mem_of_getElem? (List.getElem?_zip_eq_some.mpr ⟨hj, hm⟩), by simpa using hpl⟩, rfl⟩
      · obtain ⟨m, hm, he⟩ := hex
        exact absurd he (h.free ns n hn r hg h2 h3 m hm)
  sorted := by
    have hz : (rows.zip ms).Pairwise (fun a b => f a.2 = ns ++ [n] → f b.2 = ns ++ [n] → a.1.1.oh < b.1.1.oh) := by
      rw [List.pairwise_iff_getElem]
      intro i j hi hj hij h1 h2
      have gi := List.getElem?_zip_eq_some.mp (List.getElem?_eq_getElem hi)
      have gj := List.getElem?_zip_eq_some.mp (List.getElem?_eq_getElem hj)
      have ri := h.row i _ _ gi.2 gi.1
      have rj := h.row j _ _ gj.2 gj.1
      rw [h1] at ri
      rw [h2] at rj
      have e := ri.trans rj.symm
      exact h.order i j _ _ hij gi.1 gj.1 (congrArg Prod.fst e) (congrArg Prod.snd e)
    unfold rowsAt_
    rw [List.pairwise_map]
    have h2 := List.Pairwise.filter (fun q => decide (f q.2 = ns ++ [n])) hz
    refine List.Pairwise.imp_of_mem ?_ h2
    intro a b ha hb hab
    exact hab (of_decide_eq_true (List.mem_filter.mp ha).2) (of_decide_eq_true (List.mem_filter.mp hb).2)

/-- Version number `k + 1` of a place is member number `k` with this place. -/
theorem lookup_version {α : Type} {f : α → List Str} {ms : List α} {rows : List Row} {bs : List (List Row)} (h : Held f ms rows bs) {ns : List Str}
    {n : Str} (hn : ∀ x ∈ ns ++ [n], IsName x) {k : Nat} {p : α} (hp : (versionsAt f ms (ns ++ [n]))[k]? = some p) :
    ∃ (j : Nat) (r : Row), ms[j]? = some p ∧ rows[j]? = some r ∧
      Index.lookup (build bs) (canonical (ns ++ [n])) ((k + 1 : Nat) : Int) = some (toFileInfo r) := by
  obtain ⟨j, r, h1, h2, h3⟩ := version_row h.length hp
  refine ⟨j, r, h1, h2, ?_⟩
  have hmem := List.mem_filter.mp (List.mem_of_getElem? hp)
  have hes := entries h hn ⟨p, hmem.1, of_decide_eq_true hmem.2⟩
  rw [C15_lookup _ (build_nodup bs) ns n hn _ (query_canonical _ hn) _ hes, if_pos (by omega)]
  rw [show (((k + 1 : Nat) : Int) - 1).toNat = k by omega, h3]
  rfl

/-- The number of versions. -/
theorem versions_length {α : Type} {f : α → List Str} {ms : List α} {rows : List Row} {bs : List (List Row)} (h : Held f ms rows bs) {ns : List Str}
    {n : Str} (hn : ∀ x ∈ ns ++ [n], IsName x) (hex : ∃ m ∈ ms, f m = ns ++ [n]) :
    (Index.versions (build bs) (canonical (ns ++ [n]))).length = (versionsAt f ms (ns ++ [n])).length := by
  rw [(C15_versions _ (build_nodup bs) ns n hn _ (query_canonical _ hn) _ (entries h hn hex)).1, rowsAt_length h.length]

/-- A folder that is no place and below which there is none has no rows. -/
theorem list_none {α : Type} {f : α → List Str} {ms : List α} {rows : List Row} {bs : List (List Row)} (h : Held f ms rows bs) {ns : List Str}
    (hn : ∀ x ∈ ns, IsName x) (hb : ∀ m ∈ ms, ¬ ns <+: f m) : Index.list (build bs) (canonical ns) = none := by
  rw [(C16_none (build bs) ns hn _ (query_canonical _ hn)).1]
  have key : ∀ r ∈ rows, ∃ m ∈ ms, r.1.path = folderPath (f m).dropLast := by
    intro r hr
    obtain ⟨j, hj⟩ := List.getElem?_of_mem hr
    have hlt : j < ms.length := by rw [← h.length]; exact (List.getElem?_eq_some_iff.mp hj).1
    have hm := List.getElem?_eq_getElem hlt
    exact ⟨ms[j], List.mem_of_getElem? hm, path_of_row (h.names _ (List.mem_of_getElem? hm)) (h.row j _ r hm hj)⟩
  intro r hr he
  rcases mem_build bs r hr with hf | hg
  · obtain ⟨m, hm, hp⟩ := key r (h.only r hf)
    have := folderPath_inj hn (fun x hx => h.names m hm x (List.dropLast_subset _ hx)) (he.symm.trans hp)
    exact hb m hm (this ▸ List.dropLast_prefix _)
  · obtain ⟨⟨q, hq, ha⟩, -, -, -⟩ := generated_row hg
    obtain ⟨m, hm, hp⟩ := key q (h.only q hq)
    have hd : ∀ x ∈ (f m).dropLast, IsName x := fun x hx => h.names m hm x (List.dropLast_subset _ hx)
    rw [hp, mem_ancestorPairs _ hd] at ha
    obtain ⟨k, hk, hab⟩ := ha
    have h1 := (Prod.mk.inj hab).1
    have := folderPath_inj hn (fun x hx => hd x (List.mem_of_mem_take hx)) (he.symm.trans h1)
    exact hb m hm (this ▸ (List.take_prefix _ _).trans (List.dropLast_prefix _))

/-! ## the versions layer -/

theorem dotVersions_eq : dotVersions = ['.', 'v', 'e', 'r', 's', 'i', 'o', 'n', 's'] := by decide

theorem isName_versions {n : Str} (h : IsName n) : IsName (n ++ dotVersions) := by
  rw [dotVersions_eq]
  refine ⟨?_, ?_, ?_, ?_⟩
  · intro he
    have := (List.append_eq_nil_iff.mp he).2
    exact absurd this (by decide)
  · intro hm
    rcases List.mem_append.mp hm with h1 | h1
    · exact h.2.1 h1
    · exact absurd h1 (by decide)
  · intro he
    have h1 := congrArg List.length he
    rw [List.length_append, List.length_cons, List.length_cons] at h1
    simp only [List.length_cons, List.length_nil] at h1
    omega
  · intro he
    have h1 := congrArg List.length he
    rw [List.length_append, List.length_cons, List.length_cons] at h1
    simp only [List.length_cons, List.length_nil] at h1
    omega

/-- The steps of a path whose last name has a version. -/
def stepsOf (ns : List Str) (n : Str) (k : Nat) : List Step := ns.map (fun x => (x, none)) ++ [(n, some (((k + 1 : Nat) : Int)))]

theorem steps_api (ns : List Str) (n : Str) (k : Nat) : apiPath (stepsOf ns n k) = ns ++ [n ++ dotVersions, natStr (k + 1)] := by
  unfold apiPath stepsOf
  rw [List.flatMap_append]
  have : (ns.map (fun x => ((x, none) : Step))).flatMap Step.parts = ns := by
    induction ns with
    | nil => rfl
    | cons a as ih => rw [List.map_cons, List.flatMap_cons, ih]; rfl
  rw [this]
  rfl

theorem plain_api (ns : List Str) : apiPath (ns.map (fun x => ((x, none) : Step))) = ns := by
  unfold apiPath
  induction ns with
  | nil => rfl
  | cons a as ih => rw [List.map_cons, List.flatMap_cons, ih]; rfl

theorem plain_plain (ns : List Str) : plainPath (ns.map (fun x => ((x, none) : Step))) = ns := by
  unfold plainPath
  rw [List.map_map]
  exact List.map_id' ns

theorem steps_plain (ns : List Str) (n : Str) (k : Nat) : plainPath (stepsOf ns n k) = ns ++ [n] := by
  unfold plainPath stepsOf
  rw [List.map_append, List.map_map]
  congr 1
  exact List.map_id' ns

theorem steps_last (ns : List Str) (n : Str) (k : Nat) : lastVersion (stepsOf ns n k) = ((k + 1 : Nat) : Int) := by
  unfold lastVersion stepsOf
  rw [List.getLast?_append]
  rfl

/-- All folders of the path exist. -/
def Parents (s : Source) (ns : List Str) : Prop := ∀ a b, ns = a ++ b → a ≠ [] → (s.lookup (canonical a) 0).isSome = true

theorem readable_plain {s : Source} {ns : List Str} (hp : Parents s ns) : Readable s (ns.map (fun x => ((x, none) : Step))) := by
  intro pre st post he
  obtain ⟨a, b, hab, rfl, hb⟩ := List.map_eq_append_iff.mp he
  obtain ⟨x, c, rfl, rfl, rfl⟩ := List.map_eq_cons_iff.mp hb
  simp only
  rw [plain_plain]
  exact hp (a ++ [x]) c (by rw [hab]; simp) (by simp)

theorem readable_steps {s : Source} {ns : List Str} {n : Str} {k : Nat} (hp : Parents s ns)
    (hfree : s.lookup (canonical (ns ++ [n ++ dotVersions])) 0 = none) : Readable s (stepsOf ns n k) := by
  intro pre st post he
  unfold stepsOf at he
  rcases List.eq_nil_or_concat post with rfl | ⟨post', last, rfl⟩
  · obtain ⟨h1, h2⟩ := List.append_inj' he rfl
    cases h2
    subst h1
    simp only
    rw [plain_plain]
    exact hfree
  · rw [List.concat_eq_append] at he
    have h1 : ns.map (fun x => ((x, none) : Step)) ++ [(n, some (((k + 1 : Nat) : Int)))] = (pre ++ st :: post') ++ [last] := by rw [he]; simp
    obtain ⟨h2, -⟩ := List.append_inj' h1 rfl
    exact readable_plain hp pre st post' h2

/-- Version number `k + 1` is found through the versions folder. -/
theorem mlookup_version {s : Source} {ns : List Str} {n : Str} {k : Nat} (hn : ∀ x ∈ ns ++ [n], IsName x) (hp : Parents s ns)
    (hfree : s.lookup (canonical (ns ++ [n ++ dotVersions])) 0 = none)
    (hfree' : s.lookup (canonical (ns ++ [n ++ dotVersions, natStr (k + 1)])) 0 = none) {i : Compose.FileInfo}
    (hi : s.lookup (canonical (ns ++ [n])) ((k + 1 : Nat) : Int) = some i) :
    mlookup s (canonical (ns ++ [n ++ dotVersions, natStr (k + 1)])) = .ok (i.push .file) := by
  have hst : ∀ st ∈ stepsOf ns n k, st.1 ≠ [] ∧ '/' ∉ st.1 := by
    intro st hst
    have hm : st.1 ∈ ns ++ [n] := by
      rw [← steps_plain ns n k]
      exact List.mem_map.mpr ⟨st, hst, rfl⟩
    exact ⟨(hn _ hm).1, (hn _ hm).2.1⟩
  have h := Compose.C34_version s mp (stepsOf ns n k) (by simp [stepsOf]) hst (readable_steps hp hfree) (by rw [steps_api]; exact hfree')
  rw [steps_api, steps_plain, steps_last, hi] at h
  unfold mlookup
  rw [h]
  rfl

/-- The versions folder lists the numbers of the versions. -/
theorem readdir_versions {s : Source} {ns : List Str} {n : Str} (hn : ∀ x ∈ ns ++ [n], IsName x) (hp : Parents s ns)
    (hfree : s.lookup (canonical (ns ++ [n ++ dotVersions])) 0 = none) (hlist : s.list (canonical (ns ++ [n ++ dotVersions])) = none)
    {i : Compose.FileInfo} (hi : s.lookup (canonical (ns ++ [n])) 0 = some i) :
    mreaddir s (canonical (ns ++ [n ++ dotVersions])) =
      ['.'] :: ['.', '.'] :: (List.range (s.versions (canonical (ns ++ [n])))).map (fun k => natStr (k + 1)) := by
  have hst : ∀ st ∈ ns.map (fun x => ((x, none) : Step)), st.1 ≠ [] ∧ '/' ∉ st.1 := by
    intro st hst
    obtain ⟨x, hx, rfl⟩ := List.mem_map.mp hst
    have := hn x (by simp [hx])
    exact ⟨this.1, this.2.1⟩
  have hname := hn n (by simp)
  have h := (Compose.C34_list s mp (ns.map (fun x => ((x, none) : Step))) n hst ⟨hname.1, hname.2.1⟩ (readable_plain hp)
    (by rw [plain_plain]; exact hfree) (by rw [plain_api]; exact hfree) (by rw [plain_api]; exact hlist) i (by rw [plain_plain]; exact hi)).2
  obtain ⟨l, h1, h2⟩ := h
  rw [plain_api] at h1
  rw [plain_plain] at h2
  unfold mreaddir
  rw [h1, Option.map_some, Option.getD_some, h2]

/-- The versions folder is a folder. -/
theorem getattr_versions {s : Source} {ns : List Str} {n : Str} (hn : ∀ x ∈ ns ++ [n], IsName x) (hp : Parents s ns)
    (hfree : s.lookup (canonical (ns ++ [n ++ dotVersions])) 0 = none) (hlist : s.list (canonical (ns ++ [n ++ dotVersions])) = none)
    {i : Compose.FileInfo} (hi : s.lookup (canonical (ns ++ [n])) 0 = some i) :
    ∃ f, mlookup s (canonical (ns ++ [n ++ dotVersions])) = .ok f ∧ Compose.isDir f.mode = true := by
  have hst : ∀ st ∈ ns.map (fun x => ((x, none) : Step)), st.1 ≠ [] ∧ '/' ∉ st.1 := by
    intro st hst
    obtain ⟨x, hx, rfl⟩ := List.mem_map.mp hst
    have := hn x (by simp [hx])
    exact ⟨this.1, this.2.1⟩
  have hname := hn n (by simp)
  obtain ⟨f, h1, h2⟩ := (Compose.C34_list s mp (ns.map (fun x => ((x, none) : Step))) n hst ⟨hname.1, hname.2.1⟩ (readable_plain hp)
    (by rw [plain_plain]; exact hfree) (by rw [plain_api]; exact hfree) (by rw [plain_api]; exact hlist) i (by rw [plain_plain]; exact hi)).1
  rw [plain_api] at h1
  exact ⟨f, by unfold mlookup; rw [h1], h2⟩

/-! ## TAR archives -/

section tar

open Verif.Fuse.TarMount
open Verif.Tar (Member Hdr Codec archiveOf)

theorem held_tar {c : Codec} {ign : Bool} {ms : List (Member × Hdr)} {z : Nat} {bs : List (List Row)} (hI : Inserted c ign ms z bs) :
    Held (fun p : Member × Hdr => place p.2.name) ms (toRows (rowsOf c ign ms z)) bs where
  names p _ := place_names _
  length := by unfold toRows; rw [List.length_mapIdx, rowsOf_length hI.clean]
  row := by
    intro k m r hm hr
    unfold toRows at hr
    rw [List.getElem?_mapIdx, Option.map_eq_some_iff] at hr
    obtain ⟨q, hq, rfl⟩ := hr
    obtain ⟨q', hq', hi⟩ := row_of hI.clean ign z k m hm
    rw [hq] at hq'
    cases hq'
    exact hi.place
  order := by
    intro i j r r' hij hr hr' _ _
    have key : ∀ (k : Nat) (r : Row), (toRows (rowsOf c ign ms z))[k]? = some r → k < ms.length ∧ r.1.oh = headerOf ms k := by
      intro k r hr
      unfold toRows at hr
      rw [List.getElem?_mapIdx, Option.map_eq_some_iff] at hr
      obtain ⟨q, hq, rfl⟩ := hr
      have hlt : k < ms.length := by rw [← rowsOf_length hI.clean ign z]; exact (List.getElem?_eq_some_iff.mp hq).1
      obtain ⟨q', hq', hi⟩ := row_of hI.clean ign z k _ (List.getElem?_eq_getElem hlt)
      rw [hq] at hq'
      cases hq'
      refine ⟨hlt, ?_⟩
      show (q.oh : Int) = _
      rw [hi.oh]
    obtain ⟨-, h1⟩ := key i r hr
    obtain ⟨h2, h3⟩ := key j r' hr'
    rw [h1, h3]
    have := headerOf_lt hI.clean.ok hij (Nat.le_of_lt h2)
    omega
  there := by
    intro r hr
    obtain ⟨k, p, q, hk, hq, hi, rfl⟩ := mem_toRows hI.clean ign z r hr
    exact (file_row hI hk hq hi).2
  only r hr := hI.rows ▸ hr
  free ns n hn x hx h1 h2 := (generated_free hI hn hx h1 h2).2

/-- What the versions layer needs of the archive for a place. -/
theorem ready_tar {c : Codec} {ign : Bool} {ms : List (Member × Hdr)} {z : Nat} {bs : List (List Row)} (hI : Inserted c ign ms z bs) {ns : List Str}
    {n : Str} (hn : ∀ x ∈ ns ++ [n], IsName x) (hex : ∃ p ∈ ms, place p.2.name = ns ++ [n])
    (hno : ∀ p ∈ ms, ¬ (ns ++ [n ++ dotVersions]) <+: place p.2.name) :
    Parents (tarSource (rowsOf c ign ms z) bs) ns ∧
    (tarSource (rowsOf c ign ms z) bs).lookup (canonical (ns ++ [n ++ dotVersions])) 0 = none ∧
    (∀ k, (tarSource (rowsOf c ign ms z) bs).lookup (canonical (ns ++ [n ++ dotVersions, natStr (k + 1)])) 0 = none) ∧
    (tarSource (rowsOf c ign ms z) bs).list (canonical (ns ++ [n ++ dotVersions])) = none := by
  have hv : ∀ x ∈ ns ++ [n ++ dotVersions], IsName x := by
    intro x hx
    rcases List.mem_append.mp hx with h | h
    · exact hn x (by simp [h])
    · rw [List.mem_singleton.mp h]
      exact isName_versions (hn n (by simp))
  have hnone : ∀ (a : List Str) (x : Str), (∀ y ∈ a ++ [x], IsName y) → (∀ p ∈ ms, ∀ rest, place p.2.name ≠ a ++ x :: rest) →
      (tarSource (rowsOf c ign ms z) bs).lookup (canonical (a ++ [x])) 0 = none := by
    intro a x ha hb
    show (Index.lookup (build bs) _ 0).map _ = none
    rw [Option.map_eq_none_iff]
    cases hl : Index.lookup (build bs) (canonical (a ++ [x])) 0 with
    | none => rfl
    | some y =>
      obtain ⟨p, hp, rest, he⟩ := (found_iff hI ha).mp (by rw [hl]; rfl)
      exact absurd he (hb p hp rest)
  refine ⟨?_, ?_, ?_, ?_⟩
  · intro a b hab hne
    rcases List.eq_nil_or_concat a with rfl | ⟨a', x, rfl⟩
    · exact absurd rfl hne
    rw [List.concat_eq_append] at hab ⊢
    show ((Index.lookup (build bs) _ 0).map _).isSome = true
    rw [Option.isSome_map]
    obtain ⟨p, hp, he⟩ := hex
    refine (found_iff hI ?_).mpr ⟨p, hp, b ++ [n], by rw [he, hab]; simp⟩
    intro y hy
    exact hn y (by rw [hab]; simp only [List.mem_append]; exact .inl (.inl (List.mem_append.mp hy)))
  · refine hnone ns _ hv (fun p hp rest he => hno p hp ⟨rest, ?_⟩)
    rw [he]; simp
  · intro k
    have := hnone (ns ++ [n ++ dotVersions]) (natStr (k + 1)) ?_ (fun p hp rest he => hno p hp ⟨natStr (k + 1) :: rest, he.symm⟩)
    · rw [List.append_assoc] at this
      exact this
    · intro y hy
      rcases List.mem_append.mp hy with h | h
      · exact hv y h
      · rw [List.mem_singleton.mp h]
        exact isName_natStr _
  · show (Index.list (build bs) _).map _ = none
    rw [Option.map_eq_none_iff]
    exact list_none (held_tar hI) hv hno

theorem version_tar {c : Codec} {ign : Bool} {ms : List (Member × Hdr)} {z : Nat} {bs : List (List Row)} (hI : Inserted c ign ms z bs) {ns : List Str}
    {n : Str} (hn : ∀ x ∈ ns ++ [n], IsName x) {k : Nat} {p : Member × Hdr}
    (hp : (versionsAt (fun p : Member × Hdr => place p.2.name) ms (ns ++ [n]))[k]? = some p)
    (hno : ∀ p ∈ ms, ¬ (ns ++ [n ++ dotVersions]) <+: place p.2.name) :
    ∃ offset, mlookup (tarSource (rowsOf c ign ms z) bs) (canonical (ns ++ [n ++ dotVersions, natStr (k + 1)])) = .ok ((infoOf p offset).push .file) ∧
      Tar.readAt (archiveOf ms z) offset p.1.data.length = p.1.data ∧ offset + p.1.data.length ≤ (archiveOf ms z).length := by
  have hm := List.mem_filter.mp (List.mem_of_getElem? hp)
  obtain ⟨h1, h2, h3, -⟩ := ready_tar hI hn ⟨p, hm.1, of_decide_eq_true hm.2⟩ hno
  obtain ⟨j, r, hj, hr, hl⟩ := lookup_version (held_tar hI) hn hp
  unfold toRows at hr
  rw [List.getElem?_mapIdx, Option.map_eq_some_iff] at hr
  obtain ⟨q, hq, rfl⟩ := hr
  obtain ⟨q', hq', hi⟩ := row_of hI.clean ign z j p hj
  rw [hq] at hq'
  cases hq'
  refine ⟨q.offset, mlookup_version hn h1 h2 (h3 k) ?_, ?_, ?_⟩
  · show (Index.lookup (build bs) _ _).map _ = _
    rw [hl, Option.map_some, toInfo_row hq hi (hI.clean.kinds p hm.1)]
  · have := hi.data; rw [hi.size] at this; exact this
  · have := hi.inside; rw [hi.size] at this; exact this

/-- What is found can be opened and read. -/
theorem reads_tar {c : Codec} {ign : Bool} {ms : List (Member × Hdr)} {z : Nat} {bs : List (List Row)} (hI : Inserted c ign ms z bs) {path : Str}
    {p : Member × Hdr} {offset : Nat} (h1 : mlookup (tarSource (rowsOf c ign ms z) bs) path = .ok ((infoOf p offset).push .file))
    (h2 : Tar.readAt (archiveOf ms z) offset p.1.data.length = p.1.data) (h3 : offset + p.1.data.length ≤ (archiveOf ms z).length) (before : List Call) :
    ∃ m fh, mopen (tarSource (rowsOf c ign ms z) bs) (calls (tarSource (rowsOf c ign ms z) bs) (start (archiveOf ms z)) before) path = (m, .ok fh) ∧
      ∀ (between : List Call) (size offset : Nat),
        (mread (calls (tarSource (rowsOf c ign ms z) bs) m between) fh size offset).2 = .ok ((p.1.data.drop offset).take size) := by
  obtain ⟨hg, -⟩ := calls_good hI before (start_good (archiveOf ms z))
  obtain ⟨r, h4, h5, h6⟩ := openView_wf hg offset p.1.data.length (.inr h3)
  have hv : openView ((infoOf p offset).push .file) = .ok r := by unfold openView; exact h4
  obtain ⟨g1, g2, -⟩ := addHandle_good hg h5
  refine ⟨_, _, by unfold mopen; rw [h1]; simp only [hv]; rfl, ?_⟩
  intro between size off
  obtain ⟨g3, g4⟩ := calls_good hI between g1
  obtain ⟨q, hq, hd⟩ := g4 _ _ g2
  obtain ⟨store, r', e, -⟩ := mread_spec g3 hq size off
  rw [e, hd, h6, h2]

end tar

/-! ## C204: TAR archives -/

open Verif.Fuse.TarFiles
open Verif.Fuse.TarMount (place place_names mopen mread mgetattr mreadlink calls start Call)
open Verif.Tar.Header (File Kind Written Storable codec)

/-- The files that were packed for a place, in the order of the archive. -/
def versionsOf (fs : List File) (ns : List Str) : List File := fs.filter (fun f => decide (place f.name = ns))

/-- Nothing was packed at this place or below it. -/
def Nothing (fs : List File) (ns : List Str) : Prop := ∀ f ∈ fs, ∀ rest, place f.name ≠ ns ++ rest

/-- The path `<folder>/<name>.versions/<number>`. -/
def versionPath (ns : List Str) (n : Str) (number : Nat) : List Str := ns ++ [n ++ ".versions".toList, natStr number]

theorem version_file {ws : Packing} {pl : List Str} {k : Nat} {f : File} (h : (versionsOf (ws.map (fun p => p.1)) pl)[k]? = some f) :
    ∃ m, (f, m) ∈ ws ∧ (versionsAt (fun p : Tar.Member × Tar.Hdr => place p.2.name) (members ws) pl)[k]? = some (m, f.hdr) := by
  unfold versionsOf at h
  rw [List.filter_map, List.getElem?_map, Option.map_eq_some_iff] at h
  obtain ⟨p, hp, rfl⟩ := h
  refine ⟨p.2, (List.mem_filter.mp (List.mem_of_getElem? hp)).1, ?_⟩
  unfold versionsAt members
  rw [List.filter_map, List.getElem?_map]
  have : ((fun m : Tar.Member × Tar.Hdr => decide (place m.2.name = pl)) ∘ fun p : File × Tar.Member => (p.2, p.1.hdr)) =
      ((fun f : File => decide (place f.name = pl)) ∘ fun p : File × Tar.Member => p.1) := rfl
  rw [this, hp]
  rfl

theorem nothing_members {ws : Packing} {ns : List Str} (h : Nothing (ws.map (fun p => p.1)) ns) : ∀ p ∈ members ws, ¬ ns <+: place p.2.name := by
  rintro p hp ⟨rest, he⟩
  obtain ⟨q, hq, rfl⟩ := List.mem_map.mp hp
  exact h q.1 (List.mem_map.mpr ⟨q, hq, rfl⟩) rest he.symm

/-- **C204** (the data that was packed for the version itself, of which a hard link has none): if a path was packed several times, every version can be
opened at `<path>.versions/<number>`, where the numbers count in the order of the archive from one, and every read gives exactly the requested range of
the data of that version, whatever else is opened and read before and in between. -/
theorem C204_read_partial {esc : Bytes → Str} {ign : Bool} {ws : Packing} {zeros : Nat} {bs : List (List Row)} (hp : Packed ws)
    (hb : Batches esc ign (bytesOf ws zeros) bs) {ns : List Str} {n : Str} (hn : ∀ x ∈ ns ++ [n], IsName x)
    (hno : Nothing (ws.map (fun p => p.1)) (ns ++ [n ++ ".versions".toList])) {k : Nat} {f : File}
    (hf : (versionsOf (ws.map (fun p => p.1)) (ns ++ [n]))[k]? = some f) (before : List Call) :
    ∃ m fh, mopen (mounted esc ign (bytesOf ws zeros) bs) (calls (mounted esc ign (bytesOf ws zeros) bs) (start (bytesOf ws zeros)) before)
        (canonical (versionPath ns n (k + 1))) = (m, .ok fh) ∧
      ∀ (between : List Call) (size offset : Nat),
        (mread (calls (mounted esc ign (bytesOf ws zeros) bs) m between) fh size offset).2 = .ok ((f.data.drop offset).take size) := by
  obtain ⟨m, h1, h2⟩ := version_file hf
  obtain ⟨offset, h3, h4, h5⟩ := version_tar (inserted hp hb) hn h2 (nothing_members hno)
  have h6 := reads_tar (inserted hp hb) h3 h4 h5 before
  rw [← mounted_eq, archive_eq, data_eq (hp.written _ h1)] at h6
  exact h6

/-- **C204** (for versions that are not hard links): type, permissions, size and target of a link of each version are those that were packed. -/
theorem C204_attributes_partial {esc : Bytes → Str} {ign : Bool} {ws : Packing} {zeros : Nat} {bs : List (List Row)} (hp : Packed ws)
    (hb : Batches esc ign (bytesOf ws zeros) bs) {ns : List Str} {n : Str} (hn : ∀ x ∈ ns ++ [n], IsName x)
    (hno : Nothing (ws.map (fun p => p.1)) (ns ++ [n ++ ".versions".toList])) {k : Nat} {f : File}
    (hf : (versionsOf (ws.map (fun p => p.1)) (ns ++ [n]))[k]? = some f) (hh : f.kind ≠ .hardlink) :
    mgetattr (mounted esc ign (bytesOf ws zeros) bs) (canonical (versionPath ns n (k + 1))) = .ok (f.mode ||| bits f.kind, f.data.length) ∧
      mreadlink (mounted esc ign (bytesOf ws zeros) bs) (canonical (versionPath ns n (k + 1))) = .ok f.link := by
  obtain ⟨m, h1, h2⟩ := version_file hf
  obtain ⟨offset, h3, -, -⟩ := version_tar (inserted hp hb) hn h2 (nothing_members hno)
  rw [← mounted_eq] at h3
  unfold mgetattr mreadlink versionPath
  rw [show n ++ ".versions".toList = n ++ dotVersions from rfl, h3]
  refine ⟨?_, rfl⟩
  show Except.ok (f.hdr.mode ||| TarMount.typeOf f.hdr.type, m.data.length) = _
  rw [data_eq (hp.written _ h1), show TarMount.typeOf f.hdr.type = bits f.kind from typeOf_kind f.kind hh]
  rfl

/-- **C204**: `<path>.versions` is a folder that lists exactly the numbers from one to the number of packed versions, also if some are hard links. -/
theorem C204_list {esc : Bytes → Str} {ign : Bool} {ws : Packing} {zeros : Nat} {bs : List (List Row)} (hp : Packed ws)
    (hb : Batches esc ign (bytesOf ws zeros) bs) {ns : List Str} {n : Str} (hn : ∀ x ∈ ns ++ [n], IsName x)
    (hno : Nothing (ws.map (fun p => p.1)) (ns ++ [n ++ ".versions".toList]))
    (hex : versionsOf (ws.map (fun p => p.1)) (ns ++ [n]) ≠ []) :
    mreaddir (mounted esc ign (bytesOf ws zeros) bs) (canonical (ns ++ [n ++ ".versions".toList])) =
      ['.'] :: ['.', '.'] :: (List.range (versionsOf (ws.map (fun p => p.1)) (ns ++ [n])).length).map (fun k => natStr (k + 1)) ∧
    ∃ mode size, mgetattr (mounted esc ign (bytesOf ws zeros) bs) (canonical (ns ++ [n ++ ".versions".toList])) = .ok (mode, size) ∧
      mode &&& 0o170000 = 0o040000 := by
  have hI := inserted hp hb
  have hlen : (versionsOf (ws.map (fun p => p.1)) (ns ++ [n])).length =
      (versionsAt (fun p : Tar.Member × Tar.Hdr => place p.2.name) (members ws) (ns ++ [n])).length := by
    unfold versionsOf versionsAt members
    rw [List.filter_map, List.length_map, List.filter_map, List.length_map]
    rfl
  obtain ⟨f, hf⟩ := List.exists_mem_of_ne_nil _ hex
  obtain ⟨k, hk⟩ := List.getElem?_of_mem hf
  obtain ⟨m, h1, h2⟩ := version_file hk
  have hm := List.mem_filter.mp (List.mem_of_getElem? h2)
  have hex' : ∃ p ∈ members ws, place p.2.name = ns ++ [n] := ⟨_, hm.1, of_decide_eq_true hm.2⟩
  obtain ⟨r1, r2, -, r4⟩ := ready_tar hI hn hex' (nothing_members hno)
  obtain ⟨i, hi⟩ : ∃ i, (TarMount.tarSource (TarMount.rowsOf (codec esc) ign (members ws) zeros) bs).lookup (canonical (ns ++ [n])) 0 = some i := by
    obtain ⟨p, hp', he⟩ := hex'
    have := (TarMount.found_iff hI hn).mpr ⟨p, hp', [], he⟩
    obtain ⟨y, hy⟩ := Option.isSome_iff_exists.mp this
    exact ⟨_, by show (Index.lookup (build bs) _ 0).map _ = _; rw [hy]; rfl⟩
  rw [mounted_eq]
  constructor
  · rw [show n ++ ".versions".toList = n ++ dotVersions from rfl, readdir_versions hn r1 r2 r4 hi, hlen]
    rw [show (TarMount.tarSource (TarMount.rowsOf (codec esc) ign (members ws) zeros) bs).versions (canonical (ns ++ [n])) =
      (Index.versions (build bs) (canonical (ns ++ [n]))).length from rfl, versions_length (held_tar hI) hn hex']
  · obtain ⟨g, h3, h4⟩ := getattr_versions hn r1 r2 r4 hi
    refine ⟨g.mode, g.rest, ?_, ?_⟩
    · unfold mgetattr
      rw [show n ++ ".versions".toList = n ++ dotVersions from rfl, h3]
      rfl
    · exact eq_of_beq h4

/-- The full claim: also a version that is a hard link has the attributes of the file that it leads to. -/
def C204_statement : Prop :=
  ∀ (esc : Bytes → Str) (ign : Bool) (ws : Packing) (zeros : Nat) (bs : List (List Row)), Packed ws → Batches esc ign (bytesOf ws zeros) bs →
    ∀ (ns : List Str) (n : Str), (∀ x ∈ ns ++ [n], IsName x) → Nothing (ws.map (fun p => p.1)) (ns ++ [n ++ ".versions".toList]) →
    ∀ (k j : Nat) (f g : File), (versionsOf (ws.map (fun p => p.1)) (ns ++ [n]))[k]? = some f → f.kind = .hardlink → place f.link ≠ ns ++ [n] →
      Leads (ws.map (fun p => p.1)) j (place f.link) g → j < 128 →
      mgetattr (mounted esc ign (bytesOf ws zeros) bs) (canonical (versionPath ns n (k + 1))) = .ok (g.mode ||| bits g.kind, g.data.length)

theorem demo_places : place longFile.name = [List.replicate 300 'n'] ∧ place folder.name = [['a'], ['b']] ∧ place hardFile.name = [['b'], ['é']] ∧
    place hardFile.link = [List.replicate 300 'n'] := by
  refine ⟨by decide +kernel, by decide, by decide, by decide +kernel⟩

theorem many_ne : List.replicate 300 'n' ≠ ['b'] := by
  intro h; have := congrArg List.length h; rw [List.length_replicate] at this; simp at this

theorem demo_nothing : Nothing (demo.map (fun p => p.1)) ([['b']] ++ [['é'] ++ ".versions".toList]) := by
  obtain ⟨h1, h2, h3, -⟩ := demo_places
  intro f hf rest he
  simp only [demo, List.map_cons, List.map_nil, List.mem_cons, List.not_mem_nil, or_false] at hf
  rcases hf with rfl | rfl | rfl
  · rw [h1] at he
    exact many_ne (List.cons.inj he).1
  · rw [h2] at he
    exact absurd (List.cons.inj he).1 (by decide)
  · rw [h3] at he
    exact absurd (List.cons.inj (List.cons.inj he).2).1 (by decide)

theorem demo_version : versionsOf (demo.map (fun p => p.1)) [['b'], ['é']] = [hardFile] := by
  obtain ⟨h1, h2, h3, -⟩ := demo_places
  unfold versionsOf
  simp only [demo, List.map_cons, List.map_nil, List.filter_cons, List.filter_nil, h1, h2, h3]
  have := many_ne
  generalize List.replicate 300 'n' = z at this
  simp

theorem demo_target : Leads (demo.map (fun p => p.1)) 0 (place hardFile.link) longFile := by
  obtain ⟨h1, h2, h3, h4⟩ := demo_places
  rw [h4]
  refine .here _ longFile (List.cons_ne_nil _ _) ?_ (by decide)
  unfold lastFile
  simp only [demo, List.map_cons, List.map_nil, List.filter_cons, List.filter_nil, h1, h2, h3]
  have := many_ne
  generalize List.replicate 300 'n' = z at this
  simp

/-- **C204** is false for hard links: `b/é` is a hard link to a file with three bytes, and it can be read as `/b/é`. But `/b/é.versions/1` has no
type and no bytes. -/
theorem C204_violated : ¬ C204_statement := by
  intro h
  have hn : ∀ x ∈ [['b']] ++ [['é']], IsName x := by unfold IsName; decide
  have h1 := h (fun _ => []) false demo 1024 (demoBatches _) demo_packed (demo_batches _) [['b']] ['é'] hn demo_nothing 0 0 hardFile longFile
    (by rw [show [['b']] ++ [['é']] = [['b'], ['é']] from rfl, demo_version]; rfl) rfl
    (by rw [demo_places.2.2.2]; intro hc; exact absurd (congrArg List.length hc) (show ¬ 1 = 2 by decide)) demo_target (by decide)
  obtain ⟨m, h2, h3⟩ := version_file (ws := demo) (pl := [['b'], ['é']]) (k := 0) (f := hardFile) (by rw [demo_version]; rfl)
  obtain ⟨offset, h4, -, -⟩ := version_tar (inserted demo_packed (demo_batches (fun _ => []))) (ns := [['b']]) (n := ['é']) hn h3
    (nothing_members demo_nothing)
  rw [mounted_eq] at h1
  unfold mgetattr versionPath at h1
  rw [show ['é'] ++ ".versions".toList = ['é'] ++ dotVersions from rfl, h4] at h1
  replace h1 := congrArg Prod.fst (Except.ok.inj h1)
  exact absurd h1 (show ¬ 0o640 ||| TarMount.typeOf '1' = 0o640 ||| 0o100000 by decide)

/-! ## a concrete archive with two versions -/

/-- An older and a newer version of `d/f`, and the folder. -/
def older : File := ⟨.file, "d/f".toList, 0o600, [1, 2, 3], []⟩
def newer : File := ⟨.file, "./d/f".toList, 0o644, [4], []⟩

def twice : Packing := [(older, Tar.Header.gnu someone older), (newer, Tar.Header.gnu someone newer)]

theorem twice_packed : Packed twice where
  written := by
    intro p hp
    simp only [twice, List.mem_cons, List.not_mem_nil, or_false] at hp
    rcases hp with rfl | rfl
    · exact .gnu someone someone_ok older
    · exact .gnu someone someone_ok newer
  ok := by
    intro p hp
    simp only [twice, List.mem_cons, List.not_mem_nil, or_false] at hp
    rcases hp with rfl | rfl
    · exact ⟨by decide, List.not_mem_nil, by decide, fun h => absurd rfl h, by decide, fun h => by cases h⟩
    · exact ⟨by decide, List.not_mem_nil, by decide, fun h => absurd rfl h, by decide, fun h => by cases h⟩
  names := by
    intro p hp
    simp only [twice, List.mem_cons, List.not_mem_nil, or_false] at hp
    rcases hp with rfl | rfl <;> exact ⟨by unfold Storable; decide, by unfold Storable; decide⟩
  tree := by
    intro p hp hi
    have hin : ∀ f ∈ twice.map (fun q => q.1), place f.name = [['d'], ['f']] := by decide
    obtain ⟨f, hf, n, rest, he⟩ := hi
    rw [hin f hf, hin p.1 (List.mem_map.mpr ⟨p, hp, rfl⟩)] at he
    simp at he

def twiceBatches (esc : Bytes → Str) : List (List Row) :=
  [TarMount.toRows (Tar.newIndex (codec esc) (TarMount.plain false) 0 (bytesOf twice 1024))]

theorem twice_batches (esc : Bytes → Str) : Batches esc false (bytesOf twice 1024) (twiceBatches esc) := by
  unfold Batches twiceBatches
  simp

theorem twice_nothing : Nothing (twice.map (fun p => p.1)) ([['d']] ++ [['f'] ++ ".versions".toList]) := by
  have hin : ∀ f ∈ twice.map (fun q => q.1), place f.name = [['d'], ['f']] := by decide
  intro f hf rest he
  rw [hin f hf] at he
  exact absurd (List.cons.inj (List.cons.inj he).2).1 (by decide)

/-- C204: the older version is read, also after the newer one was opened. -/
example (esc : Bytes → Str) : ∃ m fh, mopen (mounted esc false (bytesOf twice 1024) (twiceBatches esc))
      (calls (mounted esc false (bytesOf twice 1024) (twiceBatches esc)) (start (bytesOf twice 1024)) [.open "/d/f".toList, .read 1 2 0])
      "/d/f.versions/1".toList = (m, .ok fh) ∧
    (mread (calls (mounted esc false (bytesOf twice 1024) (twiceBatches esc)) m [.read 1 2 0]) fh 5 1).2 = .ok [2, 3] := by
  obtain ⟨m, fh, h1, h2⟩ := C204_read_partial twice_packed (twice_batches esc) (ns := [['d']]) (n := ['f']) (by unfold IsName; decide) twice_nothing
    (k := 0) (f := older) (by decide) [.open "/d/f".toList, .read 1 2 0]
  rw [show canonical (versionPath [['d']] ['f'] (0 + 1)) = "/d/f.versions/1".toList by decide +kernel] at h1
  exact ⟨m, fh, h1, h2 [.read 1 2 0] 5 1⟩

/-- C204: its attributes. -/
example (esc : Bytes → Str) : mgetattr (mounted esc false (bytesOf twice 1024) (twiceBatches esc)) "/d/f.versions/1".toList = .ok (0o100600, 3) := by
  have h := (C204_attributes_partial twice_packed (twice_batches esc) (ns := [['d']]) (n := ['f']) (by unfold IsName; decide) twice_nothing
    (k := 0) (f := older) (by decide) (by decide)).1
  rw [show canonical (versionPath [['d']] ['f'] (0 + 1)) = "/d/f.versions/1".toList by decide +kernel] at h
  exact h

/-- C204: the versions. -/
example (esc : Bytes → Str) : mreaddir (mounted esc false (bytesOf twice 1024) (twiceBatches esc)) "/d/f.versions".toList =
    [".".toList, "..".toList, "1".toList, "2".toList] := by
  have h := (C204_list twice_packed (twice_batches esc) (ns := [['d']]) (n := ['f']) (by unfold IsName; decide) twice_nothing (by decide)).1
  rw [show canonical ([['d']] ++ [['f'] ++ ".versions".toList]) = "/d/f.versions".toList by decide +kernel,
    show (List.range (versionsOf (twice.map (fun p => p.1)) ([['d']] ++ [['f']])).length).map (fun k => natStr (k + 1)) = ["1".toList, "2".toList] by
      decide +kernel] at h
  exact h

end Verif.Fuse.OldVersions
