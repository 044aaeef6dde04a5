import Verif.Fuse.OldVersions
import Verif.Fuse.ArMount
import Verif.Fuse.ZipMount
import Verif.Fuse.LibarchiveMount

/-!
# C204: older versions of members of AR and ZIP archives, and with libarchive

As for TAR archives (`Verif.Fuse.OldVersions`): `<path>.versions/<number>` is the member with this number among those with this path.
-/

namespace Verif.Fuse.OlderMembers

open Verif.Py Verif.Index Verif.Fuse.IndexMount Verif.Fuse.OldVersions
open Verif.Tar (Bytes)
open Verif.Compose (Source dotVersions)
open Verif.Fuse.TarMount (Call mlookup mreaddir start start_good openView_wf addHandle_good mread_spec)
open Verif.Fuse.ObjectMount (Listed)

section generic

variable {refuse : Nat → Bool} {archive : Bytes} {ms : List Rec} {rs : List FRow} {bs : List (List Row)}

/-! ## any index -/

theorem held (hI : Indexed refuse archive ms rs bs) : Held (fun p : Rec => p.place) ms (toRows rs) bs where
  names := hI.names
  length := by unfold toRows; rw [List.length_mapIdx, hI.length]
  row := by
    intro k m r hm hr
    unfold toRows at hr
    rw [List.getElem?_mapIdx, Option.map_eq_some_iff] at hr
    obtain ⟨q, hq, rfl⟩ := hr
    exact (hI.row k m q hm hq).place
  order := by
    intro i j r r' hij hr hr' h1 h2
    unfold toRows at hr hr'
    rw [List.getElem?_mapIdx, Option.map_eq_some_iff] at hr hr'
    obtain ⟨q, hq, rfl⟩ := hr
    obtain ⟨q', hq', rfl⟩ := hr'
    have := hI.order i j q q' hij hq hq' h1 h2
    show (q.oh : Int) < (q'.oh : Int)
    omega
  there := by
    intro r hr
    obtain ⟨k, p, q, hk, hq, hi, rfl⟩ := mem_toRows hI r hr
    exact (file_row hI hq).2
  only r hr := (hI.rows r).mp hr
  free ns n hn x hx h1 h2 := (generated_free hI hn hx h1 h2).2

/-- The members with a place. -/
def versionsIn (ms : List Rec) (ns : List Str) : List Rec := versionsAt (fun p : Rec => p.place) ms ns

theorem names_of (hI : Indexed refuse archive ms rs bs) {ns : List Str} (hex : ∃ p ∈ ms, p.place = ns) : ∀ x ∈ ns, IsName x := by
  obtain ⟨p, hp, rfl⟩ := hex
  exact hI.names p hp

/-- What the versions layer needs of the archive for a place. -/
theorem ready (hI : Indexed refuse archive ms rs bs) {ns : List Str} {n : Str} (hex : ∃ p ∈ ms, p.place = ns ++ [n])
    (hno : ∀ p ∈ ms, ¬ (ns ++ [n ++ dotVersions]) <+: p.place) :
    Parents (source rs bs) ns ∧ (source rs bs).lookup (canonical (ns ++ [n ++ dotVersions])) 0 = none ∧
    (∀ k, (source rs bs).lookup (canonical (ns ++ [n ++ dotVersions, natStr (k + 1)])) 0 = none) ∧
    (source rs bs).list (canonical (ns ++ [n ++ dotVersions])) = none := by
  have hn := names_of hI hex
  have hv : ∀ x ∈ ns ++ [n ++ dotVersions], IsName x := by
    intro x hx
    rcases List.mem_append.mp hx with h | h
    · exact hn x (by simp [h])
    · rw [List.mem_singleton.mp h]
      exact isName_versions (hn n (by simp))
  have hnone : ∀ (a : List Str) (x : Str), (∀ y ∈ a ++ [x], IsName y) → (∀ p ∈ ms, ∀ rest, p.place ≠ a ++ x :: rest) →
      (source rs bs).lookup (canonical (a ++ [x])) 0 = none := by
    intro a x ha hb
    show (Index.lookup (build bs) _ 0).map _ = none
    rw [Option.map_eq_none_iff]
    cases hl : Index.lookup (build bs) (canonical (a ++ [x])) 0 with
    | none => rfl
    | some y =>
      obtain ⟨p, hp, rest, he⟩ := (found_iff hI ha).mp (by rw [hl]; rfl)
      exact absurd he (hb p hp rest)
  refine ⟨?_, ?_, ?_, ?_⟩
  · intro a b hab hne
    rcases List.eq_nil_or_concat a with rfl | ⟨a', x, rfl⟩
    · exact absurd rfl hne
    rw [List.concat_eq_append] at hab ⊢
    show ((Index.lookup (build bs) _ 0).map _).isSome = true
    rw [Option.isSome_map]
    obtain ⟨p, hp, he⟩ := hex
    refine (found_iff hI ?_).mpr ⟨p, hp, b ++ [n], by rw [he, hab]; simp⟩
    intro y hy
    exact hn y (by rw [hab]; simp only [List.mem_append]; exact .inl (.inl (List.mem_append.mp hy)))
  · refine hnone ns _ hv (fun p hp rest he => hno p hp ⟨rest, ?_⟩)
    rw [he]; simp
  · intro k
    have := hnone (ns ++ [n ++ dotVersions]) (natStr (k + 1)) ?_ (fun p hp rest he => hno p hp ⟨natStr (k + 1) :: rest, he.symm⟩)
    · rw [List.append_assoc] at this
      exact this
    · intro y hy
      rcases List.mem_append.mp hy with h | h
      · exact hv y h
      · rw [List.mem_singleton.mp h]
        exact ThinMount.isName_natStr _
  · show (Index.list (build bs) _).map _ = none
    rw [Option.map_eq_none_iff]
    exact list_none (held hI) hv hno

theorem version (hI : Indexed refuse archive ms rs bs) {ns : List Str} {n : Str} {k : Nat} {p : Rec} (hp : (versionsIn ms (ns ++ [n]))[k]? = some p)
    (hno : ∀ p ∈ ms, ¬ (ns ++ [n ++ dotVersions]) <+: p.place) :
    ∃ j r, ms[j]? = some p ∧ rs[j]? = some r ∧ IsRow refuse archive p r ∧
      mlookup (source rs bs) (canonical (versionPath ns n (k + 1))) = .ok ((infoOf p j r.offset).push .file) := by
  have hm := List.mem_filter.mp (List.mem_of_getElem? hp)
  have hex : ∃ p ∈ ms, p.place = ns ++ [n] := ⟨p, hm.1, of_decide_eq_true hm.2⟩
  obtain ⟨h1, h2, h3, -⟩ := ready hI hex hno
  obtain ⟨j, r, hj, hr, hl⟩ := lookup_version (held hI) (names_of hI hex) hp
  unfold toRows at hr
  rw [List.getElem?_mapIdx, Option.map_eq_some_iff] at hr
  obtain ⟨q, hq, rfl⟩ := hr
  have hi := hI.row j p q hj hq
  refine ⟨j, q, hj, hq, hi, mlookup_version (names_of hI hex) h1 h2 (h3 k) ?_⟩
  show (Index.lookup (build bs) _ _).map _ = _
  rw [hl, Option.map_some, toInfo_row hq hi]

theorem attributes_version (hI : Indexed refuse archive ms rs bs) {ns : List Str} {n : Str} {k : Nat} {p : Rec}
    (hp : (versionsIn ms (ns ++ [n]))[k]? = some p) (hno : ∀ p ∈ ms, ¬ (ns ++ [n ++ dotVersions]) <+: p.place) :
    mgetattr rs (source rs bs) (canonical (versionPath ns n (k + 1))) = .ok p.stat ∧
      mreadlink (source rs bs) (canonical (versionPath ns n (k + 1))) = .ok p.link := by
  obtain ⟨j, r, hj, hr, hi, h1⟩ := version hI hp hno
  have h2 := located hr hi
  unfold mgetattr mreadlink
  rw [h1]
  refine ⟨?_, rfl⟩
  show Except.ok (Stat.mk p.mode (sizeAt rs (j + 1)) (ownerAt rs (j + 1)).1 (ownerAt rs (j + 1)).2.1 (ownerAt rs (j + 1)).2.2) = _
  rw [h2.size, h2.owner]
  rfl

theorem list_versions (hI : Indexed refuse archive ms rs bs) {ns : List Str} {n : Str} (hex : ∃ p ∈ ms, p.place = ns ++ [n])
    (hno : ∀ p ∈ ms, ¬ (ns ++ [n ++ dotVersions]) <+: p.place) :
    mreaddir (source rs bs) (canonical (ns ++ [n ++ dotVersions])) =
      ['.'] :: ['.', '.'] :: (List.range (versionsIn ms (ns ++ [n])).length).map (fun k => natStr (k + 1)) := by
  obtain ⟨r1, r2, -, r4⟩ := ready hI hex hno
  have hn := names_of hI hex
  obtain ⟨i, hi⟩ : ∃ i, (source rs bs).lookup (canonical (ns ++ [n])) 0 = some i := by
    obtain ⟨p, hp', he⟩ := hex
    obtain ⟨y, hy⟩ := Option.isSome_iff_exists.mp ((found_iff hI hn).mpr ⟨p, hp', [], he⟩)
    exact ⟨_, by show (Index.lookup (build bs) _ 0).map _ = _; rw [hy]; rfl⟩
  rw [readdir_versions hn r1 r2 r4 hi]
  rw [show (source rs bs).versions (canonical (ns ++ [n])) = (Index.versions (build bs) (canonical (ns ++ [n]))).length from rfl,
    versions_length (held hI) hn hex]
  rfl

/-- Views of an archive file. -/
theorem reads_version (hI : Indexed refuse archive ms rs bs) {ns : List Str} {n : Str} {k : Nat} {p : Rec}
    (hp : (versionsIn ms (ns ++ [n]))[k]? = some p) (hno : ∀ p ∈ ms, ¬ (ns ++ [n ++ dotVersions]) <+: p.place) (hf : refuse p.mode = false)
    (before : List Call) :
    ∃ m fh, mopen refuse rs (source rs bs) (calls refuse rs (source rs bs) (start archive) before) (canonical (versionPath ns n (k + 1))) = (m, .ok fh) ∧
      ∀ (between : List Call) (size offset : Nat),
        (TarMount.mread (calls refuse rs (source rs bs) m between) fh size offset).2 = .ok ((p.data.drop offset).take size) := by
  obtain ⟨j, r, hj, hr, hi, h1⟩ := version hI hp hno
  have h2 := located hr hi
  obtain ⟨hg, -⟩ := calls_good hI before (start_good archive)
  have hf' : ¬ refuse p.mode = true := by rw [hf]; simp
  obtain ⟨v, h4, h5, h6⟩ := openView_wf hg r.offset p.data.length (h2.inside.resolve_left hf')
  have hv : openView refuse rs ((infoOf p j r.offset).push .file) = .ok v := by
    show openStencil refuse rs _ r.offset = _
    unfold openStencil
    rw [if_neg (by show ¬ refuse p.mode = true; rw [hf]; simp)]
    show Stencil.Raw.init [(0, (r.offset : Int), (sizeAt rs (j + 1) : Int))] = _
    rw [h2.size]
    exact h4
  obtain ⟨g1, g2, -⟩ := addHandle_good hg h5
  refine ⟨_, _, by unfold mopen; rw [h1]; simp only [hv]; rfl, ?_⟩
  intro between size off
  obtain ⟨g3, g4⟩ := calls_good hI between g1
  obtain ⟨q, hq, hd⟩ := g4 _ _ g2
  obtain ⟨store, r', e, -⟩ := mread_spec g3 hq size off
  rw [e, hd, h6, h2.data.resolve_left hf']

/-- File objects with contents. -/
theorem reads_object (hI : Listed ms rs bs) (f : FRow → Except PyErr Bytes) {ns : List Str} {n : Str} {k : Nat} {p : Rec}
    (hp : (versionsIn ms (ns ++ [n]))[k]? = some p) (hno : ∀ p ∈ ms, ¬ (ns ++ [n ++ dotVersions]) <+: p.place) {data : Bytes}
    (hf : ∀ (k : Nat) (r : FRow), ms[k]? = some p → rs[k]? = some r → f r = .ok data) (before : List Call) :
    ∃ m fh, ObjectMount.mopen f rs (source rs bs) (ObjectMount.calls f rs (source rs bs) ObjectMount.start before)
        (canonical (versionPath ns n (k + 1))) = (m, .ok fh) ∧
      ∀ (between : List Call) (size offset : Nat), Call.release fh ∉ between →
        (ObjectMount.mread (ObjectMount.calls f rs (source rs bs) m between) fh size offset).2 = .ok ((data.drop offset).take size) := by
  obtain ⟨j, r, hj, hr, -, h1⟩ := version hI hp hno
  obtain ⟨hg, -⟩ := ObjectMount.calls_good f rs (source rs bs) before ObjectMount.start_good
  have hv : ObjectMount.openObj f rs ((infoOf p j r.offset).push .file) = .ok ⟨data, 0, false⟩ := by
    show (match column rs (j + 1) with
      | some r => (f r).map (fun d => (⟨d, 0, false⟩ : ObjectMount.Obj))
      | none => .error (.os 21)) = _
    rw [column_row hr]
    simp only
    rw [hf j r hj hr]
    rfl
  obtain ⟨g1, g2, -⟩ := ObjectMount.addHandle_good hg ⟨data, 0, false⟩ rfl
  refine ⟨_, _, by unfold ObjectMount.mopen; rw [h1]; simp only [hv]; rfl, ?_⟩
  intro between size offset hb
  exact ObjectMount.mread_holds ((ObjectMount.calls_good f rs (source rs bs) between g1).2 _ _ hb g2) size offset

/-- File objects of a library. -/
theorem reads_library {γ σ : Type} {L : LibMount.Lib γ σ} {J : γ → Prop} {I : Option Bytes → σ → Prop} {range : Nat → Nat → Prop}
    (hL : LibMount.Serves L rs J I range) (hI : Listed ms rs bs) {ns : List Str} {n : Str} {k : Nat} {p : Rec}
    (hp : (versionsIn ms (ns ++ [n]))[k]? = some p) (hno : ∀ p ∈ ms, ¬ (ns ++ [n ++ dotVersions]) <+: p.place) {data : Bytes}
    (hf : ∀ (k : Nat) (r : FRow), ms[k]? = some p → rs[k]? = some r → ∀ g, J g → ∃ o, (L.openRow g r).2 = .ok o ∧ I (some data) o)
    {g₀ : γ} (h₀ : J g₀) (before : List Call) :
    ∃ m fh, LibMount.mopen L rs (source rs bs) (LibMount.calls L rs (source rs bs) (LibMount.start g₀) before)
        (canonical (versionPath ns n (k + 1))) = (m, .ok fh) ∧
      ∀ (between : List Call) (size offset : Nat), Call.release fh ∉ between → range data.length offset →
        (LibMount.mread L (LibMount.calls L rs (source rs bs) m between) fh size offset).2 = .ok ((data.drop offset).take size) := by
  obtain ⟨j, r, hj, hr, -, h1⟩ := version hI hp hno
  obtain ⟨hg, -⟩ := LibMount.calls_good hL (source rs bs) before (LibMount.start_good (σ := σ) (I := I) h₀)
  obtain ⟨o, ho, hi⟩ := hf j r hj hr _ hg.1
  have hj' := hL.openJ _ r (List.mem_of_getElem? hr) hg.1
  have hv : LibMount.openObj L rs (LibMount.calls L rs (source rs bs) (LibMount.start g₀) before).shared ((infoOf p j r.offset).push .file) =
      L.openRow (LibMount.calls L rs (source rs bs) (LibMount.start g₀) before).shared r := by
    show (match column rs (j + 1) with
      | some r => L.openRow _ r
      | none => (_, .error (.os 21))) = _
    rw [column_row hr]
  obtain ⟨g1, g2, -⟩ := LibMount.addHandle_good hg hj' hi
  refine ⟨LibMount.addHandle (LibMount.calls L rs (source rs bs) (LibMount.start g₀) before)
      (L.openRow (LibMount.calls L rs (source rs bs) (LibMount.start g₀) before).shared r).1 o,
    (LibMount.calls L rs (source rs bs) (LibMount.start g₀) before).last + 1, ?_, ?_⟩
  · unfold LibMount.mopen
    rw [h1]
    simp only [hv]
    cases hop : L.openRow (LibMount.calls L rs (source rs bs) (LibMount.start g₀) before).shared r with
    | mk a b =>
      rw [hop] at ho
      simp only at ho
      subst ho
      rfl
  · intro between size offset hb hrg
    obtain ⟨q1, q2⟩ := LibMount.calls_good hL (source rs bs) between g1
    exact LibMount.mread_holds hL q1 (q2 _ _ hb (g2 _ rfl)) size offset hrg

end generic

/-- From members to the records. -/
theorem versions_map {α : Type} (rec_ : α → Rec) (f : α → List Str) (hf : ∀ a, (rec_ a).place = f a) {as : List α} {ns : List Str} {k : Nat} {a : α}
    (h : (as.filter (fun x => decide (f x = ns)))[k]? = some a) : (versionsIn (as.map rec_) ns)[k]? = some (rec_ a) := by
  unfold versionsIn versionsAt
  rw [List.filter_map, List.getElem?_map]
  have : ((fun m : Rec => decide (m.place = ns)) ∘ rec_) = (fun x => decide (f x = ns)) := by
    funext x
    simp only [Function.comp, hf]
  rw [this, h]
  rfl

theorem count_map {α : Type} (rec_ : α → Rec) (f : α → List Str) (hf : ∀ a, (rec_ a).place = f a) (as : List α) (ns : List Str) :
    (versionsIn (as.map rec_) ns).length = (as.filter (fun x => decide (f x = ns))).length := by
  unfold versionsIn versionsAt
  rw [List.filter_map, List.length_map]
  have : ((fun m : Rec => decide (m.place = ns)) ∘ rec_) = (fun x => decide (f x = ns)) := by
    funext x
    simp only [Function.comp, hf]
  rw [this]

theorem nothing_map {α : Type} (rec_ : α → Rec) (f : α → List Str) (hf : ∀ a, (rec_ a).place = f a) {as : List α} {ns : List Str}
    (h : ∀ a ∈ as, ∀ rest, f a ≠ ns ++ rest) : ∀ p ∈ as.map rec_, ¬ ns <+: p.place := by
  rintro p hp ⟨rest, he⟩
  obtain ⟨a, ha, rfl⟩ := List.mem_map.mp hp
  rw [hf] at he
  exact h a ha rest he.symm

/-! ## C204: AR archives -/

section ar
open Verif.Fuse.ArMount

/-- **C204** Every version of a file in an AR archive is read through its number. -/
theorem C204_ar_read {ps : List Part} (h : Archived ps) {rs : List FRow} (hi : index (bytesOf ps) = .ok rs) {ns : List Str} {n : Str}
    (hno : ∀ f ∈ filesOf ps, ∀ rest, TarMount.place f.name ≠ (ns ++ [n ++ ".versions".toList]) ++ rest) {k : Nat} {f : File}
    (hf : ((filesOf ps).filter (fun f => decide (TarMount.place f.name = ns ++ [n])))[k]? = some f) (before : List Call) :
    ∃ m fh, mopen refuse rs (source rs [toRows rs]) (calls refuse rs (source rs [toRows rs]) (start (bytesOf ps)) before)
        (canonical (versionPath ns n (k + 1))) = (m, .ok fh) ∧
      ∀ (between : List Call) (size offset : Nat),
        (TarMount.mread (calls refuse rs (source rs [toRows rs]) m between) fh size offset).2 = .ok ((f.data.drop offset).take size) :=
  reads_version (indexed h hi) (versions_map recOf (fun f => TarMount.place f.name) (fun _ => rfl) hf)
    (nothing_map recOf (fun f => TarMount.place f.name) (fun _ => rfl) hno)
    (isHard_rec f (perm_of h f (List.mem_filter.mp (List.mem_of_getElem? hf)).1)).2 before

/-- **C204** With its own attributes. -/
theorem C204_ar_attributes {ps : List Part} (h : Archived ps) {rs : List FRow} (hi : index (bytesOf ps) = .ok rs) {ns : List Str} {n : Str}
    (hno : ∀ f ∈ filesOf ps, ∀ rest, TarMount.place f.name ≠ (ns ++ [n ++ ".versions".toList]) ++ rest) {k : Nat} {f : File}
    (hf : ((filesOf ps).filter (fun f => decide (TarMount.place f.name = ns ++ [n])))[k]? = some f) :
    mgetattr rs (source rs [toRows rs]) (canonical (versionPath ns n (k + 1))) = .ok ⟨f.perm ||| 0o100000, f.data.length, f.mtime, f.uid, f.gid⟩ :=
  (attributes_version (indexed h hi) (versions_map recOf (fun f => TarMount.place f.name) (fun _ => rfl) hf)
    (nothing_map recOf (fun f => TarMount.place f.name) (fun _ => rfl) hno)).1

/-- **C204** The versions are numbered from one to how often the path is in the archive. -/
theorem C204_ar_list {ps : List Part} (h : Archived ps) {rs : List FRow} (hi : index (bytesOf ps) = .ok rs) {ns : List Str} {n : Str}
    (hno : ∀ f ∈ filesOf ps, ∀ rest, TarMount.place f.name ≠ (ns ++ [n ++ ".versions".toList]) ++ rest)
    (hex : ∃ f ∈ filesOf ps, TarMount.place f.name = ns ++ [n]) :
    mreaddir (source rs [toRows rs]) (canonical (ns ++ [n ++ ".versions".toList])) =
      ['.'] :: ['.', '.'] :: (List.range ((filesOf ps).filter (fun f => decide (TarMount.place f.name = ns ++ [n]))).length).map (fun k => natStr (k + 1)) := by
  have := list_versions (indexed h hi) (ns := ns) (n := n)
    (by obtain ⟨f, hf, he⟩ := hex; exact ⟨recOf f, List.mem_map.mpr ⟨f, hf, rfl⟩, he⟩)
    (nothing_map recOf (fun f => TarMount.place f.name) (fun _ => rfl) hno)
  rw [count_map recOf (fun f => TarMount.place f.name) (fun _ => rfl)] at this
  exact this

/-- C204: the first `a.o` of an archive with two. -/
example : ∃ rs, index (bytesOf demo) = .ok rs ∧ ∃ m fh, mopen refuse rs (source rs [toRows rs])
      (calls refuse rs (source rs [toRows rs]) (start (bytesOf demo)) [.open "/a.o".toList]) "/a.o.versions/1".toList = (m, .ok fh) ∧
    (TarMount.mread (calls refuse rs (source rs [toRows rs]) m [.read 1 1 1]) fh 2 1).2 = .ok [2, 3] := by
  obtain ⟨rs, h, -⟩ := C196_mounts demo_archived
  have hno : ∀ f ∈ filesOf demo, ∀ rest, TarMount.place f.name ≠ (([] : List Str) ++ [['a', '.', 'o'] ++ ".versions".toList]) ++ rest := by
    intro f hf rest he
    have h1 : ∀ f ∈ filesOf demo, (TarMount.place f.name).head? ≠ some (['a', '.', 'o'] ++ ".versions".toList) := by decide
    exact h1 f hf (by rw [he]; rfl)
  obtain ⟨m, fh, h1, h2⟩ := C204_ar_read demo_archived h (ns := []) (n := ['a', '.', 'o']) hno (k := 0) (f := demo1) (by decide) [.open "/a.o".toList]
  rw [show canonical (versionPath [] ['a', '.', 'o'] (0 + 1)) = "/a.o.versions/1".toList by decide +kernel] at h1
  exact ⟨rs, h, m, fh, h1, h2 [.read 1 1 1] 2 1⟩

end ar

/-! ## C204: ZIP archives -/

section zip
open Verif.Fuse.ZipMount
open Verif.Zip (Entry Opts Password Content)

/-- **C204** Every version of an entry in a ZIP archive that can be read is read through its number. -/
theorem C204_zip_read {o : Opts} {z : List Entry} {ps : List Password} {pwd : Option Password} {rs : List FRow} (h : Archived o z)
    (hi : index o z ps = .ok (pwd, rs)) {ns : List Str} {n : Str} (hno : ∀ e ∈ z, ∀ rest, at_ o e ≠ (ns ++ [n ++ ".versions".toList]) ++ rest)
    {k : Nat} {e : Entry} (he : (z.filter (fun e => decide (at_ o e = ns ++ [n])))[k]? = some e) {d : Content} (hd : e.data = some d)
    (hr : Readable o pwd (z.filter (fun e => decide (at_ o e = ns ++ [n])))) (before : List Call) :
    ∃ m fh, ObjectMount.mopen (opener z pwd) rs (src rs) (ObjectMount.calls (opener z pwd) rs (src rs) ObjectMount.start before)
        (canonical (versionPath ns n (k + 1))) = (m, .ok fh) ∧
      ∀ (between : List Call) (size offset : Nat), Call.release fh ∉ between →
        (ObjectMount.mread (ObjectMount.calls (opener z pwd) rs (src rs) m between) fh size offset).2 = .ok ((d.drop offset).take size) := by
  refine reads_object (indexed h hi) (opener z pwd) (versions_map (recOf o pwd) (at_ o) (fun _ => rfl) he)
    (nothing_map (recOf o pwd) (at_ o) (fun _ => rfl) hno) ?_ before
  intro j r hj hrj
  obtain ⟨e', he', hee, hop⟩ := opener_row h hi j r hj hrj
  have hpl : at_ o e' = ns ++ [n] :=
    (congrArg (fun p => p.place) hee).trans (of_decide_eq_true (List.mem_filter.mp (List.mem_of_getElem? he)).2)
  obtain ⟨d', h1, h2⟩ := read_ok hr (e := e') (List.mem_filter.mpr ⟨he', decide_eq_true hpl⟩)
  have hcc : contents e' = contents e := congrArg (fun p => p.data) hee
  unfold contents at hcc
  rw [h1, hd] at hcc
  rw [hop, h2]
  exact congrArg _ hcc

/-- **C204** With its own attributes. -/
theorem C204_zip_attributes {o : Opts} {z : List Entry} {ps : List Password} {pwd : Option Password} {rs : List FRow} (h : Archived o z)
    (hi : index o z ps = .ok (pwd, rs)) {ns : List Str} {n : Str} (hno : ∀ e ∈ z, ∀ rest, at_ o e ≠ (ns ++ [n ++ ".versions".toList]) ++ rest)
    {k : Nat} {e : Entry} (he : (z.filter (fun e => decide (at_ o e = ns ++ [n])))[k]? = some e) :
    ∃ t, mgetattr rs (src rs) (canonical (versionPath ns n (k + 1))) = .ok ⟨shownMode e, e.size, t, 0, 0⟩ := by
  have ha := (attributes_version (indexed h hi) (versions_map (recOf o pwd) (at_ o) (fun _ => rfl) he)
    (nothing_map (recOf o pwd) (at_ o) (fun _ => rfl) hno)).1
  have hm := (List.mem_filter.mp (List.mem_of_getElem? he)).1
  have hsz : (contents e).length = e.size := by
    unfold contents
    cases hd : e.data with
    | none => simp
    | some d => rw [h.sizes e hm d hd]; rfl
  refine ⟨((((Zip.mtime e).toOption).getD 0).toNat), ha.trans ?_⟩
  show Except.ok (Stat.mk (Zip.mode e) (contents e).length ((((Zip.mtime e).toOption).getD 0).toNat) 0 0) = _
  rw [mode_shown e (h.attrs e hm), hsz]

/-- **C204** The versions are numbered from one to how often the path is in the archive. -/
theorem C204_zip_list {o : Opts} {z : List Entry} {ps : List Password} {pwd : Option Password} {rs : List FRow} (h : Archived o z)
    (hi : index o z ps = .ok (pwd, rs)) {ns : List Str} {n : Str} (hno : ∀ e ∈ z, ∀ rest, at_ o e ≠ (ns ++ [n ++ ".versions".toList]) ++ rest)
    (hex : ∃ e ∈ z, at_ o e = ns ++ [n]) :
    mreaddir (src rs) (canonical (ns ++ [n ++ ".versions".toList])) =
      ['.'] :: ['.', '.'] :: (List.range (z.filter (fun e => decide (at_ o e = ns ++ [n]))).length).map (fun k => natStr (k + 1)) := by
  have := list_versions (indexed h hi) (ns := ns) (n := n)
    (by obtain ⟨f, hf, he⟩ := hex; exact ⟨recOf o pwd f, List.mem_map.mpr ⟨f, hf, rfl⟩, he⟩)
    (nothing_map (recOf o pwd) (at_ o) (fun _ => rfl) hno)
  rw [count_map (recOf o pwd) (at_ o) (fun _ => rfl)] at this
  exact this

theorem demo_free : ∀ e ∈ demo, ∀ rest, at_ demoOpts e ≠ ([['d']] ++ [['a'] ++ ".versions".toList]) ++ rest := by
  intro e he rest hpl
  have h1 : ∀ e ∈ demo, ((at_ demoOpts e).drop 1).head? ≠ some (['a'] ++ ".versions".toList) := by decide +kernel
  exact h1 e he (by rw [hpl]; rfl)

/-- C204: the first `d/a` of an archive with two. -/
example (rs : List FRow) (hi : index demoOpts demo [] = .ok (none, rs)) : ∃ m fh,
    ObjectMount.mopen (opener demo none) rs (src rs) (ObjectMount.calls (opener demo none) rs (src rs) ObjectMount.start [.open "/d/a".toList])
      (canonical (versionPath [['d']] ['a'] 1)) = (m, .ok fh) ∧
    (ObjectMount.mread (ObjectMount.calls (opener demo none) rs (src rs) m [.read 1 1 0]) fh 9 0).2 = .ok [1, 2] := by
  obtain ⟨m, fh, h1, h2⟩ := C204_zip_read demo_archived hi (ns := [['d']]) (n := ['a']) demo_free (k := 0) (e := demo[0]) (by decide +kernel) (d := [1, 2]) rfl
    (fun e he => by
      obtain ⟨p1, d, p2, p3⟩ := demo_plain e (List.mem_filter.mp he).1
      exact ⟨d, p2, .inl p1, p3⟩) [.open "/d/a".toList]
  exact ⟨m, fh, h1, h2 [.read 1 1 0] 9 0 (by simp)⟩

end zip

/-! ## C204: libarchive -/

section libarchive
open Verif.Fuse.LibarchiveMount
open Verif.LibarchiveRows (Member Opts)

/-- **C204** (partial, as `C203_read_partial`): every version of a file that is not empty is read through its number. -/
theorem C204_libarchive_read_partial {o : Opts} {delegate isTar : Bool} {ms : List Member} {rs : List FRow} (h : Archived o ms)
    (hi : index o delegate isTar ms = .ok rs) {ns : List Str} {n : Str}
    (hno : ∀ m ∈ ms, ∀ rest, at_ o m ≠ (ns ++ [n ++ ".versions".toList]) ++ rest) {k : Nat} {m : Member}
    (hm : (ms.filter (fun m => decide (at_ o m = ns ++ [n])))[k]? = some m) (hd : m.data ≠ [])
    (hr : ∀ m' ∈ ms, at_ o m' = ns ++ [n] → m'.readable = true) (before : List Call) :
    ∃ mt fh, LibMount.mopen (lib ms) rs (src rs) (LibMount.calls (lib ms) rs (src rs) (LibMount.start []) before)
        (canonical (versionPath ns n (k + 1))) = (mt, .ok fh) ∧
      ∀ (between : List Call) (size offset : Nat), Call.release fh ∉ between →
        (LibMount.mread (lib ms) (LibMount.calls (lib ms) rs (src rs) mt between) fh size offset).2 = .ok ((m.data.drop offset).take size) := by
  obtain ⟨mt, fh, h1, h2⟩ := reads_library (serves h hi) (indexed h hi) (versions_map (recOf o) (at_ o) (fun _ => rfl) hm)
    (nothing_map (recOf o) (at_ o) (fun _ => rfl) hno) (data := m.data) (g₀ := [])
    (by
      intro j r hj hrj g hg
      obtain ⟨m', e1, e2, e3, e4⟩ := row_last h hi hj hrj
      rcases (openRow_spec hg e1 e2).2 with ⟨h0, -⟩ | ⟨-, -, f, h1, h2⟩ | ⟨-, h0, -⟩
      · exact absurd (e3.symm.trans h0) hd
      · rw [e3] at h2
        exact ⟨f, h1, h2⟩
      · rw [hr m' (List.mem_of_getElem? e1) (e4.trans (of_decide_eq_true (List.mem_filter.mp (List.mem_of_getElem? hm)).2))] at h0
        cases h0) (start_cached ms) before
  exact ⟨mt, fh, h1, fun between size offset hb => h2 between size offset hb trivial⟩

/-- **C204** The versions are numbered from one to how often the path is in the archive. -/
theorem C204_libarchive_list {o : Opts} {delegate isTar : Bool} {ms : List Member} {rs : List FRow} (h : Archived o ms)
    (hi : index o delegate isTar ms = .ok rs) {ns : List Str} {n : Str}
    (hno : ∀ m ∈ ms, ∀ rest, at_ o m ≠ (ns ++ [n ++ ".versions".toList]) ++ rest) (hex : ∃ m ∈ ms, at_ o m = ns ++ [n]) :
    mreaddir (src rs) (canonical (ns ++ [n ++ ".versions".toList])) =
      ['.'] :: ['.', '.'] :: (List.range (ms.filter (fun m => decide (at_ o m = ns ++ [n]))).length).map (fun k => natStr (k + 1)) := by
  have := list_versions (indexed h hi) (ns := ns) (n := n)
    (by obtain ⟨f, hf, he⟩ := hex; exact ⟨recOf o f, List.mem_map.mpr ⟨f, hf, rfl⟩, he⟩)
    (nothing_map (recOf o) (at_ o) (fun _ => rfl) hno)
  rw [count_map (recOf o) (at_ o) (fun _ => rfl)] at this
  exact this

theorem demo_free' : ∀ m ∈ demo, ∀ rest, at_ LibarchiveRows.demoOpts m ≠ ([['d']] ++ [['a'] ++ ".versions".toList]) ++ rest := by
  intro e he rest hpl
  have h1 : ∀ e ∈ demo, ((at_ LibarchiveRows.demoOpts e).drop 1).head? ≠ some (['a'] ++ ".versions".toList) := by decide +kernel
  exact h1 e he (by rw [hpl]; rfl)

/-- C204: the first `d/a` of an archive with two. -/
example : ∃ mt fh, LibMount.mopen (lib demo) demoRows (src demoRows)
      (LibMount.calls (lib demo) demoRows (src demoRows) (LibMount.start []) [.open "/d/a".toList]) (canonical (versionPath [['d']] ['a'] 1)) = (mt, .ok fh) ∧
    (LibMount.mread (lib demo) (LibMount.calls (lib demo) demoRows (src demoRows) mt [.read 1 1 0]) fh 9 1).2 = .ok [2] := by
  obtain ⟨m, fh, h1, h2⟩ := C204_libarchive_read_partial demo_archived demo_index (ns := [['d']]) (n := ['a']) demo_free' (k := 0) (m := demo[1])
    (by decide +kernel) (by decide) (by decide +kernel) [.open "/d/a".toList]
  exact ⟨m, fh, h1, h2 [.read 1 1 0] 9 1 (by simp)⟩

end libarchive

end Verif.Fuse.OlderMembers
