import Verif.Compose.Union
import Verif.Formats.Git
import Verif.Compose.Adaptor

/-!
# C144: union mounts with sources that do not count versions
(core/ratarmountcore/mountsource/formats/fsspec.py:309-310, ext4.py:114-115, git.py:116-117, fat.py:121-122,
compositing/union.py:105-150)

Remote folders, git repositories, FAT and EXT4 images answer `versions` with 1 for every path.
-/

namespace Verif.Compose

open Verif.Py Verif.Index

/-- A source that ignores the version number in `lookup` and answers `versions` with 1 (git.py:111-117; also fsspec.py:267-310,
ext4.py:106-115, fat.py:109-122). -/
def plain (id : Nat) (look : Str → Option FileInfo) (list : Str → Option (Listing FileInfo)) (listMode : Str → Option (Listing Nat)) :
    Source where
  id := id
  immutable := true
  lookup := fun path _ => look path
  versions := fun _ => 1
  list := list
  listMode := listMode

/-- `_convert_to_file_mode` (git.py:62-65); links are not modelled. -/
def gitMode (o : Git.Obj) : Nat := 0o555 ||| (if o.isTree then 0x4000 else 0x8000)

/-- `_convert_to_file_info` (git.py:67-78), with the number of the object for size and time. -/
def gitInfo (path : Str) (o : Git.Obj) : FileInfo :=
  ⟨gitMode o, [], match o with | .blob i => i | .tree _ => 0, [.str path]⟩

/-- `lookup` (git.py:111-113). -/
def gitLookup (root : Git.Obj) (path : Str) : Option FileInfo := (Git.lookUp root path).map (gitInfo path)

/-- `_list` (git.py:88-100) with the function for the values. -/
def gitList {V : Type} (root : Git.Obj) (value : Str → Git.Obj → V) (path : Str) : Option (Listing V) :=
  match Git.lookUp root path with
  | some (.tree es) =>
    some (.dict ((es.filter (fun e => decide (e.1 ≠ []))).map (fun e => (e.1, value (path ++ '/' :: e.1) e.2))))
  | _ => none

/-- A `GitMountSource` (git.py:16-134). -/
def gitSource (id : Nat) (root : Git.Obj) : Source :=
  plain id (gitLookup root) (gitList root gitInfo) (gitList root (fun _ o => gitMode o))

/-! ## Specification -/

/-- The source has the path. -/
def Shown (s : Source) (path : Str) : Prop := ∃ i, s.lookup path 0 = some i

/-- Nothing is found only if no source has the path. -/
def C144_statement : Prop :=
  ∀ (sources : List Source) (depth : Nat) (entries : Int) (timeUp : Nat → Bool) (path : Str),
    (∃ s ∈ sources, Shown s path) → ((Union.new sources depth entries timeUp).lookup path 0).isSome = true

/-! ## Proofs -/

theorem lookupBack_skip (path : Str) (b : List Source) : ∀ (rest : List Source),
    (∀ t ∈ b, t.lookup path 0 = none ∧ t.versions path = 0) → lookupBack path (b ++ rest) 0 = lookupBack path rest 0 := by
  induction b with
  | nil => intro rest _; rfl
  | cons t b ih =>
    intro rest h
    obtain ⟨h1, h2⟩ := h t List.mem_cons_self
    rw [List.cons_append, lookupBack, h1]
    simp only [h2]
    rw [if_neg (by decide)]
    exact ih rest (fun x hx => h x (List.mem_cons_of_mem _ hx))

/-- C144, the order of consultation: the newest version is that of the last source that has the path, if the sources after it report no
versions of it. -/
theorem C144_found (a b : List Source) (s : Source) (path : Str) (i : FileInfo) (hi : s.lookup path 0 = some i)
    (hb : ∀ t ∈ b, t.lookup path 0 = none ∧ t.versions path = 0) :
    lookupIn (a ++ s :: b) path 0 = some (i.push (.source s.id)) := by
  unfold lookupIn
  rw [if_pos (Int.le_refl 0), List.reverse_append, List.reverse_cons, List.append_assoc,
    lookupBack_skip path b.reverse _ (fun t ht => hb t (List.mem_reverse.mp ht))]
  rw [List.singleton_append, lookupBack, hi]

theorem lookupBack_stop (path : Str) (p : Source) (hp : p.lookup path 0 = none) (hv : p.versions path ≠ 0) (rest : List Source) :
    ∀ b : List Source, (∀ t ∈ b, t.lookup path 0 = none) → lookupBack path (b ++ p :: rest) 0 = none := by
  intro b
  induction b with
  | nil =>
    intro _
    rw [List.nil_append, lookupBack, hp]
    simp only
    rw [if_pos (by omega)]
  | cons t b ih =>
    intro h
    rw [List.cons_append, lookupBack, h t List.mem_cons_self]
    simp only
    split
    · rfl
    · rename_i hn
      have : (0 : Int) + (t.versions path : Int) = 0 := by omega
      rw [this]
      exact ih (fun x hx => h x (List.mem_cons_of_mem _ hx))

/-- C144, what is hidden: a source that reports versions of a path that it does not have hides the path in all sources before it. -/
theorem C144_hidden (a b : List Source) (p : Source) (path : Str) (hp : p.lookup path 0 = none) (hv : p.versions path ≠ 0)
    (hb : ∀ t ∈ b, t.lookup path 0 = none) : lookupIn (a ++ p :: b) path 0 = none := by
  unfold lookupIn
  rw [if_pos (Int.le_refl 0), List.reverse_append, List.reverse_cons, List.append_assoc, List.singleton_append]
  exact lookupBack_stop path p hp hv _ _ (fun t ht => hb t (List.mem_reverse.mp ht))

/-- C144 for mounts whose sources report versions only of what they have, apart from the first source, which is asked last. What is
missing: another source that always reports a version. `hc` says that the folder cache does not leave out the source. -/
theorem C144_partial (first : Source) (sources : List Source) (depth : Nat) (entries : Int) (timeUp : Nat → Bool) (path : Str)
    (hs : ∀ t ∈ sources, t.lookup path 0 = none → t.versions path = 0) (h : ∃ s ∈ first :: sources, Shown s path)
    (hc : ∀ s ∈ first :: sources, Shown s path →
      (!s.immutable || ((Union.new (first :: sources) depth entries timeUp).cached path).any (fun c => c.id == s.id)) = true) :
    ((Union.new (first :: sources) depth entries timeUp).lookup path 0).isSome = true := by
  unfold Union.lookup
  split
  · rfl
  · have hsrc : (Union.new (first :: sources) depth entries timeUp).sources = first :: sources := by
      unfold Union.new; split <;> rfl
    rw [hsrc]
    generalize hg : (fun m : Source => !m.immutable ||
      ((Union.new (first :: sources) depth entries timeUp).cached path).any (fun c => c.id == m.id)) = g at hc ⊢
    have hc' : ∀ s ∈ first :: sources, Shown s path → g s = true := by
      intro s hs' hsh
      rw [← hg]
      exact hc s hs' hsh
    have hl : ∃ s ∈ (first :: sources).filter g, Shown s path := by
      obtain ⟨s, hm, hsh⟩ := h
      exact ⟨s, List.mem_filter.mpr ⟨hm, hc' s hm hsh⟩, hsh⟩
    have hz : ∀ t ∈ ((first :: sources).filter g).tail, t.lookup path 0 = none → t.versions path = 0 := by
      intro t ht
      refine hs t ?_
      rw [List.filter_cons] at ht
      split at ht
      · exact (List.mem_filter.mp ht).1
      · exact (List.mem_filter.mp (List.mem_of_mem_tail ht)).1
    generalize (first :: sources).filter g = l at hl hz
    clear hc hc' hg h hs hsrc
    -- the last source that has the path
    have key : ∀ l : List Source, (∃ s ∈ l, Shown s path) → ∃ a s b, l = a ++ s :: b ∧ Shown s path ∧ ∀ t ∈ b, ¬ Shown t path := by
      intro l
      induction l with
      | nil => rintro ⟨s, hs, _⟩; cases hs
      | cons x l ih =>
        intro hx
        by_cases hrest : ∃ s ∈ l, Shown s path
        · obtain ⟨a, s, b, rfl, h1, h2⟩ := ih hrest
          exact ⟨x :: a, s, b, rfl, h1, h2⟩
        · obtain ⟨s, hm, hsh⟩ := hx
          rcases List.mem_cons.mp hm with rfl | hm
          · exact ⟨[], s, l, rfl, hsh, fun t ht hsht => hrest ⟨t, ht, hsht⟩⟩
          · exact absurd ⟨s, hm, hsh⟩ hrest
    obtain ⟨a, s, b, rfl, ⟨i, hi⟩, hb⟩ := key l hl
    rw [C144_found a b s path i hi]
    · rfl
    · intro t ht
      have hn : t.lookup path 0 = none := by
        cases hx : t.lookup path 0 with
        | none => rfl
        | some j => exact absurd ⟨j, hx⟩ (hb t ht)
      refine ⟨hn, hz t ?_ hn⟩
      cases a with
      | nil => exact ht
      | cons y a => exact List.mem_append_right _ (List.mem_cons_of_mem _ ht)

/-- C144, git repositories: a repository hides every path that it does not have, in all sources before it that the cache lets through. -/
theorem C144_git (u : Union) (a b : List Source) (id : Nat) (root : Git.Obj) (path : Str) (hs : u.sources = a ++ gitSource id root :: b)
    (hpath : stripSlashes path ≠ []) (hm : Git.lookUp root path = none) (hb : ∀ t ∈ b, t.lookup path 0 = none)
    (hc : (u.cached path).any (fun c => c.id == id) = true) : u.lookup path 0 = none := by
  unfold Union.lookup
  rw [if_neg hpath, hs, List.filter_append, List.filter_cons_of_pos (by simp [gitSource, plain]; simpa using hc)]
  refine C144_hidden _ _ _ path ?_ ?_ ?_
  · show gitLookup root path = none
    unfold gitLookup
    rw [hm]
    rfl
  · show (1 : Nat) ≠ 0
    decide
  · intro t ht
    exact hb t (List.mem_filter.mp ht).1

theorem lookLoop_append : ∀ (a b : List Str) (o : Git.Obj), Git.lookLoop o (a ++ b) = (Git.lookLoop o a).bind (fun o => Git.lookLoop o b) := by
  intro a
  induction a with
  | nil => intro b o; rfl
  | cons n a ih =>
    intro b o
    simp only [List.cons_append, Git.lookLoop]
    split
    · cases o.child n with
      | none => rfl
      | some o' => exact ih b o'
    · exact ih b o

/-- C144, what a repository shows: files with the mode 555, folders with the mode 555, and a listing has exactly the entries of the
tree, each with what looking it up returns. -/
theorem C144_repository (id : Nat) (root : Git.Obj) (path : Str) :
    (∀ n, Git.lookUp root path = some (.blob n) → ∃ i, (gitSource id root).lookup path 0 = some i ∧ i.mode = 0o100555 ∧ i.link = [] ∧ i.rest = n ∧
      (gitSource id root).list path = none) ∧
    ∀ es, Git.lookUp root path = some (.tree es) → (es.map Prod.fst).Nodup → (∀ e ∈ es, e.1 ≠ [] ∧ '/' ∉ e.1) →
      (∃ i, (gitSource id root).lookup path 0 = some i ∧ i.mode = 0o40555) ∧
      ∃ d m, (gitSource id root).list path = some (.dict d) ∧ (gitSource id root).listMode path = some (.dict m) ∧
        d.keys = es.map Prod.fst ∧ m.keys = es.map Prod.fst ∧
        (∀ n i, (n, i) ∈ d → (gitSource id root).lookup (path ++ '/' :: n) 0 = some i) ∧
        ∀ n k, (n, k) ∈ m → ∃ i, (gitSource id root).lookup (path ++ '/' :: n) 0 = some i ∧ i.mode = k := by
  constructor
  · intro n h
    refine ⟨gitInfo path (.blob n), ?_, by simp [gitInfo, gitMode, Git.Obj.isTree], rfl, rfl, ?_⟩
    · show gitLookup root path = _
      unfold gitLookup
      rw [h]
      rfl
    · show gitList root gitInfo path = _
      unfold gitList
      rw [h]
  · intro es h hnd hnames
    have hchild : ∀ e ∈ es, (gitSource id root).lookup (path ++ '/' :: e.1) 0 = some (gitInfo (path ++ '/' :: e.1) e.2) := by
      intro e he
      show gitLookup root _ = _
      unfold gitLookup Git.lookUp
      have hl : Git.lookLoop root ([] :: split '/' path) = some (.tree es) := h
      rw [Adaptor.split_append, ← List.cons_append, lookLoop_append, hl, split_of_not_mem _ _ (hnames e he).2]
      have hf : es.find? (fun x => decide (x.1 = e.1)) = some e := by
        clear hl h hnames
        induction es with
        | nil => cases he
        | cons x es ih =>
          rw [List.map_cons, List.nodup_cons] at hnd
          rcases List.mem_cons.mp he with rfl | he
          · simp
          · rw [List.find?_cons_of_neg (by
              intro hx
              exact hnd.1 (List.mem_map.mpr ⟨e, he, (of_decide_eq_true hx).symm⟩))]
            exact ih hnd.2 he
      show Option.map _ (Git.lookLoop (.tree es) [e.1]) = _
      unfold Git.lookLoop
      rw [if_pos ⟨(hnames e he).1, rfl⟩]
      simp only [Git.Obj.child, hf, Option.map_some]
      rfl
    have hfil : es.filter (fun e => decide (e.1 ≠ [])) = es := List.filter_eq_self.mpr (fun e he => decide_eq_true (hnames e he).1)
    refine ⟨⟨gitInfo path (.tree es), ?_, by simp [gitInfo, gitMode, Git.Obj.isTree]⟩, es.map (fun e => (e.1, gitInfo (path ++ '/' :: e.1) e.2)),
      es.map (fun e => (e.1, gitMode e.2)), ?_, ?_, ?_, ?_, ?_, ?_⟩
    · show gitLookup root path = _
      unfold gitLookup
      rw [h]
      rfl
    · show gitList root gitInfo path = _
      unfold gitList
      rw [h]
      simp only [hfil]
    · show gitList root (fun _ o => gitMode o) path = _
      unfold gitList
      rw [h]
      simp only [hfil]
    · unfold Dict.keys
      rw [List.map_map]
      rfl
    · unfold Dict.keys
      rw [List.map_map]
      rfl
    · intro n i hm
      obtain ⟨e, he, hx⟩ := List.mem_map.mp hm
      obtain ⟨rfl, rfl⟩ := Prod.mk.inj hx
      exact hchild e he
    · intro n k hm
      obtain ⟨e, he, hx⟩ := List.mem_map.mp hm
      obtain ⟨rfl, rfl⟩ := Prod.mk.inj hx
      exact ⟨_, hchild e he, rfl⟩

/-- A source with the file `/a` only. -/
def onlyA : Source where
  id := 0
  immutable := true
  lookup := fun path v => if path = "/a".toList ∧ v = 0 then some ⟨0o100644, [], 0, []⟩ else none
  versions := fun path => if path = "/a".toList then 1 else 0
  list := fun path => if path = ['/'] then some (.names ["a".toList]) else none
  listMode := fun path => if path = ['/'] then some (.names ["a".toList]) else none

/-- A repository with the file `b` only. -/
def repoB : Git.Obj := .tree [("b".toList, .blob 3)]

/-- C144 is violated: a file next to a mounted repository is listed but not found. -/
theorem C144_violated : ¬ C144_statement := by
  intro h
  have h1 := h [onlyA, gitSource 1 repoB] 1024 100000 (fun _ => false) "/a".toList ⟨onlyA, by simp, _, rfl⟩
  have h2 : (Union.new [onlyA, gitSource 1 repoB] 1024 100000 (fun _ => false)).lookup "/a".toList 0 = none := by rfl
  rw [h2] at h1
  cases h1

/-- The file that is not found is listed. -/
example : ((Union.new [onlyA, gitSource 1 repoB] 1024 100000 (fun _ => false)).list ['/']).map Listing.keys =
    some ["b".toList, "a".toList] := by rfl

/-- In the other order it is found. -/
example : ((Union.new [gitSource 1 repoB, onlyA] 1024 100000 (fun _ => false)).lookup "/b".toList 0).isSome = true :=
  C144_partial (gitSource 1 repoB) [onlyA] 1024 100000 (fun _ => false) "/b".toList
    (by intro t ht _; rw [List.mem_singleton.mp ht]; rfl) ⟨gitSource 1 repoB, by simp, _, rfl⟩
    (by
      intro s hs _
      rcases List.mem_cons.mp hs with rfl | hs
      · rfl
      · rw [List.mem_singleton.mp hs]; rfl)

/-- The hypotheses of `C144_git` can be met. -/
example : (Union.new [onlyA, gitSource 1 repoB] 1024 100000 (fun _ => false)).lookup "/a".toList 0 = none :=
  C144_git _ [onlyA] [] 1 repoB _ rfl (by decide) rfl (by simp) rfl

end Verif.Compose
