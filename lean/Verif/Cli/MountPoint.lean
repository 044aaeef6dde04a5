import Verif.Cli.Suffix

/-!
# Choosing a mount point (C82)

`determine_mount_point` of ratarmount/actions.py:147-174. The host file system is given by `os.path.exists` and `os.path.isdir`; the table
of extensions is a parameter (see `Verif.Cli.Suffix`).
-/

namespace Verif.MountPoint

open Verif.Py (Str rsplit1 startsWith)
open Verif.Suffix (stripSuffix compile ends mem_ends Active meaning)

/-- The host file system (actions.py:147-171). -/
structure Host where
  exists? : Str → Bool
  isDir : Str → Bool

/-- `os.path.splitext(p)[0]` (posixpath, genericpath): the last dot of the last component, unless only dots precede it there (used at actions.py:147-163). -/
def splitextRoot (p : Str) : Str :=
  match rsplit1 '/' p with
  | none => nameRoot p
  | some (folder, name) => folder ++ '/' :: nameRoot name
where
  nameRoot (name : Str) : Str :=
    match rsplit1 '.' name with
    | none => name
    | some (root, _) => if root.all (· = '.') then name else root

/-- `'://' in s` (actions.py:148-152) -/
def isUrl (s : Str) : Bool := (ends s).any (fun t => startsWith "://".toList t)

/-- `s.rsplit('/', 1)[1]` (actions.py:152). -/
def lastComponent (s : Str) : Str :=
  match rsplit1 '/' s with
  | none => s
  | some (_, name) => name

/-- The mount point before the check (actions.py:148-163). -/
def propose (categories : Dict Str (List Str)) (source : Str) : Str :=
  let m := stripSuffix source (compile categories ["/all/".toList])
  let m := if isUrl m then lastComponent m else m
  let m := if m = source then splitextRoot m else m
  if m = source then m ++ ".mounted".toList else m

/-- `determine_mount_point` (actions.py:147-171); `none` is `ArgumentTypeError`. -/
def determine (categories : Dict Str (List Str)) (host : Host) (source : Str) : Option Str :=
  let m := propose categories source
  if host.exists? m && !host.isDir m then none else some m

/-! ## specification -/

/-- A path is that of a folder above another one, written with or without a final slash. -/
def Above (folder path : Str) : Prop :=
  (∃ rest, path = folder ++ '/' :: rest) ∨ (∃ rest, path = folder ++ rest ∧ ['/'] <:+ folder)

/-- C82 -/
def C82_statement : Prop :=
  ∀ (categories : Dict Str (List Str)) (host : Host) (source m : Str), source ≠ [] → determine categories host source = some m →
    m ≠ source ∧ m ≠ [] ∧ ¬ Above m source

/-- A source that is a path on the host with a name in it. -/
def Local (source folder name : Str) : Prop :=
  (source = folder ++ name ∧ (folder = [] ∨ ['/'] <:+ folder)) ∧ name ≠ [] ∧ '/' ∉ name ∧ ∀ a b, source ≠ a ++ "://".toList ++ b

/-- The name as a whole is no extension. -/
def Proper (categories : Dict Str (List Str)) (name : Str) : Prop :=
  ∀ it, Active (["/all/".toList].flatMap (meaning categories)) name it → ¬ it.Is name

/-! ## proofs -/

theorem isUrl_iff (s : Str) : isUrl s = true ↔ ∃ a b, s = a ++ "://".toList ++ b := by
  unfold isUrl
  rw [List.any_eq_true]
  constructor
  · rintro ⟨t, ht, hs⟩
    obtain ⟨a, rfl⟩ := (mem_ends s t).mp ht
    obtain ⟨b, hb⟩ := List.isPrefixOf_iff_prefix.mp hs
    exact ⟨a, b, by rw [← hb, List.append_assoc]⟩
  · rintro ⟨a, b, rfl⟩
    exact ⟨"://".toList ++ b, (mem_ends _ _).mpr ⟨a, by rw [List.append_assoc]⟩, List.isPrefixOf_iff_prefix.mpr ⟨b, rfl⟩⟩

/-- What remains of a name is its begin. -/
theorem strip_prefix (categories : Dict Str (List Str)) (patterns : List Str) (name : Str) (h : '/' ∉ name) :
    stripSuffix name (compile categories patterns) <+: name := by
  by_cases hex : ∃ it, Active (patterns.flatMap (meaning categories)) name it
  · obtain ⟨_, suffix, _, _, _, he⟩ := Verif.Suffix.C84_stripped categories patterns name h hex
    exact ⟨suffix, he.symm⟩
  · rw [Verif.Suffix.C84_unchanged categories patterns name h (fun it hi => hex ⟨it, hi⟩)]
    exact List.prefix_refl _

theorem strip_path_prefix (categories : Dict Str (List Str)) (patterns : List Str) (path : Str) :
    stripSuffix path (compile categories patterns) <+: path := by
  cases hr : rsplit1 '/' path with
  | none => exact strip_prefix categories patterns path (Verif.Py.rsplit1_none.mp hr)
  | some p =>
    obtain ⟨folder, name⟩ := p
    obtain ⟨rfl, hn⟩ := Verif.Py.rsplit1_some hr
    rw [Verif.Suffix.C84_folder _ _ _ hn]
    obtain ⟨s, hs⟩ := strip_prefix categories patterns name hn
    exact ⟨s, by rw [List.append_assoc, List.cons_append, hs]⟩

theorem lastComponent_noSlash (s : Str) : '/' ∉ lastComponent s := by
  unfold lastComponent
  cases hr : rsplit1 '/' s with
  | none => exact Verif.Py.rsplit1_none.mp hr
  | some p => exact (Verif.Py.rsplit1_some hr).2

theorem url_slash (s : Str) (h : isUrl s = true) : '/' ∈ s := by
  obtain ⟨a, b, rfl⟩ := (isUrl_iff s).mp h
  simp

/-- **C82**: the mount point differs from the source, for every source. -/
theorem C82_differs (categories : Dict Str (List Str)) (host : Host) (source m : Str)
    (h : determine categories host source = some m) : m ≠ source := by
  have hp : propose categories source ≠ source := by
    have key : ∀ m : Str, (if m = source then m ++ ".mounted".toList else m) ≠ source := by
      intro m
      by_cases h2 : m = source
      · rw [if_pos h2, h2]
        intro he
        have := congrArg List.length he
        rw [List.length_append] at this
        have h8 : ".mounted".toList.length = 8 := by decide
        omega
      · rw [if_neg h2]; exact h2
    exact key _
  unfold determine at h
  simp only at h
  split at h
  · cases h
  · cases h; exact hp

/-- **C82**: what exists and is no folder is never the mount point. -/
theorem C82_usable (categories : Dict Str (List Str)) (host : Host) (source m : Str)
    (h : determine categories host source = some m) : host.exists? m = true → host.isDir m = true := by
  unfold determine at h
  simp only at h
  split at h
  · cases h
  · next hc =>
    cases h
    intro he
    rw [he, Bool.true_and] at hc
    cases hd : host.isDir (propose categories source) with
    | true => rfl
    | false => rw [hd] at hc; exact absurd rfl hc

/-- **C82**: for URLs, the mount point is a name in the current folder. -/
theorem C82_url (categories : Dict Str (List Str)) (host : Host) (source m : Str) (hu : isUrl (stripSuffix source (compile categories ["/all/".toList])) = true)
    (h : determine categories host source = some m) : '/' ∉ m := by
  have hp : '/' ∉ propose categories source := by
    unfold propose
    simp only [hu, if_true]
    have hn := lastComponent_noSlash (stripSuffix source (compile categories ["/all/".toList]))
    have hs : '/' ∈ source := (strip_path_prefix categories ["/all/".toList] source).subset (url_slash _ hu)
    have hne : lastComponent (stripSuffix source (compile categories ["/all/".toList])) ≠ source := by
      intro he; rw [he] at hn; exact hn hs
    rw [if_neg hne, if_neg hne]
    exact hn
  unfold determine at h
  simp only at h
  split at h
  · cases h
  · cases h; exact hp

theorem nameRoot_prefix (name : Str) : splitextRoot.nameRoot name <+: name ∧ (name ≠ [] → splitextRoot.nameRoot name ≠ []) := by
  unfold splitextRoot.nameRoot
  cases hr : rsplit1 '.' name with
  | none => exact ⟨List.prefix_refl _, id⟩
  | some p =>
    obtain ⟨root, ext⟩ := p
    simp only
    split
    · exact ⟨List.prefix_refl _, id⟩
    · next hd =>
      refine ⟨⟨'.' :: ext, (Verif.Py.rsplit1_some hr).1.symm⟩, ?_⟩
      intro _ h0
      rw [h0] at hd
      exact hd rfl

theorem splitextRoot_local (folder name : Str) (hf : folder = [] ∨ ['/'] <:+ folder) (hn : '/' ∉ name) :
    splitextRoot (folder ++ name) = folder ++ splitextRoot.nameRoot name := by
  unfold splitextRoot
  rcases hf with rfl | ⟨f, rfl⟩
  · rw [List.nil_append, Verif.Py.rsplit1_none.mpr hn]; rfl
  · rw [List.append_assoc, List.singleton_append, Verif.Py.rsplit1_append f name hn, List.append_assoc]; rfl

theorem strip_local (rules : List Verif.Suffix.Rule) (folder name : Str) (hf : folder = [] ∨ ['/'] <:+ folder) (hn : '/' ∉ name) :
    stripSuffix (folder ++ name) rules = folder ++ stripSuffix name rules := by
  rcases hf with rfl | ⟨f, rfl⟩
  · rfl
  · rw [List.append_assoc, List.singleton_append, Verif.Suffix.C84_folder _ _ _ hn, List.append_assoc]; rfl

/-- A sibling is not above. -/
theorem not_above (folder kept suffix : Str) (h1 : kept ≠ []) (h2 : '/' ∉ kept) (h3 : '/' ∉ suffix) :
    ¬ Above (folder ++ kept) (folder ++ kept ++ suffix) := by
  rintro (⟨rest, h⟩ | ⟨rest, _, h⟩)
  · rw [List.append_cancel_left h] at h3
    exact h3 List.mem_cons_self
  · obtain ⟨pre, hp⟩ := h
    have hl := congrArg List.getLast? hp
    simp only [List.getLast?_append, List.getLast?_singleton, Option.some_or, List.getLast?_eq_some_getLast h1] at hl
    exact h2 (by rw [Option.some.inj hl]; exact List.getLast_mem h1)

/-- **C82**, provable part: for a path on the host whose name is not itself an extension, the mount point is a name in the same folder
that is neither empty nor above the source. Missing: names like ".tar" and URLs that end with a slash. -/
theorem C82_partial (categories : Dict Str (List Str)) (host : Host) (source folder name m : Str)
    (hs : Local source folder name) (hp : Proper categories name) (h : determine categories host source = some m) :
    m ≠ source ∧ m ≠ [] ∧ ¬ Above m source ∧ ∃ kept, m = folder ++ kept ∧ kept ≠ [] ∧ '/' ∉ kept := by
  obtain ⟨⟨rfl, hf⟩, hne, hn, hu⟩ := hs
  have hd := C82_differs categories host _ m h
  have hm : m = propose categories (folder ++ name) := by
    unfold determine at h
    simp only at h
    split at h
    · cases h
    · cases h; rfl
  have hkept : ∃ kept, m = folder ++ kept ∧ kept ≠ [] ∧ (kept <+: name ∨ kept = name ++ ".mounted".toList) := by
    rw [hm]
    unfold propose
    simp only
    have hnu : isUrl (stripSuffix (folder ++ name) (compile categories ["/all/".toList])) = false := by
      rw [Bool.eq_false_iff]
      intro hu'
      obtain ⟨a, b, he⟩ := (isUrl_iff _).mp hu'
      obtain ⟨s, hs⟩ := strip_path_prefix categories ["/all/".toList] (folder ++ name)
      rw [he] at hs
      exact hu a (b ++ s) (by rw [← hs]; simp)
    simp only [hnu, Bool.false_eq_true, if_false]
    rw [strip_local _ _ _ hf hn]
    have hk := strip_prefix categories ["/all/".toList] name hn
    have hk2 := (Verif.Suffix.C84_longest_partial categories ["/all/".toList] name hn hne hp).1
    generalize stripSuffix name (compile categories ["/all/".toList]) = k at hk hk2
    by_cases h1 : folder ++ k = folder ++ name
    · rw [if_pos h1, List.append_cancel_left h1, splitextRoot_local _ _ hf hn]
      obtain ⟨r1, r2⟩ := nameRoot_prefix name
      by_cases h2 : folder ++ splitextRoot.nameRoot name = folder ++ name
      · rw [if_pos h2, h2]
        exact ⟨name ++ ".mounted".toList, by rw [List.append_assoc], by simp, Or.inr rfl⟩
      · rw [if_neg h2]
        exact ⟨_, rfl, r2 hne, Or.inl r1⟩
    · rw [if_neg h1, if_neg h1]
      exact ⟨k, rfl, hk2, Or.inl hk⟩
  obtain ⟨kept, rfl, hk1, hk2⟩ := hkept
  have hns : '/' ∉ kept := by
    rcases hk2 with hk2 | rfl
    · exact fun hc => hn (hk2.subset hc)
    · intro hc
      rcases List.mem_append.mp hc with hc | hc
      · exact hn hc
      · exact absurd hc (by decide)
  refine ⟨hd, ?_, ?_, kept, rfl, hk1, hns⟩
  · intro h0
    exact hk1 (List.append_eq_nil_iff.mp h0).2
  · rcases hk2 with ⟨suffix, hsf⟩ | hk2
    · rw [← hsf, ← List.append_assoc]
      exact not_above folder kept suffix hk1 hns (fun hc => hn (by rw [← hsf]; exact List.mem_append_right _ hc))
    · rintro (⟨rest, hr⟩ | ⟨rest, hr, _⟩)
      · have := congrArg List.length hr
        rw [hk2] at this
        simp only [List.length_append, List.length_cons] at this
        omega
      · have := congrArg List.length hr
        rw [hk2] at this
        simp only [List.length_append] at this
        have h8 : ".mounted".toList.length = 8 := by decide
        omega

/-- An empty host. -/
def emptyHost : Host := ⟨fun _ => false, fun _ => false⟩

/-- The table with one extension. -/
def sampleTable : Dict Str (List Str) := [("all".toList, ["tar".toList])]

/-- C82 is violated: the mount point for "dir/.tar" is "dir/", the folder with the archive. -/
theorem C82_violated : ¬ C82_statement := by
  intro h
  have := (h sampleTable emptyHost "dir/.tar".toList "dir/".toList (by decide) (by decide +kernel)).2.2
  exact this (Or.inr ⟨".tar".toList, by decide, "dir".toList, by decide⟩)

/-- C82 is violated in another way: the mount point for ".tar" and for "http://host/" is empty, which means the current folder. -/
theorem C82_empty_violated : ∃ (categories : Dict Str (List Str)) (host : Host) (source : Str), source ≠ [] ∧
    (∃ m, determine categories host source = some m) ∧ ∀ m, determine categories host source = some m → m = [] := by
  refine ⟨[], emptyHost, "http://host/".toList, by decide, ⟨[], by decide +kernel⟩, ?_⟩
  have : determine [] emptyHost "http://host/".toList = some [] := by decide +kernel
  intro m h
  rw [this] at h
  cases h; rfl

example : determine sampleTable emptyHost "dir/x.tar".toList = some "dir/x".toList ∧
    determine sampleTable emptyHost "dir/x.docx".toList = some "dir/x".toList ∧
    determine sampleTable emptyHost "a.b/.x".toList = some "a.b/.x.mounted".toList ∧
    determine sampleTable emptyHost "ftp://host/a.tar".toList = some "a".toList := by decide +kernel

example : Local "dir/x.tar".toList "dir/".toList "x.tar".toList := by
  refine ⟨⟨by decide, Or.inr ⟨"dir".toList, by decide⟩⟩, by decide, by decide, ?_⟩
  intro a b h
  exact absurd ((isUrl_iff _).mpr ⟨a, b, h⟩) (by decide +kernel)

end Verif.MountPoint
