import Verif.Compose.Union
import Verif.PyNum
import Verif.PyLemmas

/-!
# C34, C35, C36: the versions layer (core/ratarmountcore/mountsource/compositing/versioning.py)

`mp i` is the mount point `mountSource.get_mount_source(i)[0]` of an entry. Exceptions of `_decode_versions_path_api`
other than those it catches itself do not happen in the model.
-/

namespace Verif.Compose

open Verif.Py Verif.Index

/-- `'.versions'` (versioning.py:61-87). -/
def dotVersions : Str := ".versions".toList

/-- The loop of `_decode_versions_path_api` (versioning.py:61-87): remaining parts, `filePath`, `pathIsSpecialVersionsFolder` and
`fileVersion`. -/
def decodeLoop (s : Source) : List Str → Str → Bool → Option Int → Option (Str × Bool × Int)
  | [], p, special, v => v.map (fun v => (p, special, if special then 0 else v))        -- 87-90
  | part :: rest, p, special, _ =>
    if special then                                                                   -- 63-70
      match canonInt part with
      | none => none
      | some k => decodeLoop s rest p false (some k)
    else if (s.lookup (p ++ '/' :: part) 0).isSome then                               -- 73-77
      decodeLoop s rest (p ++ '/' :: part) false (some 0)
    else if endsWith dotVersions part && decide (dotVersions.length < part.length) then   -- 80-84
      decodeLoop s rest (sliceTo (p ++ '/' :: part) (-9)) true (some 0)
    else none                                                                         -- 87

/-- `_decode_versions_path_api` (versioning.py:32-92). -/
def decodeVersions (s : Source) (path : Str) : Option (Str × Bool × Int) :=
  decodeLoop s (split '/' (lstrip '/' path)) [] false none

/-- `_is_hard_link` (versioning.py:95-98). -/
def isHardLink (i : FileInfo) : Bool :=
  !(i.mode &&& 0xF000 == 0x8000) && !(i.mode &&& 0xF000 == 0xA000) && !i.link.isEmpty

/-- Where a hard link leads (versioning.py:108, 116-118). -/
def linkTarget (mp : FileInfo → Str) (i : FileInfo) : Str := joinPath (mp i) (lstrip '/' i.link)

/-- The version looked up next (versioning.py:120-136). -/
def nextVersion (path resolved : Str) (v : Int) : Int := if resolved ≠ path then 0 else if 0 ≤ v then v + 1 else v - 1

/-- The loop of `_resolve_hard_links` (versioning.py:112-144): `k` is `128 - hardLinkCount`. -/
def resolveLoop (s : Source) (mp : FileInfo → Str) : Nat → Str → Int → FileInfo → Option FileInfo
  | 0, _, _, i => some i
  | k + 1, path, v, i =>
    if isHardLink i then
      match s.lookup (linkTarget mp i) (nextVersion path (linkTarget mp i) v) with
      | none => none
      | some j => resolveLoop s mp k (linkTarget mp i) (nextVersion path (linkTarget mp i) v) j
    else some i

/-- `_resolve_hard_links` (versioning.py:101-146). -/
def resolve (s : Source) (mp : FileInfo → Str) (path : Str) : Option FileInfo :=
  match s.lookup path 0 with
  | none => none
  | some i => resolveLoop s mp 128 path 0 i

/-- `lookup` (versioning.py:191-229). -/
def vlookup (s : Source) (mp : FileInfo → Str) (path : Str) (v : Int) : Except PyErr (Option FileInfo) :=
  if v ≠ 0 then .error .assertionError                                                -- 191
  else match resolve s mp path with
    | some i => .ok (some (i.push .file))                                             -- 193-196
    | none =>
      match decodeVersions s path with
      | none => .ok none
      | some (p, true, _) =>
        match s.lookup p 0 with
        | none => .error .assertionError                                              -- 208
        | some parent => .ok (some ⟨0o40777, [], parent.rest, [.versionsFolder]⟩)
      | some (p, false, k) => .ok ((s.lookup p k).map (fun i => i.push .file))        -- 223-226

/-- `userdata.append(FileType.FILE)` for all values of a dictionary (versioning.py:173-176). -/
def pushAll : Listing FileInfo → Listing FileInfo
  | .names l => .names l
  | .dict d => .dict (d.map (fun nf => (nf.1, nf.2.push .file)))

/-- `list` with `_list_wrapper` (versioning.py:152-180). -/
def vlist (s : Source) (path : Str) : Option (Listing FileInfo) :=
  match s.list path with
  | some l => some (pushAll l)
  | none =>
    match decodeVersions s path with
    | none => none
    | some (p, false, _) => (s.list p).map pushAll
    | some (p, true, _) => some (.names ((List.range (s.versions p)).map (fun k => natStr (k + 1))))

/-! ## specification -/

/-- One step of a path of the versions interface: a name, or a name and the version of it. -/
abbrev Step := Str × Option Int

/-- How a step is written: `name`, or `name.versions/k`. -/
def Step.parts : Step → List Str
  | (n, none) => [n]
  | (n, some k) => [n ++ dotVersions, intStr k]

/-- The path as written. -/
def apiPath (steps : List Step) : List Str := steps.flatMap Step.parts

/-- The path that is meant. -/
def plainPath (steps : List Step) : List Str := steps.map (·.1)

/-- Every step can be understood in the source: a plain name exists, and no real entry is called `name.versions` where
a version is requested. -/
def Readable (s : Source) (steps : List Step) : Prop :=
  ∀ pre st post, steps = pre ++ st :: post →
    match st.2 with
    | none => (s.lookup (canonical (plainPath pre ++ [st.1])) 0).isSome = true
    | some _ => s.lookup (canonical (plainPath pre ++ [st.1 ++ dotVersions])) 0 = none

/-- The version the last step asks for. -/
def lastVersion (steps : List Step) : Int :=
  match steps.getLast? with
  | some (_, some k) => k
  | _ => 0

/-! ## lemmas -/

theorem canonical_append (cs : List Str) (n : Str) : canonical (cs ++ [n]) = (if cs = [] then [] else canonical cs) ++ '/' :: n := by
  cases cs with
  | nil => rfl
  | cons c cs =>
    rw [if_neg (by simp), canonical_eq, canonical_eq, join_append_single _ _ (by simp)]
    rfl

/-- `filePath` inside the loop: the root is the empty string. -/
def prefixPath (cs : List Str) : Str := if cs = [] then [] else canonical cs

theorem prefixPath_append (cs : List Str) (n : Str) : prefixPath cs ++ '/' :: n = canonical (cs ++ [n]) :=
  (canonical_append cs n).symm

theorem prefixPath_snoc (cs : List Str) (n : Str) : prefixPath (cs ++ [n]) = canonical (cs ++ [n]) := by
  unfold prefixPath
  rw [if_neg (by simp)]

theorem take_dotVersions (q n : Str) : sliceTo (q ++ '/' :: (n ++ dotVersions)) (-9) = q ++ '/' :: n := by
  have hl : dotVersions.length = 9 := rfl
  have e : sliceBound (q ++ '/' :: (n ++ dotVersions)).length (-9) = (q ++ '/' :: n).length := by
    unfold sliceBound
    rw [if_pos (by omega)]
    simp only [List.length_append, List.length_cons, hl]
    omega
  unfold sliceTo
  rw [e, show q ++ '/' :: (n ++ dotVersions) = (q ++ '/' :: n) ++ dotVersions from by simp, List.take_left]

theorem endsWith_dotVersions (n : Str) (h : n ≠ []) :
    (endsWith dotVersions (n ++ dotVersions) && decide (dotVersions.length < (n ++ dotVersions).length)) = true := by
  have h1 : endsWith dotVersions (n ++ dotVersions) = true := by
    unfold endsWith
    rw [List.isSuffixOf_iff_suffix]
    exact List.suffix_append _ _
  have h2 : 0 < n.length := List.length_pos_iff.mpr h
  rw [h1, Bool.true_and, decide_eq_true_iff, List.length_append]
  omega

/-- The conditions of `Readable` after the folders `pre`. -/
def ReadableFrom (s : Source) (before : List Str) (steps : List Step) : Prop :=
  ∀ pre st post, steps = pre ++ st :: post →
    match st.2 with
    | none => (s.lookup (canonical (before ++ plainPath pre ++ [st.1])) 0).isSome = true
    | some _ => s.lookup (canonical (before ++ plainPath pre ++ [st.1 ++ dotVersions])) 0 = none

theorem readableFrom_cons {s : Source} {before : List Str} {st : Step} {steps : List Step} (h : ReadableFrom s before (st :: steps)) :
    ReadableFrom s (before ++ [st.1]) steps := by
  intro pre st' post he
  have := h (st :: pre) st' post (by rw [he]; rfl)
  simpa [plainPath] using this

theorem decodeLoop_steps (s : Source) (steps : List Step) : ∀ (before rest : List Str) (v : Option Int),
    (∀ st ∈ steps, st.1 ≠ []) → ReadableFrom s before steps →
    decodeLoop s (apiPath steps ++ rest) (prefixPath before) false v =
      decodeLoop s rest (prefixPath (before ++ plainPath steps)) false (if steps = [] then v else some (lastVersion steps)) := by
  induction steps with
  | nil => intro before rest v _ _; simp [apiPath, plainPath]
  | cons st steps ih =>
    intro before rest v hn hr
    obtain ⟨n, o⟩ := st
    have hr0 := hr [] (n, o) steps rfl
    have hr' := readableFrom_cons hr
    have hn' : ∀ st ∈ steps, st.1 ≠ [] := fun st hst => hn st (List.mem_cons_of_mem _ hst)
    have hlast : ∀ w, (if steps = [] then some w else some (lastVersion steps)) = some (lastVersion ((n, some w) :: steps)) := by
      intro w
      unfold lastVersion
      cases steps with
      | nil => rfl
      | cons a as => rw [if_neg (by simp), List.getLast?_cons_cons]
    have hlast0 : (if steps = [] then some 0 else some (lastVersion steps)) = some (lastVersion ((n, none) :: steps)) := by
      unfold lastVersion
      cases steps with
      | nil => rfl
      | cons a as => rw [if_neg (by simp), List.getLast?_cons_cons]
    have hplain : before ++ plainPath ((n, o) :: steps) = before ++ [n] ++ plainPath steps := by simp [plainPath]
    rw [if_neg (by simp), hplain]
    cases o with
    | none =>
      simp only [plainPath, List.map_nil, List.append_nil] at hr0
      rw [show apiPath ((n, none) :: steps) ++ rest = n :: (apiPath steps ++ rest) from rfl]
      rw [decodeLoop.eq_2, prefixPath_append, if_neg (by simp), if_pos hr0, ← prefixPath_snoc, ih (before ++ [n]) rest (some 0) hn' hr', hlast0]
    | some k =>
      simp only [plainPath, List.map_nil, List.append_nil] at hr0
      rw [show apiPath ((n, some k) :: steps) ++ rest = (n ++ dotVersions) :: intStr k :: (apiPath steps ++ rest) from rfl]
      rw [decodeLoop.eq_2, prefixPath_append, if_neg (by simp), hr0]
      simp only [Option.isSome_none, Bool.false_eq_true, if_false]
      rw [if_pos (endsWith_dotVersions n (hn _ List.mem_cons_self)), ← prefixPath_append, take_dotVersions, decodeLoop.eq_2]
      simp only [if_true, (canonInt_iff (intStr k) k).mpr rfl]
      rw [prefixPath_append, ← prefixPath_snoc, ih (before ++ [n]) rest (some k) hn' hr', hlast]

theorem apiPath_names (steps : List Step) (hn : ∀ st ∈ steps, st.1 ≠ [] ∧ '/' ∉ st.1) :
    ∀ p ∈ apiPath steps, p ≠ [] ∧ '/' ∉ p := by
  intro p hp
  obtain ⟨st, hst, hp⟩ := List.mem_flatMap.mp hp
  obtain ⟨n, o⟩ := st
  have := hn _ hst
  have hv : '/' ∉ dotVersions := by decide
  cases o with
  | none =>
    simp only [Step.parts, List.mem_singleton] at hp
    subst hp
    exact this
  | some k =>
    simp only [Step.parts, List.mem_cons, List.not_mem_nil, or_false] at hp
    rcases hp with rfl | rfl
    · refine ⟨by simp [this.1], ?_⟩
      rw [List.mem_append]
      rintro (h | h)
      · exact this.2 h
      · exact hv h
    · exact ⟨intStr_ne_nil k, intStr_no_slash k⟩

theorem lstrip_canonical (cs : List Str) (h : ∀ n ∈ cs, n ≠ [] ∧ '/' ∉ n) : lstrip '/' (canonical cs) = join '/' cs := by
  rw [canonical_eq]
  have := lstrip_slashes 1 (join '/' cs) (join_head cs h)
  simpa using this

theorem decodeVersions_eq (s : Source) (cs : List Str) (hne : cs ≠ []) (h : ∀ n ∈ cs, n ≠ [] ∧ '/' ∉ n) :
    decodeVersions s (canonical cs) = decodeLoop s cs (prefixPath []) false none := by
  unfold decodeVersions
  rw [lstrip_canonical cs h, split_join '/' cs hne (fun n hn => (h n hn).2)]
  rfl

theorem readableFrom_nil {s : Source} {steps : List Step} (h : Readable s steps) : ReadableFrom s [] steps := h

/-- What the interface makes of a readable path. -/
theorem decodeVersions_steps (s : Source) (steps : List Step) (hne : steps ≠ []) (hn : ∀ st ∈ steps, st.1 ≠ [] ∧ '/' ∉ st.1)
    (hr : Readable s steps) :
    decodeVersions s (canonical (apiPath steps)) = some (canonical (plainPath steps), false, lastVersion steps) := by
  have hane : apiPath steps ≠ [] := by
    cases steps with
    | nil => exact absurd rfl hne
    | cons st steps => obtain ⟨n, o⟩ := st; cases o <;> simp [apiPath, Step.parts]
  rw [decodeVersions_eq s _ hane (apiPath_names steps hn)]
  have := decodeLoop_steps s steps [] [] none (fun st hst => (hn st hst).1) (readableFrom_nil hr)
  rw [List.append_nil, if_neg hne] at this
  rw [this]
  unfold decodeLoop prefixPath
  rw [if_neg (by cases steps with | nil => exact absurd rfl hne | cons a as => simp [plainPath])]
  simp

/-- What it makes of a versions folder. -/
theorem decodeVersions_folder (s : Source) (steps : List Step) (n : Str) (hn : ∀ st ∈ steps, st.1 ≠ [] ∧ '/' ∉ st.1)
    (hname : n ≠ [] ∧ '/' ∉ n) (hr : Readable s steps)
    (hfree : s.lookup (canonical (plainPath steps ++ [n ++ dotVersions])) 0 = none) :
    decodeVersions s (canonical (apiPath steps ++ [n ++ dotVersions])) = some (canonical (plainPath steps ++ [n]), true, 0) := by
  have hv : '/' ∉ dotVersions := by decide
  rw [decodeVersions_eq s _ (by simp) (by
    intro p hp
    rcases List.mem_append.mp hp with hp | hp
    · exact apiPath_names steps hn p hp
    · rw [List.mem_singleton.mp hp]
      refine ⟨by simp [hname.1], ?_⟩
      rw [List.mem_append]
      rintro (h | h)
      · exact hname.2 h
      · exact hv h)]
  rw [decodeLoop_steps s steps [] _ none (fun st hst => (hn st hst).1) (readableFrom_nil hr), List.nil_append]
  unfold decodeLoop
  rw [prefixPath_append, if_neg (by simp), hfree]
  simp only [Option.isSome_none, Bool.false_eq_true, if_false]
  rw [if_pos (endsWith_dotVersions n hname.1), ← prefixPath_append, take_dotVersions]
  unfold decodeLoop
  rw [prefixPath_append]
  rfl

/-! ## C34 -/

/-- **C34**: every path of the interface, with any number of version steps in it, gives the requested version of the
path that is meant. -/
theorem C34_version (s : Source) (mp : FileInfo → Str) (steps : List Step) (hne : steps ≠ [])
    (hn : ∀ st ∈ steps, st.1 ≠ [] ∧ '/' ∉ st.1) (hr : Readable s steps)
    (hfree : s.lookup (canonical (apiPath steps)) 0 = none) :
    vlookup s mp (canonical (apiPath steps)) 0 =
      .ok ((s.lookup (canonical (plainPath steps)) (lastVersion steps)).map (fun i => i.push .file)) := by
  unfold vlookup resolve
  rw [if_neg (by simp), hfree]
  simp only [decodeVersions_steps s steps hne hn hr]

/-- **C34**: the versions folder of an existing path is a folder that lists exactly 1, 2, ..., the number of versions. -/
theorem C34_list (s : Source) (mp : FileInfo → Str) (steps : List Step) (n : Str) (hn : ∀ st ∈ steps, st.1 ≠ [] ∧ '/' ∉ st.1)
    (hname : n ≠ [] ∧ '/' ∉ n) (hr : Readable s steps)
    (hfree : s.lookup (canonical (plainPath steps ++ [n ++ dotVersions])) 0 = none)
    (hfree' : s.lookup (canonical (apiPath steps ++ [n ++ dotVersions])) 0 = none)
    (hlist : s.list (canonical (apiPath steps ++ [n ++ dotVersions])) = none)
    (i : FileInfo) (hex : s.lookup (canonical (plainPath steps ++ [n])) 0 = some i) :
    (∃ f, vlookup s mp (canonical (apiPath steps ++ [n ++ dotVersions])) 0 = .ok (some f) ∧ isDir f.mode = true) ∧
    ∃ l, vlist s (canonical (apiPath steps ++ [n ++ dotVersions])) = some l ∧
      l.keys = (List.range (s.versions (canonical (plainPath steps ++ [n])))).map (fun k => natStr (k + 1)) := by
  have hd := decodeVersions_folder s steps n hn hname hr hfree
  constructor
  · refine ⟨⟨0o40777, [], i.rest, [.versionsFolder]⟩, ?_, by show isDir 0o40777 = true; decide⟩
    unfold vlookup resolve
    rw [if_neg (by simp), hfree']
    simp only [hd, hex]
  · refine ⟨.names ((List.range (s.versions (canonical (plainPath steps ++ [n])))).map (fun k => natStr (k + 1))), ?_, rfl⟩
    unfold vlist
    rw [hlist]
    simp only [hd]

/-- **C34**, other paths: an entry that is no hard link is what the layer below has. -/
theorem C34_other (s : Source) (mp : FileInfo → Str) (path : Str) (i : FileInfo) (h : s.lookup path 0 = some i)
    (hl : isHardLink i = false) : vlookup s mp path 0 = .ok (some (i.push .file)) := by
  unfold vlookup resolve
  rw [if_neg (by simp), h]
  simp only
  unfold resolveLoop
  simp [hl]

theorem decodeLoop_no_versions (s : Source) (cs : List Str) (hv : ∀ n ∈ cs, endsWith dotVersions n = false) :
    ∀ (before : List Str) (v : Option Int) (r : Str × Bool × Int), decodeLoop s cs (prefixPath before) false v = some r →
    r.1 = prefixPath (before ++ cs) ∧ r.2.1 = false ∧ (cs ≠ [] → r.2.2 = 0 ∧ (s.lookup r.1 0).isSome = true) := by
  induction cs with
  | nil =>
    intro before v r h
    unfold decodeLoop at h
    cases v with
    | none => cases h
    | some v =>
      simp only [Option.map_some, Option.some.injEq] at h
      subst h
      simp
  | cons c cs ih =>
    intro before v r h
    unfold decodeLoop at h
    rw [if_neg (by simp), prefixPath_append] at h
    split at h
    · next hs =>
      rw [← prefixPath_snoc] at h
      obtain ⟨h1, h2, h3⟩ := ih (fun n hn => hv n (List.mem_cons_of_mem _ hn)) _ _ _ h
      refine ⟨by rw [h1]; simp, h2, fun _ => ?_⟩
      cases cs with
      | nil =>
        unfold decodeLoop at h
        simp only [Option.map_some, Option.some.injEq] at h
        subst h
        refine ⟨rfl, ?_⟩
        simp only
        rw [prefixPath_snoc]
        exact hs
      | cons b bs => exact h3 (by simp)
    · rw [hv c (by simp)] at h
      cases h

/-- **C34**, listings: what is listed in a folder is what looking up the entry returns, so listed entries can be opened like others. -/
theorem C34_agrees (s : Source) (mp : FileInfo → Str) (path q n : Str) (d : Dict Str FileInfo) (i : FileInfo)
    (hl : s.list path = some (.dict d)) (hi : d.get? n = some i) (hq : s.lookup q 0 = some i) (hh : isHardLink i = false) :
    ∃ d' f, vlist s path = some (.dict d') ∧ d'.keys = d.keys ∧ d'.get? n = some f ∧ vlookup s mp q 0 = .ok (some f) := by
  refine ⟨d.map (fun nf => (nf.1, nf.2.push .file)), i.push .file, ?_, ?_, ?_, C34_other s mp q i hq hh⟩
  · unfold vlist
    rw [hl]
    rfl
  · unfold Dict.keys
    rw [List.map_map]
    rfl
  · clear hl
    induction d with
    | nil => cases hi
    | cons e d ih =>
      obtain ⟨k, v⟩ := e
      simp only [List.map_cons, Dict.get?] at hi ⊢
      split at hi
      · next h =>
        rw [if_pos h, Option.some.inj hi]
      · next h =>
        rw [if_neg h]
        exact ih hi

/-- **C34**, other paths: what the layer below does not have is not found, unless a part of the path ends in
`.versions`. -/
theorem C34_missing (s : Source) (mp : FileInfo → Str) (cs : List Str) (hne : cs ≠ []) (h : ∀ n ∈ cs, n ≠ [] ∧ '/' ∉ n)
    (hv : ∀ n ∈ cs, endsWith dotVersions n = false) (hm : s.lookup (canonical cs) 0 = none) :
    vlookup s mp (canonical cs) 0 = .ok none := by
  unfold vlookup resolve
  rw [if_neg (by simp), hm]
  simp only [decodeVersions_eq s cs hne h]
  cases hd : decodeLoop s cs (prefixPath []) false none with
  | none => rfl
  | some r =>
    obtain ⟨h1, h2, h3⟩ := decodeLoop_no_versions s cs hv [] none r hd
    have h3 := (h3 hne).2
    rw [h1, List.nil_append] at h3
    unfold prefixPath at h3
    rw [if_neg hne, hm] at h3
    cases h3

/-- The full statement of C34, versions: below the versions folder of a path with the versions `vs`, exactly the listed
names are found. -/
def C34_statement : Prop :=
  ∀ (s : Source) (mp : FileInfo → Str) (vs : Str → List FileInfo) (steps : List Step) (n part : Str), Versioned s vs →
    (∀ st ∈ steps, st.1 ≠ [] ∧ '/' ∉ st.1) → (n ≠ [] ∧ '/' ∉ n) → (part ≠ [] ∧ '/' ∉ part) → Readable s steps →
    s.lookup (canonical (plainPath steps ++ [n ++ dotVersions])) 0 = none →
    s.lookup (canonical (apiPath steps ++ [n ++ dotVersions, part])) 0 = none →
    vs (canonical (plainPath steps ++ [n])) ≠ [] →
    ((∃ i, vlookup s mp (canonical (apiPath steps ++ [n ++ dotVersions, part])) 0 = .ok (some i)) ↔
      ∃ k, 1 ≤ k ∧ k ≤ (vs (canonical (plainPath steps ++ [n]))).length ∧ part = natStr k)

/-- **C34 is violated by the code**: `x.versions/0` exists although it is not listed. -/
theorem C34_violated : ¬ C34_statement := by
  intro h
  have := (h (flatSource 0 [(['x'], 0o100644)]) (fun _ => ['/']) _ [] ['x'] ['0'] (flatSource_versioned _ _)
    (by simp) (by decide) (by decide) (by intro pre st post e; simp at e) (by decide +kernel) (by decide +kernel)
    (by decide +kernel)).mp ⟨⟨0o100644, [], 0, [.file, .own 0]⟩, by decide +kernel⟩
  obtain ⟨k, h1, h2, h3⟩ := this
  have hk : k ≤ 1 := h2
  obtain rfl : k = 1 := by omega
  exact absurd h3 (by decide +kernel)

/-- **C34**, what is found below a versions folder: the numbers 1 to the number of versions as listed, each leading to
that version, and 0, -1, ... which count back from the newest one. Everything else is not found. Missing from the full
claim: the numbers up to 0 are not listed. -/
theorem C34_found_partial (s : Source) (mp : FileInfo → Str) (vs : Str → List FileInfo) (steps : List Step) (n part : Str)
    (hvs : Versioned s vs) (hn : ∀ st ∈ steps, st.1 ≠ [] ∧ '/' ∉ st.1) (hname : n ≠ [] ∧ '/' ∉ n) (hpart : part ≠ [] ∧ '/' ∉ part)
    (hr : Readable s steps) (hfree : s.lookup (canonical (plainPath steps ++ [n ++ dotVersions])) 0 = none)
    (hfree' : s.lookup (canonical (apiPath steps ++ [n ++ dotVersions, part])) 0 = none) :
    (∀ k, 1 ≤ k → k ≤ (vs (canonical (plainPath steps ++ [n]))).length → part = natStr k →
      vlookup s mp (canonical (apiPath steps ++ [n ++ dotVersions, part])) 0 =
        .ok (((vs (canonical (plainPath steps ++ [n])))[k - 1]?).map (fun i => i.push .file))) ∧
    ((∃ i, vlookup s mp (canonical (apiPath steps ++ [n ++ dotVersions, part])) 0 = .ok (some i)) ↔
      ∃ k : Int, -((vs (canonical (plainPath steps ++ [n]))).length : Int) < k ∧
        k ≤ (vs (canonical (plainPath steps ++ [n]))).length ∧ part = intStr k) := by
  have key : vlookup s mp (canonical (apiPath steps ++ [n ++ dotVersions, part])) 0 =
      .ok (((canonInt part).bind (pick (vs (canonical (plainPath steps ++ [n]))))).map (fun i => i.push .file)) := by
    cases hc : canonInt part with
    | some k =>
      have hk := (canonInt_iff part k).mp hc
      have hsteps : Readable s (steps ++ [(n, some k)]) := by
        intro pre st post e
        rcases List.append_eq_append_iff.mp e with ⟨as, h1, h2⟩ | ⟨as, h1, h2⟩
        · cases as with
          | nil =>
            simp only [List.nil_append, List.cons.injEq] at h2
            obtain ⟨rfl, -⟩ := h2
            simp only [List.append_nil] at h1
            subst h1
            exact hfree
          | cons a as => have := congrArg List.length h2; simp at this
        · cases as with
          | nil =>
            simp only [List.nil_append, List.cons.injEq] at h2
            obtain ⟨rfl, -⟩ := h2
            simp only [List.append_nil] at h1
            subst h1
            exact hfree
          | cons a as =>
            simp only [List.cons_append, List.cons.injEq] at h2
            exact hr pre st as (by rw [h1, h2.1])
      have e1 : apiPath (steps ++ [(n, some k)]) = apiPath steps ++ [n ++ dotVersions, part] := by
        rw [hk]; simp [apiPath, Step.parts]
      have e2 : plainPath (steps ++ [(n, some k)]) = plainPath steps ++ [n] := by simp [plainPath]
      have e3 : lastVersion (steps ++ [(n, some k)]) = k := by simp [lastVersion]
      have := C34_version s mp (steps ++ [(n, some k)]) (by simp) (by
        intro st hst
        rcases List.mem_append.mp hst with hst | hst
        · exact hn st hst
        · rw [List.mem_singleton.mp hst]; exact hname) hsteps (by rw [e1]; exact hfree')
      rw [e1, e2, e3] at this
      rw [this, (hvs _).2 k]
      rfl
    | none =>
      unfold vlookup resolve
      rw [if_neg (by simp), hfree']
      have hv : '/' ∉ dotVersions := by decide
      have hd : decodeVersions s (canonical (apiPath steps ++ [n ++ dotVersions, part])) = none := by
        rw [decodeVersions_eq s _ (by simp) (by
          intro p hp
          rcases List.mem_append.mp hp with hp | hp
          · exact apiPath_names steps hn p hp
          · simp only [List.mem_cons, List.not_mem_nil, or_false] at hp
            rcases hp with rfl | rfl
            · refine ⟨by simp [hname.1], ?_⟩
              rw [List.mem_append]
              rintro (h | h)
              · exact hname.2 h
              · exact hv h
            · exact hpart)]
        rw [decodeLoop_steps s steps [] _ none (fun st hst => (hn st hst).1) (readableFrom_nil hr), List.nil_append]
        unfold decodeLoop
        rw [prefixPath_append, if_neg (by simp), hfree]
        simp only [Option.isSome_none, Bool.false_eq_true, if_false]
        rw [if_pos (endsWith_dotVersions n hname.1)]
        unfold decodeLoop
        simp [hc]
      simp only [hd]
      rfl
  rw [key]
  constructor
  · intro k h1 h2 h3
    rw [(canonInt_iff part (k : Int)).mpr h3]
    simp only [Option.bind_some, pick]
    rw [if_neg (by omega)]
    congr 3
    omega
  · constructor
    · rintro ⟨i, hi⟩
      cases hc : canonInt part with
      | none => rw [hc] at hi; cases hi
      | some k =>
        refine ⟨k, ?_, ?_, (canonInt_iff part k).mp hc⟩
        · rw [hc] at hi
          simp only [Option.bind_some, Except.ok.injEq, Option.map_eq_some_iff] at hi
          obtain ⟨j, hj, -⟩ := hi
          unfold pick at hj
          split at hj
          · have := (List.getElem?_eq_some_iff.mp hj).1
            rw [List.length_reverse] at this
            omega
          · omega
        · rw [hc] at hi
          simp only [Option.bind_some, Except.ok.injEq, Option.map_eq_some_iff] at hi
          obtain ⟨j, hj, -⟩ := hi
          unfold pick at hj
          split at hj
          · omega
          · have := (List.getElem?_eq_some_iff.mp hj).1
            omega
    · rintro ⟨k, h1, h2, h3⟩
      rw [(canonInt_iff part k).mpr h3]
      simp only [Option.bind_some]
      have : ∃ j, pick (vs (canonical (plainPath steps ++ [n]))) k = some j := by
        unfold pick
        split
        · exact ⟨_, List.getElem?_eq_getElem (by rw [List.length_reverse]; omega)⟩
        · exact ⟨_, List.getElem?_eq_getElem (by omega)⟩
      obtain ⟨j, hj⟩ := this
      exact ⟨j.push .file, by rw [hj]; rfl⟩

/-- A case of `C34_version` and `C34_list`: the first version of the only entry. -/
example : Readable (flatSource 0 [(['x'], 0o100644)]) [(['x'], some 1)] ∧
    vlookup (flatSource 0 [(['x'], 0o100644)]) (fun _ => ['/']) "/x.versions/1".toList 0 =
      .ok (some ⟨0o100644, [], 0, [.file, .own 0]⟩) ∧
    (vlist (flatSource 0 [(['x'], 0o100644)]) "/x.versions".toList).map (fun l => l.keys) = some [['1']] := by
  refine ⟨?_, by decide +kernel, by decide +kernel⟩
  intro pre st post e
  cases pre with
  | nil =>
    simp only [List.nil_append, List.cons.injEq] at e
    obtain ⟨rfl, -⟩ := e
    show (flatSource 0 [(['x'], 0o100644)]).lookup _ 0 = none
    decide +kernel
  | cons a as => have := congrArg List.length e; simp at this

/-! ## C35 -/

/-- The full statement of C35: looking up the versions folder of something that does not exist finds nothing. -/
def C35_statement : Prop :=
  ∀ (s : Source) (mp : FileInfo → Str) (cs : List Str) (n : Str), (∀ c ∈ cs ++ [n], c ≠ [] ∧ '/' ∉ c) →
    s.lookup (canonical (cs ++ [n])) 0 = none → s.lookup (canonical (cs ++ [n ++ dotVersions])) 0 = none →
    vlookup s mp (canonical (cs ++ [n ++ dotVersions])) 0 = .ok none

/-- **C35 is violated by the code**: an assertion fails. -/
theorem C35_violated : ¬ C35_statement := by
  intro h
  have := h (flatSource 0 [(['x'], 0o100644)]) (fun _ => ['/']) [] ['y'] (by decide) (by decide +kernel) (by decide +kernel)
  revert this
  decide +kernel

/-- It is also listed as an empty folder. -/
example : (vlist (flatSource 0 [(['x'], 0o100644)]) "/y.versions".toList).map (fun l => l.keys) = some [] := by decide +kernel

/-- **C35** if the parent folder does not exist either (and no part of its path ends in `.versions`). Missing from the
full claim: missing files in existing folders. -/
theorem C35_parent_partial (s : Source) (mp : FileInfo → Str) (cs : List Str) (n : Str) (hne : cs ≠ [])
    (h : ∀ c ∈ cs ++ [n], c ≠ [] ∧ '/' ∉ c) (hv : ∀ c ∈ cs, endsWith dotVersions c = false)
    (hm : s.lookup (canonical cs) 0 = none) (hm' : s.lookup (canonical (cs ++ [n ++ dotVersions])) 0 = none) :
    vlookup s mp (canonical (cs ++ [n ++ dotVersions])) 0 = .ok none := by
  have key : ∀ (cs : List Str) (before : List Str) (v : Option Int) (rest : List Str), cs ≠ [] →
      (∀ c ∈ cs, endsWith dotVersions c = false) → s.lookup (canonical (before ++ cs)) 0 = none →
      decodeLoop s (cs ++ rest) (prefixPath before) false v = none := by
    intro cs
    induction cs with
    | nil => intro _ _ _ h; exact absurd rfl h
    | cons c cs ih =>
      intro before v rest _ hv hm
      rw [List.cons_append]
      unfold decodeLoop
      rw [if_neg (by simp), prefixPath_append]
      split
      · next hs =>
        rw [← prefixPath_snoc]
        cases cs with
        | nil => rw [hm] at hs; cases hs
        | cons b bs => exact ih _ _ _ (by simp) (fun c hc => hv c (List.mem_cons_of_mem _ hc)) (by simpa using hm)
      · rw [hv c (by simp)]
        rfl
  have hdv : '/' ∉ dotVersions := by decide
  unfold vlookup resolve
  rw [if_neg (by simp), hm']
  simp only
  rw [decodeVersions_eq s _ (by simp) (by
    intro p hp
    rcases List.mem_append.mp hp with hp | hp
    · exact h p (List.mem_append_left _ hp)
    · rw [List.mem_singleton.mp hp]
      have hn := h n (by simp)
      refine ⟨by simp [hn.1], ?_⟩
      rw [List.mem_append]
      rintro (h | h)
      · exact hn.2 h
      · exact hdv h), key cs [] none _ hne hv (by simpa using hm)]

example : vlookup (flatSource 0 [(['x'], 0o100644)]) (fun _ => ['/']) "/y/z.versions".toList 0 = .ok none := by decide +kernel

/-! ## C36 -/

/-- A chain of `m` hard links between different paths, from the entry `i` of the path `p` to the entry `e`. -/
inductive LinkChain (s : Source) (mp : FileInfo → Str) : Str → FileInfo → FileInfo → Nat → Prop where
  | done (p : Str) (i : FileInfo) (h : isHardLink i = false) : LinkChain s mp p i i 0
  | step (p : Str) (i j e : FileInfo) (m : Nat) (h : isHardLink i = true) (hne : linkTarget mp i ≠ p)
      (hj : s.lookup (linkTarget mp i) 0 = some j) (hc : LinkChain s mp (linkTarget mp i) j e m) : LinkChain s mp p i e (m + 1)

/-- The full statement of C36, chains: a chain of links resolves to its end. -/
def C36_statement : Prop :=
  ∀ (s : Source) (mp : FileInfo → Str) (p : Str) (i e : FileInfo) (m : Nat), s.lookup p 0 = some i → LinkChain s mp p i e m →
    resolve s mp p = some e

theorem resolveLoop_chain (s : Source) (mp : FileInfo → Str) {p : Str} {i e : FileInfo} {m : Nat} (hc : LinkChain s mp p i e m) :
    ∀ (k : Nat) (v : Int), m ≤ k → resolveLoop s mp k p v i = some e := by
  induction hc with
  | done p i h =>
    intro k v _
    cases k with
    | zero => rfl
    | succ k => unfold resolveLoop; rw [h]; rfl
  | step p i j e m h hne hj _ ih =>
    intro k v hk
    cases k with
    | zero => omega
    | succ k =>
      unfold resolveLoop
      have hv : nextVersion p (linkTarget mp i) v = 0 := by unfold nextVersion; rw [if_pos hne]
      rw [if_pos h, hv, hj]
      exact ih k 0 (by omega)

/-- **C36**, chains: a chain of up to 128 links resolves to its end. Missing from the full claim: longer chains, which are
cut off. -/
theorem C36_chain_partial (s : Source) (mp : FileInfo → Str) (p : Str) (i e : FileInfo) (m : Nat) (hi : s.lookup p 0 = some i)
    (hc : LinkChain s mp p i e m) (hm : m ≤ 128) : resolve s mp p = some e := by
  unfold resolve
  rw [hi]
  exact resolveLoop_chain s mp hc 128 0 hm

/-- **C36**, self references: if the newest version and the versions 1 to `k - 1` of a path are links to the path itself
and version `k` is no link, the path resolves to version `k`. -/
theorem C36_self (s : Source) (mp : FileInfo → Str) (p : Str) (i e : FileInfo) (k : Nat) (hk : 1 ≤ k) (hk' : k ≤ 128)
    (hi : s.lookup p 0 = some i) (hself : isHardLink i = true ∧ linkTarget mp i = p)
    (hmid : ∀ j, 1 ≤ j → j < k → ∃ i, s.lookup p j = some i ∧ isHardLink i = true ∧ linkTarget mp i = p)
    (he : s.lookup p k = some e) (hend : isHardLink e = false) : resolve s mp p = some e := by
  have key : ∀ (d fuel v : Nat) (i : FileInfo), v + d + 1 = k → d + 1 ≤ fuel → isHardLink i = true → linkTarget mp i = p →
      resolveLoop s mp fuel p v i = some e := by
    intro d
    induction d with
    | zero =>
      intro fuel v i hv hf h1 h2
      cases fuel with
      | zero => omega
      | succ fuel =>
        unfold resolveLoop
        have hnv : nextVersion p p v = k := by unfold nextVersion; simp; omega
        rw [if_pos h1, h2, hnv, he]
        simp only
        cases fuel with
        | zero => rfl
        | succ fuel => unfold resolveLoop; rw [hend]; rfl
    | succ d ih =>
      intro fuel v i hv hf h1 h2
      cases fuel with
      | zero => omega
      | succ fuel =>
        unfold resolveLoop
        have hnv : nextVersion p p v = ((v + 1 : Nat) : Int) := by unfold nextVersion; simp
        obtain ⟨j, hj1, hj2, hj3⟩ := hmid (v + 1) (by omega) (by omega)
        rw [if_pos h1, h2, hnv, hj1]
        exact ih fuel (v + 1) j (by omega) (by omega) hj2 hj3
  unfold resolve
  rw [hi]
  exact key (k - 1) 128 0 i (by omega) (by omega) hself.1 hself.2

theorem join_append_canonical (ms cs : List Str) (hms : ms ≠ []) (hcs : cs ≠ []) :
    canonical ms ++ '/' :: join '/' cs = canonical (ms ++ cs) := by
  induction ms with
  | nil => exact absurd rfl hms
  | cons m ms ih =>
    cases ms with
    | nil =>
      cases cs with
      | nil => exact absurd rfl hcs
      | cons c cs => rfl
    | cons b bs =>
      have := ih (by simp)
      rw [canonical_eq, canonical_eq] at this ⊢
      simp only [List.cons_append, List.cons.injEq, true_and] at this ⊢
      rw [show join '/' (m :: b :: bs) = m ++ '/' :: join '/' (b :: bs) from rfl,
        show join '/' (m :: b :: (bs ++ cs)) = m ++ '/' :: join '/' (b :: (bs ++ cs)) from rfl, ← this]
      simp

theorem joinPath_join (ms cs : List Str) (hms : ∀ n ∈ ms, IsName n) (hcs : ∀ n ∈ cs, IsName n) (hne : cs ≠ []) :
    joinPath (canonical ms) (join '/' cs) = canonical (ms ++ cs) := by
  have hb : startsWith ['/'] (join '/' cs) = false := by
    have := join_head cs (fun n hn => ⟨(hcs n hn).1, (hcs n hn).2.1⟩)
    cases hj : join '/' cs with
    | nil => rfl
    | cons x xs =>
      rw [hj] at this
      show (('/' == x) && [].isPrefixOf xs) = false
      have : ('/' == x) = false := by
        apply beq_eq_false_iff_ne.mpr
        intro e
        apply this
        rw [← e]
        rfl
      rw [this]
      rfl
  unfold joinPath
  rw [hb]
  simp only [Bool.false_eq_true, if_false]
  cases ms with
  | nil => rw [if_pos (by decide), List.nil_append, canonical_eq cs]; rfl
  | cons m ms =>
    have h2 : endsWith ['/'] (canonical (m :: ms)) = false := by
      cases he : endsWith ['/'] (canonical (m :: ms)) with
      | false => rfl
      | true =>
        have hj := joinPath_canonical (m :: ms) ['x'] hms (by unfold IsName; decide)
        unfold joinPath at hj
        rw [if_neg (by decide), if_pos (.inr he), canonical_eq, canonical_eq, join_append_single _ _ (by simp)] at hj
        simp at hj
    rw [if_neg (by rw [h2]; simp [canonical]), join_append_canonical _ _ (by simp) hne]

/-- **C36**, targets: a link, however many slashes it starts with, leads to the path it names below the mount point of the
entry it belongs to. -/
theorem C36_target (mp : FileInfo → Str) (i : FileInfo) (ms cs : List Str) (k : Nat) (hms : ∀ n ∈ ms, IsName n)
    (hcs : ∀ n ∈ cs, IsName n) (hne : cs ≠ []) (hmp : mp i = canonical ms)
    (hl : i.link = List.replicate k '/' ++ join '/' cs) : linkTarget mp i = canonical (ms ++ cs) := by
  unfold linkTarget
  rw [hmp, hl, lstrip_slashes k _ (join_head cs (fun n hn => ⟨(hcs n hn).1, (hcs n hn).2.1⟩))]
  exact joinPath_join ms cs hms hcs hne

example : linkTarget (fun _ => "/m.tar".toList) ⟨0o644, "/a/b".toList, 0, []⟩ = "/m.tar/a/b".toList := by decide +kernel

/-- The lookups made by `resolveLoop`, in order. -/
def resolveTrace (s : Source) (mp : FileInfo → Str) : Nat → Str → Int → FileInfo → List (Str × Int)
  | 0, _, _, _ => []
  | k + 1, path, v, i =>
    if isHardLink i then
      (linkTarget mp i, nextVersion path (linkTarget mp i) v) ::
        match s.lookup (linkTarget mp i) (nextVersion path (linkTarget mp i) v) with
        | none => []
        | some j => resolveTrace s mp k (linkTarget mp i) (nextVersion path (linkTarget mp i) v) j
    else []

/-- **C36**, termination: in every link graph at most 129 lookups are made, those in the trace are all the result depends
on, and the result is one of the entries of the source. -/
theorem C36_bounded (s : Source) (mp : FileInfo → Str) (p : Str) (i : FileInfo) (hi : s.lookup p 0 = some i) :
    (resolveTrace s mp 128 p 0 i).length ≤ 128 ∧
    (∀ t : Source, t.lookup p 0 = some i → (∀ q ∈ resolveTrace s mp 128 p 0 i, t.lookup q.1 q.2 = s.lookup q.1 q.2) →
      resolve t mp p = resolve s mp p) ∧
    ∀ e, resolve s mp p = some e → ∃ q v, s.lookup q v = some e := by
  have hlen : ∀ k p v i, (resolveTrace s mp k p v i).length ≤ k := by
    intro k
    induction k with
    | zero => intro p v i; simp [resolveTrace]
    | succ k ih =>
      intro p v i
      unfold resolveTrace
      split
      · rw [List.length_cons]
        split
        · simp
        · next j _ => have := ih (linkTarget mp i) (nextVersion p (linkTarget mp i) v) j; omega
      · simp
  have hdep : ∀ (t : Source) k p v i, (∀ q ∈ resolveTrace s mp k p v i, t.lookup q.1 q.2 = s.lookup q.1 q.2) →
      resolveLoop t mp k p v i = resolveLoop s mp k p v i := by
    intro t k
    induction k with
    | zero => intro p v i _; rfl
    | succ k ih =>
      intro p v i h
      unfold resolveTrace at h
      unfold resolveLoop
      split
      · next hl =>
        rw [if_pos hl] at h
        have h1 : t.lookup (linkTarget mp i) (nextVersion p (linkTarget mp i) v) =
            s.lookup (linkTarget mp i) (nextVersion p (linkTarget mp i) v) := h _ List.mem_cons_self
        rw [h1]
        cases hj : s.lookup (linkTarget mp i) (nextVersion p (linkTarget mp i) v) with
        | none => rfl
        | some j =>
          simp only
          apply ih
          intro q hq
          apply h q
          rw [hj]
          exact List.mem_cons_of_mem _ hq
      · rfl
  have hres : ∀ k p v i e, (∃ q v, s.lookup q v = some i) → resolveLoop s mp k p v i = some e → ∃ q v, s.lookup q v = some e := by
    intro k
    induction k with
    | zero => intro p v i e hex h; cases h; exact hex
    | succ k ih =>
      intro p v i e hex h
      unfold resolveLoop at h
      split at h
      · cases hj : s.lookup (linkTarget mp i) (nextVersion p (linkTarget mp i) v) with
        | none => rw [hj] at h; cases h
        | some j => rw [hj] at h; exact ih _ _ j e ⟨_, _, hj⟩ h
      · cases h; exact hex
  refine ⟨hlen _ _ _ _, ?_, ?_⟩
  · intro t ht h
    unfold resolve
    rw [ht, hi]
    exact hdep t 128 p 0 i h
  · intro e he
    unfold resolve at he
    rw [hi] at he
    exact hres 128 p 0 i e ⟨p, 0, hi⟩ he

/-- A source where the path of `k` letters is a hard link to the path of `k + 1` letters, up to `m` letters. -/
def ladder (m : Nat) : Source where
  id := 0
  immutable := true
  lookup p v :=
    if v = 0 then
      match p with
      | '/' :: r => if r.length < m ∧ 0 < r.length ∧ r = List.replicate r.length 'a' then some ⟨0o644, 'a' :: r, 0, []⟩
          else if r = List.replicate m 'a' then some ⟨0o100644, [], 0, []⟩ else none
      | _ => none
    else none
  versions _ := 1
  list _ := none
  listMode _ := none

theorem ladder_chain (m : Nat) : ∀ d k, 0 < k → k + d = m →
    ∃ i, (ladder m).lookup ('/' :: List.replicate k 'a') 0 = some i ∧
      LinkChain (ladder m) (fun _ => ['/']) ('/' :: List.replicate k 'a') i ⟨0o100644, [], 0, []⟩ d := by
  intro d
  induction d with
  | zero =>
    intro k hk hm
    obtain rfl : k = m := by omega
    refine ⟨⟨0o100644, [], 0, []⟩, ?_, .done _ _ (by decide)⟩
    simp [ladder]
  | succ d ih =>
    intro k hk hm
    obtain ⟨j, hj, hc⟩ := ih (k + 1) (by omega) (by omega)
    have ht : linkTarget (fun _ => ['/']) ⟨0o644, 'a' :: List.replicate k 'a', 0, []⟩ = '/' :: List.replicate (k + 1) 'a' := by
      unfold linkTarget
      have : lstrip '/' ('a' :: List.replicate k 'a') = 'a' :: List.replicate k 'a' := by
        unfold lstrip
        rw [List.dropWhile_cons_of_neg (by decide)]
      simp only [this]
      unfold joinPath startsWith endsWith
      rw [if_neg (by show ¬ (('/' == 'a') && _) = true; simp), if_pos (by decide)]
      rfl
    refine ⟨⟨0o644, 'a' :: List.replicate k 'a', 0, []⟩, ?_, .step _ _ j _ d (by simp [isHardLink]) ?_ (by rw [ht]; exact hj) (by rw [ht]; exact hc)⟩
    · simp only [ladder, if_true, List.length_replicate]
      rw [if_pos ⟨by omega, hk, trivial⟩]
    · rw [ht]
      intro e
      have := congrArg List.length e
      simp at this

/-- **C36 is violated by the code** for chains of more than 128 links: the unresolved link is returned. -/
theorem C36_violated : ¬ C36_statement := by
  intro h
  obtain ⟨i, hi, hc⟩ := ladder_chain 130 129 1 (by decide) (by decide)
  have := h (ladder 130) (fun _ => ['/']) _ i _ _ hi hc
  revert this
  decide +kernel

/-- A case of `C36_chain_partial`: three links. -/
example : resolve (ladder 4) (fun _ => ['/']) "/a".toList = some ⟨0o100644, [], 0, []⟩ := by
  obtain ⟨i, hi, hc⟩ := ladder_chain 4 3 1 (by decide) (by decide)
  exact C36_chain_partial _ _ _ i _ 3 hi hc (by decide)

end Verif.Compose
