import Verif.Compose.Subvolumes

/-!
# C40, C41, C91, C92: auto-mounted archives (core/ratarmountcore/mountsource/compositing/automount.py)

Lazy mounting (`_find_mounted`, 246-266) mounts archives first and then searches like `_simply_find_mounted`; the
functions here are what happens in the state after that.
-/

namespace Verif.Compose

open Verif.Py Verif.Index

/-- `MountInfo` (automount.py:37-41). -/
structure MountInfo where
  source : Source
  root : FileInfo
  depth : Nat

/-- `self.mounted` (automount.py:64-66). -/
abbrev Mounted := Dict Str MountInfo

/-- The loop of `_simply_find_mounted` (automount.py:97-105). -/
def mountedLoop (keys : List Str) (path left : Str) (right : List Str) : Str × Str :=
  match _h : rsplit1 '/' left with
  | none => (['/'], path)                                                     -- 108
  | some (a, b) => if left ∈ keys then (left, '/' :: join '/' right) else mountedLoop keys path a (b :: right)
termination_by left.length
decreasing_by
  have := (rsplit1_some _h).1
  rw [this, List.length_append]
  simp only [List.length_cons]
  omega

/-- `_simply_find_mounted` (automount.py:94-108). -/
def findMounted (keys : List Str) (path : Str) : Str × Str := mountedLoop keys path path []

/-- `normalize_file_version` (automount.py:290-291). -/
def normalizeVersion (v : Int) (n : Nat) : Int := if 1 < n then ((v - 1) % n + 1) % n else v

/-- `versions` (automount.py:361-367). A missing key is a KeyError in Python; keys come from `findMounted`. -/
def aversions (st : Mounted) (path : Str) : Nat :=
  match st.get? (findMounted st.keys path).1, st.get? ['/'] with
  | some mi, some root =>
    mi.source.versions (findMounted st.keys path).2 +
      if (findMounted st.keys path).1 ≠ ['/'] ∧ (findMounted st.keys path).2 = ['/'] then root.source.versions path else 0
  | _, _ => 0

/-- `lookup` (automount.py:272-310). -/
def alookup (st : Mounted) (path : Str) (v : Int) : Option FileInfo :=
  match st.get? (findMounted st.keys path).1, st.get? ['/'] with
  | some mi, some root =>
    if normalizeVersion v (aversions st path) = 0 ∧ (findMounted st.keys path).2 = ['/'] then some mi.root         -- 297-298
    else
      let original : Nat :=
        if (findMounted st.keys path).1 ≠ ['/'] ∧ (findMounted st.keys path).2 = ['/'] then root.source.versions path else 0
      if aversions st path ≤ 1 ∨ (findMounted st.keys path).2 ≠ ['/'] ∨ normalizeVersion v (aversions st path) = 0 ∨
          (original : Int) < normalizeVersion v (aversions st path) then                                              -- 300
        (mi.source.lookup (findMounted st.keys path).2 (normalizeVersion v (aversions st path) - original)).map
          (fun i => i.push (.str (findMounted st.keys path).1))
      else (root.source.lookup path (normalizeVersion v (aversions st path) % original)).map (fun i => i.push (.str ['/']))
  | _, _ => none

/-- `os.path.split` (Python library, used at automount.py:329). -/
def osSplit (p : Str) : Str × Str :=
  match rsplit1 '/' p with
  | none => ([], p)
  | some (a, b) => (if rstrip '/' (a ++ ['/']) = [] then a ++ ['/'] else rstrip '/' (a ++ ['/']), b)

/-- `_append_mount_points` (automount.py:312-345) for `list`. `always` says whether mount points may have other names than their
archives (automount.py:323-327). The set at 317 is a list here; the code only adds names that are not in it. -/
def appendPoints (always : Bool) (st : Mounted) (path : Str) (files : Option (Listing FileInfo)) : Option (Listing FileInfo) :=
  match files with
  | none => none
  | some (.dict d) =>
    if d.isEmpty then none
    else some (.dict (st.foldl (fun d m => if (osSplit m.1).1 = path ∧ (osSplit m.1).2 ≠ [] then d.set (osSplit m.1).2 m.2.root else d) d))
  | some (.names l) =>
    if l.isEmpty then none
    else if always then
      some (.names (st.foldl (fun l m => if (osSplit m.1).1 = path ∧ (osSplit m.1).2 ≠ [] ∧ (osSplit m.1).2 ∉ l then l ++ [(osSplit m.1).2] else l) l))
    else some (.names l)

/-- `list` (automount.py:347-352). -/
def alist (always : Bool) (st : Mounted) (path : Str) : Option (Listing FileInfo) :=
  match st.get? (findMounted st.keys path).1 with
  | none => none
  | some mi => appendPoints always st path (mi.source.list (findMounted st.keys path).2)

/-- What `_try_to_mount_file` depends on: the recursion limit; the mount point of an archive (139-151, none if the name is
not that of an archive); the recursion depth of members that were indexed recursively (automount.py:118-123); whether the
TAR source already shows the contents (automount.py:164-175); opening the archive, none for an exception (automount.py:177-231). -/
structure AutoConfig where
  maxDepth : Nat
  point : Str → Option Str
  inner : FileInfo → Nat
  skip : Source → FileInfo → Bool
  openFile : Source → FileInfo → Option Source

/-- `create_folder_from_file_permissions` (utils.py:412-419). -/
def folderMode (mode : Nat) : Nat :=
  (mode &&& 0o777) ||| 0o40000 ||| (if mode &&& 0o400 ≠ 0 then 0o100 else 0) ||| (if mode &&& 0o040 ≠ 0 then 0o010 else 0) |||
    (if mode &&& 0o004 ≠ 0 then 0o001 else 0)

/-- `_try_to_mount_file` (automount.py:128-244) with `get_recursion_depth` (automount.py:110-126). If the file does not exist nothing is mounted
(161-162). -/
def tryMount (cfg : AutoConfig) (st : Mounted) (path : Str) : Mounted :=
  match st.get? (findMounted st.keys path).1 with
  | none => st
  | some parent =>
    match parent.source.lookup (findMounted st.keys path).2 0 with
    | none => st
    | some info =>
      if cfg.maxDepth < parent.depth + (cfg.inner info + 1) then st                                          -- 135-137
      else match cfg.point path with
        | none => st
        | some mp =>
          if st.has mp then st                                                                                -- 152-153
          else if cfg.skip parent.source info then st
          else match cfg.openFile parent.source info with
            | none => st
            | some src =>
              st.set mp ⟨src, ⟨folderMode info.mode, [], info.rest, [.str mp]⟩, parent.depth + (cfg.inner info + 1)⟩   -- 233-241

/-- The states that mounting, eager (automount.py:71-92) or lazy, can reach. -/
inductive Reached (cfg : AutoConfig) (root : Source) (rootInfo : FileInfo) : Mounted → Prop where
  | init : Reached cfg root rootInfo [(['/'], ⟨root, rootInfo.push (.str ['/']), 0⟩)]
  | step (st : Mounted) (path : Str) : Reached cfg root rootInfo st → Reached cfg root rootInfo (tryMount cfg st path)

/-! ## C40 -/

theorem mountedLoop_some (keys : List Str) (path left : Str) (right : List Str) (a b : Str) (h : rsplit1 '/' left = some (a, b)) :
    mountedLoop keys path left right = if left ∈ keys then (left, '/' :: join '/' right) else mountedLoop keys path a (b :: right) := by
  rw [mountedLoop]
  split
  · next h' => rw [h] at h'; cases h'
  · next h' => rw [h] at h'; cases h'; rfl

theorem mountedLoop_nil (keys : List Str) (path : Str) (right : List Str) : mountedLoop keys path [] right = (['/'], path) := by
  rw [mountedLoop]
  rfl

theorem mountedLoop_canonical (keys : List Str) (path : Str) (a : List Str) (ha : ∀ n ∈ a, IsName n) :
    ∀ (m : Nat) (mid right : List Str), mid.length = m → (∀ n ∈ mid, IsName n) →
      (∀ x, x <+: mid → x ≠ [] → canonical (a ++ x) ∉ keys) → (a ≠ [] → canonical a ∈ keys) →
      mountedLoop keys path (prefixPath (a ++ mid)) right =
        if a = [] then (['/'], path) else (canonical a, '/' :: join '/' (mid ++ right)) := by
  intro m
  induction m with
  | zero =>
    intro mid right hl _ _ hak
    have hm : mid = [] := List.length_eq_zero_iff.mp hl
    subst hm
    rw [List.append_nil, List.nil_append]
    rcases split_last a with rfl | ⟨par, name, rfl⟩
    · rw [if_pos rfl, show prefixPath [] = [] from rfl, mountedLoop_nil]
    · have hne : par ++ [name] ≠ [] := by simp
      rw [if_neg hne, show prefixPath (par ++ [name]) = canonical (par ++ [name]) from if_neg hne,
        mountedLoop_some keys path _ right (prefixPath par) name (by
          rw [canonical_append, rsplit1_append _ _ (ha name (by simp)).2.1]; rfl), if_pos (hak hne)]
  | succ m ih =>
    intro mid right hl hmid hno hak
    rcases split_last mid with rfl | ⟨mid', name, rfl⟩
    · simp at hl
    · have hne : a ++ (mid' ++ [name]) ≠ [] := by simp
      rw [show prefixPath (a ++ (mid' ++ [name])) = canonical (a ++ (mid' ++ [name])) from if_neg hne,
        mountedLoop_some keys path _ right (prefixPath (a ++ mid')) name (by
          rw [← List.append_assoc, canonical_append, rsplit1_append _ _ (hmid name (by simp)).2.1]; rfl),
        if_neg (hno _ (List.prefix_refl _) (by simp)),
        ih mid' (name :: right) (by simp at hl; exact hl) (fun n hn => hmid n (by simp [hn]))
          (fun x hx hx' => hno x (hx.trans (List.prefix_append _ _)) hx') hak]
      simp

/-- **C40**: the mount point found is the longest one that is the path or a folder above it, component by component, and
the rest of the path is what follows. -/
theorem C40_longest (keys : List Str) (a b : List Str) (h : ∀ n ∈ a ++ b, IsName n) (hk : canonical a ∈ keys)
    (hlong : ∀ x, x <+: b → x ≠ [] → canonical (a ++ x) ∉ keys) :
    findMounted keys (canonical (a ++ b)) = (canonical a, canonical b) := by
  unfold findMounted
  have ha : ∀ n ∈ a, IsName n := fun n hn => h n (by simp [hn])
  have hb : ∀ n ∈ b, IsName n := fun n hn => h n (by simp [hn])
  by_cases hab : a ++ b = []
  · obtain ⟨rfl, rfl⟩ := List.append_eq_nil_iff.mp hab
    rw [show canonical ([] ++ []) = ['/'] from rfl, mountedLoop_some keys _ ['/'] [] [] [] (by rfl), if_pos (show ['/'] ∈ keys from hk)]
    rfl
  · have e : canonical (a ++ b) = prefixPath (a ++ b) := by unfold prefixPath; rw [if_neg hab]
    rw [show mountedLoop keys (canonical (a ++ b)) (canonical (a ++ b)) [] =
      mountedLoop keys (canonical (a ++ b)) (prefixPath (a ++ b)) [] from by rw [e],
      mountedLoop_canonical keys (canonical (a ++ b)) a ha b.length b [] rfl hb hlong (fun _ => hk), List.append_nil]
    split
    · next ha0 => subst ha0; rfl
    · rw [← canonical_eq]

/-- There always is such a mount point. -/
theorem exists_longest (keys : List Str) (hroot : ['/'] ∈ keys) (cs : List Str) :
    ∃ a b, cs = a ++ b ∧ canonical a ∈ keys ∧ ∀ x, x <+: b → x ≠ [] → canonical (a ++ x) ∉ keys := by
  have key : ∀ (b : List Str) (a : List Str), canonical a ∈ keys →
      ∃ a' b', a ++ b = a' ++ b' ∧ canonical a' ∈ keys ∧ ∀ x, x <+: b' → x ≠ [] → canonical (a' ++ x) ∉ keys := by
    intro b
    induction hl : b.length using Nat.strongRecOn generalizing b with
    | _ n ih =>
      intro a ha
      by_cases h : ∀ x, x <+: b → x ≠ [] → canonical (a ++ x) ∉ keys
      · exact ⟨a, b, rfl, ha, h⟩
      · simp only [Classical.not_forall, Classical.not_not] at h
        obtain ⟨x, ⟨y, rfl⟩, hx, hk⟩ := h
        have hlt : y.length < n := by
          have : 0 < x.length := List.length_pos_iff.mpr hx
          rw [← hl, List.length_append]
          omega
        obtain ⟨a', b', h1, h2, h3⟩ := ih y.length hlt y rfl (a ++ x) hk
        exact ⟨a', b', by rw [← h1, List.append_assoc], h2, h3⟩
  obtain ⟨a, b, h1, h2, h3⟩ := key cs [] hroot
  exact ⟨a, b, by simpa using h1, h2, h3⟩

theorem normalize_mod (v : Int) (n : Nat) (h : 1 < n) : normalizeVersion v n = v % n := by
  unfold normalizeVersion
  rw [if_pos h, Int.emod_add_emod]
  congr 1
  omega

theorem normalize_eq (v : Int) (n : Nat) : normalizeVersion v n = if 1 < n then v % n else v := by
  split
  · next h => exact normalize_mod v n h
  · next h => simp only [normalizeVersion, if_neg h]

/-- **C40**, what is served: below the mount point everything comes from the source mounted there; version numbers are
counted from the end if they are negative, if there are several versions. -/
theorem C40_serves (st : Mounted) (hroot : st.has ['/'] = true) (a b : List Str) (h : ∀ n ∈ a ++ b, IsName n) (mi : MountInfo)
    (hk : st.get? (canonical a) = some mi) (hlong : ∀ x, x <+: b → x ≠ [] → canonical (a ++ x) ∉ st.keys) (hb : b ≠ []) (v : Int) :
    aversions st (canonical (a ++ b)) = mi.source.versions (canonical b) ∧
    alookup st (canonical (a ++ b)) v =
      (mi.source.lookup (canonical b) (if 1 < mi.source.versions (canonical b) then v % mi.source.versions (canonical b) else v)).map
        (fun i => i.push (.str (canonical a))) := by
  rw [← normalize_eq]
  obtain ⟨root, hr⟩ := Option.isSome_iff_exists.mp (show (st.get? ['/']).isSome = true from hroot)
  have hf := C40_longest st.keys a b h ((Dict.mem_keys_iff st _).mpr (by rw [hk]; rfl)) hlong
  have hb' : canonical b ≠ ['/'] := by
    intro e
    exact hb (canonical_inj b [] (fun n hn => h n (by simp [hn])) (by simp) e)
  have hv : aversions st (canonical (a ++ b)) = mi.source.versions (canonical b) := by
    unfold aversions
    rw [hf]
    simp only [hk, hr, hb', and_false, if_false, Nat.add_zero]
  refine ⟨hv, ?_⟩
  unfold alookup
  rw [hv, hf]
  simp only [hk, hr, hb', and_false, if_false, ne_eq, not_false_eq_true, true_or, or_true, if_true]
  congr 2
  show _ - ((0 : Nat) : Int) = _
  omega

/-! ## C41 -/

theorem normalize_range (v : Int) (n : Nat) (h : 1 < n) : 0 ≤ normalizeVersion v n ∧ normalizeVersion v n < n := by
  unfold normalizeVersion
  rw [if_pos h]
  exact ⟨Int.emod_nonneg _ (by omega), Int.emod_lt_of_pos _ (by omega)⟩

/-- **C41**, periodicity: version numbers that differ by a multiple of the number of versions are the same, for every path. -/
theorem C41_periodic (st : Mounted) (path : Str) (v k : Int) (h : 1 < aversions st path) :
    alookup st path (v + k * aversions st path) = alookup st path v := by
  have e : normalizeVersion (v + k * aversions st path) (aversions st path) = normalizeVersion v (aversions st path) := by
    rw [normalize_mod _ _ h, normalize_mod _ _ h, Int.add_mul_emod_self_right]
  unfold alookup
  rw [e]

theorem mount_point_found (keys : List Str) (a : List Str) (ha : ∀ n ∈ a, IsName n) (hk : canonical a ∈ keys) :
    findMounted keys (canonical a) = (canonical a, ['/']) := by
  have := C40_longest keys a [] (by simpa using ha) hk (by
    intro x hx hne
    exact absurd (List.prefix_nil.mp hx) hne)
  rw [List.append_nil] at this
  exact this

/-- **C41**, the mount point of an archive: the number of versions includes the versions of the archive in the root source;
version 0 is the folder with the contents; the versions of the archive come first, the latest one last; then come
older versions of the root folder of the contents. -/
theorem C41_mount_point (st : Mounted) (a : List Str) (ha : ∀ n ∈ a, IsName n) (hne : a ≠ []) (mi root : MountInfo)
    (hk : st.get? (canonical a) = some mi) (hr : st.get? ['/'] = some root) :
    aversions st (canonical a) = mi.source.versions ['/'] + root.source.versions (canonical a) ∧
    alookup st (canonical a) 0 = some mi.root ∧
    (0 < mi.source.versions ['/'] → ∀ w : Nat, 0 < w → w ≤ root.source.versions (canonical a) →
      alookup st (canonical a) w =
        (root.source.lookup (canonical a) (if w = root.source.versions (canonical a) then 0 else w)).map (fun i => i.push (.str ['/']))) ∧
    (∀ w : Nat, 0 < w → w < mi.source.versions ['/'] →
      alookup st (canonical a) (root.source.versions (canonical a) + w) =
        (mi.source.lookup ['/'] w).map (fun i => i.push (.str (canonical a)))) := by
  have hf := mount_point_found st.keys a ha ((Dict.mem_keys_iff st _).mpr (by rw [hk]; rfl))
  have hne' : canonical a ≠ ['/'] := fun e => hne (canonical_inj a [] ha (by simp) e)
  have hv : aversions st (canonical a) = mi.source.versions ['/'] + root.source.versions (canonical a) := by
    unfold aversions
    rw [hf]
    simp only [hk, hr, hne', ne_eq, not_false_eq_true, and_self, if_true]
  have h0 : ∀ n, normalizeVersion 0 n = 0 := by
    intro n
    by_cases h : 1 < n
    · rw [normalize_mod _ _ h]; simp
    · unfold normalizeVersion; rw [if_neg h]
  refine ⟨hv, ?_, ?_, ?_⟩
  · unfold alookup
    rw [hf]
    simp only [hk, hr, h0, and_self, if_true]
  · intro hpos w hw hle
    have hn : 1 < aversions st (canonical a) := by omega
    have hwn : normalizeVersion w (aversions st (canonical a)) = w := by
      rw [normalize_mod _ _ hn]
      exact Int.emod_eq_of_lt (by omega) (by omega)
    unfold alookup
    rw [hf]
    simp only [hk, hr, hwn, hne', ne_eq, not_false_eq_true, and_self, if_true, and_true, not_true_eq_false, false_or]
    rw [if_neg (by omega), if_neg (by omega)]
    congr 2
    split
    · next e => rw [e, Int.emod_self]
    · rw [Int.emod_eq_of_lt (by omega) (by omega)]
  · intro w hw hlt
    have hn : 1 < aversions st (canonical a) := by omega
    have hwn : normalizeVersion (root.source.versions (canonical a) + w) (aversions st (canonical a)) =
        root.source.versions (canonical a) + w := by
      rw [normalize_mod _ _ hn]
      exact Int.emod_eq_of_lt (by omega) (by omega)
    unfold alookup
    rw [hf]
    simp only [hk, hr, hwn, hne', ne_eq, not_false_eq_true, and_self, if_true, and_true, not_true_eq_false, false_or]
    rw [if_neg (by omega), if_pos (by omega)]
    congr 2
    omega

/-- The full statement of C41 about reachability: if an archive is mounted over itself, every version of the archive
file, in whatever source it is, is some version of the mount point. -/
def C41_statement : Prop :=
  ∀ (cfg : AutoConfig) (root : Source) (ri : FileInfo) (st : Mounted) (a : List Str) (parent : MountInfo) (i : FileInfo) (w : Nat),
    Reached cfg root ri st → (∀ n ∈ a, IsName n) → cfg.point (canonical a) = some (canonical a) →
    st.has (canonical a) = false → (tryMount cfg st (canonical a)).has (canonical a) = true →
    st.get? (findMounted st.keys (canonical a)).1 = some parent →
    0 < w → w < parent.source.versions (findMounted st.keys (canonical a)).2 →
    parent.source.lookup (findMounted st.keys (canonical a)).2 w = some i →
    ∃ v, alookup (tryMount cfg st (canonical a)) (canonical a) v = some (i.push (.str (findMounted st.keys (canonical a)).1))

/-- A source with two versions of one file. -/
def pairSource (name : Str) : Source where
  id := 0
  immutable := true
  lookup p v :=
    if p = ['/'] then some (rootInfo [.own 0])
    else if p = '/' :: name then
      (if v = 1 then some ⟨0o100644, [], 0, [.own 1]⟩ else if v = 0 ∨ v = 2 then some ⟨0o100644, [], 0, [.own 2]⟩ else none)
    else none
  versions p := if p = ['/'] then 1 else if p = '/' :: name then 2 else 0
  list p := if p = ['/'] then some (.names [name]) else none
  listMode p := if p = ['/'] then some (.names [name]) else none

/-- Everything is mounted over itself; the archive `a` contains `b`. -/
def nestedConfig : AutoConfig := ⟨5, fun p => some p, fun _ => 0, fun _ _ => false, fun _ _ => some (pairSource ['b'])⟩

/-- The state after the archive `/a` was mounted. -/
def nestedState : Mounted := tryMount nestedConfig [(['/'], ⟨pairSource ['a'], (rootInfo [.own 0]).push (.str ['/']), 0⟩)] "/a".toList

theorem nestedState_eq : nestedState = [(['/'], ⟨pairSource ['a'], (rootInfo [.own 0]).push (.str ['/']), 0⟩),
    ("/a".toList, ⟨pairSource ['b'], ⟨0o40755, [], 0, [.str "/a".toList]⟩, 1⟩)] := by
  unfold nestedState tryMount
  rw [show findMounted (Dict.keys [(['/'], (⟨pairSource ['a'], (rootInfo [.own 0]).push (.str ['/']), 0⟩ : MountInfo))]) "/a".toList =
    (['/'], "/a".toList) from by decide +kernel]
  rfl

theorem nested_found : findMounted nestedState.keys (canonical [['a'], ['b']]) = ("/a".toList, "/b".toList) := by decide +kernel

theorem nested_mounted : tryMount nestedConfig nestedState (canonical [['a'], ['b']]) =
    [(['/'], ⟨pairSource ['a'], (rootInfo [.own 0]).push (.str ['/']), 0⟩),
      ("/a".toList, ⟨pairSource ['b'], ⟨0o40755, [], 0, [.str "/a".toList]⟩, 1⟩),
      ("/a/b".toList, ⟨pairSource ['b'], ⟨0o40755, [], 0, [.str "/a/b".toList]⟩, 2⟩)] := by
  unfold tryMount
  rw [nested_found, nestedState_eq]
  rfl

/-- **C41 is violated by the code**: the older version of an archive inside of another archive cannot be reached. -/
theorem C41_violated : ¬ C41_statement := by
  intro h
  obtain ⟨v, hv⟩ := h nestedConfig (pairSource ['a']) (rootInfo [.own 0]) nestedState [['a'], ['b']]
    ⟨pairSource ['b'], ⟨0o40755, [], 0, [.str "/a".toList]⟩, 1⟩ ⟨0o100644, [], 0, [.own 1]⟩ 1
    (.step _ _ .init) (by intro n hn; simp at hn; rcases hn with rfl | rfl <;> (unfold IsName; decide)) rfl (by decide +kernel)
    (by decide +kernel) (by rw [nested_found, nestedState_eq]; rfl) (by decide) (by decide +kernel) (by decide +kernel)
  have hn : aversions (tryMount nestedConfig nestedState (canonical [['a'], ['b']])) (canonical [['a'], ['b']]) = 1 := by decide +kernel
  have hf : findMounted (tryMount nestedConfig nestedState (canonical [['a'], ['b']])).keys (canonical [['a'], ['b']]) =
      ("/a/b".toList, ['/']) := by decide +kernel
  have hg1 : (tryMount nestedConfig nestedState (canonical [['a'], ['b']])).get? "/a/b".toList =
      some ⟨pairSource ['b'], ⟨0o40755, [], 0, [.str "/a/b".toList]⟩, 2⟩ := by rw [nested_mounted]; rfl
  have hg2 : (tryMount nestedConfig nestedState (canonical [['a'], ['b']])).get? ['/'] =
      some ⟨pairSource ['a'], (rootInfo [.own 0]).push (.str ['/']), 0⟩ := by rw [nested_mounted]; rfl
  rw [nested_found] at hv
  unfold alookup at hv
  rw [hn, hf] at hv
  simp only [hg1, hg2] at hv
  split at hv
  · simp [FileInfo.push] at hv
  · rw [if_pos (by left; decide)] at hv
    rw [show ∀ x, (pairSource ['b']).lookup ['/'] x = some (rootInfo [.own 0]) from fun x => rfl] at hv
    simp [FileInfo.push, rootInfo] at hv

/-! ## C91 -/

/-- The sources inside of a source: contents of the archives in it, with the number of archives around them. -/
inductive Contained (openFile : Source → FileInfo → Option Source) (root : Source) : Source → Nat → Prop where
  | root : Contained openFile root root 0
  | archive (s t : Source) (k : Nat) (p : Str) (i : FileInfo) : Contained openFile root s k → s.lookup p 0 = some i →
      openFile s i = some t → Contained openFile root t (k + 1)

theorem tryMount_cases (cfg : AutoConfig) (st : Mounted) (path : Str) :
    tryMount cfg st path = st ∨
    ∃ parent info mp src, st.get? (findMounted st.keys path).1 = some parent ∧
      parent.source.lookup (findMounted st.keys path).2 0 = some info ∧ parent.depth + (cfg.inner info + 1) ≤ cfg.maxDepth ∧
      cfg.point path = some mp ∧ st.has mp = false ∧ cfg.openFile parent.source info = some src ∧
      tryMount cfg st path = st.set mp ⟨src, ⟨folderMode info.mode, [], info.rest, [.str mp]⟩, parent.depth + (cfg.inner info + 1)⟩ := by
  unfold tryMount
  cases h1 : st.get? (findMounted st.keys path).1 with
  | none => exact .inl rfl
  | some parent =>
    simp only
    cases h2 : parent.source.lookup (findMounted st.keys path).2 0 with
    | none => exact .inl rfl
    | some info =>
      simp only
      by_cases h3 : cfg.maxDepth < parent.depth + (cfg.inner info + 1)
      · rw [if_pos h3]; exact .inl rfl
      · rw [if_neg h3]
        cases h4 : cfg.point path with
        | none => exact .inl rfl
        | some mp =>
          simp only
          cases h5 : st.has mp with
          | true => exact .inl rfl
          | false =>
            simp only [Bool.false_eq_true, if_false]
            cases h6 : cfg.skip parent.source info with
            | true => exact .inl rfl
            | false =>
              simp only [Bool.false_eq_true, if_false]
              cases h7 : cfg.openFile parent.source info with
              | none => exact .inl rfl
              | some src => exact .inr ⟨parent, info, mp, src, rfl, h2, by omega, rfl, h5, h7, rfl⟩

/-- **C91**: in every state that can be reached, every mounted archive lies inside at most as many archives as the recursion
limit allows, is opened from a file of the source it lies in, and the root stays as it was. -/
theorem C91_depth (cfg : AutoConfig) (root : Source) (ri : FileInfo) (st : Mounted) (h : Reached cfg root ri st) :
    st.get? ['/'] = some ⟨root, ri.push (.str ['/']), 0⟩ ∧
    ∀ mp mi, st.get? mp = some mi → ∃ k, Contained cfg.openFile root mi.source k ∧ k ≤ cfg.maxDepth ∧ (mp ≠ ['/'] → 0 < k) := by
  have key : st.get? ['/'] = some ⟨root, ri.push (.str ['/']), 0⟩ ∧
      ∀ mp mi, st.get? mp = some mi → mi.depth ≤ cfg.maxDepth ∧ ∃ k, Contained cfg.openFile root mi.source k ∧ k ≤ mi.depth ∧
        (mp ≠ ['/'] → 0 < k) := by
    induction h with
    | init =>
      refine ⟨rfl, ?_⟩
      intro mp mi hg
      simp only [Dict.get?] at hg
      split at hg
      · next e => cases hg; exact ⟨Nat.zero_le _, 0, .root, Nat.le_refl _, fun hn => absurd e.symm hn⟩
      · cases hg
    | step st path _ ih =>
      rcases tryMount_cases cfg st path with e | ⟨parent, info, mp, src, h1, h2, h3, h4, h5, h6, e⟩
      · rw [e]; exact ih
      · rw [e]
        have hmp : mp ≠ ['/'] := by
          rintro rfl
          unfold Dict.has at h5
          rw [ih.1] at h5
          cases h5
        refine ⟨by rw [Dict.get?_set, if_neg hmp]; exact ih.1, ?_⟩
        intro mp' mi hg
        rw [Dict.get?_set] at hg
        split at hg
        · cases hg
          obtain ⟨-, k, hc, hk, -⟩ := ih.2 _ _ h1
          exact ⟨h3, k + 1, .archive _ _ k _ _ hc h2 h6, by simp only; omega, fun _ => by omega⟩
        · exact ih.2 _ _ hg
  refine ⟨key.1, ?_⟩
  intro mp mi hg
  obtain ⟨h1, k, hc, hk, h0⟩ := key.2 mp mi hg
  exact ⟨k, hc, by omega, h0⟩

/-- **C41**, reachability, for archives in the root source: see `C41_mount_point`. Missing from the full claim: archives inside
of archives. -/
theorem C41_reachable_partial (cfg : AutoConfig) (root : Source) (ri : FileInfo) (st : Mounted) (hst : Reached cfg root ri st)
    (a : List Str) (ha : ∀ n ∈ a, IsName n) (hne : a ≠ []) (mi : MountInfo) (hk : st.get? (canonical a) = some mi)
    (hpos : 0 < mi.source.versions ['/']) (w : Nat) (i : FileInfo)
    (hw : 0 < w) (hlt : w < root.versions (canonical a)) (hi : root.lookup (canonical a) w = some i) :
    ∃ v, alookup st (canonical a) v = some (i.push (.str ['/'])) := by
  have hr := (C91_depth cfg root ri st hst).1
  have := (C41_mount_point st a ha hne mi _ hk hr).2.2.1 hpos w hw (by simp only; omega)
  refine ⟨w, ?_⟩
  rw [this, if_neg (by simp only; omega), hi]
  rfl

/-- **C91**: what is mounted stays mounted; mounting something else never replaces it. -/
theorem C91_kept (cfg : AutoConfig) (st : Mounted) (path mp : Str) (mi : MountInfo) (h : st.get? mp = some mi) :
    (tryMount cfg st path).get? mp = some mi := by
  rcases tryMount_cases cfg st path with e | ⟨parent, info, mp', src, -, -, -, -, h5, -, e⟩
  · rw [e]; exact h
  · rw [e, Dict.get?_set, if_neg]
    · exact h
    · rintro rfl
      unfold Dict.has at h5
      rw [h] at h5
      cases h5

/-- **C91**, no recursion: with a limit of 0 nothing is ever mounted. -/
theorem C91_off (cfg : AutoConfig) (hmax : cfg.maxDepth = 0) (root : Source) (ri : FileInfo) (st : Mounted) (h : Reached cfg root ri st) :
    st = [(['/'], ⟨root, ri.push (.str ['/']), 0⟩)] := by
  induction h with
  | init => rfl
  | step st path _ ih =>
    rcases tryMount_cases cfg st path with e | ⟨parent, info, mp, src, h1, h2, h3, h4, h5, h6, e⟩
    · rw [e]; exact ih
    · omega

/-- A case of C91: two nested archives are mounted with limit 5, and none of them is the root. -/
example : (tryMount nestedConfig nestedState "/a/b".toList).keys = [['/'], "/a".toList, "/a/b".toList] := by decide +kernel

/-! ## C92 -/

theorem osSplit_canonical (cs : List Str) (n : Str) (hcs : ∀ x ∈ cs, IsName x) (hn : IsName n) :
    osSplit (canonical (cs ++ [n])) = (canonical cs, n) := by
  unfold osSplit
  rw [canonical_append, rsplit1_append _ _ hn.2.1]
  cases cs with
  | nil => rfl
  | cons c cs =>
    have e : (if (c :: cs) = [] then [] else canonical (c :: cs)) = canonical (c :: cs) := if_neg (by simp)
    simp only [e]
    have hlast : (canonical (c :: cs)).getLast? ≠ some '/' := by
      rw [canonical_eq, List.getLast?_cons]
      have := getLast_join (c :: cs) (by simp) hcs
      cases hj : (join '/' (c :: cs)).getLast? with
      | none =>
        have e := List.getLast?_eq_none_iff.mp hj
        have hs := split_join '/' (c :: cs) (by simp) (fun n hn => (hcs n hn).2.1)
        rw [e] at hs
        simp only [split, List.cons.injEq] at hs
        exact absurd hs.1.symm (hcs c (by simp)).1
      | some x => rw [hj] at this; simpa using this
    have hr : rstrip '/' (canonical (c :: cs) ++ ['/']) = canonical (c :: cs) := by
      unfold rstrip
      rw [List.reverse_append]
      simp only [List.reverse_cons, List.reverse_nil, List.nil_append, List.singleton_append]
      rw [List.dropWhile_cons_of_pos (by simp)]
      cases hs : (canonical (c :: cs)).reverse with
      | nil =>
        have := congrArg List.length hs
        simp [canonical_eq] at this
      | cons x xs =>
        have hx : (canonical (c :: cs)).getLast? = some x := by rw [← List.head?_reverse, hs]; rfl
        rw [List.dropWhile_cons_of_neg]
        · rw [← hs, List.reverse_reverse]
        · rw [hx] at hlast; simpa using hlast
    rw [hr, if_neg (by simp [canonical_eq])]

/-- All mount points are canonical paths. Without transformations of the mount points the code ensures it: they are paths of
archives, possibly without their suffix. -/
def CanonicalKeys (st : Mounted) : Prop := ∀ k ∈ st.keys, ∃ cs : List Str, (∀ n ∈ cs, IsName n) ∧ k = canonical cs

theorem osSplit_key {k : Str} {ks cs : List Str} {n : Str} (hks : ∀ x ∈ ks, IsName x) (hk : k = canonical ks)
    (hcs : ∀ x ∈ cs, IsName x) (hn : IsName n) :
    ((osSplit k).1 = canonical cs ∧ (osSplit k).2 ≠ [] ∧ (osSplit k).2 = n) ↔ k = canonical (cs ++ [n]) := by
  constructor
  · rintro ⟨h1, h2, h3⟩
    rcases split_last ks with rfl | ⟨par, m, rfl⟩
    · subst hk
      exact absurd rfl h2
    · have hp : ∀ x ∈ par, IsName x := fun x hx => hks x (by simp [hx])
      rw [hk, osSplit_canonical par m hp (hks m (by simp))] at h1 h3
      have := canonical_inj par cs hp hcs h1
      rw [hk, this]
      simp only at h3
      rw [h3]
  · intro h
    rw [h, osSplit_canonical cs n hcs hn]
    exact ⟨rfl, hn.1, rfl⟩

/-- **C92**, listings with metadata: the archives mounted in a folder are listed as folders, with the metadata that looking
them up returns; all other entries are as the source lists them. Missing from the full claim: folders whose source
lists nothing, see `C92_violated`. -/
theorem C92_listing_partial (always : Bool) (st : Mounted) (hc : CanonicalKeys st) (hnd : st.keys.Nodup) (cs : List Str)
    (hcs : ∀ x ∈ cs, IsName x) (d : Dict Str FileInfo) (hd : d ≠ []) :
    ∃ d', appendPoints always st (canonical cs) (some (.dict d)) = some (.dict d') ∧
      ∀ n, IsName n → Dict.get? d' n =
        match st.get? (canonical (cs ++ [n])) with
        | some mi => some mi.root
        | none => d.get? n := by
  unfold appendPoints
  simp only
  rw [if_neg (by cases d with | nil => exact absurd rfl hd | cons _ _ => simp)]
  refine ⟨_, rfl, ?_⟩
  intro n hn
  have key : ∀ (l : Mounted) (d : Dict Str FileInfo), CanonicalKeys l → l.keys.Nodup →
      Dict.get? (l.foldl (fun d m => if (osSplit m.1).1 = canonical cs ∧ (osSplit m.1).2 ≠ [] then d.set (osSplit m.1).2 m.2.root else d) d) n =
        match l.get? (canonical (cs ++ [n])) with
        | some mi => some mi.root
        | none => d.get? n := by
    intro l
    induction l with
    | nil => intro d _ _; rfl
    | cons m l ih =>
      intro d hc hnd
      obtain ⟨k, mi⟩ := m
      rw [Dict.keys_cons, List.nodup_cons] at hnd
      have hc' : CanonicalKeys l := fun k hk => hc k (by rw [Dict.keys_cons]; exact List.mem_cons_of_mem _ hk)
      rw [List.foldl_cons, ih _ hc' hnd.2]
      obtain ⟨ks, hks, hk⟩ := hc k (by rw [Dict.keys_cons]; simp)
      have hiff := osSplit_key hks hk hcs hn
      simp only [Dict.get?]
      by_cases hkn : k = canonical (cs ++ [n])
      · rw [if_pos hkn]
        obtain ⟨h1, h2, h3⟩ := hiff.mpr hkn
        have hno : Dict.get? l (canonical (cs ++ [n])) = none := by
          cases hg : Dict.get? l (canonical (cs ++ [n])) with
          | none => rfl
          | some x => exact absurd ((Dict.mem_keys_iff l _).mpr (by rw [hg]; rfl)) (hkn ▸ hnd.1)
        rw [hno, if_pos ⟨h1, h2⟩]
        simp only [Dict.get?_set, h3, if_true]
      · rw [if_neg hkn]
        have hsame : Dict.get? (if (osSplit k).1 = canonical cs ∧ (osSplit k).2 ≠ [] then d.set (osSplit k).2 mi.root else d) n = d.get? n := by
          split
          · next h =>
            rw [Dict.get?_set, if_neg]
            intro e
            exact hkn (hiff.mp ⟨h.1, h.2, e⟩)
          · rfl
        cases Dict.get? l (canonical (cs ++ [n])) with
        | some x => rfl
        | none => exact hsame
  exact key st d hc hnd

/-- **C92**, folders in mounted archives: the listing of the folder `b` of the archive mounted at `a` consists of what this archive has
in the folder and of the archives mounted in it. -/
theorem C92_inside_partial (always : Bool) (st : Mounted) (hc : CanonicalKeys st) (hnd : st.keys.Nodup) (a b : List Str)
    (hab : ∀ x ∈ a ++ b, IsName x) (mi : MountInfo) (hm : st.get? (canonical a) = some mi)
    (hlong : ∀ x, x <+: b → x ≠ [] → canonical (a ++ x) ∉ st.keys) (d : Dict Str FileInfo) (hd : d ≠ [])
    (hl : mi.source.list (canonical b) = some (.dict d)) :
    ∃ d', alist always st (canonical (a ++ b)) = some (.dict d') ∧
      ∀ n, IsName n → Dict.get? d' n =
        match st.get? (canonical (a ++ b ++ [n])) with
        | some mi => some mi.root
        | none => d.get? n := by
  have hk := C40_longest st.keys a b hab ((Dict.mem_keys_iff st _).mpr (by rw [hm]; rfl)) hlong
  unfold alist
  rw [hk]
  simp only [hm, hl]
  exact C92_listing_partial always st hc hnd (a ++ b) hab d hd

/-- **C92**, listings of names, if mount points may have new names: exactly the names of the source and the archives mounted in
the folder. -/
theorem C92_names_partial (st : Mounted) (hc : CanonicalKeys st) (cs : List Str) (hcs : ∀ x ∈ cs, IsName x) (l : List Str)
    (hl : l ≠ []) :
    ∃ l', appendPoints true st (canonical cs) (some (.names l)) = some (.names l') ∧
      ∀ n, IsName n → (n ∈ l' ↔ n ∈ l ∨ st.has (canonical (cs ++ [n])) = true) := by
  unfold appendPoints
  simp only [if_true]
  rw [if_neg (by cases l with | nil => exact absurd rfl hl | cons _ _ => simp)]
  refine ⟨_, rfl, ?_⟩
  intro n hn
  have key : ∀ (st : Mounted) (l : List Str), CanonicalKeys st →
      (n ∈ st.foldl (fun l m => if (osSplit m.1).1 = canonical cs ∧ (osSplit m.1).2 ≠ [] ∧ (osSplit m.1).2 ∉ l then l ++ [(osSplit m.1).2] else l) l ↔
        n ∈ l ∨ st.has (canonical (cs ++ [n])) = true) := by
    intro st
    induction st with
    | nil => intro l _; simp [Dict.has]
    | cons m st ih =>
      intro l hc
      obtain ⟨k, mi⟩ := m
      have hc' : CanonicalKeys st := fun k hk => hc k (by rw [Dict.keys_cons]; exact List.mem_cons_of_mem _ hk)
      rw [List.foldl_cons, ih _ hc']
      obtain ⟨ks, hks, hk⟩ := hc k (by rw [Dict.keys_cons]; simp)
      have hiff := osSplit_key hks hk hcs hn
      have hhas : Dict.has ((k, mi) :: st) (canonical (cs ++ [n])) = true ↔ k = canonical (cs ++ [n]) ∨ Dict.has st (canonical (cs ++ [n])) = true := by
        unfold Dict.has
        simp only [Dict.get?]
        split
        · next e => simp [e]
        · next e => simp [e]
      rw [hhas]
      simp only
      by_cases hkn : k = canonical (cs ++ [n])
      · obtain ⟨h1, h2, h3⟩ := hiff.mpr hkn
        simp only [hkn, true_or, or_true, iff_true]
        rw [← hkn]
        by_cases hmem : n ∈ l
        · left
          split
          · exact List.mem_append_left _ hmem
          · exact hmem
        · left
          rw [if_pos ⟨h1, h2, by rw [h3]; exact hmem⟩, h3]
          simp
      · simp only [hkn, false_or]
        split
        · next h =>
          have : n ≠ (osSplit k).2 := fun e => hkn (hiff.mp ⟨h.1, h.2.1, e.symm⟩)
          simp [this]
        · rfl
  exact key st l hc

/-- The full statement of C92: every mounted archive is listed in the folder it is mounted in. -/
def C92_statement : Prop :=
  ∀ (cfg : AutoConfig) (always : Bool) (root : Source) (ri : FileInfo) (st : Mounted) (cs : List Str) (n : Str),
    Reached cfg root ri st → (∀ x ∈ cs, IsName x) → IsName n → st.has (canonical (cs ++ [n])) = true →
    ∃ l, alist always st (canonical cs) = some l ∧ n ∈ l.keys

/-- The archive `/a` is mounted at `/x/y`; the folder `/x` does not exist. -/
def movedConfig : AutoConfig := ⟨5, fun _ => some "/x/y".toList, fun _ => 0, fun _ _ => false, fun _ _ => some (pairSource ['b'])⟩

/-- **C92 is violated by the code**: an archive whose mount point was moved to a new folder cannot be reached. -/
theorem C92_violated : ¬ C92_statement := by
  intro h
  obtain ⟨l, hl, -⟩ := h movedConfig true (pairSource ['a']) (rootInfo [.own 0])
    (tryMount movedConfig [(['/'], ⟨pairSource ['a'], (rootInfo [.own 0]).push (.str ['/']), 0⟩)] "/a".toList) [['x']] ['y']
    (.step _ _ .init) (by intro n hn; simp at hn; subst hn; unfold IsName; decide) (by unfold IsName; decide) (by decide +kernel)
  have hf : findMounted (tryMount movedConfig [(['/'], ⟨pairSource ['a'], (rootInfo [.own 0]).push (.str ['/']), 0⟩)] "/a".toList).keys
      (canonical [['x']]) = (['/'], "/x".toList) := by decide +kernel
  have hg : (tryMount movedConfig [(['/'], ⟨pairSource ['a'], (rootInfo [.own 0]).push (.str ['/']), 0⟩)] "/a".toList).get? ['/'] =
      some ⟨pairSource ['a'], (rootInfo [.own 0]).push (.str ['/']), 0⟩ := C91_kept _ _ _ _ _ rfl
  unfold alist at hl
  rw [hf] at hl
  simp only [hg] at hl
  cases hl

/-- A case of `C92_listing_partial` and `C92_names_partial`. -/
example : nestedState.keys.Nodup ∧ nestedState.keys = [canonical [], canonical [['a']]] ∧
    (alist true nestedState ['/']).map (fun l => l.keys) = some [['a']] := by decide +kernel

end Verif.Compose
