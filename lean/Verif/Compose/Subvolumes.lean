import Verif.Compose.Versioning

/-!
# C38, C39, C90: sub-volumes (core/ratarmountcore/mountsource/compositing/subvolumes.py)

The recursive dictionary `self.mountSources` is a tree. Python changes the inner dictionaries in place; here the changed
tree is returned.
-/

namespace Verif.Compose

open Verif.Py Verif.Index

/-- A value of the recursive dictionary: a mount source or a folder (subvolumes.py:11-20). -/
inductive Node (σ : Type) where
  | mount (s : σ)
  | dir (d : List (Str × Node σ))

/-- A folder of the recursive dictionary (subvolumes.py:11-20). -/
abbrev Folder (σ : Type) := Dict Str (Node σ)

variable {σ : Type}

/-- `path.strip('/').split('/')` without the empty parts, which all loops skip (subvolumes.py:25-27, 75-77, 112-113). -/
def partsOf (path : Str) : List Str := (split '/' (stripSlashes path)).filter (fun p => !p.isEmpty)

/-- The folders created below a missing one (subvolumes.py:30-33). -/
def mkdirs : List Str → Node σ
  | [] => .dir []
  | p :: ps => .dir [(p, mkdirs ps)]

/-- `_get_by_path(path, create=True)` (subvolumes.py:22-35), the changed tree; `none` is the RatarmountError at 28-29. It is raised below
existing entries only, before anything is created. -/
def create : List Str → Node σ → Option (Node σ)
  | [], n => some n
  | _ :: _, .mount _ => none
  | p :: ps, .dir d =>
    match Dict.get? d p with
    | none => some (.dir (Dict.set d p (mkdirs ps)))
    | some n =>
      match create ps n with
      | none => none
      | some n' => some (.dir (Dict.set d p n'))

/-- The entry at a path (subvolumes.py:22-35, 73-86). -/
def walkTo : List Str → Node σ → Option (Node σ)
  | [], n => some n
  | _ :: _, .mount _ => none
  | p :: ps, .dir d =>
    match Dict.get? d p with
    | none => none
    | some n => walkTo ps n

/-- `folder[name] = target` for the folder at a path (subvolumes.py:61). -/
def putIn : List Str → Str → Node σ → Node σ → Node σ
  | _, _, _, .mount s => .mount s
  | [], name, n, .dir d => .dir (Dict.set d name n)
  | p :: ps, name, n, .dir d =>
    match Dict.get? d p with
    | none => .dir d
    | some n' => .dir (Dict.set d p (putIn ps name n n'))

/-- The normalised path (subvolumes.py:39, 50, 71). -/
def normStr (path : Str) : Str := '/' :: stripSlashes (posixNormpath ('/' :: path))

/-- `parent, name` (subvolumes.py:39, 50). -/
def parentName (path : Str) : Str × Str := (rsplit1 '/' (normStr path)).getD ([], [])

/-- `is_mountable` (subvolumes.py:37-44): the answer and the tree afterwards. -/
def isMountable (path : Str) (t : Node σ) : Bool × Node σ :=
  match create (partsOf (parentName path).1) t with
  | none => (false, t)
  | some t' =>
    match walkTo (partsOf (parentName path).1) t' with
    | some (.dir d) => (!(parentName path).2.isEmpty && !(Dict.has d (parentName path).2), t')
    | _ => (false, t')

/-- The result of `mount` (subvolumes.py:46-62). -/
inductive MountResult where
  | yes | no | error
  deriving DecidableEq, Repr

/-- `mount` (subvolumes.py:46-62). -/
def mountAt (path : Str) (s : σ) (t : Node σ) : MountResult × Node σ :=
  if (parentName path).2 = [] then (.error, t)                                 -- 51-52
  else match create (partsOf (parentName path).1) t with
    | none => (.no, t)                                                         -- 54-57
    | some t' =>
      match walkTo (partsOf (parentName path).1) t' with
      | some (.dir d) =>
        if Dict.has d (parentName path).2 then (.error, t')                    -- 59-60
        else (.yes, putIn (partsOf (parentName path).1) (parentName path).2 (.mount s) t')
      | _ => (.error, t')

/-- Removing the entry at a path and the parents that are empty then (subvolumes.py:93-99). Python goes from the inner to the outer
folders and stops at the first one that is not empty; folders further out contain that one, so they are not empty. -/
def prune : List Str → Folder σ → Folder σ
  | [], d => d
  | p :: ps, d =>
    match ps, Dict.get? d p with
    | [], _ => Dict.del d p
    | _ :: _, some (.dir d') => if (prune ps d').isEmpty then Dict.del d p else Dict.set d p (.dir (prune ps d'))
    | _ :: _, _ => d

/-- `unmount` (subvolumes.py:64-101). -/
def unmountAt (path : Str) (t : Node σ) : Option σ × Node σ :=
  match walkTo (partsOf (normStr path)) t with
  | some (.mount s) =>
    match t with
    | .dir d => (some s, .dir (prune (partsOf (normStr path)) d))
    | .mount _ => (none, t)
  | _ => (none, t)

/-- The loop of `_find_mount_source` (subvolumes.py:111-120): the parts so far and the remaining ones. -/
def findLoop (path : Str) : List Str → List Str → Folder σ → Option (Str × Str × Node σ)
  | _, [], d => some (path, [], .dir d)
  | done, part :: rest, d =>
    if part = [] then findLoop path (done ++ [part]) rest d
    else match Dict.get? d part with
      | none => none
      | some (.mount s) => some (join '/' (done ++ [part]), '/' :: join '/' rest, .mount s)
      | some (.dir d') => findLoop path (done ++ [part]) rest d'

/-- `_find_mount_source` (subvolumes.py:103-120). -/
def findMountSource (path : Str) (t : Node σ) : Option (Str × Str × Node σ) :=
  match t with
  | .mount _ => none
  | .dir d => findLoop path [] (split '/' (stripSlashes path)) d

/-- `lookup` (subvolumes.py:127-140). -/
def slookup (t : Node Source) (path : Str) (v : Int) : Option FileInfo :=
  match findMountSource path t with
  | none => none
  | some (_, _, .dir _) => some (rootInfo [.none])
  | some (sub, subpath, .mount s) => (s.lookup subpath v).map (fun i => i.push (.str sub))

/-- `versions` (subvolumes.py:143-152). -/
def sversions (t : Node Source) (path : Str) : Nat :=
  match findMountSource path t with
  | none => 0
  | some (_, _, .dir _) => 1
  | some (_, subpath, .mount s) => s.versions subpath

/-- `list` (subvolumes.py:154-167). -/
def slist (t : Node Source) (path : Str) : Option (Listing FileInfo) :=
  match findMountSource path t with
  | none => none
  | some (_, _, .dir d) => some (.dict (d.map (fun nf : Str × Node Source => (nf.1, rootInfo [.none]))))
  | some (_, subpath, .mount s) => s.list subpath

/-- `open` and `read` (subvolumes.py:174-191): the source that is asked and what it is given. -/
def sopen (t : Node Source) (i : FileInfo) : Except PyErr (Source × FileInfo) :=
  match i.userdata with
  | .str sub :: rest =>
    match t with
    | .mount _ => .error .keyError
    | .dir d =>
      match Dict.get? d sub with
      | none => .error .keyError                             -- `self.mountSources[subvolume]`
      | some (.dir _) => .error .typeError                   -- AttributeError: a dictionary has no `open`
      | some (.mount s) => .ok (s, { i with userdata := rest })
  | .none :: _ => .error .valueError
  | _ => .error .keyError

/-! ## specification -/

/-- What is at a path. -/
inductive Kind (σ : Type) where
  | absent
  | folder
  | mounted (s : σ)

def kindOf : Option (Node σ) → Kind σ
  | none => .absent
  | some (.dir _) => .folder
  | some (.mount s) => .mounted s

def kindAt (cs : List Str) (t : Node σ) : Kind σ := kindOf (walkTo cs t)

/-- A call. -/
inductive Call (σ : Type) where
  | mount (path : Str) (s : σ)
  | unmount (path : Str)

/-- What a call returns. -/
inductive Answer (σ : Type) where
  | mounted (r : MountResult)
  | unmounted (s : Option σ)

def step (t : Node σ) : Call σ → Answer σ × Node σ
  | .mount path s => (.mounted (mountAt path s t).1, (mountAt path s t).2)
  | .unmount path => (.unmounted (unmountAt path t).1, (unmountAt path t).2)

def runCalls : Node σ → List (Call σ) → List (Answer σ) × Node σ
  | t, [] => ([], t)
  | t, c :: cs => ((step t c).1 :: (runCalls (step t c).2 cs).1, (runCalls (step t c).2 cs).2)

/-- The specification of the state: the mount points, as lists of names, with their sources. -/
abbrev Mounts (σ : Type) := List (List Str × σ)

/-- The names of a path. -/
def namesOf (path : Str) : List Str := walk [] (split '/' path)

/-- Nothing can be mounted at the root, two levels or more below a mount point (the answer is no), or elsewhere below,
above or at a mount point (an error). -/
def specMount (A : Mounts σ) (cs : List Str) (s : σ) : MountResult × Mounts σ :=
  if cs = [] then (.error, A)
  else if A.any (fun m => m.1.isPrefixOf cs.dropLast && m.1 != cs.dropLast) then (.no, A)
  else if A.any (fun m => m.1.isPrefixOf cs || cs.isPrefixOf m.1) then (.error, A)
  else (.yes, A ++ [(cs, s)])

/-- Unmounting removes a mount point and returns its source. -/
def specUnmount (A : Mounts σ) (cs : List Str) : Option σ × Mounts σ :=
  match A.find? (fun m => m.1 == cs) with
  | none => (none, A)
  | some m => (some m.2, A.filter (fun m => m.1 != cs))

def specStep (A : Mounts σ) : Call σ → Answer σ × Mounts σ
  | .mount path s => (.mounted (specMount A (namesOf path) s).1, (specMount A (namesOf path) s).2)
  | .unmount path => (.unmounted (specUnmount A (namesOf path)).1, (specUnmount A (namesOf path)).2)

def specRun : Mounts σ → List (Call σ) → List (Answer σ) × Mounts σ
  | A, [] => ([], A)
  | A, c :: cs => ((specStep A c).1 :: (specRun (specStep A c).2 cs).1, (specRun (specStep A c).2 cs).2)

/-! ## lemmas: paths -/

theorem strip_canonical (cs : List Str) (h : ∀ n ∈ cs, IsName n) : stripSlashes (canonical cs) = join '/' cs := by
  unfold stripSlashes
  rw [lstrip_canonical cs (fun n hn => ⟨(h n hn).1, (h n hn).2.1⟩)]
  cases cs with
  | nil => rfl
  | cons c cs =>
    have := getLast_join (c :: cs) (by simp) h
    unfold rstrip
    have e : (join '/' (c :: cs)).reverse.dropWhile (fun x => decide (x = '/')) = (join '/' (c :: cs)).reverse := by
      cases hs : (join '/' (c :: cs)).reverse with
      | nil => rfl
      | cons x xs =>
        rw [List.dropWhile_cons_of_neg]
        have hx : (join '/' (c :: cs)).getLast? = some x := by rw [← List.head?_reverse, hs]; rfl
        rw [hx] at this
        simpa using this
    rw [e, List.reverse_reverse]

theorem split_strip_canonical (cs : List Str) (h : ∀ n ∈ cs, IsName n) :
    split '/' (stripSlashes (canonical cs)) = if cs = [] then [[]] else cs := by
  rw [strip_canonical cs h]
  split
  · next hc => subst hc; rfl
  · next hc => exact split_join '/' cs hc (fun n hn => (h n hn).2.1)

theorem partsOf_canonical (cs : List Str) (h : ∀ n ∈ cs, IsName n) : partsOf (canonical cs) = cs := by
  unfold partsOf
  rw [split_strip_canonical cs h]
  split
  · next hc => subst hc; rfl
  · apply List.filter_eq_self.mpr
    intro n hn
    have := (h n hn).1
    cases n with
    | nil => exact absurd rfl this
    | cons _ _ => rfl

theorem namesOf_names (path : Str) : ∀ n ∈ namesOf path, IsName n := (normpath_slash path).2

theorem normStr_eq (path : Str) : normStr path = canonical (namesOf path) := by
  obtain ⟨h1, h2⟩ := normpath_slash path
  have hs := strip_canonical _ h2
  unfold normStr
  rw [canonical_eq] at h1 ⊢
  have h1 := List.cons.inj h1 |>.2
  have e : stripSlashes (posixNormpath ('/' :: path)) = join '/' (walk [] (split '/' path)) := by
    rw [← hs]
    unfold stripSlashes
    rw [h1, lstrip_canonical _ (fun n hn => ⟨(h2 n hn).1, (h2 n hn).2.1⟩)]
  rw [e]
  rfl

theorem parentName_eq (path : Str) :
    (namesOf path = [] → parentName path = ([], [])) ∧
    (∀ par name, namesOf path = par ++ [name] → parentName path = (prefixPath par, name)) := by
  unfold parentName
  rw [normStr_eq]
  constructor
  · intro h
    rw [h]
    rfl
  · intro par name h
    have hn : '/' ∉ name := (namesOf_names path name (by rw [h]; simp)).2.1
    rw [h, canonical_append, rsplit1_append _ _ hn]
    rfl

theorem partsOf_prefixPath (cs : List Str) (h : ∀ n ∈ cs, IsName n) : partsOf (prefixPath cs) = cs := by
  unfold prefixPath
  split
  · next hc => subst hc; rfl
  · exact partsOf_canonical cs h

/-! ## lemmas: the tree -/

theorem walkTo_append (a b : List Str) (t : Node σ) : walkTo (a ++ b) t = (walkTo a t).bind (walkTo b) := by
  induction a generalizing t with
  | nil => rfl
  | cons p ps ih =>
    cases t with
    | mount s => rfl
    | dir d =>
      show (match Dict.get? d p with | none => none | some n => walkTo (ps ++ b) n) = _
      simp only [walkTo]
      cases Dict.get? d p with
      | none => rfl
      | some n => exact ih n

theorem kindAt_cons (p : Str) (ps : List Str) (d : Folder σ) :
    kindAt (p :: ps) (.dir d) = match Dict.get? d p with | none => .absent | some n => kindAt ps n := by
  unfold kindAt
  simp only [walkTo]
  cases Dict.get? d p <;> rfl

theorem kindAt_below_mount (ps : List Str) (s : σ) (h : ps ≠ []) : kindAt ps (.mount s) = .absent := by
  cases ps with
  | nil => exact absurd rfl h
  | cons p ps => rfl

/-- Above anything that is present there are folders. -/
theorem kindAt_above {x y : List Str} {t : Node σ} (hp : x <+: y) (hne : x ≠ y) (h : kindAt y t ≠ .absent) : kindAt x t = .folder := by
  obtain ⟨z, rfl⟩ := hp
  unfold kindAt at *
  rw [walkTo_append] at h
  cases hx : walkTo x t with
  | none => rw [hx] at h; exact absurd rfl h
  | some n =>
    cases n with
    | dir d => rfl
    | mount s =>
      rw [hx] at h
      cases z with
      | nil => simp at hne
      | cons a as => exact absurd rfl h

theorem kindAt_mkdirs (x ps : List Str) : kindAt x (mkdirs ps : Node σ) = .folder ↔ x <+: ps := by
  induction ps generalizing x with
  | nil =>
    cases x with
    | nil => simp [mkdirs, kindAt, walkTo, kindOf]
    | cons a as => simp [mkdirs, kindAt_cons]
  | cons p ps ih =>
    cases x with
    | nil => simp [mkdirs, kindAt, walkTo, kindOf]
    | cons a as =>
      rw [mkdirs, kindAt_cons, List.cons_prefix_cons, ← ih]
      simp only [Dict.get?]
      by_cases h : p = a
      · rw [if_pos h]; simp [h]
      · rw [if_neg h]
        simp only [reduceCtorEq, false_iff, not_and]
        intro e
        exact absurd e.symm h

theorem kindAt_mkdirs_mounted (x ps : List Str) (s : σ) : kindAt x (mkdirs ps : Node σ) ≠ .mounted s := by
  induction ps generalizing x with
  | nil =>
    cases x with
    | nil => simp [mkdirs, kindAt, walkTo, kindOf]
    | cons a as => simp [mkdirs, kindAt_cons]
  | cons p ps ih =>
    cases x with
    | nil => simp [mkdirs, kindAt, walkTo, kindOf]
    | cons a as =>
      rw [mkdirs, kindAt_cons]
      simp only [Dict.get?]
      by_cases h : p = a
      · rw [if_pos h]; exact ih as
      · rw [if_neg h]; simp

theorem kindAt_mkdirs_absent (x ps : List Str) (h : ¬ x <+: ps) : kindAt x (mkdirs ps : Node σ) = .absent := by
  have h1 := kindAt_mkdirs (σ := σ) x ps
  have h2 := kindAt_mkdirs_mounted (σ := σ) x ps
  cases hk : kindAt x (mkdirs ps : Node σ) with
  | absent => rfl
  | folder => exact absurd (h1.mp hk) h
  | mounted s => exact absurd hk (h2 s)

/-- `create` raises exactly if there is a mount point above the path. -/
theorem create_none (ps : List Str) (t : Node σ) :
    create ps t = none ↔ ∃ m s, m <+: ps ∧ m ≠ ps ∧ kindAt m t = .mounted s := by
  induction ps generalizing t with
  | nil =>
    simp only [create, reduceCtorEq, false_iff, not_exists]
    rintro m s ⟨h1, h2, -⟩
    exact h2 (List.prefix_nil.mp h1)
  | cons p ps ih =>
    cases t with
    | mount s =>
      simp only [create, true_iff]
      exact ⟨[], s, List.nil_prefix, by simp, rfl⟩
    | dir d =>
      simp only [create]
      cases hg : Dict.get? d p with
      | none =>
        simp only [reduceCtorEq, false_iff, not_exists]
        rintro m s ⟨h1, h2, h3⟩
        cases m with
        | nil => cases h3
        | cons a as =>
          obtain ⟨rfl, h1⟩ := List.cons_prefix_cons.mp h1
          rw [kindAt_cons, hg] at h3
          cases h3
      | some n =>
        simp only
        constructor
        · intro h
          cases hc : create ps n with
          | some n' => rw [hc] at h; cases h
          | none =>
            obtain ⟨m, s, h1, h2, h3⟩ := (ih n).mp hc
            exact ⟨p :: m, s, List.cons_prefix_cons.mpr ⟨rfl, h1⟩, by simpa using h2, by rw [kindAt_cons, hg]; exact h3⟩
        · rintro ⟨m, s, h1, h2, h3⟩
          cases m with
          | nil => cases h3
          | cons a as =>
            obtain ⟨rfl, h1'⟩ := List.cons_prefix_cons.mp h1
            rw [kindAt_cons, hg] at h3
            rw [(ih n).mpr ⟨as, s, h1', by simpa using h2, h3⟩]

/-- `create` adds the missing folders along the path and nothing else. -/
theorem create_kind (ps : List Str) (t t' : Node σ) (h : create ps t = some t') (x : List Str) :
    (kindAt x t = .absent → x <+: ps → kindAt x t' = .folder) ∧
    (kindAt x t = .absent → ¬ x <+: ps → kindAt x t' = .absent) ∧
    (kindAt x t ≠ .absent → kindAt x t' = kindAt x t) := by
  induction ps generalizing t t' x with
  | nil =>
    cases h
    refine ⟨fun h1 h2 => ?_, fun h1 _ => h1, fun _ => rfl⟩
    rw [List.prefix_nil.mp h2] at h1
    cases t <;> cases h1
  | cons p ps ih =>
    cases t with
    | mount s => cases h
    | dir d =>
      cases x with
      | nil =>
        refine ⟨fun h1 => (by cases h1), fun h1 => (by cases h1), fun _ => ?_⟩
        simp only [create] at h
        cases hg : Dict.get? d p with
        | none => rw [hg] at h; cases h; rfl
        | some n =>
          rw [hg] at h
          simp only at h
          cases hc : create ps n with
          | none => rw [hc] at h; cases h
          | some n' => rw [hc] at h; cases h; rfl
      | cons a as =>
        rw [List.cons_prefix_cons]
        simp only [create] at h
        cases hg : Dict.get? d p with
        | none =>
          rw [hg] at h
          cases h
          rw [kindAt_cons, kindAt_cons, Dict.get?_set]
          by_cases hpa : p = a
          · subst hpa
            rw [if_pos rfl, hg]
            refine ⟨fun _ h2 => (kindAt_mkdirs as ps).mpr h2.2, fun _ h2 => kindAt_mkdirs_absent as ps (fun h => h2 ⟨rfl, h⟩), ?_⟩
            intro h
            exact absurd rfl h
          · rw [if_neg hpa]
            exact ⟨fun _ h2 => absurd h2.1.symm hpa, fun h1 _ => h1, fun _ => rfl⟩
        | some n =>
          rw [hg] at h
          simp only at h
          cases hc : create ps n with
          | none => rw [hc] at h; cases h
          | some n' =>
            rw [hc] at h
            cases h
            rw [kindAt_cons, kindAt_cons, Dict.get?_set]
            by_cases hpa : p = a
            · subst hpa
              rw [if_pos rfl, hg]
              obtain ⟨i1, i2, i3⟩ := ih n n' hc as
              exact ⟨fun h1 h2 => i1 h1 h2.2, fun h1 h2 => i2 h1 (fun h => h2 ⟨rfl, h⟩), i3⟩
            · rw [if_neg hpa]
              exact ⟨fun _ h2 => absurd h2.1.symm hpa, fun h1 _ => h1, fun _ => rfl⟩

theorem putIn_kind (ps : List Str) (name : Str) (s : σ) (t : Node σ) (hf : kindAt ps t = .folder) (x : List Str) :
    (x = ps ++ [name] → kindAt x (putIn ps name (.mount s) t) = .mounted s) ∧
    (x ≠ ps ++ [name] → ps ++ [name] <+: x → kindAt x (putIn ps name (.mount s) t) = .absent) ∧
    (¬ ps ++ [name] <+: x → kindAt x (putIn ps name (.mount s) t) = kindAt x t) := by
  induction ps generalizing t x with
  | nil =>
    cases t with
    | mount s => cases hf
    | dir d =>
      simp only [putIn, List.nil_append]
      cases x with
      | nil => exact ⟨by simp, fun _ h => by simp at h, fun _ => rfl⟩
      | cons a as =>
        rw [kindAt_cons, kindAt_cons, Dict.get?_set, List.cons_prefix_cons]
        by_cases h : name = a
        · subst h
          simp only [List.cons.injEq, true_and, ne_eq, List.nil_prefix, if_true]
          exact ⟨fun h => by rw [h]; rfl, fun h _ => kindAt_below_mount as s h, fun h => absurd trivial h⟩
        · rw [if_neg h]
          refine ⟨fun e => ?_, fun _ h2 => absurd h2.1 h, fun _ => rfl⟩
          simp only [List.cons.injEq] at e
          exact absurd e.1.symm h
  | cons p ps ih =>
    cases t with
    | mount s => cases hf
    | dir d =>
      rw [kindAt_cons] at hf
      cases hg : Dict.get? d p with
      | none => rw [hg] at hf; cases hf
      | some n =>
        rw [hg] at hf
        simp only [putIn, hg, List.cons_append]
        cases x with
        | nil => exact ⟨by simp, fun _ h => by simp at h, fun _ => rfl⟩
        | cons a as =>
          rw [kindAt_cons, kindAt_cons, Dict.get?_set, List.cons_prefix_cons]
          by_cases h : p = a
          · subst h
            rw [if_pos rfl, hg]
            obtain ⟨i1, i2, i3⟩ := ih n hf as
            refine ⟨fun e => i1 (List.cons.inj e).2, fun h1 h2 => i2 (fun e => h1 (by rw [e])) h2.2, fun h => i3 (fun h' => h ⟨rfl, h'⟩)⟩
          · rw [if_neg h]
            exact ⟨fun e => absurd (List.cons.inj e).1.symm h, fun _ h2 => absurd h2.1 h, fun _ => rfl⟩

/-- No dictionary has a key twice. -/
def AllNodup (t : Node σ) : Prop := ∀ cs d, walkTo cs t = some (.dir d) → (Dict.keys d).Nodup

theorem allNodup_child {d : Folder σ} {p : Str} {n : Node σ} (h : AllNodup (.dir d)) (hg : Dict.get? d p = some n) : AllNodup n := by
  intro cs d' hw
  apply h (p :: cs) d'
  simp only [walkTo, hg]
  exact hw

theorem allNodup_dir {d : Folder σ} (h1 : (Dict.keys d).Nodup) (h2 : ∀ p n, Dict.get? d p = some n → AllNodup n) : AllNodup (.dir d) := by
  intro cs d' hw
  cases cs with
  | nil => cases hw; exact h1
  | cons p ps =>
    simp only [walkTo] at hw
    cases hg : Dict.get? d p with
    | none => rw [hg] at hw; cases hw
    | some n => rw [hg] at hw; exact h2 p n hg ps d' hw

theorem allNodup_mount (s : σ) : AllNodup (.mount s) := by
  intro cs d hw
  cases cs <;> cases hw

theorem allNodup_set {d : Folder σ} (h : AllNodup (.dir d)) (p : Str) (n : Node σ) (hn : AllNodup n) : AllNodup (.dir (Dict.set d p n)) := by
  refine allNodup_dir (Dict.nodup_set d (h [] d rfl) p n) ?_
  intro q m hg
  rw [Dict.get?_set] at hg
  split at hg
  · cases hg; exact hn
  · exact allNodup_child h hg

theorem allNodup_mkdirs (ps : List Str) : AllNodup (mkdirs ps : Node σ) := by
  induction ps with
  | nil => exact allNodup_dir (by simp [Dict.keys]) (fun p n h => by cases h)
  | cons p ps ih =>
    refine allNodup_dir (by simp [Dict.keys]) (fun q n h => ?_)
    simp only [Dict.get?] at h
    split at h
    · cases h; exact ih
    · cases h

theorem allNodup_create (ps : List Str) (t t' : Node σ) (h : AllNodup t) (hc : create ps t = some t') : AllNodup t' := by
  induction ps generalizing t t' with
  | nil => cases hc; exact h
  | cons p ps ih =>
    cases t with
    | mount s => cases hc
    | dir d =>
      simp only [create] at hc
      cases hg : Dict.get? d p with
      | none => rw [hg] at hc; cases hc; exact allNodup_set h p _ (allNodup_mkdirs ps)
      | some n =>
        rw [hg] at hc
        simp only at hc
        cases hn : create ps n with
        | none => rw [hn] at hc; cases hc
        | some n' => rw [hn] at hc; cases hc; exact allNodup_set h p _ (ih n n' (allNodup_child h hg) hn)

theorem allNodup_putIn (ps : List Str) (name : Str) (s : σ) (t : Node σ) (h : AllNodup t) : AllNodup (putIn ps name (.mount s) t) := by
  induction ps generalizing t with
  | nil =>
    cases t with
    | mount s => exact h
    | dir d => exact allNodup_set h name _ (allNodup_mount s)
  | cons p ps ih =>
    cases t with
    | mount s => exact h
    | dir d =>
      simp only [putIn]
      cases hg : Dict.get? d p with
      | none => exact h
      | some n => exact allNodup_set h p _ (ih n (allNodup_child h hg))

theorem allNodup_del {d : Folder σ} (h : AllNodup (.dir d)) (p : Str) : AllNodup (.dir (Dict.del d p)) := by
  refine allNodup_dir (Dict.nodup_del d (h [] d rfl) p) ?_
  intro q m hg
  rw [Dict.get?_del d (h [] d rfl)] at hg
  split at hg
  · cases hg
  · exact allNodup_child h hg

theorem allNodup_prune (ps : List Str) (d : Folder σ) (h : AllNodup (.dir d)) : AllNodup (.dir (prune ps d)) := by
  induction ps generalizing d with
  | nil => exact h
  | cons p ps ih =>
    cases ps with
    | nil => exact allNodup_del h p
    | cons q qs =>
      unfold prune
      cases hg : Dict.get? d p with
      | none => exact h
      | some n =>
        cases n with
        | mount s => exact h
        | dir d' =>
          simp only
          split
          · exact allNodup_del h p
          · exact allNodup_set h p _ (ih d' (allNodup_child h hg))

/-- Every folder but the root is above a mount point. -/
def Full (t : Node σ) : Prop := ∀ x, x ≠ [] → kindAt x t = .folder → ∃ y s, kindAt y t = .mounted s ∧ x <+: y

theorem full_child {d : Folder σ} {p : Str} {n : Node σ} (h : Full (.dir d)) (hg : Dict.get? d p = some n) : Full n := by
  intro x hx hk
  obtain ⟨y, s, hy, hp⟩ := h (p :: x) (by simp) (by rw [kindAt_cons, hg]; exact hk)
  cases y with
  | nil => simp at hp
  | cons b y =>
    obtain ⟨rfl, hp'⟩ := List.cons_prefix_cons.mp hp
    rw [kindAt_cons, hg] at hy
    exact ⟨y, s, hy, hp'⟩

theorem prune_mounted (cs : List Str) (d : Folder σ) (hn : AllNodup (.dir d)) (s : σ) (hc : kindAt cs (.dir d) = .mounted s)
    (hne : cs ≠ []) (x : List Str) (s' : σ) :
    kindAt x (.dir (prune cs d)) = .mounted s' ↔ kindAt x (.dir d) = .mounted s' ∧ x ≠ cs := by
  induction cs generalizing d x s' with
  | nil => exact absurd rfl hne
  | cons p ps ih =>
    cases x with
    | nil =>
      constructor
      · intro h; cases h
      · rintro ⟨h, -⟩; cases h
    | cons a as =>
      have hdel : ∀ n, Dict.get? d p = some n → (∀ s', kindAt as n = .mounted s' → a = p → as = ps) →
          (kindAt (a :: as) (.dir (Dict.del d p)) = .mounted s' ↔ kindAt (a :: as) (.dir d) = .mounted s' ∧ a :: as ≠ p :: ps) := by
        intro n hg honly
        rw [kindAt_cons, kindAt_cons, Dict.get?_del d (hn [] d rfl)]
        by_cases hpa : p = a
        · subst hpa
          rw [if_pos rfl, hg]
          constructor
          · intro h; cases h
          · rintro ⟨h1, h2⟩
            exact absurd (by rw [honly s' h1 rfl]) h2
        · rw [if_neg hpa]
          constructor
          · intro h; exact ⟨h, fun e => hpa (List.cons.inj e).1.symm⟩
          · intro h; exact h.1
      rw [kindAt_cons] at hc
      cases hg : Dict.get? d p with
      | none => rw [hg] at hc; cases hc
      | some n =>
        rw [hg] at hc
        cases ps with
        | nil =>
          refine hdel n hg ?_
          intro s' h1 _
          cases n with
          | dir d' => cases hc
          | mount s'' =>
            cases as with
            | nil => rfl
            | cons b bs => cases h1
        | cons q qs =>
          cases n with
          | mount s'' => cases hc
          | dir d' =>
            have hi := fun as => ih d' (allNodup_child hn hg) hc (by simp) as s'
            rw [show prune (p :: q :: qs) d = if (prune (q :: qs) d').isEmpty then Dict.del d p
              else Dict.set d p (.dir (prune (q :: qs) d')) from by rw [prune.eq_def]; simp only [hg]]
            by_cases he : (prune (q :: qs) d').isEmpty = true
            · rw [if_pos he]
              refine hdel _ hg ?_
              intro s₂ h1 _
              by_cases hqs : as = q :: qs
              · exact hqs
              · have := (ih d' (allNodup_child hn hg) hc (by simp) as s₂).mpr ⟨h1, hqs⟩
                rw [List.isEmpty_iff.mp he] at this
                cases as <;> cases this
            · rw [if_neg he, kindAt_cons, kindAt_cons, Dict.get?_set]
              by_cases hpa : p = a
              · subst hpa
                rw [if_pos rfl, hg]
                simp only [hi as]
                constructor
                · rintro ⟨h1, h2⟩; exact ⟨h1, fun e => h2 (List.cons.inj e).2⟩
                · rintro ⟨h1, h2⟩; exact ⟨h1, fun e => h2 (by rw [e])⟩
              · rw [if_neg hpa]
                constructor
                · intro h; exact ⟨h, fun e => hpa (List.cons.inj e).1.symm⟩
                · intro h; exact h.1

theorem full_del {d : Folder σ} (hn : AllNodup (.dir d)) (h : Full (.dir d)) (p : Str) : Full (.dir (Dict.del d p)) := by
  intro x hx hk
  cases x with
  | nil => exact absurd rfl hx
  | cons a as =>
    rw [kindAt_cons, Dict.get?_del d (hn [] d rfl)] at hk
    by_cases hpa : p = a
    · rw [if_pos hpa] at hk; cases hk
    · rw [if_neg hpa, ← kindAt_cons] at hk
      obtain ⟨y, s, hy, hp⟩ := h _ (by simp) hk
      refine ⟨y, s, ?_, hp⟩
      cases y with
      | nil => simp at hp
      | cons b bs =>
        obtain ⟨rfl, -⟩ := List.cons_prefix_cons.mp hp
        rw [kindAt_cons, Dict.get?_del d (hn [] d rfl), if_neg hpa, ← kindAt_cons]
        exact hy

theorem full_prune (cs : List Str) (d : Folder σ) (hn : AllNodup (.dir d)) (h : Full (.dir d)) : Full (.dir (prune cs d)) := by
  induction cs generalizing d with
  | nil => exact h
  | cons p ps ih =>
    cases ps with
    | nil => exact full_del hn h p
    | cons q qs =>
      unfold prune
      cases hg : Dict.get? d p with
      | none => exact h
      | some n =>
        cases n with
        | mount s => exact h
        | dir d' =>
          have hi := ih d' (allNodup_child hn hg) (full_child h hg)
          simp only
          split
          · exact full_del hn h p
          · next he =>
            intro x hx hk
            cases x with
            | nil => exact absurd rfl hx
            | cons a as =>
              by_cases hpa : p = a
              · subst hpa
                have key : ∃ y s, kindAt y (.dir (prune (q :: qs) d')) = .mounted s ∧ as <+: y := by
                  rw [kindAt_cons, Dict.get?_set, if_pos rfl] at hk
                  by_cases has : as = []
                  · subst has
                    cases hd : prune (q :: qs) d' with
                    | nil => rw [hd] at he; exact absurd rfl he
                    | cons e es =>
                      obtain ⟨k, n⟩ := e
                      have hk1 : kindAt [k] (.dir ((k, n) :: es)) = kindAt [] n := by
                        rw [kindAt_cons]
                        simp [Dict.get?]
                      cases n with
                      | mount s => exact ⟨[k], s, by rw [hk1]; rfl, List.nil_prefix⟩
                      | dir d'' =>
                        rw [hd] at hi
                        obtain ⟨y, s, hy, -⟩ := hi [k] (by simp) (by rw [hk1]; rfl)
                        exact ⟨y, s, hy, List.nil_prefix⟩
                  · exact hi as has hk
                obtain ⟨y, s, hy, hp⟩ := key
                refine ⟨p :: y, s, ?_, List.cons_prefix_cons.mpr ⟨rfl, hp⟩⟩
                rw [kindAt_cons, Dict.get?_set, if_pos rfl]
                exact hy
              · rw [kindAt_cons, Dict.get?_set, if_neg hpa, ← kindAt_cons] at hk
                obtain ⟨y, s, hy, hp⟩ := h _ (by simp) hk
                refine ⟨y, s, ?_, hp⟩
                cases y with
                | nil => simp at hp
                | cons b bs =>
                  obtain ⟨rfl, -⟩ := List.cons_prefix_cons.mp hp
                  rw [kindAt_cons, Dict.get?_set, if_neg hpa, ← kindAt_cons]
                  exact hy

/-! ## refinement -/

/-- The tree represents the mount points. -/
structure Represents (t : Node σ) (A : Mounts σ) : Prop where
  mounted : ∀ cs s, kindAt cs t = .mounted s ↔ (cs, s) ∈ A
  full : Full t
  nodup : AllNodup t
  root : ∃ d, t = .dir d
  keys : (A.map (fun m => m.1)).Nodup

theorem Represents.folder {t : Node σ} {A : Mounts σ} (h : Represents t A) (cs : List Str) :
    kindAt cs t = .folder ↔ cs = [] ∨ ∃ m ∈ A, cs <+: m.1 ∧ cs ≠ m.1 := by
  constructor
  · intro hk
    by_cases hc : cs = []
    · exact .inl hc
    · obtain ⟨y, s, hy, hp⟩ := h.full cs hc hk
      refine .inr ⟨(y, s), (h.mounted y s).mp hy, hp, ?_⟩
      rintro rfl
      rw [hk] at hy
      cases hy
  · rintro (rfl | ⟨m, hm, hp, hne⟩)
    · obtain ⟨d, rfl⟩ := h.root
      rfl
    · refine kindAt_above hp hne ?_
      rw [(h.mounted m.1 m.2).mpr hm]
      simp

theorem Represents.disjoint {t : Node σ} {A : Mounts σ} (h : Represents t A) {m m' : List Str × σ} (hm : m ∈ A) (hm' : m' ∈ A)
    (hp : m.1 <+: m'.1) : m.1 = m'.1 := by
  by_cases he : m.1 = m'.1
  · exact he
  · have h1 := (h.folder m.1).mpr (.inr ⟨m', hm', hp, he⟩)
    rw [(h.mounted m.1 m.2).mpr hm] at h1
    cases h1

theorem split_last (cs : List Str) : cs = [] ∨ ∃ par name, cs = par ++ [name] := by
  by_cases h : cs = []
  · exact .inl h
  · exact .inr ⟨cs.dropLast, cs.getLast h, (List.dropLast_concat_getLast h).symm⟩

theorem mem_prefix_snoc {x par : List Str} {name : Str} : x <+: par ++ [name] ↔ x <+: par ∨ x = par ++ [name] := by
  rw [List.prefix_concat_iff, or_comm]

theorem mount_refines (path : Str) (s : σ) (t : Node σ) (A : Mounts σ) (h : Represents t A) :
    (mountAt path s t).1 = (specMount A (namesOf path) s).1 ∧ Represents (mountAt path s t).2 (specMount A (namesOf path) s).2 := by
  have hnames := namesOf_names path
  unfold mountAt specMount
  rcases split_last (namesOf path) with hc | ⟨par, name, hc⟩
  · rw [(parentName_eq path).1 hc, hc]
    exact ⟨rfl, h⟩
  · rw [(parentName_eq path).2 par name hc, hc]
    have hpar : ∀ n ∈ par, IsName n := fun n hn => hnames n (by rw [hc]; simp [hn])
    have hname : name ≠ [] := (hnames name (by rw [hc]; simp)).1
    simp only [partsOf_prefixPath par hpar]
    rw [if_neg hname, if_neg (by simp), List.dropLast_concat]
    cases hcr : create par t with
    | none =>
      obtain ⟨m, s', h1, h2, h3⟩ := (create_none par t).mp hcr
      rw [if_pos]
      · exact ⟨rfl, h⟩
      · rw [List.any_eq_true]
        exact ⟨(m, s'), (h.mounted m s').mp h3, by
          rw [Bool.and_eq_true, List.isPrefixOf_iff_prefix]
          exact ⟨h1, by simpa using h2⟩⟩
    | some t' =>
      have hno : ¬ (A.any (fun m => m.1.isPrefixOf par && m.1 != par)) = true := by
        rw [List.any_eq_true]
        rintro ⟨m, hm, hp⟩
        rw [Bool.and_eq_true, List.isPrefixOf_iff_prefix] at hp
        have : create par t = none := (create_none par t).mpr ⟨m.1, m.2, hp.1, by simpa using hp.2, (h.mounted m.1 m.2).mpr hm⟩
        rw [this] at hcr
        cases hcr
      rw [if_neg hno]
      have hk := create_kind par t t' hcr
      have hnod' := allNodup_create par t t' h.nodup hcr
      -- the tree does not change if nothing had to be created
      have hrep : (∀ x, x <+: par → kindAt x t ≠ .absent) → Represents t' A := by
        intro hpres
        have heq : ∀ x, kindAt x t' = kindAt x t := by
          intro x
          cases hx : kindAt x t with
          | absent => exact (hk x).2.1 hx (fun hp => hpres x hp hx)
          | folder => rw [(hk x).2.2 (by rw [hx]; simp), hx]
          | mounted s' => rw [(hk x).2.2 (by rw [hx]; simp), hx]
        refine ⟨fun cs s => by rw [heq]; exact h.mounted cs s, ?_, hnod', ?_, h.keys⟩
        · intro x hx hkx
          rw [heq] at hkx
          obtain ⟨y, s', hy, hp⟩ := h.full x hx hkx
          exact ⟨y, s', by rw [heq]; exact hy, hp⟩
        · have := heq []
          obtain ⟨d, hd⟩ := h.root
          rw [hd] at this
          cases t' with
          | dir d' => exact ⟨d', rfl⟩
          | mount s' => cases this
      simp only
      cases hw : walkTo par t' with
      | none =>
        exfalso
        have : kindAt par t' = .absent := by unfold kindAt; rw [hw]; rfl
        by_cases hp : kindAt par t = .absent
        · rw [(hk par).1 hp (List.prefix_refl _)] at this; cases this
        · rw [(hk par).2.2 hp] at this; exact hp this
      | some n =>
        cases n with
        | mount s' =>
          have hk' : kindAt par t' = .mounted s' := by unfold kindAt; rw [hw]; rfl
          have hkt : kindAt par t = .mounted s' := by
            by_cases hp : kindAt par t = .absent
            · rw [(hk par).1 hp (List.prefix_refl _)] at hk'; cases hk'
            · rw [← (hk par).2.2 hp]; exact hk'
          rw [if_pos]
          · refine ⟨rfl, hrep ?_⟩
            intro x hx
            by_cases he : x = par
            · rw [he, hkt]; simp
            · rw [kindAt_above hx he (by rw [hkt]; simp)]; simp
          · rw [List.any_eq_true]
            refine ⟨(par, s'), (h.mounted par s').mp hkt, ?_⟩
            rw [Bool.or_eq_true, List.isPrefixOf_iff_prefix]
            exact .inl (List.prefix_append _ _)
        | dir d =>
          have hk' : kindAt par t' = .folder := by unfold kindAt; rw [hw]; rfl
          have hchild : ∀ rest, kindAt (par ++ name :: rest) t' = kindOf ((Dict.get? d name).bind (walkTo rest)) := by
            intro rest
            unfold kindAt
            rw [walkTo_append, hw]
            simp only [Option.bind_some, walkTo]
            cases Dict.get? d name <;> rfl
          simp only
          cases hhas : Dict.has d name with
          | true =>
            obtain ⟨n, hg⟩ := Option.isSome_iff_exists.mp (show (Dict.get? d name).isSome = true from hhas)
            have hpn : kindAt (par ++ [name]) t' ≠ .absent := by
              rw [hchild [], hg]
              cases n <;> simp [kindOf, walkTo]
            have hpn' : kindAt (par ++ [name]) t ≠ .absent := by
              intro he
              have := (hk (par ++ [name])).2.1 he (fun hp => by have := hp.length_le; simp at this; omega)
              exact hpn this
            have hpres : ∀ x, x <+: par → kindAt x t ≠ .absent := by
              intro x hx
              rw [kindAt_above (hx.trans (List.prefix_append _ _)) (by
                rintro rfl
                have := hx.length_le
                simp at this
                omega) hpn']
              simp
            rw [if_pos rfl, if_pos]
            · exact ⟨rfl, hrep hpres⟩
            · rw [List.any_eq_true]
              cases hkk : kindAt (par ++ [name]) t with
              | absent => exact absurd hkk hpn'
              | mounted s' =>
                refine ⟨_, (h.mounted _ s').mp hkk, ?_⟩
                rw [Bool.or_eq_true, List.isPrefixOf_iff_prefix]
                exact .inl (List.prefix_refl _)
              | folder =>
                rcases (h.folder _).mp hkk with e | ⟨m, hm, hp, -⟩
                · simp at e
                · refine ⟨m, hm, ?_⟩
                  rw [Bool.or_eq_true, List.isPrefixOf_iff_prefix, List.isPrefixOf_iff_prefix]
                  exact .inr hp
          | false =>
            have hg : Dict.get? d name = none := by
              cases hg : Dict.get? d name with
              | none => rfl
              | some n => unfold Dict.has at hhas; rw [hg] at hhas; cases hhas
            have habs' : kindAt (par ++ [name]) t' = .absent := by rw [hchild [], hg]; rfl
            have habs : kindAt (par ++ [name]) t = .absent := by
              by_cases he : kindAt (par ++ [name]) t = .absent
              · exact he
              · rw [← (hk _).2.2 he]; exact habs'
            have hpk := putIn_kind par name s t' hk'
            rw [if_neg (by simp), if_neg]
            · refine ⟨rfl, ?_⟩
              -- what is where in the new tree
              have hm : ∀ x s', kindAt x (putIn par name (.mount s) t') = .mounted s' ↔ kindAt x t = .mounted s' ∨ (x = par ++ [name] ∧ s' = s) := by
                intro x s'
                by_cases h1 : x = par ++ [name]
                · rw [(hpk x).1 h1, h1, habs]
                  simp [eq_comm]
                · by_cases h2 : par ++ [name] <+: x
                  · have hxa : kindAt x t = .absent := by
                      cases hx : kindAt x t with
                      | absent => rfl
                      | folder => rw [kindAt_above h2 (Ne.symm h1) (by rw [hx]; simp)] at habs; cases habs
                      | mounted s'' => rw [kindAt_above h2 (Ne.symm h1) (by rw [hx]; simp)] at habs; cases habs
                    rw [(hpk x).2.1 h1 h2, hxa]
                    simp [h1]
                  · rw [(hpk x).2.2 h2]
                    by_cases hx : kindAt x t = .absent
                    · rw [hx]
                      by_cases hp : x <+: par
                      · rw [(hk x).1 hx hp]; simp [h1]
                      · rw [(hk x).2.1 hx hp]; simp [h1]
                    · rw [(hk x).2.2 hx]
                      simp [h1]
              refine ⟨?_, ?_, allNodup_putIn par name s t' hnod', ?_, ?_⟩
              · intro cs s'
                rw [hm, h.mounted, List.mem_append, List.mem_singleton, Prod.mk.injEq]
              · intro x hx hkx
                have h1 : x ≠ par ++ [name] := fun e => by rw [(hpk x).1 e] at hkx; cases hkx
                have h2 : ¬ par ++ [name] <+: x := fun e => by rw [(hpk x).2.1 h1 e] at hkx; cases hkx
                rw [(hpk x).2.2 h2] at hkx
                by_cases hxa : kindAt x t = .absent
                · by_cases hp : x <+: par
                  · exact ⟨par ++ [name], s, (hpk _).1 rfl, hp.trans (List.prefix_append _ _)⟩
                  · rw [(hk x).2.1 hxa hp] at hkx; cases hkx
                · rw [(hk x).2.2 hxa] at hkx
                  obtain ⟨y, s', hy, hp⟩ := h.full x hx hkx
                  exact ⟨y, s', (hm y s').mpr (.inl hy), hp⟩
              · cases t' with
                | mount s' =>
                  exfalso
                  cases par <;> cases hk'
                | dir d' =>
                  cases par with
                  | nil => exact ⟨_, rfl⟩
                  | cons p ps => simp only [putIn]; split <;> exact ⟨_, rfl⟩
              · rw [List.map_append, List.nodup_append]
                refine ⟨h.keys, by simp, ?_⟩
                rintro a ha b hb rfl
                simp only [List.map_cons, List.map_nil, List.mem_singleton] at hb
                obtain ⟨m, hm, hma⟩ := List.mem_map.mp ha
                have := (h.mounted m.1 m.2).mpr hm
                rw [hma, hb, habs] at this
                cases this
            · rw [List.any_eq_true]
              rintro ⟨m, hmA, hp⟩
              rw [Bool.or_eq_true, List.isPrefixOf_iff_prefix, List.isPrefixOf_iff_prefix] at hp
              have hmk := (h.mounted m.1 m.2).mpr hmA
              rcases hp with hp | hp
              · rcases mem_prefix_snoc.mp hp with hp | he
                · by_cases he : m.1 = par
                  · have := (hk m.1).2.2 (by rw [hmk]; simp)
                    rw [he, hk'] at this
                    rw [he] at hmk
                    rw [hmk] at this
                    cases this
                  · exact hno (List.any_eq_true.mpr ⟨m, hmA, by
                      rw [Bool.and_eq_true, List.isPrefixOf_iff_prefix]; exact ⟨hp, by simpa using he⟩⟩)
                · rw [he, habs] at hmk
                  cases hmk
              · by_cases he : par ++ [name] = m.1
                · rw [← he, habs] at hmk; cases hmk
                · rw [kindAt_above hp he (by rw [hmk]; simp)] at habs; cases habs

theorem unmount_refines (path : Str) (t : Node σ) (A : Mounts σ) (h : Represents t A) :
    (unmountAt path t).1 = (specUnmount A (namesOf path)).1 ∧ Represents (unmountAt path t).2 (specUnmount A (namesOf path)).2 := by
  unfold unmountAt specUnmount
  rw [normStr_eq, partsOf_canonical _ (namesOf_names path)]
  generalize namesOf path = cs
  have hfind : ∀ m, A.find? (fun m => m.1 == cs) = some m → m ∈ A ∧ m.1 = cs := by
    intro m hm
    exact ⟨List.mem_of_find?_eq_some hm, by simpa using List.find?_some hm⟩
  cases hw : walkTo cs t with
  | none =>
    cases hf : A.find? (fun m => m.1 == cs) with
    | none => exact ⟨rfl, h⟩
    | some m =>
      obtain ⟨h1, h2⟩ := hfind m hf
      have := (h.mounted m.1 m.2).mpr h1
      unfold kindAt at this
      rw [h2, hw] at this
      cases this
  | some n =>
    cases n with
    | dir d =>
      cases hf : A.find? (fun m => m.1 == cs) with
      | none => exact ⟨rfl, h⟩
      | some m =>
        obtain ⟨h1, h2⟩ := hfind m hf
        have := (h.mounted m.1 m.2).mpr h1
        unfold kindAt at this
        rw [h2, hw] at this
        cases this
    | mount s =>
      have hk : kindAt cs t = .mounted s := by unfold kindAt; rw [hw]; rfl
      have hmem := (h.mounted cs s).mp hk
      obtain ⟨d, rfl⟩ := h.root
      have hne : cs ≠ [] := by rintro rfl; cases hk
      cases hf : A.find? (fun m => m.1 == cs) with
      | none =>
        have := List.find?_eq_none.mp hf (cs, s) hmem
        simp at this
      | some m =>
        obtain ⟨h1, h2⟩ := hfind m hf
        have hms : m.2 = s := by
          have := (h.mounted m.1 m.2).mpr h1
          rw [h2, hk] at this
          cases this
          rfl
        refine ⟨congrArg some hms.symm, ?_, full_prune cs d h.nodup h.full, allNodup_prune cs d h.nodup, ⟨_, rfl⟩, ?_⟩
        · intro x s'
          simp only
          rw [prune_mounted cs d h.nodup s hk hne x s', h.mounted, List.mem_filter]
          simp
        · exact (List.filter_sublist.map _).nodup h.keys

theorem run_refines (h : List (Call σ)) : ∀ (t : Node σ) (A : Mounts σ), Represents t A →
    (runCalls t h).1 = (specRun A h).1 ∧ Represents (runCalls t h).2 (specRun A h).2 := by
  induction h with
  | nil => intro t A hr; exact ⟨rfl, hr⟩
  | cons c cs ih =>
    intro t A hr
    have hs : (step t c).1 = (specStep A c).1 ∧ Represents (step t c).2 (specStep A c).2 := by
      cases c with
      | mount path s =>
        obtain ⟨h1, h2⟩ := mount_refines path s t A hr
        simp only [step, specStep]
        rw [h1]
        exact ⟨rfl, h2⟩
      | unmount path =>
        obtain ⟨h1, h2⟩ := unmount_refines path t A hr
        simp only [step, specStep]
        rw [h1]
        exact ⟨rfl, h2⟩
    obtain ⟨h1, h2⟩ := ih _ _ hs.2
    exact ⟨by simp only [runCalls, specRun]; rw [hs.1, h1], h2⟩

theorem represents_empty : Represents (σ := σ) (.dir []) [] := by
  have hk : ∀ p ps, kindAt (p :: ps) (.dir ([] : Folder σ)) = .absent := fun p ps => by rw [kindAt_cons]; rfl
  refine ⟨?_, ?_, allNodup_dir (by simp [Dict.keys]) (fun p n h => by cases h), ⟨[], rfl⟩, by simp⟩
  · intro cs s
    cases cs with
    | nil => simp [kindAt, walkTo, kindOf]
    | cons p ps => rw [hk]; simp
  · intro x hx h
    cases x with
    | nil => exact absurd rfl hx
    | cons p ps => rw [hk] at h; cases h

/-! ## C38 -/

/-- **C38**: after every sequence of calls, starting without mount points, all answers are those of a plain list of mount
points (so unmounting returns what was mounted), and mount points never lie inside another. -/
theorem C38_refines (h : List (Call σ)) :
    (runCalls (.dir []) h).1 = (specRun [] h).1 ∧
    (∀ m ∈ (specRun [] h).2, ∀ m' ∈ (specRun [] h).2, m.1 <+: m'.1 → m.1 = m'.1) ∧
    ((specRun [] h).2.map (fun m => m.1)).Nodup := by
  obtain ⟨h1, h2⟩ := run_refines h (.dir []) [] represents_empty
  exact ⟨h1, fun m hm m' hm' hp => h2.disjoint hm hm' hp, h2.keys⟩

theorem findLoop_kind (path : Str) (cs : List Str) (hcs : ∀ n ∈ cs, n ≠ []) : ∀ (done : List Str) (d : Folder σ),
    (∀ m rest s, cs = m ++ rest → kindAt m (.dir d) = .mounted s →
      findLoop path done cs d = some (join '/' (done ++ m), '/' :: join '/' rest, .mount s)) ∧
    (∀ d', walkTo cs (.dir d) = some (.dir d') → findLoop path done cs d = some (path, [], .dir d')) ∧
    ((∀ m, m <+: cs → ∀ s, kindAt m (.dir d) ≠ .mounted s) → kindAt cs (.dir d) = .absent → findLoop path done cs d = none) := by
  induction cs with
  | nil =>
    intro done d
    refine ⟨?_, ?_, ?_⟩
    · intro m rest s he hk
      obtain ⟨rfl, rfl⟩ := List.append_eq_nil_iff.mp he.symm
      cases hk
    · intro d' hw
      cases hw
      rfl
    · intro _ hk
      cases hk
  | cons c cs ih =>
    intro done d
    have hc : c ≠ [] := hcs c (by simp)
    have ih := ih (fun n hn => hcs n (List.mem_cons_of_mem _ hn))
    unfold findLoop
    rw [if_neg hc]
    refine ⟨?_, ?_, ?_⟩
    · intro m rest s he hk
      cases m with
      | nil => cases hk
      | cons a m =>
        simp only [List.cons_append, List.cons.injEq] at he
        obtain ⟨rfl, rfl⟩ := he
        rw [kindAt_cons] at hk
        cases hg : Dict.get? d c with
        | none => rw [hg] at hk; cases hk
        | some n =>
          rw [hg] at hk
          cases n with
          | mount s' =>
            cases m with
            | nil => cases hk; rfl
            | cons b bs => cases hk
          | dir d' =>
            simp only
            rw [(ih (done ++ [c]) d').1 m rest s rfl hk]
            simp
    · intro d' hw
      simp only [walkTo] at hw
      cases hg : Dict.get? d c with
      | none => rw [hg] at hw; cases hw
      | some n =>
        rw [hg] at hw
        cases n with
        | mount s' => cases cs <;> cases hw
        | dir d'' => exact (ih (done ++ [c]) d'').2.1 d' hw
    · intro hno hk
      rw [kindAt_cons] at hk
      cases hg : Dict.get? d c with
      | none => rfl
      | some n =>
        rw [hg] at hk
        cases n with
        | mount s' =>
          have := hno [c] (List.cons_prefix_cons.mpr ⟨rfl, List.nil_prefix⟩) s'
          rw [kindAt_cons, hg] at this
          exact absurd rfl this
        | dir d'' =>
          refine (ih (done ++ [c]) d'').2.2 ?_ hk
          intro m hm s
          have := hno (c :: m) (List.cons_prefix_cons.mpr ⟨rfl, hm⟩) s
          rw [kindAt_cons, hg] at this
          exact this

theorem findMountSource_canonical (cs : List Str) (h : ∀ n ∈ cs, IsName n) (d : Folder σ) :
    findMountSource (canonical cs) (.dir d) = findLoop (canonical cs) [] cs d := by
  unfold findMountSource
  simp only
  rw [split_strip_canonical cs h]
  split
  · next hc => subst hc; rfl
  · rfl

/-- **C38**, below a mount point: the rest of the path is looked up in the source mounted there, with the version asked
for, and the entry is marked with the mount point; count and listing are those of the source. -/
theorem C38_below (h : List (Call Source)) (m : List Str × Source) (hm : m ∈ (specRun [] h).2) (rest : List Str)
    (hn : ∀ n ∈ m.1 ++ rest, IsName n) (v : Int) :
    slookup (runCalls (.dir []) h).2 (canonical (m.1 ++ rest)) v =
      (m.2.lookup (canonical rest) v).map (fun i => i.push (.str (join '/' m.1))) ∧
    sversions (runCalls (.dir []) h).2 (canonical (m.1 ++ rest)) = m.2.versions (canonical rest) ∧
    slist (runCalls (.dir []) h).2 (canonical (m.1 ++ rest)) = m.2.list (canonical rest) := by
  obtain ⟨-, hr⟩ := run_refines h (.dir []) [] represents_empty
  obtain ⟨d, hd⟩ := hr.root
  have hk := (hr.mounted m.1 m.2).mpr hm
  rw [hd] at hk ⊢
  have hf : findMountSource (canonical (m.1 ++ rest)) (.dir d) = some (join '/' m.1, canonical rest, .mount m.2) := by
    rw [findMountSource_canonical _ hn, (findLoop_kind _ (m.1 ++ rest) (fun n hx => (hn n hx).1) [] d).1 m.1 rest m.2 rfl hk,
      canonical_eq]
    rfl
  unfold slookup sversions slist
  simp only [hf]
  exact ⟨trivial, trivial, trivial⟩

/-- **C38**, above the mount points: the root and every folder above a mount point exists and lists exactly the names that
lead on to a mount point, without repetition. -/
theorem C38_above (h : List (Call Source)) (cs : List Str) (hn : ∀ n ∈ cs, IsName n)
    (ha : cs = [] ∨ ∃ m ∈ (specRun [] h).2, cs <+: m.1 ∧ cs ≠ m.1) (v : Int) :
    (∃ i, slookup (runCalls (.dir []) h).2 (canonical cs) v = some i ∧ isDir i.mode = true) ∧
    sversions (runCalls (.dir []) h).2 (canonical cs) = 1 ∧
    ∃ l, slist (runCalls (.dir []) h).2 (canonical cs) = some l ∧ l.keys.Nodup ∧
      ∀ n, n ∈ l.keys ↔ ∃ m ∈ (specRun [] h).2, cs ++ [n] <+: m.1 := by
  obtain ⟨-, hr⟩ := run_refines h (.dir []) [] represents_empty
  obtain ⟨d, hd⟩ := hr.root
  have hk := (hr.folder cs).mpr ha
  rw [hd] at hk hr ⊢
  unfold kindAt at hk
  cases hw : walkTo cs (.dir d) with
  | none => rw [hw] at hk; cases hk
  | some n =>
    cases n with
    | mount s => rw [hw] at hk; cases hk
    | dir d' =>
      have hf : findMountSource (canonical cs) (.dir d) = some (canonical cs, [], .dir d') := by
        rw [findMountSource_canonical _ hn, (findLoop_kind _ cs (fun n hx => (hn n hx).1) [] d).2.1 d' hw]
      unfold slookup sversions slist
      simp only [hf]
      refine ⟨⟨_, rfl, by decide⟩, trivial, _, rfl, ?_, ?_⟩
      · show (List.map _ (List.map _ d')).Nodup
        rw [List.map_map]
        exact hr.nodup cs d' hw
      · intro n
        have e : (Listing.dict (d'.map (fun nf : Str × Node Source => (nf.1, rootInfo [.none])))).keys = Dict.keys d' := by
          show List.map _ (List.map _ d') = _
          rw [List.map_map]
          rfl
        rw [e, Dict.mem_keys_iff]
        have hk1 : kindAt (cs ++ [n]) (.dir d) = kindOf (Dict.get? d' n) := by
          unfold kindAt
          rw [walkTo_append, hw]
          simp only [Option.bind_some, walkTo]
          cases Dict.get? d' n <;> rfl
        constructor
        · intro hs
          obtain ⟨x, hx⟩ := Option.isSome_iff_exists.mp hs
          rw [hx] at hk1
          cases x with
          | mount s => exact ⟨_, (hr.mounted _ s).mp hk1, List.prefix_refl _⟩
          | dir d'' =>
            rcases (hr.folder _).mp hk1 with e | ⟨m, hm, hp, -⟩
            · simp at e
            · exact ⟨m, hm, hp⟩
        · rintro ⟨m, hm, hp⟩
          have : kindAt (cs ++ [n]) (.dir d) ≠ .absent := by
            by_cases he : cs ++ [n] = m.1
            · rw [he, (hr.mounted m.1 m.2).mpr hm]; simp
            · rw [(hr.folder _).mpr (.inr ⟨m, hm, hp, he⟩)]; simp
          rw [hk1] at this
          cases hg : Dict.get? d' n with
          | none => rw [hg] at this; exact absurd rfl this
          | some _ => rfl

/-- **C38**: nothing else exists; in particular no empty folders are left behind. -/
theorem C38_beside (h : List (Call Source)) (cs : List Str) (hn : ∀ n ∈ cs, IsName n) (hne : cs ≠ [])
    (h1 : ∀ m ∈ (specRun [] h).2, ¬ m.1 <+: cs) (h2 : ∀ m ∈ (specRun [] h).2, ¬ cs <+: m.1) (v : Int) :
    slookup (runCalls (.dir []) h).2 (canonical cs) v = none ∧ sversions (runCalls (.dir []) h).2 (canonical cs) = 0 ∧
    slist (runCalls (.dir []) h).2 (canonical cs) = none := by
  obtain ⟨-, hr⟩ := run_refines h (.dir []) [] represents_empty
  obtain ⟨d, hd⟩ := hr.root
  rw [hd] at hr ⊢
  have hno : ∀ m, m <+: cs → ∀ s, kindAt m (.dir d) ≠ .mounted s := by
    intro m hm s hk
    exact h1 _ ((hr.mounted m s).mp hk) hm
  have hk : kindAt cs (.dir d) = .absent := by
    cases hk : kindAt cs (.dir d) with
    | absent => rfl
    | mounted s => exact absurd hk (hno cs (List.prefix_refl _) s)
    | folder =>
      rcases (hr.folder _).mp hk with e | ⟨m, hm, hp, -⟩
      · exact absurd e hne
      · exact absurd hp (h2 m hm)
  have hf : findMountSource (canonical cs) (.dir d) = none := by
    rw [findMountSource_canonical _ hn, (findLoop_kind _ cs (fun n hx => (hn n hx).1) [] d).2.2 hno hk]
  unfold slookup sversions slist
  simp only [hf]
  exact ⟨trivial, trivial, trivial⟩

/-- Mounting and unmounting, in one path string. -/
def demoCalls : List (Call Source) :=
  [.mount "/a/b".toList (flatSource 1 [(['x'], 0o100644)]), .mount "a/c/".toList (flatSource 2 [(['y'], 0o100644)]),
   .unmount "a/b".toList]

/-- A case of `C38_below`, `C38_above` and `C38_beside`. -/
example : ((specRun [] demoCalls).2.map (fun m => m.1)) = [[['a'], ['c']]] ∧
    (slookup (runCalls (.dir []) demoCalls).2 "/a/c/y".toList 0) = some ⟨0o100644, [], 0, [.str "a/c".toList, .own 0]⟩ ∧
    (slist (runCalls (.dir []) demoCalls).2 "/a".toList).map (fun l => l.keys) = some [['c']] ∧
    (slookup (runCalls (.dir []) demoCalls).2 "/a/b/x".toList 0) = none := by decide +kernel

/-! ## C39 -/

/-- The full statement of C39: what is looked up below a mount point can be opened in its source. -/
def C39_statement : Prop :=
  ∀ (h : List (Call Source)) (m : List Str × Source) (rest : List Str) (i : FileInfo), m ∈ (specRun [] h).2 →
    (∀ n ∈ m.1 ++ rest, IsName n) → slookup (runCalls (.dir []) h).2 (canonical (m.1 ++ rest)) 0 = some i →
    ∃ j, m.2.lookup (canonical rest) 0 = some j ∧ sopen (runCalls (.dir []) h).2 i = .ok (m.2, j)

/-- **C39**, mount points in the root. Missing from the full claim: deeper ones, see `C39_nested_fails`. -/
theorem C39_open_partial (h : List (Call Source)) (name : Str) (s : Source) (rest : List Str) (v : Int) (i : FileInfo)
    (hm : ([name], s) ∈ (specRun [] h).2) (hn : ∀ n ∈ name :: rest, IsName n)
    (hi : slookup (runCalls (.dir []) h).2 (canonical (name :: rest)) v = some i) :
    ∃ j, s.lookup (canonical rest) v = some j ∧ sopen (runCalls (.dir []) h).2 i = .ok (s, j) := by
  have hb := (C38_below h ([name], s) hm rest hn v).1
  simp only [List.singleton_append] at hb
  rw [hb] at hi
  obtain ⟨-, hr⟩ := run_refines h (.dir []) [] represents_empty
  obtain ⟨d, hd⟩ := hr.root
  rw [hd] at hr ⊢
  have hk := (hr.mounted [name] s).mpr hm
  rw [kindAt_cons] at hk
  cases hj : s.lookup (canonical rest) v with
  | none => rw [hj] at hi; cases hi
  | some j =>
    rw [hj] at hi
    simp only [Option.map_some, Option.some.injEq] at hi
    subst hi
    refine ⟨j, rfl, ?_⟩
    unfold sopen FileInfo.push
    simp only [join]
    cases hg : Dict.get? d name with
    | none => rw [hg] at hk; cases hk
    | some n =>
      rw [hg] at hk
      cases n with
      | dir d' => cases hk
      | mount s' => cases hk; rfl

/-- The names in the root of the tree have no slashes. -/
theorem root_names (h : List (Call Source)) (d : Folder Source) (hd : (runCalls (.dir []) h).2 = .dir d)
    (hn : ∀ m ∈ (specRun [] h).2, ∀ n ∈ m.1, IsName n) : ∀ k ∈ Dict.keys d, '/' ∉ k := by
  obtain ⟨-, hr⟩ := run_refines h (.dir []) [] represents_empty
  rw [hd] at hr
  intro k hk
  obtain ⟨n, hg⟩ := Option.isSome_iff_exists.mp ((Dict.mem_keys_iff d k).mp hk)
  have hk1 : kindAt [k] (.dir d) = kindAt [] n := by rw [kindAt_cons, hg]
  cases n with
  | mount s => exact (hn _ ((hr.mounted [k] s).mp hk1) k (by simp)).2.1
  | dir d' =>
    rcases (hr.folder [k]).mp hk1 with e | ⟨m, hm, hp, -⟩
    · cases e
    · exact (hn m hm k (hp.subset (by simp))).2.1

theorem spec_names (h : List (Call Source)) : ∀ A : Mounts Source, (∀ m ∈ A, ∀ n ∈ m.1, IsName n) →
    ∀ m ∈ (specRun A h).2, ∀ n ∈ m.1, IsName n := by
  induction h with
  | nil => intro A hA; exact hA
  | cons c cs ih =>
    intro A hA
    apply ih
    cases c with
    | mount path s =>
      show ∀ m ∈ (specMount A (namesOf path) s).2, _
      unfold specMount
      split
      · exact hA
      · split
        · exact hA
        · split
          · exact hA
          · intro m hm
            rcases List.mem_append.mp hm with hm | hm
            · exact hA m hm
            · rw [List.mem_singleton.mp hm]; exact namesOf_names path
    | unmount path =>
      show ∀ m ∈ (specUnmount A (namesOf path)).2, _
      unfold specUnmount
      split
      · exact hA
      · intro m hm
        exact hA m (List.mem_filter.mp hm).1

/-- No file below a mount point that is not in the root can be opened. -/
theorem C39_nested_fails (h : List (Call Source)) (m : List Str × Source) (hm : m ∈ (specRun [] h).2) (rest : List Str)
    (hn : ∀ n ∈ m.1 ++ rest, IsName n) (hdeep : 1 < m.1.length) (v : Int) (i : FileInfo)
    (hi : slookup (runCalls (.dir []) h).2 (canonical (m.1 ++ rest)) v = some i) :
    sopen (runCalls (.dir []) h).2 i = .error .keyError := by
  have hb := (C38_below h m hm rest hn v).1
  rw [hb] at hi
  obtain ⟨-, hr⟩ := run_refines h (.dir []) [] represents_empty
  obtain ⟨d, hd⟩ := hr.root
  have hroot := root_names h d hd (spec_names h [] (by simp))
  rw [hd]
  cases hj : m.2.lookup (canonical rest) v with
  | none => rw [hj] at hi; cases hi
  | some j =>
    rw [hj] at hi
    simp only [Option.map_some, Option.some.injEq] at hi
    subst hi
    unfold sopen FileInfo.push
    simp only
    cases hg : Dict.get? d (join '/' m.1) with
    | none => rfl
    | some n =>
      have := hroot _ ((Dict.mem_keys_iff d _).mpr (by rw [hg]; rfl))
      exfalso
      apply this
      obtain ⟨ms, s⟩ := m
      cases ms with
      | nil => simp at hdeep
      | cons a ms =>
        cases ms with
        | nil => simp at hdeep
        | cons b ms => simp [join]

/-- **C39 is violated by the code.** -/
theorem C39_violated : ¬ C39_statement := by
  intro h
  obtain ⟨j, -, hj⟩ := h [.mount "/a/b".toList (flatSource 1 [(['x'], 0o100644)])] ([['a'], ['b']], flatSource 1 [(['x'], 0o100644)])
    [['x']] ⟨0o100644, [], 0, [.str "a/b".toList, .own 0]⟩
    (by show _ ∈ [([['a'], ['b']], flatSource 1 [(['x'], 0o100644)])]; simp)
    (by intro n hn; simp at hn; rcases hn with rfl | rfl | rfl <;> (unfold IsName; decide)) (by decide +kernel)
  have := C39_nested_fails [.mount "/a/b".toList (flatSource 1 [(['x'], 0o100644)])] ([['a'], ['b']], flatSource 1 [(['x'], 0o100644)])
    (by show _ ∈ [([['a'], ['b']], flatSource 1 [(['x'], 0o100644)])]; simp) [['x']]
    (by intro n hn; simp at hn; rcases hn with rfl | rfl | rfl <;> (unfold IsName; decide)) (by decide) 0
    ⟨0o100644, [], 0, [.str "a/b".toList, .own 0]⟩ (by decide +kernel)
  rw [this] at hj
  cases hj

/-! ## C90 -/

/-- The full statement of C90: asking whether something can be mounted at a path tells whether mounting will succeed and
changes nothing. -/
def C90_statement : Prop :=
  ∀ (h : List (Call Source)) (path : Str) (s : Source),
    ((isMountable path (runCalls (.dir []) h).2).1 = true ↔ (mountAt path s (runCalls (.dir []) h).2).1 = .yes) ∧
    ∀ cs, kindOf (walkTo cs (isMountable path (runCalls (.dir []) h).2).2) = kindOf (walkTo cs (runCalls (.dir []) h).2)

/-- **C90**, the answer: it is yes exactly if mounting succeeds. -/
theorem C90_answer (t : Node σ) (path : Str) (s : σ) : (isMountable path t).1 = true ↔ (mountAt path s t).1 = .yes := by
  unfold isMountable mountAt
  by_cases hn : (parentName path).2 = []
  · rw [if_pos hn, hn]
    cases create (partsOf (parentName path).1) t with
    | none => simp
    | some t' => simp only; split <;> simp
  · rw [if_neg hn]
    have he : (!(parentName path).2.isEmpty) = true := by
      cases hh : (parentName path).2 with
      | nil => exact absurd hh hn
      | cons _ _ => rfl
    rw [he]
    cases create (partsOf (parentName path).1) t with
    | none => simp
    | some t' =>
      simp only
      cases walkTo (partsOf (parentName path).1) t' with
      | none => simp
      | some n =>
        cases n with
        | mount s' => simp
        | dir d =>
          simp only [Bool.true_and]
          cases Dict.has d (parentName path).2 <;> simp

/-- **C90**, the state: nothing changes if the parent folder of the path exists (or is below a mount point). Missing from the
full claim: missing parent folders, which are created. -/
theorem C90_state_partial (t : Node σ) (path : Str)
    (hp : ∀ x, x <+: (namesOf path).dropLast → kindAt x t ≠ .absent) (cs : List Str) :
    kindAt cs (isMountable path t).2 = kindAt cs t := by
  have hkey : ∀ par, (∀ x, x <+: par → kindAt x t ≠ .absent) → ∀ t', create par t = some t' → kindAt cs t' = kindAt cs t := by
    intro par hp t' hc
    have hk := create_kind par t t' hc cs
    cases hx : kindAt cs t with
    | absent => exact hk.2.1 hx (fun h => hp cs h hx)
    | folder => rw [hk.2.2 (by rw [hx]; simp), hx]
    | mounted s => rw [hk.2.2 (by rw [hx]; simp), hx]
  have hpar : partsOf (parentName path).1 = (namesOf path).dropLast := by
    rcases split_last (namesOf path) with hc | ⟨par, name, hc⟩
    · rw [(parentName_eq path).1 hc, hc]; rfl
    · have hn : ∀ n ∈ par, IsName n := fun n hn => namesOf_names path n (by rw [hc]; simp [hn])
      rw [(parentName_eq path).2 par name hc, hc, List.dropLast_concat]
      exact partsOf_prefixPath par hn
  unfold isMountable
  rw [hpar]
  cases hc : create (namesOf path).dropLast t with
  | none => rfl
  | some t' =>
    simp only
    have := hkey _ hp t' hc
    split <;> exact this

/-- **C90 is violated by the code**: the question creates the folder `/a`. -/
theorem C90_violated : ¬ C90_statement := by
  intro h
  have := (h [] "/a/b".toList (flatSource 1 [])).2 [['a']]
  have e1 : kindOf (walkTo [['a']] (isMountable "/a/b".toList (Node.dir [] : Node Source)).2) = .folder := by
    rw [show (isMountable "/a/b".toList (Node.dir [] : Node Source)).2 = .dir [(['a'], .dir [])] from by rfl]
    rfl
  have e2 : kindOf (walkTo [['a']] (Node.dir [] : Node Source)) = .absent := rfl
  rw [show (runCalls (.dir []) ([] : List (Call Source))).2 = .dir [] from rfl, e1, e2] at this
  cases this

/-- A case of `C90_state_partial`. -/
example : (namesOf "/x".toList).dropLast = [] ∧ kindAt [] (Node.dir [] : Node Source) ≠ .absent := by
  constructor
  · decide
  · simp [kindAt, walkTo, kindOf]

end Verif.Compose
