import Verif.Py
import Verif.Compose.Prefix
import Verif.Compose.Subvolumes
import Verif.Cli.IndexPaths

/-!
# C156, C157: commands written to the control file (ratarmount/FuseMount.py:478-647)

A command is a list of arguments as on the command line. The mounted process either carries it out itself, on its sub-volumes, or starts
a new process with arguments. The parser of the command line is not modelled: the arguments of a command are given as the list
`mount_source` and the flags `--unmount` and `--commit-overlay`.
-/

namespace Verif.Control

open Verif.Py Verif.Index Verif.Compose Verif.IndexPaths

variable {σ : Type}

/-- The state: the sub-volumes and the arguments of the processes that have been started (FuseMount.py:629-638). -/
structure State (σ : Type) where
  tree : Node σ
  started : List (List Str)

/-- `os.path.isabs` (Python library, used at FuseMount.py:564, 583, 600). -/
def isAbs : Str → Bool
  | '/' :: _ => true
  | _ => false

/-- What an absolute path means for the running process: the path below its own mount point (FuseMount.py:568-570, 601-604). -/
def ownPath (mountPoint path : Str) : Option Str :=
  match providedByUs mountPoint path with
  | none => none
  | some sub => if stripSlashes sub = [] then none else some sub

/-- The path of the sub-volume to unmount for a mount point; `none` for those of other processes and for exactly the own mount point
(FuseMount.py:563-571). -/
def target (mountPoint path : Str) : Option Str := if isAbs path then ownPath mountPoint path else some path

/-- The loop over the mount points (FuseMount.py:558-573): the absolute mount points of others and the sub-volumes afterwards. -/
def unmountLoop (mountPoint : Str) : List Str → Node σ → List Str × Node σ
  | [], t => ([], t)
  | p :: ps, t =>
    match target mountPoint p with
    | some sub => unmountLoop mountPoint ps (unmountAt sub t).2
    | none => (p :: (unmountLoop mountPoint ps t).1, (unmountLoop mountPoint ps t).2)

/-- What `_process_parsed_arguments` ends with: an exception, `sys.exit`, a new list of arguments or None (FuseMount.py:535-612). -/
inductive Ending where
  | raised (e : PyErr)
  | exited
  | changed (arguments : List Str)
  | unchanged
  deriving DecidableEq

/-- The arguments that are returned after unmounting (FuseMount.py:575-577). -/
def afterUnmount : List Str → Ending
  | [] => .exited
  | p :: ps => .changed ("--unmount".toList :: p :: ps)

/-- The branch for `--unmount` (FuseMount.py:551-577). -/
def processUnmount (mountPoint : Str) (points : List Str) (t : Node σ) : Ending × Node σ :=
  if points.filter (fun p => !p.isEmpty) = [] then (.raised .valueError, t)
  else (afterUnmount (unmountLoop mountPoint (points.filter (fun p => !p.isEmpty)) t).1,
    (unmountLoop mountPoint (points.filter (fun p => !p.isEmpty)) t).2)

/-- `_parse_command` after the arguments have been processed (FuseMount.py:617-647): a returned list is true, hence the command returns at
line 620. Only None leads to a process, with the original arguments. Exceptions are logged. -/
def finish (arguments : List Str) : Ending → List (List Str)
  | .raised _ => []
  | .exited => []
  | .changed _ => []
  | .unchanged => [arguments]

/-- A command `--unmount` with mount points (FuseMount.py:551-577, 614-647). -/
def unmountCommand (mountPoint : Str) (arguments points : List Str) (st : State σ) : State σ :=
  ⟨(processUnmount mountPoint points st.tree).2, st.started ++ finish arguments (processUnmount mountPoint points st.tree).1⟩

/-- An input that cannot be used: relative and not a URL (FuseMount.py:580-585). -/
def relativeInput (path : Str) : Bool := !isAbs path && !hasScheme path

/-- What is to be done for a command that mounts. -/
inductive Plan where
  | refuse (e : PyErr)
  | start
  | mount (sources : List Str) (point : Str)
  deriving DecidableEq

/-- Whether the last argument is mounted by the running process (FuseMount.py:590-611). `present` says which relative paths can be looked up
in the running mount. -/
def planLast (mountPoint : Str) (present : Str → Bool) (sources : List Str) (last : Str) : Plan :=
  if hasScheme last then .start
  else if isAbs last then
    match ownPath mountPoint last with
    | none => .start
    | some _ => .mount sources last
  else if present last then .refuse .valueError
  else .mount sources last

/-- The checks of a command that mounts (FuseMount.py:579-611). -/
def plan (mountPoint : Str) (present : Str → Bool) (commit : Bool) (arguments : List Str) : Plan :=
  if arguments.dropLast.any relativeInput then .refuse .valueError
  else if commit then .start
  else match arguments.getLast? with
    | none => .refuse .indexError
    | some last => planLast mountPoint present arguments.dropLast last

/-- `mount` after the check of the mount point (FuseMount.py:487-528). `opener` stands for the passwords, the options and the opening of the
sources, which may fail. -/
def mountOpened (mountPoint : Str) (opener : List Str → Except PyErr σ) (sources : List Str) (point : Str) (t : Node σ) : Node σ :=
  if sources.any (fun p => (providedByUs mountPoint p).isSome) then t
  else match opener sources with
    | .error _ => t
    | .ok s => (mountAt point s t).2

/-- `mount` (FuseMount.py:478-528). -/
def mountInside (mountPoint : Str) (opener : List Str → Except PyErr σ) (sources : List Str) (point : Str) (t : Node σ) : Node σ :=
  if point = [] then t
  else if sources = [] then t
  else if (isMountable point t).1 then mountOpened mountPoint opener sources point (isMountable point t).2
  else (isMountable point t).2

/-- A command that mounts (FuseMount.py:579-647). -/
def mountCommand (mountPoint : Str) (present : Str → Bool) (opener : List Str → Except PyErr σ) (commit : Bool) (raw arguments : List Str)
    (st : State σ) : State σ :=
  match plan mountPoint present commit arguments with
  | .refuse _ => st
  | .start => ⟨st.tree, st.started ++ [raw]⟩
  | .mount sources point => ⟨mountInside mountPoint opener sources point st.tree, st.started⟩

/-! ## specification -/

/-- The names of the sub-volume that a path means for a process that is mounted at the names `ms`: those of a relative path, and those that
follow for an absolute path below `ms`. -/
inductive Means (ms : List Str) : Str → List Str → Prop where
  | relative (path : Str) : isAbs path = false → Means ms path (namesOf path)
  | absolute (cs : List Str) : cs ≠ [] → (∀ n ∈ cs, IsName n) → Means ms (canonical (ms ++ cs)) cs

/-- A path belongs to others: absolute, made of names, and not below the mount point. -/
def Elsewhere (ms : List Str) (path : Str) : Prop :=
  ∃ ns, (∀ n ∈ ns, IsName n) ∧ path = canonical ns ∧ ¬ (ms <+: ns ∧ ms ≠ ns)

/-- **C156**: for every path that is named in a command to unmount, nothing is mounted there afterwards if it lies in the running mount, and
some process is asked to unmount it if it does not. -/
def C156_statement : Prop :=
  ∀ (h : List (Call Nat)) (ms : List Str), ms ≠ [] → (∀ n ∈ ms, IsName n) → ∀ (started : List (List Str)) (points : List Str) (p : Str), p ∈ points →
    (∀ cs, Means ms p cs → ∀ s : Nat, kindAt cs (unmountCommand (canonical ms) ("--unmount".toList :: points) points
        ⟨(runCalls (.dir []) h).2, started⟩).tree ≠ .mounted s) ∧
    (Elsewhere ms p → ∃ a ∈ (unmountCommand (canonical ms) ("--unmount".toList :: points) points
        ⟨(runCalls (.dir []) h).2, started⟩).started, a.head? = some "--unmount".toList ∧ p ∈ a)

/-- **C157**: a command to mount a source at a path that lies in the running mount makes it appear there, if nothing is in the way. -/
def C157_statement : Prop :=
  ∀ (h : List (Call Nat)) (ms : List Str), ms ≠ [] → (∀ n ∈ ms, IsName n) → ∀ (started : List (List Str)) (source point : Str) (cs : List Str) (s : Nat),
    Elsewhere ms source → Means ms point cs → hasScheme point = false → (specMount (specRun [] h).2 cs s).1 = .yes →
    kindAt cs (mountCommand (canonical ms) (fun _ => false) (fun _ => .ok s) false [source, point] [source, point]
      ⟨(runCalls (.dir []) h).2, started⟩).tree = .mounted s

/-! ## lemmas -/

theorem startsWith_append (a b : Str) : startsWith a (a ++ b) = true := List.isPrefixOf_iff_prefix.mpr (List.prefix_append a b)

theorem provided_below (ms cs : List Str) (hm : ms ≠ []) (hc : cs ≠ []) (h1 : ∀ n ∈ ms, IsName n) (h2 : ∀ n ∈ cs, IsName n) :
    providedByUs (canonical ms) (canonical (ms ++ cs)) = some (join '/' cs) := by
  have hall : ∀ n ∈ ms ++ cs, IsName n := fun n hn => (List.mem_append.mp hn).elim (h1 n) (h2 n)
  unfold providedByUs
  simp only [posixNormpath_canonical _ hall]
  rw [if_neg, canonical_append ms cs hm hc]
  · have e : canonical ms ++ '/' :: join '/' cs = (canonical ms ++ ['/']) ++ join '/' cs := by simp
    rw [e, if_pos (startsWith_append _ _)]
    rw [List.drop_left' (by simp)]
  · intro he
    have := canonical_inj hall h1 he
    have hl := congrArg List.length this
    have := List.length_pos_iff.mpr hc
    rw [List.length_append] at hl
    omega

theorem namesOf_join (cs : List Str) (hc : cs ≠ []) (h : ∀ n ∈ cs, IsName n) : namesOf (join '/' cs) = cs := by
  unfold namesOf
  rw [split_join '/' cs hc (fun n hn => (h n hn).2.1), walk_names cs [] h, List.nil_append]

theorem strip_join (cs : List Str) (hc : cs ≠ []) (h : ∀ n ∈ cs, IsName n) : stripSlashes (join '/' cs) ≠ [] := by
  have h1 := strip_canonical cs h
  rw [canonical_eq] at h1
  have h2 : stripSlashes ('/' :: join '/' cs) = stripSlashes (join '/' cs) := rfl
  rw [← h2, h1]
  exact join_ne_nil cs hc h

theorem isAbs_canonical (ns : List Str) : isAbs (canonical ns) = true := by rw [canonical_eq]; rfl

theorem target_means {ms : List Str} (hm : ms ≠ []) (h1 : ∀ n ∈ ms, IsName n) {p : Str} {cs : List Str} (h : Means ms p cs) :
    ∃ sub, target (canonical ms) p = some sub ∧ namesOf sub = cs := by
  cases h with
  | relative _ hr => exact ⟨p, by unfold target; rw [hr]; rfl, rfl⟩
  | absolute _ hc h2 =>
    refine ⟨join '/' cs, ?_, namesOf_join cs hc h2⟩
    unfold target ownPath
    rw [isAbs_canonical, if_pos rfl, provided_below ms cs hm hc h1 h2]
    simp only
    rw [if_neg (strip_join cs hc h2)]

theorem provided_same (ms : List Str) (h1 : ∀ n ∈ ms, IsName n) : providedByUs (canonical ms) (canonical ms) = some [] := by
  unfold providedByUs
  simp only [posixNormpath_canonical ms h1, if_true]

theorem target_elsewhere {ms : List Str} (hm : ms ≠ []) (h1 : ∀ n ∈ ms, IsName n) {p : Str} (h : Elsewhere ms p) :
    target (canonical ms) p = none := by
  obtain ⟨ns, hn, rfl, hout⟩ := h
  unfold target ownPath
  rw [isAbs_canonical, if_pos rfl]
  cases hp : providedByUs (canonical ms) (canonical ns) with
  | none => rfl
  | some sub =>
    have hpre := (provided_iff ms ns hm h1 hn).mp (by rw [hp]; rfl)
    have he : ms = ns := Classical.not_not.mp (fun hne => hout ⟨hpre, hne⟩)
    subst he
    rw [provided_same ms h1] at hp
    cases hp
    rfl

/-- The mount points that remain after some paths have been unmounted. -/
def remaining (mountPoint : Str) : List Str → Mounts σ → Mounts σ
  | [], A => A
  | p :: ps, A =>
    match target mountPoint p with
    | some sub => remaining mountPoint ps (specUnmount A (namesOf sub)).2
    | none => remaining mountPoint ps A

theorem specUnmount_filter (A : Mounts σ) (cs : List Str) : (specUnmount A cs).2 = A.filter (fun m => m.1 != cs) := by
  unfold specUnmount
  cases hf : A.find? (fun m => m.1 == cs) with
  | some m => rfl
  | none =>
    simp only
    symm
    rw [List.filter_eq_self]
    intro m hm
    have := List.find?_eq_none.mp hf m hm
    simpa using this

theorem loop_refines (mountPoint : Str) (ps : List Str) : ∀ (t : Node σ) (A : Mounts σ), Represents t A →
    Represents (unmountLoop mountPoint ps t).2 (remaining mountPoint ps A) := by
  induction ps with
  | nil => intro t A h; exact h
  | cons p ps ih =>
    intro t A h
    unfold unmountLoop remaining
    cases ht : target mountPoint p with
    | none => exact ih t A h
    | some sub => exact ih _ _ (unmount_refines sub t A h).2

theorem loop_others (mountPoint : Str) (ps : List Str) : ∀ (t : Node σ),
    (unmountLoop mountPoint ps t).1 = ps.filter (fun p => (target mountPoint p).isNone) := by
  induction ps with
  | nil => intro t; rfl
  | cons p ps ih =>
    intro t
    unfold unmountLoop
    cases ht : target mountPoint p with
    | none => simp only [List.filter_cons, ht, Option.isNone_none, if_true, ih]
    | some sub => simp only [List.filter_cons, ht, Option.isNone_some, ih]; rfl

theorem mem_remaining (mountPoint : Str) (ps : List Str) : ∀ (A : Mounts σ) (m : List Str × σ),
    m ∈ remaining mountPoint ps A ↔ m ∈ A ∧ ∀ p ∈ ps, ∀ sub, target mountPoint p = some sub → namesOf sub ≠ m.1 := by
  induction ps with
  | nil => intro A m; simp [remaining]
  | cons p ps ih =>
    intro A m
    unfold remaining
    cases ht : target mountPoint p with
    | none =>
      simp only [ih]
      constructor
      · rintro ⟨h1, h2⟩
        refine ⟨h1, fun q hq sub hs => ?_⟩
        cases hq with
        | head => rw [ht] at hs; cases hs
        | tail _ hq => exact h2 q hq sub hs
      · rintro ⟨h1, h2⟩
        exact ⟨h1, fun q hq => h2 q (List.mem_cons_of_mem _ hq)⟩
    | some sub =>
      simp only [ih, specUnmount_filter, List.mem_filter]
      constructor
      · rintro ⟨⟨h1, h3⟩, h2⟩
        refine ⟨h1, fun q hq sub' hs => ?_⟩
        cases hq with
        | head =>
          rw [ht] at hs
          cases hs
          intro he
          rw [he] at h3
          simp at h3
        | tail _ hq => exact h2 q hq sub' hs
      · rintro ⟨h1, h2⟩
        refine ⟨⟨h1, ?_⟩, fun q hq => h2 q (List.mem_cons_of_mem _ hq)⟩
        have := h2 p (by simp) sub ht
        simp only [bne_iff_ne]
        exact fun he => this he.symm

theorem command_refines (mountPoint : Str) (arguments points : List Str) (t : Node σ) (A : Mounts σ) (started : List (List Str))
    (h : Represents t A) :
    Represents (unmountCommand mountPoint arguments points ⟨t, started⟩).tree
      (remaining mountPoint (points.filter (fun p => !p.isEmpty)) A) := by
  unfold unmountCommand processUnmount
  simp only
  split
  · next he => rw [he]; exact h
  · exact loop_refines _ _ t A h

/-! ## C156 -/

/-- **C156**, provable part: all mount points inside the running mount that are named are gone afterwards, in any mixture with
others. Missing: mount points of other processes; see `C156_violated`. -/
theorem C156_inside_partial (h : List (Call σ)) (ms : List Str) (hm : ms ≠ []) (h1 : ∀ n ∈ ms, IsName n) (started : List (List Str))
    (arguments points : List Str) (p : Str) (hp : p ∈ points) (hne : p ≠ []) (cs : List Str) (hc : Means ms p cs) (s : σ) :
    kindAt cs (unmountCommand (canonical ms) arguments points ⟨(runCalls (.dir []) h).2, started⟩).tree ≠ .mounted s := by
  obtain ⟨-, hr⟩ := run_refines h (.dir []) [] represents_empty
  intro hk
  have hmem := ((command_refines (canonical ms) arguments points _ _ started hr).mounted cs s).mp hk
  obtain ⟨sub, ht, hs⟩ := target_means hm h1 hc
  have hf : p ∈ points.filter (fun p => !p.isEmpty) := List.mem_filter.mpr ⟨hp, by cases p with | nil => exact absurd rfl hne | cons _ _ => rfl⟩
  exact ((mem_remaining _ _ _ _).mp hmem).2 p hf sub ht hs

/-- **C156**: what is mounted elsewhere stays. -/
theorem C156_others_stay (h : List (Call σ)) (ms : List Str) (started : List (List Str)) (arguments points : List Str) (cs : List Str) (s : σ)
    (hk : kindAt cs (runCalls (.dir []) h).2 = .mounted s)
    (hout : ∀ p ∈ points, isAbs p = false → namesOf p ≠ cs)
    (habs : ∀ p ∈ points, isAbs p = true → ∀ sub, providedByUs (canonical ms) p = some sub → namesOf sub ≠ cs) :
    kindAt cs (unmountCommand (canonical ms) arguments points ⟨(runCalls (.dir []) h).2, started⟩).tree = .mounted s := by
  obtain ⟨-, hr⟩ := run_refines h (.dir []) [] represents_empty
  refine ((command_refines (canonical ms) arguments points _ _ started hr).mounted cs s).mpr ((mem_remaining _ _ _ _).mpr
    ⟨(hr.mounted cs s).mp hk, fun p hp sub ht => ?_⟩)
  have hp := (List.mem_filter.mp hp).1
  unfold target at ht
  cases ha : isAbs p with
  | false => rw [ha] at ht; cases ht; exact hout p hp ha
  | true =>
    rw [ha, if_pos rfl] at ht
    unfold ownPath at ht
    cases hq : providedByUs (canonical ms) p with
    | none => rw [hq] at ht; cases ht
    | some sub' =>
      rw [hq] at ht
      replace ht : (if stripSlashes sub' = [] then none else some sub') = some sub := ht
      by_cases hz : stripSlashes sub' = []
      · rw [if_pos hz] at ht; cases ht
      · rw [if_neg hz] at ht; cases ht; exact habs p hp ha _ hq

/-- **C156**: no command to unmount starts a process, whatever it names. -/
theorem C156_never_started (mountPoint : Str) (arguments points : List Str) (st : State σ) :
    (unmountCommand mountPoint arguments points st).started = st.started := by
  unfold unmountCommand processUnmount
  simp only
  split
  · simp [finish]
  · unfold afterUnmount
    split <;> simp [finish]

/-- **C156**: the arguments computed for the other process would be right: `--unmount` and exactly the mount points of others. -/
theorem C156_arguments (ms : List Str) (hm : ms ≠ []) (h1 : ∀ n ∈ ms, IsName n) (points : List Str) (t : Node σ) (p : Str) (hp : p ∈ points)
    (hne : p ≠ []) (h : Elsewhere ms p) :
    ∃ a, (processUnmount (canonical ms) points t).1 = .changed ("--unmount".toList :: a) ∧ p ∈ a ∧
      ∀ q ∈ a, q ∈ points ∧ ∀ cs, ¬ Means ms q cs := by
  have hf : p ∈ points.filter (fun p => !p.isEmpty) := List.mem_filter.mpr ⟨hp, by cases p with | nil => exact absurd rfl hne | cons _ _ => rfl⟩
  have hmem : p ∈ (unmountLoop (canonical ms) (points.filter (fun p => !p.isEmpty)) t).1 := by
    rw [loop_others]
    exact List.mem_filter.mpr ⟨hf, by rw [target_elsewhere hm h1 h]; rfl⟩
  refine ⟨(unmountLoop (canonical ms) (points.filter (fun p => !p.isEmpty)) t).1, ?_, hmem, fun q hq => ?_⟩
  · unfold processUnmount
    rw [if_neg (List.ne_nil_of_mem hf)]
    simp only
    cases hl : (unmountLoop (canonical ms) (points.filter (fun p => !p.isEmpty)) t).1 with
    | nil => rw [hl] at hmem; cases hmem
    | cons a as => rfl
  · rw [loop_others] at hq
    obtain ⟨h2, h3⟩ := List.mem_filter.mp hq
    refine ⟨(List.mem_filter.mp h2).1, fun cs hc => ?_⟩
    obtain ⟨sub, ht, -⟩ := target_means hm h1 hc
    rw [ht] at h3
    cases h3

/-- **C156** is violated: `--unmount /b` written to the control file of a process mounted at `/a` does nothing. -/
theorem C156_violated : ¬ C156_statement := by
  intro h
  have ha : ∀ n ∈ [['a']], IsName n := by simp [IsName]
  have hb : ∀ n ∈ [['b']], IsName n := by simp [IsName]
  obtain ⟨a, ha, -⟩ := (h [] [['a']] (by simp) ha [] ["/b".toList] "/b".toList (by simp)).2 ⟨[['b']], hb, rfl, by decide⟩
  rw [C156_never_started] at ha
  cases ha

/-- A case with a sub-volume, the own mount point and another one. -/
example : (unmountCommand "/mnt".toList [] ["x/y".toList, "/mnt/z".toList, "/mnt".toList, "/other".toList]
      ⟨(runCalls (.dir []) [Call.mount "x/y".toList 1, .mount "z".toList 2, .mount "w".toList 3]).2, []⟩).tree
    = (runCalls (.dir []) [Call.mount "w".toList 3]).2 := by rfl

example : Means [['m']] "/m/z".toList [['z']] := .absolute [['z']] (by simp) (by simp [IsName])

/-! ## C157 -/

theorem set_set (d : Folder σ) (p : Str) (n m : Node σ) : Dict.set (Dict.set d p n) p m = Dict.set d p m := by
  induction d with
  | nil => simp [Dict.set]
  | cons x d ih =>
    obtain ⟨k, v⟩ := x
    show Dict.set (if k = p then (k, n) :: d else (k, v) :: Dict.set d p n) p m = if k = p then (k, m) :: d else (k, v) :: Dict.set d p m
    split
    · next hk => show (if k = p then (k, m) :: d else _) = _; rw [if_pos hk]
    · next hk => show (if k = p then _ else (k, v) :: Dict.set (Dict.set d p n) p m) = _; rw [if_neg hk, ih]

theorem create_mkdirs (ps : List Str) : create ps (mkdirs ps : Node σ) = some (mkdirs ps) := by
  induction ps with
  | nil => rfl
  | cons p ps ih =>
    simp only [mkdirs, create]
    rw [show Dict.get? ([(p, mkdirs ps)] : Folder σ) p = some (mkdirs ps) from by simp [Dict.get?]]
    simp only [ih]
    simp [Dict.set]

theorem create_again (ps : List Str) : ∀ (t t' : Node σ), create ps t = some t' → create ps t' = some t' := by
  induction ps with
  | nil => intro t t' h; rfl
  | cons p ps ih =>
    intro t t' h
    cases t with
    | mount s => cases h
    | dir d =>
      simp only [create] at h
      cases hg : Dict.get? d p with
      | none =>
        rw [hg] at h
        cases h
        simp only [create]
        rw [Dict.get?_set, if_pos rfl]
        simp only [create_mkdirs]
        rw [set_set]
      | some n =>
        rw [hg] at h
        simp only at h
        cases hc : create ps n with
        | none => rw [hc] at h; cases h
        | some n' =>
          rw [hc] at h
          cases h
          simp only [create]
          rw [Dict.get?_set, if_pos rfl]
          simp only [ih n n' hc]
          rw [set_set]

/-- Mounting after asking whether one can gives what mounting alone gives. -/
theorem mount_asked (path : Str) (s : σ) (t : Node σ) (h : (isMountable path t).1 = true) : mountAt path s (isMountable path t).2 = mountAt path s t := by
  cases hc : create (partsOf (parentName path).1) t with
  | none => unfold isMountable at h; rw [hc] at h; cases h
  | some t' =>
    have e : (isMountable path t).2 = t' := by unfold isMountable; rw [hc]; simp only; split <;> rfl
    have hz : (parentName path).2 ≠ [] := by
      intro hz
      unfold isMountable at h
      rw [hc, hz] at h
      simp only at h
      split at h <;> cases h
    rw [e]
    unfold mountAt
    rw [if_neg hz, if_neg hz, create_again _ t t' hc, hc]

theorem mountInside_ok (mountPoint : Str) (opener : List Str → Except PyErr σ) (sources : List Str) (point : Str) (t : Node σ) (s : σ)
    (hp : point ≠ []) (hs : sources ≠ []) (hm : (mountAt point s t).1 = .yes)
    (hout : ∀ p ∈ sources, providedByUs mountPoint p = none) (ho : opener sources = .ok s) :
    mountInside mountPoint opener sources point t = (mountAt point s t).2 := by
  have ha := (C90_answer t point s).mpr hm
  have hany : sources.any (fun p => (providedByUs mountPoint p).isSome) = false := by
    rw [List.any_eq_false]
    intro p hp
    rw [hout p hp]
    simp
  unfold mountInside mountOpened
  rw [if_neg hp, if_neg hs, if_pos ha, hany, ho]
  simp only [Bool.false_eq_true, if_false]
  rw [mount_asked point s t ha]

theorem plan_relative (mountPoint : Str) (present : Str → Bool) (sources : List Str) (point : Str)
    (hs : ∀ p ∈ sources, isAbs p = true ∨ hasScheme p = true) (h1 : isAbs point = false) (h2 : hasScheme point = false)
    (h3 : present point = false) : plan mountPoint present false (sources ++ [point]) = .mount sources point := by
  unfold plan planLast
  have hany : sources.any relativeInput = false := by
    rw [List.any_eq_false]
    intro p hp
    unfold relativeInput
    rcases hs p hp with h | h <;> rw [h] <;> simp
  simp only [List.dropLast_concat, hany, List.getLast?_concat, h1, h2, h3, Bool.false_eq_true, if_false]

theorem specMount_yes {A : Mounts σ} {cs : List Str} {s : σ} (h : (specMount A cs s).1 = .yes) : (specMount A cs s).2 = A ++ [(cs, s)] := by
  unfold specMount at h ⊢
  by_cases h1 : cs = []
  · rw [if_pos h1] at h; cases h
  · rw [if_neg h1] at h ⊢
    by_cases h2 : (A.any (fun m => m.1.isPrefixOf cs.dropLast && m.1 != cs.dropLast)) = true
    · rw [if_pos h2] at h; cases h
    · rw [if_neg h2] at h ⊢
      by_cases h3 : (A.any (fun m => m.1.isPrefixOf cs || cs.isPrefixOf m.1)) = true
      · rw [if_pos h3] at h; cases h
      · rw [if_neg h3]

theorem asked_mounted (path : Str) (t : Node σ) (cs : List Str) (s : σ) :
    kindAt cs (isMountable path t).2 = .mounted s ↔ kindAt cs t = .mounted s := by
  unfold isMountable
  cases hc : create (partsOf (parentName path).1) t with
  | none => exact Iff.rfl
  | some t' =>
    have hk := create_kind _ t t' hc cs
    have key : kindAt cs t' = .mounted s ↔ kindAt cs t = .mounted s := by
      cases hx : kindAt cs t with
      | absent =>
        by_cases hp : cs <+: partsOf (parentName path).1
        · rw [hk.1 hx hp]; simp
        · rw [hk.2.1 hx hp]
      | folder => rw [hk.2.2 (by rw [hx]; simp), hx]
      | mounted s' => rw [hk.2.2 (by rw [hx]; simp), hx]
    simp only
    split <;> exact key

theorem inside_cases (mountPoint : Str) (opener : List Str → Except PyErr σ) (sources : List Str) (point : Str) (t : Node σ) :
    mountInside mountPoint opener sources point t = t ∨ mountInside mountPoint opener sources point t = (isMountable point t).2 ∨
    ∃ s, (mountAt point s t).1 = .yes ∧ opener sources = .ok s ∧ mountInside mountPoint opener sources point t = (mountAt point s t).2 := by
  unfold mountInside mountOpened
  split
  · exact .inl rfl
  · split
    · exact .inl rfl
    · split
      · next ha =>
        split
        · exact .inr (.inl rfl)
        · cases ho : opener sources with
          | error e => exact .inr (.inl rfl)
          | ok s => exact .inr (.inr ⟨s, (C90_answer t point s).mp ha, rfl, by rw [← mount_asked point s t ha]⟩)
      · exact .inr (.inl rfl)

/-- **C157**, provable part: with a relative path as mount point that does not exist, and sources outside that can be opened, the sub-volumes
are those of before and the new one, at the names of the path. No process is started. Missing: absolute mount points; see `C157_violated`. -/
theorem C157_relative_partial (h : List (Call σ)) (mountPoint : Str) (present : Str → Bool) (opener : List Str → Except PyErr σ) (raw : List Str)
    (started : List (List Str)) (sources : List Str) (point : Str) (s : σ) (hne : sources ≠ []) (hp : point ≠ [])
    (hs : ∀ p ∈ sources, isAbs p = true ∨ hasScheme p = true) (hout : ∀ p ∈ sources, providedByUs mountPoint p = none)
    (h1 : isAbs point = false) (h2 : hasScheme point = false) (h3 : present point = false)
    (ho : opener sources = .ok s) (hm : (specMount (specRun [] h).2 (namesOf point) s).1 = .yes) :
    Represents (mountCommand mountPoint present opener false raw (sources ++ [point]) ⟨(runCalls (.dir []) h).2, started⟩).tree
        ((specRun [] h).2 ++ [(namesOf point, s)]) ∧
    (mountCommand mountPoint present opener false raw (sources ++ [point]) ⟨(runCalls (.dir []) h).2, started⟩).started = started := by
  obtain ⟨-, hr⟩ := run_refines h (.dir []) [] represents_empty
  obtain ⟨ha, hrep⟩ := mount_refines point s _ _ hr
  unfold mountCommand
  rw [plan_relative mountPoint present sources point hs h1 h2 h3]
  simp only
  rw [mountInside_ok mountPoint opener sources point _ s hp hne (by rw [ha, hm]) hout ho]
  refine ⟨?_, trivial⟩
  rw [← specMount_yes hm]
  exact hrep

/-- **C157**: whatever the command, the sub-volumes that were there stay, and at most the path that is written last gets a new one, with
the opened source. -/
theorem C157_only (h : List (Call σ)) (mountPoint : Str) (present : Str → Bool) (opener : List Str → Except PyErr σ) (commit : Bool)
    (raw arguments : List Str) (started : List (List Str)) (cs : List Str) (s : σ) :
    (kindAt cs (runCalls (.dir []) h).2 = .mounted s →
      kindAt cs (mountCommand mountPoint present opener commit raw arguments ⟨(runCalls (.dir []) h).2, started⟩).tree = .mounted s) ∧
    (kindAt cs (mountCommand mountPoint present opener commit raw arguments ⟨(runCalls (.dir []) h).2, started⟩).tree = .mounted s →
      kindAt cs (runCalls (.dir []) h).2 = .mounted s ∨
      ∃ point, arguments.getLast? = some point ∧ namesOf point = cs ∧ opener arguments.dropLast = .ok s) := by
  obtain ⟨-, hr⟩ := run_refines h (.dir []) [] represents_empty
  unfold mountCommand plan
  split
  · next hq => exact ⟨fun hk => hk, fun hk => .inl hk⟩
  · next hq => exact ⟨fun hk => hk, fun hk => .inl hk⟩
  · next sources point hq =>
    have hlast : arguments.getLast? = some point ∧ sources = arguments.dropLast := by
      split at hq
      · cases hq
      · split at hq
        · cases hq
        · split at hq
          · cases hq
          · next last hl =>
            unfold planLast at hq
            split at hq
            · cases hq
            · split at hq
              · split at hq
                · cases hq
                · cases hq; exact ⟨hl, rfl⟩
              · split at hq
                · cases hq
                · cases hq; exact ⟨hl, rfl⟩
    simp only
    refine ⟨fun hk => ?_, fun hk => ?_⟩
    · rcases inside_cases mountPoint opener sources point (runCalls (.dir []) h).2 with he | he | ⟨s', hy, ho, he⟩
      · rw [he]; exact hk
      · rw [he]; exact (asked_mounted point _ cs s).mpr hk
      · rw [he]
        obtain ⟨h1, h2⟩ := mount_refines point s' _ _ hr
        refine (h2.mounted cs s).mpr ?_
        have := (hr.mounted cs s).mp hk
        rw [h1] at hy
        rw [specMount_yes hy]
        exact List.mem_append_left _ this
    · rcases inside_cases mountPoint opener sources point (runCalls (.dir []) h).2 with he | he | ⟨s', hy, ho, he⟩
      · rw [he] at hk; exact .inl hk
      · rw [he] at hk; exact .inl ((asked_mounted point _ cs s).mp hk)
      · rw [he] at hk
        obtain ⟨h1, h2⟩ := mount_refines point s' _ _ hr
        have := (h2.mounted cs s).mp hk
        rw [h1] at hy
        rw [specMount_yes hy] at this
        rcases List.mem_append.mp this with hm | hm
        · exact .inl ((hr.mounted cs s).mpr hm)
        · cases List.mem_singleton.mp hm
          exact .inr ⟨point, hlast.1, rfl, hlast.2 ▸ ho⟩

/-- **C157**: a mount point that is absolute and lies in the running mount is not shortened: the source appears at the names of the whole
path, below the mount point. -/
theorem C157_absolute (h : List (Call σ)) (ms : List Str) (hm : ms ≠ []) (h1 : ∀ n ∈ ms, IsName n) (present : Str → Bool)
    (opener : List Str → Except PyErr σ) (raw : List Str) (started : List (List Str)) (source : Str) (cs : List Str) (hc : cs ≠ [])
    (h2 : ∀ n ∈ cs, IsName n) (hu : hasScheme (canonical (ms ++ cs)) = false) (ha : isAbs source = true)
    (hout : providedByUs (canonical ms) source = none) (s : σ) (ho : opener [source] = .ok s)
    (hy : (specMount (specRun [] h).2 (ms ++ cs) s).1 = .yes) :
    kindAt (ms ++ cs) (mountCommand (canonical ms) present opener false raw [source, canonical (ms ++ cs)]
      ⟨(runCalls (.dir []) h).2, started⟩).tree = .mounted s := by
  obtain ⟨-, hr⟩ := run_refines h (.dir []) [] represents_empty
  have hall : ∀ n ∈ ms ++ cs, IsName n := fun n hn => (List.mem_append.mp hn).elim (h1 n) (h2 n)
  have hn : namesOf (canonical (ms ++ cs)) = ms ++ cs := by
    have := namesOf_names (canonical (ms ++ cs))
    rw [canonical_eq]
    have hj := namesOf_join (ms ++ cs) (by simp [hm]) hall
    unfold namesOf at hj ⊢
    rw [← walk_split_lstrip] at hj ⊢
    exact hj
  have hplan : plan (canonical ms) present false [source, canonical (ms ++ cs)] = .mount [source] (canonical (ms ++ cs)) := by
    unfold plan planLast ownPath
    rw [show [source, canonical (ms ++ cs)].dropLast = [source] from rfl, show [source, canonical (ms ++ cs)].getLast? = some (canonical (ms ++ cs)) from rfl]
    simp only [List.any_cons, List.any_nil, relativeInput, ha, hu, isAbs_canonical, provided_below ms cs hm hc h1 h2, strip_join cs hc h2]
    simp
  obtain ⟨he, hrep⟩ := mount_refines (canonical (ms ++ cs)) s _ _ hr
  rw [hn] at he hrep
  unfold mountCommand
  rw [hplan]
  simp only
  rw [mountInside_ok (canonical ms) opener [source] (canonical (ms ++ cs)) _ s (by rw [canonical_eq]; simp) (by simp) (by rw [he, hy])
    (fun p hp => by rw [List.mem_singleton.mp hp]; exact hout) ho]
  refine (hrep.mounted _ s).mpr ?_
  rw [specMount_yes hy]
  simp

/-- **C157** is violated: `/s /m/z`, written to the control file of a process mounted at `/m`, makes the source appear at `/m/m/z` instead
of `/m/z`. -/
theorem C157_violated : ¬ C157_statement := by
  intro h
  have hm : ∀ n ∈ [['m']], IsName n := by simp [IsName]
  have hs : ∀ n ∈ [['s']], IsName n := by simp [IsName]
  have hz : ∀ n ∈ [['z']], IsName n := by simp [IsName]
  have := h [] [['m']] (by simp) hm [] "/s".toList (canonical ([['m']] ++ [['z']])) [['z']] 7 ⟨[['s']], hs, rfl, by decide⟩
    (.absolute [['z']] (by simp) hz) rfl rfl
  rw [show kindAt [['z']] _ = Kind.absent from rfl] at this
  cases this

/-- Hypotheses of `C157_relative_partial` and `C157_absolute`. -/
example : (specMount (specRun [] [Call.mount "a/b".toList 1]).2 (namesOf "a/c".toList) 2).1 = .yes ∧ isAbs "a/c".toList = false ∧
    hasScheme "a/c".toList = false ∧ isAbs "/s.tar".toList = true ∧ providedByUs "/m".toList "/s.tar".toList = none := by decide

example : (specMount (specRun [] [Call.mount "a/b".toList 1]).2 ([['m']] ++ [['z']]) 2).1 = .yes := by decide

/-- **C157**: a command with a source that is a relative path is refused. Nothing is mounted and no process is started. -/
theorem C157_refused (mountPoint : Str) (present : Str → Bool) (opener : List Str → Except PyErr σ) (commit : Bool) (raw arguments : List Str)
    (st : State σ) (p : Str) (hp : p ∈ arguments.dropLast) (h1 : isAbs p = false) (h2 : hasScheme p = false) :
    mountCommand mountPoint present opener commit raw arguments st = st := by
  have h : arguments.dropLast.any relativeInput = true := List.any_eq_true.mpr ⟨p, hp, by unfold relativeInput; rw [h1, h2]; rfl⟩
  unfold mountCommand plan
  rw [if_pos h]

/-- **C157**: a command whose mount point is a URL or belongs to others starts a process with its arguments as they were written, and the
running mount stays as it is. -/
theorem C157_started (ms : List Str) (hm : ms ≠ []) (hn : ∀ n ∈ ms, IsName n) (present : Str → Bool) (opener : List Str → Except PyErr σ)
    (commit : Bool) (raw sources : List Str) (point : Str) (st : State σ) (hs : ∀ p ∈ sources, isAbs p = true ∨ hasScheme p = true)
    (hp : hasScheme point = true ∨ commit = true ∨ (Elsewhere ms point ∧ point ≠ canonical ms)) :
    mountCommand (canonical ms) present opener commit raw (sources ++ [point]) st = ⟨st.tree, st.started ++ [raw]⟩ := by
  have h0 : ¬ (sources.any relativeInput = true) := by
    intro h
    obtain ⟨p, hp, hr⟩ := List.any_eq_true.mp h
    unfold relativeInput at hr
    rcases hs p hp with h | h <;> rw [h] at hr <;> simp at hr
  have hplan : plan (canonical ms) present commit (sources ++ [point]) = .start := by
    unfold plan
    rw [List.dropLast_concat, if_neg h0, List.getLast?_concat]
    by_cases hc : commit = true
    · rw [if_pos hc]
    · rw [if_neg hc]
      simp only
      unfold planLast
      by_cases hu : hasScheme point = true
      · rw [if_pos hu]
      · rw [if_neg hu]
        rcases hp with h | h | ⟨⟨ns, h1, rfl, h3⟩, h4⟩
        · exact absurd h hu
        · exact absurd h hc
        · rw [if_pos (isAbs_canonical ns)]
          have : ownPath (canonical ms) (canonical ns) = none := by
            unfold ownPath
            cases hv : providedByUs (canonical ms) (canonical ns) with
            | none => rfl
            | some x =>
              exfalso
              have hpre := (IndexPaths.provided_iff ms ns hm hn h1).mp (by rw [hv]; rfl)
              exact h3 ⟨hpre, fun e => h4 (by rw [e])⟩
          rw [this]
  unfold mountCommand
  rw [hplan]

/-- C157: hypotheses of `C157_refused` and `C157_started`. -/
example : isAbs "a.tar".toList = false ∧ hasScheme "a.tar".toList = false ∧ Elsewhere [['m']] "/n".toList ∧ "/n".toList ≠ canonical [['m']] :=
  ⟨by decide, by decide, ⟨[['n']], by simp [IsName], by decide, by simp⟩, by decide⟩

end Verif.Control
