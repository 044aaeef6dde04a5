import Verif.Py
import Verif.PyStr
import Verif.Dict

/-!
# C162, C164: the arguments of a mount and the options for FUSE (ratarmount/actions.py:175-240, 274-290, ratarmount/CLIHelpers.py:180-182)

The file system of the host is given by functions. `check` stands for `check_mount_source` (actions.py:194-207): it returns the path that is
used for a source, e.g., the real path or the first part of a split file, or raises.
-/

namespace Verif.Sources

open Verif.Py

/-- The host, as far as arguments are concerned. -/
structure Host where
  isDir : Str → Bool
  exists_ : Str → Bool
  isUrl : Str → Bool
  check : Str → Except PyErr Str

/-- The last argument is taken as mount point (actions.py:184-187). -/
def isMountPoint (h : Host) (last : Str) : Bool := !h.isUrl last && (h.isDir last || !h.exists_ last)

/-- Sources and mount point (actions.py:181-187). -/
def separate (h : Host) (mount : Bool) (arguments : List Str) : List Str × Str :=
  match arguments.getLast? with
  | none => (arguments, [])
  | some last => if mount && isMountPoint h last then (arguments.dropLast, last) else (arguments, [])

/-- `if mountSources and mountSources[-1] == fixedPath: continue` (actions.py:213-216). -/
def addSource (acc : List Str) (fixed : Str) : List Str := if acc.getLast? = some fixed then acc else acc ++ [fixed]

/-- The loop over the sources (actions.py:209-217). -/
def checkAll (h : Host) : List Str → List Str → Except PyErr (List Str)
  | [], acc => .ok acc
  | p :: ps, acc =>
    match h.check p with
    | .error e => .error e
    | .ok fixed => checkAll h ps (addSource acc fixed)

/-- `process_trivial_parsed_arguments` (CLIHelpers.py:180-182): ArgumentTypeError for a path that appears more than once. -/
def noneTwice (sources : List Str) : Except PyErr (List Str) :=
  if sources.any (fun p => decide (1 < sources.count p)) then .error .valueError else .ok sources

/-- The sources that are mounted (actions.py:188-223). -/
def sourcesOf (h : Host) (needed : Bool) (arguments : List Str) : Except PyErr (List Str) :=
  if arguments = [] ∧ needed then .error .valueError
  else match checkAll h arguments [] with
    | .error e => .error e
    | .ok sources => noneTwice sources

/-! ## the options for FUSE -/

/-- A value of an option. -/
inductive Value where
  | text (s : Str)
  | yes
  deriving DecidableEq

/-- One option (actions.py:280): `option.split('=', 1) if '=' in option else (option, True)`. -/
def option (s : Str) : Str × Value :=
  match split '=' s with
  | [] => (s, .yes)
  | [_] => (s, .yes)
  | key :: rest => (key, .text (join '=' rest))

/-- `dict(...)` (actions.py:279-283). -/
def fuseDict (fuse : Str) : Dict Str Value :=
  if fuse = [] then [] else (split ',' fuse).foldl (fun d o => Dict.set d (option o).1 (option o).2) []

/-- `--prefix` (actions.py:284-286). -/
def withPrefix (pre : Str) (d : Dict Str Value) : Dict Str Value :=
  if pre = [] then d else Dict.set (Dict.set d "modules".toList (.text "subdir".toList)) "subdir".toList (.text pre)

/-- `nonempty` (actions.py:288-289). -/
def withNonEmpty (needed : Bool) (d : Dict Str Value) : Dict Str Value := if needed then Dict.set d "nonempty".toList .yes else d

/-- The options given to FUSE (actions.py:277-289). -/
def fuseOptions (fuse pre : Str) (needed : Bool) : Dict Str Value := withNonEmpty needed (withPrefix pre (fuseDict fuse))

/-! ## specification -/

/-- An option as one would write it. -/
def written : Str × Value → Str
  | (k, .yes) => k
  | (k, .text v) => k ++ '=' :: v

/-- Keys have no commas and equals signs, and values no commas. -/
def Plain : Str × Value → Prop
  | (k, .yes) => ',' ∉ k ∧ '=' ∉ k
  | (k, .text v) => ',' ∉ k ∧ '=' ∉ k ∧ ',' ∉ v

/-- The last option with a key. -/
def lastOf (k : Str) (l : List (Str × Value)) : Option Value := (l.reverse.find? (fun o => o.1 == k)).map (fun o => o.2)

/-! ## proofs: sources -/

theorem checkAll_ok (h : Host) : ∀ (ps acc r : List Str), checkAll h ps acc = .ok r →
    ∃ fs : List Str, ps.map h.check = fs.map .ok ∧ r = fs.foldl addSource acc := by
  intro ps
  induction ps with
  | nil => intro acc r hr; cases hr; exact ⟨[], rfl, rfl⟩
  | cons p ps ih =>
    intro acc r hr
    unfold checkAll at hr
    cases hc : h.check p with
    | error e => rw [hc] at hr; cases hr
    | ok f =>
      rw [hc] at hr
      obtain ⟨fs, h1, h2⟩ := ih _ _ hr
      exact ⟨f :: fs, by rw [List.map_cons, List.map_cons, hc, h1], h2⟩

theorem checkAll_of (h : Host) : ∀ (ps acc fs : List Str), ps.map h.check = fs.map .ok → checkAll h ps acc = .ok (fs.foldl addSource acc) := by
  intro ps
  induction ps with
  | nil => intro acc fs he; cases fs with | nil => rfl | cons _ _ => cases he
  | cons p ps ih =>
    intro acc fs he
    cases fs with
    | nil => cases he
    | cons f fs =>
      rw [List.map_cons, List.map_cons] at he
      injection he with h1 h2
      unfold checkAll
      rw [h1]
      exact ih _ fs h2

theorem fold_sublist (fs : List Str) : ∀ acc, ∃ gs, fs.foldl addSource acc = acc ++ gs ∧ gs.Sublist fs := by
  induction fs with
  | nil => intro acc; exact ⟨[], by simp, .slnil⟩
  | cons f fs ih =>
    intro acc
    rw [List.foldl_cons]
    by_cases h : acc.getLast? = some f
    · rw [show addSource acc f = acc from if_pos h]
      obtain ⟨gs, h1, h2⟩ := ih acc
      exact ⟨gs, h1, h2.cons _⟩
    · rw [show addSource acc f = acc ++ [f] from if_neg h]
      obtain ⟨gs, h1, h2⟩ := ih (acc ++ [f])
      exact ⟨f :: gs, by rw [h1]; simp, h2.cons_cons _⟩

theorem mem_fold (fs : List Str) : ∀ acc x, x ∈ fs.foldl addSource acc ↔ x ∈ acc ∨ x ∈ fs := by
  induction fs with
  | nil => intro acc x; simp
  | cons f fs ih =>
    intro acc x
    rw [List.foldl_cons, ih]
    unfold addSource
    split
    · next h =>
      have hf : f ∈ acc := List.mem_of_getLast? h
      rw [List.mem_cons]
      constructor
      · rintro (h1 | h1)
        · exact .inl h1
        · exact .inr (.inr h1)
      · rintro (h1 | h1 | h1)
        · exact .inl h1
        · subst h1; exact .inl hf
        · exact .inr h1
    · rw [List.mem_append, List.mem_singleton, List.mem_cons, or_assoc]

theorem noneTwice_ok {l r : List Str} (h : noneTwice l = .ok r) : r = l ∧ l.Nodup := by
  unfold noneTwice at h
  split at h
  · cases h
  · next hn =>
    cases h
    refine ⟨rfl, List.nodup_iff_count.mpr (fun a => ?_)⟩
    by_cases ha : a ∈ l
    · have hf : l.any (fun p => decide (1 < l.count p)) = false := by
        cases hx : l.any (fun p => decide (1 < l.count p)) with
        | false => rfl
        | true => exact absurd hx hn
      have := List.any_eq_false.mp hf a ha
      simpa using this
    · rw [List.count_eq_zero.mpr ha]; omega

theorem noneTwice_of {l : List Str} (h : l.Nodup) : noneTwice l = .ok l := by
  unfold noneTwice
  rw [if_neg]
  rw [List.any_eq_true]
  rintro ⟨a, -, ha⟩
  have := List.nodup_iff_count.mp h a
  simp at ha
  omega

/-- **C162**: if the arguments are accepted, all sources exist, the paths used for them are mounted each once, and in the order given. -/
theorem C162_accepted (h : Host) (needed : Bool) (arguments r : List Str) (ho : sourcesOf h needed arguments = .ok r) :
    r.Nodup ∧ ∃ fs : List Str, arguments.map h.check = fs.map .ok ∧ r.Sublist fs ∧ (∀ f, f ∈ r ↔ f ∈ fs) := by
  unfold sourcesOf at ho
  split at ho
  · cases ho
  · cases hc : checkAll h arguments [] with
    | error e => rw [hc] at ho; cases ho
    | ok s =>
      rw [hc] at ho
      obtain ⟨rfl, hn⟩ := noneTwice_ok ho
      obtain ⟨fs, h1, rfl⟩ := checkAll_ok h arguments [] _ hc
      refine ⟨hn, fs, h1, ?_, fun f => ?_⟩
      · obtain ⟨gs, h2, h3⟩ := fold_sublist fs []
        rw [h2]
        exact h3
      · rw [mem_fold]; simp

/-- Runs of equal paths, each with its number of repetitions. -/
def repeated (runs : List (Str × Nat)) : List Str := runs.flatMap (fun r => List.replicate (r.2 + 1) r.1)

theorem fold_replicate (f : Str) : ∀ (n : Nat) (acc : List Str), acc.getLast? = some f → (List.replicate n f).foldl addSource acc = acc := by
  intro n
  induction n with
  | zero => intro acc _; rfl
  | succ n ih =>
    intro acc h
    rw [List.replicate_succ, List.foldl_cons, show addSource acc f = acc from if_pos h]
    exact ih acc h

theorem fold_runs : ∀ (runs : List (Str × Nat)) (acc : List Str), (acc ++ runs.map (fun r => r.1)).Nodup →
    (repeated runs).foldl addSource acc = acc ++ runs.map (fun r => r.1) := by
  intro runs
  induction runs with
  | nil => intro acc _; simp [repeated]
  | cons r runs ih =>
    intro acc hn
    obtain ⟨f, n⟩ := r
    show ((f :: List.replicate n f) ++ repeated runs).foldl addSource acc = _
    rw [List.foldl_append, List.foldl_cons]
    have hf : f ∉ acc := by
      intro hf
      rw [List.nodup_append] at hn
      exact hn.2.2 f hf f (by simp) rfl
    rw [show addSource acc f = acc ++ [f] from if_neg (fun h => hf (List.mem_of_getLast? h)), fold_replicate f n _ (by simp), ih]
    · simp
    · simpa using hn

/-- **C162**: arguments that stand for distinct sources are accepted; repetitions next to each other count as one, e.g., the parts of a
split file. -/
theorem C162_repeated (h : Host) (needed : Bool) (arguments : List Str) (runs : List (Str × Nat)) (hne : runs ≠ [])
    (hc : arguments.map h.check = (repeated runs).map .ok) (hn : (runs.map (fun r => r.1)).Nodup) :
    sourcesOf h needed arguments = .ok (runs.map (fun r => r.1)) := by
  have ha : arguments ≠ [] := by
    rintro rfl
    cases runs with
    | nil => exact hne rfl
    | cons r runs => cases hc
  unfold sourcesOf
  rw [if_neg (fun h => ha h.1), checkAll_of h arguments [] _ hc]
  simp only
  rw [fold_runs runs [] (by simpa using hn), List.nil_append]
  exact noneTwice_of hn

/-- **C162**: a source that is given again after another one is refused. -/
theorem C162_refused (h : Host) (needed : Bool) (arguments fs pre mid post : List Str) (f g : Str) (hc : arguments.map h.check = fs.map .ok)
    (hf : fs = pre ++ f :: mid ++ g :: f :: post) (hg : g ≠ f) : sourcesOf h needed arguments = .error .valueError := by
  unfold sourcesOf
  split
  · rfl
  · rw [checkAll_of h arguments [] fs hc]
    simp only
    cases ho : noneTwice (fs.foldl addSource []) with
    | error e =>
      unfold noneTwice at ho
      split at ho
      · cases ho; rfl
      · cases ho
    | ok r =>
      exfalso
      have hn := (noneTwice_ok ho).2
      rw [hf, List.foldl_append, List.foldl_cons, List.foldl_cons] at hn
      generalize hA : (pre ++ f :: mid).foldl addSource [] = A at hn
      have hfA : f ∈ A := by rw [← hA, mem_fold]; simp
      have hlast : (addSource A g).getLast? = some g := by
        unfold addSource
        split
        · next h1 => exact h1
        · simp
      have hfg : f ∈ addSource A g := by
        unfold addSource
        split
        · exact hfA
        · exact List.mem_append_left _ hfA
      rw [show addSource (addSource A g) f = addSource A g ++ [f] from if_neg (by rw [hlast]; simpa using hg)] at hn
      obtain ⟨gs, h1, -⟩ := fold_sublist post (addSource A g ++ [f])
      rw [h1, List.append_assoc, List.nodup_append] at hn
      exact hn.2.2 f hfg f (by simp) rfl

/-- **C162**: the last argument is the mount point exactly if it is a folder or does not exist, and is not a URL; nothing is lost. -/
theorem C162_mount_point (h : Host) (sources : List Str) (last : Str) :
    (h.isUrl last = false → (h.isDir last = true ∨ h.exists_ last = false) → separate h true (sources ++ [last]) = (sources, last)) ∧
    ((h.isUrl last = true ∨ (h.isDir last = false ∧ h.exists_ last = true)) → separate h true (sources ++ [last]) = (sources ++ [last], [])) ∧
    separate h false (sources ++ [last]) = (sources ++ [last], []) := by
  unfold separate isMountPoint
  simp only [List.getLast?_concat, List.dropLast_concat]
  refine ⟨?_, ?_, rfl⟩
  · intro h1 h2
    rw [h1]
    rcases h2 with h2 | h2 <;> rw [h2] <;> simp
  · rintro (h1 | ⟨h1, h2⟩)
    · rw [h1]; rfl
    · rw [h1, h2]; simp

/-- A host for examples: the parts of a split file stand for the first part. -/
def demoHost : Host where
  isDir p := p == "/d".toList
  exists_ p := p != "/new".toList
  isUrl _ := false
  check p := if p = "/a.002".toList then .ok "/a.001".toList else .ok p

example : sourcesOf demoHost true ["/a.001".toList, "/a.002".toList, "/b".toList] = .ok ["/a.001".toList, "/b".toList] := by decide

example : sourcesOf demoHost true ["/a.001".toList, "/b".toList, "/a.002".toList] = .error .valueError := by decide

example : separate demoHost true ["/b".toList, "/new".toList] = (["/b".toList], "/new".toList) ∧
    separate demoHost true ["/d".toList] = ([], "/d".toList) ∧ separate demoHost true ["/b".toList] = (["/b".toList], []) := by decide

/-! ## proofs: options -/

theorem option_written (o : Str × Value) (h : Plain o) : option (written o) = o := by
  obtain ⟨k, v⟩ := o
  cases v with
  | yes =>
    show option k = _
    unfold option
    rw [split_of_not_mem '=' k h.2]
  | text v =>
    show option (k ++ '=' :: v) = _
    unfold option
    rw [split_append_cons '=' k v h.2.1]
    have hj := join_split '=' v
    cases hs : split '=' v with
    | nil => exact absurd hs (split_ne_nil '=' v)
    | cons a as =>
      rw [hs] at hj
      simp only
      rw [hj]

theorem fold_get (l : List (Str × Value)) (k : Str) : ∀ d : Dict Str Value,
    Dict.get? (l.foldl (fun d o => Dict.set d o.1 o.2) d) k = (lastOf k l).or (Dict.get? d k) := by
  induction l with
  | nil => intro d; rfl
  | cons o l ih =>
    intro d
    rw [List.foldl_cons, ih, Dict.get?_set]
    unfold lastOf
    rw [List.reverse_cons, List.find?_append]
    cases List.find? (fun o => o.1 == k) l.reverse with
    | some x => rfl
    | none =>
      by_cases hk : o.1 = k
      · rw [if_pos hk]
        simp [hk]
      · rw [if_neg hk]
        simp [hk]

/-- **C164**: options that are written as a list of keys and `key=value` are given to FUSE, the last one for each key. -/
theorem C164_options (os : List (Str × Value)) (hne : os ≠ []) (hp : ∀ o ∈ os, Plain o) (hw : join ',' (os.map written) ≠ []) (k : Str) :
    Dict.get? (fuseOptions (join ',' (os.map written)) [] false) k = lastOf k os := by
  show Dict.get? (fuseDict (join ',' (os.map written))) k = _
  unfold fuseDict
  rw [if_neg hw, split_join ',' _ (by simpa using hne)]
  · have hmap : ∀ (l : List (Str × Value)) (d : Dict Str Value), (∀ o ∈ l, Plain o) →
        (l.map written).foldl (fun d o => Dict.set d (option o).1 (option o).2) d = l.foldl (fun d o => Dict.set d o.1 o.2) d := by
      intro l
      induction l with
      | nil => intro d _; rfl
      | cons o l ih =>
        intro d h
        rw [List.map_cons, List.foldl_cons, List.foldl_cons, option_written o (h o (by simp)), ih _ (fun o ho => h o (List.mem_cons_of_mem _ ho))]
    rw [hmap os [] hp, fold_get]
    simp
  · intro p hpm
    obtain ⟨o, ho, rfl⟩ := List.mem_map.mp hpm
    have := hp o ho
    obtain ⟨k, v⟩ := o
    cases v with
    | yes => exact this.1
    | text v =>
      intro hm
      rcases List.mem_append.mp hm with hm | hm
      · exact this.1 hm
      · cases hm with
        | tail _ hm => exact this.2.2 hm

/-- **C164**: `--prefix` and a mount point that is not empty add their options and leave the others as they are. -/
theorem C164_added (fuse pre : Str) (needed : Bool) (k : Str) :
    Dict.get? (fuseOptions fuse pre needed) k =
      if needed = true ∧ k = "nonempty".toList then some .yes
      else if pre ≠ [] ∧ k = "subdir".toList then some (.text pre)
      else if pre ≠ [] ∧ k = "modules".toList then some (.text "subdir".toList)
      else Dict.get? (fuseOptions fuse [] false) k := by
  have e : fuseOptions fuse [] false = fuseDict fuse := rfl
  rw [e]
  have hpre : Dict.get? (withPrefix pre (fuseDict fuse)) k = if pre ≠ [] ∧ k = "subdir".toList then some (.text pre)
      else if pre ≠ [] ∧ k = "modules".toList then some (.text "subdir".toList) else Dict.get? (fuseDict fuse) k := by
    unfold withPrefix
    by_cases hp : pre = []
    · simp [hp]
    · rw [if_neg hp, Dict.get?_set, Dict.get?_set]
      by_cases h1 : k = "subdir".toList
      · rw [if_pos h1.symm, if_pos ⟨hp, h1⟩]
      · rw [if_neg (fun h => h1 h.symm)]
        by_cases h2 : k = "modules".toList
        · rw [if_pos h2.symm, if_neg (fun h => h1 h.2), if_pos ⟨hp, h2⟩]
        · rw [if_neg (fun h => h2 h.symm), if_neg (fun h => h1 h.2), if_neg (fun h => h2 h.2)]
  unfold fuseOptions withNonEmpty
  cases needed with
  | false => rw [if_neg (by simp), if_neg (by simp), hpre]
  | true =>
    rw [if_pos rfl, Dict.get?_set]
    by_cases h1 : k = "nonempty".toList
    · rw [if_pos h1.symm, if_pos ⟨rfl, h1⟩]
    · rw [if_neg (fun h => h1 h.symm), if_neg (fun h => h1 h.2), hpre]

example : fuseOptions "ro,uid=1000,fsname=a=b,uid=5".toList [] true =
    [("ro".toList, .yes), ("uid".toList, .text "5".toList), ("fsname".toList, .text "a=b".toList), ("nonempty".toList, .yes)] := by decide +kernel

example : Plain ("fsname".toList, .text "a=b".toList) := by unfold Plain; decide

end Verif.Sources
