import Verif.PyStr
import Verif.Dict
import Verif.Py

/-!
# C56, C57: choosing a backend
(core/ratarmountcore/compressions.py:150-178, core/ratarmountcore/mountsource/factory.py:259-369,
core/ratarmountcore/mountsource/archives.py:45-63)
-/

namespace Verif.Detect

open Verif.Py

/-! ## C56: the backend for a compression -/

/-- `CompressionBackendInfo` (compressions.py:76-86): the formats and the modules. -/
structure Compression where
  formats : List Nat
  modules : List Str

/-- `find_available_backend` (compressions.py:150-178); `installed` is `module in sys.modules`. The result is given by its name. -/
def findAvailable (table : Dict Str Compression) (installed : Str → Bool) (format : Nat) (enabled : Option (List Str))
    (prioritized : List Str) : Option Str :=
  let matching := (table.filter (fun e : Str × Compression =>
    (match enabled with | none => true | some l => l.contains e.1) && e.2.formats.contains format)).map
      (fun e : Str × Compression => e.1)
  let usable (name : Str) : Bool := match Dict.get? table name with
    | none => false
    | some info => info.modules.all installed
  match prioritized.find? (fun name => matching.contains name && usable name) with
  | some name => some name
  | none => matching.find? (fun name => !prioritized.contains name && usable name)

/-- A backend that can be used: known, not disabled, for the format, and installed. -/
def Usable (table : Dict Str Compression) (installed : Str → Bool) (format : Nat) (enabled : Option (List Str))
    (name : Str) : Prop :=
  ∃ info, Dict.get? table name = some info ∧ format ∈ info.formats ∧ (∀ m ∈ info.modules, installed m = true) ∧
    ∀ l, enabled = some l → name ∈ l

/-- The first element of a list with a property. -/
def IsFirst (P : Str → Prop) (l : List Str) (x : Str) : Prop := ∃ a b, l = a ++ x :: b ∧ P x ∧ ∀ y ∈ a, ¬ P y

theorem isFirst_of_find {P : Str → Prop} {p : Str → Bool} (hp : ∀ x, p x = true ↔ P x) {l : List Str} {x : Str}
    (h : l.find? p = some x) : IsFirst P l x := by
  obtain ⟨h1, a, b, h2, h3⟩ := List.find?_eq_some_iff_append.mp h
  exact ⟨a, b, h2, (hp x).mp h1, fun y hy hP => by have := h3 y hy; simp [(hp y).mpr hP] at this⟩

/-- **C56**. -/
theorem C56_first (table : Dict Str Compression) (hn : (Dict.keys table).Nodup) (installed : Str → Bool) (format : Nat)
    (enabled : Option (List Str)) (prioritized : List Str) :
    let U := Usable table installed format enabled
    match findAvailable table installed format enabled prioritized with
    | none => ∀ name, ¬ U name
    | some name => IsFirst U prioritized name ∨ ((∀ x ∈ prioritized, ¬ U x) ∧ IsFirst U (Dict.keys table) name) := by
  intro U
  let match' : Str × Compression → Bool := fun e =>
    (match enabled with | none => true | some l => l.contains e.1) && e.2.formats.contains format
  let matching := (table.filter match').map (fun e : Str × Compression => e.1)
  let usable (name : Str) : Bool := match Dict.get? table name with
    | none => false
    | some info => info.modules.all installed
  have hkeys : ∀ e ∈ table, Dict.get? table e.1 = some e.2 := fun e he => Dict.get?_eq_some_of_mem table hn he
  have hmatch : ∀ e ∈ table, (match' e && usable e.1) = true ↔ U e.1 := by
    intro e he
    have hu : usable e.1 = e.2.modules.all installed := by
      show (match Dict.get? table e.1 with | none => false | some info => info.modules.all installed) = _
      rw [hkeys e he]
    rw [hu]
    constructor
    · intro h
      simp only [match', Bool.and_eq_true, List.all_eq_true] at h
      refine ⟨e.2, hkeys e he, by simpa using h.1.2, h.2, ?_⟩
      intro l hl
      have := h.1.1
      rw [hl] at this
      simpa using this
    · rintro ⟨info, h1, h2, h3, h4⟩
      have : info = e.2 := by have := h1.symm.trans (hkeys e he); injection this
      subst this
      simp only [match', Bool.and_eq_true, List.all_eq_true]
      refine ⟨⟨?_, by simpa using h2⟩, h3⟩
      cases enabled with
      | none => rfl
      | some l => simpa using h4 l rfl
  have hmem : ∀ name, (matching.contains name && usable name) = true ↔ U name := by
    intro name
    constructor
    · intro h
      simp only [Bool.and_eq_true, List.contains_iff_mem] at h
      obtain ⟨h1, h2⟩ := h
      obtain ⟨e, he, rfl⟩ := List.mem_map.mp h1
      obtain ⟨he1, he2⟩ := List.mem_filter.mp he
      exact (hmatch e he1).mp (by simp [he2, h2])
    · intro h
      obtain ⟨info, h1, -⟩ := id h
      have he := Dict.mem_of_get? table h1
      have := (hmatch (name, info) he).mpr h
      simp only [Bool.and_eq_true] at this ⊢
      refine ⟨?_, this.2⟩
      rw [List.contains_iff_mem]
      exact List.mem_map.mpr ⟨(name, info), List.mem_filter.mpr ⟨he, this.1⟩, rfl⟩
  have hdef : findAvailable table installed format enabled prioritized =
      match prioritized.find? (fun name => matching.contains name && usable name) with
      | some name => some name
      | none => matching.find? (fun name => !prioritized.contains name && usable name) := rfl
  rw [hdef]
  cases hf : prioritized.find? (fun name => matching.contains name && usable name) with
  | some name => exact .inl (isFirst_of_find hmem hf)
  | none =>
    have hno : ∀ x ∈ prioritized, ¬ U x := by
      intro x hx hU
      exact List.find?_eq_none.mp hf x hx ((hmem x).mpr hU)
    cases hg : matching.find? (fun name => !prioritized.contains name && usable name) with
    | none =>
      simp only
      intro name hU
      have := (hmem name).mpr hU
      simp only [Bool.and_eq_true, List.contains_iff_mem] at this
      refine List.find?_eq_none.mp hg name this.1 ?_
      have hnp : name ∉ prioritized := fun h => hno name h hU
      simp [hnp, this.2]
    | some name =>
      refine .inr ⟨hno, ?_⟩
      -- Go over the table.
      have go : ∀ t : Dict Str Compression, (∀ e ∈ t, e ∈ table) →
          ((t.filter match').map (fun e : Str × Compression => e.1)).find?
            (fun name => !prioritized.contains name && usable name) = some name → IsFirst U (Dict.keys t) name := by
        intro t
        induction t with
        | nil => intro _ h; cases h
        | cons e t ih =>
          intro ht h
          have hmt := hmatch e (ht e (by simp))
          by_cases hU : U e.1
          · have hb := hmt.mpr hU
            simp only [Bool.and_eq_true] at hb
            rw [List.filter_cons, if_pos hb.1, List.map_cons, List.find?_cons] at h
            have hnp : e.1 ∉ prioritized := fun hx => hno e.1 hx hU
            have : (!prioritized.contains e.1 && usable e.1) = true := by simp [hnp, hb.2]
            rw [this] at h
            simp only at h
            injection h with h
            exact ⟨[], Dict.keys t, by simp [Dict.keys, h], by rw [← h]; exact hU, by simp⟩
          · have h' : ((t.filter match').map (fun e : Str × Compression => e.1)).find?
                (fun name => !prioritized.contains name && usable name) = some name := by
              rw [List.filter_cons] at h
              split at h
              · next hm =>
                rw [List.map_cons, List.find?_cons] at h
                have hnu : usable e.1 = false := by
                  cases hu : usable e.1 with
                  | false => rfl
                  | true => exact absurd (hmt.mp (by simp [hm, hu])) hU
                rw [hnu, Bool.and_false] at h
                exact h
              · exact h
            obtain ⟨a, b, h1, h2, h3⟩ := ih (fun x hx => ht x (by simp [hx])) h'
            refine ⟨e.1 :: a, b, by rw [Dict.keys_cons, h1]; rfl, h2, ?_⟩
            intro y hy
            rcases List.mem_cons.mp hy with rfl | hy
            · exact hU
            · exact h3 y hy
      exact go table (fun _ h => h) hg

/-- A table with three backends of which the first is not installed; the second is disabled unless all are enabled. -/
def demoTable : Dict Str Compression :=
  [("xz".toList, ⟨[3], ["xz".toList]⟩), ("lzmaffi".toList, ⟨[3], ["lzmaffi".toList]⟩),
    ("libarchive".toList, ⟨[2, 3], ["libarchive".toList]⟩)]

example : (Dict.keys demoTable).Nodup := by decide
example : findAvailable demoTable (· ≠ "xz".toList) 3 none ["xz".toList, "libarchive".toList] = some "libarchive".toList ∧
    findAvailable demoTable (· ≠ "xz".toList) 3 none ["xz".toList] = some "lzmaffi".toList ∧
    findAvailable demoTable (· ≠ "xz".toList) 3 (some ["xz".toList, "libarchive".toList]) [] = some "libarchive".toList ∧
    findAvailable demoTable (· ≠ "libarchive".toList) 2 none ["xz".toList] = none := by decide +kernel

/-! ## C57: the backend for an archive -/

/-- What a call of `backend.open` comes to (factory.py:336-366). -/
inductive Outcome where
  | mounted | nothing | raised
  deriving DecidableEq, Repr

/-- `ArchiveBackendInfo` (archives.py:67-76). `open` gets the position of the file object and leaves it somewhere. -/
structure Backend where
  formats : List Nat
  «open» : Nat → Outcome × Nat

/-- `any(might_be_format(file, fid) for fid in backend.formats)` (factory.py:334); the check gets the position, and does
not change it (C58). -/
def anyFormat (check : Nat → Nat → Except PyErr Bool) : List Nat → Nat → Except PyErr Bool
  | [], _ => .ok false
  | fid :: fids, pos =>
    match check fid pos with
    | .error e => .error e
    | .ok true => .ok true
    | .ok false => anyFormat check fids pos

/-- The loop of `open_mount_source` (factory.py:322-366). `path` tells whether a path was given: then the backends open the file
themselves and the one used for the checks stays where it is. The second result lists the backends that were opened. -/
def tryAll (table : Dict Str Backend) (check : Nat → Nat → Except PyErr Bool) (alias : Dict Str Str) (path : Bool) :
    List Str → List Str → Nat → Except PyErr (Option Str) × List Str
  | [], _, _ => (.ok none, [])
  | name :: names, tried, pos =>
    let name := (Dict.get? alias name).getD name                            -- 323
    if tried.contains name then tryAll table check alias path names tried pos
    else match Dict.get? table name with
      | none => tryAll table check alias path names (name :: tried) pos     -- 327-329
      | some b =>
        match (if b.formats.isEmpty then .ok true else anyFormat check b.formats pos) with
        | .error e => (.error e, [])                                        -- not inside of the try block
        | .ok false => tryAll table check alias path names (name :: tried) pos
        | .ok true =>
          match b.open (if path then 0 else pos) with
          | (.mounted, _) => (.ok (some name), [name])
          | (.nothing, pos') =>
            let rest := tryAll table check alias path names (name :: tried) (if path then pos else pos')
            (rest.1, name :: rest.2)
          | (.raised, _) =>
            -- 361: seek(0)
            let rest := tryAll table check alias path names (name :: tried) (if path then pos else 0)
            (rest.1, name :: rest.2)

/-- `open_mount_source` (factory.py:314-369) after the file is open. The result is the name of the backend. `single` tells whether a
split file was joined, which is then shown as it is. -/
def openMountSource (table : Dict Str Backend) (check : Nat → Nat → Except PyErr Bool) (alias : Dict Str Str) (path : Bool)
    (single : Bool) (prioritized byExtension : List Str) : Except PyErr (Option Str) × List Str :=
  match tryAll table check alias path (prioritized ++ byExtension ++ Dict.keys table) [] 0 with
  | (.error e, t) => (.error e, t)
  | (.ok (some name), t) => (.ok (some name), t)
  | (.ok none, t) => if single then (.ok none, t) else (.error .compression, t)

/-- `_open_libarchive_mount_source` (archives.py:45-63): exceptions become `None`, and the file is put back. -/
def openLibarchive (installed : Bool) (raw : Nat → Outcome × Nat) (pos : Nat) : Outcome × Nat :=
  if !installed then (.nothing, pos)
  else match raw pos with
    | (.mounted, _) => (.mounted, 0)
    | (_, _) => (.nothing, 0)

/-! ### specification -/

/-- The different elements in the order in which they occur first. -/
def firsts : List Str → List Str
  | [] => []
  | a :: l => a :: (firsts l).filter (fun x : Str => x ≠ a)

theorem mem_firsts (l : List Str) (x : Str) : x ∈ firsts l ↔ x ∈ l := by
  induction l with
  | nil => rfl
  | cons a l ih =>
    simp only [firsts, List.mem_cons, List.mem_filter, ih, decide_eq_true_eq]
    by_cases h : x = a
    · simp [h]
    · simp [h]

theorem nodup_firsts (l : List Str) : (firsts l).Nodup := by
  induction l with
  | nil => simp [firsts]
  | cons a l ih =>
    simp only [firsts, List.nodup_cons]
    exact ⟨by simp, List.Pairwise.filter _ ih⟩

/-- The backends in the order in which they are to be tried: those of the user, those of the extension, all. -/
def order (table : Dict Str Backend) (alias : Dict Str Str) (prioritized byExtension : List Str) : List Str :=
  firsts ((prioritized ++ byExtension ++ Dict.keys table).map (fun n : Str => (Dict.get? alias n).getD n))

/-- A backend that exists and one of whose formats the file might have. -/
def Fits (table : Dict Str Backend) (check : Nat → Nat → Except PyErr Bool) (name : Str) : Prop :=
  ∃ b, Dict.get? table name = some b ∧ (b.formats = [] ∨ ∃ fid ∈ b.formats, check fid 0 = .ok true)

/-- What a backend does with the file if it is the first to be tried. -/
def outcome (table : Dict Str Backend) (name : Str) : Outcome :=
  match Dict.get? table name with
  | none => .nothing
  | some b => (b.open 0).1

/-- A file object is put back by backends that return nothing. -/
def Quiet (table : Dict Str Backend) : Prop :=
  ∀ name b, Dict.get? table name = some b → (b.open 0).1 = .nothing → (b.open 0).2 = 0

/-! ### proofs -/

theorem anyFormat_spec (check : Nat → Nat → Except PyErr Bool) (hc : ∀ fid, ∃ b, check fid 0 = .ok b) (fids : List Nat) :
    ∃ b, anyFormat check fids 0 = .ok b ∧ (b = true ↔ ∃ fid ∈ fids, check fid 0 = .ok true) := by
  induction fids with
  | nil => exact ⟨false, rfl, by simp⟩
  | cons fid fids ih =>
    obtain ⟨b, hb⟩ := hc fid
    obtain ⟨b', h1, h2⟩ := ih
    simp only [anyFormat, hb]
    cases b with
    | true => exact ⟨true, rfl, by simp [hb]⟩
    | false => exact ⟨b', h1, by simp [h2, hb]⟩

/-- The candidates that are left. -/
def left (names tried : List Str) : List Str := (firsts names).filter (fun x : Str => x ∉ tried)

theorem left_tried {name : Str} {names tried : List Str} (h : name ∈ tried) : left (name :: names) tried = left names tried := by
  simp only [left, firsts, List.filter_cons, h, not_true, decide_false, Bool.false_eq_true, if_false, List.filter_filter]
  apply List.filter_congr
  intro x _
  by_cases hx : x = name
  · simp [hx, h]
  · simp [hx]

theorem left_new {name : Str} {names tried : List Str} (h : name ∉ tried) :
    left (name :: names) tried = name :: left names (name :: tried) := by
  simp only [left, firsts, List.filter_cons, h, not_false_eq_true, decide_true, if_true, List.filter_filter]
  congr 1
  apply List.filter_congr
  intro x _
  by_cases hx : x = name
  · simp [hx]
  · simp [hx]

/-- One after the other until one succeeds. -/
def attempts (table : Dict Str Backend) : List Str → Option Str × List Str
  | [] => (none, [])
  | n :: l => if outcome table n = .mounted then (some n, [n]) else ((attempts table l).1, n :: (attempts table l).2)

theorem attempts_spec (table : Dict Str Backend) (l : List Str) :
    match attempts table l with
    | (none, t) => t = l ∧ ∀ n ∈ l, outcome table n ≠ .mounted
    | (some n, t) => ∃ a b, l = a ++ n :: b ∧ t = a ++ [n] ∧ outcome table n = .mounted ∧
        ∀ x ∈ a, outcome table x ≠ .mounted := by
  induction l with
  | nil => exact ⟨rfl, by simp⟩
  | cons n l ih =>
    simp only [attempts]
    by_cases h : outcome table n = .mounted
    · rw [if_pos h]
      exact ⟨[], l, rfl, rfl, h, by simp⟩
    · rw [if_neg h]
      cases ha : attempts table l with
      | mk r t =>
        rw [ha] at ih
        cases r with
        | none => exact ⟨by rw [ih.1], by intro x hx; rcases List.mem_cons.mp hx with rfl | hx
                                          · exact h
                                          · exact ih.2 x hx⟩
        | some m =>
          obtain ⟨a, b, h1, h2, h3, h4⟩ := ih
          refine ⟨n :: a, b, by rw [h1]; rfl, by rw [h2]; rfl, h3, ?_⟩
          intro x hx
          rcases List.mem_cons.mp hx with rfl | hx
          · exact h
          · exact h4 x hx

open Classical in
theorem tryAll_spec (table : Dict Str Backend) (check : Nat → Nat → Except PyErr Bool) (alias : Dict Str Str) (path : Bool)
    (hc : ∀ fid, ∃ b, check fid 0 = .ok b) (hq : path = false → Quiet table) (names : List Str) : ∀ tried : List Str,
    tryAll table check alias path names tried 0 =
      (.ok (attempts table ((left (names.map (fun n : Str => (Dict.get? alias n).getD n)) tried).filter
          (fun n : Str => decide (Fits table check n)))).1,
        (attempts table ((left (names.map (fun n : Str => (Dict.get? alias n).getD n)) tried).filter
          (fun n : Str => decide (Fits table check n)))).2) := by
  induction names with
  | nil => intro tried; rfl
  | cons n0 names ih =>
    intro tried
    simp only [tryAll, List.map_cons]
    generalize hname : (Dict.get? alias n0).getD n0 = name
    by_cases ht : name ∈ tried
    · rw [if_pos (by simpa using ht), left_tried ht]
      exact ih tried
    · rw [if_neg (by simpa using ht), left_new ht]
      have ih' := ih (name :: tried)
      generalize hl : left (names.map (fun n : Str => (Dict.get? alias n).getD n)) (name :: tried) = l at ih' ⊢
      by_cases hf : Fits table check name
      · have hfl : (name :: l).filter (fun n : Str => decide (Fits table check n)) =
            name :: l.filter (fun n : Str => decide (Fits table check n)) := by
          rw [List.filter_cons, if_pos (decide_eq_true hf)]
        rw [hfl]
        generalize l.filter (fun n : Str => decide (Fits table check n)) = cands at ih' ⊢
        obtain ⟨b, hg, hb⟩ := hf
        rw [hg]
        simp only
        have hok : (if b.formats.isEmpty then Except.ok true else anyFormat check b.formats 0) = .ok true := by
          by_cases he : b.formats = []
          · simp [he]
          · rw [if_neg (by simpa using he)]
            obtain ⟨v, h1, h2⟩ := anyFormat_spec check hc b.formats
            rw [h1, h2.mpr (hb.resolve_left he)]
        rw [hok]
        simp only
        have hpos : (if path = true then 0 else 0) = 0 := by split <;> rfl
        rw [hpos]
        have hout : outcome table name = (b.open 0).1 := by unfold outcome; rw [hg]
        simp only [attempts, hout]
        cases ho : b.open 0 with
        | mk o pos' =>
          cases o with
          | mounted => rfl
          | nothing =>
            have h0 : (if path = true then 0 else pos') = 0 := by
              cases hpath : path with
              | true => rfl
              | false =>
                have := hq hpath name b hg (by rw [ho])
                rw [ho] at this
                simpa using this
            simp only [h0, ih']
            rfl
          | raised =>
            simp only [ih']
            rfl
      · have hfl : (name :: l).filter (fun n : Str => decide (Fits table check n)) =
            l.filter (fun n : Str => decide (Fits table check n)) := by
          rw [List.filter_cons, if_neg (by simpa using hf)]
        rw [hfl, ← ih']
        cases hg : Dict.get? table name with
        | none => rfl
        | some b =>
          simp only
          have hno : (if b.formats.isEmpty then Except.ok true else anyFormat check b.formats 0) = .ok false := by
            by_cases he : b.formats = []
            · exact absurd ⟨b, hg, .inl he⟩ hf
            · rw [if_neg (by simpa using he)]
              obtain ⟨v, h1, h2⟩ := anyFormat_spec check hc b.formats
              rw [h1]
              cases v with
              | false => rfl
              | true => exact absurd ⟨b, hg, .inr (h2.mp rfl)⟩ hf
          rw [hno]

theorem left_nil (names : List Str) : left names [] = firsts names := by
  unfold left
  exact List.filter_eq_self.mpr (by simp)

/-- Opening gives the first backend, of those that fit, that succeeds; all those before were tried, each once and each with
the file as it was at first. Without one there is an error, or the joined file itself. -/
def FirstWins (table : Dict Str Backend) (check : Nat → Nat → Except PyErr Bool) (alias : Dict Str Str) (single : Bool)
    (prioritized byExtension : List Str) (result : Except PyErr (Option Str) × List Str) : Prop :=
  ∃ cands : List Str, cands.Nodup ∧ cands.Sublist (order table alias prioritized byExtension) ∧
    (∀ n, n ∈ cands ↔ n ∈ order table alias prioritized byExtension ∧ Fits table check n) ∧
    match result with
    | (.ok (some n), t) => ∃ a b, cands = a ++ n :: b ∧ t = a ++ [n] ∧ outcome table n = .mounted ∧
        ∀ x ∈ a, outcome table x ≠ .mounted
    | (.ok none, t) => single = true ∧ t = cands ∧ ∀ n ∈ cands, outcome table n ≠ .mounted
    | (.error e, t) => single = false ∧ e = .compression ∧ t = cands ∧ ∀ n ∈ cands, outcome table n ≠ .mounted

/-- The claim for all checks and backends. -/
def C57_statement : Prop :=
  ∀ (table : Dict Str Backend) (check : Nat → Nat → Except PyErr Bool) (alias : Dict Str Str) (path single : Bool)
    (prioritized byExtension : List Str),
    FirstWins table check alias single prioritized byExtension
      (openMountSource table check alias path single prioritized byExtension)

open Classical in
/-- **C57** as far as it holds: if no check raises and, for file objects, backends that return nothing put the file back, as
libarchive does (`C57_libarchive`). -/
theorem C57_first_partial (table : Dict Str Backend) (check : Nat → Nat → Except PyErr Bool) (alias : Dict Str Str)
    (path single : Bool) (prioritized byExtension : List Str) (hc : ∀ fid, ∃ b, check fid 0 = .ok b)
    (hq : path = false → Quiet table) :
    FirstWins table check alias single prioritized byExtension
      (openMountSource table check alias path single prioritized byExtension) := by
  have h := tryAll_spec table check alias path hc hq (prioritized ++ byExtension ++ Dict.keys table) []
  rw [left_nil] at h
  refine ⟨(order table alias prioritized byExtension).filter (fun n : Str => decide (Fits table check n)),
    List.Pairwise.filter _ (nodup_firsts _), List.filter_sublist, by simp [List.mem_filter], ?_⟩
  unfold openMountSource
  rw [h]
  have hspec := attempts_spec table ((order table alias prioritized byExtension).filter
    (fun n : Str => decide (Fits table check n)))
  unfold order at hspec ⊢
  generalize (firsts ((prioritized ++ byExtension ++ Dict.keys table).map
    (fun n : Str => (Dict.get? alias n).getD n))).filter (fun n : Str => decide (Fits table check n)) = cands at hspec ⊢
  cases ha : attempts table cands with
  | mk r t =>
    rw [ha] at hspec
    cases r with
    | some n => exact hspec
    | none =>
      simp only
      cases single with
      | true => exact ⟨rfl, hspec.1, hspec.2⟩
      | false => exact ⟨rfl, rfl, hspec.1, hspec.2⟩

/-- The libarchive backend puts the file back, and it never raises. -/
theorem C57_libarchive (installed : Bool) (raw : Nat → Outcome × Nat) :
    (openLibarchive installed raw 0).2 = 0 ∧ (openLibarchive installed raw 0).1 ≠ .raised := by
  unfold openLibarchive
  cases installed with
  | false => exact ⟨rfl, by simp⟩
  | true =>
    simp only [Bool.not_true, Bool.false_eq_true, if_false]
    cases raw 0 with
    | mk o p => cases o <;> exact ⟨rfl, by simp⟩

/-- Four backends: `b` fails and moves the file, `c` is not for this format, `d` succeeds, and so would `a`. -/
def demoBackends : Dict Str Backend :=
  [(['a'], ⟨[1], fun _ => (.mounted, 9)⟩), (['b'], ⟨[1], fun _ => (.raised, 7)⟩), (['c'], ⟨[2], fun _ => (.mounted, 3)⟩),
    (['d'], ⟨[2, 1], openLibarchive true (fun pos => if pos = 0 then (.mounted, 5) else (.raised, 5))⟩)]

def demoCheck (fid pos : Nat) : Except PyErr Bool := .ok (fid == 1 && pos == 0)

example : (∀ fid, ∃ b, demoCheck fid 0 = .ok b) ∧ Quiet demoBackends := by
  refine ⟨fun fid => ⟨_, rfl⟩, ?_⟩
  intro name b h ho
  have := Dict.mem_of_get? _ h
  simp only [demoBackends, List.mem_cons, Prod.mk.injEq, List.not_mem_nil, or_false] at this
  rcases this with ⟨-, rfl⟩ | ⟨-, rfl⟩ | ⟨-, rfl⟩ | ⟨-, rfl⟩
  · cases ho
  · cases ho
  · cases ho
  · exact (C57_libarchive _ _).1

example : openMountSource demoBackends demoCheck [(['r'], ['b'])] false false [['r'], ['c'], ['b'], ['x']] [['d']] =
    (.ok (some ['d']), [['b'], ['d']]) := by decide +kernel

end Verif.Detect
