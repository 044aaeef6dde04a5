import Verif.Detect.Open
import Verif.Cli.Parallelization

/-!
# C206: how many threads decompress a file (core/ratarmountcore/compressions.py:555-618, core/ratarmountcore/mountsource/formats/tar.py:589-591)

The part of `open_compressed_file` that `Verif.Detect.Open` leaves out: from the option `-P` to the number of threads.
-/

namespace Verif.Detect.Threads

open Verif.Py

/-! ## model -/

/-- File objects, by what `getattr(fileobj, 'block_boundaries', [])` (compressions.py:603) finds: files that were opened with `open` do not
have such an attribute, those of python-xz do. -/
inductive FileObj where
  | plain
  | xz (boundaries : List Nat)

/-- `getattr(fileobj, 'block_boundaries', [])` (compressions.py:603). -/
def FileObj.boundaries : FileObj → List Nat
  | .plain => []
  | .xz b => b

/-- Where the file is: whether its drive is slow, and whether the system is Linux (compressions.py:563, 601). -/
structure Where where
  slow : Bool
  linux : Bool

/-- `dict.get(key, default)` (compressions.py:565-567, 593, 598, 606). -/
def getOr (d : Dict Str Nat) (key : Str) (default : Nat) : Nat := (d.get? key).getD default

/-- The default (compressions.py:566). -/
def fallback (d : Dict Str Nat) : Nat := getOr d [] 1

/-- The threads of rapidgzip for gzip files (compressions.py:561-568). -/
def gzipThreads (d : Dict Str Nat) (i : Input) (w : Where) : Nat :=
  if i.real && w.slow then 1 else getOr d "rapidgzip-gzip".toList (getOr d "rapidgzip".toList (fallback d))

/-- The setting for xz (compressions.py:598, 606). -/
def xzSetting (d : Dict Str Nat) : Nat := getOr d "xz".toList (fallback d)

/-- The threads for XZ files (compressions.py:595-608). -/
def xzThreads (d : Dict Str Nat) (i : Input) (w : Where) (o : FileObj) : Nat :=
  if i.installed "xz".toList && decide (xzSetting d ≠ 1) && i.real && w.linux then
    (if o.boundaries.length > 1 then xzSetting d else 1)
  else 1

/-- The threads after the compression was found (compressions.py:555-610). -/
def threadsAs (d : Dict Str Nat) (i : Input) (spacing : Nat) (prioritized : List Str) (w : Where) (o : FileObj) (f : Nat) : Nat :=
  if f = gzipId then (if useRapidgzip i spacing prioritized then gzipThreads d i w else 1)
  else if f = bzip2Id then getOr d "rapidgzip-bzip2".toList (fallback d)
  else if f = xzId then xzThreads d i w o
  else 1

/-- The settings of a TAR (tar.py:589-591): the default is that of the constructor. -/
def tarSettings (d : Dict Str Nat) (parallelization : Nat) : Dict Str Nat := if d.has [] then d else d.set [] parallelization

/-- With which library and how many threads a TAR is opened (compressions.py:518-618, tar.py:589-630); nothing is decompressed if it is opened as
it is. -/
def openThreads (d : Dict Str Nat) (i : Input) (spacing : Nat) (prioritized : List Str) (w : Where) (o : FileObj) : Except PyErr (Opened × Nat) :=
  match detect i prioritized formatIds with
  | none => .ok (.raw, 1)
  | some f => (openAs i spacing tarBackends prioritized f).map (fun opened => (opened, threadsAs (tarSettings d 1) i spacing prioritized w o f))

/-! ## specification -/

/-- The backends that can use several threads, with the compression. -/
inductive Parallel : Str → Nat → Prop
  | bzip2 : Parallel "rapidgzip-bzip2".toList 0x1001
  | gzip : Parallel "rapidgzip".toList 0x1002
  | xz : Parallel "xz".toList 0x1003
  | zlib : Parallel "rapidgzip".toList 0x1005
  | deflate : Parallel "rapidgzip".toList 0x1008

/-- What the assignments of the option mean for a backend: its own number, else the default, else all cores. -/
def meant (cores : Nat) (ps : List (Str × Str)) (backend : Str) : Nat :=
  match Parallelization.assigned ps backend with
  | some v => Parallelization.threads cores v
  | none => match Parallelization.assigned ps [] with
    | some v => Parallelization.threads cores v
    | none => cores

/-- The numbers of an option. -/
structure Option_ (ps : List (Str × Str)) : Prop where
  writable : Parallelization.Writable ps
  numbers : ∀ p ∈ ps, Parallelization.Numeral p.2

/-- C206 as claimed: a file on a fast drive that is opened with a backend for several threads is decompressed with as many as
the option `-P` means for this backend. -/
def C206_statement : Prop :=
  ∀ (cores : Nat) (ps : List (Str × Str)) (d : Dict Str Nat), Option_ ps → Parallelization.parse cores (Parallelization.written ps) = .ok d →
    ∀ (i : Input) (spacing : Nat) (prioritized : List Str) (f : Nat) (backend : Str), IsCompressed i f → i.real = true → Parallel backend f →
      ∀ (used : Str) (n : Nat), openThreads d i spacing prioritized ⟨false, true⟩ .plain = .ok (.with_ used, n) →
        (used = backend ∨ used = "rapidgzip".toList) → n = meant cores ps backend

/-! ## proofs -/

/-- `-P xz:4` -/
def forXz : List (Str × Str) := [("xz".toList, ['4'])]

/-- A large XZ file, and python-xz is installed. -/
def largeXz : Input := ⟨fun m => m = "xz".toList, fun f => f = 0x1003, fun f => f = 0x1003, true, 10 ^ 9⟩

theorem forXz_option : Option_ forXz where
  writable := by unfold Parallelization.Writable forXz; decide
  numbers := by
    intro p hp
    simp only [forXz, List.mem_singleton] at hp
    subst hp
    exact ⟨by decide, by decide⟩

/-- **C206 is violated by the code**: the blocks are asked from the compressed file instead of the decompressed one, so XZ files are never
decompressed in parallel. -/
theorem C206_violated : ¬ C206_statement := by
  intro h
  have := h 8 forXz [("xz".toList, 4), ([], 8)] forXz_option (by decide +kernel) largeXz 1000 [] 0x1003 "xz".toList
    ⟨rfl, rfl, fun g hg => by simp [largeXz, hg]⟩ rfl .xz "xz".toList 1 (by decide +kernel) (.inl rfl)
  exact absurd this (by decide +kernel)

/-- **C206**: whatever the option says, one thread decompresses an XZ file. -/
theorem C206_xz_alone (d : Dict Str Nat) (i : Input) (spacing : Nat) (prioritized : List Str) (w : Where) (hc : IsCompressed i 0x1003)
    (opened : Opened) (n : Nat) (h : openThreads d i spacing prioritized w .plain = .ok (opened, n)) : n = 1 := by
  unfold openThreads at h
  have hd : ∀ l : List Nat, detect i prioritized l = none ∨ detect i prioritized l = some xzId := by
    intro l
    induction l with
    | nil => exact .inl rfl
    | cons g l ih =>
      unfold detect
      by_cases hg : g = xzId
      · subst hg
        split
        · split
          · exact .inl rfl
          · split
            · exact .inr rfl
            · exact ih
        · exact ih
      · rw [hc.2.2 g hg]
        simpa using ih
  rcases hd formatIds with h1 | h1
  · rw [h1] at h
    cases h
    rfl
  · rw [h1] at h
    simp only at h
    cases ho : openAs i spacing tarBackends prioritized xzId with
    | error e => rw [ho] at h; cases h
    | ok x =>
      rw [ho] at h
      cases h
      unfold threadsAs xzThreads FileObj.boundaries
      rw [if_neg (by decide), if_neg (by decide), if_pos rfl]
      split <;> rfl

theorem detect_compressed {i : Input} {f : Nat} (hc : IsCompressed i f) (prioritized : List Str) (l : List Nat) :
    detect i prioritized l = none ∨ detect i prioritized l = some f := by
  induction l with
  | nil => exact .inl rfl
  | cons g l ih =>
    unfold detect
    by_cases hg : g = f
    · subst hg
      split
      · split
        · exact .inl rfl
        · split
          · exact .inr rfl
          · exact ih
      · exact ih
    · rw [hc.2.2 g hg]
      simpa using ih

theorem settings_get {cores : Nat} {ps : List (Str × Str)} {d : Dict Str Nat} (ho : Option_ ps)
    (hd : Parallelization.parse cores (Parallelization.written ps) = .ok d) (backend : Str) (hb : backend ≠ []) :
    getOr (tarSettings d 1) backend (fallback (tarSettings d 1)) = meant cores ps backend := by
  obtain ⟨d', h1, h2⟩ := Parallelization.C81_list cores ps ho.writable ho.numbers
  rw [hd] at h1
  cases h1
  have hdef := Parallelization.C81_default _ _ _ hd
  have : tarSettings d 1 = d := by
    unfold tarSettings Dict.has
    rw [if_pos hdef]
  rw [this]
  unfold getOr fallback getOr meant
  rw [h2 backend, h2 [], if_neg hb, if_pos rfl]
  cases Parallelization.assigned ps backend with
  | some v => rfl
  | none => cases Parallelization.assigned ps ([] : Str) <;> rfl

/-- **C206** for bzip2 and gzip files (with no number for the additional name `rapidgzip-gzip`): they are decompressed with as many threads as the
option means for the backend. Missing: XZ, zlib and deflate, which are always decompressed by one thread. -/
theorem C206_partial (cores : Nat) (ps : List (Str × Str)) (d : Dict Str Nat) (ho : Option_ ps)
    (hd : Parallelization.parse cores (Parallelization.written ps) = .ok d) (i : Input) (spacing : Nat) (prioritized : List Str) (linux : Bool)
    (o : FileObj) (f : Nat) (backend : Str)
    (hc : IsCompressed i f) (hb : (f = 0x1001 ∧ backend = "rapidgzip-bzip2".toList) ∨ (f = 0x1002 ∧ backend = "rapidgzip".toList ∧
      Parallelization.assigned ps "rapidgzip-gzip".toList = none))
    (n : Nat) (h : openThreads d i spacing prioritized ⟨false, linux⟩ o = .ok (.with_ "rapidgzip".toList, n)) : n = meant cores ps backend := by
  unfold openThreads at h
  rcases detect_compressed hc prioritized formatIds with h1 | h1
  · rw [h1] at h; cases h
  · rw [h1] at h
    simp only at h
    cases hoa : openAs i spacing tarBackends prioritized f with
    | error e => rw [hoa] at h; cases h
    | ok x =>
      rw [hoa] at h
      simp only [Except.map, Except.ok.injEq, Prod.mk.injEq] at h
      obtain ⟨hx, hn⟩ := h
      subst hx
      subst hn
      rcases hb with ⟨rfl, rfl⟩ | ⟨rfl, rfl, hg⟩
      · unfold threadsAs
        rw [if_neg (by decide), if_pos (by decide)]
        exact settings_get ho hd _ (by decide)
      · unfold threadsAs
        rw [if_pos (by decide)]
        have hrap : useRapidgzip i spacing prioritized = true := by
          cases hu : useRapidgzip i spacing prioritized with
          | true => rfl
          | false =>
            unfold openAs at hoa
            split at hoa
            · cases hoa
            · split at hoa
              · cases hoa
              · rw [if_pos (by decide), hu] at hoa
                simp only [Bool.false_eq_true, if_false] at hoa
                unfold useLibrary at hoa
                split at hoa
                · exact absurd hoa (by decide)
                · cases hoa
        rw [if_pos hrap]
        unfold gzipThreads
        simp only [Bool.and_false, Bool.false_eq_true, if_false]
        have hnone : getOr (tarSettings d 1) "rapidgzip-gzip".toList (getOr (tarSettings d 1) "rapidgzip".toList (fallback (tarSettings d 1))) =
            getOr (tarSettings d 1) "rapidgzip".toList (fallback (tarSettings d 1)) := by
          obtain ⟨d', e1, e2⟩ := Parallelization.C81_list cores ps ho.writable ho.numbers
          rw [hd] at e1
          cases e1
          have : tarSettings d 1 = d := by
            unfold tarSettings Dict.has
            rw [if_pos (Parallelization.C81_default _ _ _ hd)]
          rw [this]
          unfold getOr
          rw [e2 "rapidgzip-gzip".toList, hg, if_neg (by decide)]
          rfl
        rw [hnone]
        exact settings_get ho hd _ (by decide)

/-- The default of the option `-P`: `:1,rapidgzip-bzip2:0`. -/
def defaultOption : List (Str × Str) := [([], ['1']), ("rapidgzip-bzip2".toList, ['0'])]

theorem default_option : Option_ defaultOption where
  writable := by unfold Parallelization.Writable defaultOption; decide
  numbers := by
    intro p hp
    simp only [defaultOption, List.mem_cons, List.not_mem_nil, or_false] at hp
    rcases hp with rfl | rfl <;> exact ⟨by decide, by decide⟩

/-- A bzip2 file. -/
def someBzip2 : Input := ⟨fun m => m = rapidgzip, fun f => f = 0x1001, fun f => f = 0x1001, true, 100⟩

/-- C206: by default, bzip2 files are decompressed with all cores. -/
example : Parallelization.parse 8 ":1,rapidgzip-bzip2:0".toList = .ok [([], 1), ("rapidgzip-bzip2".toList, 8)] ∧
    openThreads [([], 1), ("rapidgzip-bzip2".toList, 8)] someBzip2 1000 [] ⟨false, true⟩ .plain = .ok (.with_ "rapidgzip".toList, 8) ∧
    meant 8 defaultOption "rapidgzip-bzip2".toList = 8 ∧ IsCompressed someBzip2 0x1001 := by
  refine ⟨by decide +kernel, by decide +kernel, by decide +kernel, rfl, rfl, fun g hg => by simp [someBzip2, hg]⟩

/-- A large gzip file. -/
def largeGzip : Input := ⟨fun m => m = rapidgzip, fun f => f = 0x1002, fun f => f = 0x1002, true, 10 ^ 9⟩

/-- C206: a gzip file with the default of the option, and with another number. -/
example : openThreads [([], 1), ("rapidgzip-bzip2".toList, 8)] largeGzip 1000 [] ⟨false, true⟩ .plain = .ok (.with_ "rapidgzip".toList, 1) ∧
    openThreads [([], 1), ("rapidgzip".toList, 3)] largeGzip 1000 [] ⟨false, true⟩ .plain = .ok (.with_ "rapidgzip".toList, 3) := by
  decide +kernel

end Verif.Detect.Threads
