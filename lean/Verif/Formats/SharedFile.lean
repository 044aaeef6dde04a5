import Verif.Py

/-!
# C100: half-read archives on one file
(core/ratarmountcore/mountsource/formats/libarchive.py:193-300, 333-354, 379-393)

`IterableArchive`s are kept half-read in a cache. libarchive asks each of them for the next bytes of the file with a callback. It
takes the bytes as if they followed on those it got before.
-/

namespace Verif.SharedFile

/-- An `IterableArchive`: where its own descriptor is, and the bytes libarchive was given (libarchive.py:193-224, 270-299). -/
structure Reader (α : Type) where
  fd : Nat
  got : List α
  deriving DecidableEq, Repr

/-- The archives that are open, and the position of the file object they were opened with (libarchive.py:193-224, 270-299). -/
structure State (α : Type) where
  pos : Nat
  readers : List (Reader α)
  deriving DecidableEq, Repr

/-- What happens: a new `IterableArchive` (libarchive.py:193-222), or libarchive asks archive `i` for bytes. Archives
that are dropped from the cache (libarchive.py:346) are those that are not asked any more. -/
inductive Op where
  | new
  | pull (i : Nat)
  deriving DecidableEq, Repr

/-- `byPath`: opened with a path (libarchive.py:244-247), otherwise with a file object (libarchive.py:250-251, 270-296), which is put to the beginning (libarchive.py:289)
and read in pieces of `bufferSize` bytes (libarchive.py:275-279). -/
def step {α : Type} (byPath : Bool) (bufferSize : Nat) (file : List α) (s : State α) : Op → State α
  | .new => ⟨if byPath then s.pos else 0, s.readers ++ [⟨0, []⟩]⟩
  | .pull i => match s.readers[i]? with
    | none => s
    | some r =>
      let at_ := if byPath then r.fd else s.pos
      let data := (file.drop at_).take bufferSize
      ⟨if byPath then s.pos else s.pos + data.length, s.readers.set i ⟨r.fd + data.length, r.got ++ data⟩⟩

/-- Any number of steps (libarchive.py:270-299). -/
def run {α : Type} (byPath : Bool) (bufferSize : Nat) (file : List α) (ops : List Op) : State α :=
  ops.foldl (step byPath bufferSize file) ⟨0, []⟩

/-! ## specification -/

/-- Every archive was given the file from its beginning. -/
def Undisturbed {α : Type} (file : List α) (s : State α) : Prop := ∀ r ∈ s.readers, r.got <+: file

def C100_statement (α : Type) : Prop :=
  ∀ (byPath : Bool) (bufferSize : Nat) (file : List α) (ops : List Op), 0 < bufferSize →
    Undisturbed file (run byPath bufferSize file ops)

/-- Only the newest archive is read (`n` archives exist already). -/
def NewestOnly : Nat → List Op → Bool
  | _, [] => true
  | n, .new :: ops => NewestOnly (n + 1) ops
  | n, .pull i :: ops => (i + 1 == n) && NewestOnly n ops

/-! ## proofs -/

theorem prefix_more {α : Type} (file got : List α) (n : Nat) (h : got <+: file) :
    got ++ (file.drop got.length).take n <+: file := by
  obtain ⟨t, ht⟩ := h
  subst ht
  rw [List.drop_left]
  exact ⟨t.drop n, by rw [List.append_assoc, List.take_append_drop]⟩

/-- **C100** for archives that are given as a path. -/
theorem C100_path_partial {α : Type} (bufferSize : Nat) (file : List α) (ops : List Op) :
    Undisturbed file (run true bufferSize file ops) := by
  have key : ∀ (ops : List Op) (s : State α), (∀ r ∈ s.readers, r.got <+: file ∧ r.fd = r.got.length) →
      ∀ r ∈ (ops.foldl (step true bufferSize file) s).readers, r.got <+: file ∧ r.fd = r.got.length := by
    intro ops
    induction ops with
    | nil => intro s h; exact h
    | cons op ops ih =>
      intro s h
      rw [List.foldl_cons]
      apply ih
      cases op with
      | new =>
        intro r hr
        rcases List.mem_append.mp hr with hr | hr
        · exact h r hr
        · rw [List.mem_singleton] at hr
          subst hr
          exact ⟨List.nil_prefix, rfl⟩
      | pull i =>
        simp only [step]
        split
        · exact h
        · next r0 h0 =>
          intro r hr
          have hr0 := h r0 (List.mem_of_getElem? h0)
          rcases List.mem_or_eq_of_mem_set hr with hr | hr
          · exact h r hr
          · subst hr
            simp only [if_true]
            rw [hr0.2]
            exact ⟨prefix_more file _ _ hr0.1, by rw [List.length_append]⟩
  intro r hr
  exact (key ops ⟨0, []⟩ (by simp) r hr).1

/-- **C100** for file objects, provable part: only the archive that was opened last is read. Missing: archives taken from the
cache after another one was opened. -/
theorem C100_newest_partial {α : Type} (byPath : Bool) (bufferSize : Nat) (file : List α) (ops : List Op)
    (hops : NewestOnly 0 ops = true) : Undisturbed file (run byPath bufferSize file ops) := by
  cases byPath with
  | true => exact C100_path_partial bufferSize file ops
  | false =>
    have key : ∀ (ops : List Op) (s : State α), NewestOnly s.readers.length ops = true → Undisturbed file s →
        (∀ r, s.readers.getLast? = some r → s.pos = r.got.length) →
        Undisturbed file (ops.foldl (step false bufferSize file) s) := by
      intro ops
      induction ops with
      | nil => intro s _ h _; exact h
      | cons op ops ih =>
        intro s hn h hl
        rw [List.foldl_cons]
        cases op with
        | new =>
          apply ih
          · simpa [step, NewestOnly] using hn
          · intro r hr
            rcases List.mem_append.mp hr with hr | hr
            · exact h r hr
            · rw [List.mem_singleton] at hr
              subst hr
              exact List.nil_prefix
          · intro r hr
            simp only [step, List.getLast?_concat] at hr
            injection hr with hr
            subst hr
            rfl
        | pull i =>
          simp only [NewestOnly, Bool.and_eq_true, beq_iff_eq] at hn
          cases h0 : s.readers[i]? with
          | none =>
            have : step false bufferSize file s (.pull i) = s := by simp only [step, h0]
            rw [this]
            exact ih s hn.2 h hl
          | some r0 =>
            have hlast : s.readers.getLast? = some r0 := by
              rw [List.getLast?_eq_getElem?, ← hn.1]
              exact h0
            have hpos := hl r0 hlast
            have hr0 := h r0 (List.mem_of_getElem? h0)
            apply ih
            · simp only [step, h0, List.length_set]
              exact hn.2
            · intro r hr
              simp only [step, h0] at hr
              rcases List.mem_or_eq_of_mem_set hr with hr | hr
              · exact h r hr
              · subst hr
                simp only [Bool.false_eq_true, if_false, hpos]
                exact prefix_more file _ _ hr0
            · intro r hr
              have hi : i < s.readers.length := by omega
              simp only [step, h0, Bool.false_eq_true, if_false] at hr ⊢
              rw [List.getLast?_eq_getElem?, List.length_set, ← hn.1] at hr
              rw [Nat.add_sub_cancel, List.getElem?_set_self hi] at hr
              injection hr with hr
              subst hr
              simp only [List.length_append, hpos]
    exact key ops ⟨0, []⟩ hops (by intro r hr; simp at hr) (by intro r hr; simp at hr)

example : NewestOnly 0 [.new, .pull 0, .pull 0, .new, .pull 1, .new, .pull 2, .pull 2] = true := by decide

example : (run false 2 [1, 2, 3, 4, 5] [.new, .pull 0, .pull 0, .new, .pull 1]).readers = [⟨4, [1, 2, 3, 4]⟩, ⟨2, [1, 2]⟩] := by
  decide

/-- C100 is violated: the first archive goes on with bytes it already had, because opening the second one has moved the file. -/
theorem C100_violated : ¬ C100_statement Nat := by
  intro h
  have := h false 2 [1, 2, 3, 4, 5] [.new, .pull 0, .new, .pull 0] (by decide) ⟨4, [1, 2, 1, 2]⟩ (by decide)
  revert this
  decide

/-- The archive that disturbs may be as short as one piece: what comes next for the older one depends only on what the newer one
has read. -/
theorem C100_resumes {α : Type} (bufferSize : Nat) (file : List α) (s : State α) (i : Nat) (r : Reader α) (hi : s.readers[i]? = some r) :
    (step false bufferSize file (step false bufferSize file s .new) (.pull i)).readers[i]? =
      some ⟨r.fd + (file.take bufferSize).length, r.got ++ file.take bufferSize⟩ := by
  have hlt := (List.getElem?_eq_some_iff.mp hi).1
  simp only [step, List.getElem?_append_left hlt, hi, Bool.false_eq_true, if_false, List.drop_zero]
  rw [List.getElem?_set_self (by rw [List.length_append]; omega)]

end Verif.SharedFile
