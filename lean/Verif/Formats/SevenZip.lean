import Verif.Py

/-!
# C77: members of 7z archives
(core/ratarmountcore/mountsource/formats/py7zr.py:22-36, 67-73)

The decompressor delivers a member as a sequence of calls of `write`.
-/

namespace Verif.SevenZip

open Verif.Py

/-- `CachedFile` (py7zr.py:22-27). -/
structure Cached (α : Type) where
  offset : Int
  maxSize : Int
  position : Int
  file : List α

/-- `write` (py7zr.py:30-36). -/
def Cached.write {α : Type} (c : Cached α) (s : List α) : Cached α :=
  let toSkip := c.offset - c.position
  let c' := { c with position := c.position + s.length }
  if toSkip < s.length ∧ (c.file.length : Int) < c.maxSize then
    let toRead := c.maxSize - c.file.length
    { c' with file := c.file ++ slice s toSkip (toSkip + toRead) }
  else c'

/-- `open_in_memory` (py7zr.py:67-73). -/
def openInMemory {α : Type} (offset maxSize : Int) (chunks : List (List α)) : List α :=
  (chunks.foldl Cached.write ⟨offset, maxSize, 0, []⟩).file

/-! ## specification -/

/-- The opened file is the whole member. -/
def C77_statement (α : Type) : Prop :=
  ∀ (maxSize : Nat) (chunks : List (List α)), 2 * chunks.flatten.length < maxSize → openInMemory 0 maxSize chunks = chunks.flatten

/-- No chunk is longer than everything before it, except for the first one. -/
def Shrinking {α : Type} (chunks : List (List α)) : Prop :=
  ∀ pre c post, chunks = pre ++ c :: post → pre.flatten = [] ∨ c.length ≤ pre.flatten.length

/-- What is left of the chunks after `n` bytes. -/
def kept {α : Type} : Nat → List (List α) → List α
  | _, [] => []
  | n, c :: cs => (if n = 0 then c else c.drop (c.length - n)) ++ kept (n + c.length) cs

/-! ## proofs -/

theorem write_spec {α : Type} (maxSize n : Nat) (file s : List α) (h : file.length ≤ n) (hm : 2 * n + s.length < maxSize) :
    (Cached.mk 0 (maxSize : Int) (n : Int) file).write s =
      ⟨0, maxSize, ((n + s.length : Nat) : Int), file ++ (if n = 0 then s else s.drop (s.length - n))⟩ := by
  have hpos : (n : Int) + (s.length : Int) = ((n + s.length : Nat) : Int) := by omega
  unfold Cached.write
  simp only [hpos]
  split
  · next hc =>
    have hend : sliceBound s.length ((0 : Int) - n + ((maxSize : Int) - file.length)) = s.length := by
      unfold sliceBound
      rw [if_neg (by omega)]
      omega
    have hstart : sliceBound s.length ((0 : Int) - n) = if n = 0 then 0 else s.length - n := by
      unfold sliceBound
      split
      · split <;> omega
      · split <;> omega
    simp only [slice, hend, hstart, List.take_length]
    congr 2
    split <;> simp
  · next hc =>
    have hs : s = [] := by
      apply List.eq_nil_of_length_eq_zero
      omega
    subst hs
    simp

/-- **C77**: what an opened file holds exactly: of every chunk but the first only as many bytes as came before it. -/
theorem C77_exact {α : Type} (maxSize : Nat) (chunks : List (List α)) (h : 2 * chunks.flatten.length < maxSize) :
    openInMemory 0 maxSize chunks = kept 0 chunks := by
  have key : ∀ (cs : List (List α)) (n : Nat) (file : List α), file.length ≤ n → 2 * (n + cs.flatten.length) < maxSize →
      (cs.foldl Cached.write (Cached.mk 0 (maxSize : Int) (n : Int) file)).file = file ++ kept n cs := by
    intro cs
    induction cs with
    | nil => intro n file _ _; simp [kept]
    | cons c cs ih =>
      intro n file hf hm
      rw [List.flatten_cons, List.length_append] at hm
      rw [List.foldl_cons, write_spec maxSize n file c hf (by omega), ih _ _ (by
        rw [List.length_append]
        split
        · omega
        · rw [List.length_drop]; omega) (by omega), kept, List.append_assoc]
  have := key chunks 0 [] (by simp) (by omega)
  simpa [openInMemory] using this

/-- **C77**, provable part: the file is complete if no chunk but the first is longer than everything before it. Missing: all other
sequences of chunks. -/
theorem C77_partial {α : Type} (maxSize : Nat) (chunks : List (List α)) (hm : 2 * chunks.flatten.length < maxSize)
    (h : Shrinking chunks) : openInMemory 0 maxSize chunks = chunks.flatten := by
  rw [C77_exact maxSize chunks hm]
  have key : ∀ (cs pre : List (List α)), chunks = pre ++ cs → kept pre.flatten.length cs = cs.flatten := by
    intro cs
    induction cs with
    | nil => intro pre _; rfl
    | cons c cs ih =>
      intro pre he
      have hi := ih (pre ++ [c]) (by rw [he]; simp)
      simp only [List.flatten_append, List.length_append, List.flatten_cons, List.flatten_nil, List.append_nil] at hi
      rw [kept, hi, List.flatten_cons]
      congr 1
      rcases h pre c cs he with h0 | hle
      · rw [h0]; rfl
      · split
        · rfl
        · rw [show c.length - pre.flatten.length = 0 by omega, List.drop_zero]
  exact key chunks [] rfl

example : Shrinking [[1, 2], [3, 4], [5], [6, 7, 8]] ∧ openInMemory 0 1000 [[1, 2], [3, 4], [5], [6, 7, 8]] = [1, 2, 3, 4, 5, 6, 7, 8] := by
  refine ⟨?_, by decide⟩
  intro pre c post h
  match pre with
  | [] => exact Or.inl rfl
  | [a] => simp at h; obtain ⟨rfl, rfl, _⟩ := h; exact Or.inr (by decide)
  | [a, b] => simp at h; obtain ⟨rfl, rfl, rfl, _⟩ := h; exact Or.inr (by decide)
  | [a, b, d] => simp at h; obtain ⟨rfl, rfl, rfl, rfl, _⟩ := h; exact Or.inr (by decide)
  | a :: b :: d :: e :: r => simp at h

/-- C77 is violated: the second chunk loses its beginning if it is longer than the first. -/
theorem C77_violated : ¬ C77_statement Nat := by
  intro h
  have := h 1000 [[1], [2, 3]] (by decide)
  revert this
  decide

end Verif.SevenZip
