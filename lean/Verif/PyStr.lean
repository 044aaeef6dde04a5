/-!
# Python string functions used by the models

Strings are lists of characters (`Str`); `bytes` too, with another character type.
-/

namespace Verif.Py

/-- A Python string. -/
abbrev Str := List Char

section
variable {α : Type} [DecidableEq α]

/-- `s.split(c)` for a one-character separator. -/
def split (c : α) : List α → List (List α)
  | [] => [[]]
  | x :: xs =>
    if x = c then [] :: split c xs
    else match split c xs with
      | h :: t => (x :: h) :: t
      | [] => [[x]]

/-- `c.join(parts)` for a one-character separator. -/
def join (c : α) : List (List α) → List α
  | [] => []
  | [p] => p
  | p :: q :: ps => p ++ c :: join c (q :: ps)

/-- `s.rsplit(c, 1)`: `none` if `c` does not occur, otherwise the two parts around its last occurrence. -/
def rsplit1 (c : α) : List α → Option (List α × List α)
  | [] => none
  | x :: xs =>
    match rsplit1 c xs with
    | some (a, b) => some (x :: a, b)
    | none => if x = c then some ([], xs) else none

/-- `s.startswith(pre)`. -/
def startsWith (pre s : List α) : Bool := pre.isPrefixOf s

/-- `s.endswith(suf)`. -/
def endsWith (suf s : List α) : Bool := suf.isSuffixOf s

/-- `s.lstrip(c)`. -/
def lstrip (c : α) (s : List α) : List α := s.dropWhile (· = c)

/-- `s.rstrip(c)`. -/
def rstrip (c : α) (s : List α) : List α := (s.reverse.dropWhile (· = c)).reverse

theorem split_ne_nil (c : α) (s : List α) : split c s ≠ [] := by
  cases s with
  | nil => simp [split]
  | cons x xs => simp only [split]; split <;> (try split) <;> simp

theorem split_cons_eq (c : α) (xs : List α) : split c (c :: xs) = [] :: split c xs := by simp [split]

theorem split_cons_ne (c x : α) (xs : List α) (h : x ≠ c) :
    ∃ p ps, split c xs = p :: ps ∧ split c (x :: xs) = (x :: p) :: ps := by
  cases hs : split c xs with
  | nil => exact absurd hs (split_ne_nil c xs)
  | cons p ps => exact ⟨p, ps, rfl, by simp [split, h, hs]⟩

theorem join_split (c : α) (s : List α) : join c (split c s) = s := by
  induction s with
  | nil => rfl
  | cons x xs ih =>
    by_cases h : x = c
    · subst h
      rw [split_cons_eq]
      cases hs : split x xs with
      | nil => exact absurd hs (split_ne_nil x xs)
      | cons p ps => rw [hs] at ih; simp [join, ih]
    · obtain ⟨p, ps, h1, h2⟩ := split_cons_ne c x xs h
      rw [h2]
      rw [h1] at ih
      cases ps with
      | nil => simp only [join] at ih ⊢; rw [ih]
      | cons q qs => simp only [join, List.cons_append] at ih ⊢; rw [ih]

theorem not_mem_of_mem_split (c : α) (s : List α) : ∀ p ∈ split c s, c ∉ p := by
  induction s with
  | nil => simp [split]
  | cons x xs ih =>
    by_cases h : x = c
    · subst h
      rw [split_cons_eq]
      intro p hp
      rcases List.mem_cons.mp hp with rfl | hp
      · simp
      · exact ih p hp
    · obtain ⟨q, qs, h1, h2⟩ := split_cons_ne c x xs h
      rw [h2]; rw [h1] at ih
      intro p hp
      rcases List.mem_cons.mp hp with rfl | hp
      · have := ih q (by simp)
        simp only [List.mem_cons, not_or]
        exact ⟨fun h' => h h'.symm, this⟩
      · exact ih p (by simp [hp])

theorem split_of_not_mem (c : α) (s : List α) (h : c ∉ s) : split c s = [s] := by
  induction s with
  | nil => rfl
  | cons x xs ih =>
    simp only [List.mem_cons, not_or] at h
    obtain ⟨p, ps, h1, h2⟩ := split_cons_ne c x xs (fun h' => h.1 h'.symm)
    rw [ih h.2] at h1
    cases h1
    rw [h2]

theorem split_append_cons (c : α) (s t : List α) (h : c ∉ s) : split c (s ++ c :: t) = s :: split c t := by
  induction s with
  | nil => simp [split]
  | cons x xs ih =>
    simp only [List.mem_cons, not_or] at h
    rw [List.cons_append]
    obtain ⟨p, ps, h1, h2⟩ := split_cons_ne c x (xs ++ c :: t) (fun h' => h.1 h'.symm)
    rw [ih h.2] at h1
    cases h1
    rw [h2]

theorem split_join (c : α) (ps : List (List α)) (hne : ps ≠ []) (h : ∀ p ∈ ps, c ∉ p) :
    split c (join c ps) = ps := by
  induction ps with
  | nil => exact absurd rfl hne
  | cons p ps ih =>
    cases ps with
    | nil => simp only [join]; exact split_of_not_mem c p (h p (by simp))
    | cons q qs =>
      simp only [join]
      rw [split_append_cons c p _ (h p (by simp)), ih (by simp) (fun x hx => h x (List.mem_cons_of_mem _ hx))]

theorem rsplit1_some {c : α} {s a b : List α} (h : rsplit1 c s = some (a, b)) : s = a ++ c :: b ∧ c ∉ b := by
  induction s generalizing a b with
  | nil => simp [rsplit1] at h
  | cons x xs ih =>
    simp only [rsplit1] at h
    cases hr : rsplit1 c xs with
    | some p =>
      obtain ⟨a', b'⟩ := p
      rw [hr] at h
      simp only [Option.some.injEq, Prod.mk.injEq] at h
      obtain ⟨rfl, rfl⟩ := h
      obtain ⟨h1, h2⟩ := ih hr
      exact ⟨by rw [h1]; rfl, h2⟩
    | none =>
      rw [hr] at h
      simp only at h
      split at h
      · next hx =>
        simp only [Option.some.injEq, Prod.mk.injEq] at h
        obtain ⟨rfl, rfl⟩ := h
        refine ⟨by rw [hx]; rfl, ?_⟩
        clear ih
        have key : ∀ xs : List α, rsplit1 c xs = none → c ∉ xs := by
          intro xs
          induction xs with
          | nil => simp
          | cons y ys ih =>
            intro hy
            simp only [rsplit1] at hy
            cases hr2 : rsplit1 c ys with
            | some p => rw [hr2] at hy; simp at hy
            | none =>
              rw [hr2] at hy
              simp only at hy
              split at hy
              · simp at hy
              · next hne =>
                simp only [List.mem_cons, not_or]
                exact ⟨fun h' => hne h'.symm, ih hr2⟩
        exact key xs hr
      · simp at h

theorem rsplit1_none {c : α} {s : List α} : rsplit1 c s = none ↔ c ∉ s := by
  induction s with
  | nil => simp [rsplit1]
  | cons x xs ih =>
    simp only [rsplit1, List.mem_cons, not_or]
    cases hr : rsplit1 c xs with
    | some p =>
      simp only [reduceCtorEq, false_iff, not_and]
      intro _ hx
      rw [ih.mpr hx] at hr; cases hr
    | none =>
      simp only
      have := ih.mp hr
      by_cases hx : x = c
      · simp [hx]
      · simp only [if_neg hx, true_iff]; exact ⟨fun h => hx h.symm, this⟩

theorem rsplit1_append {c : α} (a b : List α) (h : c ∉ b) : rsplit1 c (a ++ c :: b) = some (a, b) := by
  cases hr : rsplit1 c (a ++ c :: b) with
  | none => have := rsplit1_none.mp hr; simp at this
  | some p =>
    obtain ⟨a', b'⟩ := p
    obtain ⟨h1, h2⟩ := rsplit1_some hr
    have key : ∀ (a a' : List α), a ++ c :: b = a' ++ c :: b' → a = a' ∧ b = b' := by
      intro a
      induction a with
      | nil =>
        intro a' h
        cases a' with
        | nil => simpa using h
        | cons y ys =>
          simp only [List.nil_append, List.cons_append, List.cons.injEq] at h
          have hb := ‹c ∉ b›
          rw [h.2] at hb
          simp at hb
      | cons x xs ih =>
        intro a' h
        cases a' with
        | nil =>
          simp only [List.nil_append, List.cons_append, List.cons.injEq] at h
          rw [← h.2] at h2
          simp at h2
        | cons y ys =>
          simp only [List.cons_append, List.cons.injEq] at h
          obtain ⟨h3, h4⟩ := ih ys h.2
          exact ⟨by rw [h.1, h3], h4⟩
    obtain ⟨h3, h4⟩ := key a a' h1
    rw [h3, h4]

end

end Verif.Py
