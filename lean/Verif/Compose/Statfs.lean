import Verif.Dict
import Verif.PyStr

/-!
# C33: combined file system statistics (core/ratarmountcore/mountsource/MountSource.py:156-174)
-/

namespace Verif.Compose

open Verif.Py

/-- The keys whose largest value is taken (MountSource.py:164). -/
def maxKeys : List Str := ["f_bsize".toList, "f_frsize".toList]

/-- The body of the inner loop of `merge_statfs` (MountSource.py:160-173). The warning at 172-173 has no effect on the result. -/
def mergeOne (result : Dict Str Int) (kv : Str × Int) : Dict Str Int :=
  match result.get? kv.1 with
  | none => result.set kv.1 kv.2
  | some old =>
    if kv.1 ∈ maxKeys then result.set kv.1 (max old kv.2)
    else if kv.1 = "f_namemax".toList then result.set kv.1 (min old kv.2)
    else result

/-- `merge_statfs` (MountSource.py:156-174). -/
def mergeStatfs (values : List (Dict Str Int)) : Dict Str Int :=
  values.foldl (fun result statfs => statfs.foldl mergeOne result) []

/-- The values that the sources report for a key, in order. -/
def reported (values : List (Dict Str Int)) (k : Str) : List Int := values.filterMap (fun d => d.get? k)

/-- Combining an earlier value with a new one. -/
def combine (k : Str) : Option Int → Int → Int
  | none, v => v
  | some old, v => if k ∈ maxKeys then max old v else if k = "f_namemax".toList then min old v else old

theorem get?_mergeOne (r : Dict Str Int) (kv : Str × Int) (k : Str) :
    (mergeOne r kv).get? k = if kv.1 = k then some (combine k (r.get? k) kv.2) else r.get? k := by
  unfold mergeOne
  by_cases h : kv.1 = k
  · rw [if_pos h, h]
    cases hr : r.get? k with
    | none => simp [Dict.get?_set, combine]
    | some old =>
      simp only [combine]
      split
      · simp [Dict.get?_set]
      · split
        · simp [Dict.get?_set]
        · exact hr
  · rw [if_neg h]
    cases r.get? kv.1 with
    | none => simp [Dict.get?_set, h]
    | some old =>
      simp only
      split
      · simp [Dict.get?_set, h]
      · split
        · simp [Dict.get?_set, h]
        · rfl

theorem get?_mergeDict (d : Dict Str Int) (hd : d.keys.Nodup) : ∀ (r : Dict Str Int) (k : Str),
    (d.foldl mergeOne r).get? k =
      match d.get? k with
      | none => r.get? k
      | some v => some (combine k (r.get? k) v) := by
  induction d with
  | nil => intro r k; rfl
  | cons kv d ih =>
    intro r k
    rw [Dict.keys_cons, List.nodup_cons] at hd
    rw [List.foldl_cons, ih hd.2, get?_mergeOne]
    obtain ⟨k', v⟩ := kv
    by_cases h : k' = k
    · subst h
      have hn : Dict.get? d k' = none := by
        cases hg : Dict.get? d k' with
        | none => rfl
        | some x => exact absurd ((Dict.mem_keys_iff d k').mpr (by rw [hg]; rfl)) hd.1
      simp [hn, Dict.get?]
    · simp [h, Dict.get?]

theorem get?_merge (values : List (Dict Str Int)) (hv : ∀ d ∈ values, d.keys.Nodup) (k : Str) : ∀ r : Dict Str Int,
    (values.foldl (fun result statfs => statfs.foldl mergeOne result) r).get? k =
      (reported values k).foldl (fun o v => some (combine k o v)) (r.get? k) := by
  induction values with
  | nil => intro r; rfl
  | cons d ds ih =>
    intro r
    rw [List.foldl_cons, ih (fun x hx => hv x (List.mem_cons_of_mem _ hx)), get?_mergeDict d (hv d (by simp))]
    unfold reported
    cases h : d.get? k with
    | none => rw [List.filterMap_cons_none (f := fun d : Dict Str Int => d.get? k) h]
    | some v => rw [List.filterMap_cons_some (f := fun d : Dict Str Int => d.get? k) h]; rfl

/-- **C33**, block sizes: reported exactly if a source reports it, as the largest of the reported values. -/
theorem C33_block_size (values : List (Dict Str Int)) (hv : ∀ d ∈ values, d.keys.Nodup) (k : Str)
    (hk : k = "f_bsize".toList ∨ k = "f_frsize".toList) :
    ((mergeStatfs values).get? k = none ↔ reported values k = []) ∧
    ∀ m, (mergeStatfs values).get? k = some m → m ∈ reported values k ∧ ∀ x ∈ reported values k, x ≤ m := by
  have hk' : k ∈ maxKeys := by rcases hk with rfl | rfl <;> decide
  have key : ∀ (l : List Int) (a : Int), ∃ m, l.foldl (fun o v => some (combine k o v)) (some a) = some m ∧ (m = a ∨ m ∈ l) ∧
      a ≤ m ∧ ∀ x ∈ l, x ≤ m := by
    intro l
    induction l with
    | nil => intro a; exact ⟨a, rfl, .inl rfl, Int.le_refl _, by simp⟩
    | cons v l ih =>
      intro a
      obtain ⟨m, h1, h2, h3, h4⟩ := ih (max a v)
      refine ⟨m, ?_, ?_, by omega, ?_⟩
      · rw [List.foldl_cons]
        rw [show combine k (some a) v = max a v from if_pos hk']
        exact h1
      · rcases h2 with h2 | h2
        · rcases Int.le_total a v with h | h
          · right; rw [h2, Int.max_eq_right h]; simp
          · left; rw [h2, Int.max_eq_left h]
        · right; exact List.mem_cons_of_mem _ h2
      · intro x hx
        rcases List.mem_cons.mp hx with rfl | hx
        · omega
        · exact h4 x hx
  unfold mergeStatfs
  rw [get?_merge values hv k []]
  cases hr : reported values k with
  | nil => simp
  | cons v l =>
    obtain ⟨m, h1, h2, h3, h4⟩ := key l v
    rw [List.foldl_cons, Dict.get?_nil, show combine k none v = v from rfl, h1]
    refine ⟨by simp, ?_⟩
    rintro m' ⟨⟩
    refine ⟨?_, ?_⟩
    · rcases h2 with rfl | h2
      · simp
      · exact List.mem_cons_of_mem _ h2
    · intro x hx
      rcases List.mem_cons.mp hx with rfl | hx
      · exact h3
      · exact h4 x hx

/-- **C33**, name length: the smallest of the reported values. -/
theorem C33_name_length (values : List (Dict Str Int)) (hv : ∀ d ∈ values, d.keys.Nodup) :
    ((mergeStatfs values).get? "f_namemax".toList = none ↔ reported values "f_namemax".toList = []) ∧
    ∀ m, (mergeStatfs values).get? "f_namemax".toList = some m →
      m ∈ reported values "f_namemax".toList ∧ ∀ x ∈ reported values "f_namemax".toList, m ≤ x := by
  have hk' : "f_namemax".toList ∉ maxKeys := by decide
  revert hk'
  have hd : "f_namemax".toList = "f_namemax".toList := rfl
  revert hd
  generalize hk : "f_namemax".toList = k
  intro _ hk'
  have hc : ∀ a v, combine k (some a) v = min a v := by
    intro a v
    show (if k ∈ maxKeys then max a v else if k = "f_namemax".toList then min a v else a) = _
    rw [if_neg hk', if_pos hk.symm]
  have key : ∀ (l : List Int) (a : Int), ∃ m, l.foldl (fun o v => some (combine k o v)) (some a) = some m ∧ (m = a ∨ m ∈ l) ∧
      m ≤ a ∧ ∀ x ∈ l, m ≤ x := by
    intro l
    induction l with
    | nil => intro a; exact ⟨a, rfl, .inl rfl, Int.le_refl _, by simp⟩
    | cons v l ih =>
      intro a
      obtain ⟨m, h1, h2, h3, h4⟩ := ih (min a v)
      refine ⟨m, ?_, ?_, by omega, ?_⟩
      · rw [List.foldl_cons, hc]
        exact h1
      · rcases h2 with h2 | h2
        · rcases Int.le_total a v with h | h
          · left; rw [h2, Int.min_eq_left h]
          · right; rw [h2, Int.min_eq_right h]; simp
        · right; exact List.mem_cons_of_mem _ h2
      · intro x hx
        rcases List.mem_cons.mp hx with rfl | hx
        · omega
        · exact h4 x hx
  unfold mergeStatfs
  rw [get?_merge values hv k []]
  cases hr : reported values k with
  | nil => simp
  | cons v l =>
    obtain ⟨m, h1, h2, h3, h4⟩ := key l v
    rw [List.foldl_cons, Dict.get?_nil, show combine k none v = v from rfl, h1]
    refine ⟨by simp, ?_⟩
    rintro m' ⟨⟩
    refine ⟨?_, ?_⟩
    · rcases h2 with rfl | h2
      · simp
      · exact List.mem_cons_of_mem _ h2
    · intro x hx
      rcases List.mem_cons.mp hx with rfl | hx
      · exact h3
      · exact h4 x hx

/-- **C33**, all other fields: the value of the first source that reports it. -/
theorem C33_other (values : List (Dict Str Int)) (hv : ∀ d ∈ values, d.keys.Nodup) (k : Str)
    (hk : k ≠ "f_bsize".toList ∧ k ≠ "f_frsize".toList ∧ k ≠ "f_namemax".toList) :
    (mergeStatfs values).get? k = (reported values k).head? := by
  have hk' : k ∉ maxKeys := by
    unfold maxKeys
    simp only [List.mem_cons, List.not_mem_nil, or_false, not_or]
    exact ⟨hk.1, hk.2.1⟩
  have hc : ∀ a v, combine k (some a) v = a := by
    intro a v
    show (if k ∈ maxKeys then max a v else if k = "f_namemax".toList then min a v else a) = _
    rw [if_neg hk', if_neg hk.2.2]
  have key : ∀ (l : List Int) (a : Int), l.foldl (fun o v => some (combine k o v)) (some a) = some a := by
    intro l
    induction l with
    | nil => intro a; rfl
    | cons v l ih => intro a; rw [List.foldl_cons, hc, ih]
  unfold mergeStatfs
  rw [get?_merge values hv k []]
  cases reported values k with
  | nil => rfl
  | cons v l => rw [List.foldl_cons, Dict.get?_nil, show combine k none v = v from rfl, key]; rfl

/-- Two sources that report different things. -/
def demoStatfs : List (Dict Str Int) :=
  [[("f_bsize".toList, 512), ("f_namemax".toList, 255), ("f_blocks".toList, 7)],
   [("f_namemax".toList, 143), ("f_frsize".toList, 4096), ("f_bsize".toList, 4096), ("f_blocks".toList, 9)]]

/-- A case of the theorems above. -/
example : (∀ d ∈ demoStatfs, d.keys.Nodup) ∧
    mergeStatfs demoStatfs = [("f_bsize".toList, 4096), ("f_namemax".toList, 143), ("f_blocks".toList, 7), ("f_frsize".toList, 4096)] := by
  decide

end Verif.Compose
