/-!
# Python dictionaries

A `dict` is the list of its items in insertion order with distinct keys; assigning to a present key keeps
its place, as CPython does.
-/

namespace Verif

variable {K V : Type} [DecidableEq K]

abbrev Dict (K V : Type) := List (K × V)

namespace Dict

/-- `d.get(k)`. -/
def get? : Dict K V → K → Option V
  | [], _ => none
  | (k', v) :: d, k => if k' = k then some v else get? d k

/-- `k in d`. -/
def has (d : Dict K V) (k : K) : Bool := (d.get? k).isSome

/-- `d[k] = v`. -/
def set : Dict K V → K → V → Dict K V
  | [], k, v => [(k, v)]
  | (k', v') :: d, k, v => if k' = k then (k', v) :: d else (k', v') :: set d k v

/-- `del d[k]` for a present key; without effect for others. -/
def del : Dict K V → K → Dict K V
  | [], _ => []
  | (k', v') :: d, k => if k' = k then d else (k', v') :: del d k

/-- `d.keys()`. -/
def keys (d : Dict K V) : List K := d.map (·.1)

/-- `d.update(e)`. -/
def update (d e : Dict K V) : Dict K V := e.foldl (fun d kv => d.set kv.1 kv.2) d

@[simp] theorem get?_nil (k : K) : get? ([] : Dict K V) k = none := rfl

theorem get?_set (d : Dict K V) (k : K) (v : V) (k' : K) :
    (d.set k v).get? k' = if k = k' then some v else d.get? k' := by
  induction d with
  | nil => simp [set, get?]
  | cons p d ih =>
    obtain ⟨a, b⟩ := p
    simp only [set]
    by_cases h : a = k
    · subst h; simp only [if_true, get?]; split <;> rfl
    · rw [if_neg h]
      simp only [get?, ih]
      by_cases h1 : a = k'
      · rw [if_pos h1, if_pos h1, if_neg (by rintro rfl; exact h h1)]
      · rw [if_neg h1, if_neg h1]

theorem mem_keys_iff (d : Dict K V) (k : K) : k ∈ d.keys ↔ (d.get? k).isSome := by
  induction d with
  | nil => simp [keys]
  | cons p d ih =>
    obtain ⟨a, b⟩ := p
    simp only [keys, List.map_cons, List.mem_cons, get?] at *
    by_cases h : a = k
    · simp [h]
    · rw [if_neg h, ← ih]; constructor
      · rintro (rfl | h')
        · exact absurd rfl h
        · exact h'
      · exact Or.inr

theorem has_iff (d : Dict K V) (k : K) : d.has k = true ↔ k ∈ d.keys := by
  rw [mem_keys_iff]; rfl

omit [DecidableEq K] in
theorem keys_cons (p : K × V) (d : Dict K V) : keys (p :: d) = p.1 :: keys d := rfl

theorem keys_set (d : Dict K V) (k : K) (v : V) :
    (d.set k v).keys = if k ∈ d.keys then d.keys else d.keys ++ [k] := by
  induction d with
  | nil => simp [set, keys]
  | cons p d ih =>
    obtain ⟨a, b⟩ := p
    simp only [set, keys_cons, List.mem_cons]
    by_cases h : a = k
    · simp [h, keys_cons]
    · rw [if_neg h, keys_cons, ih]
      have : ¬ k = a := fun h' => h h'.symm
      simp only [this, false_or]
      by_cases hm : k ∈ keys d
      · rw [if_pos hm, if_pos hm]
      · rw [if_neg hm, if_neg hm]; rfl

theorem mem_keys_set (d : Dict K V) (k : K) (v : V) (k' : K) :
    k' ∈ (d.set k v).keys ↔ k' = k ∨ k' ∈ d.keys := by
  rw [keys_set]; split
  · constructor
    · exact Or.inr
    · rintro (rfl | h)
      · assumption
      · exact h
  · simp [or_comm]

theorem nodup_set (d : Dict K V) (h : d.keys.Nodup) (k : K) (v : V) : (d.set k v).keys.Nodup := by
  rw [keys_set]; split
  · exact h
  · next hk => exact List.nodup_append.mpr ⟨h, by simp, by
      intro a ha b hb; simp at hb; subst hb; rintro rfl; exact hk ha⟩

theorem keys_del (d : Dict K V) (k : K) : (d.del k).keys = d.keys.erase k := by
  induction d with
  | nil => rfl
  | cons p d ih =>
    obtain ⟨a, b⟩ := p
    simp only [keys, del, List.map_cons] at *
    by_cases h : a = k
    · simp [h]
    · rw [if_neg h, List.map_cons, ih, List.erase_cons_tail (by simpa using h)]

theorem nodup_del (d : Dict K V) (h : d.keys.Nodup) (k : K) : (d.del k).keys.Nodup := by
  rw [keys_del]; exact h.erase k

theorem get?_del (d : Dict K V) (h : d.keys.Nodup) (k k' : K) :
    (d.del k).get? k' = if k = k' then none else d.get? k' := by
  induction d with
  | nil => simp [del]
  | cons p d ih =>
    obtain ⟨a, b⟩ := p
    simp only [keys, List.map_cons, List.nodup_cons] at h
    simp only [del]
    by_cases ha : a = k
    · subst ha
      rw [if_pos rfl]
      simp only [get?]
      by_cases hk : a = k'
      · subst hk
        rw [if_pos rfl]
        cases hg : get? d a with
        | none => rfl
        | some v => exact absurd ((mem_keys_iff d a).mpr (by simp [hg])) h.1
      · rw [if_neg hk, if_neg hk]
    · rw [if_neg ha]
      simp only [get?, ih h.2]
      by_cases h1 : a = k'
      · rw [if_pos h1, if_pos h1, if_neg (by rintro rfl; exact ha h1)]
      · rw [if_neg h1, if_neg h1]

theorem mem_keys_del (d : Dict K V) (h : d.keys.Nodup) (k k' : K) : k' ∈ (d.del k).keys ↔ k' ≠ k ∧ k' ∈ d.keys := by
  rw [mem_keys_iff, get?_del d h, mem_keys_iff]
  by_cases hk : k = k'
  · simp [hk]
  · rw [if_neg hk]; exact ⟨fun h' => ⟨fun he => hk he.symm, h'⟩, fun h' => h'.2⟩

theorem get?_eq_some_of_mem (d : Dict K V) (h : d.keys.Nodup) {k : K} {v : V} (hm : (k, v) ∈ d) :
    d.get? k = some v := by
  induction d with
  | nil => simp at hm
  | cons p d ih =>
    obtain ⟨a, b⟩ := p
    simp only [keys, List.map_cons, List.nodup_cons] at h
    simp only [get?]
    rcases List.mem_cons.mp hm with h1 | h1
    · cases h1; simp
    · rw [if_neg, ih h.2 h1]
      rintro rfl
      exact h.1 (List.mem_map.mpr ⟨_, h1, rfl⟩)

theorem mem_of_get? (d : Dict K V) {k : K} {v : V} (h : d.get? k = some v) : (k, v) ∈ d := by
  induction d with
  | nil => simp at h
  | cons p d ih =>
    obtain ⟨a, b⟩ := p
    simp only [get?] at h
    split at h
    · next hk => cases h; subst hk; simp
    · exact List.mem_cons_of_mem _ (ih h)

omit [DecidableEq K] in
theorem length_keys (d : Dict K V) : d.keys.length = d.length := by simp [keys]

theorem nodup_update (e : Dict K V) : ∀ (d : Dict K V) (_ : d.keys.Nodup), (d.update e).keys.Nodup := by
  induction e with
  | nil => intro d h; exact h
  | cons p e ih => intro d h; exact ih (d.set p.1 p.2) (nodup_set d h _ _)

theorem get?_update (e : Dict K V) (he : e.keys.Nodup) : ∀ (d : Dict K V) (k : K),
    (d.update e).get? k = (e.get? k).or (d.get? k) := by
  induction e with
  | nil => intro d k; rfl
  | cons p e ih =>
    intro d k
    obtain ⟨a, b⟩ := p
    simp only [keys, List.map_cons, List.nodup_cons] at he
    change ((d.set a b).update e).get? k = _
    rw [ih he.2, get?_set]
    simp only [get?]
    by_cases h : a = k
    · subst h
      have : get? e a = none := by
        cases hg : get? e a with
        | none => rfl
        | some v => exact absurd ((mem_keys_iff e a).mpr (by simp [hg])) he.1
      simp [this]
    · simp [h]

theorem mem_keys_update (e : Dict K V) : ∀ (d : Dict K V) (k : K),
    k ∈ (d.update e).keys ↔ k ∈ e.keys ∨ k ∈ d.keys := by
  induction e with
  | nil => intro d k; simp [update, keys]
  | cons p e ih =>
    intro d k
    change k ∈ ((d.set p.1 p.2).update e).keys ↔ _
    rw [ih, mem_keys_set]
    simp only [keys, List.map_cons, List.mem_cons]
    constructor
    · rintro (h | h | h)
      · exact .inl (.inr h)
      · exact .inl (.inl h)
      · exact .inr h
    · rintro ((h | h) | h)
      · exact .inr (.inl h)
      · exact .inl h
      · exact .inr (.inr h)

end Dict

end Verif
