import Verif.Compose.Subvolumes
import Verif.PyNum

/-!
# C54: mounting several sources as sub-volumes (ratarmount/FuseMount.py:461-476)
-/

namespace Verif.Fuse

open Verif.Py Verif.Index Verif.Compose

variable {σ : Type}

/-- `f"{key}.{suffix}"` (FuseMount.py:462-475). -/
def withSuffix (key : Str) (k : Nat) : Str := key ++ '.' :: natStr k

/-- `while f"{key}.{suffix}" in submountSources: suffix += 1` (FuseMount.py:471-472), with a bound on the number of steps. The bound is
never reached: `freeSuffix_free`. -/
def freeSuffix (d : Dict Str σ) (key : Str) : Nat → Nat → Nat
  | 0, k => k
  | fuel + 1, k => if Dict.has d (withSuffix key k) then freeSuffix d key fuel (k + 1) else k

/-- The loop over the sources (FuseMount.py:467-475); the counter is not reset for a new key. -/
def uniqueKeys : List (Str × σ) → Nat → Dict Str σ → Dict Str σ
  | [], _, d => d
  | (key, s) :: rest, k, d =>
    if Dict.has d key then
      let k' := freeSuffix d key d.length k
      uniqueKeys rest k' (Dict.set d (withSuffix key k') s)
    else uniqueKeys rest k (Dict.set d key s)

/-- `_create_multi_mount` with `disableUnionMount` (461-476): the constructor of `SubvolumesMountSource` (subvolumes.py:11-20)
mounts one after the other; an exception ends it. A refused mount is not noticed. -/
def mountAll : Dict Str σ → Node σ → Except PyErr (Node σ)
  | [], t => .ok t
  | (key, s) :: rest, t =>
    match mountAt key s t with
    | (.error, _) => .error .ratarmount
    | (_, t') => mountAll rest t'

/-- `_create_multi_mount` (FuseMount.py:462-475). -/
def createMultiMount (sources : List (Str × σ)) : Except PyErr (Node σ) :=
  mountAll (uniqueKeys sources 1 []) (.dir [])

/-! ## lemmas -/

theorem nodup_subset_length {α : Type} [DecidableEq α] (l : List α) : ∀ m : List α, l.Nodup → (∀ x ∈ l, x ∈ m) →
    l.length ≤ m.length := by
  induction l with
  | nil => intro m _ _; simp
  | cons a l ih =>
    intro m hn hs
    rw [List.nodup_cons] at hn
    have ha : a ∈ m := hs a (by simp)
    have := ih (m.erase a) hn.2 (fun x hx => by
      rw [List.mem_erase_of_ne (by rintro rfl; exact hn.1 hx)]
      exact hs x (by simp [hx]))
    rw [List.length_erase_of_mem ha] at this
    have hp : 0 < m.length := List.length_pos_of_mem ha
    simp only [List.length_cons]; omega

theorem withSuffix_inj (key : Str) {a b : Nat} (h : withSuffix key a = withSuffix key b) : a = b := by
  unfold withSuffix at h
  have := List.append_cancel_left h
  simp only [List.cons.injEq, true_and] at this
  exact natStr_inj this

theorem freeSuffix_spec (d : Dict Str σ) (key : Str) : ∀ fuel k,
    Dict.has d (withSuffix key (freeSuffix d key fuel k)) = true →
      ∀ j, j ≤ fuel → Dict.has d (withSuffix key (k + j)) = true := by
  intro fuel
  induction fuel with
  | zero => intro k h j hj; obtain rfl : j = 0 := by omega
            exact h
  | succ fuel ih =>
    intro k h j hj
    unfold freeSuffix at h
    by_cases hk : Dict.has d (withSuffix key k) = true
    · rw [if_pos hk] at h
      cases j with
      | zero => exact hk
      | succ j =>
        have := ih (k + 1) h j (by omega)
        rw [show k + (j + 1) = k + 1 + j by omega]; exact this
    · rw [if_neg hk] at h; exact absurd h hk

/-- The loop ends with a key that is free. -/
theorem freeSuffix_free (d : Dict Str σ) (key : Str) (k : Nat) :
    withSuffix key (freeSuffix d key d.length k) ∉ Dict.keys d := by
  intro h
  rw [← Dict.has_iff] at h
  have hall := freeSuffix_spec d key d.length k h
  have := nodup_subset_length ((List.range (d.length + 1)).map (fun j => withSuffix key (k + j))) (Dict.keys d)
    (by
      rw [List.Nodup, List.pairwise_map]
      refine List.Pairwise.imp ?_ (List.nodup_range (n := d.length + 1))
      intro a b hab he
      exact hab (by have := withSuffix_inj key he; omega))
    (by
      intro x hx
      obtain ⟨j, hj, rfl⟩ := List.mem_map.mp hx
      rw [← Dict.has_iff]
      exact hall j (by have := List.mem_range.mp hj; omega))
  rw [Dict.length_keys] at this
  simp only [List.length_map, List.length_range] at this
  have this' : List.length d + 1 ≤ List.length d := this
  omega

/-- Setting a new key appends. -/
theorem set_new (d : Dict Str σ) (k : Str) (s : σ) (h : k ∉ Dict.keys d) : Dict.set d k s = d ++ [(k, s)] := by
  induction d with
  | nil => rfl
  | cons e d ih =>
    obtain ⟨a, b⟩ := e
    simp only [Dict.keys_cons, List.mem_cons, not_or] at h
    simp only [Dict.set, List.cons_append]
    rw [if_neg (fun he => h.1 he.symm), ih h.2]

/-- What the loop adds: one entry per source, in their order, with new keys. -/
theorem uniqueKeys_spec (l : List (Str × σ)) : ∀ (k : Nat) (d : Dict Str σ), (Dict.keys d).Nodup →
    ∃ keys : List Str, keys.length = l.length ∧ uniqueKeys l k d = d ++ keys.zip (l.map (fun e : Str × σ => e.2)) ∧
      (Dict.keys (uniqueKeys l k d)).Nodup ∧
      ∀ x ∈ keys.zip (l.map (fun e : Str × σ => e.1)), x.1 = x.2 ∨ ∃ n, x.1 = withSuffix x.2 n := by
  induction l with
  | nil => intro k d hd; exact ⟨[], rfl, by simp [uniqueKeys], by simpa [uniqueKeys] using hd, by simp⟩
  | cons e l ih =>
    intro k d hd
    obtain ⟨key, s⟩ := e
    have step : ∀ (name : Str) (k' : Nat), name ∉ Dict.keys d → (name = key ∨ ∃ n, name = withSuffix key n) →
        uniqueKeys ((key, s) :: l) k d = uniqueKeys l k' (Dict.set d name s) →
        ∃ keys : List Str, keys.length = ((key, s) :: l).length ∧
          uniqueKeys ((key, s) :: l) k d = d ++ keys.zip (((key, s) :: l).map (fun e : Str × σ => e.2)) ∧
          (Dict.keys (uniqueKeys ((key, s) :: l) k d)).Nodup ∧
          ∀ x ∈ keys.zip (((key, s) :: l).map (fun e : Str × σ => e.1)), x.1 = x.2 ∨ ∃ n, x.1 = withSuffix x.2 n := by
      intro name k' hn hname he
      obtain ⟨keys, h1, h2, h3, h4⟩ := ih k' (Dict.set d name s) (Dict.nodup_set d hd name s)
      refine ⟨name :: keys, by simp [h1], ?_, by rw [he]; exact h3, ?_⟩
      · rw [he, h2, set_new d name s hn]; simp
      · intro x hx
        simp only [List.map_cons, List.zip_cons_cons, List.mem_cons] at hx
        rcases hx with rfl | hx
        · exact hname
        · exact h4 x hx
    by_cases hk : Dict.has d key = true
    · refine step (withSuffix key (freeSuffix d key d.length k)) (freeSuffix d key d.length k) (freeSuffix_free d key k) (.inr ⟨_, rfl⟩) ?_
      simp only [uniqueKeys]
      rw [if_pos hk]
    · refine step key k ?_ (.inl rfl) ?_
      · intro h; exact hk ((Dict.has_iff d key).mpr h)
      · simp only [uniqueKeys]
        rw [if_neg hk]

theorem namesOf_name {n : Str} (h : IsName n) : namesOf n = [n] := by
  unfold namesOf
  have : split '/' n = [n] := by
    have := split_join '/' [n] (by simp) (fun p hp => by rw [List.mem_singleton.mp hp]; exact h.2.1)
    simpa [join] using this
  rw [this, walk_names [n] [] (by intro x hx; rw [List.mem_singleton.mp hx]; exact h)]
  rfl

theorem withSuffix_name {n : Str} (h : IsName n) (k : Nat) : IsName (withSuffix n k) := by
  unfold IsName withSuffix
  have hd : natStr k ≠ [] := natStr_ne_nil k
  have hdig := natStr_digits k
  refine ⟨by simp, ?_, ?_, ?_⟩
  · intro hm
    rcases List.mem_append.mp hm with hm | hm
    · exact h.2.1 hm
    · simp only [List.mem_cons] at hm
      rcases hm with hm | hm
      · cases hm
      · exact natStr_no_slash k hm
  · intro he
    have hl := congrArg List.length he
    have h1 : 0 < n.length := List.length_pos_iff.mpr h.1
    simp at hl
    omega
  · intro he
    have hl := congrArg List.length he
    have h1 : 0 < n.length := List.length_pos_iff.mpr h.1
    have h2 : 0 < (natStr k).length := List.length_pos_iff.mpr hd
    simp at hl
    omega

theorem mountAll_ok (d : Dict Str σ) : ∀ (t : Node σ) (A : Mounts σ), Represents t A → (∀ e ∈ d, IsName e.1) →
    (Dict.keys d).Nodup → (∀ m ∈ A, m.1.length = 1) → (∀ m ∈ A, ∀ e ∈ d, m.1 ≠ [e.1]) →
    ∃ t', mountAll d t = .ok t' ∧ Represents t' (A ++ d.map (fun e : Str × σ => ([e.1], e.2))) := by
  induction d with
  | nil => intro t A h _ _ _ _; exact ⟨t, rfl, by simpa using h⟩
  | cons e d ih =>
    intro t A h hn hnd hlen hdis
    obtain ⟨key, s⟩ := e
    have hkey : IsName key := hn (key, s) (by simp)
    obtain ⟨h1, h2⟩ := mount_refines key s t A h
    rw [namesOf_name hkey] at h1 h2
    have hspec : specMount A [key] s = (.yes, A ++ [([key], s)]) := by
      unfold specMount
      rw [if_neg (by simp), if_neg, if_neg]
      · intro hany
        obtain ⟨m, hm, hp⟩ := List.any_eq_true.mp hany
        have hl := hlen m hm
        obtain ⟨x, hx⟩ : ∃ x, m.1 = [x] := List.length_eq_one_iff.mp hl
        have hne := hdis m hm (key, s) (by simp)
        rw [hx] at hp hne
        simp [List.isPrefixOf] at hp hne
        rcases hp with hp | hp
        · exact hne hp
        · exact hne hp.symm
      · intro hany
        obtain ⟨m, hm, hp⟩ := List.any_eq_true.mp hany
        have hl := hlen m hm
        obtain ⟨x, hx⟩ : ∃ x, m.1 = [x] := List.length_eq_one_iff.mp hl
        rw [hx] at hp
        simp at hp
    rw [hspec] at h1 h2
    simp only [Dict.keys_cons, List.nodup_cons] at hnd
    obtain ⟨t', g1, g2⟩ := ih (mountAt key s t).2 (A ++ [([key], s)]) h2 (fun e he => hn e (by simp [he])) hnd.2
      (by
        intro m hm
        rcases List.mem_append.mp hm with hm | hm
        · exact hlen m hm
        · rw [List.mem_singleton.mp hm]; rfl)
      (by
        intro m hm e he
        rcases List.mem_append.mp hm with hm | hm
        · exact hdis m hm e (by simp [he])
        · rw [List.mem_singleton.mp hm]
          simp only [ne_eq, List.cons.injEq, and_true]
          intro heq
          exact hnd.1 (by rw [heq]; exact List.mem_map_of_mem he))
    refine ⟨t', ?_, by simpa using g2⟩
    simp only [mountAll]
    cases hm : mountAt key s t with
    | mk r t1 =>
      rw [hm] at h1 g1
      simp only at h1
      subst h1
      exact g1

/-! ## C54 -/

/-- Every source gets its own distinct folder name: each is mounted at a name in the root, all different. -/
def C54_statement : Prop :=
  ∀ (σ : Type) (sources : List (Str × σ)), ∃ (t : Node σ) (keys : List Str), createMultiMount sources = .ok t ∧ keys.length = sources.length ∧
    keys.Nodup ∧ ∀ key s, kindAt [key] t = .mounted s ↔ (key, s) ∈ keys.zip (sources.map (fun e : Str × σ => e.2))

/-- C54 for sources with proper names: no matter how many have the same name, or a name like one of those made up for
others, each is mounted, under its own name or one with a number appended, and nothing else is. Missing: sources whose
base name is empty or made of dots, and the control interface. -/
theorem C54_names_partial (sources : List (Str × σ)) (h : ∀ e ∈ sources, IsName e.1) :
    ∃ (t : Node σ) (keys : List Str), createMultiMount sources = .ok t ∧ keys.length = sources.length ∧ keys.Nodup ∧
      (∀ key s, kindAt [key] t = .mounted s ↔ (key, s) ∈ keys.zip (sources.map (fun e : Str × σ => e.2))) ∧
      ∀ x ∈ keys.zip (sources.map (fun e : Str × σ => e.1)), x.1 = x.2 ∨ ∃ n, x.1 = withSuffix x.2 n := by
  obtain ⟨keys, h1, h2, h3, h4⟩ := uniqueKeys_spec sources 1 [] (by simp [Dict.keys])
  rw [List.nil_append] at h2
  have hkeys : Dict.keys (uniqueKeys sources 1 []) = keys := by
    rw [h2]
    unfold Dict.keys
    change (keys.zip (sources.map (fun e : Str × σ => e.2))).map Prod.fst = keys
    rw [List.map_fst_zip]
    simp [h1]
  have hname : ∀ e ∈ uniqueKeys sources 1 [], IsName e.1 := by
    intro e he
    have hk : e.1 ∈ keys := by rw [← hkeys]; exact List.mem_map_of_mem he
    obtain ⟨i, hi, hie⟩ := List.mem_iff_getElem.mp hk
    have hi' : i < sources.length := by omega
    have := h4 (keys[i], sources[i].1) (by
      rw [List.mem_iff_getElem]
      exact ⟨i, by simp; omega, by simp⟩)
    have hs := h sources[i] (List.getElem_mem hi')
    simp only at this
    rcases this with hh | ⟨n, hh⟩
    · rw [← hie, hh]; exact hs
    · rw [← hie, hh]; exact withSuffix_name hs n
  obtain ⟨t, g1, g2⟩ := mountAll_ok (uniqueKeys sources 1 []) (.dir []) [] represents_empty hname h3 (by simp) (by simp)
  refine ⟨t, keys, g1, h1, by rw [← hkeys]; exact h3, ?_, h4⟩
  intro key s
  rw [g2.mounted, h2]
  simp only [List.nil_append, List.mem_map, Prod.mk.injEq, List.cons.injEq, and_true]
  constructor
  · rintro ⟨e, he, rfl, rfl⟩; exact he
  · intro he; exact ⟨(key, s), he, rfl, rfl⟩

/-- Three archives of the same name beside one that has the made-up name: all hypotheses are met. -/
example : uniqueKeys [("a.tar".toList, 1), ("a.tar.1".toList, 2), ("a.tar".toList, 3), ("a.tar".toList, 4)] 1 [] =
    [("a.tar".toList, 1), ("a.tar.1".toList, 2), ("a.tar.2".toList, 3), ("a.tar.3".toList, 4)] := by decide +kernel
example : ∀ e ∈ [("a.tar".toList, 1), ("a.tar.1".toList, 2)], IsName e.1 := by
  intro e he
  simp only [List.mem_cons, List.not_mem_nil, or_false] at he
  rcases he with rfl | rfl <;> (unfold IsName; decide)

theorem uniqueKeys_keeps (l : List (Str × σ)) : ∀ (k : Nat) (d : Dict Str σ) (x : Str), x ∈ Dict.keys d →
    x ∈ Dict.keys (uniqueKeys l k d) := by
  induction l with
  | nil => intro k d x hx; exact hx
  | cons e l ih =>
    intro k d x hx
    obtain ⟨key, s⟩ := e
    simp only [uniqueKeys]
    split
    · exact ih _ _ _ ((Dict.mem_keys_set _ _ _ _).mpr (.inr hx))
    · exact ih _ _ _ ((Dict.mem_keys_set _ _ _ _).mpr (.inr hx))

/-- The name of each source is used, by it or by an earlier one. -/
theorem uniqueKeys_has (l : List (Str × σ)) : ∀ (k : Nat) (d : Dict Str σ) (e : Str × σ), e ∈ l →
    e.1 ∈ Dict.keys (uniqueKeys l k d) := by
  induction l with
  | nil => intro k d e he; simp at he
  | cons e' l ih =>
    intro k d e he
    obtain ⟨key, s⟩ := e'
    simp only [uniqueKeys]
    rcases List.mem_cons.mp he with rfl | he
    · split
      · next h => exact uniqueKeys_keeps l _ _ _ ((Dict.mem_keys_set _ _ _ _).mpr (.inr ((Dict.has_iff d _).mp h)))
      · exact uniqueKeys_keeps l _ _ _ ((Dict.mem_keys_set _ _ _ _).mpr (.inl rfl))
    · split
      · exact ih _ _ e he
      · exact ih _ _ e he

theorem mountAll_root (d : Dict Str σ) : ∀ (t : Node σ) (A : Mounts σ) (e : Str × σ), Represents t A → e ∈ d →
    namesOf e.1 = [] → mountAll d t = .error .ratarmount := by
  induction d with
  | nil => intro t A e _ he; simp at he
  | cons e' d ih =>
    intro t A e hr he hroot
    obtain ⟨key, s⟩ := e'
    obtain ⟨h1, h2⟩ := mount_refines key s t A hr
    simp only [mountAll]
    rcases List.mem_cons.mp he with rfl | he
    · simp only at hroot
      rw [hroot] at h1
      cases hm : mountAt key s t with
      | mk r t' =>
        rw [hm] at h1
        simp only [specMount, if_true] at h1
        subst h1
        rfl
    · cases hm : mountAt key s t with
      | mk r t' =>
        rw [hm] at h2
        cases r with
        | error => rfl
        | no => exact ih t' _ e h2 he hroot
        | yes => exact ih t' _ e h2 he hroot

/-- One source without a name, as the control interface is, and nothing is mounted at all. -/
theorem C54_nameless (sources : List (Str × σ)) (e : Str × σ) (he : e ∈ sources) (h : namesOf e.1 = []) :
    createMultiMount sources = .error .ratarmount := by
  obtain ⟨e', he', hk⟩ := List.mem_map.mp (uniqueKeys_has sources 1 [] e he)
  exact mountAll_root _ _ [] e' represents_empty he' (by rw [hk]; exact h)

/-- C54 is violated: the control interface is added under the name `/` (FuseMount.py:238), which cannot be mounted, so
nothing is mounted at all. -/
theorem C54_violated : ¬ C54_statement := by
  intro h
  obtain ⟨t, keys, h1, -⟩ := h Nat [("a.tar".toList, 1), (['/'], 2)]
  rw [C54_nameless [("a.tar".toList, 1), (['/'], 2)] (['/'], 2) (by simp) (by decide +kernel)] at h1
  cases h1

end Verif.Fuse
