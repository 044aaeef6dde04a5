import Verif.Compose.Subvolumes
import Verif.Compose.Prefix
import Verif.Overlay.Paths

/-!
# C76: listings and lookups of RAR archives
(core/ratarmountcore/mountsource/formats/rar.py:51-59, 90-92, 121-203)

The library rarfile is represented by the entries it gives: a name, which ends with a slash for folders, and the attributes.
-/

namespace Verif.Rar

open Verif.Py Verif.Index Verif.Compose
open Verif.Overlay (join_split_names)

/-- The attributes of an entry (rar.py:91-113). `id` stands for size, time, permissions and link target. -/
structure Info where
  dir : Bool
  redir : Bool
  id : Nat
  deriving DecidableEq, Repr

/-- The types of entries (rar.py:91-92). -/
inductive Kind where
  | file | folder | link
  deriving DecidableEq, Repr

/-- The file type of `_get_mode` (rar.py:90-92). -/
def Info.kind (i : Info) : Kind := if i.redir then .link else if i.dir then .folder else .file

/-- The loop of `_clean_path` (rar.py:57-58). -/
def dropUp : Str → Str
  | '.' :: '.' :: '/' :: rest => dropUp rest
  | s => s

/-- `_clean_path` (rar.py:54-59). -/
def clean (path : Str) : Str := dropUp (posixNormpath path ++ (if endsWith ['/'] path then ['/'] else []))

/-- `self.files` (rar.py:51). -/
abbrev Files := Dict Str Info

/-- `self.files` (rar.py:51): a dictionary comprehension. -/
def files (infolist : List (Str × Info)) : Files := Dict.update [] (infolist.map (fun e => (clean e.1, e.2)))

/-- `_get_name` (rar.py:121-136); the empty name is `None` as well for the callers. -/
def getName (folder file : Str) : Option Str :=
  if startsWith folder file then
    let rest := stripSlashes (file.drop folder.length)
    if rest = [] then none else some (rest.takeWhile (fun c => decide (c ≠ '/')))
  else none

/-- The first lines of `list` and `list_mode` (rar.py:140-142, 153-155). -/
def folderOf (path : Str) : Str := if stripSlashes path = [] then [] else stripSlashes path ++ ['/']

/-- `list` (rar.py:138-149) and `list_mode` (rar.py:151-162), of which the latter gives the types. -/
def listing (fs : Files) (path : Str) : Dict Str Info :=
  Dict.update [] (fs.filterMap (fun e => (getName (folderOf path) e.1).map (fun n => (n, e.2))))

/-- What a lookup gives (rar.py:164-199). -/
inductive Found where
  | root
  | entry (path : Str) (info : Info)
  | implied
  deriving DecidableEq, Repr

/-- The type of what was found (rar.py:164-199). -/
def Found.kind : Found → Kind
  | .root => .folder
  | .entry _ i => i.kind
  | .implied => .folder

/-- `_lookups` (rar.py:164-194). -/
def lookups (fs : Files) (path : Str) : List Found :=
  let pathAsDir := stripSlashes path ++ ['/']
  if pathAsDir = ['/'] then [.root]
  else
    let infos := fs.filter (fun e => decide (rstrip '/' e.1 = lstrip '/' path))
    infos.map (fun e => .entry e.1 e.2) ++
      (if !(infos.any (fun e => decide (e.1 = pathAsDir))) && fs.any (fun e => startsWith pathAsDir (rstrip '/' e.1)) then [.implied] else [])

/-- `lookup` (rar.py:196-199). -/
def lookup (fs : Files) (path : Str) (version : Int := 0) : Option Found :=
  let infos := lookups fs path
  if -(infos.length : Int) ≤ version ∧ version < infos.length then
    infos[(if version < 0 then version + infos.length else version).toNat]?
  else none

/-- `versions` (rar.py:201-203). -/
def versions (fs : Files) (path : Str) : Nat := (lookups fs path).length

/-! ## specification -/

/-- The path of an entry with the names `ns`; folders have a slash at the end. -/
def pathOf : List Str → Bool → Str
  | [], _ => []
  | n :: ns, slash => if ns = [] ∧ slash = false then n else n ++ '/' :: pathOf ns slash

/-- All entries have relative paths of proper names. -/
def Proper (fs : Files) : Prop := ∀ e ∈ fs, ∃ ms b, ms ≠ [] ∧ (∀ m ∈ ms, IsName m) ∧ e.1 = pathOf ms b

/-- An entry lies at or below the path `ns`. -/
def Below (ns : List Str) (e : Str × Info) : Prop := ∃ rest b, (∀ m ∈ rest, IsName m) ∧ e.1 = pathOf (ns ++ rest) b

/-- For folders that exist only because of entries below them, listing and lookup say that they are folders. -/
def C76_statement : Prop :=
  ∀ (fs : Files), fs.keys.Nodup → Proper fs → ∀ (ns : List Str) (n : Str), (∀ m ∈ ns ++ [n], IsName m) →
    (∃ e ∈ fs, ∃ r rest b, e.1 = pathOf (ns ++ n :: r :: rest) b) → (∀ e ∈ fs, ∀ b, e.1 ≠ pathOf (ns ++ [n]) b) →
    (lookup fs (canonical (ns ++ [n]))).map Found.kind = some .folder ∧
    ((listing fs (canonical ns)).get? n).map Info.kind = some .folder

/-! ## lemmas: dictionary comprehensions -/

theorem get?_comprehension {K V : Type} [DecidableEq K] (l : List (K × V)) : ∀ (d : Dict K V) (k : K),
    (Dict.update d l).get? k = match (l.filter (fun e => decide (e.1 = k))).getLast? with
      | some e => some e.2
      | none => d.get? k := by
  induction l with
  | nil => intro d k; rfl
  | cons e l ih =>
    intro d k
    have : Dict.update d (e :: l) = Dict.update (d.set e.1 e.2) l := rfl
    rw [this, ih (d.set e.1 e.2) k]
    by_cases he : e.1 = k
    · rw [List.filter_cons_of_pos (by simpa using he)]
      cases hl : l.filter (fun e => decide (e.1 = k)) with
      | nil =>
        simp only [List.getLast?_nil, List.getLast?_singleton]
        rw [Dict.get?_set, if_pos he]
      | cons x xs =>
        rw [List.getLast?_cons_cons]
        rw [List.getLast?_eq_some_getLast (List.cons_ne_nil x xs)]
    · rw [List.filter_cons_of_neg (by simpa using he)]
      cases hl : (l.filter (fun e => decide (e.1 = k))).getLast? with
      | some x => rfl
      | none => simp only; rw [Dict.get?_set, if_neg he]

/-! ## lemmas: paths -/

theorem pathOf_false (ns : List Str) : pathOf ns false = join '/' ns := by
  induction ns with
  | nil => rfl
  | cons n ns ih =>
    rw [pathOf]
    cases ns with
    | nil => rw [if_pos ⟨rfl, rfl⟩]; rfl
    | cons m ms => rw [if_neg (fun h => by cases h.1), ih]; rfl

theorem pathOf_true (ns : List Str) (hne : ns ≠ []) : pathOf ns true = join '/' ns ++ ['/'] := by
  induction ns with
  | nil => exact absurd rfl hne
  | cons n ns ih =>
    rw [pathOf, if_neg (fun h => by cases h.2)]
    cases ns with
    | nil => rfl
    | cons m ms => rw [ih (by simp)]; show _ = (n ++ '/' :: join '/' (m :: ms)) ++ ['/']; simp

theorem slash_cancel {n m s t : Str} (hn : '/' ∉ n) (hm : '/' ∉ m) (h : n ++ '/' :: s = m ++ '/' :: t) : n = m ∧ s = t := by
  have h1 := congrArg (split '/') h
  rw [split_append_cons '/' n s hn, split_append_cons '/' m t hm] at h1
  have he : n = m := (List.cons.inj h1).1
  subst he
  refine ⟨rfl, ?_⟩
  have := List.append_cancel_left h
  exact (List.cons.inj this).2

theorem startsWith_iff (p s : Str) : startsWith p s = true ↔ ∃ t, p ++ t = s := by
  unfold startsWith
  rw [List.isPrefixOf_iff_prefix]
  exact Iff.rfl

/-- A folder path is a prefix of exactly the paths at and below it; the rest is the path from there. -/
theorem prefix_iff : ∀ (ns es : List Str) (b : Bool) (t : Str), (∀ n ∈ ns, IsName n) → (∀ n ∈ es, IsName n) →
    (pathOf ns true ++ t = pathOf es b ↔ ∃ rest, es = ns ++ rest ∧ (rest ≠ [] ∨ b = true ∨ ns = []) ∧ t = pathOf rest b) := by
  intro ns
  induction ns with
  | nil =>
    intro es b t _ _
    simp only [pathOf, List.nil_append]
    constructor
    · intro h; exact ⟨es, rfl, Or.inr (Or.inr trivial), h⟩
    · rintro ⟨rest, rfl, _, h⟩; exact h
  | cons n ns ih =>
    intro es b t hns hes
    have hn := hns n List.mem_cons_self
    have hns' : ∀ n ∈ ns, IsName n := fun x hx => hns x (List.mem_cons_of_mem _ hx)
    have hp : pathOf (n :: ns) true ++ t = n ++ '/' :: (pathOf ns true ++ t) := by
      rw [pathOf, if_neg (fun h => by cases h.2)]; simp
    rw [hp]
    cases es with
    | nil =>
      simp only [pathOf]
      constructor
      · intro h
        simp at h
      · rintro ⟨rest, h, _⟩
        simp at h
    | cons m ms =>
      have hm := hes m List.mem_cons_self
      have hms : ∀ n ∈ ms, IsName n := fun x hx => hes x (List.mem_cons_of_mem _ hx)
      rw [pathOf]
      split
      · next hc =>
        obtain ⟨rfl, rfl⟩ := hc
        constructor
        · intro h
          exfalso
          apply hm.2.1
          rw [← h]
          simp
        · rintro ⟨rest, h, h2, h3⟩
          have h' := (List.cons.inj h).2
          have : ns = [] ∧ rest = [] := by
            have h'' : ns ++ rest = [] := h'.symm
            rw [List.append_eq_nil_iff] at h''
            exact h''
          rcases h2 with h2 | h2 | h2
          · exact absurd this.2 h2
          · cases h2
          · cases h2
      · next hc =>
        have ih' := ih ms b t hns' hms
        constructor
        · intro h
          obtain ⟨rfl, h2⟩ := slash_cancel hn.2.1 hm.2.1 h
          obtain ⟨rest, h3, h4, h5⟩ := ih'.mp h2
          refine ⟨rest, by rw [h3]; rfl, ?_, h5⟩
          rcases h4 with h4 | h4 | h4
          · exact Or.inl h4
          · exact Or.inr (Or.inl h4)
          · by_cases hr : rest = []
            · subst hr; subst h4
              have hm0 : ms = [] := by simpa using h3
              cases b with
              | true => exact Or.inr (Or.inl rfl)
              | false => exact absurd ⟨hm0, rfl⟩ hc
            · exact Or.inl hr
        · rintro ⟨rest, h, h2, h3⟩
          obtain ⟨rfl, h'⟩ := List.cons.inj h
          rw [ih'.mpr ⟨rest, h', ?_, h3⟩]
          rcases h2 with h2 | h2 | h2
          · exact Or.inl h2
          · exact Or.inr (Or.inl h2)
          · cases h2

theorem strip_pathOf (ns : List Str) (b : Bool) (h : ∀ n ∈ ns, IsName n) : stripSlashes (pathOf ns b) = join '/' ns := by
  by_cases hne : ns = []
  · subst hne; rfl
  have hl : lstrip '/' (pathOf ns b) = pathOf ns b := by
    have hh : (pathOf ns b).head? ≠ some '/' := by
      cases ns with
      | nil => exact absurd rfl hne
      | cons n ns =>
        obtain ⟨h1, h2, _⟩ := h n List.mem_cons_self
        cases n with
        | nil => exact absurd rfl h1
        | cons x xs =>
          have : (pathOf ((x :: xs) :: ns) b).head? = some x := by
            rw [pathOf]; split <;> rfl
          rw [this]
          intro he
          injection he with he
          exact h2 (by rw [he]; exact List.mem_cons_self)
    have := lstrip_slashes 0 (pathOf ns b) hh
    simpa using this
  unfold stripSlashes
  rw [hl]
  have hj := getLast_join ns hne h
  cases b with
  | false => rw [pathOf_false]; exact rstrip_of_last _ _ hj
  | true =>
    rw [pathOf_true ns hne]
    have : rstrip '/' (join '/' ns ++ ['/']) = rstrip '/' (join '/' ns) := by
      unfold rstrip
      rw [List.reverse_append]
      simp
    rw [this]
    exact rstrip_of_last _ _ hj

theorem rstrip_pathOf (ns : List Str) (b : Bool) (h : ∀ n ∈ ns, IsName n) : rstrip '/' (pathOf ns b) = join '/' ns := by
  by_cases hne : ns = []
  · subst hne; rfl
  have hj := getLast_join ns hne h
  cases b with
  | false => rw [pathOf_false]; exact rstrip_of_last _ _ hj
  | true =>
    rw [pathOf_true ns hne]
    have : rstrip '/' (join '/' ns ++ ['/']) = rstrip '/' (join '/' ns) := by
      unfold rstrip
      rw [List.reverse_append]
      simp
    rw [this]
    exact rstrip_of_last _ _ hj

theorem join_inj (ns ms : List Str) (hn : ∀ n ∈ ns, IsName n) (hm : ∀ n ∈ ms, IsName n) (h : join '/' ns = join '/' ms) : ns = ms := by
  have h1 := join_split_names ns hn
  have h2 := join_split_names ms hm
  rw [← h1, ← h2, h]

theorem folderOf_canonical (ns : List Str) (h : ∀ n ∈ ns, IsName n) : folderOf (canonical ns) = pathOf ns true := by
  unfold folderOf
  rw [strip_canonical ns h]
  cases ns with
  | nil => rfl
  | cons n ns =>
    have hj : join '/' (n :: ns) ≠ [] := join_ne_nil _ (by simp) h
    rw [if_neg hj, pathOf_true _ (by simp)]

theorem takeWhile_join (n : Str) (rest : List Str) (h : '/' ∉ n) :
    (join '/' (n :: rest)).takeWhile (fun c => decide (c ≠ '/')) = n := by
  have hall : ∀ x ∈ n, decide (x ≠ '/') = true := by
    intro x hx
    simp only [ne_eq, decide_eq_true_eq]
    intro he; exact h (he ▸ hx)
  cases rest with
  | nil =>
    show n.takeWhile _ = n
    have := List.takeWhile_append_of_pos (p := fun c => decide (c ≠ '/')) (l₁ := n) (l₂ := []) hall
    simpa using this
  | cons m ms =>
    show (n ++ '/' :: join '/' (m :: ms)).takeWhile _ = n
    rw [List.takeWhile_append_of_pos hall]
    simp

theorem getName_iff (ns ms : List Str) (b : Bool) (n : Str) (hns : ∀ n ∈ ns, IsName n) (hms : ∀ n ∈ ms, IsName n) :
    getName (folderOf (canonical ns)) (pathOf ms b) = some n ↔ ∃ rest, ms = ns ++ n :: rest := by
  rw [folderOf_canonical ns hns]
  unfold getName
  constructor
  · intro h
    split at h
    · next hs =>
      obtain ⟨t, ht⟩ := (startsWith_iff _ _).mp hs
      obtain ⟨rest, h1, _, h3⟩ := (prefix_iff ns ms b t hns hms).mp ht
      have hrest : ∀ n ∈ rest, IsName n := fun x hx => hms x (by rw [h1]; exact List.mem_append_right _ hx)
      have hd : (pathOf ms b).drop (pathOf ns true).length = pathOf rest b := by
        rw [← ht, List.drop_left' rfl, h3]
      simp only [hd, strip_pathOf rest b hrest] at h
      cases rest with
      | nil => simp [join] at h
      | cons r rest =>
        rw [if_neg (join_ne_nil _ (by simp) hrest), takeWhile_join r rest (hrest r List.mem_cons_self).2.1] at h
        injection h with h
        subst h
        exact ⟨rest, h1⟩
    · cases h
  · rintro ⟨rest, h1⟩
    have hrest : ∀ m ∈ n :: rest, IsName m := fun x hx => hms x (by rw [h1]; exact List.mem_append_right _ hx)
    have ht := (prefix_iff ns ms b (pathOf (n :: rest) b) hns hms).mpr ⟨n :: rest, h1, Or.inl (by simp), rfl⟩
    have hs := (startsWith_iff _ _).mpr ⟨_, ht⟩
    have hd : (pathOf ms b).drop (pathOf ns true).length = pathOf (n :: rest) b := by
      rw [← ht, List.drop_left' rfl]
    rw [if_pos hs]
    simp only [hd, strip_pathOf _ b hrest]
    rw [if_neg (join_ne_nil _ (by simp) hrest), takeWhile_join n rest (hrest n List.mem_cons_self).2.1]

theorem getLast?_filter_iff {α : Type} (P : α → Bool) : ∀ (l : List α) (e : α),
    (l.filter P).getLast? = some e ↔ ∃ pre post, l = pre ++ e :: post ∧ P e = true ∧ ∀ x ∈ post, P x = false := by
  intro l
  induction l with
  | nil => intro e; simp
  | cons a l ih =>
    intro e
    have hlast : ((a :: l).filter P).getLast? = some e ↔
        (l.filter P).getLast? = some e ∨ (l.filter P = [] ∧ P a = true ∧ a = e) := by
      by_cases ha : P a = true
      · rw [List.filter_cons_of_pos ha]
        cases hf : l.filter P with
        | nil => simp [ha]
        | cons x xs => rw [List.getLast?_cons_cons]; simp
      · rw [List.filter_cons_of_neg ha]
        simp [ha]
    rw [hlast, ih e]
    constructor
    · rintro (⟨pre, post, h1, h2, h3⟩ | ⟨h1, h2, rfl⟩)
      · exact ⟨a :: pre, post, by rw [h1]; rfl, h2, h3⟩
      · refine ⟨[], l, rfl, h2, ?_⟩
        intro x hx
        have := List.filter_eq_nil_iff.mp h1 x hx
        simpa using this
    · rintro ⟨pre, post, h1, h2, h3⟩
      cases pre with
      | nil =>
        obtain ⟨rfl, rfl⟩ := List.cons.inj h1
        refine Or.inr ⟨?_, h2, rfl⟩
        apply List.filter_eq_nil_iff.mpr
        intro x hx
        simp [h3 x hx]
      | cons y pre =>
        obtain ⟨rfl, rfl⟩ := List.cons.inj h1
        exact Or.inl ⟨pre, post, rfl, h2, h3⟩

theorem filter_names (folder n : Str) : ∀ fs : Files,
    (fs.filterMap (fun e => (getName folder e.1).map (fun n => (n, e.2)))).filter (fun e => decide (e.1 = n)) =
      (fs.filter (fun e => decide (getName folder e.1 = some n))).map (fun e => (n, e.2)) := by
  intro fs
  induction fs with
  | nil => rfl
  | cons e fs ih =>
    rw [List.filterMap_cons]
    cases hg : getName folder e.1 with
    | none =>
      simp only [Option.map_none]
      rw [List.filter_cons_of_neg (by simp [hg])]
      exact ih
    | some m =>
      simp only [Option.map_some]
      by_cases hm : m = n
      · rw [List.filter_cons_of_pos (by simpa using hm), List.filter_cons_of_pos (by simp [hg, hm]), ih, hm]
        rfl
      · rw [List.filter_cons_of_neg (by simpa using hm), List.filter_cons_of_neg (by simp [hg, hm]), ih]

theorem getName_below (fs : Files) (hp : Proper fs) (ns : List Str) (n : Str) (hns : ∀ m ∈ ns ++ [n], IsName m) :
    ∀ e ∈ fs, (getName (folderOf (canonical ns)) e.1 = some n ↔ Below (ns ++ [n]) e) := by
  have hns' : ∀ m ∈ ns, IsName m := fun x hx => hns x (List.mem_append_left _ hx)
  intro e he
  obtain ⟨ms, b, hne, hms, hpe⟩ := hp e he
  rw [hpe, getName_iff ns ms b n hns' hms]
  constructor
  · rintro ⟨rest, rfl⟩
    exact ⟨rest, b, fun x hx => hms x (List.mem_append_right _ (List.mem_cons_of_mem _ hx)), by rw [hpe]; simp⟩
  · rintro ⟨rest, b', hr, hb'⟩
    rw [hpe] at hb'
    refine ⟨rest, ?_⟩
    have hall : ∀ x ∈ ns ++ [n] ++ rest, IsName x := by
      intro x hx
      rcases List.mem_append.mp hx with hx | hx
      · exact hns x hx
      · exact hr x hx
    have h1 := rstrip_pathOf ms b hms
    rw [hb', rstrip_pathOf _ b' hall] at h1
    rw [← join_inj _ _ hall hms h1]; simp

/-! ## C76 -/

/-- **C76**: a listing gives for every name the attributes of the last entry at or below it. -/
theorem C76_last (fs : Files) (hp : Proper fs) (ns : List Str) (n : Str) (hns : ∀ m ∈ ns ++ [n], IsName m) (i : Info) :
    (listing fs (canonical ns)).get? n = some i ↔
      ∃ pre post e, fs = pre ++ e :: post ∧ e.2 = i ∧ Below (ns ++ [n]) e ∧ ∀ x ∈ post, ¬ Below (ns ++ [n]) x := by
  have hkey := getName_below fs hp ns n hns
  unfold listing
  rw [get?_comprehension, filter_names, List.getLast?_map]
  have hlast := fun e => getLast?_filter_iff (fun e => decide (getName (folderOf (canonical ns)) e.1 = some n)) fs e
  constructor
  · intro h
    cases hl : (fs.filter (fun e => decide (getName (folderOf (canonical ns)) e.1 = some n))).getLast? with
    | none => rw [hl] at h; cases h
    | some e =>
      rw [hl] at h
      simp only [Option.map_some] at h
      injection h with h
      obtain ⟨pre, post, h1, h2, h3⟩ := (hlast e).mp hl
      refine ⟨pre, post, e, h1, h, ?_, ?_⟩
      · exact (hkey e (by rw [h1]; simp)).mp (by simpa using h2)
      · intro x hx hb
        have := (hkey x (by rw [h1]; simp [hx])).mpr hb
        have h3' := h3 x hx
        rw [this] at h3'
        simp at h3'
  · rintro ⟨pre, post, e, h1, rfl, h3, h4⟩
    have : (fs.filter (fun e => decide (getName (folderOf (canonical ns)) e.1 = some n))).getLast? = some e := by
      apply (hlast e).mpr
      refine ⟨pre, post, h1, ?_, ?_⟩
      · simpa using (hkey e (by rw [h1]; simp)).mpr h3
      · intro x hx
        simp only [decide_eq_false_iff_not]
        intro hg
        exact h4 x hx ((hkey x (by rw [h1]; simp [hx])).mp hg)
    rw [this]
    rfl

/-- The last element with a property. -/
theorem exists_last {α : Type} (P : α → Prop) : ∀ l : List α, (∃ x ∈ l, P x) →
    ∃ pre post e, l = pre ++ e :: post ∧ P e ∧ ∀ x ∈ post, ¬ P x := by
  intro l
  induction l with
  | nil => rintro ⟨x, hx, _⟩; cases hx
  | cons a l ih =>
    rintro ⟨x, hx, hpx⟩
    by_cases h : ∃ x ∈ l, P x
    · obtain ⟨pre, post, e, h1, h2, h3⟩ := ih h
      exact ⟨a :: pre, post, e, by rw [h1]; rfl, h2, h3⟩
    · rcases List.mem_cons.mp hx with rfl | hx
      · exact ⟨[], l, x, rfl, hpx, fun y hy hp => h ⟨y, hy, hp⟩⟩
      · exact absurd ⟨x, hx, hpx⟩ h

/-- **C76**: the names of a listing are exactly the names below the folder. -/
theorem C76_names (fs : Files) (hp : Proper fs) (ns : List Str) (n : Str) (hns : ∀ m ∈ ns ++ [n], IsName m) :
    n ∈ (listing fs (canonical ns)).keys ↔ ∃ e ∈ fs, Below (ns ++ [n]) e := by
  rw [Dict.mem_keys_iff, Option.isSome_iff_exists]
  constructor
  · rintro ⟨i, hi⟩
    obtain ⟨pre, post, e, h1, _, h3, _⟩ := (C76_last fs hp ns n hns i).mp hi
    exact ⟨e, by rw [h1]; simp, h3⟩
  · intro h
    obtain ⟨pre, post, e, h1, h2, h3⟩ := exists_last _ fs h
    exact ⟨e.2, (C76_last fs hp ns n hns e.2).mpr ⟨pre, post, e, h1, rfl, h2, h3⟩⟩

theorem lookups_eq (fs : Files) (cs : List Str) (hne : cs ≠ []) (h : ∀ m ∈ cs, IsName m) :
    lookups fs (canonical cs) =
      (fs.filter (fun e => decide (rstrip '/' e.1 = join '/' cs))).map (fun e => Found.entry e.1 e.2) ++
      (if !((fs.filter (fun e => decide (rstrip '/' e.1 = join '/' cs))).any (fun e => decide (e.1 = pathOf cs true))) &&
        fs.any (fun e => startsWith (pathOf cs true) (rstrip '/' e.1)) then [.implied] else []) := by
  unfold lookups
  rw [strip_canonical cs h, lstrip_canonical cs (fun n hn => ⟨(h n hn).1, (h n hn).2.1⟩), ← pathOf_true cs hne]
  have hne' : pathOf cs true ≠ ['/'] := by
    rw [pathOf_true cs hne]
    intro he
    have : join '/' cs = [] := by
      have := congrArg List.length he
      simp at this
      exact this
    exact join_ne_nil cs hne h this
  simp only [if_neg hne']

theorem same_names {ms cs : List Str} {b : Bool} (hm : ∀ m ∈ ms, IsName m) (hc : ∀ m ∈ cs, IsName m) :
    rstrip '/' (pathOf ms b) = join '/' cs ↔ ms = cs := by
  rw [rstrip_pathOf ms b hm]
  constructor
  · exact join_inj ms cs hm hc
  · rintro rfl; rfl

theorem below_iff {ms cs : List Str} {b : Bool} {i : Info} (hm : ∀ m ∈ ms, IsName m) (hc : ∀ m ∈ cs, IsName m) :
    Below cs (pathOf ms b, i) ↔ ∃ rest, ms = cs ++ rest := by
  constructor
  · rintro ⟨rest, b', hr, he⟩
    have hall : ∀ x ∈ cs ++ rest, IsName x := by
      intro x hx
      rcases List.mem_append.mp hx with hx | hx
      · exact hc x hx
      · exact hr x hx
    have h1 := rstrip_pathOf ms b hm
    rw [show pathOf ms b = pathOf (cs ++ rest) b' from he, rstrip_pathOf _ b' hall] at h1
    exact ⟨rest, (join_inj _ _ hall hm h1).symm⟩
  · rintro ⟨rest, rfl⟩
    exact ⟨rest, b, fun x hx => hm x (List.mem_append_right _ hx), rfl⟩

theorem strictly_below_iff {ms cs : List Str} {b : Bool} (hne : cs ≠ []) (hm : ∀ m ∈ ms, IsName m) (hc : ∀ m ∈ cs, IsName m) :
    startsWith (pathOf cs true) (rstrip '/' (pathOf ms b)) = true ↔ ∃ r rest, ms = cs ++ r :: rest := by
  rw [rstrip_pathOf ms b hm, ← pathOf_false, startsWith_iff]
  constructor
  · rintro ⟨t, ht⟩
    obtain ⟨rest, h1, h2, _⟩ := (prefix_iff cs ms false t hc hm).mp ht
    cases rest with
    | nil => rcases h2 with h2 | h2 | h2
             · exact absurd rfl h2
             · cases h2
             · exact absurd h2 hne
    | cons r rest => exact ⟨r, rest, h1⟩
  · rintro ⟨r, rest, h1⟩
    exact ⟨_, (prefix_iff cs ms false _ hc hm).mpr ⟨r :: rest, h1, Or.inl (by simp), rfl⟩⟩

/-- The first version of a path. -/
theorem lookup_head (fs : Files) (path : Str) : lookup fs path = (lookups fs path).head? := by
  unfold lookup
  cases hl : lookups fs path with
  | nil => simp
  | cons x xs =>
    have : (-((x :: xs).length : Int) ≤ 0 ∧ (0 : Int) < (x :: xs).length) := by
      constructor
      · omega
      · simp only [List.length_cons]; omega
    rw [if_pos this]
    rfl

/-- **C76**: a lookup finds something exactly if there are entries at or below the path; folders without an entry are folders. -/
theorem C76_lookup (fs : Files) (hp : Proper fs) (cs : List Str) (hne : cs ≠ []) (hc : ∀ m ∈ cs, IsName m) :
    ((lookup fs (canonical cs)).isSome ↔ ∃ e ∈ fs, Below cs e) ∧
    ((∀ e ∈ fs, ∀ b, e.1 ≠ pathOf cs b) → (∃ e ∈ fs, Below cs e) → lookup fs (canonical cs) = some .implied) ∧
    (∀ pre e post, fs = pre ++ e :: post → (∃ b, e.1 = pathOf cs b) → (∀ x ∈ pre, ∀ b, x.1 ≠ pathOf cs b) →
      lookup fs (canonical cs) = some (.entry e.1 e.2)) := by
  have hsame : ∀ e ∈ fs, (rstrip '/' e.1 = join '/' cs ↔ ∃ b, e.1 = pathOf cs b) := by
    intro e he
    obtain ⟨ms, b, _, hms, hpe⟩ := hp e he
    rw [hpe, same_names hms hc]
    constructor
    · rintro rfl; exact ⟨b, rfl⟩
    · rintro ⟨b', h'⟩
      exact (same_names hms hc).mp (by rw [h', rstrip_pathOf cs b' hc])
  have hentry : ∀ pre e post, fs = pre ++ e :: post → (∃ b, e.1 = pathOf cs b) → (∀ x ∈ pre, ∀ b, x.1 ≠ pathOf cs b) →
      lookup fs (canonical cs) = some (.entry e.1 e.2) := by
    intro pre e post h1 h2 h3
    rw [lookup_head, lookups_eq fs cs hne hc]
    have hf : fs.filter (fun e => decide (rstrip '/' e.1 = join '/' cs)) =
        e :: post.filter (fun e => decide (rstrip '/' e.1 = join '/' cs)) := by
      have hpre : pre.filter (fun e => decide (rstrip '/' e.1 = join '/' cs)) = [] := by
        apply List.filter_eq_nil_iff.mpr
        intro x hx hd
        obtain ⟨b, hb⟩ := (hsame x (by rw [h1]; simp [hx])).mp (by simpa using hd)
        exact h3 x hx b hb
      have he := (hsame e (by rw [h1]; simp)).mpr h2
      conv => lhs; rw [h1]
      rw [List.filter_append, hpre, List.filter_cons_of_pos (by simpa using he)]
      rfl
    rw [hf]
    rfl
  have himplied : (∀ e ∈ fs, ∀ b, e.1 ≠ pathOf cs b) → (∃ e ∈ fs, Below cs e) → lookup fs (canonical cs) = some .implied := by
    intro h1 ⟨e, he, hb⟩
    rw [lookup_head, lookups_eq fs cs hne hc]
    have hf : fs.filter (fun e => decide (rstrip '/' e.1 = join '/' cs)) = [] := by
      apply List.filter_eq_nil_iff.mpr
      intro x hx hd
      obtain ⟨b, hb⟩ := (hsame x hx).mp (by simpa using hd)
      exact h1 x hx b hb
    have ha : fs.any (fun e => startsWith (pathOf cs true) (rstrip '/' e.1)) = true := by
      rw [List.any_eq_true]
      refine ⟨e, he, ?_⟩
      obtain ⟨ms, b, _, hms, hpe⟩ := hp e he
      rw [hpe]
      apply (strictly_below_iff hne hms hc).mpr
      obtain ⟨rest, hr⟩ := (below_iff (i := e.2) hms hc).mp (by rw [← hpe]; exact hb)
      cases rest with
      | nil =>
        exfalso
        rw [List.append_nil] at hr
        exact h1 e he b (by rw [hpe, hr])
      | cons r rest => exact ⟨r, rest, hr⟩
    rw [hf, ha]
    rfl
  refine ⟨?_, himplied, hentry⟩
  constructor
  · intro h
    rw [lookup_head, lookups_eq fs cs hne hc] at h
    obtain ⟨f, hf⟩ := Option.isSome_iff_exists.mp h
    have hm := List.mem_of_head? hf
    rcases List.mem_append.mp hm with hm | hm
    · obtain ⟨e, he, _⟩ := List.mem_map.mp hm
      obtain ⟨he1, he2⟩ := List.mem_filter.mp he
      obtain ⟨b, hb⟩ := (hsame e he1).mp (by simpa using he2)
      exact ⟨e, he1, [], b, by simp, by rw [List.append_nil]; exact hb⟩
    · split at hm
      · next hcnd =>
        rw [Bool.and_eq_true, List.any_eq_true] at hcnd
        obtain ⟨_, e, he, hs⟩ := hcnd
        obtain ⟨ms, b, _, hms, hpe⟩ := hp e he
        rw [hpe] at hs
        obtain ⟨r, rest, hr⟩ := (strictly_below_iff hne hms hc).mp hs
        refine ⟨e, he, ?_⟩
        have := (below_iff (b := b) (i := e.2) hms hc).mpr ⟨r :: rest, hr⟩
        rw [← hpe] at this
        exact this
      · cases hm
  · intro h
    by_cases hex : ∃ e ∈ fs, ∃ b, e.1 = pathOf cs b
    · have : ∃ pre e post, fs = pre ++ e :: post ∧ (∃ b, e.1 = pathOf cs b) ∧ (∀ x ∈ pre, ∀ b, x.1 ≠ pathOf cs b) := by
        obtain ⟨pre, post, e, h1, h2, h3⟩ := exists_last (fun e : Str × Info => ∃ b, e.1 = pathOf cs b) fs.reverse
          (by obtain ⟨e, he, hb⟩ := hex; exact ⟨e, List.mem_reverse.mpr he, hb⟩)
        refine ⟨post.reverse, e, pre.reverse, ?_, h2, ?_⟩
        · have := congrArg List.reverse h1
          rw [List.reverse_reverse] at this
          rw [this]; simp
        · intro x hx b hb
          exact h3 x (List.mem_reverse.mp hx) ⟨b, hb⟩
      obtain ⟨pre, e, post, h1, h2, h3⟩ := this
      rw [hentry pre e post h1 h2 h3]; rfl
    · rw [himplied (fun e he b hb => hex ⟨e, he, b, hb⟩) h]; rfl

/-- **C76**: everything that is listed is found, and nothing else. -/
theorem C76_consistent (fs : Files) (hp : Proper fs) (ns : List Str) (n : Str) (hns : ∀ m ∈ ns ++ [n], IsName m) :
    n ∈ (listing fs (canonical ns)).keys ↔ (lookup fs (canonical (ns ++ [n]))).isSome := by
  rw [C76_names fs hp ns n hns, (C76_lookup fs hp (ns ++ [n]) (by simp) hns).1]

/-- **C76**, provable part: listing and lookup agree if the entry of the path itself is the last one at or below it and the only one
with its names. Missing: all other folders, see `C76_violated`. -/
theorem C76_agree_partial (fs : Files) (hp : Proper fs) (ns : List Str) (n : Str) (hns : ∀ m ∈ ns ++ [n], IsName m)
    (pre post : List (Str × Info)) (e : Str × Info) (hfs : fs = pre ++ e :: post) (he : ∃ b, e.1 = pathOf (ns ++ [n]) b)
    (hpre : ∀ x ∈ pre, ∀ b, x.1 ≠ pathOf (ns ++ [n]) b) (hpost : ∀ x ∈ post, ¬ Below (ns ++ [n]) x) :
    (listing fs (canonical ns)).get? n = some e.2 ∧ lookup fs (canonical (ns ++ [n])) = some (.entry e.1 e.2) := by
  constructor
  · apply (C76_last fs hp ns n hns e.2).mpr
    obtain ⟨b, hb⟩ := he
    exact ⟨pre, post, e, hfs, rfl, ⟨[], b, by simp, by rw [List.append_nil]; exact hb⟩, hpost⟩
  · exact (C76_lookup fs hp (ns ++ [n]) (by simp) hns).2.2 pre e post hfs he hpre

theorem normLoop_names (ns tail : List Str) (h : ∀ n ∈ ns, IsName n) : ∀ new : List Str,
    normLoop 0 new (ns ++ tail) = normLoop 0 (new ++ ns) tail := by
  induction ns with
  | nil => intro new; simp
  | cons n ns ih =>
    intro new
    obtain ⟨h1, _, h3, h4⟩ := h n List.mem_cons_self
    rw [List.cons_append, normLoop, if_neg (by simp [h1, h3]), if_pos (Or.inl h4), ih (fun x hx => h x (List.mem_cons_of_mem _ hx))]
    simp

theorem split_pathOf (ns : List Str) (b : Bool) (hne : ns ≠ []) (h : ∀ n ∈ ns, IsName n) :
    split '/' (pathOf ns b) = ns ++ (if b then [[]] else []) := by
  induction ns with
  | nil => exact absurd rfl hne
  | cons n ns ih =>
    have hn := (h n List.mem_cons_self).2.1
    rw [pathOf]
    split
    · next hc =>
      obtain ⟨rfl, rfl⟩ := hc
      rw [split_of_not_mem _ _ hn]; rfl
    · next hc =>
      rw [split_append_cons _ _ _ hn]
      cases ns with
      | nil =>
        cases b with
        | false => exact absurd ⟨rfl, rfl⟩ hc
        | true => rfl
      | cons m ms => rw [ih (by simp) (fun x hx => h x (List.mem_cons_of_mem _ hx))]; rfl

theorem posixNormpath_pathOf (ns : List Str) (b : Bool) (hne : ns ≠ []) (h : ∀ n ∈ ns, IsName n) :
    posixNormpath (pathOf ns b) = join '/' ns := by
  have hj := join_ne_nil ns hne h
  have hp : pathOf ns b ≠ [] := by
    cases b with
    | false => rw [pathOf_false]; exact hj
    | true => rw [pathOf_true ns hne]; simp
  have hhead : (pathOf ns b).head? = (join '/' ns).head? := by
    cases b with
    | false => rw [pathOf_false]
    | true =>
      rw [pathOf_true ns hne]
      cases hx : join '/' ns with
      | nil => exact absurd hx hj
      | cons x xs => rfl
  have hslash : (pathOf ns b).head? ≠ some '/' := by
    rw [hhead]; exact join_head ns (fun n hn => ⟨(h n hn).1, (h n hn).2.1⟩)
  have hi : initialSlashes (pathOf ns b) = 0 := by
    unfold initialSlashes
    cases hx : pathOf ns b with
    | nil => exact absurd hx hp
    | cons x xs =>
      have hxs : x ≠ '/' := by intro he; apply hslash; rw [hx, he]; rfl
      have h1 : startsWith ['/', '/'] (x :: xs) = false := by simp [startsWith, List.isPrefixOf, Ne.symm hxs]
      have h2 : startsWith ['/'] (x :: xs) = false := by simp [startsWith, List.isPrefixOf, Ne.symm hxs]
      rw [h1, h2]; simp
  unfold posixNormpath
  rw [if_neg hp, hi, split_pathOf ns b hne h, normLoop_names ns _ h]
  have : normLoop 0 ([] ++ ns) (if b then [[]] else []) = ns := by
    cases b <;> simp [normLoop]
  rw [this]
  simp only [List.replicate_zero, List.nil_append]
  rw [if_neg hj]

/-- **C76**: relative paths of proper names are kept as they are. -/
theorem C76_clean (ns : List Str) (b : Bool) (hne : ns ≠ []) (h : ∀ n ∈ ns, IsName n) : clean (pathOf ns b) = pathOf ns b := by
  have hn := posixNormpath_pathOf ns b hne h
  have he : (if endsWith ['/'] (pathOf ns b) then ['/'] else []) = if b then ['/'] else [] := by
    have : endsWith ['/'] (pathOf ns b) = b := by
      unfold endsWith
      cases b with
      | true =>
        rw [pathOf_true ns hne, List.isSuffixOf_iff_suffix]
        exact ⟨_, rfl⟩
      | false =>
        rw [pathOf_false, Bool.eq_false_iff]
        intro hs
        obtain ⟨t, ht⟩ := List.isSuffixOf_iff_suffix.mp hs
        have := getLast_join ns hne h
        rw [← ht] at this
        simp at this
    rw [this]
  unfold clean
  rw [hn, he]
  have hk : join '/' ns ++ (if b then ['/'] else []) = pathOf ns b := by
    cases b with
    | true => rw [pathOf_true ns hne]; rfl
    | false => rw [pathOf_false]; simp
  rw [hk]
  unfold dropUp
  split
  · next rest heq =>
    exfalso
    cases ns with
    | nil => exact hne rfl
    | cons n ns =>
      have hn := h n List.mem_cons_self
      have hs := split_pathOf (n :: ns) b (by simp) h
      rw [heq, show ('.' :: '.' :: '/' :: rest) = ['.', '.'] ++ '/' :: rest from rfl, split_append_cons _ _ _ (by decide)] at hs
      have := (List.cons.inj hs).1
      exact hn.2.2.2 this.symm
  · rfl

/-! ## examples and violations -/

def sample : Files := files [("d/f".toList, ⟨false, false, 1⟩), ("d/".toList, ⟨true, false, 2⟩), ("../x".toList, ⟨false, false, 3⟩)]

example : listing sample ['/'] = [("d".toList, ⟨true, false, 2⟩), ("x".toList, ⟨false, false, 3⟩)] ∧
    lookup sample "/d".toList = some (.entry "d/".toList ⟨true, false, 2⟩) := by decide +kernel

/-- C76 is violated: a folder without its own entry is listed as the last file in it. -/
theorem C76_violated : ¬ C76_statement := by
  intro h
  have := h [("a/b".toList, ⟨false, false, 1⟩)] (by decide)
    (by
      intro e he
      rw [List.mem_singleton] at he
      subst he
      refine ⟨["a".toList, "b".toList], false, by decide, ?_, by decide⟩
      intro m hm
      simp only [List.mem_cons, List.not_mem_nil, or_false] at hm
      rcases hm with rfl | rfl <;> (unfold IsName; decide))
    [] "a".toList
    (by
      intro m hm
      simp only [List.nil_append, List.mem_cons, List.not_mem_nil, or_false] at hm
      subst hm; unfold IsName; decide)
    ⟨_, List.mem_cons_self, "b".toList, [], false, by decide⟩
    (by
      intro e he b
      rw [List.mem_singleton] at he
      subst he
      cases b <;> decide)
  exact absurd this.2 (by decide +kernel)

/-- C76 is violated: even folders with an entry are listed as files if a file in them comes later. -/
theorem C76_order_violated : ∃ fs : Files, fs = files [("a/".toList, ⟨true, false, 1⟩), ("a/b".toList, ⟨false, false, 2⟩)] ∧
    (lookup fs "/a".toList).map Found.kind = some .folder ∧ ((listing fs ['/']).get? "a".toList).map Info.kind = some .file := by
  refine ⟨_, rfl, ?_, ?_⟩ <;> decide +kernel

/-- C76 is violated: an entry with an absolute path is listed but not found. -/
theorem C76_absolute_violated : ∃ fs : Files, fs = files [("/a".toList, ⟨false, false, 1⟩)] ∧
    (listing fs ['/']).keys = ["a".toList] ∧ lookup fs "/a".toList = none := by
  refine ⟨_, rfl, ?_, ?_⟩ <;> decide +kernel

end Verif.Rar
