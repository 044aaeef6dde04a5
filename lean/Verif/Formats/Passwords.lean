import Verif.Py
import Verif.PyStr

/-!
# C141 to C143: passwords of RAR, 7-Zip and SQLAR archives
(core/ratarmountcore/mountsource/formats/rar.py:62-88, py7zr.py:144-169 and sqlar.py:145-184, 201-256)

Not modelled: the libraries. As the comments in the code say (rar.py:66, py7zr.py:147), a list of members that is encrypted is empty
without the right password; reading a member with a wrong password fails.
-/

namespace Verif.Passwords

open Verif.Py

/-- Passwords (rar.py:62, py7zr.py:144, sqlar.py:224). -/
abbrev Password := List UInt8

/-- A member of a RAR or 7-Zip archive, with its password (rar.py:67, 76; py7zr.py:157). -/
structure Member where
  isFile : Bool
  size : Nat
  key : Option Password
  deriving DecidableEq

/-- An archive: the password of the list of members, and the members (rar.py:67, py7zr.py:148). -/
structure Archive where
  header : Option Password
  members : List Member
  deriving DecidableEq

/-- `infolist()`, `list()` with some password (library, used at rar.py:67, 71 and py7zr.py:148, 152). -/
def listing (a : Archive) (p : Option Password) : List Member := if a.header = none ∨ a.header = p then a.members else []

/-- Whether a member can be read with some password (library, used at rar.py:82-83 and py7zr.py:164). -/
def canRead (p : Option Password) (m : Member) : Bool := m.key == none || m.key == p

/-- `needs_password()` (library, used at rar.py:63). -/
def needsPassword (a : Archive) : Bool := a.header.isSome || a.members.any (fun m => m.key.isSome)

/-! ## RAR -/

/-- The end of `_find_password`, where the passwords are tried with the first file (rar.py:75-88). The argument `set` is the password
that is set before. -/
def tryFirst (set : Option Password) (files : List Member) (passwords : List Password) : Except PyErr (Option Password) :=
  match files.filter (fun m => m.isFile) with
  | [] => .ok set
  | f :: _ => match passwords.find? (fun p => canRead (some p) f) with
    | some p => .ok (some p)
    | none => .error .runtimeError

/-- `_find_password` (rar.py:62-88); gives the password that is set afterwards. -/
def findRar (a : Archive) (passwords : List Password) : Except PyErr (Option Password) :=
  if !needsPassword a then .ok none
  else if listing a none = [] then
    match passwords.find? (fun p => decide (listing a (some p) ≠ [])) with
    | some p => .ok (some p)
    | none => tryFirst passwords.getLast? [] passwords
  else tryFirst none (listing a none) passwords

/-! ## 7-Zip -/

/-- The end of `_find_password`, where the passwords are tried with the first file that is not empty (py7zr.py:156-169). The argument `set`
is the password with which the archive was opened before. -/
def tryFirst7z (set : Option Password) (files : List Member) (passwords : List Password) : Except PyErr (Option Password) :=
  match files.filter (fun m => m.isFile && decide (m.size > 0)) with
  | [] => .ok set
  | f :: _ => match (none :: passwords.map some).find? (fun p => canRead p f) with
    | some p => .ok p
    | none => .error .runtimeError

/-- `_find_password` (py7zr.py:144-169); gives the password with which the archive is open afterwards. -/
def find7z (a : Archive) (passwords : List Password) : Except PyErr (Option Password) :=
  if listing a none = [] then
    match passwords.find? (fun p => decide (listing a (some p) ≠ [])) with
    | some p => .ok (some p)
    | none => tryFirst7z passwords.getLast? [] passwords
  else tryFirst7z none (listing a none) passwords

/-! ## SQLAR -/

/-- A file that may be an SQLAR: its first bytes, the key with which it is encrypted, and whether it holds the table `sqlar`
(sqlar.py:201-222). -/
structure Database (Key : Type) where
  magic : List UInt8
  key : Option Key
  hasTable : Bool

/-- `_MAGIC_BYTES` (sqlar.py:148). -/
def magicBytes : List UInt8 := [83, 81, 76, 105, 116, 101, 32, 102, 111, 114, 109, 97, 116, 32, 51, 0]

/-- Installed libraries: whether sqlcipher3 and cryptography are there, and the key derivation (sqlar.py:94-126, 230-248). -/
structure Crypto (Key : Type) where
  installed : Bool
  derive : List UInt8 → Password → Key

/-- `_quick_check_file` (sqlar.py:201-215). -/
def quickCheck {Key : Type} (c : Crypto Key) (d : Database Key) (passwords : List Password) : Except PyErr (List UInt8) :=
  if d.magic.take 16 = magicBytes ∨ (c.installed = true ∧ passwords ≠ []) then .ok (d.magic.take 16) else .error .valueError

/-- `_check_database` after opening the file with some key; false if it raises (sqlar.py:218-221). -/
def checkDatabase {Key : Type} [DecidableEq Key] (d : Database Key) (key : Option Key) : Bool := decide (d.key = key) && d.hasTable

/-- `_find_password` (sqlar.py:224-256). -/
def findSqlar {Key : Type} [DecidableEq Key] (c : Crypto Key) (d : Database Key) (salt : List UInt8) : List Password → Option Password
  | [] => none
  | p :: ps => if checkDatabase d (some (c.derive salt p)) then some p else findSqlar c d salt ps

/-- `__init__`: the password with which the database is open afterwards (sqlar.py:150-184). -/
def mountSqlar {Key : Type} [DecidableEq Key] (c : Crypto Key) (d : Database Key) (passwords : List Password) : Except PyErr (Option Password) :=
  match quickCheck c d passwords with
  | .error x => .error x
  | .ok magic =>
    if checkDatabase d none then .ok none
    else if passwords ≠ [] ∧ c.installed = true ∧ magic.length ≥ 16 then
      match findSqlar c d (magic.take 16) passwords with
      | some p => .ok (some p)
      | none => .error .unsupported
    else .error .unsupported

/-! ## Specification -/

/-- Everything that is encrypted has this password. -/
def OneKey (a : Archive) (k : Password) : Prop := (a.header = none ∨ a.header = some k) ∧ ∀ m ∈ a.members, m.key = none ∨ m.key = some k

/-- Something is encrypted, and there are members. -/
def Encrypted (a : Archive) : Prop := a.members ≠ [] ∧ (a.header ≠ none ∨ ∃ m ∈ a.members, m.isFile = true ∧ 0 < m.size ∧ m.key ≠ none)

/-- With the password, all members are listed and all files can be read. -/
def Works (a : Archive) (p : Option Password) : Prop :=
  (a.header = none ∨ a.header = p) ∧ ∀ m ∈ a.members, m.isFile = true → 0 < m.size → m.key = none ∨ m.key = p

/-- What is expected from trying out passwords: it works if the right one is given and fails if not. -/
def Expected (find : Archive → List Password → Except PyErr (Option Password)) : Prop :=
  ∀ a k passwords, OneKey a k → Encrypted a →
    (k ∈ passwords → ∃ p, find a passwords = .ok p ∧ Works a p) ∧ (k ∉ passwords → ∃ x, find a passwords = .error x)

/-- C141 as claimed, for RAR archives. -/
def C141_statement : Prop := Expected findRar

/-- C142 as claimed, for 7-Zip archives. -/
def C142_statement : Prop := Expected find7z

/-- The first member of some kind. -/
def First (kind : Member → Prop) (a : Archive) (m : Member) : Prop :=
  ∃ before after, a.members = before ++ m :: after ∧ kind m ∧ ∀ x ∈ before, ¬ kind x

/-! ## Theorems -/

theorem filter_first {kind : Member → Bool} {a : Archive} {m : Member} (h : First (fun m => kind m = true) a m) :
    ∃ rest, a.members.filter kind = m :: rest := by
  obtain ⟨b, c, h1, h2, h3⟩ := h
  refine ⟨c.filter kind, ?_⟩
  have : b.filter kind = [] := by
    rw [List.filter_eq_nil_iff]
    exact h3
  rw [h1, List.filter_append, this, List.nil_append, List.filter_cons, if_pos h2]

theorem listing_right {a : Archive} {p : Option Password} (h : a.header = none ∨ a.header = p) : listing a p = a.members := by
  unfold listing
  rw [if_pos h]

theorem listing_wrong {a : Archive} {k : Password} (h : a.header = some k) {p : Option Password} (hp : p ≠ some k) : listing a p = [] := by
  unfold listing
  rw [if_neg]
  rintro (h' | h')
  · rw [h] at h'; cases h'
  · rw [h] at h'; exact hp h'.symm

/-- With an encrypted list of members, the right password is found. -/
theorem header_found {a : Archive} {k : Password} (h : a.header = some k) (hm : a.members ≠ []) {ps : List Password} (hk : k ∈ ps) :
    ps.find? (fun p => decide (listing a (some p) ≠ [])) = some k := by
  have hiff : ∀ p, decide (listing a (some p) ≠ []) = decide (p = k) := by
    intro p
    by_cases hp : p = k
    · subst hp
      rw [listing_right (.inr h)]
      simp [hm]
    · rw [listing_wrong h (by simpa using hp)]
      simp [hp]
  cases hf : ps.find? (fun p => decide (listing a (some p) ≠ [])) with
  | none =>
    have := List.find?_eq_none.mp hf k hk
    rw [hiff] at this
    simp at this
  | some p =>
    have := List.find?_some hf
    rw [hiff] at this
    rw [of_decide_eq_true this]

/-- With an encrypted file, exactly the right password can read it. -/
theorem file_found {m : Member} {k : Password} (h : m.key = some k) {ps : List Password} (hk : k ∈ ps) :
    ps.find? (fun p => canRead (some p) m) = some k := by
  have hiff : ∀ p, canRead (some p) m = decide (p = k) := by
    intro p
    rw [canRead, h]
    by_cases hp : p = k
    · simp [hp]
    · simp [hp, Ne.symm hp]
  cases hf : ps.find? (fun p => canRead (some p) m) with
  | none =>
    have := List.find?_eq_none.mp hf k hk
    rw [hiff] at this
    simp at this
  | some p =>
    have := List.find?_some hf
    rw [hiff] at this
    rw [of_decide_eq_true this]

theorem file_missing {m : Member} {k : Password} (h : m.key = some k) {ps : List Password} (hk : k ∉ ps) :
    ps.find? (fun p => canRead (some p) m) = none := by
  rw [List.find?_eq_none]
  intro p hp
  rw [canRead, h]
  have : p ≠ k := fun he => hk (he ▸ hp)
  simp [Ne.symm this]

theorem works_key {a : Archive} {k : Password} (h : OneKey a k) : Works a (some k) := ⟨h.1, fun m hm _ _ => h.2 m hm⟩

theorem needs_header {a : Archive} {k : Password} (h : a.header = some k) : needsPassword a = true := by simp [needsPassword, h]

theorem needs_member {a : Archive} {m : Member} (hm : m ∈ a.members) (h : m.key ≠ none) : needsPassword a = true := by
  unfold needsPassword
  rw [Bool.or_eq_true, List.any_eq_true]
  exact .inr ⟨m, hm, by simpa [Option.isSome_iff_ne_none] using h⟩

/-- C141 for archives whose list of members or whose first file is encrypted: the right password is found. -/
theorem C141_partial (a : Archive) (k : Password) (passwords : List Password) (h : OneKey a k) (hm : a.members ≠ [])
    (he : a.header ≠ none ∨ ∃ m, First (fun m => m.isFile = true) a m ∧ m.key ≠ none) (hk : k ∈ passwords) :
    findRar a passwords = .ok (some k) ∧ Works a (some k) := by
  refine ⟨?_, works_key h⟩
  rcases h.1 with hh | hh
  · obtain ⟨m, hf, hkey⟩ := he.resolve_left (fun hx => hx hh)
    have hmem : m ∈ a.members := by
      obtain ⟨b, c, h1, -⟩ := hf
      rw [h1]; simp
    have hkey' : m.key = some k := (h.2 m hmem).resolve_left hkey
    obtain ⟨rest, hr⟩ := filter_first (kind := fun m => m.isFile) hf
    unfold findRar
    rw [needs_member hmem hkey, listing_right (.inl hh)]
    simp only [Bool.not_true, Bool.false_eq_true, if_false]
    rw [if_neg hm]
    unfold tryFirst
    rw [hr]
    simp only
    rw [file_found hkey' hk]
  · unfold findRar
    rw [needs_header hh, listing_wrong hh (by simp)]
    simp only [Bool.not_true, Bool.false_eq_true, if_false, if_true]
    rw [header_found hh hm hk]

/-- C141: if the list of members is not encrypted but the first file is, then mounting fails without the right password. -/
theorem C141_refused_partial (a : Archive) (k : Password) (passwords : List Password) (h : OneKey a k) (hh : a.header = none)
    (m : Member) (hf : First (fun m => m.isFile = true) a m) (hkey : m.key ≠ none) (hk : k ∉ passwords) :
    findRar a passwords = .error .runtimeError := by
  have hmem : m ∈ a.members := by
    obtain ⟨b, c, h1, -⟩ := hf
    rw [h1]; simp
  have hkey' : m.key = some k := (h.2 m hmem).resolve_left hkey
  obtain ⟨rest, hr⟩ := filter_first (kind := fun m => m.isFile) hf
  unfold findRar
  rw [needs_member hmem hkey, listing_right (.inl hh)]
  simp only [Bool.not_true, Bool.false_eq_true, if_false]
  rw [if_neg (List.ne_nil_of_mem hmem)]
  unfold tryFirst
  rw [hr]
  simp only
  rw [file_missing hkey' hk]

/-- C141: if only the right password is given, it is found or nothing needs one. -/
theorem C141_single (a : Archive) (k : Password) (h : OneKey a k) (hm : a.members ≠ []) : ∃ p, findRar a [k] = .ok p ∧ Works a p := by
  rcases h.1 with hh | hh
  · unfold findRar
    rw [listing_right (.inl hh)]
    split
    · next hn =>
      refine ⟨none, rfl, .inl hh, ?_⟩
      intro m hmem _ _
      left
      cases hk : m.key with
      | none => rfl
      | some x => rw [needs_member hmem (by simp [hk])] at hn; cases hn
    · unfold tryFirst
      split
      · next hn =>
        refine ⟨none, rfl, .inl hh, ?_⟩
        intro m hmem hfile _
        exact absurd hfile (List.filter_eq_nil_iff.mp hn m hmem)
      · next f rest hf =>
        have hmem : f ∈ a.members := (List.mem_filter.mp (by rw [hf]; simp)).1
        have : canRead (some k) f = true := by
          rcases h.2 f hmem with hk | hk <;> simp [canRead, hk]
        rw [List.find?_cons, this]
        exact ⟨some k, rfl, works_key h⟩
  · exact ⟨some k, (C141_partial a k [k] h hm (.inl (by simp [hh])) (by simp)).1, works_key h⟩

/-- An archive with an encrypted list of members. -/
def hidden : Archive := ⟨some [1], [⟨true, 5, some [1]⟩]⟩

/-- An archive with a plain file in front of an encrypted one. -/
def plainFirst : Archive := ⟨none, [⟨true, 5, none⟩, ⟨true, 5, some [1]⟩]⟩

/-- C141 is violated: without the password of the list of members, an empty folder is mounted. -/
theorem C141_violated : ¬ C141_statement := by
  intro h
  obtain ⟨x, hx⟩ := (h hidden [1] [[2]] ⟨.inr rfl, by decide⟩ ⟨by decide, .inl (by decide)⟩).2 (by decide)
  have : findRar hidden [[2]] = .ok (some [2]) := by decide
  rw [this] at hx
  cases hx

/-- C141 is violated in another way: after a plain file, a wrong password is accepted although the right one is given. -/
theorem C141_wrong_violated : ¬ C141_statement := by
  intro h
  obtain ⟨p, hp, hw⟩ := (h plainFirst [1] [[2], [1]] ⟨.inl rfl, by decide⟩ ⟨by decide, .inr (by decide)⟩).1 (by decide)
  have : findRar plainFirst [[2], [1]] = .ok (some [2]) := by decide
  rw [this] at hp
  cases hp
  exact absurd (hw.2 ⟨true, 5, some [1]⟩ (by decide) rfl (by decide)) (by decide)

/-- C142 for archives whose list of members or whose first file that is not empty is encrypted: the right password is found. -/
theorem C142_partial (a : Archive) (k : Password) (passwords : List Password) (h : OneKey a k) (hm : a.members ≠ [])
    (he : a.header ≠ none ∨ ∃ m, First (fun m => m.isFile = true ∧ 0 < m.size) a m ∧ m.key ≠ none) (hk : k ∈ passwords) :
    find7z a passwords = .ok (some k) ∧ Works a (some k) := by
  refine ⟨?_, works_key h⟩
  rcases h.1 with hh | hh
  · obtain ⟨m, hf, hkey⟩ := he.resolve_left (fun hx => hx hh)
    have hmem : m ∈ a.members := by
      obtain ⟨b, c, h1, -⟩ := hf
      rw [h1]; simp
    have hkey' : m.key = some k := (h.2 m hmem).resolve_left hkey
    obtain ⟨rest, hr⟩ := filter_first (kind := fun m => m.isFile && decide (m.size > 0)) (by simpa using hf)
    unfold find7z
    rw [listing_right (.inl hh), if_neg hm]
    unfold tryFirst7z
    rw [hr]
    simp only
    rw [List.find?_cons, show canRead none m = false by simp [canRead, hkey'], List.find?_map]
    have := file_found hkey' hk
    rw [show ((fun p => canRead p m) ∘ some) = fun p => canRead (some p) m from rfl, this]
    rfl
  · unfold find7z
    rw [listing_wrong hh (by simp), if_pos rfl, header_found hh hm hk]

/-- C142: if the list of members is not encrypted but the first file that is not empty is, then mounting fails without the right password. -/
theorem C142_refused_partial (a : Archive) (k : Password) (passwords : List Password) (h : OneKey a k) (hh : a.header = none)
    (m : Member) (hf : First (fun m => m.isFile = true ∧ 0 < m.size) a m) (hkey : m.key ≠ none) (hk : k ∉ passwords) :
    find7z a passwords = .error .runtimeError := by
  have hmem : m ∈ a.members := by
    obtain ⟨b, c, h1, -⟩ := hf
    rw [h1]; simp
  have hkey' : m.key = some k := (h.2 m hmem).resolve_left hkey
  obtain ⟨rest, hr⟩ := filter_first (kind := fun m => m.isFile && decide (m.size > 0)) (by simpa using hf)
  unfold find7z
  rw [listing_right (.inl hh), if_neg (List.ne_nil_of_mem hmem)]
  unfold tryFirst7z
  rw [hr]
  simp only
  rw [List.find?_cons, show canRead none m = false by simp [canRead, hkey'], List.find?_map]
  rw [show ((fun p => canRead p m) ∘ some) = fun p => canRead (some p) m from rfl, file_missing hkey' hk]
  rfl

/-- C142 is violated: without the password of the list of members, an empty folder is mounted. -/
theorem C142_violated : ¬ C142_statement := by
  intro h
  obtain ⟨x, hx⟩ := (h hidden [1] [[2]] ⟨.inr rfl, by decide⟩ ⟨by decide, .inl (by decide)⟩).2 (by decide)
  have : find7z hidden [[2]] = .ok (some [2]) := by decide
  rw [this] at hx
  cases hx

/-- C142 is violated in another way: after a plain file, the password that is given is never used. -/
theorem C142_unused_violated : ¬ C142_statement := by
  intro h
  obtain ⟨p, hp, hw⟩ := (h plainFirst [1] [[1]] ⟨.inl rfl, by decide⟩ ⟨by decide, .inr (by decide)⟩).1 (by decide)
  have : find7z plainFirst [[1]] = .ok none := by decide
  rw [this] at hp
  cases hp
  exact absurd (hw.2 ⟨true, 5, some [1]⟩ (by decide) rfl (by decide)) (by decide)

/-- The hypotheses of the partial theorems can be met. -/
example : findRar ⟨none, [⟨false, 0, none⟩, ⟨true, 5, some [1]⟩]⟩ [[2], [1]] = .ok (some [1]) ∧
    find7z ⟨none, [⟨false, 0, none⟩, ⟨true, 0, none⟩, ⟨true, 5, some [1]⟩]⟩ [[2], [1]] = .ok (some [1]) :=
  ⟨(C141_partial _ [1] _ ⟨.inl rfl, by decide⟩ (by decide)
    (.inr ⟨⟨true, 5, some [1]⟩, ⟨[⟨false, 0, none⟩], [], rfl, rfl, by decide⟩, by decide⟩) (by decide)).1,
   (C142_partial _ [1] _ ⟨.inl rfl, by decide⟩ (by decide)
    (.inr ⟨⟨true, 5, some [1]⟩, ⟨[⟨false, 0, none⟩, ⟨true, 0, none⟩], [], rfl, by decide, by decide⟩, by decide⟩) (by decide)).1⟩

/-! ## SQLAR -/

theorem findSqlar_some {Key : Type} [DecidableEq Key] {c : Crypto Key} {d : Database Key} {salt : List UInt8} : ∀ {ps : List Password} {p : Password},
    findSqlar c d salt ps = some p → p ∈ ps ∧ d.key = some (c.derive salt p) ∧ d.hasTable = true := by
  intro ps
  induction ps with
  | nil => intro p h; cases h
  | cons q ps ih =>
    intro p h
    rw [findSqlar] at h
    split at h
    · next hq =>
      cases h
      simp only [checkDatabase, Bool.and_eq_true, decide_eq_true_eq] at hq
      exact ⟨by simp, hq⟩
    · obtain ⟨h1, h2⟩ := ih h
      exact ⟨by simp [h1], h2⟩

theorem findSqlar_none {Key : Type} [DecidableEq Key] {c : Crypto Key} {d : Database Key} {salt : List UInt8} : ∀ {ps : List Password},
    findSqlar c d salt ps = none → d.hasTable = true → ∀ p ∈ ps, d.key ≠ some (c.derive salt p) := by
  intro ps
  induction ps with
  | nil => intro _ _ p hp; simp at hp
  | cons q ps ih =>
    intro h ht p hp
    rw [findSqlar] at h
    split at h
    · cases h
    · next hq =>
      rcases List.mem_cons.mp hp with rfl | hp
      · intro hk
        simp [checkDatabase, hk, ht] at hq
      · exact ih h ht p hp

/-- C143: a plain SQLAR can be mounted, whatever passwords are given. -/
theorem C143_plain {Key : Type} [DecidableEq Key] (c : Crypto Key) (d : Database Key) (passwords : List Password) (hm : d.magic.take 16 = "SQLite format 3\x00".toList.map (fun c => UInt8.ofNat c.toNat))
    (hk : d.key = none) (ht : d.hasTable = true) : mountSqlar c d passwords = .ok none := by
  unfold mountSqlar quickCheck
  rw [if_pos (.inl hm)]
  simp only
  rw [if_pos (by simp [checkDatabase, hk, ht])]

/-- C143: an encrypted SQLAR can be mounted if one of the given passwords derives its key, and then such a password is used. -/
theorem C143_encrypted {Key : Type} [DecidableEq Key] (c : Crypto Key) (d : Database Key) (passwords : List Password) (k : Password)
    (hc : c.installed = true) (hl : 16 ≤ d.magic.length) (ht : d.hasTable = true) (hk : d.key = some (c.derive (d.magic.take 16) k)) (hmem : k ∈ passwords) :
    ∃ p ∈ passwords, d.key = some (c.derive (d.magic.take 16) p) ∧ mountSqlar c d passwords = .ok (some p) := by
  have hne : passwords ≠ [] := List.ne_nil_of_mem hmem
  have htake : (d.magic.take 16).take 16 = d.magic.take 16 := by rw [List.take_take]; rfl
  unfold mountSqlar quickCheck
  rw [if_pos (.inr ⟨hc, hne⟩)]
  simp only
  rw [if_neg (by simp [checkDatabase, hk]), if_pos ⟨hne, hc, by rw [List.length_take]; omega⟩, htake]
  cases hf : findSqlar c d (d.magic.take 16) passwords with
  | none => exact absurd hk (findSqlar_none hf ht k hmem)
  | some p =>
    obtain ⟨h1, h2, -⟩ := findSqlar_some hf
    exact ⟨p, h1, h2, rfl⟩

/-- C143: what can be mounted has the table, and is plain or has a key that one of the passwords derives. -/
theorem C143_refused {Key : Type} [DecidableEq Key] (c : Crypto Key) (d : Database Key) (passwords : List Password) (r : Option Password)
    (h : mountSqlar c d passwords = .ok r) :
    d.hasTable = true ∧ ((r = none ∧ d.key = none) ∨ ∃ p ∈ passwords, r = some p ∧ c.installed = true ∧ d.key = some (c.derive (d.magic.take 16) p)) := by
  have htake : (d.magic.take 16).take 16 = d.magic.take 16 := by rw [List.take_take]; rfl
  unfold mountSqlar quickCheck at h
  split at h
  · cases h
  next magic hq =>
  split at hq
  case isFalse => cases hq
  cases hq
  split at h
  · next hc =>
    cases h
    simp only [checkDatabase, Bool.and_eq_true, decide_eq_true_eq] at hc
    exact ⟨hc.2, .inl ⟨rfl, hc.1⟩⟩
  split at h
  · next hc =>
    rw [htake] at h
    split at h
    · next p hp =>
      cases h
      obtain ⟨h1, h2, h3⟩ := findSqlar_some hp
      exact ⟨h3, .inr ⟨p, h1, rfl, hc.2.1, h2⟩⟩
    · cases h
  · cases h

/-- The hypotheses of C143 can be met, with keys that are the passwords. -/
example : mountSqlar ⟨true, fun _ p => p⟩ ⟨List.replicate 16 7, some [1], true⟩ [[2], [1]] = .ok (some [1]) := by decide

end Verif.Passwords
