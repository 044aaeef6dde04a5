import Verif.Py
import Verif.Bytes
import Verif.Dict

/-!
# C109, C110: extended attributes of TAR members (core/ratarmountcore/mountsource/formats/tar.py:217-231,
core/ratarmountcore/utils.py:317-318)

PAX headers keep extended attributes in two forms: `SCHILY.xattr.NAME=VALUE` as it is, and
`LIBARCHIVE.xattr.NAME=VALUE` with the name quoted as in URLs and the value in Base64 without padding. The headers of a
member are a dictionary of byte strings (`tarfile` decodes them with `surrogateescape`, and tar.py:219 encodes them
again). `base64.b64decode` (CPython 3.11, `binascii.a2b_base64` not in strict mode) and `urllib.parse.unquote` are
modelled. Quoted names are taken as bytes: decoding them as UTF-8 with replacements is not modelled.
-/

namespace Verif.Tar.Attributes

open Verif.Py Verif.Bin

/-- The value of a character of the Base64 alphabet (Python library, used at utils.py:318). -/
def b64Value (c : UInt8) : Option Nat :=
  if 65 ≤ c ∧ c ≤ 90 then some (c.toNat - 65)
  else if 97 ≤ c ∧ c ≤ 122 then some (c.toNat - 97 + 26)
  else if 48 ≤ c ∧ c ≤ 57 then some (c.toNat - 48 + 52)
  else if c = 43 then some 62
  else if c = 47 then some 63
  else none

/-- `binascii.a2b_base64` (Python library, used at utils.py:318). `quad` is the position in the group of four, `left`
the bits left over from the last character, `pads` the number of padding characters in a row. Shifted bits are disjoint,
so `|` is `+`. -/
def a2b (quad left pads : Nat) : Data → Except PyErr Data
  | [] => if quad ≠ 0 then .error .valueError else .ok []
  | c :: r =>
    if c = 61 then
      if 2 ≤ quad then (if 4 ≤ quad + (pads + 1) then .ok [] else a2b quad left (pads + 1) r)
      else a2b quad left pads r
    else
      match b64Value c with
      | none => a2b quad left pads r
      | some v =>
        if quad = 0 then a2b 1 v 0 r
        else if quad = 1 then (a2b 2 (v % 16) 0 r).map (UInt8.ofNat (left * 4 + v / 16) :: ·)
        else if quad = 2 then (a2b 3 (v % 4) 0 r).map (UInt8.ofNat (left * 16 + v / 4) :: ·)
        else (a2b 0 0 0 r).map (UInt8.ofNat (left * 64 + v) :: ·)

/-- `decode_unpadded_base64` (utils.py:317-318). Strings with characters that are not ASCII raise. -/
def decodeUnpadded (d : Data) : Except PyErr Data :=
  if d.any (fun c => 128 ≤ c) then .error .valueError
  else a2b 0 0 0 (d ++ List.replicate ((4 - d.length % 4) % 4) 61)

/-- The value of a hexadecimal digit (Python library, `urllib.parse`, used at tar.py:226). -/
def hexValue (c : UInt8) : Option Nat :=
  if 48 ≤ c ∧ c ≤ 57 then some (c.toNat - 48)
  else if 65 ≤ c ∧ c ≤ 70 then some (c.toNat - 55)
  else if 97 ≤ c ∧ c ≤ 102 then some (c.toNat - 87)
  else none

/-- The byte of two hexadecimal digits (Python library, `urllib.parse`, used at tar.py:226). -/
def hexPair : Data → Option UInt8
  | a :: b :: _ =>
    match hexValue a, hexValue b with
    | some x, some y => some (UInt8.ofNat (16 * x + y))
    | _, _ => none
  | _ => none

/-- `urllib.parse.unquote` (Python library, used at tar.py:226). -/
def unquote : Data → Data
  | [] => []
  | c :: r =>
    if c = 37 then
      match hexPair r with
      | some b => b :: unquote (r.drop 2)
      | none => c :: unquote r
    else c :: unquote r
termination_by d => d.length
decreasing_by all_goals (simp only [List.length_cons, List.length_drop]; omega)

/-- `'SCHILY.xattr.'` (tar.py:217). -/
def schily : Data := [83, 67, 72, 73, 76, 89, 46, 120, 97, 116, 116, 114, 46]
/-- `'LIBARCHIVE.xattr.'` (tar.py:223). -/
def libarchive : Data := [76, 73, 66, 65, 82, 67, 72, 73, 86, 69, 46, 120, 97, 116, 116, 114, 46]

/-- `key[len(prefix) :]` for the keys with `key.startswith(prefix)` (tar.py:219-221, 226-228). -/
def cut (pre key : Data) : Option Data := if pre.isPrefixOf key then some (key.drop pre.length) else none

/-- The first dictionary of attributes (tar.py:217-222). -/
def fromSchily : List (Data × Data) → Dict Data Data → Dict Data Data
  | [], acc => acc
  | (k, v) :: r, acc =>
    match cut schily k with
    | some name => fromSchily r (acc.set name v)
    | none => fromSchily r acc

/-- The second dictionary of attributes, put over the first (tar.py:223-230). -/
def fromLibarchive : List (Data × Data) → Dict Data Data → Except PyErr (Dict Data Data)
  | [], acc => .ok acc
  | (k, v) :: r, acc =>
    match cut libarchive k with
    | some name =>
      match decodeUnpadded v with
      | .ok x => fromLibarchive r (acc.set (unquote name) x)
      | .error e => .error e
    | none => fromLibarchive r acc

/-- The attributes of a member (tar.py:217-230). -/
def xattrsOf (pax : Dict Data Data) : Except PyErr (Dict Data Data) := fromLibarchive pax (fromSchily pax [])

/-- The rows for the table of attributes (tar.py:231). -/
def xattrRows (offset : Nat) (pax : Dict Data Data) : Except PyErr (List (Nat × Data × Data)) :=
  (xattrsOf pax).map (List.map (fun kv => (offset, kv.1, kv.2)))

/-- The attribute part of the loop over the members (tar.py:420-475): the rows of the members in order. An error leaves
the loop: `process` (tar.py:479-497) only catches `tarfile.ReadError`. -/
def indexRows : List (Nat × Dict Data Data) → Except PyErr (List (Nat × Data × Data))
  | [] => .ok []
  | (o, pax) :: r =>
    match xattrRows o pax with
    | .error e => .error e
    | .ok rows => (indexRows r).map (rows ++ ·)

/-! ## Specification: the two forms -/

/-- The character for six bits (RFC 4648). -/
def b64Char (v : Nat) : UInt8 :=
  if v < 26 then UInt8.ofNat (65 + v)
  else if v < 52 then UInt8.ofNat (97 + (v - 26))
  else if v < 62 then UInt8.ofNat (48 + (v - 52))
  else if v = 62 then 43 else 47

/-- Base64 without padding (RFC 4648). -/
def b64 : Data → Data
  | [] => []
  | [a] => [b64Char (a.toNat / 4), b64Char (a.toNat % 4 * 16)]
  | [a, b] => [b64Char (a.toNat / 4), b64Char (a.toNat % 4 * 16 + b.toNat / 16), b64Char (b.toNat % 16 * 4)]
  | a :: b :: c :: r =>
    b64Char (a.toNat / 4) :: b64Char (a.toNat % 4 * 16 + b.toNat / 16) :: b64Char (b.toNat % 16 * 4 + c.toNat / 64) ::
      b64Char (c.toNat % 64) :: b64 r

/-- A hexadecimal digit. -/
def hexChar (v : Nat) : UInt8 := if v < 10 then UInt8.ofNat (48 + v) else UInt8.ofNat (55 + v)

/-- The quoting of attribute names by libarchive: control characters, spaces, percent signs, equals signs and
everything that is not ASCII become `%XX`. -/
def quote : Data → Data
  | [] => []
  | c :: r =>
    if c < 33 ∨ 126 < c ∨ c = 37 ∨ c = 61 then 37 :: hexChar (c.toNat / 16) :: hexChar (c.toNat % 16) :: quote r
    else c :: quote r

theorem b64Value_char (v : Nat) (h : v < 64) : b64Value (b64Char v) = some v ∧ b64Char v ≠ 61 ∧ b64Char v < 128 := by
  have : ∀ v : Fin 64, b64Value (b64Char v) = some v.val ∧ b64Char v ≠ 61 ∧ b64Char v < 128 := by decide +kernel
  exact this ⟨v, h⟩

theorem a2b_char (quad left pads v : Nat) (r : Data) (h : v < 64) :
    a2b quad left pads (b64Char v :: r) =
      if quad = 0 then a2b 1 v 0 r
      else if quad = 1 then (a2b 2 (v % 16) 0 r).map (UInt8.ofNat (left * 4 + v / 16) :: ·)
      else if quad = 2 then (a2b 3 (v % 4) 0 r).map (UInt8.ofNat (left * 16 + v / 4) :: ·)
      else (a2b 0 0 0 r).map (UInt8.ofNat (left * 64 + v) :: ·) := by
  have ⟨h1, h2, _⟩ := b64Value_char v h
  rw [a2b, if_neg h2, h1]

theorem ofNat_eq (a : UInt8) (n : Nat) (h : n = a.toNat) : UInt8.ofNat n = a := by
  rw [h]
  exact UInt8.ofNat_toNat

theorem length_b64 : ∀ x : Data, (b64 x).length % 4 = if x.length % 3 = 0 then 0 else x.length % 3 + 1
  | [] => by simp [b64]
  | [a] => by simp [b64]
  | [a, b] => by simp [b64]
  | a :: b :: c :: r => by
    have := length_b64 r
    simp only [b64, List.length_cons]
    rw [show (r.length + 1 + 1 + 1) % 3 = r.length % 3 by omega,
      show ((b64 r).length + 1 + 1 + 1 + 1) % 4 = (b64 r).length % 4 by omega, this]

theorem a2b_b64 : ∀ x : Data, a2b 0 0 0 (b64 x ++ List.replicate ((4 - (b64 x).length % 4) % 4) 61) = .ok x
  | [] => by simp [b64, a2b]
  | [a] => by
    have ha := a.toNat_lt
    rw [show b64 [a] ++ List.replicate ((4 - (b64 [a]).length % 4) % 4) 61 =
      b64Char (a.toNat / 4) :: b64Char (a.toNat % 4 * 16) :: [61, 61] from rfl,
      a2b_char _ _ _ _ _ (by omega), if_pos rfl, a2b_char _ _ _ _ _ (by omega), if_neg (by omega), if_pos rfl,
      ofNat_eq a _ (by omega)]
    rfl
  | [a, b] => by
    have ha := a.toNat_lt
    have hb := b.toNat_lt
    rw [show b64 [a, b] ++ List.replicate ((4 - (b64 [a, b]).length % 4) % 4) 61 =
      b64Char (a.toNat / 4) :: b64Char (a.toNat % 4 * 16 + b.toNat / 16) :: b64Char (b.toNat % 16 * 4) :: [61] from rfl,
      a2b_char _ _ _ _ _ (by omega), if_pos rfl, a2b_char _ _ _ _ _ (by omega), if_neg (by omega), if_pos rfl,
      a2b_char _ _ _ _ _ (by omega), if_neg (by omega), if_neg (by omega), if_pos rfl,
      ofNat_eq a _ (by omega), ofNat_eq b _ (by omega)]
    rfl
  | a :: b :: c :: r => by
    have ha := a.toNat_lt
    have hb := b.toNat_lt
    have hc := c.toNat_lt
    have ih := a2b_b64 r
    have hl : (4 - (b64 (a :: b :: c :: r)).length % 4) % 4 = (4 - (b64 r).length % 4) % 4 := by
      simp only [b64, List.length_cons]
      omega
    rw [hl]
    simp only [b64, List.cons_append]
    rw [a2b_char _ _ _ _ _ (by omega), if_pos rfl, a2b_char _ _ _ _ _ (by omega), if_neg (by omega), if_pos rfl,
      a2b_char _ _ _ _ _ (by omega), if_neg (by omega), if_neg (by omega), if_pos rfl,
      a2b_char _ _ _ _ _ (by omega), if_neg (by omega), if_neg (by omega), if_neg (by omega), ih,
      ofNat_eq a _ (by omega), ofNat_eq b _ (by omega), ofNat_eq c _ (by omega)]
    rfl

theorem b64_ascii : ∀ x : Data, ∀ c ∈ b64 x, c < 128
  | [] => by simp [b64]
  | [a] => by
    have ha := a.toNat_lt
    simp only [b64, List.mem_cons, List.not_mem_nil, or_false]
    rintro c (rfl | rfl) <;> exact (b64Value_char _ (by omega)).2.2
  | [a, b] => by
    have ha := a.toNat_lt
    have hb := b.toNat_lt
    simp only [b64, List.mem_cons, List.not_mem_nil, or_false]
    rintro c (rfl | rfl | rfl) <;> exact (b64Value_char _ (by omega)).2.2
  | a :: b :: c :: r => by
    have ha := a.toNat_lt
    have hb := b.toNat_lt
    have hc := c.toNat_lt
    simp only [b64, List.mem_cons]
    rintro x (rfl | rfl | rfl | rfl | hx)
    · exact (b64Value_char _ (by omega)).2.2
    · exact (b64Value_char _ (by omega)).2.2
    · exact (b64Value_char _ (by omega)).2.2
    · exact (b64Value_char _ (by omega)).2.2
    · exact b64_ascii r x hx

/-- C109, values: what was encoded in Base64 without padding is decoded to the same bytes, for all values. -/
theorem C109_base64 (x : Data) : decodeUnpadded (b64 x) = .ok x := by
  unfold decodeUnpadded
  rw [if_neg, a2b_b64]
  rw [List.any_eq_true]
  rintro ⟨c, hc, h⟩
  have := b64_ascii x c hc
  simp only [decide_eq_true_eq] at h
  exact absurd this (by simpa using h)

theorem hexValue_char (v : Nat) (h : v < 16) : hexValue (hexChar v) = some v := by
  have : ∀ v : Fin 16, hexValue (hexChar v) = some v.val := by decide +kernel
  exact this ⟨v, h⟩

/-- C109, names: what was quoted is unquoted to the same name, for all names. -/
theorem C109_quote (x : Data) : unquote (quote x) = x := by
  induction x with
  | nil => simp [quote, unquote]
  | cons c r ih =>
    have hc := c.toNat_lt
    rw [quote]
    split
    · rw [unquote, if_pos rfl]
      simp only [hexPair, hexValue_char _ (show c.toNat / 16 < 16 by omega), hexValue_char _ (show c.toNat % 16 < 16 by omega),
        List.drop_succ_cons, List.drop_zero, ih]
      rw [ofNat_eq c _ (by omega)]
    · next h =>
      have : c ≠ 37 := fun he => h (Or.inr (Or.inr (Or.inl he)))
      rw [unquote, if_neg this, ih]

theorem cut_append (pre n : Data) : cut pre (pre ++ n) = some n := by
  unfold cut
  rw [if_pos (by simp)]
  simp

theorem cut_some {pre k n : Data} (h : cut pre k = some n) : k = pre ++ n := by
  unfold cut at h
  split at h
  · next hp =>
    obtain ⟨t, rfl⟩ := List.isPrefixOf_iff_prefix.mp hp
    simpa using h
  · exact absurd h (by simp)

theorem fromSchily_get (l : List (Data × Data)) (acc : Dict Data Data) (n v : Data)
    (h : (fromSchily l acc).get? n = some v) : (schily ++ n, v) ∈ l ∨ acc.get? n = some v := by
  induction l generalizing acc with
  | nil => exact Or.inr h
  | cons p l ih =>
    obtain ⟨k, w⟩ := p
    rw [fromSchily] at h
    split at h
    · next name hc =>
      rcases ih _ h with h | h
      · exact Or.inl (List.mem_cons_of_mem _ h)
      · rw [Dict.get?_set] at h
        split at h
        · next he =>
          simp only [Option.some.injEq] at h
          subst h he
          rw [cut_some hc]
          exact Or.inl List.mem_cons_self
        · exact Or.inr h
    · rcases ih _ h with h | h
      · exact Or.inl (List.mem_cons_of_mem _ h)
      · exact Or.inr h

theorem fromSchily_has (l : List (Data × Data)) (acc : Dict Data Data) (n : Data)
    (h : (∃ v, (schily ++ n, v) ∈ l) ∨ (acc.get? n).isSome) : ((fromSchily l acc).get? n).isSome := by
  induction l generalizing acc with
  | nil => simpa [fromSchily] using h
  | cons p l ih =>
    obtain ⟨k, w⟩ := p
    rw [fromSchily]
    split
    · next name hc =>
      apply ih
      rcases h with ⟨v, h⟩ | h
      · rcases List.mem_cons.mp h with h | h
        · injection h with h1 h2
          rw [← h1, cut_append, Option.some.injEq] at hc
          right
          rw [Dict.get?_set, if_pos hc.symm]
          rfl
        · exact Or.inl ⟨v, h⟩
      · right
        rw [Dict.get?_set]
        split
        · rfl
        · exact h
    · next hc =>
      apply ih
      rcases h with ⟨v, h⟩ | h
      · rcases List.mem_cons.mp h with h | h
        · injection h with h1 h2
          rw [← h1, cut_append] at hc
          exact absurd hc (by simp)
        · exact Or.inl ⟨v, h⟩
      · exact Or.inr h

theorem fromLibarchive_get (attrs : Data → Option Data) (l : List (Data × Data)) (acc : Dict Data Data)
    (hacc : ∀ n v, acc.get? n = some v → attrs n = some v)
    (hl : ∀ k v, (libarchive ++ k, v) ∈ l → ∃ n x, k = quote n ∧ v = b64 x ∧ attrs n = some x) :
    ∃ r, fromLibarchive l acc = .ok r ∧ (∀ n v, r.get? n = some v → attrs n = some v) ∧
      (∀ n, ((∃ x, (libarchive ++ quote n, b64 x) ∈ l) ∨ (acc.get? n).isSome) → (r.get? n).isSome) := by
  induction l generalizing acc with
  | nil => exact ⟨acc, rfl, hacc, fun n h => by simpa using h⟩
  | cons p l ih =>
    obtain ⟨k, w⟩ := p
    have hl' : ∀ k v, (libarchive ++ k, v) ∈ l → ∃ n x, k = quote n ∧ v = b64 x ∧ attrs n = some x :=
      fun k v h => hl k v (List.mem_cons_of_mem _ h)
    rw [fromLibarchive]
    split
    · next name hc =>
      have hk := cut_some hc
      subst hk
      obtain ⟨n, x, rfl, rfl, ha⟩ := hl name w List.mem_cons_self
      rw [C109_base64, C109_quote]
      simp only
      obtain ⟨r, hr, h1, h2⟩ := ih (acc.set n x) (by
        intro m v hm
        rw [Dict.get?_set] at hm
        split at hm
        · next he => subst he; rw [ha, hm]
        · exact hacc m v hm) hl'
      refine ⟨r, hr, h1, ?_⟩
      intro m hm
      apply h2
      rcases hm with ⟨y, hm⟩ | hm
      · rcases List.mem_cons.mp hm with hm | hm
        · right
          injection hm with h3 h4
          have h5 : quote m = quote n := List.append_cancel_left h3
          have : m = n := by rw [← C109_quote m, h5, C109_quote]
          rw [Dict.get?_set, if_pos this.symm]
          rfl
        · exact Or.inl ⟨y, hm⟩
      · right
        rw [Dict.get?_set]
        split
        · rfl
        · exact hm
    · next hc =>
      obtain ⟨r, hr, h1, h2⟩ := ih acc hacc hl'
      refine ⟨r, hr, h1, ?_⟩
      intro m hm
      apply h2
      rcases hm with ⟨y, hm⟩ | hm
      · rcases List.mem_cons.mp hm with hm | hm
        · injection hm with h3 h4
          rw [← h3, cut_append] at hc
          exact absurd hc (by simp)
        · exact Or.inl ⟨y, hm⟩
      · exact Or.inr hm

/-- The beginnings of the two kinds of keys, as text. -/
def schilyKey : Data := "SCHILY.xattr.".toList.map (fun c => UInt8.ofNat c.toNat)
def libarchiveKey : Data := "LIBARCHIVE.xattr.".toList.map (fun c => UInt8.ofNat c.toNat)

theorem schily_eq : schilyKey = schily := by decide +kernel
theorem libarchive_eq : libarchiveKey = libarchive := by decide +kernel

/-- C109: if each attribute of a member is in its PAX headers in one of the two forms or in both, and these are the only
attributes there, then the attributes of the member are exactly these, whatever else is in the headers. -/
theorem C109_attributes (pax : Dict Data Data) (attrs : Data → Option Data) (hn : pax.keys.Nodup)
    (hS : ∀ n v, pax.get? (schilyKey ++ n) = some v → attrs n = some v)
    (hL : ∀ k v, pax.get? (libarchiveKey ++ k) = some v → ∃ n x, k = quote n ∧ v = b64 x ∧ attrs n = some x)
    (hC : ∀ n x, attrs n = some x → pax.get? (schilyKey ++ n) = some x ∨ pax.get? (libarchiveKey ++ quote n) = some (b64 x)) :
    ∃ r, xattrsOf pax = .ok r ∧ ∀ n, r.get? n = attrs n := by
  rw [schily_eq] at hS
  rw [libarchive_eq] at hL
  rw [schily_eq, libarchive_eq] at hC
  unfold xattrsOf
  have hacc : ∀ n v, (fromSchily pax []).get? n = some v → attrs n = some v := by
    intro n v h
    rcases fromSchily_get pax [] n v h with h | h
    · exact hS n v (Dict.get?_eq_some_of_mem pax hn h)
    · exact absurd h (by simp [Dict.get?])
  obtain ⟨r, hr, h1, h2⟩ := fromLibarchive_get attrs pax (fromSchily pax []) hacc (fun k v h =>
    hL k v (Dict.get?_eq_some_of_mem pax hn h))
  refine ⟨r, hr, fun n => ?_⟩
  cases ha : attrs n with
  | none =>
    cases hg : r.get? n with
    | none => rfl
    | some v => rw [h1 n v hg] at ha; exact absurd ha (by simp)
  | some x =>
    have : (r.get? n).isSome := by
      apply h2
      rcases hC n x ha with h | h
      · exact Or.inr (fromSchily_has pax [] n (Or.inl ⟨x, Dict.mem_of_get? pax h⟩))
      · exact Or.inl ⟨x, Dict.mem_of_get? pax h⟩
    obtain ⟨v, hv⟩ := Option.isSome_iff_exists.mp this
    rw [hv, ← ha, h1 n v hv]

/-- The attribute `user.a b` with the value 255 in both forms and another header meet the hypotheses. -/
example : ∃ r, xattrsOf [(schily ++ [97, 32, 98], [255]), ([112], [113]), (libarchive ++ quote [97, 32, 98], b64 [255])] = .ok r ∧
    ∀ n, r.get? n = if n = [97, 32, 98] then some [255] else none := by
  have hp : ∀ n m : Data, schily ++ n = libarchive ++ m → False := by
    intro n m h
    have := congrArg (fun l => l.head?) h
    have h1 : (schily ++ n).head? = some 83 := rfl
    have h2 : (libarchive ++ m).head? = some 76 := rfl
    simp only [h1, h2] at this
    exact absurd this (by decide)
  have hs : ∀ n : Data, ([112] : Data) ≠ schily ++ n := fun n h => absurd (congrArg List.head? h) (by
    rw [show (schily ++ n).head? = some 83 from rfl]; decide)
  have hl : ∀ n : Data, ([112] : Data) ≠ libarchive ++ n := fun n h => absurd (congrArg List.head? h) (by
    rw [show (libarchive ++ n).head? = some 76 from rfl]; decide)
  apply C109_attributes
  · decide +kernel
  · rw [schily_eq]
    intro n v h
    simp only [Dict.get?] at h
    split at h
    · next he =>
      rw [List.append_cancel_left he.symm, if_pos rfl]
      exact h
    · rw [if_neg (hs n), if_neg (fun he => hp _ _ he.symm)] at h
      exact absurd h (by simp)
  · rw [libarchive_eq]
    intro k v h
    simp only [Dict.get?] at h
    rw [if_neg (fun he => hp _ _ he), if_neg (hl k)] at h
    split at h
    · next he =>
      refine ⟨[97, 32, 98], [255], List.append_cancel_left he.symm, ?_, rfl⟩
      injection h with h
      exact h.symm
    · exact absurd h (by simp)
  · rw [schily_eq]
    intro n x h
    split at h
    · next he =>
      subst he
      left
      rw [← h]
      simp [Dict.get?]
    · exact absurd h (by simp)

/-- C109, all members: the rows of an archive with the offset of a member are the attributes of this member. -/
theorem C109_rows (ms : List (Nat × Dict Data Data)) (rows : List (Nat × Data × Data)) (h : indexRows ms = .ok rows) (o : Nat) (n v : Data) :
    (o, n, v) ∈ rows ↔ ∃ pax r, (o, pax) ∈ ms ∧ xattrsOf pax = .ok r ∧ (n, v) ∈ (show List (Data × Data) from r) := by
  induction ms generalizing rows with
  | nil =>
    simp only [indexRows, Except.ok.injEq] at h
    subst h
    simp
  | cons m ms ih =>
    obtain ⟨o', pax'⟩ := m
    rw [indexRows] at h
    unfold xattrRows at h
    cases hx : xattrsOf pax' with
    | error e => rw [hx] at h; cases h
    | ok r =>
      rw [hx] at h
      simp only [Except.map] at h
      cases hi : indexRows ms with
      | error e => rw [hi] at h; cases h
      | ok rest =>
        rw [hi] at h
        simp only [Except.ok.injEq] at h
        subst h
        rw [List.mem_append, ih rest hi, List.mem_map]
        constructor
        · rintro (⟨kv, hkv, he⟩ | ⟨pax, r', h1, h2⟩)
          · simp only [Prod.mk.injEq] at he
            obtain ⟨rfl, rfl, rfl⟩ := he
            exact ⟨pax', r, List.mem_cons_self, hx, hkv⟩
          · exact ⟨pax, r', List.mem_cons_of_mem _ h1, h2⟩
        · rintro ⟨pax, r', h1, h2, h3⟩
          rcases List.mem_cons.mp h1 with h1 | h1
          · simp only [Prod.mk.injEq] at h1
            obtain ⟨rfl, rfl⟩ := h1
            rw [hx] at h2
            cases h2
            exact .inl ⟨(n, v), h3, rfl⟩
          · exact .inr ⟨pax, r', h1, h2, h3⟩

example : indexRows [(0, [(schily ++ [97], [1])]), (512, [(schily ++ [97], [2])])] = .ok [(0, [97], [1]), (512, [97], [2])] := by decide +kernel

/-! ## C110: malformed attributes -/

/-- C110 as claimed: whatever is in the PAX headers of the members, the attributes of the archive are indexed. -/
def C110_statement : Prop :=
  ∀ ms : List (Nat × Dict Data Data), ∃ rows, indexRows ms = .ok rows

/-- C110 is violated: an attribute with the Base64 value `A` in one member makes indexing the whole archive fail. -/
theorem C110_violated : ¬ C110_statement := by
  intro h
  obtain ⟨rows, hr⟩ := h [(0, []), (512, [(libarchive ++ [97], [65])])]
  have : indexRows [(0, []), (512, [(libarchive ++ [97], [65])])] = .error .valueError := by decide +kernel
  rw [this] at hr
  exact absurd hr (by simp)

/-- A value of characters of the Base64 alphabet. -/
def Alphabetic (d : Data) : Prop := ∀ c ∈ d, (b64Value c).isSome = true

theorem b64Value_ascii (c : UInt8) (h : (b64Value c).isSome = true) : c < 128 ∧ c ≠ 61 := by
  have : ∀ c : Fin 256, (b64Value (UInt8.ofNat c)).isSome = true → UInt8.ofNat c < 128 ∧ UInt8.ofNat c ≠ 61 := by decide +kernel
  have h' := this ⟨c.toNat, c.toNat_lt⟩
  simp only [UInt8.ofNat_toNat] at h'
  exact h' h

theorem a2b_pads (n : Nat) : ∀ quad left, quad ≤ 3 →
    a2b quad left 0 (List.replicate n 61) =
      if quad = 0 then .ok [] else if quad = 2 ∧ 2 ≤ n ∨ quad = 3 ∧ 1 ≤ n then .ok [] else .error .valueError := by
  intro quad left hq
  have h01 : ∀ n quad, quad ≤ 1 → a2b quad left 0 (List.replicate n 61) = if quad = 0 then .ok [] else .error .valueError := by
    intro n quad hq
    induction n with
    | zero =>
      rw [List.replicate_zero, a2b]
      by_cases h : quad = 0 <;> simp [h]
    | succ n ih => rw [List.replicate_succ, a2b, if_pos rfl, if_neg (by omega), ih]
  match quad, hq with
  | 0, _ => rw [h01 n 0 (by omega)]; rfl
  | 1, _ => rw [h01 n 1 (by omega)]; simp
  | 2, _ =>
    match n with
    | 0 => rfl
    | 1 => rfl
    | n + 2 =>
      rw [List.replicate_succ, a2b, if_pos rfl, if_pos (by omega), if_neg (by omega), List.replicate_succ, a2b, if_pos rfl,
        if_pos (by omega), if_pos (by omega)]
      simp
  | 3, _ =>
    match n with
    | 0 => rfl
    | n + 1 =>
      rw [List.replicate_succ, a2b, if_pos rfl, if_pos (by omega), if_pos (by omega)]
      simp

theorem a2b_ok (d : Data) (h : Alphabetic d) (n : Nat) : ∀ quad left, quad ≤ 3 →
    ((∃ x, a2b quad left 0 (d ++ List.replicate n 61) = .ok x) ↔
      (quad + d.length) % 4 = 0 ∨ ((quad + d.length) % 4 = 2 ∧ 2 ≤ n) ∨ ((quad + d.length) % 4 = 3 ∧ 1 ≤ n)) := by
  induction d with
  | nil =>
    intro quad left hq
    rw [List.nil_append, a2b_pads n quad left hq, List.length_nil, Nat.add_zero, Nat.mod_eq_of_lt (by omega)]
    split
    · next h => simp [h]
    · split
      · next h h' => simp [h, h']
      · next h h' =>
        constructor
        · rintro ⟨x, hx⟩; exact absurd hx (by simp)
        · rintro (h1 | h1 | h1)
          · exact absurd h1 h
          · exact absurd (Or.inl h1) h'
          · exact absurd (Or.inr h1) h'
  | cons c d ih =>
    intro quad left hq
    have hc := h c List.mem_cons_self
    have ih := ih (fun x hx => h x (List.mem_cons_of_mem _ hx))
    obtain ⟨v, hv⟩ := Option.isSome_iff_exists.mp hc
    rw [List.cons_append, a2b, if_neg (b64Value_ascii c hc).2, hv]
    simp only
    have hm : ∀ (q l : Nat) (b : UInt8), q ≤ 3 → (quad + 1) % 4 = q →
        ((∃ x, (a2b q l 0 (d ++ List.replicate n 61)).map (b :: ·) = .ok x) ↔
          (quad + (c :: d).length) % 4 = 0 ∨ ((quad + (c :: d).length) % 4 = 2 ∧ 2 ≤ n) ∨ ((quad + (c :: d).length) % 4 = 3 ∧ 1 ≤ n)) := by
      intro q l b hq' he
      have : (quad + (c :: d).length) % 4 = (q + d.length) % 4 := by
        rw [List.length_cons]
        omega
      rw [this, ← ih q l hq']
      cases a2b q l 0 (d ++ List.replicate n 61) with
      | error e => simp [Except.map]
      | ok y => simp [Except.map]
    by_cases h0 : quad = 0
    · rw [if_pos h0, ih 1 v (by omega)]
      subst h0
      rw [List.length_cons, show 0 + (d.length + 1) = 1 + d.length by omega]
    · rw [if_neg h0]
      by_cases h1 : quad = 1
      · rw [if_pos h1]
        exact hm 2 _ _ (by omega) (by omega)
      · rw [if_neg h1]
        by_cases h2 : quad = 2
        · rw [if_pos h2]
          exact hm 3 _ _ (by omega) (by omega)
        · rw [if_neg h2]
          exact hm 0 _ _ (by omega) (by omega)

/-- Which values are accepted, among those of characters of the alphabet: all but those with one character more than a
multiple of four. -/
theorem C110_values (d : Data) (h : Alphabetic d) : (∃ x, decodeUnpadded d = .ok x) ↔ d.length % 4 ≠ 1 := by
  unfold decodeUnpadded
  rw [if_neg, a2b_ok d h _ 0 0 (by omega)]
  · omega
  · rw [List.any_eq_true]
    rintro ⟨c, hc, hx⟩
    have := (b64Value_ascii c (h c hc)).1
    simp only [decide_eq_true_eq] at hx
    exact absurd this (by simpa using hx)

theorem fromLibarchive_ok (l : List (Data × Data)) (acc : Dict Data Data)
    (h : ∀ k v, (libarchive ++ k, v) ∈ l → ∃ x, decodeUnpadded v = .ok x) : ∃ r, fromLibarchive l acc = .ok r := by
  induction l generalizing acc with
  | nil => exact ⟨acc, rfl⟩
  | cons p l ih =>
    obtain ⟨k, v⟩ := p
    have ih := fun acc => ih acc (fun k v hm => h k v (List.mem_cons_of_mem _ hm))
    rw [fromLibarchive]
    split
    · next name hc =>
      have hk := cut_some hc
      subst hk
      obtain ⟨x, hx⟩ := h name v List.mem_cons_self
      rw [hx]
      exact ih _
    · exact ih _

/-- C110 for archives whose Base64 values are made of the alphabet and do not have one character more than a multiple of
four: everything is indexed. Missing from the full claim: `C110_violated`. -/
theorem C110_indexed_partial (ms : List (Nat × Dict Data Data))
    (h : ∀ m ∈ ms, ∀ k v, (libarchive ++ k, v) ∈ (show List (Data × Data) from m.2) → Alphabetic v ∧ v.length % 4 ≠ 1) :
    ∃ rows, indexRows ms = .ok rows := by
  induction ms with
  | nil => exact ⟨[], rfl⟩
  | cons m ms ih =>
    obtain ⟨o, pax⟩ := m
    obtain ⟨rows, hr⟩ := ih (fun x hx => h x (List.mem_cons_of_mem _ hx))
    obtain ⟨r, hx⟩ := fromLibarchive_ok pax (fromSchily pax []) (fun k v hm => by
      obtain ⟨h1, h2⟩ := h (o, pax) List.mem_cons_self k v hm
      exact (C110_values v h1).mpr h2)
    rw [indexRows]
    unfold xattrRows xattrsOf
    rw [hx]
    simp only [Except.map, hr]
    exact ⟨_, rfl⟩

/-- The value `QQ` of one byte meets the hypothesis. -/
example : Alphabetic [81, 81] ∧ [81, 81].length % 4 ≠ 1 := by
  refine ⟨?_, by decide⟩
  intro c hc
  simp only [List.mem_cons, List.not_mem_nil, or_false, or_self] at hc
  subst hc
  decide

end Verif.Tar.Attributes
