import Verif.Tar.Offsets
import Verif.Tar.Header

/-!
# C108: the names in GNU incremental backups (core/ratarmountcore/mountsource/formats/tar.py:91-133, 153-215)

Old GNU headers keep two times where POSIX headers keep the prefix of the name, so Python's `tarfile` puts a time in
front of the name. `_fix_incremental_backup_name_prefixes` takes it away again. Names are bytes here: with the default
encoding, decoding and encoding them again (tar.py:169) is the identity.
-/

namespace Verif.Tar.Incremental

open Verif.Py Verif.Bin Verif.Tar.Offsets

/-- `fileObject.seek(o); fileObject.read(n)` (tar.py:96-106). -/
def readAt (d : Data) (o n : Nat) : Data := (d.drop o).take n

/-- `extract_prefix` (tar.py:96-98). -/
def extractPrefix (d : Data) (o : Nat) : Data := readAt d (o + 345) 155

/-- `extract_name` (tar.py:100-102). -/
def extractName (d : Data) (o : Nat) : Data := readAt d o 100

/-- `extract_size` (tar.py:104-106). -/
def extractSize (d : Data) (o : Nat) : Except PyErr Int :=
  match octSigned (strip isSpace (strip (· = 0) (readAt d (o + 124) 12))) with
  | some n => .ok n
  | none => .error .valueError

/-- `b"././@LongLink\0"` (tar.py:117). -/
def longLink : Data := [46, 47, 46, 47, 64, 76, 111, 110, 103, 76, 105, 110, 107, 0]

/-- `_get_tar_prefix` (tar.py:91-133): the raw prefix of the header at `o`, or of the header after it if that one is a
GNU long name or link. Errors give `None`. The position of the file is restored (tar.py:130-131). -/
def getTarPrefix (d : Data) (o : Nat) : Option Data :=
  if longLink.isPrefixOf (extractName d o) then
    match extractSize d o with
    | .ok size =>
      if (o : Int) + 512 + (size + 512 - 1).fdiv 512 * 512 + 345 < 0 then none
      else some (readAt d ((o : Int) + 512 + (size + 512 - 1).fdiv 512 * 512 + 345).toNat 155)
    | .error _ => none
  else some (extractPrefix d o)

/-- `tarInfo.name.split('/', 1)` for a name with a slash (tar.py:162-166). -/
def splitFirst (name : Data) : Option (Data × Data) :=
  if 47 ∈ name then some (name.takeWhile (· ≠ 47), (name.dropWhile (· ≠ 47)).drop 1) else none

/-- `_fix_incremental_backup_name_prefixes` (tar.py:153-191): the new name of the member whose first header is at `o`. -/
def fixName (d : Data) (o : Nat) (name : Data) : Data :=
  match splitFirst name with
  | none => name
  | some (pre, rest) =>
    match getTarPrefix d o with
    | none => name
    | some real => if real ≠ [] ∧ (pre ++ [0]).isPrefixOf real then rest else name

/-- A string field of a header: up to the first zero (Python library, `tarfile.nts`). -/
def nts (d : Data) : Data := d.takeWhile (· ≠ 0)

/-- The name that `tarfile` gives a member without a long name (Python library, `TarInfo.frombuf`): the prefix is put
in front, except for the GNU types `L`, `K` and `S`. Slashes at the end of folders are not modelled. -/
def tarName (pre name : Data) (type : UInt8) : Data :=
  if nts pre ≠ [] ∧ type ≠ 76 ∧ type ≠ 75 ∧ type ≠ 83 then nts pre ++ 47 :: nts name else nts name

/-- A member as `tarfile` returns it: the position of its first header, its type and its name. -/
structure Info where
  offset : Nat
  type : UInt8
  name : Data

/-- The first lines of `_process_tar_info` (tar.py:208-214): the name in the index and the flag from then on. -/
def processInfo (d : Data) (incremental : Bool) (i : Info) : Data × Bool :=
  let flag := incremental || i.type = 68
  (if flag then fixName d i.offset i.name else i.name, flag)

/-- The names of the members of an archive (tar.py:420-459) with the flag from the command line or the check. -/
def namesOf (d : Data) : Bool → List Info → List Data
  | _, [] => []
  | flag, i :: is => (processInfo d flag i).1 :: namesOf d (processInfo d flag i).2 is

/-! ## What is claimed -/

/-- The name field of the header at `o`. -/
def nameField (d : Data) (o : Nat) : Data := (d.drop o).take 100

/-- The prefix field of the header at `o`. -/
def prefixField (d : Data) (o : Nat) : Data := (d.drop (o + 345)).take 155

/-- The name `././@LongLink` of the headers of GNU long names, with a zero. -/
def longMark : Data := "././@LongLink\x00".toList.map (fun c => UInt8.ofNat c.toNat)

theorem nameField_eq : nameField = extractName := rfl

theorem prefixField_eq : prefixField = extractPrefix := rfl

theorem longMark_eq : longMark = longLink := by decide

/-- An octal number as in the time fields of old GNU headers. -/
def IsTime (ts : Data) : Prop := ts ≠ [] ∧ ∀ b ∈ ts, 48 ≤ b ∧ b ≤ 55

/-- C108 as claimed: in an archive taken for an incremental backup, a member with the prefix field `pre` and the name
field `name` in its header gets its own name. The prefix is dropped if it is a time, and kept if it is a path. -/
def C108_statement : Prop :=
  ∀ (d : Data) (o : Nat) (type : UInt8), type ≠ 76 → type ≠ 75 → type ≠ 83 → nameField d o ≠ [] →
    longMark.isPrefixOf (nameField d o) = false →
    (IsTime (nts (prefixField d o)) → fixName d o (tarName (prefixField d o) (nameField d o) type) = nts (nameField d o)) ∧
    (¬ IsTime (nts (prefixField d o)) → fixName d o (tarName (prefixField d o) (nameField d o) type) =
      tarName (prefixField d o) (nameField d o) type)

theorem takeWhile_append_stop (p : UInt8 → Bool) (a : Data) (b : UInt8) (r : Data) (h : ∀ x ∈ a, p x = true) (hb : p b = false) :
    (a ++ b :: r).takeWhile p = a ∧ (a ++ b :: r).dropWhile p = b :: r := by
  induction a with
  | nil => simp [hb]
  | cons x a ih =>
    have := ih (fun y hy => h y (List.mem_cons_of_mem _ hy))
    rw [List.cons_append, List.takeWhile_cons, List.dropWhile_cons, h x List.mem_cons_self, if_pos rfl, if_pos rfl, this.1, this.2]
    exact ⟨rfl, rfl⟩

theorem splitFirst_eq (a r : Data) (h : 47 ∉ a) : splitFirst (a ++ 47 :: r) = some (a, r) := by
  have ha : ∀ x ∈ a, decide (x ≠ 47) = true := fun x hx => by
    have : x ≠ 47 := fun he => h (he ▸ hx)
    simpa using this
  unfold splitFirst
  have := takeWhile_append_stop (fun x => decide (x ≠ 47)) a 47 r ha (by simp)
  rw [if_pos (by simp), this.1, this.2]
  rfl

theorem splitFirst_none (a : Data) (h : 47 ∉ a) : splitFirst a = none := by
  unfold splitFirst
  rw [if_neg h]

theorem nts_no_zero (d : Data) : 0 ∉ nts d := by
  intro h
  have : ∀ x ∈ nts d, decide (x ≠ 0) = true := by
    intro x hx
    have := List.all_takeWhile (p := fun x : UInt8 => decide (x ≠ 0)) (l := d)
    exact List.all_eq_true.mp this x hx
  simpa using this 0 h

theorem nts_prefix (d : Data) : nts d = d ∨ nts d ++ [0] <+: d := by
  unfold nts
  induction d with
  | nil => left; rfl
  | cons x d ih =>
    by_cases hx : x = 0
    · right
      subst hx
      simp
    · rw [List.takeWhile_cons, if_pos (by simpa using hx)]
      rcases ih with h | h
      · left; rw [h]
      · right
        rw [List.cons_append]
        exact (List.prefix_cons_inj x).mpr h

/-- A name without zeros, followed by a zero, is a prefix of the field only if it is the string in the field. -/
theorem prefix_nts (a f : Data) (ha : 0 ∉ a) (h : (a ++ [0]).isPrefixOf f = true) : nts f = a := by
  rw [List.isPrefixOf_iff_prefix] at h
  obtain ⟨t, rfl⟩ := h
  unfold nts
  rw [List.append_assoc, List.singleton_append]
  exact (takeWhile_append_stop (fun x => decide (x ≠ 0)) a 0 t (fun x hx => by
    have : x ≠ 0 := fun he => ha (he ▸ hx)
    simpa using this) (by simp)).1

/-- C108 for members with a time in their prefix, ended by a zero: the time is removed, whatever their names. -/
theorem C108_time_partial (d : Data) (o : Nat) (type : UInt8) (ts : Data) (h1 : type ≠ 76) (h2 : type ≠ 75) (h3 : type ≠ 83)
    (hl : longMark.isPrefixOf (nameField d o) = false) (ht : IsTime ts) (hp : ts ++ [0] <+: prefixField d o) :
    fixName d o (tarName (prefixField d o) (nameField d o) type) = nts (nameField d o) := by
  simp only [nameField_eq, prefixField_eq, longMark_eq] at *
  have hz : 0 ∉ ts := fun h => absurd (ht.2 0 h).1 (by decide)
  have hs : 47 ∉ ts := fun h => absurd (ht.2 47 h).1 (by decide)
  have hp' := List.isPrefixOf_iff_prefix.mpr hp
  have hn := prefix_nts ts _ hz hp'
  unfold tarName
  rw [hn, if_pos ⟨ht.1, h1, h2, h3⟩]
  unfold fixName
  rw [splitFirst_eq ts _ hs]
  unfold getTarPrefix
  simp only [hl, Bool.false_eq_true, if_false]
  rw [if_pos]
  refine ⟨?_, hp'⟩
  intro he
  rw [he] at hp
  simp at hp

/-- C108 for members with an empty prefix: their names are not changed. -/
theorem C108_empty_partial (d : Data) (o : Nat) (name : Data) (hl : longMark.isPrefixOf (nameField d o) = false)
    (hp : nts (prefixField d o) = []) (hn : name.head? ≠ some 47) (hz : 0 ∉ name) : fixName d o name = name := by
  simp only [nameField_eq, prefixField_eq, longMark_eq] at *
  unfold fixName
  by_cases hs : 47 ∈ name
  · obtain ⟨a, r, ha, rfl⟩ : ∃ a r, 47 ∉ a ∧ name = a ++ 47 :: r := by
      refine ⟨name.takeWhile (· ≠ 47), (name.dropWhile (· ≠ 47)).drop 1, ?_, ?_⟩
      · intro h
        have := List.all_eq_true.mp (List.all_takeWhile (p := fun x : UInt8 => decide (x ≠ 47)) (l := name)) 47 h
        simp at this
      · clear hn hz hp
        induction name with
        | nil => simp at hs
        | cons x name ih =>
          by_cases hx : x = 47
          · subst hx; simp
          · rw [List.takeWhile_cons, List.dropWhile_cons, if_pos (by simpa using hx), if_pos (by simpa using hx), List.cons_append,
              ← ih (by simpa [Ne.symm hx] using hs)]
    rw [splitFirst_eq a r ha]
    unfold getTarPrefix
    simp only [hl, Bool.false_eq_true, if_false]
    rw [if_neg]
    rintro ⟨-, h⟩
    have := prefix_nts a _ (fun h => hz (by simp [h])) h
    rw [hp] at this
    subst this
    simp at hn
  · rw [splitFirst_none name hs]

/-- C108 for members with a path of several folders in their prefix: their names are not changed. -/
theorem C108_path_partial (d : Data) (o : Nat) (type : UInt8) (hl : longMark.isPrefixOf (nameField d o) = false)
    (hp : 47 ∈ nts (prefixField d o)) (h0 : (nts (prefixField d o)).head? ≠ some 47) (h1 : type ≠ 76) (h2 : type ≠ 75)
    (h3 : type ≠ 83) :
    fixName d o (tarName (prefixField d o) (nameField d o) type) = tarName (prefixField d o) (nameField d o) type := by
  simp only [nameField_eq, prefixField_eq, longMark_eq] at *
  have hne : nts (extractPrefix d o) ≠ [] := by
    intro h
    rw [h] at hp
    simp at hp
  unfold tarName
  rw [if_pos ⟨hne, h1, h2, h3⟩]
  generalize hf : nts (extractPrefix d o) = f at *
  obtain ⟨a, r, ha, rfl⟩ : ∃ a r, 47 ∉ a ∧ f = a ++ 47 :: r := by
    clear hf h0 hne
    induction f with
    | nil => simp at hp
    | cons x f ih =>
      by_cases hx : x = 47
      · subst hx; exact ⟨[], f, by simp, rfl⟩
      · obtain ⟨a, r, ha, rfl⟩ := ih (by simpa [Ne.symm hx] using hp)
        exact ⟨x :: a, r, by simp [ha, Ne.symm hx], rfl⟩
  unfold fixName
  rw [List.append_assoc, List.cons_append, splitFirst_eq a _ ha]
  unfold getTarPrefix
  simp only [hl, Bool.false_eq_true, if_false]
  rw [if_neg]
  rintro ⟨-, h⟩
  have hz : 0 ∉ a := fun h => nts_no_zero (extractPrefix d o) (by rw [hf]; simp [h])
  have := prefix_nts a _ hz h
  rw [hf] at this
  have := congrArg List.length this
  simp at this

theorem strip_zero (l : Data) (h : ∀ b ∈ l, b ≠ 0) (hne : l ≠ []) : strip (fun x => decide (x = 0)) (l ++ [0]) = l := by
  have hd : ∀ (l r : Data), (∀ b ∈ l, b ≠ 0) → l ≠ [] → (l ++ r).dropWhile (fun x => decide (x = 0)) = l ++ r := by
    intro l r hl hne
    cases l with
    | nil => exact absurd rfl hne
    | cons b l => rw [List.cons_append, List.dropWhile_cons, if_neg (by simpa using hl b List.mem_cons_self)]
  unfold strip
  rw [hd l [0] h hne, List.reverse_append, List.reverse_singleton, List.singleton_append, List.dropWhile_cons, if_pos (by decide)]
  have := hd l.reverse [] (fun b hb => h b (List.mem_reverse.mp hb)) (by simpa using hne)
  rw [List.append_nil] at this
  rw [this, List.reverse_reverse]

theorem extractSize_octs (d : Data) (o size : Nat) (h8 : size < 8 ^ 11) (hs : (d.drop (o + 124)).take 12 = Header.octs 11 size ++ [0]) :
    extractSize d o = .ok (size : Int) := by
  have hval : ∀ b ∈ Header.octs 11 size, b ≠ 0 ∧ isSpace b = false := by
    intro b hb
    obtain ⟨v, hv, rfl⟩ := Header.octs_digits 11 size b hb
    have : v = 0 ∨ v = 1 ∨ v = 2 ∨ v = 3 ∨ v = 4 ∨ v = 5 ∨ v = 6 ∨ v = 7 := by omega
    rcases this with rfl | rfl | rfl | rfl | rfl | rfl | rfl | rfl <;> decide
  have hne : Header.octs 11 size ≠ [] := by
    intro h0
    have := Header.octs_length 11 size
    rw [h0] at this
    simp at this
  have hr : readAt d (o + 124) 12 = Header.octs 11 size ++ [0] := hs
  unfold extractSize
  rw [hr, strip_zero _ (fun b hb => (hval b hb).1) hne, Header.strip_none _ _ (fun b hb => (hval b hb).2),
    Header.octSigned_octs 11 size h8 (by decide)]

/-- C108 for members behind a GNU long link: the prefix of the header after it counts. A time there is removed from the
name, and a name that begins with something else is not changed. -/
theorem C108_long_partial (d : Data) (o size : Nat) (hl : longMark.isPrefixOf (nameField d o) = true)
    (h8 : size < 8 ^ 11)
    (hs : (d.drop (o + 124)).take 12 = Header.octs 11 size ++ [0]) (ts : Data) (ht : IsTime ts)
    (hp : ts ++ [0] <+: prefixField d (o + 512 + (size + 511) / 512 * 512)) :
    (∀ name, fixName d o (ts ++ 47 :: name) = name) ∧
    (∀ a name, 47 ∉ a → 0 ∉ a → a ≠ ts → fixName d o (a ++ 47 :: name) = a ++ 47 :: name) := by
  have hs := extractSize_octs d o size h8 hs
  simp only [nameField_eq, prefixField_eq, longMark_eq] at *
  have hz : 0 ∉ ts := fun h => absurd (ht.2 0 h).1 (by decide)
  have hs' : 47 ∉ ts := fun h => absurd (ht.2 47 h).1 (by decide)
  have hp' := List.isPrefixOf_iff_prefix.mpr hp
  have hg : getTarPrefix d o = some (extractPrefix d (o + 512 + (size + 511) / 512 * 512)) := by
    unfold getTarPrefix
    rw [if_pos hl, hs]
    simp only
    have he : ((o : Int) + 512 + (size + 512 - 1 : Int).fdiv 512 * 512 + 345) =
        ((o + 512 + (size + 511) / 512 * 512 + 345 : Nat) : Int) := by
      rw [Int.fdiv_eq_ediv_of_nonneg _ (by omega)]
      omega
    rw [he, if_neg (by omega)]
    rfl
  constructor
  · intro name
    unfold fixName
    rw [splitFirst_eq ts _ hs', hg]
    simp only
    rw [if_pos]
    refine ⟨?_, hp'⟩
    intro he
    rw [he] at hp
    simp at hp
  · intro a name ha ha0 hne
    unfold fixName
    rw [splitFirst_eq a _ ha, hg]
    simp only
    rw [if_neg]
    rintro ⟨-, h⟩
    exact hne ((prefix_nts a _ ha0 h).symm.trans (prefix_nts ts _ hz hp'))

/-- A POSIX header of the file `usr/a`, with the prefix `usr` and the name `a`. -/
def posixHeader : Data :=
  [97] ++ List.replicate 155 0 ++ [48] ++ List.replicate 188 0 ++ [117, 115, 114] ++ List.replicate 164 0

/-- C108 is violated: the file `usr/a` becomes `a` in an archive that is taken for a backup. The prefix is one folder
and not a time, but it is not looked at whether it is one. -/
theorem C108_violated : ¬ C108_statement := by
  intro h
  have h1 := (h posixHeader 0 48 (by decide) (by decide) (by decide) (by decide +kernel) (by decide +kernel)).2 (by
    have : nts (prefixField posixHeader 0) = [117, 115, 114] := by decide +kernel
    rw [this]
    rintro ⟨-, ht⟩
    exact absurd (ht 117 (by simp)).2 (by decide))
  have h2 : fixName posixHeader 0 (tarName (prefixField posixHeader 0) (nameField posixHeader 0) 48) = [97] := by decide +kernel
  have h3 : tarName (prefixField posixHeader 0) (nameField posixHeader 0) 48 = [117, 115, 114, 47, 97] := by decide +kernel
  rw [h2, h3] at h1
  exact absurd h1 (by decide)

/-- A member with a time in its prefix: `13666753432`, the name `a` and the type of a folder of a backup. -/
def timeHeader : Data :=
  [97] ++ List.replicate 155 0 ++ [68] ++ List.replicate 188 0 ++ [49, 51, 54, 54, 54, 55, 53, 51, 52, 51, 50] ++ List.replicate 156 0

/-- The hypotheses are met by it. -/
example : fixName timeHeader 0 (tarName (prefixField timeHeader 0) (nameField timeHeader 0) 68) = [97] := by
  rw [C108_time_partial timeHeader 0 68 [49, 51, 54, 54, 54, 55, 53, 51, 52, 51, 50] (by decide) (by decide) (by decide)
    (by decide +kernel) ⟨by decide, by decide⟩ (List.isPrefixOf_iff_prefix.mp (by decide +kernel))]
  decide +kernel

/-- A GNU long link of one block before it. -/
def longHeader : Data :=
  longMark ++ List.replicate 110 0 ++ [48, 48, 48, 48, 48, 48, 48, 48, 49, 52, 52] ++ List.replicate 377 0 ++ List.replicate 512 98 ++ timeHeader

/-- The hypotheses are met by a member behind a long link, and by files with a path or nothing in the prefix. -/
example : longMark.isPrefixOf (nameField longHeader 0) = true ∧ (longHeader.drop (0 + 124)).take 12 = Header.octs 11 100 ++ [0] ∧
    prefixField longHeader (0 + 512 + (100 + 511) / 512 * 512) = prefixField timeHeader 0 := by decide +kernel

example : nts (prefixField (List.replicate 345 0 ++ [97, 47, 98] ++ List.replicate 164 0) 0) = [97, 47, 98] ∧
    nts (prefixField (List.replicate 512 0) 0) = [] := by decide +kernel

/-- C108 for the whole archive: with the flag set from the beginning, by the check or by the user, every member is
fixed. -/
theorem C108_all (d : Data) (is : List Info) : namesOf d true is = is.map (fun i => fixName d i.offset i.name) := by
  induction is with
  | nil => rfl
  | cons i is ih => simp [namesOf, processInfo, ih]

/-- C108 for the whole archive without the flag: members are fixed from the first folder of a backup on, not before. -/
theorem C108_from_first (d : Data) (is js : List Info) (i : Info) (h : ∀ x ∈ is, x.type ≠ 68) (hi : i.type = 68) :
    namesOf d false (is ++ i :: js) =
      is.map (·.name) ++ (i :: js).map (fun i => fixName d i.offset i.name) := by
  induction is with
  | nil => simp [namesOf, processInfo, hi, C108_all]
  | cons x is ih =>
    have hx := h x List.mem_cons_self
    have := ih (fun y hy => h y (List.mem_cons_of_mem _ hy))
    simp [namesOf, processInfo, hx, this]

/-- Ordinary archives are left alone. -/
theorem C108_ordinary (d : Data) (is : List Info) (h : ∀ x ∈ is, x.type ≠ 68) : namesOf d false is = is.map (·.name) := by
  induction is with
  | nil => rfl
  | cons x is ih =>
    have hx := h x List.mem_cons_self
    simp [namesOf, processInfo, hx, ih (fun y hy => h y (List.mem_cons_of_mem _ hy))]

end Verif.Tar.Incremental
